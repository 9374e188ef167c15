import Verif.Props.Commands
/-!
# Checkout and clone (C29, C30, C33, C34)
-/
set_option autoImplicit false
namespace Verif
open M TS Json

section
variable {E : Env} {f : Faults}

theorem path_mem_anc {a : ATree} {u : UID} {ls : List UID} (h : a.Path u ls) : ∀ v ∈ ls, a.Anc v u := by
  induction h with
  | root h1 _ => intro v hv; rw [List.mem_singleton] at hv; subst hv; exact .refl h1
  | step h1 h2 _ ih =>
    intro v hv
    rcases List.mem_cons.1 hv with rfl | hv
    · exact .refl h1
    · exact .step h1 h2 (ih v hv)

theorem anc_shorter {a : ATree} {h u : UID} (ha : a.Anc h u) {lh lu : List UID} (h1 : a.Path h lh) (h2 : a.Path u lu) : lh.length ≤ lu.length := by
  induction ha generalizing lu with
  | refl _ => rw [Ws.path_unique h1 h2]; exact Nat.le_refl _
  | step e1 e2 _ ih =>
    cases h2 with
    | root e3 e4 => rw [e1] at e3; cases e3; rw [e2] at e4; cases e4
    | step e3 e4 e5 =>
      rw [e1] at e3; cases e3; rw [e2] at e4; cases e4
      exact Nat.le_succ_of_le (ih e5)

/-! ## C34 -/

/-- **C34.** After a clone the new workspace has the last commit of the source as its last commit too and shows exactly the
files of that commit. The source opens as before and shows what it showed. -/
theorem C34_clone {d d' : Disk} (hd : Reachable E d) {cwd source cwd2 path2 : Str} (hout : E.Outside (Path.abs cwd source)) {w : OpenWs}
    (hg : Gets E d cwd source w) {u p : UID} (hh : w.ws.HeadAt w.tree u p) (hout2 : E.Outside (Path.abs cwd2 path2)) {w' : OpenWs}
    (he : Exec E f (cloneCmd E cwd source (Path.abs cwd2 path2)) d (.ok w') d') :
    ∃ w2 u2, Gets E d' cwd2 path2 w2 ∧ w2.ws.HeadAt w2.tree u2 p ∧ w2.spaceID = w.spaceID ∧ d'.Mounted w2 ∧
      (∃ ls, w.tree.abs.Path p ls ∧ d'.lists w2 = files (ls.map d.content)) ∧
      (Path.abs cwd2 path2 ≠ Path.abs cwd source → ∃ w3, Gets E d' cwd source w3 ∧ SameWs w w3 ∧ w3.ws.HeadAt w3.tree u p) ∧
      d'.lists w = d.lists w := by
  obtain ⟨g, hs⟩ := steady_reachable hd
  obtain ⟨T, hF⟩ := gets_found hs hout hg hh
  obtain ⟨u2, ls, g', w2, h1, h2, h2', h3, h4, _, h5, h6, h7, h8, h9⟩ := after_clone hs hF hout2 he
  have hst := path_stored hF.opens h3
  have hn : w.mount.id.base32 ≠ w2.mount.id.base32 := fun e => hF.mdir (e ▸ h9.newMdir)
  obtain ⟨o1, o2, o3⟩ := h9.others _ hn (fun x => x)
  refine ⟨w2, u2, gets_of_opens h4, h4.head, h5, by rw [Disk.Mounted, h9.mnt]; simp, ⟨ls, h3, lists_fresh h9 hst⟩, fun hne => ?_, ?_⟩
  · obtain ⟨w3, a1, a2, a3, _, a4, _⟩ := others_open hs h1 h2 h2' hF (h9.user _ (Ne.symm hne)) o2
    exact ⟨w3, gets_of_opens a1, ⟨a2, a4, a3⟩, a1.head⟩
  · funext q
    simp only [Disk.lists, Disk.shows, o1]
    cases hm : d.mnt w.mount.id.base32 with
    | none => simp only [o3]
    | some m =>
      obtain ⟨e1, e2⟩ := mnt_of_found hs hF hm
      have hc : ∀ v ∈ m.upper :: m.lowers, d'.content v = d.content v := by
        intro v hv
        refine content_upd h9.layer ?_
        rintro rfl
        have : d.HasDiff v := by
          rcases List.mem_cons.1 hv with rfl | hv
          · rw [e1]
            obtain ⟨_, n, hn, _⟩ := hh
            exact hF.opens.stored _ ⟨n, hn⟩
          · exact path_stored hF.opens e2 v hv
        obtain ⟨c, hc⟩ := this
        rw [h9.newLayer] at hc; cases hc
      simp only [List.map_congr_left hc]

/-! ## C33 -/

/-- **C33.** A workspace is committed. Later - after any commands, writes and restarts - a workspace of the same space checks
out that commit under any name. Then it shows exactly the files that were there when the commit was made, provided that no
layer under the commit was at that time the working layer of some workspace. -/
theorem C33_checkout_restores {d0 d1 d2 d3 : Disk} (hd : Reachable E d0) {cwd : Str} (hout : E.Outside (Path.abs cwd (lit "."))) {w : OpenWs}
    (hg : Gets E d0 cwd (lit ".") w) (hm : d0.Mounted w) {u p : UID} (hh : w.ws.HeadAt w.tree u p) {ci : CommitInfo} {r : OpenWs × OpenWs}
    (hbase : ∀ v, w.tree.abs.Anc v p → ¬ Head E d0 v)
    {f1 f2 f3 : Faults} (he : Exec E f1 (commitCmd E cwd ci) d0 (.ok r) d1) (hio : f2.io = false) (hp : Past E f2 d1 d2)
    {cwd' : Str} (hout' : E.Outside (Path.abs cwd' (lit "."))) {w' : OpenWs} (hg' : Gets E d2 cwd' (lit ".") w') (hsp : w'.spaceID = w.spaceID)
    {u' p' : UID} (hh' : w'.ws.HeadAt w'.tree u' p') {key : Str} {kt : KeyType} (hres : Ws.Resolves w'.tree.abs w'.ws.id p' key u kt)
    {r' : OpenWs × OpenWs} (he' : Exec E f3 (checkoutCmd E cwd' key) d2 (.ok r') d3) :
    ∃ w3 u3, Gets E d3 cwd' (lit ".") w3 ∧ w3.ws.HeadAt w3.tree u3 u ∧ d3.Mounted w3 ∧ d3.lists w3 = d0.lists w := by
  obtain ⟨g, hs⟩ := steady_reachable hd
  obtain ⟨T, hF⟩ := gets_found hs hout hg hh
  obtain ⟨_, _, u2, ls, g1, w2, s1, k1, _, h3, h4, h5, h6, h7, h8, h9, h10, h11⟩ := after_commit hs hF he
  obtain ⟨ls0, hp0, hl0⟩ := lists_found hs hF hm
  have hls : ls = u :: ls0 := by
    obtain ⟨_, n, hn, hpp⟩ := hh
    exact Ws.path_unique h3 (.step hn hpp hp0)
  subst hls
  obtain ⟨g2, s2, k2⟩ := steady_past hio s1 hp
  obtain ⟨T', hF'⟩ := gets_found s2 hout' hg' hh'
  obtain ⟨_, v, kt', u3, ls3, g3, w3, b1, b2, _, _, b3, b4, b5, b6, b7, b8, b9, b10⟩ := after_checkout s2 hF' he'
  obtain ⟨rfl, rfl⟩ := Ws.resolves_unique b1 hres
  have hst := path_stored hF.opens h3
  -- the path of the commit is the same in the later tree
  obtain ⟨T1, c1, c0⟩ := k1.trees _ T hF.tree
  obtain ⟨T2, c2, c3⟩ := k2.trees _ T1 c1
  have hdir : w'.spaceDir = w.spaceDir := by rw [hF'.opens.dir, hF.opens.dir, hsp]
  have hT : T' = T2 := by have := hF'.tree; rw [hdir, c2] at this; exact (Option.some.inj this).symm
  subst hT
  have hpath : ls3 = v :: ls0 :=
    Ws.path_unique (comesBack_path hF'.back b3) (extends_path c3 (extends_path c0 (comesBack_path hF.back h3)))
  subst hpath
  have key : ∀ x ∈ v :: ls0, d2.content x = d0.content x := by
    intro x hx
    have hx0 := hst x hx
    have hl1 : d1.layer x = d0.layer x := by
      rw [h10.layer]
      refine upd_ne _ _ ?_
      rintro rfl
      obtain ⟨c, hc⟩ := hx0
      rw [h10.newLayer] at hc; cases hc
    have hnh : ¬ Head E d1 x := by
      rcases List.mem_cons.1 hx with rfl | hx
      · exact h11
      · exact fun hh1 => hbase x (path_mem_anc hp0 x hx) (k1.heads x hh1 hx0)
    simp only [Disk.content, k2.layer x (k1.diff x hx0) hnh, hl1]
  refine ⟨w3, u3, gets_of_opens b4, b4.head, by rw [Disk.Mounted, b10.mnt]; simp, ?_⟩
  rw [lists_fresh b10 (path_stored hF'.opens b3), hl0, List.map_congr_left key]

end
end Verif
