import Verif.Props.WholePast
import Verif.Props.LogWorld
import Verif.Props.Live
/-!
# Work that was not committed (C92)

A checkout leaves the working layer of the workspace and goes on with a new one. What was not committed is no longer shown.
-/
set_option autoImplicit false
namespace Verif
open M TS Json

section
variable {E : Env} {f : Faults}

/-- A layer that is under no mount as its upper layer is never written again. -/
theorem layer_rests {d d' : Disk} {g : Str → Option TS} (h : Steady E d g) {u : UID} (hu : d.HasDiff u) (hn : ∀ n m, d.mnt n = some m → m.upper ≠ u)
    (hp : Past E f d d') : d'.layer u = d.layer u :=
  C32_idle_frozen (idle_steady h) (.refl _) (fun _ => rfl) hu hn (apart_steps (apart_past hp))

/-- After a finished checkout the layer that was the working layer is none any more. -/
theorem checkout_leaves {d d' : Disk} {g g' : Str → Option TS} (h : Steady E d g) (h' : Steady E d' g') {cwd path path' n : Str} {w : OpenWs} {u p u' : UID} {T : TS}
    {ls : List UID} (hF : Found E d g cwd path w u p T) (hf : Fresh E d d' n (· = w.mount.id.base32) u' ls path') : ¬ Head E d' u := by
  rintro ⟨k, r, h1, rfl⟩
  by_cases hk : k = w.mount.id.base32
  · rw [(hf.gone k hk).2.1] at h1; cases h1
  · by_cases hn : k = n
    · obtain ⟨r', e1, e2, _⟩ := h'.mnt n _ hf.mnt
      subst hn
      rw [h1, Option.some.injEq] at e1
      have hu : u' = r.head := e2.trans (rec_bytes_inj e1).2.2.2.1.symm
      obtain ⟨c, hc⟩ := head_stored h (found_head h hF)
      rw [← hu, hf.newLayer] at hc; cases hc
    · rw [(hf.others k hn hk).2.1] at h1
      obtain ⟨r0, r1, _, _, _, r5, _⟩ := rec_of_opens h hF.opens
      exact hk (h.heads k _ r r0 h1 r1 r5.symm)

/-- Checking out a node whose layers rest shows what they had when they came to rest. -/
theorem shows_again {d1 d2 d3 : Disk} {g1 : Str → Option TS} (s1 : Steady E d1 g1) {n : Str} {T : TS} (hT : g1 n = some T) {u : UID} {ls : List UID}
    (hpath : T.abs.Path u ls) (hrest : ∀ v ∈ ls, d1.HasDiff v ∧ ∀ k m, d1.mnt k = some m → m.upper ≠ v) {f2 f3 : Faults} (hio : f2.io = false)
    (hp : Past E f2 d1 d2) {cwd : Str} (hout : E.Outside (Path.abs cwd (lit "."))) {w : OpenWs} (hg : Gets E d2 cwd (lit ".") w) (hsp : w.spaceDir = n)
    {u' p' : UID} (hh : w.ws.HeadAt w.tree u' p') {key : Str} {kt : KeyType} (hres : Ws.Resolves w.tree.abs w.ws.id p' key u kt)
    {r : OpenWs × OpenWs} (he : Exec E f3 (checkoutCmd E cwd key) d2 (.ok r) d3) :
    ∃ w3 u3, Gets E d3 cwd (lit ".") w3 ∧ w3.ws.HeadAt w3.tree u3 u ∧ d3.Mounted w3 ∧ d3.lists w3 = files (ls.map d1.content) := by
  obtain ⟨g2, s2, k2⟩ := steady_past hio s1 hp
  obtain ⟨T', hF'⟩ := gets_found s2 hout hg hh
  obtain ⟨_, v, kt', u3, ls3, g3, w3, b1, b2, _, _, b3, b4, b5, b6, b7, b8, b9, b10⟩ := after_checkout s2 hF' he
  obtain ⟨rfl, rfl⟩ := Ws.resolves_unique b1 hres
  obtain ⟨T2, c2, c3⟩ := k2.trees _ T hT
  have hT2 : T' = T2 := by have := hF'.tree; rw [hsp, c2] at this; exact (Option.some.inj this).symm
  subst hT2
  obtain rfl : ls3 = ls := Ws.path_unique (comesBack_path hF'.back b3) (extends_path c3 hpath)
  refine ⟨w3, u3, gets_of_opens b4, b4.head, by rw [Disk.Mounted, b10.mnt]; simp, ?_⟩
  rw [lists_fresh b10 (path_stored hF'.opens b3)]
  congr 1
  refine List.map_congr_left fun x hx => ?_
  obtain ⟨e1, e2⟩ := hrest x hx
  simp only [Disk.content, layer_rests s1 e1 e2 hp]

/-- A checkout of something that is there works. -/
theorem checkout_goes {d d' : Disk} {g : Str → Option TS} (hs : Steady E d g) {cwd key : Str} (hk : PlainKey key) {w : OpenWs} {u p : UID} {T : TS}
    (hF : Found E d g cwd (lit ".") w u p T) {v : UID} {kt : KeyType} (hR : Ws.Resolves w.tree.abs w.ws.id p key v kt)
    (hfit : ∀ ls, w.tree.abs.Path v ls → E.Fits ls.length)
    (hlink : ∃ n m c, d.user w.ws.path = .link (E.mountPath n) ∧ d.mdir n = some m ∧ m.merged = some c)
    {r : Res CErr (OpenWs × OpenWs)} (he : Exec E Faults.none (checkoutCmd E cwd key) d r d') : ∃ x, r = .ok x := by
  have hp := wpm_exec (checkoutCmd_wp hF.opens hk hF.mdir) he
  cases r with
  | ok x => exact ⟨x, rfl⟩
  | err e =>
    exfalso
    cases hee : e.early with
    | true =>
      rcases (hp.1 hee).2 with h | h
      · exact h ⟨rfl, rfl, hs.tracked⟩
      · exact h _ _ hR
    | false =>
      obtain ⟨_, v', kt', hR', h | ⟨w', u', ls', _, hP, ⟨_, h | h⟩ | ⟨d1, _, hw⟩⟩⟩ := hp.2 hee
      · cases h
      · obtain ⟨rfl, rfl⟩ := Ws.resolves_unique hR hR'
        exact h (hfit _ hP)
      · exact h (Or.inr (Or.inr (Or.inr hlink)))
      · exact absurd hw.1 (by simp [Faults.none])
  | panic => exact hp.elim
  | diverge => exact hp.elim

/-- The ID of a layer that rests can be checked out, and shows what was there. -/
theorem aside_again {d1 d2 d3 : Disk} {g1 : Str → Option TS} (s1 : Steady E d1 g1) {n : Str} {T : TS} (hT : g1 n = some T) {u : UID} {ls : List UID}
    (hpath : T.abs.Path u ls) (hrest : ∀ v ∈ ls, d1.HasDiff v ∧ ∀ k m, d1.mnt k = some m → m.upper ≠ v) {f2 : Faults} (hio : f2.io = false)
    (hp : Past E f2 d1 d2) {cwd : Str} (hout : E.Outside (Path.abs cwd (lit "."))) {w : OpenWs} (hg : Gets E d2 cwd (lit ".") w) (hsp : w.spaceDir = n)
    (hfit : ∀ ls, w.tree.abs.Path u ls → E.Fits ls.length)
    (hlink : ∃ n m c, d2.user w.ws.path = .link (E.mountPath n) ∧ d2.mdir n = some m ∧ m.merged = some c)
    {r : Res CErr (OpenWs × OpenWs)} (he : Exec E Faults.none (checkoutCmd E cwd u.hex) d2 r d3) :
    (∃ x, r = .ok x) ∧ ∃ w3 u3, Gets E d3 cwd (lit ".") w3 ∧ w3.ws.HeadAt w3.tree u3 u ∧ d3.Mounted w3 ∧ d3.lists w3 = files (ls.map d1.content) := by
  obtain ⟨g2, s2, k2⟩ := steady_past hio s1 hp
  obtain ⟨u', p', T', hF⟩ := found_of_gets s2 hout hg
  obtain ⟨T2, c2, c3⟩ := k2.trees _ T hT
  have hT2 : T' = T2 := by have := hF.tree; rw [hsp, c2] at this; exact (Option.some.inj this).symm
  subst hT2
  have hhas : w.tree.abs.Has u := by
    have hp2 := extends_path c3 hpath
    have hT : T'.abs.Has u := by
      cases hp2 with
      | root h _ => exact ⟨_, h⟩
      | step h _ _ => exact ⟨_, h⟩
    obtain ⟨n, hn⟩ := hT
    obtain ⟨n', hn', _⟩ := hF.back.node u n hn
    exact ⟨n', hn'⟩
  have hR : Ws.Resolves w.tree.abs w.ws.id p' u.hex u .commit := .id (hex_ne_head u) (hex_spells u) hhas
  obtain ⟨x, rfl⟩ := checkout_goes s2 (hex_plain u) hF hR hfit hlink he
  exact ⟨⟨x, rfl⟩, shows_again s1 hT hpath hrest hio hp hout hg hsp hF.opens.head hR he⟩

/-- **C92.** A checkout takes a workspace away from its working layer. From then on the layer stays as it was: whatever commands run
after it, at the same time, fail or are killed, whatever is written in any workspace. -/
theorem C92_layer_stays {d d' : Disk} (hd : Reachable E d) {cwd key : Str} (hout : E.Outside (Path.abs cwd (lit "."))) {w : OpenWs}
    (hg : Gets E d cwd (lit ".") w) {u p : UID} (hh : w.ws.HeadAt w.tree u p) {r : OpenWs × OpenWs} {f1 : Faults}
    (he : Exec E f1 (checkoutCmd E cwd key) d (.ok r) d') {w2 : World} (hs : Sys.Steps E f ⟨d', fun _ => none⟩ w2) :
    w2.disk.layer u = d.layer u := by
  obtain ⟨g, hs0⟩ := steady_reachable hd
  obtain ⟨T, hF⟩ := gets_found hs0 hout hg hh
  obtain ⟨_, v, kt, u2, ls, g1, w1, _, s1, k1, _, _, _, _, _, _, _, _, h10⟩ := after_checkout hs0 hF he
  have hu := head_stored hs0 (found_head hs0 hF)
  have hl : d'.layer u = d.layer u := by
    rw [h10.layer]
    refine upd_ne _ _ ?_
    rintro rfl
    obtain ⟨c, hc⟩ := hu
    rw [h10.newLayer] at hc; cases hc
  rw [layer_stays s1 (k1.diff u hu) (checkout_leaves hs0 s1 hF h10) hs, hl]

/-- **C92.** A workspace shows some files, committed or not, and checks out something else. Later - after any commands, writes and
restarts - a workspace of the same history checks out the ID of the layer it had worked in. If the mount options fit and its link
is in place this succeeds, and it then shows exactly those files, provided that no layer under them was at the time of the first
checkout the working layer of some workspace. -/
theorem C92_set_aside {d0 d1 d2 d3 : Disk} (hd : Reachable E d0) {cwd key0 : Str} (hout : E.Outside (Path.abs cwd (lit "."))) {w : OpenWs}
    (hg : Gets E d0 cwd (lit ".") w) (hm : d0.Mounted w) {u p : UID} (hh : w.ws.HeadAt w.tree u p) {r : OpenWs × OpenWs}
    (hbase : ∀ v, w.tree.abs.Anc v p → ¬ Head E d0 v)
    {f1 f2 : Faults} (he : Exec E f1 (checkoutCmd E cwd key0) d0 (.ok r) d1) (hio : f2.io = false) (hp : Past E f2 d1 d2)
    {cwd' : Str} (hout' : E.Outside (Path.abs cwd' (lit "."))) {w' : OpenWs} (hg' : Gets E d2 cwd' (lit ".") w') (hsp : w'.spaceID = w.spaceID)
    (hfit : ∀ ls, w'.tree.abs.Path u ls → E.Fits ls.length)
    (hlink : ∃ n m c, d2.user w'.ws.path = .link (E.mountPath n) ∧ d2.mdir n = some m ∧ m.merged = some c)
    {r' : Res CErr (OpenWs × OpenWs)} (he' : Exec E Faults.none (checkoutCmd E cwd' u.hex) d2 r' d3) :
    (∃ x, r' = .ok x) ∧ ∃ w3 u3, Gets E d3 cwd' (lit ".") w3 ∧ w3.ws.HeadAt w3.tree u3 u ∧ d3.Mounted w3 ∧ d3.lists w3 = d0.lists w := by
  obtain ⟨g, hs⟩ := steady_reachable hd
  obtain ⟨T, hF⟩ := gets_found hs hout hg hh
  obtain ⟨_, v, kt, u2, ls, g1, w2, _, s1, k1, _, _, _, _, _, _, _, _, h10⟩ := after_checkout hs hF he
  obtain ⟨ls0, hp0, hl0⟩ := lists_found hs hF hm
  have hfull : w.tree.abs.Path u (u :: ls0) := by
    obtain ⟨_, n, hn, hpp⟩ := hh
    exact .step hn hpp hp0
  have hst := path_stored hF.opens hfull
  obtain ⟨T1, c1, c0⟩ := k1.trees _ T hF.tree
  have hpath := extends_path c0 (comesBack_path hF.back hfull)
  have hl1 : ∀ x ∈ u :: ls0, d1.layer x = d0.layer x := by
    intro x hx
    rw [h10.layer]
    refine upd_ne _ _ ?_
    rintro rfl
    obtain ⟨c, hc⟩ := hst x hx
    rw [h10.newLayer] at hc; cases hc
  have hrest : ∀ x ∈ u :: ls0, d1.HasDiff x ∧ ∀ k m, d1.mnt k = some m → m.upper ≠ x := by
    intro x hx
    refine ⟨k1.diff x (hst x hx), fun k m hkm e => ?_⟩
    have hx1 : Head E d1 x := e ▸ mnt_head s1 hkm
    rcases List.mem_cons.1 hx with rfl | hx'
    · exact checkout_leaves hs s1 hF h10 hx1
    · exact hbase x (path_mem_anc hp0 x hx') (k1.heads x hx1 (hst x hx))
  have hn : w'.spaceDir = w.spaceDir := by
    obtain ⟨g2, s2, _⟩ := steady_past hio s1 hp
    obtain ⟨u', p', T', hF'⟩ := found_of_gets s2 hout' hg'
    rw [hF'.opens.dir, hF.opens.dir, hsp]
  obtain ⟨h1, h2⟩ := aside_again s1 c1 hpath hrest hio hp hout' hg' hn hfit hlink he'
  refine ⟨h1, ?_⟩
  rw [hl0, ← List.map_congr_left (f := d1.content) (g := d0.content) fun x hx => by simp only [Disk.content, hl1 x hx]]
  exact h2

/-- **C92.** A restart of the machine takes nothing from the layers: a workspace shows some files, committed or not, and the machine
is restarted. Later - after any commands, writes and further restarts - a workspace of the same history, such as the same one,
checks out the ID of the layer it had worked in. If the mount options fit and its link is in place this succeeds, and it then
shows exactly those files. -/
theorem C92_restart {d0 d2 d3 : Disk} (hd : Reachable E d0) {cwd : Str} (hout : E.Outside (Path.abs cwd (lit "."))) {w : OpenWs}
    (hg : Gets E d0 cwd (lit ".") w) (hm : d0.Mounted w) {u p : UID} (hh : w.ws.HeadAt w.tree u p)
    {f2 : Faults} (hio : f2.io = false) (hp : Past E f2 { d0 with mnt := fun _ => none } d2)
    {cwd' : Str} (hout' : E.Outside (Path.abs cwd' (lit "."))) {w' : OpenWs} (hg' : Gets E d2 cwd' (lit ".") w') (hsp : w'.spaceID = w.spaceID)
    (hfit : ∀ ls, w'.tree.abs.Path u ls → E.Fits ls.length)
    (hlink : ∃ n m c, d2.user w'.ws.path = .link (E.mountPath n) ∧ d2.mdir n = some m ∧ m.merged = some c)
    {r' : Res CErr (OpenWs × OpenWs)} (he' : Exec E Faults.none (checkoutCmd E cwd' u.hex) d2 r' d3) :
    (∃ x, r' = .ok x) ∧ ∃ w3 u3, Gets E d3 cwd' (lit ".") w3 ∧ w3.ws.HeadAt w3.tree u3 u ∧ d3.Mounted w3 ∧ d3.lists w3 = d0.lists w := by
  obtain ⟨g, hs⟩ := steady_reachable hd
  obtain ⟨T, hF⟩ := gets_found hs hout hg hh
  obtain ⟨ls0, hp0, hl0⟩ := lists_found hs hF hm
  have hfull : w.tree.abs.Path u (u :: ls0) := by
    obtain ⟨_, n, hn, hpp⟩ := hh
    exact .step hn hpp hp0
  obtain ⟨g1, s1, k1⟩ := steady_past (f := Faults.none) rfl hs (.step (o := 0) .refl (a := .reboot) trivial .reboot)
  obtain ⟨T1, c1, c0⟩ := k1.trees _ T hF.tree
  have hn : w'.spaceDir = w.spaceDir := by
    obtain ⟨g2, s2, _⟩ := steady_past hio s1 hp
    obtain ⟨u', p', T', hF'⟩ := found_of_gets s2 hout' hg'
    rw [hF'.opens.dir, hF.opens.dir, hsp]
  obtain ⟨h1, h2⟩ := aside_again s1 c1 (extends_path c0 (comesBack_path hF.back hfull)) (fun x hx => ⟨path_stored hF.opens hfull x hx, nofun⟩) hio hp hout' hg' hn
    hfit hlink he'
  rw [hl0]
  exact ⟨h1, h2⟩

/-- **C92 (violated).** Take any workspace that shows something else than its last commit. `checkout HEAD` is not refused: it
succeeds, and the workspace then shows the files of the last commit instead of those it showed. No tag and no branch is made that
leads back to them, and the layer they are in is not among the ancestors of where the workspace now is. -/
theorem C92_violated_checkout {d : Disk} (hd : Reachable E d) {cwd : Str} (hout : E.Outside (Path.abs cwd (lit "."))) {w : OpenWs}
    (hg : Gets E d cwd (lit ".") w) {u p : UID} (hh : w.ws.HeadAt w.tree u p) {ls : List UID} (hls : w.tree.abs.Path p ls) (hfit : E.Fits ls.length)
    (hlink : ∃ n m c, d.user w.ws.path = .link (E.mountPath n) ∧ d.mdir n = some m ∧ m.merged = some c) (hu : d.used.length + 2 < 2 ^ 128)
    (hdirty : d.lists w ≠ files (ls.map d.content)) :
    (∃ r d', Exec E Faults.none (checkoutCmd E cwd (lit "HEAD")) d r d') ∧
    ∀ (r : Res CErr (OpenWs × OpenWs)) (d' : Disk), Exec E Faults.none (checkoutCmd E cwd (lit "HEAD")) d r d' →
      ∃ (x : OpenWs × OpenWs) (w2 : OpenWs) (u2 : UID), r = .ok x ∧ Gets E d' cwd (lit ".") w2 ∧ w2.ws.id = w.ws.id ∧ w2.ws.HeadAt w2.tree u2 p ∧
        d'.Mounted w2 ∧ d'.lists w2 = files (ls.map d.content) ∧ d'.lists w2 ≠ d.lists w ∧
        w2.tree.abs.tag = w.tree.abs.tag ∧ w2.tree.abs.branch = w.tree.abs.branch ∧ u2 ≠ u ∧ ¬ w2.tree.abs.Anc u p := by
  have hkey : PlainKey (lit "HEAD") := by unfold PlainKey; decide
  refine ⟨exec_total (checkoutCmd_draws E cwd (lit "HEAD")) d hu, fun r d' he => ?_⟩
  obtain ⟨g, hs⟩ := steady_reachable hd
  obtain ⟨T, hF⟩ := gets_found hs hout hg hh
  obtain ⟨x, rfl⟩ := checkout_goes hs hkey hF .head (fun l hl => by rw [Ws.path_unique hl hls]; exact hfit) hlink he
  obtain ⟨_, v, kt, u2, ls2, g', w2, b1, b2, _, _, b3, b4, b5, b6, b7, b8, b9, b10⟩ := after_checkout hs hF he
  obtain ⟨rfl, rfl⟩ := Ws.resolves_unique b1 .head
  obtain rfl := Ws.path_unique b3 hls
  have hl := lists_fresh b10 (path_stored hF.opens hls)
  have hnu : w.tree.abs.Has u := by obtain ⟨_, n, hn, _⟩ := hh; exact ⟨n, hn⟩
  refine ⟨x, w2, u2, rfl, gets_of_opens b4, b5, b4.head, by rw [Disk.Mounted, b10.mnt]; simp, hl, by rw [hl]; exact fun e => hdirty e.symm, by rw [b9]; rfl, by rw [b9]; rfl,
    fun e => b8 (e ▸ hnu), fun ha => ?_⟩
  obtain ⟨_, n, hn, hpp⟩ := hh
  have hx : Extends (fun _ => True) w.tree.abs w2.tree.abs := by rw [b9]; exact extends_add b8
  have h1 := anc_shorter ha (extends_path hx (.step hn hpp hls)) (extends_path hx hls)
  simp only [List.length_cons] at h1
  omega

end
end Verif
