import Verif.Props.Safety
/-!
# New workspaces and workspaces after a restart (C55, C58)
-/
set_option autoImplicit false
namespace Verif
open M TS Json

section
variable {E : Env} {f : Faults}

/-! ## C55 -/

/-- The history of a new workspace: a root, one working layer `u` on it, the tag ROOT and one branch, both on the root. -/
structure NewHistory (a : ATree) (wid root u : UID) (branch : Str) : Prop where
  start : a.root = some root
  ne : u ≠ root
  first : a.node root = some ⟨none, fun _ => none, fun _ => none⟩
  work : a.node u = some ⟨some root, fun _ => none, fun _ => none⟩
  only : ∀ v, a.Has v ↔ v = root ∨ v = u
  tags : ∀ t v, a.tag t = some v ↔ t = lit "ROOT" ∧ v = root
  branches : ∀ b v, a.branch b = some v ↔ b = wid.base32 ++ lit "/" ++ branch ∧ v = root

theorem newHistory {wid root u : UID} {branch : Str} (hne : u ≠ root) :
    NewHistory (((ATree.first root).add (some root) u (fun _ => none) (fun _ => none)).setBranch (wid.base32 ++ lit "/" ++ branch) root) wid root u branch := by
  refine ⟨rfl, hne, ?_, ?_, fun v => ?_, fun t v => ?_, fun b v => ?_⟩
  · simp only [ATree.setBranch, ATree.add, ATree.first, ATree.setTag, upd_ne _ _ (Ne.symm hne), upd_self]
  · simp only [ATree.setBranch, ATree.add, upd_self]
  · simp only [ATree.Has, ATree.setBranch, ATree.add, ATree.first, ATree.setTag, ATree.empty, upd]
    by_cases h1 : v = u
    · simp [h1]
    · by_cases h2 : v = root <;> simp [h1, h2, Ne.symm hne]
  · simp only [ATree.setBranch, ATree.add, ATree.first, ATree.setTag, ATree.empty, upd]
    by_cases h1 : t = lit "ROOT"
    · simp [h1, eq_comm]
    · simp [h1]
  · simp only [ATree.setBranch, ATree.add, ATree.first, ATree.setTag, ATree.empty, upd]
    by_cases h1 : b = wid.base32 ++ lit "/" ++ branch
    · rw [if_pos h1]; simp only [h1, true_and, Option.some.injEq]; exact eq_comm
    · rw [if_neg h1]; simp only [h1, false_and, reduceCtorEq]

/-- **C55.** On a working system `init` succeeds on every free path: one at which there is nothing yet, an empty directory, or a
link to a mounted workspace that shows no files. -/
theorem C55_accepted {d d' : Disk} (hd : Reachable E d) {path branch : Str} (hoff : E.Off path) (hfree : FreeFor E d path) (hclr : Clearable E d path)
    (hfit : E.Fits 1) {r : Res CErr OpenWs} (he : Exec E Faults.none (initCmd E path branch) d r d') : ∃ w, r = .ok w := by
  obtain ⟨g, hs⟩ := steady_reachable hd
  have hp := wpm_exec (initCmd_wp hoff) he
  cases r with
  | ok w => exact ⟨w, rfl⟩
  | err e =>
    exfalso
    cases hee : e.early with
    | true =>
      rcases (hp.1 hee).2 with h | h | ⟨t, h1, h2⟩
      · exact h ⟨rfl, rfl, hs.tracked⟩
      · exact h hfree
      · rcases hclr with h | h | h | ⟨n, _, _, h, _⟩
        · rw [h] at h1; cases h1
        · rw [h] at h1; cases h1
        · rw [h] at h1; cases h1
        · rw [h] at h1; cases h1; exact h2 n rfl
    | false =>
      obtain ⟨_, h | ⟨_, _, _, _, _, _, _, _, h | h⟩⟩ := hp.2 hee
      · cases h
      · exact h hfit
      · exact h hclr
  | panic => exact hp.elim
  | diverge => exact hp.elim

/-- **C55.** After a successful `init` the path opens as a workspace whose history is new and has nothing in it, which shows no
files, and whose log is empty. -/
theorem C55_init {d d' : Disk} (hd : Reachable E d) {cwd path branch : Str} (hout : E.Outside (Path.abs cwd path)) {w' : OpenWs}
    (he : Exec E f (initCmd E (Path.abs cwd path) branch) d (.ok w') d') :
    ∃ w root u, Gets E d' cwd path w ∧ w.ws.HeadAt w.tree u root ∧ w.ws.branch = sanitize branch ∧
      NewHistory w.tree.abs w.ws.id root u (sanitize branch) ∧ d'.Mounted w ∧ (∀ p, d'.lists w p = none) ∧ w.ws.history w.tree (lit "HEAD") = .ok [] ∧
      -- one space and two layers are new, nothing else about spaces and layers changes
      d.space w.spaceDir = none ∧ (∃ b, d'.space = upd d.space w.spaceDir (some (some b))) ∧
      d.layer root = none ∧ d.layer u = none ∧ d'.layer = upd (upd d.layer root (some (some .empty))) u (some (some (Content.empty.chown E.owner))) := by
  obtain ⟨g, hs⟩ := steady_reachable hd
  obtain ⟨root, u, dp, g', w, hFo, hs', _, _, hne, ho, _, hbr, htree, hfr, b, _, hsp⟩ := after_init hs hout he
  have hN := newHistory (wid := w.ws.id) (branch := sanitize branch) hne
  rw [← htree] at hN
  have hpath : w.tree.abs.Path root [root] := .root hN.first rfl
  refine ⟨w, root, u, gets_of_opens ho, ho.head, hbr, hN, by rw [Disk.Mounted, hfr.mnt]; simp, ?_, ?_, hFo.newSpace, ⟨b, ?_⟩, hFo.newLayer, ?_, ?_⟩
  · intro p
    have hst : ∀ v ∈ [root], dp.HasDiff v := by
      intro v hv
      simp only [List.mem_singleton] at hv
      subst hv
      exact ⟨.empty, by rw [hFo.layer]; exact upd_self _ _ _⟩
    rw [lists_fresh hfr hst]
    have : dp.content root = .empty := by simp [Disk.content, hFo.layer]
    rw [List.map_cons, List.map_nil, this, files_blank (fun x p => rfl)]
    cases p with
    | nil => rfl
    | cons x p =>
      have hstack : ∀ q, stack [] q = [] := by
        intro q; induction q with
        | nil => rfl
        | cons _ _ ih => rw [stack, ih]; rfl
      simp [files, view, topEnt, hstack]
  · have hwf := wf_of_reach (opens_reach ho)
    obtain ⟨l, ids, h1, h2, h3⟩ := (Ws.C23_history hwf ho.head (ref := lit "HEAD") (by unfold PlainKey; decide)).1 root .commit .head
    rw [Ws.path_unique h2 hpath] at h3
    rw [h1]
    simpa using h3
  · rw [hsp, hFo.space]
    funext n
    by_cases hn : n = w.spaceDir
    · subst hn; simp
    · simp [upd_ne _ _ hn]
  · have := hfr.newLayer
    rwa [hFo.layer, upd_ne _ _ hne] at this
  · rw [hfr.layer, hFo.layer]

/-- **C55.** In such a history HEAD, ROOT and the name of the branch all mean the root - the name of the branch unless it happens
to be the random ID of the working layer. -/
theorem C55_references {a : ATree} {wid root u : UID} {branch : Str} (hN : NewHistory a wid root u branch) :
    Ws.Resolves a wid root (lit "HEAD") root .commit ∧ Ws.Resolves a wid root (lit "ROOT") root .tag ∧
    (¬ Spells branch u → ∃ k, Ws.Resolves a wid root branch root k) := by
  refine ⟨.head, .tag (by decide) ?_ ((hN.tags _ _).2 ⟨rfl, rfl⟩), fun hsp => ?_⟩
  · intro v hv
    rcases hv with ⟨h, _⟩ | ⟨h, _⟩ <;> exact absurd h (by decide)
  · by_cases h1 : branch = lit "HEAD"
    · subst h1; exact ⟨_, .head⟩
    by_cases h2 : ∃ v, Spells branch v ∧ a.Has v
    · obtain ⟨v, h3, h4⟩ := h2
      rcases (hN.only v).1 h4 with rfl | rfl
      · exact ⟨_, .id h1 h3 h4⟩
      · exact absurd h3 hsp
    have h2 : ∀ v, Spells branch v → ¬ a.Has v := fun v h3 h4 => h2 ⟨v, h3, h4⟩
    by_cases h3 : branch = lit "ROOT"
    · exact ⟨_, .tag h1 h2 ((hN.tags _ _).2 ⟨h3, rfl⟩)⟩
    · refine ⟨_, .own h1 h2 ?_ ?_ ((hN.branches _ _).2 ⟨rfl, rfl⟩)⟩
      · cases h : a.tag branch with
        | none => rfl
        | some v => exact absurd ((hN.tags _ _).1 h).1 h3
      · cases h : a.branch branch with
        | none => rfl
        | some v =>
          have := congrArg List.length ((hN.branches _ _).1 h).1
          have h1 : (lit "/").length = 1 := rfl
          rw [List.length_append, List.length_append, h1] at this
          omega

/-! ## C58 -/

/-- **C58.** If the workspace is mounted, a successful commit holds just the files that the workspace showed when the command
started. -/
theorem C58_mounted {d d' : Disk} (hd : Reachable E d) {cwd : Str} (hout : E.Outside (Path.abs cwd (lit "."))) {w : OpenWs}
    (hg : Gets E d cwd (lit ".") w) (hm : d.Mounted w) {u p : UID} (hh : w.ws.HeadAt w.tree u p) {ci : CommitInfo} {r : OpenWs × OpenWs}
    (he : Exec E f (commitCmd E cwd ci) d (.ok r) d') :
    ∃ w2 u2 ls, Gets E d' cwd (lit ".") w2 ∧ w2.ws.HeadAt w2.tree u2 u ∧ w2.tree.abs.Path u ls ∧ files (ls.map d'.content) = d.lists w := by
  obtain ⟨w2, u2, g1, _, g3, _⟩ := C27_commit_effect hd hout hg hh he
  obtain ⟨w3, k1, _, _, ls, k4, k5⟩ := C27_commit_keeps_files hd hout hg hm hh he
  obtain rfl : w2 = w3 := by
    obtain ⟨g, hs⟩ := steady_reachable hd
    obtain ⟨T, hF⟩ := gets_found hs hout hg hh
    obtain ⟨_, _, _, _, _, w4, _, _, _, _, h4, _⟩ := after_commit hs hF he
    rw [(wpm_exec_ok (getWorkspace_wp h4) g1).1, (wpm_exec_ok (getWorkspace_wp h4) k1).1]
  exact ⟨w2, u2, ls, g1, g3, k4, k5⟩

/-- Not mounted, a workspace shows what lies in the directory under the mount point. -/
theorem lists_unmounted {d : Disk} {w : OpenWs} (hn : d.mnt w.mount.id.base32 = none) {c : Content} {wk : Bool}
    (hmd : d.mdir w.mount.id.base32 = some ⟨some c, wk⟩) : d.lists w = files [c] := by
  funext q
  simp only [Disk.lists, files, Disk.shows, hn, hmd]

/-- **C58 (violated).** Take any mounted workspace that may commit, restart the machine, and put any files `c` into the workspace.
The workspace now shows just these files. A commit succeeds, but what it holds is what the workspace showed before the restart;
the files `c` are not in it, the workspace no longer shows them, and the directory that held them is gone. -/
theorem C58_violated_reboot {d : Disk} (hd : Reachable E d) {cwd : Str} (hout : E.Outside (Path.abs cwd (lit "."))) {w : OpenWs}
    (hg : Gets E d cwd (lit ".") w) (hm : d.Mounted w) {u p : UID} (hh : w.ws.HeadAt w.tree u p) (hmay : MayCommit w u) {ls : List UID}
    (hls : w.tree.abs.Path u ls) (hfit : E.Fits ls.length) (hlink : d.user w.ws.path = .link (E.mountPath w.mount.id.base32)) {c0 : Content} {wk : Bool}
    (hmd : d.mdir w.mount.id.base32 = some ⟨some c0, wk⟩) (hu : d.used.length + 2 < 2 ^ 128) (c : Content) (ci : CommitInfo) :
    ∃ d2, Happens E Faults.none (.write w.mount.id.base32 c) { d with mnt := fun _ => none } d2 ∧ Gets E d2 cwd (lit ".") w ∧ d2.lists w = files [c] ∧
      (∃ r d3, Exec E Faults.none (commitCmd E cwd ci) d2 r d3) ∧
      ∀ r d3, Exec E Faults.none (commitCmd E cwd ci) d2 r d3 → ∃ x w3 u3, r = .ok x ∧ Gets E d3 cwd (lit ".") w3 ∧ w3.ws.HeadAt w3.tree u3 u ∧
        w3.tree.abs.Path u ls ∧ files (ls.map d3.content) = d.lists w ∧ d3.lists w3 = d.lists w ∧ d3.mdir w.mount.id.base32 = none := by
  obtain ⟨g, hs⟩ := steady_reachable hd
  obtain ⟨T, hF⟩ := gets_found hs hout hg hh
  have ho := hF.opens
  obtain ⟨ls0, hp0, hl0⟩ := lists_found hs hF hm
  obtain rfl : ls = u :: ls0 := by
    obtain ⟨_, n, hn, hp⟩ := hh
    exact Ws.path_unique hls (.step hn hp hp0)
  have hst := path_stored ho hls
  let d1 : Disk := { d with mnt := fun _ => none }
  let d2 : Disk := d1.setMdir w.mount.id.base32 (some ⟨some c, wk⟩)
  have hw : Happens E Faults.none (.write w.mount.id.base32 c) d1 d2 := Happens.stray (m := ⟨some c0, wk⟩) rfl hmd rfl
  have ho2 : Opens E d2 cwd (lit ".") w u p := ⟨ho.out, ho.link, ho.path, ho.info, ho.mount, ho.dir, ho.tree, ho.head, ho.stored⟩
  have hm2 : d2.mdir w.mount.id.base32 = some ⟨some c, wk⟩ := upd_self _ _ _
  have hr2 : Reachable E d2 := by
    obtain ⟨f, d0, h1, h2, h3⟩ := hd
    exact ⟨f, d0, h1, h2, .step (o := 0) (.step (o := 0) h3 (a := .reboot) trivial .reboot) (a := .write w.mount.id.base32 c) trivial (Happens.stray (m := ⟨some c0, wk⟩) rfl hmd rfl)⟩
  have hg2 := gets_of_opens ho2
  refine ⟨d2, hw, hg2, lists_unmounted rfl hm2, exec_total (commitCmd_draws E cwd ci) d2 hu, fun r d3 he => ?_⟩
  obtain ⟨x, rfl⟩ := (C28_accepted_iff hr2 hout hg2 hh hls hfit ⟨_, _, c, hlink, hm2, rfl⟩ he).2 hmay
  obtain ⟨g2, hs2⟩ := steady_reachable hr2
  obtain ⟨T2, hF2⟩ := gets_found hs2 hout hg2 hh
  obtain ⟨_, _, u3, ls, g', w3, _, _, _, h3, h4, h5, _, _, h8, h9, h10, _⟩ := after_commit hs2 hF2 he
  obtain rfl := Ws.path_unique h3 hls
  have hc : ∀ v ∈ u :: ls0, d3.content v = d.content v := by
    intro v hv
    refine content_upd (d := d2) h10.layer ?_
    rintro rfl
    obtain ⟨c, hc⟩ := hst v hv
    have := h10.newLayer
    rw [show d2.layer = d.layer from rfl, hc] at this; cases this
  refine ⟨x, w3, u3, rfl, gets_of_opens h4, h4.head, ?_, ?_, ?_, ?_⟩
  · rw [h9]; exact extends_path (extends_commit (S := fun _ => True) trivial h8) hls
  · rw [hl0, List.map_congr_left hc]
  · rw [lists_fresh h10 hst, hl0]
    rfl
  · exact (h10.gone _ rfl).2.2

end
end Verif
