import Verif.World.After
import Verif.World.Settle
/-!
# Commands run one after another (C27-C34, C42, C55, C59)

The disk is any that commands, also killed and overlapping ones, file changes and restarts can leave (`Reachable`). What a command does is stated by what opening
the workspace gives afterwards (`Gets`) and by the files its mount shows.
-/
set_option autoImplicit false
namespace Verif
open M TS Json

/-- The disk arises from one on which the program never ran. First anything may have happened: commands that ran at the same
time, failed or were killed (`Legacy`). Then commands (successful or not) ran one after another, with writes into workspaces,
changes of the user's files, and restarts in between. Meanwhile mounts may be busy and random IDs may repeat, but the file
system does not fail. -/
def Reachable (E : Env) (d : Disk) : Prop := ∃ f d0, f.io = false ∧ Legacy E d0 ∧ Past E f d0 d

theorem reachable_untouched {E : Env} {f : Faults} {d0 d : Disk} (hio : f.io = false) (h0 : Untouched d0) (hp : Past E f d0 d) : Reachable E d :=
  ⟨f, d0, hio, legacy_untouched h0, hp⟩

/-- The files that the workspace shows. -/
def Disk.lists (d : Disk) (w : OpenWs) : List Str → Option VEnt := fun p => if p = [] then none else d.shows w.mount.id.base32 p

/-- The workspace is mounted (it is not after a restart). -/
def Disk.Mounted (d : Disk) (w : OpenWs) : Prop := d.mnt w.mount.id.base32 ≠ none

/-- The workspace itself: its ID, its branch, its space. -/
def SameWs (w w' : OpenWs) : Prop := w'.ws.id = w.ws.id ∧ w'.ws.branch = w.ws.branch ∧ w'.spaceID = w.spaceID

section
variable {E : Env} {f : Faults}

theorem steady_reachable {d : Disk} (h : Reachable E d) : ∃ g, Steady E d g := by
  obtain ⟨f, d0, hio, h0, hp⟩ := h
  obtain ⟨⟨g0, hg0⟩, _⟩ := legacy_sound h0
  obtain ⟨g, hg, _⟩ := steady_past hio hg0 hp
  exact ⟨g, hg⟩

theorem headAt_unique {s : TS} (h : WF s) {w : Ws} {u p u' p' : UID} (h1 : w.HeadAt s u p) (h2 : w.HeadAt s u' p') : u = u' ∧ p = p' := by
  obtain ⟨o, q, po, a1, a2, _, a3, a4, a5, _⟩ := Ws.headAt_obj h h1
  obtain ⟨o', q', po', b1, b2, _, b3, b4, b5, _⟩ := Ws.headAt_obj h h2
  rw [a1] at b1; cases b1
  rw [a3] at b3; cases b3
  rw [a4] at b4; cases b4
  exact ⟨a2.symm.trans b2, a5.symm.trans b5⟩

/-- What is known about a workspace that opens. -/
theorem gets_found {d : Disk} {g : Str → Option TS} (h : Steady E d g) {cwd path : Str} (hout : E.Outside (Path.abs cwd path)) {w : OpenWs}
    (hg : Gets E d cwd path w) {u p : UID} (hh : w.ws.HeadAt w.tree u p) : ∃ T, Found E d g cwd path w u p T := by
  obtain ⟨u0, p0, T, hF⟩ := found_of_gets h hout hg
  obtain ⟨rfl, rfl⟩ := headAt_unique (wf_of_reach (opens_reach hF.opens)) hF.opens.head hh
  exact ⟨T, hF⟩

theorem lists_mounted {d : Disk} {w : OpenWs} {m : Mnt} (h : d.mnt w.mount.id.base32 = some m) : d.lists w = files ((m.upper :: m.lowers).map d.content) := by
  funext p
  simp only [Disk.lists, files, Disk.shows, h]

theorem lists_found {d : Disk} {g : Str → Option TS} (h : Steady E d g) {cwd path : Str} {w : OpenWs} {u p : UID} {T : TS} (hF : Found E d g cwd path w u p T)
    (hm : d.Mounted w) : ∃ ls, w.tree.abs.Path p ls ∧ d.lists w = files ((u :: ls).map d.content) := by
  cases hx : d.mnt w.mount.id.base32 with
  | none => exact absurd hx hm
  | some m =>
    obtain ⟨e1, e2⟩ := mnt_of_found h hF hx
    exact ⟨m.lowers, e2, by rw [lists_mounted hx, e1]⟩

theorem content_upd {d d' : Disk} {u : UID} {x : Option (Option Content)} (h : d'.layer = upd d.layer u x) {v : UID} (hv : v ≠ u) : d'.content v = d.content v := by
  simp only [Disk.content, h, upd_ne _ _ hv]

/-- A mount with a new layer on top shows what the layers below show. -/
theorem lists_fresh {d d' : Disk} {w : OpenWs} {old : Str → Prop} {u' : UID} {ls : List UID} {path : Str} (h : Fresh E d d' w.mount.id.base32 old u' ls path)
    (hls : ∀ v ∈ ls, d.HasDiff v) : d'.lists w = files (ls.map d.content) := by
  rw [lists_mounted h.mnt, List.map_cons]
  have h1 : d'.content u' = Content.empty.chown E.owner := by simp [Disk.content, h.layer]
  rw [h1, files_blank (blank_chown E.owner)]
  congr 1
  refine List.map_congr_left fun v hv => content_upd h.layer ?_
  rintro rfl
  obtain ⟨c, hc⟩ := hls v hv
  rw [h.newLayer] at hc; cases hc

theorem path_stored {d : Disk} {cwd path : Str} {w : OpenWs} {u p : UID} (ho : Opens E d cwd path w u p) {v : UID} {ls : List UID} (h : w.tree.abs.Path v ls) :
    ∀ x ∈ ls, d.HasDiff x := fun x hx => ho.stored x (path_has h x hx)

/-! ## C27 -/

/-- The effect of a commit on the history: `u` is committed, `u2` is the next working layer. -/
structure CommitEffect (a : ATree) (w : Ws) (u u2 : UID) (ci : CommitInfo) (a' : ATree) : Prop where
  /-- The new working layer is new, has the commit as its parent and carries nothing. -/
  fresh : ¬ a.Has u2
  next : a'.node u2 = some ⟨some u, fun _ => none, fun _ => none⟩
  /-- The commit carries date and message and is otherwise what the working layer was. -/
  commit : ∃ n n', a.node u = some n ∧ a'.node u = some n' ∧ n'.parent = n.parent ∧ n'.data = n.data ∧
    n'.anno (lit "commit-date") = some (sanitize ci.date) ∧ n'.anno (lit "commit-message") = some (sanitize ci.message) ∧
    ∀ k, k ≠ lit "commit-date" → k ≠ lit "commit-message" → n'.anno k = n.anno k
  /-- Nothing else in the history changes. -/
  others : ∀ v, v ≠ u → v ≠ u2 → a'.node v = a.node v
  root : a'.root = a.root
  tags : a'.tag = a.tag
  /-- The branch of the workspace points to the commit, all others stay. -/
  moved : w.branch ≠ [] → a'.branch (w.id.base32 ++ lit "/" ++ w.branch) = some u
  branches : ∀ b, (w.branch = [] ∨ b ≠ w.id.base32 ++ lit "/" ++ w.branch) → a'.branch b = a.branch b

theorem commitEffect {a : ATree} {w : Ws} {u u2 : UID} {ci : CommitInfo} (hu : a.Has u) (h2 : ¬ a.Has u2) :
    CommitEffect a w u u2 ci (a.commit w.onBranch u u2 (sanitize ci.date) (sanitize ci.message)) := by
  have hne : u ≠ u2 := by rintro rfl; exact h2 hu
  obtain ⟨n, hn⟩ := hu
  have hbr : ∀ b, (a.commit w.onBranch u u2 (sanitize ci.date) (sanitize ci.message)).branch b =
      if w.onBranch = some b then some u else a.branch b := by
    intro b
    cases hb : w.onBranch with
    | none => simp [ATree.commit, ATree.add, ATree.note]
    | some x =>
      simp only [ATree.commit, ATree.setBranch, ATree.add, ATree.note, upd, Option.some.injEq]
      by_cases e : b = x
      · subst e; simp
      · rw [if_neg e, if_neg (Ne.symm e)]
  refine ⟨h2, ?_, ⟨n, ⟨n.parent, upd (upd n.anno (lit "commit-date") (some (sanitize ci.date))) (lit "commit-message") (some (sanitize ci.message)), n.data⟩,
    hn, ?_, rfl, rfl, ?_, ?_, fun k h3 h4 => ?_⟩, fun v h3 h4 => ?_, ?_, ?_, fun hb => ?_, fun b hb => ?_⟩
  · rw [commit_node]; simp only [ATree.add, upd_self]
  · rw [commit_node]; simp only [ATree.add, upd_ne _ _ hne, ATree.note, upd_self, hn, Option.map_some]
  · simp only [upd_ne _ _ (show lit "commit-date" ≠ lit "commit-message" by decide), upd_self]
  · simp only [upd_self]
  · simp only [upd_ne _ _ h3, upd_ne _ _ h4]
  · rw [commit_node]; simp only [ATree.add, upd_ne _ _ h4, ATree.note, upd_ne _ _ h3]
  · cases w.onBranch <;> rfl
  · cases w.onBranch <;> rfl
  · rw [hbr, Ws.onBranch, if_neg hb, if_pos rfl]
  · rw [hbr]
    rcases hb with hb | hb
    · rw [Ws.onBranch, if_pos hb, if_neg nofun]
    · rw [if_neg]
      unfold Ws.onBranch
      split
      · nofun
      · exact fun e => hb (Option.some.inj e).symm

/-- **C27.** When a commit succeeds - whatever went wrong before or during it - opening the path gives the same workspace
one layer further: the old working layer is its last commit, and the history has changed just by `CommitEffect`. -/
theorem C27_commit_effect {d d' : Disk} (hd : Reachable E d) {cwd : Str} (hout : E.Outside (Path.abs cwd (lit "."))) {w : OpenWs}
    (hg : Gets E d cwd (lit ".") w) {u p : UID} (hh : w.ws.HeadAt w.tree u p) {ci : CommitInfo} {r : OpenWs × OpenWs}
    (he : Exec E f (commitCmd E cwd ci) d (.ok r) d') :
    ∃ w2 u2, Gets E d' cwd (lit ".") w2 ∧ SameWs w w2 ∧ w2.ws.HeadAt w2.tree u2 u ∧ CommitEffect w.tree.abs w.ws u u2 ci w2.tree.abs := by
  obtain ⟨g, hs⟩ := steady_reachable hd
  obtain ⟨T, hF⟩ := gets_found hs hout hg hh
  obtain ⟨_, _, u2, ls, g', w2, h1, h2, _, h3, h4, h5, h6, h7, h8, h9, _⟩ := after_commit hs hF he
  refine ⟨w2, u2, gets_of_opens h4, ⟨h5, h7, h6⟩, h4.head, ?_⟩
  rw [h9]
  obtain ⟨_, n, hn, _⟩ := hh
  exact commitEffect ⟨n, hn⟩ h8

/-- **C27.** The files stay: after the commit the workspace shows what it showed before, and so does every mount of the new
commit. -/
theorem C27_commit_keeps_files {d d' : Disk} (hd : Reachable E d) {cwd : Str} (hout : E.Outside (Path.abs cwd (lit "."))) {w : OpenWs}
    (hg : Gets E d cwd (lit ".") w) (hm : d.Mounted w) {u p : UID} (hh : w.ws.HeadAt w.tree u p) {ci : CommitInfo} {r : OpenWs × OpenWs}
    (he : Exec E f (commitCmd E cwd ci) d (.ok r) d') :
    ∃ w2, Gets E d' cwd (lit ".") w2 ∧ d'.Mounted w2 ∧ d'.lists w2 = d.lists w ∧
      ∃ ls, w2.tree.abs.Path u ls ∧ files (ls.map d'.content) = d.lists w := by
  obtain ⟨g, hs⟩ := steady_reachable hd
  obtain ⟨T, hF⟩ := gets_found hs hout hg hh
  obtain ⟨_, _, u2, ls, g', w2, h1, h2, _, h3, h4, h5, h6, h7, h8, h9, h10, _⟩ := after_commit hs hF he
  obtain ⟨ls0, hp0, hl0⟩ := lists_found hs hF hm
  have hls : ls = u :: ls0 := by
    obtain ⟨_, n, hn, hp⟩ := hh
    exact Ws.path_unique h3 (.step hn hp hp0)
  subst hls
  have hst := path_stored hF.opens h3
  have hf := lists_fresh h10 hst
  refine ⟨w2, gets_of_opens h4, by rw [Disk.Mounted, h10.mnt]; simp, by rw [hf, hl0], u :: ls0, ?_, ?_⟩
  · rw [h9]
    exact extends_path (extends_commit (S := fun _ => True) trivial h8) h3
  · rw [hl0]
    congr 1
    refine List.map_congr_left fun v hv => content_upd h10.layer ?_
    rintro rfl
    obtain ⟨c, hc⟩ := hst v hv
    rw [h10.newLayer] at hc; cases hc

/-! ## C28 -/

/-- The branch of the workspace, if it is on one, exists and its head is the working layer or an ancestor of it. -/
def MayCommit (w : OpenWs) (u : UID) : Prop :=
  w.ws.branch = [] ∨ ∃ h, w.tree.abs.branch (w.ws.id.base32 ++ lit "/" ++ w.ws.branch) = some h ∧ w.tree.abs.Anc h u

theorem follows_iff {w : OpenWs} {u : UID} : Follows w.tree.abs w.ws u ↔ MayCommit w u := by
  unfold Follows Ws.onBranch MayCommit
  constructor
  · intro h
    by_cases hb : w.ws.branch = []
    · exact Or.inl hb
    · exact Or.inr (h _ (if_neg hb))
  · rintro (h | h) b hb
    · rw [if_pos h] at hb; cases hb
    · split at hb
      · cases hb
      · cases hb; exact h

theorem accepted_of_steady {d d' : Disk} {g : Str → Option TS} (hs : Steady E d g) {cwd : Str} (hout : E.Outside (Path.abs cwd (lit "."))) {w : OpenWs}
    (hg : Gets E d cwd (lit ".") w) {u p : UID} (hh : w.ws.HeadAt w.tree u p) {ls : List UID} (hls : w.tree.abs.Path u ls) (hfit : E.Fits ls.length)
    (hlink : ∃ n m c, d.user w.ws.path = .link (E.mountPath n) ∧ d.mdir n = some m ∧ m.merged = some c)
    {ci : CommitInfo} {r : Res CErr (OpenWs × OpenWs)} (he : Exec E Faults.none (commitCmd E cwd ci) d r d') :
    (∃ x, r = .ok x) ↔ MayCommit w u := by
  obtain ⟨T, hF⟩ := gets_found hs hout hg hh
  have hp := wpm_exec (commitCmd_wp (ci := ci) hF.opens hF.mdir) he
  rw [← follows_iff]
  cases r with
  | ok x => exact Iff.intro (fun _ => hp.2.1) (fun _ => Exists.intro x rfl)
  | err e =>
    refine Iff.intro (fun ⟨_, h⟩ => nomatch h) fun hfo => ?_
    exfalso
    cases hee : e.early with
    | true =>
      rcases (hp.1 hee).2 with h | h
      · exact h ⟨rfl, rfl, hs.tracked⟩
      · exact h hfo
    | false =>
      obtain ⟨_, _, h | ⟨w', u', ls', _, hP, ⟨_, h | h⟩ | ⟨d1, _, hw⟩⟩⟩ := hp.2 hee
      · cases h
      · rw [Ws.path_unique hP hls] at h; exact h hfit
      · exact h (Or.inr (Or.inr (Or.inr hlink)))
      · exact absurd hw.1 (by simp [Faults.none])
  | panic => exact hp.elim
  | diverge => exact hp.elim

/-- **C28.** On a working system - no failing calls, no repeated random IDs, the mount not busy, the history short enough to
mount, and the path a link to the mount directory - a commit succeeds if and only if the workspace is detached or its branch
exists and its head is the working layer or an ancestor of it. -/
theorem C28_accepted_iff {d d' : Disk} (hd : Reachable E d) {cwd : Str} (hout : E.Outside (Path.abs cwd (lit "."))) {w : OpenWs}
    (hg : Gets E d cwd (lit ".") w) {u p : UID} (hh : w.ws.HeadAt w.tree u p) {ls : List UID} (hls : w.tree.abs.Path u ls) (hfit : E.Fits ls.length)
    (hlink : ∃ n m c, d.user w.ws.path = .link (E.mountPath n) ∧ d.mdir n = some m ∧ m.merged = some c)
    {ci : CommitInfo} {r : Res CErr (OpenWs × OpenWs)} (he : Exec E Faults.none (commitCmd E cwd ci) d r d') :
    (∃ x, r = .ok x) ↔ MayCommit w u := by
  obtain ⟨g, hs⟩ := steady_reachable hd
  exact accepted_of_steady hs hout hg hh hls hfit hlink he

/-- **C28.** Whatever goes wrong, a commit never succeeds otherwise. -/
theorem C28_refused {d d' : Disk} (hd : Reachable E d) {cwd : Str} (hout : E.Outside (Path.abs cwd (lit "."))) {w : OpenWs}
    (hg : Gets E d cwd (lit ".") w) {u p : UID} (hh : w.ws.HeadAt w.tree u p) (hno : ¬ MayCommit w u)
    {ci : CommitInfo} {r : Res CErr (OpenWs × OpenWs)} (he : Exec E f (commitCmd E cwd ci) d r d') :
    (∃ e, r = .err e) ∧ d'.info = d.info ∧ d'.mnt = d.mnt ∧ d'.user = d.user ∧ (∀ n, d.space n ≠ none → d'.space n = d.space n) ∧
      ∀ v, d.layer v ≠ none → d'.layer v = d.layer v := by
  obtain ⟨g, hs⟩ := steady_reachable hd
  obtain ⟨T, hF⟩ := gets_found hs hout hg hh
  have hp := wpm_exec (commitCmd_wp (ci := ci) hF.opens hF.mdir) he
  rw [← follows_iff] at hno
  cases r with
  | ok x => exact absurd hp.2.1 hno
  | err e =>
    cases hee : e.early with
    | true =>
      have hl := (hp.1 hee).1
      exact ⟨⟨e, rfl⟩, hl.info, hl.mnt, hl.user, fun n hn => litter_space_eq hl hn, fun v hv => litter_layer_eq hl hv⟩
    | false => exact absurd (hp.2 hee).1 hno
  | panic => exact hp.elim
  | diverge => exact hp.elim

end
end Verif
