import Verif.World.SeqCmd
/-!
# Commit, run alone
-/
set_option autoImplicit false
namespace Verif
open M TS Json

/-- The note `k` on the node `u` now says `v`. -/
def ATree.note (a : ATree) (u : UID) (k v : Str) : ATree :=
  { a with node := upd a.node u ((a.node u).map fun n => { n with anno := upd n.anno k (some v) }) }

/-- What a commit of the working layer `u` on the branch with the full name `b` does; `u'` is the next working layer. -/
def ATree.commit (a : ATree) (b : Option Str) (u u' : UID) (date msg : Str) : ATree :=
  let a' := ((a.note u (lit "commit-date") date).note u (lit "commit-message") msg).add (some u) u' (fun _ => none) (fun _ => none)
  match b with
  | none => a'
  | some b => a'.setBranch b u

theorem note_has {a : ATree} {u : UID} {k v : Str} (x : UID) : (a.note u k v).Has x ↔ a.Has x := by
  unfold ATree.Has ATree.note upd
  simp only
  split
  · rename_i h; subst h
    cases a.node x <;> simp
  · rfl

theorem note_parent {a : ATree} {u : UID} {k v : Str} (x : UID) :
    ((a.note u k v).node x).map ANode.parent = (a.node x).map ANode.parent := by
  unfold ATree.note upd
  simp only
  split
  · rename_i h; subst h
    cases a.node x <;> simp
  · rfl

theorem map_parent {o : Option ANode} {q : Option UID} : o.map ANode.parent = some q ↔ ∃ n, o = some n ∧ n.parent = q := by
  cases o <;> simp

/-- Ancestors only depend on the parents. -/
theorem anc_congr {a b : ATree} (h : ∀ x, (a.node x).map ANode.parent = (b.node x).map ANode.parent) {g u : UID} (ha : a.Anc g u) : b.Anc g u := by
  induction ha with
  | @refl n hn =>
    obtain ⟨m, hm, _⟩ := map_parent.1 ((h g).symm.trans (map_parent.2 ⟨n, hn, rfl⟩))
    exact .refl hm
  | @step u q n hn hp _ ih =>
    obtain ⟨m, hm, e⟩ := map_parent.1 ((h u).symm.trans (map_parent.2 ⟨n, hn, rfl⟩))
    exact .step hm (e.trans hp) ih

theorem note_anc {a : ATree} {u g x : UID} {k v : Str} : (a.note u k v).Anc g x ↔ a.Anc g x :=
  ⟨anc_congr fun x => note_parent x, anc_congr fun x => (note_parent x).symm⟩

theorem path_congr {a b : ATree} (h : ∀ x, (a.node x).map ANode.parent = (b.node x).map ANode.parent) {u : UID} {l : List UID} (ha : a.Path u l) : b.Path u l := by
  induction ha with
  | @root u n hn hp =>
    obtain ⟨m, hm, e⟩ := map_parent.1 ((h u).symm.trans (map_parent.2 ⟨n, hn, rfl⟩))
    exact .root hm (e.trans hp)
  | @step u q n l hn hp _ ih =>
    obtain ⟨m, hm, e⟩ := map_parent.1 ((h u).symm.trans (map_parent.2 ⟨n, hn, rfl⟩))
    exact .step hm (e.trans hp) ih

theorem note_path {a : ATree} {u x : UID} {l : List UID} {k v : Str} : (a.note u k v).Path x l ↔ a.Path x l :=
  ⟨path_congr fun x => note_parent x, path_congr fun x => (note_parent x).symm⟩

/-- Adding a leaf does not change the ancestors of the others. -/
theorem add_anc {a : ATree} (ha : a.Rooted) {q u g x : UID} {an : Str → Option Str} {da : Str → Option (Option Str)} (hu : ¬ a.Has u) (hx : a.Has x) :
    (a.add (some q) u an da).Anc g x ↔ a.Anc g x := by
  have hne : ∀ y, a.Has y → (a.add (some q) u an da).node y = a.node y := by
    intro y hy
    have : y ≠ u := by rintro rfl; exact hu hy
    simp only [ATree.add, upd_ne _ _ this]
  constructor
  · intro h
    induction h with
    | refl hn => rw [hne _ hx] at hn; exact .refl hn
    | step hn hp _ ih =>
      rw [hne _ hx] at hn
      exact .step hn hp (ih (ha.parent _ _ _ hn hp))
  · intro h
    induction h with
    | refl hn => exact .refl (by rw [hne _ hx]; exact hn)
    | step hn hp _ ih => exact .step (by rw [hne _ hx]; exact hn) hp (ih (ha.parent _ _ _ hn hp))

theorem reach_rooted {s : TS} (h : Reach s) : s.abs.Rooted := rooted_of_wf (wf_of_reach h)

theorem addAnnotation_spec {s : TS} (h : Reach s) {u : UID} {r : Nat} (hu : s.get u = some r) (k v : Str) :
    ∃ s', s.addAnnotation r k v = some s' ∧ Reach s' ∧ s'.abs = s.abs.note u k v ∧ s'.get u = some r := by
  have hw := wf_of_reach h
  have hH : s.abs.Has u := (abs_has_iff_get hw u).2 ⟨r, hu⟩
  rcases call_spec hw (.annotate u k v) trivial with ⟨s', h1, -, h2⟩ | ⟨e, h1, h2⟩
  · have hc := h1
    rw [TS.call] at h1
    simp only [hu] at h1
    cases ha : s.addAnnotation r k v with
    | none => rw [ha] at h1; cases h1
    | some s1 =>
      rw [ha] at h1
      injection h1 with h1
      subst h1
      refine ⟨s1, rfl, .ok (op := .annotate u k v) h trivial hc, ?_, ?_⟩
      · generalize hx : s1.abs = x at h2
        cases h2 with
        | annotate hn => simp only [ATree.note, hn, Option.map_some]
      · unfold addAnnotation TS.modify at ha
        split at ha
        · cases ha
        · injection ha with ha
          rw [← ha]; exact hu
  · cases h2 with
    | annotateErr hn => exact absurd hH hn

theorem setToNode_spec {s : TS} (h : Reach s) {u : UID} {r : Nat} (hu : s.get u = some r) (ci : CommitInfo) :
    ∃ s', setToNode s r ci = some s' ∧ Reach s' ∧ s'.get u = some r ∧ (∃ o, s'.heap[r]? = some o ∧ o.id = u) ∧
      s'.abs = (s.abs.note u annoDate ci.date).note u annoMessage ci.message := by
  obtain ⟨s1, h1, h2, h3, h4⟩ := addAnnotation_spec h hu annoDate ci.date
  obtain ⟨s2, g1, g2, g3, g4⟩ := addAnnotation_spec h2 h4 annoMessage ci.message
  refine ⟨s2, by simp only [setToNode, h1, Option.bind_some, g1], g2, g4, ?_, by rw [g3, h3]⟩
  obtain ⟨o, ho, hi⟩ := head_obj (wf_of_reach g2) g4
  exact ⟨o, ho, hi⟩

theorem updateBranch_nodes {s s' : TS} {b : Str} {u : UID} (h : s.updateBranch b u false = .ok s') : s'.tree.nodes = s.tree.nodes := by
  unfold updateBranch at h
  split at h
  · cases h
  split at h
  · cases h
  split at h
  · split at h
    · injection h with h; rw [h]
    · simp only [Bool.false_eq_true, if_false] at h
      unfold Res.bind at h
      split at h
      · split at h
        all_goals
          simp only at h
          split at h
          · first | (injection h with h; rw [← h]) | cases h
          · cases h
      all_goals cases h
  · cases h

theorem parentID_spec {ε : Type} {s : TS} (h : WF s) {w : Ws} {u p : UID} (hh : w.HeadAt s u p) : parentID (ε := ε) s w.head = .ok p := by
  obtain ⟨o, q, po, h1, h2, h3, h4, h5, h6, h7⟩ := Ws.headAt_obj h hh
  simp only [parentID, h1, Option.bind_some, h4, h5, h6]

/-- The full name of the branch that a workspace is on. -/
def Ws.onBranch (w : Ws) : Option Str := if w.branch = [] then none else some (w.id.base32 ++ lit "/" ++ w.branch)

/-- The branch of the workspace can follow its working layer `u`. -/
def Follows (a : ATree) (w : Ws) (u : UID) : Prop := ∀ b, w.onBranch = some b → ∃ h, a.branch b = some h ∧ a.Anc h u

section
variable {E : Env} {f : Faults}

theorem moveBranch_wp {I : Disk → Prop} {s : TS} (hr : Reach s) {w : Ws} {r : Nat} {u u' : UID} (hh : (⟨w.id, w.path, r, w.branch⟩ : Ws).HeadAt s u' u) {d : Disk} :
    wpm E f I (moveBranch s (Ws.branchInfo w) r)
      (fun s' d' => d' = d ∧ Follows s.abs w u ∧ Reach s' ∧ s'.get = s.get ∧
        s'.abs = match w.onBranch with | none => s.abs | some b => s.abs.setBranch b u)
      (fun e d' => d' = d ∧ e.early = true ∧ ¬ Follows s.abs w u) d := by
  unfold moveBranch
  by_cases hb : w.branch = []
  · have hn : w.onBranch = none := by simp [Ws.onBranch, hb]
    have : ¬ (Ws.branchInfo w).name ≠ [] := by simp [Ws.branchInfo, hb]
    rw [if_neg this]
    refine wpm_pure ⟨rfl, ?_, hr, rfl, ?_⟩
    · intro b h; rw [hn] at h; cases h
    · rw [hn]
  · have hn : w.onBranch = some (Ws.branchInfo w).fullName := by simp [Ws.onBranch, hb, Ws.branchInfo, BranchInfo.fullName]
    have : (Ws.branchInfo w).name ≠ [] := by simpa [Ws.branchInfo] using hb
    rw [if_pos this]
    have hw := wf_of_reach hr
    refine wpm_bind (wpm_lift_ok (parentID_spec (w := ⟨w.id, w.path, r, w.branch⟩) hw hh) ?_)
    obtain ⟨h1, h2, h3, h4⟩ := updateBranch_spec hw (Ws.branchInfo w).fullName u false
    have hu : s.abs.Has u := by
      obtain ⟨_, n, hn, hp⟩ := hh
      exact (reach_rooted hr).parent _ _ _ hn hp
    cases hbr : s.abs.branch (Ws.branchInfo w).fullName with
    | none =>
      refine wpm_lift_err (h2 hu hbr) ⟨rfl, rfl, fun hf => ?_⟩
      obtain ⟨h, hx, _⟩ := hf _ hn
      rw [hbr] at hx; cases hx
    | some hd =>
      by_cases ha : s.abs.Anc hd u
      · obtain ⟨s', e1, e2, e3, e4⟩ := h3 hd hu hbr (Or.inr ha)
        refine wpm_lift_ok e1 ⟨rfl, ?_, ?_, ?_, ?_⟩
        · intro b hb'
          rw [hn] at hb'; cases hb'
          exact ⟨hd, hbr, ha⟩
        · exact .ok (op := .updateBranch _ u false) hr trivial e1
        · have : s'.tree.nodes = s.tree.nodes := updateBranch_nodes e1
          funext x
          simp only [TS.get, this]
        · rw [hn]; exact e3
      · refine wpm_lift_err (h4 hd hu hbr rfl ha) ⟨rfl, rfl, fun hf => ?_⟩
        obtain ⟨h, hx, hy⟩ := hf _ hn
        rw [hbr] at hx; cases hx; exact ha hy

/-- The workspace `w` with the working layer `u` has been committed: `w'` with the working layer `u'` is what follows. -/
structure Committed (w : OpenWs) (u : UID) (ci : CommitInfo) (w' : OpenWs) (u' : UID) : Prop where
  reach : Reach w'.tree
  newNode : ¬ w.tree.abs.Has u'
  tree : w'.tree.abs = w.tree.abs.commit w.ws.onBranch u u' ci.date ci.message
  head : w'.ws.HeadAt w'.tree u' u
  id : w'.ws.id = w.ws.id
  path : w'.ws.path = w.ws.path
  branch : w'.ws.branch = w.ws.branch
  spaceID : w'.spaceID = w.spaceID
  spaceDir : w'.spaceDir = w.spaceDir

/-- The layers that a failing removal of the mount `n` may damage. -/
def Hurt (f : Faults) (d : Disk) (n : Str) (v : UID) : Prop := (f.busy = true ∨ f.io = true) ∧ ∃ m, d.mnt n = some m ∧ m.upper = v

/-- What is known of a workspace that was opened, whatever has happened to the files of its space since. -/
structure Held (E : Env) (d : Disk) (w : OpenWs) (u p : UID) : Prop where
  reach : Reach w.tree
  head : w.ws.HeadAt w.tree u p
  stored : Stored d w.tree.abs
  space : d.space w.spaceDir ≠ none
  mount : w.mount.dir = w.mount.id.base32
  off : E.Off w.ws.path

theorem held_of_opens {d : Disk} {cwd path : Str} {w : OpenWs} {u p : UID} (ho : Opens E d cwd path w u p) : Held E d w u p := by
  refine ⟨opens_reach ho, ho.head, ho.stored, ?_, by rw [ho.mount], by rw [ho.path]; exact off_of_outside ho.out⟩
  obtain ⟨T, b, _, _, h, _⟩ := ho.tree
  rw [h]; simp

/-- Committing and expanding, followed by anything. -/
theorem commitTo_wp {d : Disk} {w : OpenWs} {u p : UID} {ci : CommitInfo} (ho : Held E d w u p)
    {α : Type} {k : OpenWs → M α} {I : Disk → Prop} {R : α → Disk → Prop} {F : CErr → Disk → Prop}
    (hI : ∀ d', Mid E (Committed w u ci) w.spaceDir w.ws.path (fun _ => False) (fun _ => False) d d' → I d')
    (hE : ∀ e d', e.early = true → Litter d d' → (¬ Calm f d ∨ ¬ Follows w.tree.abs w.ws u) → F e d')
    (hL : ∀ e d', e.early = false → Follows w.tree.abs w.ws u → Mid E (Committed w u ci) w.spaceDir w.ws.path (fun _ => False) (fun _ => False) d d' →
      (f.io = true ∨ ∃ w' u' ls, Committed w u ci w' u' ∧ w.tree.abs.Path u ls ∧ Late E d d' w' w'.mount.id u' ls ∧
        (¬ E.Fits ls.length ∨ ¬ Clearable E d w.ws.path)) → F e d')
    (hk : ∀ w' u' ls d', Committed w u ci w' u' → w.tree.abs.Path u ls → (Calm f d → w'.mount.id ∉ d.used) → Follows w.tree.abs w.ws u →
      Mid E (Committed w u ci) w.spaceDir w.ws.path (fun _ => False) (fun _ => False) d d' → Placed E d d' w' w'.mount.id u' ls → wpm E f I (k w') R F d') :
    wpm E f I (commitP E w ci >>= fun w' => expand E w' >>= fun _ => k w') R F d := by
  have hr := ho.reach
  have hmidL : ∀ d', Litter d d' → I d' := fun _ h => hI _ (mid_litter h)
  obtain ⟨s1, g1, g2, g3, ⟨o, g4, g5⟩, g6⟩ := setToNode_spec hr ho.head.1 ci
  have hA : ∀ x, s1.abs.Has x ↔ w.tree.abs.Has x := fun x => by rw [g6, note_has, note_has]
  have hst : Stored d s1.abs := fun x hx => ho.stored x ((hA x).1 hx)
  have hu : s1.abs.Has u := (abs_has_iff_get (wf_of_reach g2) u).2 ⟨_, g3⟩
  have hsp := ho.space
  have hcp : commitP E w ci = (do
      let (s2, mount, head) ← createMount s1 o.id
      let s3 ← moveBranch s2 (Ws.branchInfo w.ws) head
      saveAll E { w with tree := s3, mount := mount, ws := ⟨w.ws.id, w.ws.path, head, (Ws.branchInfo w.ws).localName⟩ }) := by
    unfold commitP
    simp only [g1, g4]
  rw [hcp, g5]
  refine wpm_bind (wpm_bind (wpm_weaken (createMount_wp g2 hu hst) hmidL (fun q d1 h1 => ?_) fun e d1 h1 => ?_))
  rotate_left
  · exact hE e d1 h1.2.1 h1.1 (Or.inl h1.2.2)
  obtain ⟨u', ls, hm⟩ := h1
  obtain ⟨s2, mo, r⟩ := q
  simp only at hm ⊢
  have hpath : w.tree.abs.Path u ls := by
    have := hm.path
    rwa [g6, note_path, note_path] at this
  have hnew : ¬ w.tree.abs.Has u' := fun h => hm.newNode ((hA _).2 h)
  have hnode : s2.abs.node u' = some ⟨some u, fun _ => none, fun _ => none⟩ := by rw [hm.abs]; simp [ATree.add]
  have hhead : (⟨w.ws.id, w.ws.path, r, w.ws.branch⟩ : Ws).HeadAt s2 u' u := ⟨hm.head, _, hnode, rfl⟩
  have hfol : Follows s2.abs w.ws u ↔ Follows w.tree.abs w.ws u := by
    unfold Follows
    have e1 : s2.abs.branch = w.tree.abs.branch := by rw [hm.abs, g6]; rfl
    have e2 : ∀ h, s2.abs.Anc h u ↔ w.tree.abs.Anc h u := by
      intro h
      rw [hm.abs, add_anc (reach_rooted g2) hm.newNode hu, g6, note_anc, note_anc]
    simp only [e1, e2]
  refine wpm_bind (wpm_weaken (I' := _) (moveBranch_wp (E := E) (f := f) (I := fun d' => d' = d1) hm.reach hhead) (fun x hx => ?_) (fun s3 d2 h2 => ?_) fun e d2 h2 => ?_)
  · rw [hx]; exact hmidL _ hm.litter
  rotate_left
  · obtain ⟨rfl, h1, h2⟩ := h2
    exact hE e _ h1 hm.litter (Or.inr fun h => h2 (hfol.2 h))
  obtain ⟨rfl, hf, hr3, hg3, ha3⟩ := h2
  have hf' := hfol.1 hf
  let w' : OpenWs := { w with tree := s3, mount := mo, ws := ⟨w.ws.id, w.ws.path, r, (Ws.branchInfo w.ws).localName⟩ }
  have hC : Committed w u ci w' u' := by
    refine ⟨hr3, hnew, ?_, ⟨?_, ?_⟩, rfl, rfl, rfl, rfl, rfl⟩
    · show s3.abs = _
      rw [ha3, hm.abs, g6]
      rfl
    · show s3.get u' = some r
      rw [hg3]; exact hm.head
    · refine ⟨⟨some u, fun _ => none, fun _ => none⟩, ?_, rfl⟩
      show s3.abs.node u' = _
      rw [ha3, ← hnode]
      cases w.ws.onBranch <;> rfl
  have hmnt : mo.dir = mo.id.base32 := by rw [hm.mount]
  have hoff : E.Off w'.ws.path := by
    show E.Off w.ws.path
    exact ho.off
  refine finish_wp (w := w') (N := Committed w u ci) (d0 := d) (litter_refl d) hm hst rfl hr3 hC hC.head.1 hsp hoff hm.newMdir
    (path_nodes (by show s3.abs.node = _; rw [ha3]; cases w.ws.onBranch <;> rfl) (newMount_path hm)) hI ?_ ?_
  · intro e d' h1 h2 h3
    exact hL e d' h2 hf' h1 (h3.imp_right fun h => ⟨w', u', ls, hC, hpath, h.1, h.2.2⟩)
  · intro d' h1 h2 _
    exact hk w' u' ls d' hC hpath hm.unused hf' h1 h2

/-- `commit` after the workspace has been opened (pkg/commands/commit.go:39-56). -/
def commitRest (E : Env) (ci : CommitInfo) (w : OpenWs) : M (OpenWs × OpenWs) := do
  let w' ← commitP E w ci
  expand E w'
  removeMount w.mount
  return (w, w')

theorem commitRest_wp {d : Disk} {w : OpenWs} {u p : UID} {ci : CommitInfo} (ho : Held E d w u p)
    (hmd : d.mdir w.mount.id.base32 ≠ none) :
    wpm E f (Mid E (Committed w u ci) w.spaceDir w.ws.path (· = w.mount.id.base32) (Hurt f d w.mount.id.base32) d) (commitRest E ci w)
      (fun r d' => r.1 = w ∧ Follows w.tree.abs w.ws u ∧ ∃ u' ls d1, Committed w u ci r.2 u' ∧ w.tree.abs.Path u ls ∧
        (Calm f d → r.2.mount.id ∉ d.used) ∧
        Placed E d d1 r.2 r.2.mount.id u' ls ∧ d' = removed w.mount.id.base32 d1)
      (fun e d' =>
        (e.early = true → Litter d d' ∧ (¬ Calm f d ∨ ¬ Follows w.tree.abs w.ws u)) ∧
        (e.early = false → Follows w.tree.abs w.ws u ∧
          Mid E (Committed w u ci) w.spaceDir w.ws.path (· = w.mount.id.base32) (Hurt f d w.mount.id.base32) d d' ∧
          (f.io = true ∨ ∃ w' u' ls, Committed w u ci w' u' ∧ w.tree.abs.Path u ls ∧
            (Late E d d' w' w'.mount.id u' ls ∧ (¬ E.Fits ls.length ∨ ¬ Clearable E d w.ws.path) ∨
             ∃ d1, Placed E d d1 w' w'.mount.id u' ls ∧ Wiped f w.mount.id.base32 d1 d')))) d := by
  have hmidM : ∀ d', Mid E (Committed w u ci) w.spaceDir w.ws.path (fun _ => False) (fun _ => False) d d' →
      Mid E (Committed w u ci) w.spaceDir w.ws.path (· = w.mount.id.base32) (Hurt f d w.mount.id.base32) d d' :=
    fun _ h => mid_mono h (fun _ _ h => h) (fun _ h => h.elim) (fun _ h => h.elim)
  unfold commitRest
  refine commitTo_wp (k := fun w' => removeMount w.mount >>= fun _ => Pure.pure (w, w')) ho hmidM ?_ ?_ ?_
  · exact fun e d' h1 h2 h3 => ⟨fun _ => ⟨h2, h3⟩, fun h => by rw [h1] at h; cases h⟩
  · intro e d' h1 hf' h2 h3
    refine ⟨fun h => (by rw [h1] at h; cases h), fun _ => ⟨hf', hmidM _ h2, ?_⟩⟩
    exact h3.imp_right fun ⟨w', u', ls, hC, hpath, h, h'⟩ => ⟨w', u', ls, hC, hpath, Or.inl ⟨h, h'⟩⟩
  · intro w' u' ls d' hC hpath hun hf' h1 h2
    have hne : w.mount.id.base32 ≠ w'.mount.id.base32 := by intro e; rw [e] at hmd; exact hmd h2.newMdir
    have hmn : d'.mnt w.mount.id.base32 = d.mnt w.mount.id.base32 := by rw [h2.mnt]; exact upd_ne _ _ hne
    have hdir : w.mount.dir = w.mount.id.base32 := ho.mount
    have hrem : ∀ x, Removing f w.mount.id.base32 d' x →
        Mid E (Committed w u ci) w.spaceDir w.ws.path (· = w.mount.id.base32) (Hurt f d w.mount.id.base32) d x :=
      fun x hx => mid_removing h1 hmn hmd hx
    refine wpm_bind (wpm_weaken (removeMount_wp hdir) hrem (fun _ d3 h3 => ?_) fun e d3 h3 => ?_)
    · exact wpm_pure ⟨rfl, hf', u', ls, d', hC, hpath, hun, h2, h3⟩
    · refine ⟨fun h => (by rw [h3.2.1] at h; cases h), fun _ => ⟨hf', hrem _ h3.1, ?_⟩⟩
      exact h3.2.2.imp_right fun h => ⟨w', u', ls, hC, hpath, Or.inr ⟨d', h2, h⟩⟩

/-- `commit` on a workspace that opens. -/
theorem commitCmd_wp {d : Disk} {cwd : Str} {w : OpenWs} {u p : UID} {ci : CommitInfo} (ho : Opens E d cwd (lit ".") w u p)
    (hmd : d.mdir w.mount.id.base32 ≠ none) :
    wpm E f (Mid E (Committed w u ci) w.spaceDir w.ws.path (· = w.mount.id.base32) (Hurt f d w.mount.id.base32) d) (commitCmd E cwd ci)
      (fun r d' => r.1 = w ∧ Follows w.tree.abs w.ws u ∧ ∃ u' ls d1, Committed w u ci r.2 u' ∧ w.tree.abs.Path u ls ∧
        (Calm f d → r.2.mount.id ∉ d.used) ∧
        Placed E d d1 r.2 r.2.mount.id u' ls ∧ d' = removed w.mount.id.base32 d1)
      (fun e d' =>
        (e.early = true → Litter d d' ∧ (¬ Calm f d ∨ ¬ Follows w.tree.abs w.ws u)) ∧
        (e.early = false → Follows w.tree.abs w.ws u ∧
          Mid E (Committed w u ci) w.spaceDir w.ws.path (· = w.mount.id.base32) (Hurt f d w.mount.id.base32) d d' ∧
          (f.io = true ∨ ∃ w' u' ls, Committed w u ci w' u' ∧ w.tree.abs.Path u ls ∧
            (Late E d d' w' w'.mount.id u' ls ∧ (¬ E.Fits ls.length ∨ ¬ Clearable E d w.ws.path) ∨
             ∃ d1, Placed E d d1 w' w'.mount.id u' ls ∧ Wiped f w.mount.id.base32 d1 d')))) d := by
  have hmidL : ∀ d', Litter d d' → Mid E (Committed w u ci) w.spaceDir w.ws.path (· = w.mount.id.base32) (Hurt f d w.mount.id.base32) d d' :=
    fun _ h => mid_litter h
  unfold commitCmd
  refine wpm_bind (wpm_weaken (getWorkspace_wp ho) (fun _ h => by rw [h]; exact hmidL _ (litter_refl d)) (fun w0 d0 h0 => ?_) fun e d0 h0 => ?_)
  rotate_left
  · obtain ⟨rfl, h1, h2⟩ := h0
    exact ⟨fun _ => ⟨litter_refl d0, Or.inl fun hc => by rw [hc.1] at h2; cases h2⟩, fun h => by rw [h1] at h; cases h⟩
  obtain ⟨rfl, rfl⟩ := h0
  exact commitRest_wp (held_of_opens ho) hmd

end
end Verif
