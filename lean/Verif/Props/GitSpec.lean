import Verif.World.SeqCommit
import Verif.World.SeqEdit
import Verif.World.SeqInit
import Verif.World.SeqMove
import Verif.World.History
import Verif.World.Content

/-!
# A small machine to compare the program with

Nothing in this file mentions disks, mounts, layers or JSON. A repository is a tree of commits with branches and tags, a
commit has a snapshot of files, a workspace stands on a commit and holds files. The trees (`ATree`) and what an edit does to
them (`Edits`) are those of the rest of the specification.
-/

set_option autoImplicit false
namespace Verif
open M TS Json

/-- The files of a directory, by path. -/
abbrev Files := List Str → Option VEnt

/-- A workspace: the repository it belongs to, its ID, the branch it is on (empty: none), the commit it stands on, the ID its
next commit will have, the files in it. -/
structure GWs where
  repo : UID
  id : UID
  branch : Str
  next : UID
  on : UID
  files : Files

/-- The machine: the repositories, the snapshots of the commits, the workspaces by path. -/
structure Git where
  repo : UID → Option ATree
  snap : UID → Option Files
  ws : Str → Option GWs

/-- Nothing yet. -/
def Git.blank : Git := ⟨fun _ => none, fun _ => none, fun _ => none⟩

/-- No repository knows the ID. -/
def Git.New (G : Git) (v : UID) : Prop := G.snap v = none ∧ ∀ r a, G.repo r = some a → ¬ a.Has v

/-- The full name of the branch of the workspace. -/
def GWs.full (s : GWs) : Option Str := if s.branch = [] then none else some (s.id.base32 ++ lit "/" ++ s.branch)

/-- The part of the workspace that names depend on. -/
def GWs.names (s : GWs) : Ws := ⟨s.id, [], 0, s.branch⟩

/-- What is done. -/
inductive Deed where
  | init (path branch : Str)
  | clone (source target : Str)
  | commit (path date message : Str)
  | checkout (path key : Str)
  | edit (path : Str) (es : List Edit)
  | write (path : Str)
  | idle

/-- What it does. -/
inductive Git.Step : Deed → Git → Git → Prop where
  /-- A new repository with an empty root commit, its branch there, and a workspace on it without files. -/
  | init {G : Git} {path branch : Str} {r i root u : UID} : G.repo r = none → G.New root → G.New u → u ≠ root →
      Git.Step (.init path branch) G
        ⟨upd G.repo r (some (((ATree.first root).add (some root) u (fun _ => none) (fun _ => none)).setBranch (i.base32 ++ lit "/" ++ sanitize branch) root)),
          upd G.snap root (some fun _ => none), upd G.ws path (some ⟨r, i, sanitize branch, u, root, fun _ => none⟩)⟩
  /-- A second workspace of the same repository, on the same commit, with the files of that commit. -/
  | clone {G : Git} {source target : Str} {s : GWs} {a : ATree} {F : Files} {i u : UID} : G.ws source = some s → G.repo s.repo = some a →
      G.snap s.on = some F → G.New u →
      Git.Step (.clone source target) G
        ⟨upd G.repo s.repo (some (a.add (some s.on) u (fun _ => none) (fun _ => none))), G.snap, upd G.ws target (some ⟨s.repo, i, s.branch, u, s.on, F⟩)⟩
  /-- The files of the workspace become the snapshot of a new commit on top of the one it stands on; the branch moves there.
  The workspace keeps its files. -/
  | commit {G : Git} {path date message : Str} {s : GWs} {a : ATree} {u : UID} : G.ws path = some s → G.repo s.repo = some a →
      (∀ b, s.full = some b → ∃ h, a.branch b = some h ∧ a.Anc h s.next) → G.New u →
      Git.Step (.commit path date message) G
        ⟨upd G.repo s.repo (some (a.commit s.full s.next u (sanitize date) (sanitize message))), upd G.snap s.next (some s.files),
          upd G.ws path (some { s with on := s.next, next := u })⟩
  /-- The files of the workspace are put aside under the ID the next commit would have had, and replaced by those of the commit
  the key leads to. -/
  | checkout {G : Git} {path key : Str} {s : GWs} {a : ATree} {v : UID} {kt : KeyType} {F : Files} {u : UID} : G.ws path = some s →
      G.repo s.repo = some a → Ws.Resolves a s.id s.on key v kt → G.snap v = some F → G.New u →
      Git.Step (.checkout path key) G
        ⟨upd G.repo s.repo (some (a.add (some v) u (fun _ => none) (fun _ => none))), upd G.snap s.next (some s.files),
          upd G.ws path (some { s with branch := sanitize (branchAfter key kt), on := v, next := u, files := F })⟩
  /-- Branches and tags change, nothing else. -/
  | edit {G : Git} {path : Str} {es : List Edit} {s : GWs} {a a' : ATree} : G.ws path = some s → G.repo s.repo = some a →
      EditsAll s.names s.on es a a' →
      Git.Step (.edit path es) G ⟨upd G.repo s.repo (some a'), G.snap, G.ws⟩
  /-- The files of one workspace change. -/
  | write {G : Git} {path : Str} {s : GWs} {F : Files} : G.ws path = some s →
      Git.Step (.write path) G ⟨G.repo, G.snap, upd G.ws path (some { s with files := F })⟩
  | idle {G : Git} : Git.Step .idle G G

/-- One deed after another. -/
inductive Git.Run : List Deed → Git → Git → Prop where
  | nil {G : Git} : Git.Run [] G G
  | snoc {G G1 G2 : Git} {as : List Deed} {a : Deed} : Git.Run as G G1 → Git.Step a G1 G2 → Git.Run (as ++ [a]) G G2

/-- The path at which a deed may change a workspace. -/
def Deed.at : Deed → Option Str
  | .init p _ => some p
  | .clone _ p => some p
  | .commit p _ _ => some p
  | .checkout p _ => some p
  | .edit _ _ => none
  | .write p => some p
  | .idle => none

/-- A step changes at most the workspace it names. -/
theorem Git.step_ws {a : Deed} {G G' : Git} (h : Git.Step a G G') {p : Str} (hp : a.at ≠ some p) : G'.ws p = G.ws p := by
  cases h <;> first | rfl | exact upd_ne _ _ fun e => hp (by rw [e]; rfl)

/-- What the machine never does: two workspaces with the same next ID, or a next ID that has a snapshot. -/
structure Git.Good (G : Git) : Prop where
  one : ∀ p p' s s', G.ws p = some s → G.ws p' = some s' → s.next = s'.next → p = p'
  open_ : ∀ p s, G.ws p = some s → G.snap s.next = none ∧ ∃ a, G.repo s.repo = some a ∧ a.Has s.next

theorem Git.good_blank : Git.blank.Good := ⟨nofun, nofun⟩

theorem Git.step_grows {a : Deed} {G G' : Git} (h : Git.Step a G G') {r : UID} {t : ATree} (ht : G.repo r = some t) :
    ∃ t', G'.repo r = some t' ∧ ∀ v, t.Has v → t'.Has v := by
  have key : ∀ {R : UID} {t0 t1 : ATree}, G.repo R = some t0 → (∀ v, t0.Has v → t1.Has v) → ∃ t', upd G.repo R (some t1) r = some t' ∧ ∀ v, t.Has v → t'.Has v := by
    intro R t0 t1 h0 h1
    by_cases e : r = R
    · subst e; rw [ht] at h0; cases h0; exact ⟨_, upd_self _ _ _, h1⟩
    · exact ⟨t, by rw [upd_ne _ _ e]; exact ht, fun _ hv => hv⟩
  cases h with
  | init h1 _ _ _ => exact ⟨t, by show upd _ _ _ _ = _; rw [upd_ne _ _ (fun e => by rw [← e, ht] at h1; cases h1)]; exact ht, fun _ hv => hv⟩
  | clone _ h2 _ _ => exact key h2 fun v hv => add_has.2 (Or.inr hv)
  | commit _ h2 _ _ =>
    refine key h2 fun v hv => ?_
    rw [ATree.Has, commit_node]
    exact add_has.2 (Or.inr (by rw [note_has, note_has]; exact hv))
  | checkout _ h2 _ _ _ => exact key h2 fun v hv => add_has.2 (Or.inr hv)
  | edit _ h2 h3 => exact key h2 fun v hv => by rw [ATree.Has, (editsAll_node h3).1]; exact hv
  | write _ => exact ⟨t, ht, fun _ hv => hv⟩
  | idle => exact ⟨t, ht, fun _ hv => hv⟩

theorem Git.good_place {G : Git} (h : G.Good) {path : Str} {s : GWs} {R : UID → Option ATree} {S : UID → Option Files}
    (hR : ∀ r t, G.repo r = some t → ∃ t', R r = some t' ∧ ∀ v, t.Has v → t'.Has v) (hs : ∃ a, R s.repo = some a ∧ a.Has s.next) (hnew : G.New s.next)
    (hS : ∀ v, S v ≠ none → G.snap v ≠ none ∨ v ≠ s.next ∧ ∀ p s', p ≠ path → G.ws p = some s' → v ≠ s'.next) : (⟨R, S, upd G.ws path (some s)⟩ : Git).Good := by
  have hne : ∀ p s', G.ws p = some s' → s'.next ≠ s.next := by
    intro p s' hp e
    obtain ⟨_, a, h1, h2⟩ := h.open_ p s' hp
    exact hnew.2 _ _ h1 (e ▸ h2)
  refine ⟨fun p p' s1 s2 h1 h2 e => ?_, fun p s1 h1 => ?_⟩
  · by_cases hp : p = path
    · subst hp
      by_cases hp' : p' = p
      · exact hp'.symm
      · simp only [upd_self, Option.some.injEq] at h1
        simp only [upd_ne _ _ hp'] at h2
        subst h1
        exact absurd e.symm (hne _ _ h2)
    · simp only [upd_ne _ _ hp] at h1
      by_cases hp' : p' = path
      · subst hp'
        simp only [upd_self, Option.some.injEq] at h2
        subst h2
        exact absurd e (hne _ _ h1)
      · simp only [upd_ne _ _ hp'] at h2
        exact h.one _ _ _ _ h1 h2 e
  · by_cases hp : p = path
    · subst hp
      simp only [upd_self, Option.some.injEq] at h1
      subst h1
      refine ⟨Classical.byContradiction fun hx => ?_, hs⟩
      rcases hS _ hx with e | ⟨e, _⟩
      · exact e hnew.1
      · exact e rfl
    · simp only [upd_ne _ _ hp] at h1
      obtain ⟨e1, a, e2, e3⟩ := h.open_ _ _ h1
      refine ⟨Classical.byContradiction fun hx => ?_, ?_⟩
      · rcases hS _ hx with e | ⟨_, e⟩
        · exact e e1
        · exact e _ _ hp h1 rfl
      · obtain ⟨a', f1, f2⟩ := hR _ _ e2
        exact ⟨a', f1, f2 _ e3⟩

theorem Git.good_step {a : Deed} {G G' : Git} (h : G.Good) (hs : Git.Step a G G') : G'.Good := by
  have hg := @Git.step_grows _ _ _ hs
  have aside : ∀ {path : Str} {s : GWs} {u : UID} {F : Files}, G.ws path = some s → G.New u → ∀ v, upd G.snap s.next (some F) v ≠ none →
      G.snap v ≠ none ∨ v ≠ u ∧ ∀ p s', p ≠ path → G.ws p = some s' → v ≠ s'.next := by
    intro path s u F h1 hu v hv
    by_cases e : v = s.next
    · subst e
      refine Or.inr ⟨fun e => ?_, fun p s' hp h2 e => hp (h.one _ _ _ _ h2 h1 e.symm)⟩
      obtain ⟨_, a, f1, f2⟩ := h.open_ _ _ h1
      exact hu.2 _ _ f1 (e ▸ f2)
    · rw [upd_ne _ _ e] at hv; exact Or.inl hv
  cases hs with
  | @init _ path branch r i root u h1 h2 h3 h4 =>
    refine Git.good_place h (fun r t ht => hg ht) ⟨_, upd_self _ _ _, ?_⟩ h3 fun v hv => ?_
    · exact (add_has (a := ATree.first root) (u := u) (p := some root)).2 (Or.inl rfl)
    · by_cases e : v = root
      · subst e
        refine Or.inr ⟨Ne.symm h4, fun p s' _ hp e => ?_⟩
        obtain ⟨_, a, f1, f2⟩ := h.open_ _ _ hp
        exact h2.2 _ _ f1 (e ▸ f2)
      · rw [upd_ne _ _ e] at hv; exact Or.inl hv
  | clone h1 h2 h3 h4 =>
    exact Git.good_place h (fun r t ht => hg ht) ⟨_, upd_self _ _ _, add_has.2 (Or.inl rfl)⟩ h4 fun v hv => Or.inl hv
  | commit h1 h2 h3 h4 =>
    refine Git.good_place h (fun r t ht => hg ht) ⟨_, upd_self _ _ _, ?_⟩ h4 (aside h1 h4)
    rw [ATree.Has, commit_node]
    exact add_has.2 (Or.inl rfl)
  | checkout h1 h2 h3 h4 h5 =>
    exact Git.good_place h (fun r t ht => hg ht) ⟨_, upd_self _ _ _, add_has.2 (Or.inl rfl)⟩ h5 (aside h1 h5)
  | edit h1 h2 h3 =>
    refine ⟨h.one, fun p s hp => ?_⟩
    obtain ⟨e1, a, e2, e3⟩ := h.open_ _ _ hp
    obtain ⟨a', f1, f2⟩ := hg e2
    exact ⟨e1, a', f1, f2 _ e3⟩
  | @write _ path s F h1 =>
    have old : ∀ {p : Str} {s' : GWs}, upd G.ws path (some { s with files := F }) p = some s' → ∃ s0, G.ws p = some s0 ∧ s'.next = s0.next ∧ s'.repo = s0.repo := by
      intro p s' hp
      by_cases e : p = path
      · subst e; rw [upd_self] at hp; cases hp; exact ⟨s, h1, rfl, rfl⟩
      · rw [upd_ne _ _ e] at hp; exact ⟨s', hp, rfl, rfl⟩
    refine ⟨fun p p' s1 s2 g1 g2 e => ?_, fun p s1 g1 => ?_⟩
    · obtain ⟨t1, a1, a2, _⟩ := old g1
      obtain ⟨t2, b1, b2, _⟩ := old g2
      exact h.one _ _ _ _ a1 b1 (by rw [← a2, ← b2]; exact e)
    · obtain ⟨t1, a1, a2, a3⟩ := old g1
      rw [a2, a3]; exact h.open_ _ _ a1
  | idle => exact h

/-- A snapshot never changes. -/
theorem Git.snap_step {a : Deed} {G G' : Git} (h : G.Good) (hs : Git.Step a G G') {v : UID} {F : Files} (hv : G.snap v = some F) : G'.snap v = some F := by
  have ne : ∀ {w : UID} {X : Option Files}, G.snap w = none → upd G.snap w X v = some F := fun hw => by
    rw [upd_ne _ _ (fun e => by rw [← e, hv] at hw; cases hw)]; exact hv
  cases hs with
  | init _ h2 _ _ => exact ne h2.1
  | clone _ _ _ _ => exact hv
  | commit h1 _ _ _ => exact ne (h.open_ _ _ h1).1
  | checkout h1 _ _ _ _ => exact ne (h.open_ _ _ h1).1
  | edit _ _ _ => exact hv
  | write _ => exact hv
  | idle => exact hv

end Verif
