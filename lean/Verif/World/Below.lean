import Verif.World.Cwd
/-!
# Directories below the top of a mount

`Step` says nothing about the answers to questions about paths inside a mount. Here those about a directory below the top of a mount are
given, for a process whose `PWD` is not set, or does not lead to its working directory: then `os.Getwd` answers with the real path of that
directory, which is a path below `<data root>/mounts`.
-/
set_option autoImplicit false
namespace Verif
open M TS Json

/-- The path `p` is the real path of what the mount `i` shows at `xs`, below its top. -/
def Env.Below (E : Env) (p : Str) (i : UID) (xs : List Str) : Prop :=
  xs ≠ [] ∧ Path.comps p = Path.comps E.root ++ [lit "mounts", i.base32, lit "merged"] ++ xs

/-- The mount `n` shows a directory at `q`. -/
def Disk.ShowsDir (d : Disk) (n : Str) (q : List Str) : Prop := ∃ at', d.shows n q = some (.dir at')

/-- The upper layer of the mount `n` is changed so that the mount shows `x` at `q`, and what it showed everywhere else. -/
def Shown (d : Disk) (n : Str) (m : Mnt) (q : List Str) (x : Option VEnt) (d' : Disk) : Prop :=
  ∃ c, d' = d.put m.upper c ∧ ∀ r, d'.shows n r = if r = q then x else d.shows n r

/-- One call, while nothing goes wrong: `os.Stat`, `os.Remove`, `os.Symlink` and `os.Lchown` do to the directories and files that a
mount shows what they do everywhere. (A link inside a mount counts as a file.) The directory that is removed may be the working directory of
a process, of this one too. Every change of the working directory succeeds. -/
def StepBelow (E : Env) : (c : Cmd) → Disk → c.Ans → Disk → Prop
  | .isSymlink p, d, a, d' => Step E Faults.none (.isSymlink p) d a d' ∧ ∀ i xs, E.Below p i xs → d.ShowsDir i.base32 xs.reverse → a = false
  | .exists_ p, d, a, d' => Step E Faults.none (.exists_ p) d a d' ∧ ∀ i xs, E.Below p i xs → d.ShowsDir i.base32 xs.reverse → a = true
  | .remove p, d, a, d' => Step E Faults.none (.remove p) d a d' ∧ ∀ i xs m, E.Below p i xs → d.mnt i.base32 = some m → d.ShowsDir i.base32 xs.reverse →
      ((∀ x, d.shows i.base32 (x :: xs.reverse) = none) → a = true ∧ Shown d i.base32 m xs.reverse none d') ∧
      ((∃ x, d.shows i.base32 (x :: xs.reverse) ≠ none) → a = false ∧ d' = d)
  | .symlink t p, d, a, d' => Step E Faults.none (.symlink t p) d a d' ∧ ∀ i xs m, E.Below p i xs → d.mnt i.base32 = some m →
      (xs.reverse.tail = [] ∨ d.ShowsDir i.base32 xs.reverse.tail) → d.shows i.base32 xs.reverse = none → a = true ∧ ∃ data, Shown d i.base32 m xs.reverse (some (.file data)) d'
  | .lchown p, d, a, d' => Step E Faults.none (.lchown p) d a d' ∧ ∀ i xs m, E.Below p i xs → d.mnt i.base32 = some m →
      (∃ data, d.shows i.base32 xs.reverse = some (.file data)) → a = true ∧ ∃ data, Shown d i.base32 m xs.reverse (some (.file data)) d'
  | c, d, a, d' => Step E Faults.none c d a d'

/-- The runs of a program with these answers. -/
inductive ExecBelow {α : Type} (E : Env) : Prog α → Disk → α → Disk → Prop where
  | ret (a : α) (d : Disk) : ExecBelow E (.ret a) d a d
  | op {c : Cmd} {k : c.Ans → Prog α} {d d1 d2 : Disk} {x : c.Ans} {a : α} :
      StepBelow E c d x d1 → ExecBelow E (k x) d1 a d2 → ExecBelow E (.op c k) d a d2

section
variable {α β : Type} {E : Env}

theorem execBelow_bind {p : Prog α} {g : α → Prog β} {d d' : Disk} {b : β} (h : ExecBelow E (p.bind g) d b d') :
    ∃ a d1, ExecBelow E p d a d1 ∧ ExecBelow E (g a) d1 b d' := by
  induction p generalizing d with
  | ret a => exact ⟨a, d, .ret a d, h⟩
  | op c k ih =>
    rw [Prog.bind] at h
    cases h with
    | op hs he =>
      obtain ⟨a, d1, h1, h2⟩ := ih _ he
      exact ⟨a, d1, .op hs h1, h2⟩

theorem execBelow_trans {p : Prog α} {g : α → Prog β} {d d1 d' : Disk} {a : α} {b : β} (h : ExecBelow E p d a d1)
    (h' : ExecBelow E (g a) d1 b d') : ExecBelow E (p.bind g) d b d' := by
  induction h with
  | ret a d => exact h'
  | op hs _ ih => exact .op hs (ih h')

theorem stepBelow_step {c : Cmd} {d d' : Disk} {a : c.Ans} (h : StepBelow E c d a d') : Step E Faults.none c d a d' := by
  cases c with
  | isSymlink p => exact h.1
  | exists_ p => exact h.1
  | remove p => exact h.1
  | symlink t p => exact h.1
  | lchown p => exact h.1
  | _ => exact h

/-- These runs are runs. -/
theorem execBelow_exec {p : Prog α} {d d' : Disk} {a : α} (h : ExecBelow E p d a d') : Exec E Faults.none p d a d' := by
  induction h with
  | ret a d => exact .ret a d
  | op hs _ ih => exact .op (stepBelow_step hs) ih

/-- The call is not about a path that a user gave. -/
def Cmd.Flat : Cmd → Prop
  | .isSymlink _ => False
  | .exists_ _ => False
  | .remove _ => False
  | .symlink _ _ => False
  | .lchown _ => False
  | _ => True

/-- The program makes such calls only. -/
def FlatP : Prog α → Prop
  | .ret _ => True
  | .op c k => c.Flat ∧ ∀ x, FlatP (k x)

theorem flat_of_calm {p : Prog α} (h : CalmP (fun _ => False) p) : FlatP p := by
  induction p with
  | ret a => trivial
  | op c k ih =>
    refine ⟨?_, fun x => ih x (h.2 x)⟩
    have := h.1
    cases c <;> first | trivial | exact this.elim

theorem execBelow_of_flat {p : Prog α} (h : FlatP p) {d d' : Disk} {a : α} (he : Exec E Faults.none p d a d') : ExecBelow E p d a d' := by
  induction he with
  | ret a d => exact .ret a d
  | @op c k d d1 d2 x a hs _ ih =>
    refine .op (x := x) (d1 := d1) ?_ (ih (h.2 _))
    have := h.1
    cases c <;> first | exact hs | exact this.elim

theorem removeMount_flat (m : MountObj) : FlatP (α := Res CErr Unit) (removeMount m) := by
  unfold removeMount
  refine ⟨trivial, fun a => ?_⟩
  cases a
  · exact trivial
  refine ⟨trivial, fun a => ?_⟩
  cases a
  · exact trivial
  refine ⟨trivial, fun a => ⟨trivial, fun a => ?_⟩⟩
  cases a
  · exact trivial
  refine ⟨trivial, fun a => ?_⟩
  cases a
  · exact ⟨trivial, fun a => by cases a <;> trivial⟩
  · exact ⟨trivial, fun a => by cases a <;> trivial⟩
  · exact trivial

theorem below_only {p : Str} {i j : UID} {xs ys : List Str} (h : E.Below p i xs) (h' : E.Below p j ys) : j = i ∧ ys = xs := by
  have e := h'.2
  rw [h.2, List.append_assoc, List.append_assoc] at e
  have e := List.append_cancel_left e
  simp only [List.cons_append, List.nil_append, List.cons.injEq, true_and] at e
  exact ⟨(base32_inj e.1).symm, e.2.symm⟩

theorem below_inside {p : Str} {i : UID} {xs : List Str} (h : E.Below p i xs) : E.Inside p i.base32 := ⟨xs, h.2⟩

end
end Verif
