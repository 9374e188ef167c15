import Verif.World.Below
/-!
# A path that leads through a workspace

`Disk.user` gives each path of the user an entry of its own. A path below the path of a workspace leads through the link into the mount of
that workspace; what stands at it is what the mount shows there. Here one such path `p` is looked at: it leads to the place `q` in the
mount `n`, and a call that changes what stands at it changes the upper layer of that mount.

The calls are those of `Expand` on the path of a workspace (pkg/workspaces/workspace.go:80-118) and of `GetWorkspaceFromPath` (pkg/manager/manager_default.go:167-245).
What they do inside a mount is not code of this project but the kernel's: simplified to the entry at that path.
-/
set_option autoImplicit false
namespace Verif
open M TS Json
open Classical in
/-- What stands at a path that leads to `q` in the mount `n`. `lk` tells which files are symbolic links, and with which text. -/
noncomputable def Disk.entryAt (lk : Str → Option Str) (d : Disk) (n : Str) (q : List Str) : UEnt :=
  match d.shows n q with
  | some (.file data) => match lk data with
    | some t => .link t
    | none => .file
  | some (.dir _) => if ∀ x, d.shows n (x :: q) = none then .emptyDir else .dir
  | none => if q.tail = [] ∨ d.ShowsDir n q.tail then .none else .noParent

/-- The disk as it is seen by a process that comes to `q` in the mount `n` by the path `p`. -/
noncomputable def Disk.seen (lk : Str → Option Str) (p n : Str) (q : List Str) (d : Disk) : Disk := d.setUser p (d.entryAt lk n q)

/-- The call is about the path `p`. -/
def Cmd.On (p : Str) : Cmd → Prop
  | .exists_ r => r = p
  | .isEmptyDir r => r = p
  | .isSymlink r => r = p
  | .readlink r => r = p
  | .remove r => r = p
  | .symlink _ r => r = p
  | .lchown r => r = p
  | _ => False

/-- What stands at `q` in the mount `n` becomes what stands at `p` in `e`, by a change of the upper layer of that mount that is seen
nowhere else in it. -/
def Mirrored (lk : Str → Option Str) (p n : Str) (q : List Str) (d e d' : Disk) : Prop :=
  ∃ m x, d.mnt n = some m ∧ d' = d.put m.upper x ∧ (∀ r, r ≠ q → d'.shows n r = d.shows n r) ∧ d'.entryAt lk n q = e.user p

/-- One call while nothing goes wrong and the mount `n` is there: a call on the path `p` does to `q` in that mount what it does to a path of
its own. -/
def StepVia (E : Env) (lk : Str → Option Str) (p n : Str) (q : List Str) (c : Cmd) (d : Disk) (a : c.Ans) (d' : Disk) : Prop :=
  (c.On p → ∃ e, Step E Faults.none c (d.seen lk p n q) a e ∧ Mirrored lk p n q d e d') ∧ (¬ c.On p → Step E Faults.none c d a d')

/-- The runs of a program with these answers. -/
inductive ExecVia {α : Type} (E : Env) (lk : Str → Option Str) (p n : Str) (q : List Str) : Prog α → Disk → α → Disk → Prop where
  | ret (a : α) (d : Disk) : ExecVia E lk p n q (.ret a) d a d
  | op {c : Cmd} {k : c.Ans → Prog α} {d d1 d2 : Disk} {x : c.Ans} {a : α} :
      StepVia E lk p n q c d x d1 → ExecVia E lk p n q (k x) d1 a d2 → ExecVia E lk p n q (.op c k) d a d2

section
variable {α β : Type} {E : Env} {lk : Str → Option Str} {p n : Str} {q : List Str}

theorem execVia_bind {x : Prog α} {g : α → Prog β} {d d' : Disk} {b : β} (h : ExecVia E lk p n q (x.bind g) d b d') :
    ∃ a d1, ExecVia E lk p n q x d a d1 ∧ ExecVia E lk p n q (g a) d1 b d' := by
  induction x generalizing d with
  | ret a => exact ⟨a, d, .ret a d, h⟩
  | op c k ih =>
    rw [Prog.bind] at h
    cases h with
    | op hs he =>
      obtain ⟨a, d1, h1, h2⟩ := ih _ he
      exact ⟨a, d1, .op hs h1, h2⟩

theorem execVia_trans {x : Prog α} {g : α → Prog β} {d d1 d' : Disk} {a : α} {b : β} (h : ExecVia E lk p n q x d a d1)
    (h' : ExecVia E lk p n q (g a) d1 b d') : ExecVia E lk p n q (x.bind g) d b d' := by
  induction h with
  | ret a d => exact h'
  | op hs _ ih => exact .op hs (ih h')

end
end Verif
