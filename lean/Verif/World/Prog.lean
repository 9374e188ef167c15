import Verif.World.Disk
import Verif.Ws.Model
/-!
# Programs over single effects

A command is a program that makes calls one after the other. It can be stopped after any call, and other programs can run
between any two calls.
-/
set_option autoImplicit false
namespace Verif

/-- A program: finished with a result, or a call and what to do with its answer. -/
inductive Prog (α : Type) where
  | ret (a : α)
  | op (c : Cmd) (k : c.Ans → Prog α)

namespace Prog
variable {α β : Type}

/-- Sequencing. -/
def bind : Prog α → (α → Prog β) → Prog β
  | ret a, f => f a
  | op c k, f => op c fun a => bind (k a) f

end Prog

/-- One call. -/
def call (c : Cmd) : Prog c.Ans := .op c .ret

section
variable {α β : Type}

/-- `Exec E f p d a d'`: run alone from `d`, the program `p` ends with `a` and leaves `d'`. -/
inductive Exec (E : Env) (f : Faults) : Prog α → Disk → α → Disk → Prop where
  | ret (a : α) (d : Disk) : Exec E f (.ret a) d a d
  | op {c : Cmd} {k : c.Ans → Prog α} {d d1 d2 : Disk} {x : c.Ans} {a : α} :
      Step E f c d x d1 → Exec E f (k x) d1 a d2 → Exec E f (.op c k) d a d2

/-- `Stops E f p d d'`: run alone from `d`, the program `p` can be killed when the disk is `d'`. A kill during a call is a
kill after that call failed half way, so it is covered if `f.io` is set. -/
inductive Stops (E : Env) (f : Faults) : Prog α → Disk → Disk → Prop where
  | here (p : Prog α) (d : Disk) : Stops E f p d d
  | op {c : Cmd} {k : c.Ans → Prog α} {d d1 d2 : Disk} {x : c.Ans} :
      Step E f c d x d1 → Stops E f (k x) d1 d2 → Stops E f (.op c k) d d2

/-- Weakest precondition: from `d`, `I` holds after every call and `Q` at the end, whatever the calls answer. -/
def wp (E : Env) (f : Faults) (I : Disk → Prop) : Prog α → (α → Disk → Prop) → Disk → Prop
  | .ret a, Q, d => Q a d
  | .op c k, Q, d => ∀ x d', Step E f c d x d' → I d' ∧ wp E f I (k x) Q d'

variable {E : Env} {f : Faults} {I : Disk → Prop}

theorem wp_exec {p : Prog α} {Q : α → Disk → Prop} {d d' : Disk} {a : α} (h : wp E f I p Q d) (he : Exec E f p d a d') : Q a d' := by
  induction he with
  | ret a d => exact h
  | op hs _ ih => exact ih (h _ _ hs).2

theorem wp_stops {p : Prog α} {Q : α → Disk → Prop} {d d' : Disk} (h : wp E f I p Q d) (hd : I d) (he : Stops E f p d d') : I d' := by
  induction he with
  | here p d => exact hd
  | op hs _ ih => exact ih (h _ _ hs).2 (h _ _ hs).1

theorem wp_mono {p : Prog α} {Q Q' : α → Disk → Prop} {d : Disk} (h : wp E f I p Q d) (hq : ∀ a d, Q a d → Q' a d) :
    wp E f I p Q' d := by
  induction p generalizing d with
  | ret a => exact hq _ _ h
  | op c k ih => exact fun x d' hs => ⟨(h x d' hs).1, ih x (h x d' hs).2⟩

theorem wp_bind {p : Prog α} {g : α → Prog β} {Q : β → Disk → Prop} {d : Disk} :
    wp E f I (p.bind g) Q d ↔ wp E f I p (fun a d' => wp E f I (g a) Q d') d := by
  induction p generalizing d with
  | ret a => rfl
  | op c k ih =>
    constructor
    · exact fun h x d' hs => ⟨(h x d' hs).1, ih x |>.1 (h x d' hs).2⟩
    · exact fun h x d' hs => ⟨(h x d' hs).1, ih x |>.2 (h x d' hs).2⟩

theorem wp_ret {a : α} {Q : α → Disk → Prop} {d : Disk} : wp E f I (.ret a) Q d ↔ Q a d := Iff.rfl

theorem wp_op {c : Cmd} {k : c.Ans → Prog α} {Q : α → Disk → Prop} {d : Disk} :
    wp E f I (.op c k) Q d ↔ ∀ x d', Step E f c d x d' → I d' ∧ wp E f I (k x) Q d' := Iff.rfl

theorem wp_and {p : Prog α} {Q Q' : α → Disk → Prop} {d : Disk} {I' : Disk → Prop} (h : wp E f I p Q d) (h' : wp E f I' p Q' d) :
    wp E f (fun d => I d ∧ I' d) p (fun a d => Q a d ∧ Q' a d) d := by
  induction p generalizing d with
  | ret a => exact ⟨h, h'⟩
  | op c k ih => exact fun x d1 hs => ⟨⟨(h x d1 hs).1, (h' x d1 hs).1⟩, ih x (h x d1 hs).2 (h' x d1 hs).2⟩

/-- The weakest precondition is exactly what holds after every run and at every kill. -/
theorem wp_iff {p : Prog α} {Q : α → Disk → Prop} {d : Disk} (hd : I d) :
    wp E f I p Q d ↔ (∀ a d', Exec E f p d a d' → Q a d') ∧ ∀ d', Stops E f p d d' → I d' := by
  constructor
  · exact fun h => ⟨fun a d' => wp_exec h, fun d' => wp_stops h hd⟩
  · intro h
    induction p generalizing d with
    | ret a => exact h.1 _ _ (.ret a d)
    | op c k ih =>
      intro x d1 hs
      have hI : I d1 := h.2 _ (.op hs (.here _ _))
      exact ⟨hI, ih x hI ⟨fun a d' he => h.1 a d' (.op hs he), fun d' he => h.2 d' (.op hs he)⟩⟩

theorem exec_bind {p : Prog α} {g : α → Prog β} {d d' : Disk} {b : β} (h : Exec E f (p.bind g) d b d') :
    ∃ a d1, Exec E f p d a d1 ∧ Exec E f (g a) d1 b d' := by
  induction p generalizing d with
  | ret a => exact ⟨a, d, .ret a d, h⟩
  | op c k ih =>
    rw [Prog.bind] at h
    cases h with
    | op hs he =>
      obtain ⟨a, d1, h1, h2⟩ := ih _ he
      exact ⟨a, d1, .op hs h1, h2⟩

theorem exec_trans {p : Prog α} {g : α → Prog β} {d d1 d' : Disk} {a : α} {b : β} (h : Exec E f p d a d1)
    (h' : Exec E f (g a) d1 b d') : Exec E f (p.bind g) d b d' := by
  induction h with
  | ret a d => exact h'
  | op hs _ ih => exact .op hs (ih h')

/-- From every disk there is a run. -/
theorem exec_exists (hr : f.rep = true) (p : Prog α) (d : Disk) : ∃ a d', Exec E f p d a d' := by
  induction p generalizing d with
  | ret a => exact ⟨a, d, .ret a d⟩
  | op c k ih =>
    obtain ⟨x, d1, hs⟩ := step_total E f c d ⟨UID.new 0 0, Or.inr hr⟩
    obtain ⟨a, d', he⟩ := ih x d1
    exact ⟨a, d', .op hs he⟩

end

/-! ## Errors -/

/-- The errors of the commands, one per place. -/
inductive CErr where
  /-- pkg/manager/manager_default.go:175-196. -/
  | path
  /-- pkg/manager/manager_default.go:449-451. -/
  | infoRead
  /-- pkg/manager/manager_default.go:455-457. -/
  | infoJson
  /-- pkg/manager/manager_default.go:205-208. -/
  | wsID
  /-- pkg/manager/manager_default.go:212-215. -/
  | spaceID
  /-- pkg/manager/manager_default.go:221-223. -/
  | space (e : SpaceErr)
  /-- pkg/manager/manager_default.go:235-238. -/
  | headHex
  /-- pkg/manager/manager_default.go:239-242. -/
  | headMissing
  /-- pkg/commands/init.go:41-43. -/
  | notEmpty
  /-- pkg/manager/manager_default.go:470-472. -/
  | mkdirSpace
  /-- pkg/manager/manager_default.go:494-496. -/
  | mkdirMount
  /-- pkg/layers/manager.go:48-50. -/
  | mkdirLayer
  /-- pkg/layers/layer.go:54-56. -/
  | mkdirDiff
  /-- pkg/spaces/default.go:130-133. -/
  | layerNotFound
  /-- pkg/spaces/default.go:71-77, :145-147; pkg/manager/manager_default.go:148-150, :311-313. -/
  | tree (e : TreeErr)
  /-- pkg/spaces/default.go:171-174. -/
  | getLayer
  /-- pkg/mounts/mount.go:36-38. -/
  | tooFew
  /-- pkg/manager/manager_default.go:343-346. -/
  | keyNotFound
  /-- Errors of the workspace methods. -/
  | ws (e : Ws.Err)
  /-- pkg/spaces/default.go:119-121. -/
  | saveTree
  /-- pkg/manager/manager_default.go:433-435. -/
  | saveInfo
  /-- pkg/mounts/mount_linux.go:26-42. -/
  | mount
  /-- pkg/workspaces/workspace.go:90-96, :113-115; pkg/manager/manager_default.go:252-258, :280-282. -/
  | cwd
  /-- pkg/workspaces/workspace.go:101-103. -/
  | clearPath
  /-- pkg/workspaces/workspace.go:108-110. -/
  | symlink
  /-- pkg/manager/manager_default.go:268-270. -/
  | removeData
  /-- pkg/manager/manager_default.go:275-277. -/
  | removeInfo
  deriving DecidableEq, Repr

/-- Errors that are returned before the tree is saved. -/
def CErr.early : CErr → Bool
  | .saveTree | .saveInfo | .mount | .cwd | .clearPath | .symlink | .removeData | .removeInfo => false
  | _ => true

/-- A Go function that makes calls and may fail. -/
def M (α : Type) : Type := Prog (Res CErr α)

namespace M
variable {α β : Type}

/-- Return a value. -/
def pure (a : α) : M α := Prog.ret (.ok a)
/-- Return an error. -/
def fail (e : CErr) : M α := Prog.ret (.err e)
/-- A computation without calls. -/
def lift {ε : Type} (g : ε → CErr) : Res ε α → M α
  | .ok a => Prog.ret (.ok a)
  | .err e => Prog.ret (.err (g e))
  | .panic => Prog.ret .panic
  | .diverge => Prog.ret .diverge
/-- `if err != nil { return err }`. -/
def bind (x : M α) (g : α → M β) : M β :=
  Prog.bind x fun r =>
    match r with
    | .ok a => g a
    | .err e => Prog.ret (.err e)
    | .panic => Prog.ret .panic
    | .diverge => Prog.ret .diverge
/-- Make a call. -/
def ask (c : Cmd) : M c.Ans := Prog.op c fun a => Prog.ret (.ok a)
/-- Go on if `b`, else fail. -/
def need (b : Bool) (e : CErr) : M Unit := if b then pure () else fail e
instance : Monad M where
  pure := pure
  bind := bind

end M
end Verif
