import Verif.World.Prog
/-!
# A user's process, `sudo`, and the process that does the work

A command of a user who is not root starts itself again under `sudo` and waits (`SwitchToRootIfNecessary`, `RunAsRoot`). Modelled: the three processes, their exit codes, and interrupts.
-/
set_option autoImplicit false
namespace Verif
namespace Sudo

/-- The exit code of a process that runs alone (cmd/stackcrisp/main.go:16-27): `log.Fatal` exits with 1, a panic with 2, and a process that hangs has none. -/
def code {α : Type} : Res CErr α → Option Nat
  | .ok _ => some 0
  | .err _ => some 1
  | .panic => some 2
  | .diverge => none

/-- The process that runs as root. -/
inductive Child (α : Type) where
  | running (p : Prog (Res CErr α))
  | ended (n : Nat)

/-- The three processes and the disk. `none` is a process that has not ended. -/
structure St (α : Type) where
  child : Child α
  disk : Disk
  sudo : Option Nat
  parent : Option Nat
  /-- The context of the parent is cancelled (pkg/utils/context/signal.go:20-26). -/
  hit : Bool

/-- `RunAsRoot` has started `sudo` (pkg/utils/sudo/sudo.go:17-24). -/
def start {α : Type} (p : Prog (Res CErr α)) (d : Disk) : St α := ⟨.running p, d, none, none, false⟩

/-- What can happen next. `direct`: `sudo` has replaced itself by the program, so that both are one process; otherwise it waits for it. Only what the program does itself
changes the disk. Not modelled: `sudo` asking for a password or refusing, which ends it with 1 before the child starts. -/
inductive Step {α : Type} (E : Env) (f : Faults) (direct : Bool) : St α → St α → Prop where
  /-- The child makes a call. -/
  | call {s : St α} {c : Cmd} {k : c.Ans → Prog (Res CErr α)} {x : c.Ans} {d' : Disk} : s.child = .running (.op c k) → Verif.Step E f c s.disk x d' →
      Step E f direct s { s with child := .running (k x), disk := d' }
  /-- The child ends (cmd/stackcrisp/main.go:24-26). -/
  | finish {s : St α} {r : Res CErr α} {n : Nat} : s.child = .running (.ret r) → code r = some n → Step E f direct s { s with child := .ended n }
  /-- A signal for all processes of the terminal. The parent's context is cancelled; the child's too, but no command looks at it (C48). -/
  | interrupt {s : St α} : s.parent = none → Step E f direct s { s with hit := true }
  /-- Another signal may end the child (pkg/utils/context/signal.go:28-39). -/
  | second {s : St α} {p : Prog (Res CErr α)} : s.hit = true → s.child = .running p → Step E f direct s { s with child := .ended 130 }
  /-- `sudo` ends with the code of the program. -/
  | relay {s : St α} {n : Nat} : s.sudo = none → s.child = .ended n → Step E f direct s { s with sudo := some n }
  /-- `exec.CommandContext` kills `sudo` when the context is cancelled; a killed process has no exit code, 137 stands for it. `sudo` cannot pass this signal on. -/
  | kill {s : St α} : s.hit = true → s.parent = none → s.sudo = none → direct = false → Step E f direct s { s with sudo := some 137 }
  | killBoth {s : St α} {p : Prog (Res CErr α)} : s.hit = true → s.parent = none → s.sudo = none → direct = true → s.child = .running p →
      Step E f direct s { s with sudo := some 137, child := .ended 137 }
  /-- `cmd.Run` returns; an error or an exit code other than 0 makes the parent exit with 1 (pkg/utils/cmd/cmd_util.go:59-61, cmd/stackcrisp/main.go:24-26). -/
  | reap {s : St α} {n : Nat} : s.parent = none → s.sudo = some n → Step E f direct s { s with parent := some (if n = 0 then 0 else 1) }
  /-- `cmd.Run` may also return the error of the cancelled context. -/
  | late {s : St α} {n : Nat} : s.parent = none → s.sudo = some n → s.hit = true → Step E f direct s { s with parent := some 1 }

/-- Any number of steps. -/
inductive Steps {α : Type} (E : Env) (f : Faults) (direct : Bool) : St α → St α → Prop where
  | refl (s : St α) : Steps E f direct s s
  | tail {s t u : St α} : Steps E f direct s t → Step E f direct t u → Steps E f direct s u

end Sudo
end Verif
