/-!
# `pkg/utils/context/signal.go`

The goroutine that `Notify` starts, next to the Go runtime that delivers signals and to everyone else who may cancel the
context.
-/
set_option autoImplicit false
namespace Verif
namespace Sig

/-- Where the goroutine is (pkg/utils/context/signal.go:20-39). -/
inductive Watcher where
  /-- There is none: the parent was cancelled already (pkg/utils/context/signal.go:18). -/
  | absent
  /-- At the first `select` (pkg/utils/context/signal.go:22-26). -/
  | first
  /-- It has read a signal and is about to call `cancel` (pkg/utils/context/signal.go:25). -/
  | cancelling
  /-- At the second `select` (pkg/utils/context/signal.go:28-38). -/
  | second
  /-- It has returned. -/
  | returned
  deriving DecidableEq, Repr

/-- The state of the process, as far as `Notify` can see it. `sent` are the signals that the runtime has passed on, in their order
(including those that it had to drop), so that properties can speak of them. Signals that arrive before the runtime has
passed on an earlier one of the same kind are merged by the kernel; each that remains is one entry. -/
structure St where
  /-- The channel (pkg/utils/context/signal.go:15). -/
  chan : List Nat
  /-- `ctx.Err() ≠ nil`. -/
  cancelled : Bool
  watcher : Watcher
  /-- The exit code, once the process has ended by `os.Exit`. -/
  exit : Option Nat
  sent : List Nat
  /-- Someone else cancelled: the parent, or the caller by the returned function. -/
  outside : Bool
  deriving DecidableEq, Repr

/-- `make(chan os.Signal, 5)` (pkg/utils/context/signal.go:15). -/
def cap : Nat := 5

/-- `Notify` (pkg/utils/context/signal.go:11-42): the goroutine is only started if the parent is not cancelled yet. Nothing was delivered so far. -/
def notify (parentCancelled : Bool) : St :=
  ⟨[], parentCancelled, if parentCancelled then .absent else .first, none, [], parentCancelled⟩

/-- A step of the goroutine. A `select` with two ready cases takes either (pkg/utils/context/signal.go:22, :28). A received signal is always a
`syscall.Signal` that is not nil and the channel is never closed, so the process ends with 128+n (pkg/utils/context/signal.go:31-37). -/
inductive Watch : St → St → Prop where
  | firstDone {s : St} : s.watcher = .first → s.cancelled = true → Watch s { s with watcher := .second }
  | firstSignal {s : St} {n : Nat} {l : List Nat} : s.watcher = .first → s.chan = n :: l → Watch s { s with chan := l, watcher := .cancelling }
  | cancel {s : St} : s.watcher = .cancelling → Watch s { s with cancelled := true, watcher := .second }
  | secondDone {s : St} : s.watcher = .second → s.cancelled = true → Watch s { s with watcher := .returned }
  | secondSignal {s : St} {n : Nat} {l : List Nat} : s.watcher = .second → s.chan = n :: l →
      Watch s { s with chan := l, exit := some (128 + n) }

/-- `signal.Notify` sends without blocking: a full channel drops the signal (os/signal, documented). -/
def deliver (s : St) (n : Nat) : St :=
  { s with chan := if s.chan.length < cap then s.chan ++ [n] else s.chan, sent := s.sent ++ [n] }

/-- Anything that happens while the process lives. -/
inductive Step : St → St → Prop where
  | watch {s s' : St} : s.exit = none → Watch s s' → Step s s'
  | signal {s : St} (n : Nat) : s.exit = none → Step s (deliver s n)
  | outside {s : St} : s.exit = none → Step s { s with cancelled := true, outside := true }

/-- Any number of steps. -/
inductive Steps : St → St → Prop where
  | refl (s : St) : Steps s s
  | tail {s t u : St} : Steps s t → Step t u → Steps s u

/-- Only the goroutine runs, `n` steps. -/
inductive Watches : Nat → St → St → Prop where
  | refl (s : St) : Watches 0 s s
  | tail {n : Nat} {s t u : St} : Watches n s t → t.exit = none → Watch t u → Watches (n + 1) s u

end Sig
end Verif
