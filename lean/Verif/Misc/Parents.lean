import Verif.Misc.Linear
/-!
# Goroutines that share the parent of a node

`Parent` and `SetParent` have no lock. The field is an interface, which is two words in memory: the type and the pointer. They are written and
read one after the other. The language does not say which comes first, so here either may.
Simplification: memory is sequentially consistent, word by word; the Go memory model calls this a race.
-/
set_option autoImplicit false
namespace Verif
namespace Parents
open Linear (Ev)

/-- `Parent` and `SetParent` (pkg/spaces/trees/node.go:74-76, :120-122). `IsRoot` (:106-109) compares what `Parent` returns with nil. `none` is nil. -/
inductive Call where
  | parent (n : Ref)
  | setParent (n : Ref) (p : Option Ref)
  deriving DecidableEq, Repr

/-- An interface (pkg/spaces/trees/node.go:56): whether it has a type - there is only one, `*defaultNode` - and the pointer. Nil is neither. With
a type and without a pointer it is not nil, and its methods crash when they look at the node. -/
structure Words where
  typ : Bool
  ptr : Option Ref
  deriving DecidableEq, Repr

/-- A node or nil as an interface. -/
def words (p : Option Ref) : Words := ⟨p.isSome, p⟩

/-- The answers. -/
inductive Ans where
  | node (w : Words)
  | done
  deriving DecidableEq, Repr

/-- A goroutine. `todo` are the calls it has still to make. -/
inductive Thread where
  | idle (todo : List Call)
  /-- It writes the words of `p`. The flags say which are written. -/
  | setting (n : Ref) (p : Option Ref) (typ ptr : Bool) (todo : List Call)
  /-- It reads the words, and has read these. -/
  | getting (n : Ref) (typ : Option Bool) (ptr : Option (Option Ref)) (todo : List Call)
  /-- It will return. -/
  | back (a : Ans) (todo : List Call)

/-- The parents of the nodes, and the goroutines. -/
structure Sys where
  mem : Ref → Words
  thr : Nat → Thread

/-- Set the state of one goroutine. -/
def Sys.set (s : Sys) (t : Nat) (x : Thread) : Sys := { s with thr := fun k => if k = t then x else s.thr k }

/-- Replace the value at one place. -/
def put {α : Type} (m : Ref → α) (n : Ref) (v : α) : Ref → α := fun x => if x = n then v else m x

/-- One step of a goroutine (pkg/spaces/trees/node.go:75, :121). -/
inductive Step : Sys → List (Ev Ans Call) → Sys → Prop where
  | callGet {s : Sys} {t : Nat} {n : Ref} {todo : List Call} : s.thr t = .idle (.parent n :: todo) → Step s [.inv t (.parent n)] (s.set t (.getting n none none todo))
  | callSet {s : Sys} {t : Nat} {n : Ref} {p : Option Ref} {todo : List Call} : s.thr t = .idle (.setParent n p :: todo) →
      Step s [.inv t (.setParent n p)] (s.set t (.setting n p false false todo))
  | getTyp {s : Sys} {t : Nat} {n : Ref} {q : Option (Option Ref)} {todo : List Call} : s.thr t = .getting n none q todo →
      Step s [] (s.set t (.getting n (some (s.mem n).typ) q todo))
  | getPtr {s : Sys} {t : Nat} {n : Ref} {y : Option Bool} {todo : List Call} : s.thr t = .getting n y none todo →
      Step s [] (s.set t (.getting n y (some (s.mem n).ptr) todo))
  | got {s : Sys} {t : Nat} {n : Ref} {y : Bool} {q : Option Ref} {todo : List Call} : s.thr t = .getting n (some y) (some q) todo →
      Step s [] (s.set t (.back (.node ⟨y, q⟩) todo))
  | setTyp {s : Sys} {t : Nat} {n : Ref} {p : Option Ref} {b : Bool} {todo : List Call} : s.thr t = .setting n p false b todo →
      Step s [] { s.set t (.setting n p true b todo) with mem := put s.mem n ⟨p.isSome, (s.mem n).ptr⟩ }
  | setPtr {s : Sys} {t : Nat} {n : Ref} {p : Option Ref} {b : Bool} {todo : List Call} : s.thr t = .setting n p b false todo →
      Step s [] { s.set t (.setting n p b true todo) with mem := put s.mem n ⟨(s.mem n).typ, p⟩ }
  | wrote {s : Sys} {t : Nat} {n : Ref} {p : Option Ref} {todo : List Call} : s.thr t = .setting n p true true todo → Step s [] (s.set t (.back .done todo))
  | reply {s : Sys} {t : Nat} {a : Ans} {todo : List Call} : s.thr t = .back a todo → Step s [.res t a] (s.set t (.idle todo))

/-- Any number of steps, and what is seen of them. -/
inductive Steps : Sys → List (Ev Ans Call) → Sys → Prop where
  | refl {s : Sys} : Steps s [] s
  | step {s s1 s2 : Sys} {es e : List (Ev Ans Call)} : Steps s es s1 → Step s1 e s2 → Steps s (es ++ e) s2

/-- What a call does alone: there is a parent, or none. -/
def Does : Call → (Ref → Option Ref) → Ans → (Ref → Option Ref) → Prop
  | .parent n, m, a, m' => a = .node (words (m n)) ∧ m' = m
  | .setParent n p, m, a, m' => a = .done ∧ m' n = p ∧ ∀ x, x ≠ n → m' x = m x

/-- Goroutines that have not begun. -/
def start (m : Ref → Option Ref) (todo : Nat → List Call) : Sys := ⟨fun n => words (m n), fun t => .idle (todo t)⟩

/-- Nobody is in a call. -/
def Quiet (z : Sys) : Prop := ∀ t, ∃ todo, z.thr t = .idle todo

end Parents
end Verif
