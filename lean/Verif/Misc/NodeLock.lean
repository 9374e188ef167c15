import Verif.Misc.Linear
/-!
# Goroutines that share nodes

The maps of a node - children, annotations, data - have a lock each. The methods run in goroutines, one access at a time. `Annotations` and
`Data` look whether their map is nil before they take the lock, so the calls are not of the kind of `Verif.Misc.Linear`.
Simplification: memory is sequentially consistent, also for that look without a lock, which the Go memory model calls a race.
-/
set_option autoImplicit false
namespace Verif
namespace NodeLock
open Linear (Ev)

/-- What the maps of nodes contain. -/
inductive Val where
  | node (r : Ref)
  | text (s : Str)
  | bytes (b : Option Str)
  deriving DecidableEq, Repr

/-- The three maps of a node (pkg/spaces/trees/node.go:57-63). -/
inductive Field where
  | children | annotations | data
  deriving DecidableEq, Repr

/-- A map of a node. -/
abbrev Cell := Ref × Field

/-- What a method does with its map. Simplification: bytes are copied with the entry. `Parent` and `SetParent` have no lock; they are in `Verif.Misc.Parents`. -/
inductive Op where
  /-- `Annotations` and `Data` (pkg/spaces/trees/node.go:164-175, :195-212): whether the map is nil is asked before the lock is taken. -/
  | bareCopy
  /-- `Children` (pkg/spaces/trees/node.go:79-94). -/
  | copy
  /-- `HasChild` (pkg/spaces/trees/node.go:97-103). -/
  | has (k : Str)
  /-- `IsLeaf` (pkg/spaces/trees/node.go:112-117). -/
  | isEmpty
  /-- `AddAnnotation` and `AddData` (pkg/spaces/trees/node.go:178-185, :215-228). -/
  | add (k : Str) (v : Val)
  /-- `AddChild` (pkg/spaces/trees/node.go:126-143). -/
  | insert (k : Str) (v : Val)
  /-- `DeleteChild` (pkg/spaces/trees/node.go:147-161). -/
  | drop (k : Str)
  /-- `SetAnnotations` and `SetData` (pkg/spaces/trees/node.go:188-192, :231-235). Simplification: the caller keeps its hands off the map. -/
  | set (m : GoMap Val)
  deriving DecidableEq, Repr

/-- A call. -/
structure Call where
  cell : Cell
  op : Op
  deriving DecidableEq, Repr

/-- The answers. -/
inductive Ans where
  | map (m : GoMap Val)
  | bool (b : Bool)
  | done
  /-- The runtime ends the process: assignment to a nil map, or a map is written while it is iterated. -/
  | crash
  deriving DecidableEq, Repr

/-- The accesses to the map while a call has its lock. -/
inductive Acc where
  | ret (a : Ans)
  | read (k : GoMap Val → Acc)
  /-- `m = make(...)` if it is nil. -/
  | make (k : Acc)
  /-- The last write, and the answer. -/
  | write (f : GoMap Val → GoMap Val) (a : Ans)

/-- `m[k] = v`. -/
def assign (k : Str) (v : Val) (a : Ans) : Acc := .read fun m =>
  match m with
  | none => .ret .crash
  | some _ => .write (fun m => some (AL.put m.entries k v)) a

/-- The loop over a map: it must not change meanwhile. -/
def range (k : List (Str × Val) → Acc) : Acc := .read fun m => .read fun m' => if m'.entries = m.entries then k m.entries else .ret .crash

/-- The accesses of each method. -/
def body : Op → Acc
  /- pkg/spaces/trees/node.go:170-174, :201-211 -/
  | .bareCopy => range fun l => .ret (.map (some l))
  /- pkg/spaces/trees/node.go:83-93 -/
  | .copy => .read fun m => match m with
    | none => .ret (.map none)
    | some _ => range fun l => .ret (.map (some l))
  /- pkg/spaces/trees/node.go:101-102 -/
  | .has k => .read fun m => .ret (.bool (m.get k).isSome)
  /- pkg/spaces/trees/node.go:116 -/
  | .isEmpty => .read fun m => .ret (.bool (m.size == 0))
  /- pkg/spaces/trees/node.go:181-184, :218-227 -/
  | .add k v => .read fun m => match m with
    | none => .make (assign k v .done)
    | some _ => assign k v .done
  /- pkg/spaces/trees/node.go:131-142 -/
  | .insert k v => .read fun m => match m.get k with
    | some _ => .ret (.bool false)
    | none => .read fun m => match m with
      | none => .make (assign k v (.bool true))
      | some _ => assign k v (.bool true)
  /- pkg/spaces/trees/node.go:152-160 -/
  | .drop k => .read fun m => match m.get k with
    | none => .ret (.bool false)
    | some _ => .write (fun m => m.delete k) (.bool true)
  /- pkg/spaces/trees/node.go:191, :234 -/
  | .set m => .write (fun _ => m) .done

/-- `Lock` or `RLock` (pkg/spaces/trees/node.go:80, :98, :113, :127, :148, :168, :179, :189, :199, :216, :232). -/
def Op.writes : Op → Bool
  | .add _ _ | .insert _ _ | .drop _ | .set _ => true
  | _ => false

/-- A goroutine. `todo` are the calls it has still to make. -/
inductive Thread where
  | idle (todo : List Call)
  /-- It has called `Annotations` or `Data` and will look whether the map is nil. -/
  | check (c : Call) (todo : List Call)
  /-- It wants the lock. -/
  | want (c : Call) (todo : List Call)
  /-- It has the lock. -/
  | inside (c : Call) (p : Acc) (todo : List Call)
  /-- It will release the lock. -/
  | leave (c : Call) (a : Ans) (todo : List Call)
  /-- It will return. -/
  | back (a : Ans) (todo : List Call)

/-- The lock that a goroutine has. -/
def Thread.held : Thread → Option (Cell × Bool)
  | .inside c _ _ => some (c.cell, c.op.writes)
  | .leave c _ _ => some (c.cell, c.op.writes)
  | _ => none

/-- The maps and the goroutines. -/
structure Sys where
  mem : Cell → GoMap Val
  thr : Nat → Thread

/-- Set the state of one goroutine. -/
def Sys.set (s : Sys) (t : Nat) (x : Thread) : Sys := { s with thr := fun k => if k = t then x else s.thr k }

/-- Replace one map. -/
def put (m : Cell → GoMap Val) (c : Cell) (v : GoMap Val) : Cell → GoMap Val := fun x => if x = c then v else m x

/-- `Lock` and `RLock` let `t` in only then, see `Linear.Sys.Free`. -/
def Sys.Free (s : Sys) (t : Nat) (c : Cell) (w : Bool) : Prop := ∀ t' w', t' ≠ t → (s.thr t').held = some (c, w') → w = false ∧ w' = false

/-- One step of a goroutine. -/
inductive Step : Sys → List (Ev Ans Call) → Sys → Prop where
  | invoke {s : Sys} {t : Nat} {c : Call} {todo : List Call} : s.thr t = .idle (c :: todo) → c.op ≠ .bareCopy → Step s [.inv t c] (s.set t (.want c todo))
  | invokeBare {s : Sys} {t : Nat} {c : Call} {todo : List Call} : s.thr t = .idle (c :: todo) → c.op = .bareCopy → Step s [.inv t c] (s.set t (.check c todo))
  /-- pkg/spaces/trees/node.go:165-167, :196-198 -/
  | isNil {s : Sys} {t : Nat} {c : Call} {todo : List Call} : s.thr t = .check c todo → s.mem c.cell = none → Step s [] (s.set t (.back (.map none) todo))
  | isMap {s : Sys} {t : Nat} {c : Call} {todo : List Call} : s.thr t = .check c todo → s.mem c.cell ≠ none → Step s [] (s.set t (.want c todo))
  | lock {s : Sys} {t : Nat} {c : Call} {todo : List Call} : s.thr t = .want c todo → s.Free t c.cell c.op.writes → Step s [] (s.set t (.inside c (body c.op) todo))
  | read {s : Sys} {t : Nat} {c : Call} {k : GoMap Val → Acc} {todo : List Call} : s.thr t = .inside c (.read k) todo → Step s [] (s.set t (.inside c (k (s.mem c.cell)) todo))
  | make {s : Sys} {t : Nat} {c : Call} {p : Acc} {todo : List Call} : s.thr t = .inside c (.make p) todo →
      Step s [] { s.set t (.inside c p todo) with mem := put s.mem c.cell (s.mem c.cell).ensure }
  | write {s : Sys} {t : Nat} {c : Call} {f : GoMap Val → GoMap Val} {a : Ans} {todo : List Call} : s.thr t = .inside c (.write f a) todo →
      Step s [] { s.set t (.leave c a todo) with mem := put s.mem c.cell (f (s.mem c.cell)) }
  | finish {s : Sys} {t : Nat} {c : Call} {a : Ans} {todo : List Call} : s.thr t = .inside c (.ret a) todo → Step s [] (s.set t (.leave c a todo))
  | unlock {s : Sys} {t : Nat} {c : Call} {a : Ans} {todo : List Call} : s.thr t = .leave c a todo → Step s [] (s.set t (.back a todo))
  | reply {s : Sys} {t : Nat} {a : Ans} {todo : List Call} : s.thr t = .back a todo → Step s [.res t a] (s.set t (.idle todo))

/-- Any number of steps, and what is seen of them. -/
inductive Steps : Sys → List (Ev Ans Call) → Sys → Prop where
  | refl {s : Sys} : Steps s [] s
  | step {s s1 s2 : Sys} {es e : List (Ev Ans Call)} : Steps s es s1 → Step s1 e s2 → Steps s (es ++ e) s2

/-! ## What a call does alone -/

/-- What a call means, said without accesses. The answer to `Annotations` and `Data` is the map; an empty map will do for nil unless `exact`. -/
def Means (exact : Prop) (m : GoMap Val) : Op → Ans → GoMap Val → Prop
  | .bareCopy, a, m' => (a = .map m ∨ (¬ exact ∧ m = none ∧ a = .map (some []))) ∧ m' = m
  | .copy, a, m' => a = .map m ∧ m' = m
  | .has k, a, m' => a = .bool (m.get k).isSome ∧ m' = m
  | .isEmpty, a, m' => a = .bool (m.size == 0) ∧ m' = m
  | .add k v, a, m' => a = .done ∧ m' = some (AL.put m.entries k v)
  | .insert k v, a, m' => (a = .bool false ∧ m.get k ≠ none ∧ m' = m) ∨ (a = .bool true ∧ m.get k = none ∧ m' = some (AL.put m.entries k v))
  | .drop k, a, m' => (a = .bool false ∧ m.get k = none ∧ m' = m) ∨ (a = .bool true ∧ m.get k ≠ none ∧ m' = m.delete k)
  | .set v, a, m' => a = .done ∧ m' = v

/-- A call changes its map only. -/
def Does (exact : Prop) (c : Call) (m : Cell → GoMap Val) (a : Ans) (m' : Cell → GoMap Val) : Prop :=
  Means exact (m c.cell) c.op a (m' c.cell) ∧ ∀ x, x ≠ c.cell → m' x = m x

/-- Goroutines that have not begun. -/
def start (m : Cell → GoMap Val) (todo : Nat → List Call) : Sys := ⟨m, fun t => .idle (todo t)⟩

end NodeLock
end Verif
