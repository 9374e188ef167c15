import Verif.Tree.Model
/-!
# The locks of `pkg/spaces/trees`

Goroutines that call tree and node methods take and release read-write locks. A call is the sequence of its lock
operations; what it computes in between is left out. The lock is that of Go (`sync.RWMutex`): a writer first excludes other
writers, then announces itself, which stops new readers, then waits until the readers that are in have left.
-/
set_option autoImplicit false
namespace Verif
namespace Locks

/-- The locks: three in a tree (pkg/spaces/trees/tree.go:79, :82, :85), three in each node (pkg/spaces/trees/node.go:58, :60, :62). -/
inductive Lock where
  | tags | branches | nodes
  | children (n : Nat) | anno (n : Nat) | data (n : Nat)
  deriving DecidableEq, Repr

/-- The order in which the code takes locks that it holds together. -/
def Lock.rank : Lock → Nat
  | .tags => 0
  | .branches => 0
  | .nodes => 1
  | .children _ => 2
  | .anno _ => 2
  | .data _ => 2

/-- `Lock`, `Unlock`, `RLock`, `RUnlock`. -/
inductive Act where
  | lock (l : Lock)
  | unlock (l : Lock)
  | rlock (l : Lock)
  | runlock (l : Lock)
  deriving DecidableEq, Repr

/-- How far the writer of a lock is. -/
inductive Stage where
  /-- It has excluded other writers. -/
  | claimed
  /-- New readers have to wait. -/
  | announced
  /-- It holds the lock. -/
  | inside
  deriving DecidableEq, Repr

/-- The state of one `sync.RWMutex`: the goroutines that hold it for reading, and the one writer that is at it. -/
structure LockState where
  readers : List Nat
  writer : Option (Nat × Stage)

/-- A goroutine: what it holds (true for writing) and the lock operations it still has to do. -/
structure Thread where
  held : List (Lock × Bool)
  todo : List Act

/-- The goroutines and the locks. -/
structure State where
  locks : Lock → LockState
  threads : Nat → Thread

/-- Replace the state of one lock. -/
def setLock (s : State) (l : Lock) (x : LockState) : State :=
  { s with locks := fun k => if k = l then x else s.locks k }
/-- Replace the state of one thread. -/
def setThread (s : State) (t : Nat) (x : Thread) : State :=
  { s with threads := fun k => if k = t then x else s.threads k }

/-- One step of goroutine `t`. Waiting readers are not queued: a reader that waits in Go enters when the writer leaves, which
here is one of the possible next steps. -/
inductive Next : State → Nat → State → Prop where
  | claim {s : State} {t : Nat} {h : List (Lock × Bool)} {l : Lock} {k : List Act} {rs : List Nat} :
      s.threads t = ⟨h, .lock l :: k⟩ → s.locks l = ⟨rs, none⟩ →
      Next s t (setLock s l ⟨rs, some (t, .claimed)⟩)
  | announce {s : State} {t : Nat} {h : List (Lock × Bool)} {l : Lock} {k : List Act} {rs : List Nat} :
      s.threads t = ⟨h, .lock l :: k⟩ → s.locks l = ⟨rs, some (t, .claimed)⟩ →
      Next s t (setLock s l ⟨rs, some (t, .announced)⟩)
  | enter {s : State} {t : Nat} {h : List (Lock × Bool)} {l : Lock} {k : List Act} :
      s.threads t = ⟨h, .lock l :: k⟩ → s.locks l = ⟨[], some (t, .announced)⟩ →
      Next s t (setThread (setLock s l ⟨[], some (t, .inside)⟩) t ⟨(l, true) :: h, k⟩)
  | leave {s : State} {t : Nat} {h : List (Lock × Bool)} {l : Lock} {k : List Act} {rs : List Nat} :
      s.threads t = ⟨h, .unlock l :: k⟩ → s.locks l = ⟨rs, some (t, .inside)⟩ →
      Next s t (setThread (setLock s l ⟨rs, none⟩) t ⟨h.erase (l, true), k⟩)
  | read {s : State} {t : Nat} {h : List (Lock × Bool)} {l : Lock} {k : List Act} {rs : List Nat} {w : Option (Nat × Stage)} :
      s.threads t = ⟨h, .rlock l :: k⟩ → s.locks l = ⟨rs, w⟩ → (∀ x, w = some x → x.2 = .claimed) →
      Next s t (setThread (setLock s l ⟨t :: rs, w⟩) t ⟨(l, false) :: h, k⟩)
  | leaveRead {s : State} {t : Nat} {h : List (Lock × Bool)} {l : Lock} {k : List Act} {rs : List Nat} {w : Option (Nat × Stage)} :
      s.threads t = ⟨h, .runlock l :: k⟩ → s.locks l = ⟨rs, w⟩ → t ∈ rs →
      Next s t (setThread (setLock s l ⟨rs.erase t, w⟩) t ⟨h.erase (l, false), k⟩)

/-- Any number of steps. -/
inductive Steps : State → Nat → State → Prop where
  | refl {s : State} : Steps s 0 s
  | step {s s1 s2 : State} {n t : Nat} : Steps s n s1 → Next s1 t s2 → Steps s (n + 1) s2

/-! ## The calls -/

/-- The lock operations of the methods of a tree, of a node, and of `Dump`. -/
inductive Call : List Act → Prop where
  /-- `ID`, `Parent`, `IsRoot`, `SetParent` (pkg/spaces/trees/node.go:69-76, :106-109, :120-122), `Annotations` and `Data` of a node that has
  none (pkg/spaces/trees/node.go:165-167, :196-198). -/
  | free : Call []
  /-- `Get`, `Root` (pkg/spaces/trees/tree.go:91-96, :115-119). -/
  | readNodes : Call [.rlock .nodes, .runlock .nodes]
  /-- `GetByBranch`, `Branches` (pkg/spaces/trees/tree.go:99-104, :139-153). -/
  | readBranches : Call [.rlock .branches, .runlock .branches]
  /-- `GetByTag`, `Tags` (pkg/spaces/trees/tree.go:107-112, :122-136). -/
  | readTags : Call [.rlock .tags, .runlock .tags]
  /-- `AddTag` (pkg/spaces/trees/tree.go:222-241). -/
  | addTag : Call [.lock .tags, .rlock .nodes, .runlock .nodes, .unlock .tags]
  /-- `DeleteTag` (pkg/spaces/trees/tree.go:246-256). -/
  | deleteTag : Call [.lock .tags, .unlock .tags]
  /-- `AddBranch`, `UpdateBranch` (pkg/spaces/trees/tree.go:261-281, :287-335). Walking the parents takes no lock (pkg/spaces/trees/node.go:74-76). -/
  | addBranch : Call [.lock .branches, .rlock .nodes, .runlock .nodes, .unlock .branches]
  /-- `DeleteBranch` (pkg/spaces/trees/tree.go:340-350). -/
  | deleteBranch : Call [.lock .branches, .unlock .branches]
  /-- `AddNode` that is refused (pkg/spaces/trees/tree.go:190-198, :204-208). -/
  | addNodeErr : Call [.lock .nodes, .unlock .nodes]
  /-- `AddNode` of a root (pkg/spaces/trees/tree.go:199-201): `updateIndexes` calls `Children` on the nodes `ns` (pkg/spaces/trees/tree.go:366-376). -/
  | addRoot (ns : List Nat) :
      Call (.lock .nodes :: (ns.flatMap fun n => [.rlock (.children n), .runlock (.children n)]) ++ [.unlock .nodes])
  /-- `AddNode` below a node `p` (pkg/spaces/trees/tree.go:210-216). -/
  | addNode (p : Nat) (ns : List Nat) :
      Call (.lock .nodes :: .lock (.children p) :: .unlock (.children p) ::
        (ns.flatMap fun n => [.rlock (.children n), .runlock (.children n)]) ++ [.unlock .nodes])
  /-- `Children`, `HasChild`, `IsLeaf` (pkg/spaces/trees/node.go:79-94, :97-103, :112-117). -/
  | readChildren (n : Nat) : Call [.rlock (.children n), .runlock (.children n)]
  /-- `AddChild`, `DeleteChild` (pkg/spaces/trees/node.go:126-143, :147-161). -/
  | writeChildren (n : Nat) : Call [.lock (.children n), .unlock (.children n)]
  /-- `Annotations` (pkg/spaces/trees/node.go:164-175). -/
  | readAnno (n : Nat) : Call [.rlock (.anno n), .runlock (.anno n)]
  /-- `AddAnnotation`, `SetAnnotations` (pkg/spaces/trees/node.go:178-192). -/
  | writeAnno (n : Nat) : Call [.lock (.anno n), .unlock (.anno n)]
  /-- `Data` (pkg/spaces/trees/node.go:195-212). -/
  | readData (n : Nat) : Call [.rlock (.data n), .runlock (.data n)]
  /-- `AddData`, `SetData` (pkg/spaces/trees/node.go:215-235). -/
  | writeData (n : Nat) : Call [.lock (.data n), .unlock (.data n)]

/-- What one goroutine does: any calls one after the other. `Search` (pkg/spaces/trees/tree.go:158-184), `Dump` (pkg/spaces/trees/dump.go:32-88) and `Load`
(pkg/spaces/trees/dump.go:91-156) are such sequences: they hold no lock between the calls that they make. -/
inductive Job : List Act → Prop where
  | done : Job []
  | call {c k : List Act} : Call c → Job k → Job (c ++ k)

/-- All locks are free, goroutines `0` to `n - 1` have work, the others do not exist. -/
structure Start (s : State) (n : Nat) : Prop where
  free : ∀ l, s.locks l = ⟨[], none⟩
  job : ∀ t, (s.threads t).held = [] ∧ Job (s.threads t).todo
  only : ∀ t, n ≤ t → (s.threads t).todo = []

end Locks
end Verif
