import Verif.Tree.Model
/-!
# Goroutines that share one tree

The methods of a tree run in goroutines, one memory access at a time: a call takes its locks, then reads and writes, then releases its
locks. Here is what such executions are, and what it means that the calls appear to happen one after another.
-/
set_option autoImplicit false
namespace Verif
namespace Linear

/-! ## Shared memory behind locks -/

section
variable {L : Type} [DecidableEq L] (V : L → Type) (R : Type)

/-- What each lock guards. -/
abbrev Mem := (l : L) → V l

variable {V}

/-- Replace what one lock guards. -/
def Mem.put (m : Mem V) (l : L) (v : V l) : Mem V := fun k => if h : k = l then h ▸ v else m k

variable (V)

/-- What a call does while it has its locks: accesses to what they guard, one at a time. -/
inductive Prog where
  | ret (r : R)
  | read (l : L) (k : V l → Prog)
  | write (l : L) (f : V l → V l) (k : Prog)

variable {V R}

/-- The accesses without interruption. -/
def Prog.run : Prog V R → Mem V → R × Mem V
  | .ret r, m => (r, m)
  | .read l k, m => (k (m l)).run m
  | .write l f k, m => k.run (m.put l (f (m l)))

/-- Only what the locks `h` guard is accessed, and written only with the lock for writing (`true`). -/
def Prog.Guarded (h : List (L × Bool)) : Prog V R → Prop
  | .ret _ => True
  | .read l k => (∃ w, (l, w) ∈ h) ∧ ∀ v, (k v).Guarded h
  | .write l _ k => (l, true) ∈ h ∧ k.Guarded h

variable (V R)

/-- A call: the locks that it takes, in this order, and what it does when it has them. -/
structure Call where
  locks : List (L × Bool)
  body : Prog V R
  guarded : body.Guarded locks

/-- A goroutine. `todo` are the calls it has still to make. -/
inductive Thread (C : Type) where
  | idle (todo : List C)
  /-- It has called `c`, has the locks `got` and still wants `want`. -/
  | enter (c : C) (got want : List (L × Bool)) (todo : List C)
  /-- It has all locks. -/
  | inside (p : Prog V R) (held : List (L × Bool)) (todo : List C)
  /-- It releases the locks. -/
  | leave (r : R) (held : List (L × Bool)) (todo : List C)

variable {V R}

/-- The locks that a goroutine has. -/
def Thread.held {C : Type} : Thread V R C → List (L × Bool)
  | .idle _ => []
  | .enter _ got _ _ => got
  | .inside _ h _ => h
  | .leave _ h _ => h

variable (V R)

/-- The memory and the goroutines. -/
structure Sys (C : Type) where
  mem : Mem V
  thr : Nat → Thread V R C

/-- What is seen of an execution: `t` calls `c`, `t` gets the answer `r`. `lin` is not seen, see below. -/
inductive Ev (C : Type) where
  | inv (t : Nat) (c : C)
  | lin (t : Nat) (c : C) (r : R)
  | res (t : Nat) (r : R)

variable {V R}

/-- Set the state of one goroutine. -/
def Sys.set {C : Type} (s : Sys V R C) (t : Nat) (x : Thread V R C) : Sys V R C := { s with thr := fun k => if k = t then x else s.thr k }

/-- `Lock` and `RLock` of `sync.RWMutex` let `t` in only then: a writer excludes all others, readers exclude writers. Go's lock lets
goroutines wait in more cases (`Verif.Misc.Locks`); what is shown here for all executions holds for those in particular. -/
def Sys.Free {C : Type} (s : Sys V R C) (t : Nat) (l : L) (w : Bool) : Prop := ∀ t' w', t' ≠ t → (l, w') ∈ (s.thr t').held → w = false ∧ w' = false

/-- One step of a goroutine. -/
inductive Step {C : Type} (impl : C → Call V R) : Sys V R C → List (Ev R C) → Sys V R C → Prop where
  | invoke {s : Sys V R C} {t : Nat} {c : C} {todo : List C} : s.thr t = .idle (c :: todo) → Step impl s [.inv t c] (s.set t (.enter c [] (impl c).locks todo))
  | acquire {s : Sys V R C} {t : Nat} {c : C} {got want : List (L × Bool)} {l : L} {w : Bool} {todo : List C} :
      s.thr t = .enter c got ((l, w) :: want) todo → s.Free t l w → Step impl s [] (s.set t (.enter c (got ++ [(l, w)]) want todo))
  | start {s : Sys V R C} {t : Nat} {c : C} {got : List (L × Bool)} {todo : List C} :
      s.thr t = .enter c got [] todo → Step impl s [] (s.set t (.inside (impl c).body got todo))
  | read {s : Sys V R C} {t : Nat} {l : L} {k : V l → Prog V R} {h : List (L × Bool)} {todo : List C} :
      s.thr t = .inside (.read l k) h todo → Step impl s [] (s.set t (.inside (k (s.mem l)) h todo))
  | write {s : Sys V R C} {t : Nat} {l : L} {f : V l → V l} {k : Prog V R} {h : List (L × Bool)} {todo : List C} :
      s.thr t = .inside (.write l f k) h todo → Step impl s [] { s.set t (.inside k h todo) with mem := s.mem.put l (f (s.mem l)) }
  | finish {s : Sys V R C} {t : Nat} {r : R} {h : List (L × Bool)} {todo : List C} :
      s.thr t = .inside (.ret r) h todo → Step impl s [] (s.set t (.leave r h todo))
  | release {s : Sys V R C} {t : Nat} {r : R} {a b : List (L × Bool)} {x : L × Bool} {todo : List C} :
      s.thr t = .leave r (a ++ x :: b) todo → Step impl s [] (s.set t (.leave r (a ++ b) todo))
  | reply {s : Sys V R C} {t : Nat} {r : R} {todo : List C} : s.thr t = .leave r [] todo → Step impl s [.res t r] (s.set t (.idle todo))

/-- Any number of steps, and what is seen of them. -/
inductive Steps {C : Type} (impl : C → Call V R) : Sys V R C → List (Ev R C) → Sys V R C → Prop where
  | refl {s : Sys V R C} : Steps impl s [] s
  | step {s s1 s2 : Sys V R C} {es e : List (Ev R C)} : Steps impl s es s1 → Step impl s1 e s2 → Steps impl s (es ++ e) s2

end

/-! ## Specification: the calls appear to happen one after another -/

section
variable {R C S : Type}

/-- What is seen. -/
def Ev.seen : Ev R C → Bool
  | .lin _ _ _ => false
  | _ => true

/-- Whose event it is. -/
def Ev.who : Ev R C → Nat
  | .inv t _ => t
  | .lin t _ _ => t
  | .res t _ => t

/-- Where a goroutine is: between calls, in a call that has not happened yet, in a call that has happened with the answer `r`. -/
inductive Stage (R C : Type) where
  | between
  | called (c : C)
  | happened (r : R)

/-- Each call of `t` happens at one moment between the call and its answer, with this answer. -/
inductive Proper (t : Nat) : List (Ev R C) → Stage R C → Prop where
  | nil : Proper t [] .between
  | other {es : List (Ev R C)} {st : Stage R C} {e : Ev R C} : Proper t es st → e.who ≠ t → Proper t (es ++ [e]) st
  | inv {es : List (Ev R C)} {c : C} : Proper t es .between → Proper t (es ++ [.inv t c]) (.called c)
  | lin {es : List (Ev R C)} {c : C} {r : R} : Proper t es (.called c) → Proper t (es ++ [.lin t c r]) (.happened r)
  | res {es : List (Ev R C)} {r : R} : Proper t es (.happened r) → Proper t (es ++ [.res t r]) .between

/-- The moments at which calls happen, one after the other, lead from `s` to the last state. `does c s r s'`: in the state `s` the call `c` alone
has the answer `r` and leads to `s'`. -/
inductive Replay (does : C → S → R → S → Prop) (s : S) : List (Ev R C) → S → Prop where
  | nil : Replay does s [] s
  | seen {es : List (Ev R C)} {s' : S} {e : Ev R C} : Replay does s es s' → e.seen = true → Replay does s (es ++ [e]) s'
  | lin {es : List (Ev R C)} {s1 s2 : S} {t : Nat} {c : C} {r : R} : Replay does s es s1 → does c s1 r s2 → Replay does s (es ++ [.lin t c r]) s2

/-- Linearizability: one can say of every call at which moment between call and answer it happened, such that all answers are those of the
calls one after the other. -/
def Linearizes (does : C → S → R → S → Prop) (s : S) (seen : List (Ev R C)) (s' : S) : Prop :=
  ∃ es : List (Ev R C), es.filter Ev.seen = seen ∧ (∀ t, ∃ st, Proper t es st) ∧ Replay does s es s'

end

/-! ## The tree -/

/-- The locks of a tree (pkg/spaces/trees/tree.go:79, :82, :85). -/
inductive Guard where
  | nodes | branches | tags
  deriving DecidableEq, Repr

/-- `root` and `nodes` (pkg/spaces/trees/tree.go:76-78) and the nodes themselves. Simplification: the links between nodes have locks of their own, which the
methods of the tree take only while they hold the lock for nodes; so they add nothing here as long as the tree alone uses the nodes. The nodes
that goroutines will add are there from the start. -/
structure Nodes where
  heap : List NodeObj
  root : Option Ref
  nodes : GoMap Ref

/-- What the locks guard. -/
def Guard.Val : Guard → Type
  | .nodes => Nodes
  | .branches => GoMap Ref
  | .tags => GoMap Ref

/-- The memory of a tree. -/
def mem (s : TS) : Mem Guard.Val
  | .nodes => ⟨s.heap, s.tree.root, s.tree.nodes⟩
  | .branches => s.tree.branches
  | .tags => s.tree.tags

/-- The tree in the memory. -/
def tree (m : Mem Guard.Val) : TS :=
  ⟨(m .nodes : Nodes).heap, ⟨(m .nodes : Nodes).root, (m .nodes : Nodes).nodes, m .branches, m .tags⟩⟩

/-- The methods of a tree (pkg/spaces/trees/tree.go:21-67). `Search` makes up to three of these calls, see below. -/
inductive Method where
  | get (id : UID)
  | getByBranch (name : Str)
  | getByTag (name : Str)
  | root
  | tags
  | branches
  | addNode (parent : Option UID) (node : Ref)
  | addTag (name : Str) (id : UID)
  | deleteTag (name : Str)
  | addBranch (name : Str) (id : UID)
  | updateBranch (name : Str) (id : UID) (force : Bool)
  | deleteBranch (name : Str)

/-- The answers. -/
inductive Ans where
  | node (r : Option Ref)
  | map (m : GoMap Ref)
  | bool (b : Bool)
  /-- A nil error. -/
  | done
  | refused (e : TreeErr)
  | panic
  /-- The call never returns. Simplification: it does return this in the model. -/
  | hangs
  deriving DecidableEq, Repr

/-- What a call does alone, by the model of `Verif.Tree.Model`. After a panic there is no process left, so anything goes. -/
inductive Outcome (s : TS) : Res TreeErr TS → Ans → TS → Prop where
  | ok {s' : TS} : Outcome s (.ok s') .done s'
  | err {e : TreeErr} : Outcome s (.err e) (.refused e) s
  | panic {s' : TS} : Outcome s .panic .panic s'
  | diverge {s' : TS} : Outcome s .diverge .hangs s'

/-- What a call does alone. -/
def Does : Method → TS → Ans → TS → Prop
  | .get id, s, a, s' => a = .node (s.get id) ∧ s' = s
  | .getByBranch n, s, a, s' => a = .node (s.getByBranch n) ∧ s' = s
  | .getByTag n, s, a, s' => a = .node (s.getByTag n) ∧ s' = s
  | .root, s, a, s' => a = .node s.tree.root ∧ s' = s
  | .tags, s, a, s' => a = .map s.tree.tags ∧ s' = s
  | .branches, s, a, s' => a = .map s.tree.branches ∧ s' = s
  | .addNode p r, s, a, s' => Outcome s (s.addNode p r) a s'
  | .addTag n id, s, a, s' => Outcome s (s.addTag n id) a s'
  | .deleteTag n, s, a, s' => a = .bool (s.deleteTag n).2 ∧ s' = (s.deleteTag n).1
  | .addBranch n id, s, a, s' => Outcome s (s.addBranch n id) a s'
  | .updateBranch n id f, s, a, s' => Outcome s (s.updateBranch n id f) a s'
  | .deleteBranch n, s, a, s' => a = .bool (s.deleteBranch n).2 ∧ s' = (s.deleteBranch n).1

/-- Accesses to the memory of a tree. -/
abbrev P := Prog Guard.Val Ans

/-- Read what the lock for nodes guards. -/
def readN (k : Nodes → P) : P := .read .nodes k
/-- Write it. -/
def writeN (f : Nodes → Nodes) (k : P) : P := .write .nodes f k
/-- Read the branches. -/
def readB (k : GoMap Ref → P) : P := .read .branches k
/-- Write them. -/
def writeB (f : GoMap Ref → GoMap Ref) (k : P) : P := .write .branches f k
/-- Read the tags. -/
def readT (k : GoMap Ref → P) : P := .read .tags k
/-- Write them. -/
def writeT (f : GoMap Ref → GoMap Ref) (k : P) : P := .write .tags f k

/-- `m[k] = v` on a map that is not nil. -/
def assigned (m : GoMap Ref) (k : Str) (v : Ref) : GoMap Ref := some (AL.put m.entries k v)

/-- The loop of `updateIndexes` (pkg/spaces/trees/tree.go:365-376): the ID of the node, the entry in the index, the children. -/
def indexing : Nat → List Ref → P
  | _, [] => .ret .done
  | 0, _ :: _ => .ret .hangs
  | n + 1, item :: roots => readN fun v =>
    match v.heap[item]? with
    | none => .ret .panic
    | some o => writeN (fun v => { v with nodes := assigned v.nodes o.id.hex item }) (readN fun v =>
      match v.heap[item]? with
      | none => .ret .panic
      | some o => indexing n (roots ++ o.children.entries.map Prod.snd))

/-- `updateIndexes` (pkg/spaces/trees/tree.go:355-377). -/
def indexes (node : Ref) : P := readN fun v => writeN (fun v => { v with nodes := v.nodes.ensure }) (indexing (v.heap.length + 1) [node])

/-- The loop of `UpdateBranch` (pkg/spaces/trees/tree.go:317-325): the ID of a node, then its parent. `yes` and `no` is what follows. -/
def walking (head : Str) (yes no : P) : Nat → Option Ref → P
  | _, none => no
  | 0, some _ => .ret .hangs
  | n + 1, some cur => readN fun v =>
    match v.heap[cur]? with
    | none => .ret .panic
    | some o => if o.id.hex = head then yes else readN fun v =>
      match v.heap[cur]? with
      | none => .ret .panic
      | some o => walking head yes no n o.parent

/-- The accesses of each method while it holds its locks. -/
def body : Method → P
  /- `Get` (pkg/spaces/trees/tree.go:94). -/
  | .get id => readN fun v => .ret (.node (v.nodes.get id.hex))
  /- `GetByBranch` (pkg/spaces/trees/tree.go:102). -/
  | .getByBranch n => readB fun v => .ret (.node (v.get n))
  /- `GetByTag` (pkg/spaces/trees/tree.go:110). -/
  | .getByTag n => readT fun v => .ret (.node (v.get n))
  /- `Root` (pkg/spaces/trees/tree.go:118). -/
  | .root => readN fun v => .ret (.node v.root)
  /- `Tags` (pkg/spaces/trees/tree.go:126-135). -/
  | .tags => readT fun v => match v with
    | none => .ret (.map none)
    | some _ => readT fun v => .ret (.map v)
  /- `Branches` (pkg/spaces/trees/tree.go:143-152). -/
  | .branches => readB fun v => match v with
    | none => .ret (.map none)
    | some _ => readB fun v => .ret (.map v)
  /- `AddNode` (pkg/spaces/trees/tree.go:194-216). -/
  | .addNode none node => readN fun v =>
    match v.root with
    | some _ => .ret (.refused .rootExists)
    | none => writeN (fun v => { v with root := some node }) (indexes node)
  | .addNode (some pid) node => readN fun v =>
    match v.nodes.get pid.hex with
    | none => .ret (.refused .parentNotFound)
    | some p => readN fun v =>
      match v.heap[p]?, v.heap[node]? with
      | some po, some co =>
        let parent := writeN (fun v => { v with heap := match v.heap[node]? with
          | none => v.heap
          | some o => v.heap.set node { o with parent := some p } }) (indexes node)
        match po.children.get co.id.hex with
        | some _ => parent
        | none => writeN (fun v => { v with heap := v.heap.set p { po with children := assigned po.children co.id.hex node } }) parent
      | _, _ => .ret .panic
  /- `AddTag` (pkg/spaces/trees/tree.go:229-240). -/
  | .addTag n id => readN fun v =>
    match v.nodes.get id.hex with
    | none => .ret (.refused .nodeNotFound)
    | some r => writeT GoMap.ensure (writeT (fun m => assigned m n r) (.ret .done))
  /- `DeleteTag` (pkg/spaces/trees/tree.go:250-255). -/
  | .deleteTag n => readT fun v =>
    match v.get n with
    | none => .ret (.bool false)
    | some _ => writeT (fun m => m.delete n) (.ret (.bool true))
  /- `AddBranch` (pkg/spaces/trees/tree.go:268-279). -/
  | .addBranch n id => readN fun v =>
    match v.nodes.get id.hex with
    | none => .ret (.refused .nodeNotFound)
    | some r => writeB GoMap.ensure (writeB (fun m => assigned m n r) (.ret .done))
  /- `UpdateBranch` (pkg/spaces/trees/tree.go:294-334). -/
  | .updateBranch n id force => readN fun v =>
    match v.nodes.get id.hex with
    | none => .ret (.refused .nodeNotFound)
    | some node => readB fun b =>
      match b.get n with
      | none => .ret (.refused .branchNotFound)
      | some head => readN fun v =>
        match v.heap[head]?, v.heap[node]? with
        | some ho, some no =>
          if ho.id.hex = no.id.hex then .ret .done
          else
            let set := writeB (fun m => assigned m n node) (.ret .done)
            if force then set
            else walking ho.id.hex set (.ret (.refused .unreachable)) (v.nodes.size + v.heap.length + 1) (some node)
        | _, _ => .ret .panic
  /- `DeleteBranch` (pkg/spaces/trees/tree.go:344-349). -/
  | .deleteBranch n => readB fun v =>
    match v.get n with
    | none => .ret (.bool false)
    | some _ => writeB (fun m => m.delete n) (.ret (.bool true))

/-- The locks of each method, in the order in which it takes them; `true` for `Lock`, `false` for `RLock` (pkg/spaces/trees/tree.go:92, :100, :108, :116, :123, :140,
:190, :223-225, :247, :262-264, :288-290, :341). -/
def locks : Method → List (Guard × Bool)
  | .get _ => [(.nodes, false)]
  | .getByBranch _ => [(.branches, false)]
  | .getByTag _ => [(.tags, false)]
  | .root => [(.nodes, false)]
  | .tags => [(.tags, false)]
  | .branches => [(.branches, false)]
  | .addNode _ _ => [(.nodes, true)]
  | .addTag _ _ => [(.tags, true), (.nodes, false)]
  | .deleteTag _ => [(.tags, true)]
  | .addBranch _ _ => [(.branches, true), (.nodes, false)]
  | .updateBranch _ _ _ => [(.branches, true), (.nodes, false)]
  | .deleteBranch _ => [(.branches, true)]

end Linear
end Verif
