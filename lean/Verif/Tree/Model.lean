import Verif.Uid
/-!
# `pkg/spaces/trees`: nodes and the tree

Node objects live in a heap and refer to each other by reference, as the Go pointers do. Mutexes are left out here
(they are the subject of `Verif.Misc.Locks`); every method is one atomic step.
-/
set_option autoImplicit false
namespace Verif

/-- A pointer to a `defaultNode`: an index into the heap. -/
scoped notation "Ref" => Nat

/-- `defaultNode` (pkg/spaces/trees/node.go:54-64). The locks are left out. A `[]byte` value is `none` when nil. -/
structure NodeObj where
  id : UID
  parent : Option Ref
  children : GoMap Ref
  annotations : GoMap Str
  data : GoMap (Option Str)
  deriving DecidableEq, Repr

/-- `defaultTree` (pkg/spaces/trees/tree.go:75-86). The locks are left out. -/
structure Tree where
  root : Option Ref
  nodes : GoMap Ref
  branches : GoMap Ref
  tags : GoMap Ref
  deriving DecidableEq, Repr

/-- A tree together with the heap of all node objects of the process. -/
structure TS where
  heap : List NodeObj
  tree : Tree
  deriving DecidableEq, Repr

/-- `KeyType` (pkg/spaces/trees/tree.go:11-18). -/
inductive KeyType where
  | branch | tag | commit
  deriving DecidableEq, Repr

/-- The errors of the tree methods. -/
inductive TreeErr where
  /-- `root node already exists` (pkg/spaces/trees/tree.go:197). -/
  | rootExists
  /-- `parent node not found` (pkg/spaces/trees/tree.go:207). -/
  | parentNotFound
  /-- `node not found` (pkg/spaces/trees/tree.go:231, :270, :296). -/
  | nodeNotFound
  /-- `branch not found` (pkg/spaces/trees/tree.go:302). -/
  | branchNotFound
  /-- `unreachable from the current HEAD` (pkg/spaces/trees/tree.go:327). -/
  | unreachable
  deriving DecidableEq, Repr

namespace TS

/-- `NewTree` (pkg/spaces/trees/tree.go:70-72) in a process without nodes. -/
def empty : TS := ⟨[], ⟨none, none, none, none⟩⟩

/-- `NewNode` (pkg/spaces/trees/node.go:49-51). -/
def newNode (s : TS) (id : UID) : Ref × TS :=
  (s.heap.length, { s with heap := s.heap ++ [⟨id, none, none, none, none⟩] })

/-- Assign to a field of the object at `r`; `none` would be a nil dereference. -/
def modify (s : TS) (r : Ref) (f : NodeObj → NodeObj) : Option TS :=
  match s.heap[r]? with
  | none => none
  | some o => some { s with heap := s.heap.set r (f o) }

/-- `defaultNode.SetParent` (pkg/spaces/trees/node.go:120-122). -/
def setParent (s : TS) (r : Ref) (p : Option Ref) : Option TS := s.modify r fun o => { o with parent := p }

/-- `defaultNode.AddChild` (pkg/spaces/trees/node.go:126-143): false if a child with this ID exists. -/
def addChild (s : TS) (p c : Ref) : Option (TS × Bool) :=
  match s.heap[p]?, s.heap[c]? with
  | some po, some co =>
    match po.children.get co.id.hex with
    | some _ => some (s, false)
    | none =>
      match po.children.ensure.assign co.id.hex c with
      | none => none
      | some ch => some ({ s with heap := s.heap.set p { po with children := ch } }, true)
  | _, _ => none

/-- `defaultNode.DeleteChild` (pkg/spaces/trees/node.go:147-161). -/
def deleteChild (s : TS) (p : Ref) (child : UID) : Option (TS × Bool) :=
  match s.heap[p]? with
  | none => none
  | some po =>
    match po.children.get child.hex with
    | none => some (s, false)
    | some _ => some ({ s with heap := s.heap.set p { po with children := po.children.delete child.hex } }, true)

/-- `defaultNode.AddAnnotation` (pkg/spaces/trees/node.go:178-185). -/
def addAnnotation (s : TS) (r : Ref) (k v : Str) : Option TS :=
  s.modify r fun o => { o with annotations := some (AL.put o.annotations.entries k v) }

/-- `defaultNode.SetAnnotations` (pkg/spaces/trees/node.go:188-192). The map is taken by value here; that the Go code shares it with the
caller is modelled in `Verif.Misc.Alias`. -/
def setAnnotations (s : TS) (r : Ref) (m : GoMap Str) : Option TS :=
  s.modify r fun o => { o with annotations := m }

/-- `defaultNode.AddData` (pkg/spaces/trees/node.go:215-228). -/
def addData (s : TS) (r : Ref) (k : Str) (v : Option Str) : Option TS :=
  s.modify r fun o => { o with data := some (AL.put o.data.entries k v) }

/-- `defaultNode.SetData` (pkg/spaces/trees/node.go:231-235). By value, as `setAnnotations`. -/
def setData (s : TS) (r : Ref) (m : GoMap (Option Str)) : Option TS :=
  s.modify r fun o => { o with data := m }

/-- `defaultNode.IsRoot` (pkg/spaces/trees/node.go:106-109). -/
def isRoot (s : TS) (r : Ref) : Option Bool := (s.heap[r]?).map fun o => o.parent.isNone

/-- `defaultNode.IsLeaf` (pkg/spaces/trees/node.go:112-117). -/
def isLeaf (s : TS) (r : Ref) : Option Bool := (s.heap[r]?).map fun o => o.children.size == 0

/-- `defaultNode.HasChild` (pkg/spaces/trees/node.go:97-103). -/
def hasChild (s : TS) (r : Ref) (child : UID) : Option Bool :=
  (s.heap[r]?).map fun o => (o.children.get child.hex).isSome

/-- `defaultTree.Get` (pkg/spaces/trees/tree.go:91-96). -/
def get (s : TS) (id : UID) : Option Ref := s.tree.nodes.get id.hex

/-- `defaultTree.GetByBranch` (pkg/spaces/trees/tree.go:99-104). -/
def getByBranch (s : TS) (name : Str) : Option Ref := s.tree.branches.get name

/-- `defaultTree.GetByTag` (pkg/spaces/trees/tree.go:107-112). -/
def getByTag (s : TS) (name : Str) : Option Ref := s.tree.tags.get name

/-- The first part of `defaultTree.Search` (pkg/spaces/trees/tree.go:160-165): read the key as hex, else as base32. -/
def searchID {ε : Type} (key : Str) : Res ε (Option UID) :=
  match UID.decodeHex key with
  | .ok u => .ok (some u)
  | .panic => .panic
  | .diverge => .diverge
  | .err _ =>
    match UID.decodeBase32 key with
    | .ok u => .ok (some u)
    | .panic => .panic
    | .diverge => .diverge
    | .err _ => .ok none

/-- `defaultTree.Search` (pkg/spaces/trees/tree.go:158-184). -/
def search {ε : Type} (s : TS) (key : Str) : Res ε (Option (Ref × KeyType)) :=
  (searchID key).bind fun id =>
    match id.bind s.get with
    | some r => .ok (some (r, .commit))
    | none =>
      match s.getByTag key with
      | some r => .ok (some (r, .tag))
      | none =>
        match s.getByBranch key with
        | some r => .ok (some (r, .branch))
        | none => .ok none

/-- The loop of `defaultTree.updateIndexes` (pkg/spaces/trees/tree.go:365-376). `diverge` when more nodes are visited than the fuel
allows. -/
def indexLoop {ε : Type} (heap : List NodeObj) : (fuel : Nat) → List Ref → List (Str × Ref) → Res ε (List (Str × Ref))
  | _, [], idx => .ok idx
  | 0, _ :: _, _ => .diverge
  | n + 1, item :: roots, idx =>
    match heap[item]? with
    | none => .panic
    | some o => indexLoop heap n (roots ++ o.children.entries.map Prod.snd) (AL.put idx o.id.hex item)

/-- `defaultTree.updateIndexes` (pkg/spaces/trees/tree.go:355-377). A forest of descendants has at most as many nodes as the heap, so
running out of fuel means that a node is reached twice. -/
def updateIndexes {ε : Type} (s : TS) (node : Ref) : Res ε TS :=
  (indexLoop s.heap (s.heap.length + 1) [node] s.tree.nodes.ensure.entries).bind fun idx =>
    .ok { s with tree := { s.tree with nodes := some idx } }

/-- `defaultTree.AddNode` (pkg/spaces/trees/tree.go:189-217). -/
def addNode (s : TS) (parentID : Option UID) (node : Ref) : Res TreeErr TS :=
  match parentID with
  | none =>
    match s.tree.root with
    | some _ => .err .rootExists
    | none => updateIndexes { s with tree := { s.tree with root := some node } } node
  | some pid =>
    match s.tree.nodes.get pid.hex with
    | none => .err .parentNotFound
    | some p =>
      match s.addChild p node with
      | none => .panic
      | some (s1, _) =>
        match s1.setParent node (some p) with
        | none => .panic
        | some s2 => updateIndexes s2 node

/-- `defaultTree.AddTag` (pkg/spaces/trees/tree.go:222-241). -/
def addTag (s : TS) (name : Str) (id : UID) : Res TreeErr TS :=
  match s.tree.nodes.get id.hex with
  | none => .err .nodeNotFound
  | some r =>
    match s.tree.tags.ensure.assign name r with
    | none => .panic
    | some m => .ok { s with tree := { s.tree with tags := m } }

/-- `defaultTree.DeleteTag` (pkg/spaces/trees/tree.go:246-256). -/
def deleteTag (s : TS) (name : Str) : TS × Bool :=
  match s.tree.tags.get name with
  | none => (s, false)
  | some _ => ({ s with tree := { s.tree with tags := s.tree.tags.delete name } }, true)

/-- `defaultTree.AddBranch` (pkg/spaces/trees/tree.go:261-281). -/
def addBranch (s : TS) (name : Str) (id : UID) : Res TreeErr TS :=
  match s.tree.nodes.get id.hex with
  | none => .err .nodeNotFound
  | some r =>
    match s.tree.branches.ensure.assign name r with
    | none => .panic
    | some m => .ok { s with tree := { s.tree with branches := m } }

/-- The loop `for cur != nil` of `defaultTree.UpdateBranch` (pkg/spaces/trees/tree.go:317-325): whether `head` is on the chain of parents
that starts at `cur`. A chain longer than the number of objects is a cycle, so running out of fuel is an endless loop. -/
def connected {ε : Type} (heap : List NodeObj) (head : Str) : (fuel : Nat) → Option Ref → Res ε Bool
  | _, none => .ok false
  | 0, some _ => .diverge
  | n + 1, some cur =>
    match heap[cur]? with
    | none => .panic
    | some o => if o.id.hex = head then .ok true else connected heap head n o.parent

/-- Fuel for walks along parents. -/
def walkFuel (s : TS) : Nat := s.tree.nodes.size + s.heap.length + 1

/-- `defaultTree.UpdateBranch` (pkg/spaces/trees/tree.go:287-335). -/
def updateBranch (s : TS) (name : Str) (id : UID) (force : Bool) : Res TreeErr TS :=
  match s.tree.nodes.get id.hex with
  | none => .err .nodeNotFound
  | some node =>
    match s.tree.branches.get name with
    | none => .err .branchNotFound
    | some head =>
      match s.heap[head]?, s.heap[node]? with
      | some ho, some no =>
        if ho.id.hex = no.id.hex then .ok s
        else
          let set : Res TreeErr TS :=
            match s.tree.branches.assign name node with
            | none => .panic
            | some m => .ok { s with tree := { s.tree with branches := m } }
          if force then set
          else (connected s.heap ho.id.hex s.walkFuel (some node)).bind fun c =>
            if c then set else .err .unreachable
      | _, _ => .panic

/-- `defaultTree.DeleteBranch` (pkg/spaces/trees/tree.go:340-350). -/
def deleteBranch (s : TS) (name : Str) : TS × Bool :=
  match s.tree.branches.get name with
  | none => (s, false)
  | some _ => ({ s with tree := { s.tree with branches := s.tree.branches.delete name } }, true)

end TS
end Verif
