import Verif.Misc.Alias
/-!
# The methods of the tree on shared memory

The methods of `Verif.Tree.Model` once more, on the memory of `Verif.Misc.Alias`, where maps are references. Reads go through the references
and writes go into the maps.
-/
set_option autoImplicit false
namespace Verif
namespace Alias
open TS

/-- `AddChild` (pkg/spaces/trees/node.go:126-143). -/
def Mem.addChild (m : Mem) (p c : Ref) : Option (Mem × Bool) :=
  match m.objs[p]?, m.objs[c]? with
  | some po, some co =>
    match (readRefs m.cells po.children).get co.id.hex with
    | some _ => some (m, false)
    | none => some (m.assign (.children p) co.id.hex c, true)
  | _, _ => none

/-- `DeleteChild` (pkg/spaces/trees/node.go:147-161). -/
def Mem.deleteChild (m : Mem) (p : Ref) (child : UID) : Option (Mem × Bool) :=
  match m.objs[p]? with
  | none => none
  | some po =>
    match (readRefs m.cells po.children).get child.hex with
    | none => some (m, false)
    | some _ => some (m.delete (.children p) child.hex, true)

/-- The loop of `updateIndexes` (pkg/spaces/trees/tree.go:365-376): every node is written into the index at once. -/
def Mem.indexLoop {ε : Type} : (fuel : Nat) → List Ref → Mem → Res ε Mem
  | _, [], m => .ok m
  | 0, _ :: _, _ => .diverge
  | n + 1, item :: roots, m =>
    match m.objs[item]? with
    | none => .panic
    | some o => Mem.indexLoop n (roots ++ (readRefs m.cells o.children).entries.map Prod.snd) (m.assign .nodes o.id.hex item)

/-- `updateIndexes` (pkg/spaces/trees/tree.go:355-377). -/
def Mem.updateIndexes {ε : Type} (m : Mem) (node : Ref) : Res ε Mem := Mem.indexLoop (m.objs.length + 1) [node] m

/-- `AddNode` (pkg/spaces/trees/tree.go:189-217). -/
def Mem.addNode (m : Mem) (parentID : Option UID) (node : Ref) : Res TreeErr Mem :=
  match parentID with
  | none =>
    match m.root with
    | some _ => .err .rootExists
    | none => ({ m with root := some node } : Mem).updateIndexes node
  | some pid =>
    match (readRefs m.cells m.nodes).get pid.hex with
    | none => .err .parentNotFound
    | some p =>
      match m.addChild p node with
      | none => .panic
      | some (m1, _) =>
        match m1.objs[node]? with
        | none => .panic
        | some _ => (m1.setParent node (some p)).updateIndexes node

/-- `AddTag` (pkg/spaces/trees/tree.go:222-241). -/
def Mem.addTag (m : Mem) (name : Str) (id : UID) : Res TreeErr Mem :=
  match (readRefs m.cells m.nodes).get id.hex with
  | none => .err .nodeNotFound
  | some r => .ok (m.assign .tags name r)

/-- `DeleteTag` (pkg/spaces/trees/tree.go:246-256). -/
def Mem.deleteTag (m : Mem) (name : Str) : Mem × Bool :=
  match (readRefs m.cells m.tags).get name with
  | none => (m, false)
  | some _ => (m.delete .tags name, true)

/-- `AddBranch` (pkg/spaces/trees/tree.go:261-281). -/
def Mem.addBranch (m : Mem) (name : Str) (id : UID) : Res TreeErr Mem :=
  match (readRefs m.cells m.nodes).get id.hex with
  | none => .err .nodeNotFound
  | some r => .ok (m.assign .branches name r)

/-- The loop `for cur != nil` of `UpdateBranch` (pkg/spaces/trees/tree.go:317-325). -/
def Mem.connected {ε : Type} (m : Mem) (head : Str) : (fuel : Nat) → Option Ref → Res ε Bool
  | _, none => .ok false
  | 0, some _ => .diverge
  | n + 1, some cur =>
    match m.objs[cur]? with
    | none => .panic
    | some o => if o.id.hex = head then .ok true else m.connected head n o.parent

/-- `UpdateBranch` (pkg/spaces/trees/tree.go:287-335). -/
def Mem.updateBranch (m : Mem) (name : Str) (id : UID) (force : Bool) : Res TreeErr Mem :=
  match (readRefs m.cells m.nodes).get id.hex with
  | none => .err .nodeNotFound
  | some node =>
    match (readRefs m.cells m.branches).get name with
    | none => .err .branchNotFound
    | some head =>
      match m.objs[head]?, m.objs[node]? with
      | some ho, some no =>
        if ho.id.hex = no.id.hex then .ok m
        else if force then .ok (m.assign .branches name node)
        else (m.connected ho.id.hex ((readRefs m.cells m.nodes).size + m.objs.length + 1) (some node)).bind fun c =>
          if c then .ok (m.assign .branches name node) else .err .unreachable
      | _, _ => .panic

/-- `DeleteBranch` (pkg/spaces/trees/tree.go:340-350). -/
def Mem.deleteBranch (m : Mem) (name : Str) : Mem × Bool :=
  match (readRefs m.cells m.branches).get name with
  | none => (m, false)
  | some _ => (m.delete .branches name, true)

end Alias
end Verif
