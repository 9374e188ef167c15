import Verif.Tree.Exec
/-!
# `pkg/spaces/trees/dump.go`: `Dump` and `Load`
-/
set_option autoImplicit false
namespace Verif

/-- `NodeDump` (pkg/spaces/trees/dump.go:20-29). A nil and an empty `Children` slice are the same here: `Load` treats
them alike and `omitempty` drops both. -/
inductive NodeDump where
  | mk (id : Str) (children : List NodeDump) (annotations : GoMap Str) (data : GoMap (Option Str))

namespace NodeDump
def id : NodeDump → Str | mk i _ _ _ => i
def children : NodeDump → List NodeDump | mk _ c _ _ => c
def annotations : NodeDump → GoMap Str | mk _ _ a _ => a
def data : NodeDump → GoMap (Option Str) | mk _ _ _ d => d
end NodeDump

/-- `TreeDump` (pkg/spaces/trees/dump.go:10-17). -/
structure TreeDump where
  nodes : Option NodeDump
  branches : GoMap Str
  tags : GoMap Str

/-- `m'` has the entries of `m`: a copy of a map, or the result of a JSON round trip, keeps neither the iteration order
nor the difference between nil and empty. -/
structure GoMap.Copy {α : Type} (m m' : GoMap α) : Prop where
  nodup : m.Nodup → m'.Nodup
  get : m'.get = m.get

theorem GoMap.Copy.refl {α : Type} (m : GoMap α) : GoMap.Copy m m := ⟨id, rfl⟩

mutual
/-- What `Dump` (pkg/spaces/trees/dump.go:43-71) builds for one node: ID and copies of the annotations and data of the node (pkg/spaces/trees/node.go:164-175,
:195-212) and, in any order (`range` over the map that `Children()` returns), what it builds for the children. The level-by-level work list with pointers to the
cells of the result is modelled by this recursion; `Verif.Tree.DumpLoop` proves that the loop computes it. -/
inductive DumpsTo (heap : List NodeObj) : Ref → NodeDump → Prop where
  | mk {r : Ref} {o : NodeObj} {es : List (Str × Ref)} {ds : List NodeDump} {anno : GoMap Str}
      {data : GoMap (Option Str)} :
      heap[r]? = some o → es.Perm o.children.entries → DumpsList heap (es.map Prod.snd) ds →
      GoMap.Copy o.annotations anno → GoMap.Copy o.data data →
      DumpsTo heap r (.mk o.id.hex ds anno data)
/-- The dumps of a list of nodes. -/
inductive DumpsList (heap : List NodeObj) : List Ref → List NodeDump → Prop where
  | nil : DumpsList heap [] []
  | cons {r : Ref} {d : NodeDump} {rs : List Ref} {ds : List NodeDump} :
      DumpsTo heap r d → DumpsList heap rs ds → DumpsList heap (r :: rs) (d :: ds)
end

/-- The name tables of a dump (pkg/spaces/trees/dump.go:73-85): the nil map stays nil, else a new map is filled with one entry for each
entry of the tree's map, whose value is the hex ID of the node. The list order of the result is arbitrary. -/
inductive DumpsNames (heap : List NodeObj) : GoMap Ref → GoMap Str → Prop where
  | nil : DumpsNames heap none none
  | mk {l : List (Str × Ref)} {l' : List (Str × Str)} :
      (AL.keys l').Nodup →
      (∀ k v, AL.get l' k = some v ↔ ∃ r o, AL.get l k = some r ∧ heap[r]? = some o ∧ v = o.id.hex) →
      DumpsNames heap (some l) (some l')

/-- `Dump` (pkg/spaces/trees/dump.go:32-88) as a relation: the possible results. -/
structure Dumps (s : TS) (d : TreeDump) : Prop where
  nodes : match s.tree.root with
    | none => d.nodes = none
    | some r => ∃ nd, d.nodes = some nd ∧ DumpsTo s.heap r nd
  branches : DumpsNames s.heap s.tree.branches d.branches
  tags : DumpsNames s.heap s.tree.tags d.tags

/-- Errors of `Load`. -/
inductive LoadErr where
  /-- `decode id of the root node error` (pkg/spaces/trees/dump.go:100). -/
  | rootID
  /-- `decode id of the node error` (pkg/spaces/trees/dump.go:115, :120, :137, :148). -/
  | nodeID
  /-- An error of `AddNode`, `AddBranch` or `AddTag` (pkg/spaces/trees/dump.go:107, :127, :140, :151). -/
  | tree (e : TreeErr)
  deriving DecidableEq, Repr

/-- Wrap an error. -/
def Res.mapErr {ε ε' α : Type} (f : ε → ε') : Res ε α → Res ε' α
  | .ok a => .ok a
  | .err e => .err (f e)
  | .panic => .panic
  | .diverge => .diverge

namespace TS

/-- `NewNode`, `SetAnnotations`, `SetData`, `AddNode` (pkg/spaces/trees/dump.go:103-106, :122-126). -/
def addNew (s : TS) (parent : Option UID) (id : UID) (anno : GoMap Str) (data : GoMap (Option Str)) : Res TreeErr TS :=
  match s.mkNode id anno data with
  | none => .panic
  | some (r, s1) => s1.addNode parent r

/-- The inner loop of `Load` (pkg/spaces/trees/dump.go:117-129). -/
def loadChildren (pid : UID) : List NodeDump → TS → Res LoadErr TS
  | [], s => .ok s
  | c :: cs, s =>
    ((UID.decodeHex c.id).mapErr fun _ => LoadErr.nodeID).bind fun cid =>
      ((s.addNew (some pid) cid c.annotations c.data).mapErr .tree).bind fun s' => loadChildren pid cs s'

/-- The work list of `Load` (pkg/spaces/trees/dump.go:109-131). -/
def loadLoop : (fuel : Nat) → List NodeDump → TS → Res LoadErr TS
  | _, [], s => .ok s
  | 0, _ :: _, _ => .diverge
  | n + 1, item :: nodes, s =>
    ((UID.decodeHex item.id).mapErr fun _ => LoadErr.nodeID).bind fun pid =>
      (loadChildren pid item.children s).bind fun s' => loadLoop n (nodes ++ item.children) s'

/-- The loop over branches or tags (pkg/spaces/trees/dump.go:134-142, :145-153). -/
def loadNames (add : TS → Str → UID → Res TreeErr TS) : List (Str × Str) → TS → Res LoadErr TS
  | [], s => .ok s
  | (name, v) :: es, s =>
    ((UID.decodeHex v).mapErr fun _ => LoadErr.nodeID).bind fun id =>
      ((add s name id).mapErr .tree).bind fun s' => loadNames add es s'

mutual
/-- The number of nodes of a dump. -/
def dumpSize : NodeDump → Nat
  | .mk _ cs _ _ => 1 + dumpSizes cs
/-- The number of nodes of a list of dumps. -/
def dumpSizes : List NodeDump → Nat
  | [] => 0
  | d :: ds => dumpSize d + dumpSizes ds
end

/-- `Load` (pkg/spaces/trees/dump.go:91-156). Each node of the dump is in the work list once, so its size is enough fuel
(`load_not_diverge`). -/
def load (d : TreeDump) : Res LoadErr TS :=
  match d.nodes with
  | none => .ok empty
  | some nd =>
    ((UID.decodeHex nd.id).mapErr fun _ => LoadErr.rootID).bind fun rid =>
      ((empty.addNew none rid nd.annotations nd.data).mapErr .tree).bind fun s0 =>
        (loadLoop (dumpSize nd) [nd] s0).bind fun s1 =>
          (loadNames addBranch d.branches.entries s1).bind fun s2 =>
            loadNames addTag d.tags.entries s2

end TS
end Verif
