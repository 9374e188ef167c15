import Verif.Json.ParseProofs
import Verif.Go.Sort
import Verif.Go.Base64
import Verif.Tree.Dump
/-!
# Tree dumps and workspace records as JSON

`json.Marshal` and `json.Unmarshal` for `TreeDump`, `NodeDump` (pkg/spaces/trees/dump.go:10-29) and `WorkspaceInfo`
(pkg/manager/manager_default.go:116-123).
-/
set_option autoImplicit false
namespace Verif
namespace Json

/-! ## Writing -/

/-- Fields from a list. -/
def fields : List (Str × Val) → Fields
  | [] => .nil
  | e :: l => .cons e.1 e.2 (fields l)

/-- A `map[string]string`: sorted keys. -/
def strMapJ (l : List (Str × Str)) : Val := .obj (fields ((sortBy Prod.fst l).map fun e => (e.1, .str e.2)))

/-- A `[]byte`: base64, or null when nil. -/
def bytesJ : Option Str → Val
  | none => .null
  | some b => .str (Base64.encode b)

/-- A `map[string][]byte`: sorted keys. -/
def bytesMapJ (l : List (Str × Option Str)) : Val :=
  .obj (fields ((sortBy Prod.fst l).map fun e => (e.1, bytesJ e.2)))

/-- A map that is nil is written as null. -/
def nameMapJ : GoMap Str → Val
  | none => .null
  | some l => strMapJ l

/-- A field with `omitempty`. -/
def optField (present : Bool) (k : Str) (v : Val) : List (Str × Val) := if present then [(k, v)] else []

/-- The fields of a node around the list of its children (pkg/spaces/trees/dump.go:20-29). -/
def nodeFieldsJ (id : Str) (kids : List Val) (anno : GoMap Str) (data : GoMap (Option Str)) (toVals : List Val → Vals) :
    List (Str × Val) :=
  (lit "id", .str id) ::
    (optField (!kids.isEmpty) (lit "children") (.arr (toVals kids)) ++
      (optField (!anno.entries.isEmpty) (lit "annotations") (strMapJ anno.entries) ++
        optField (!data.entries.isEmpty) (lit "data") (bytesMapJ data.entries)))

/-- Array elements from a list. -/
def vals : List Val → Vals
  | [] => .nil
  | v :: l => .cons v (vals l)

mutual
/-- `NodeDump` as JSON (pkg/spaces/trees/dump.go:20-29). -/
def nodeJ : NodeDump → Val
  | .mk id cs anno data => .obj (fields (nodeFieldsJ id (nodesJ cs) anno data vals))
/-- A list of nodes. -/
def nodesJ : List NodeDump → List Val
  | [] => []
  | c :: cs => nodeJ c :: nodesJ cs
end

/-- `*NodeDump`. -/
def rootJ : Option NodeDump → Val
  | none => .null
  | some nd => nodeJ nd

/-- `TreeDump` as JSON (pkg/spaces/trees/dump.go:10-17). -/
def dumpFieldsJ (d : TreeDump) : Fields :=
  fields [(lit "nodes", rootJ d.nodes), (lit "branches", nameMapJ d.branches), (lit "tags", nameMapJ d.tags)]

/-- `json.Marshal(&dump)` (pkg/spaces/default.go:113). `sh` selects the Go version, see `quoteChunk`. -/
def marshalDump (sh : Bool) (d : TreeDump) : Str := emit sh (.obj (dumpFieldsJ d))

/-! ## Reading -/

/-- Case folding of field names: ASCII letters, and the two letters outside ASCII that fold into it (U+017F long s,
U+212A Kelvin sign). -/
def foldKey : Str → Str
  | 0xC5 :: 0xBF :: r => 0x73 :: foldKey r
  | 0xE2 :: 0x84 :: 0xAA :: r => 0x6B :: foldKey r
  | c :: r => (if 0x41 ≤ c ∧ c ≤ 0x5A then c + 0x20 else c) :: foldKey r
  | [] => []

/-- A string field: null leaves it as it is. -/
def strInto (cur : Str) : Val → Option Str
  | .null => some cur
  | .str s => some s
  | _ => none

/-- The entries of a JSON object, read into a `map[string]string`. -/
def strEntries : Fields → List (Str × Str) → Option (List (Str × Str))
  | .nil, acc => some acc
  | .cons k v l, acc => (strInto [] v).bind fun x => strEntries l (AL.put acc k x)

/-- A `map[string]string`: null makes it nil, an object is merged into the map that is there. -/
def strMapInto (cur : GoMap Str) : Val → Option (GoMap Str)
  | .null => some none
  | .obj l => (strEntries l cur.entries).map some
  | _ => none

/-- A `[]byte`. Go also reads an array of numbers; that form is left out, this program never writes it. -/
def bytesOf : Val → Option (Option Str)
  | .null => some none
  | .str s => (Base64.decode s).map some
  | _ => none

/-- The entries of a JSON object, read into a `map[string][]byte`. -/
def bytesEntries : Fields → List (Str × Option Str) → Option (List (Str × Option Str))
  | .nil, acc => some acc
  | .cons k v l, acc => (bytesOf v).bind fun x => bytesEntries l (AL.put acc k x)

/-- A `map[string][]byte`. -/
def bytesMapInto (cur : GoMap (Option Str)) : Val → Option (GoMap (Option Str))
  | .null => some none
  | .obj l => (bytesEntries l cur.entries).map some
  | _ => none

/-- The zero `NodeDump`. -/
def zeroNode : NodeDump := .mk [] [] none none

mutual
/-- A `NodeDump` that is already there is filled from a value; null leaves it. A value of the wrong type is an error. -/
def nodeInto : Val → NodeDump → Option NodeDump
  | .null, cur => some cur
  | .obj l, cur => nodeFields l cur
  | _, _ => none
/-- The fields of a node, in the order of the text; names are matched without regard to case, unknown names skipped. -/
def nodeFields : Fields → NodeDump → Option NodeDump
  | .nil, cur => some cur
  | .cons k v l, .mk id cs anno data =>
    if foldKey k = lit "id" then (strInto id v).bind fun x => nodeFields l (.mk x cs anno data)
    else if foldKey k = lit "children" then (childrenOf v).bind fun x => nodeFields l (.mk id x anno data)
    else if foldKey k = lit "annotations" then (strMapInto anno v).bind fun x => nodeFields l (.mk id cs x data)
    else if foldKey k = lit "data" then (bytesMapInto data v).bind fun x => nodeFields l (.mk id cs anno x)
    else nodeFields l (.mk id cs anno data)
/-- A `[]NodeDump`. A second `children` field replaces the first here; Go would reuse the elements that are there. This
program never writes a field twice. -/
def childrenOf : Val → Option (List NodeDump)
  | .null => some []
  | .arr l => nodeList l
  | _ => none
/-- The elements of a list of nodes. -/
def nodeList : Vals → Option (List NodeDump)
  | .nil => some []
  | .cons v l => (nodeInto v zeroNode).bind fun x => (nodeList l).map fun y => x :: y
end

/-- A `*NodeDump`: null makes it nil. -/
def rootInto (cur : Option NodeDump) : Val → Option (Option NodeDump)
  | .null => some none
  | v => (nodeInto v (cur.getD zeroNode)).map some

/-- The fields of a `TreeDump`. -/
def dumpFields : Fields → TreeDump → Option TreeDump
  | .nil, cur => some cur
  | .cons k v l, cur =>
    if foldKey k = lit "nodes" then (rootInto cur.nodes v).bind fun x => dumpFields l { cur with nodes := x }
    else if foldKey k = lit "branches" then (strMapInto cur.branches v).bind fun x => dumpFields l { cur with branches := x }
    else if foldKey k = lit "tags" then (strMapInto cur.tags v).bind fun x => dumpFields l { cur with tags := x }
    else dumpFields l cur

/-- The zero `TreeDump`. -/
def zeroDump : TreeDump := ⟨none, none, none⟩

/-- A `TreeDump` from a value. -/
def dumpOf : Val → Option TreeDump
  | .null => some zeroDump
  | .obj l => dumpFields l zeroDump
  | _ => none

/-- `json.Unmarshal(raw, &dump)` (pkg/spaces/default.go:93); `none` is an error. -/
def unmarshalDump (s : Str) : Option TreeDump := (parse s).bind dumpOf

/-! ## Workspace records -/

/-- `WorkspaceInfo` (pkg/manager/manager_default.go:116-123). -/
structure WsInfo where
  id : Str
  path : Str
  head : Str
  spaceID : Str
  mountID : Str
  branch : Str
  deriving DecidableEq, Repr

/-- `json.Marshal(&WorkspaceInfo{...})` (pkg/manager/manager_default.go:415-422): the fields in the order of the struct; the space ID
is spelled `sapceID`. -/
def infoFieldsJ (w : WsInfo) : Fields :=
  fields [(lit "id", .str w.id), (lit "path", .str w.path), (lit "head", .str w.head), (lit "sapceID", .str w.spaceID),
    (lit "mountID", .str w.mountID), (lit "branch", .str w.branch)]

/-- The bytes of a `.workspace` file. -/
def marshalInfo (sh : Bool) (w : WsInfo) : Str := emit sh (.obj (infoFieldsJ w))

/-- The fields of a `WorkspaceInfo`. -/
def infoFields : Fields → WsInfo → Option WsInfo
  | .nil, cur => some cur
  | .cons k v l, cur =>
    if foldKey k = lit "id" then (strInto cur.id v).bind fun x => infoFields l { cur with id := x }
    else if foldKey k = lit "path" then (strInto cur.path v).bind fun x => infoFields l { cur with path := x }
    else if foldKey k = lit "head" then (strInto cur.head v).bind fun x => infoFields l { cur with head := x }
    else if foldKey k = lit "sapceid" then (strInto cur.spaceID v).bind fun x => infoFields l { cur with spaceID := x }
    else if foldKey k = lit "mountid" then (strInto cur.mountID v).bind fun x => infoFields l { cur with mountID := x }
    else if foldKey k = lit "branch" then (strInto cur.branch v).bind fun x => infoFields l { cur with branch := x }
    else infoFields l cur

/-- A `WorkspaceInfo` from a value. -/
def infoOf : Val → Option WsInfo
  | .null => some ⟨[], [], [], [], [], []⟩
  | .obj l => infoFields l ⟨[], [], [], [], [], []⟩
  | _ => none

/-- `json.Unmarshal(wsInfoRaw, &wsInfo)` (pkg/manager/manager_default.go:455). -/
def unmarshalInfo (s : Str) : Option WsInfo := (parse s).bind infoOf

end Json
end Verif
