import Verif.Tree.Model
/-!
# Maps and slices that are shared

In `Verif.Tree.Model` maps are values. In Go they are references, so whoever holds a map can change it. Here all maps and byte
slices live in a memory of cells, nodes and the tree hold references to cells, and the caller of the API holds references too.
-/
set_option autoImplicit false
namespace Verif
namespace Alias

/-- An object in memory. -/
inductive Cell where
  /-- A `map[string]string`. -/
  | strs (l : List (Str × Str))
  /-- A `map[string]Node`. -/
  | refs (l : List (Str × Ref))
  /-- A `map[string][]byte`: its values are nil or slices. A slice is a cell; slices of one array that overlap are not
  modelled. -/
  | datas (l : List (Str × Option Nat))
  /-- The bytes of a slice. -/
  | bytes (b : Str)

/-- `defaultNode` (pkg/spaces/trees/node.go:54-64): its maps are nil or references. -/
structure Obj where
  id : UID
  parent : Option Ref
  children : Option Nat
  annotations : Option Nat
  data : Option Nat

/-- The memory, the nodes and the fields of the tree (pkg/spaces/trees/tree.go:75-86). -/
structure Mem where
  cells : List Cell
  objs : List Obj
  root : Option Ref
  nodes : Option Nat
  branches : Option Nat
  tags : Option Nat

/-- Read a `map[string]string`. -/
def readStrs (cells : List Cell) : Option Nat → GoMap Str
  | none => none
  | some p => match cells[p]? with
    | some (.strs l) => some l
    | _ => some []

/-- Read a `map[string]Node`. -/
def readRefs (cells : List Cell) : Option Nat → GoMap Ref
  | none => none
  | some p => match cells[p]? with
    | some (.refs l) => some l
    | _ => some []

/-- The entries of a `map[string][]byte`. -/
def dataOf (cells : List Cell) (p : Nat) : List (Str × Option Nat) :=
  match cells[p]? with
  | some (.datas l) => l
  | _ => []

/-- Read a slice. -/
def readBytes (cells : List Cell) : Option Nat → Option Str
  | none => none
  | some q => match cells[q]? with
    | some (.bytes b) => some b
    | _ => some []

/-- Read a `map[string][]byte` with the bytes of its slices. -/
def readData (cells : List Cell) : Option Nat → GoMap (Option Str)
  | none => none
  | some p => some ((dataOf cells p).map fun e => (e.1, readBytes cells e.2))

/-- The tree as a user of the API sees it: the values of all maps. -/
def Mem.view (m : Mem) : TS where
  heap := m.objs.map fun o => ⟨o.id, o.parent, readRefs m.cells o.children, readStrs m.cells o.annotations, readData m.cells o.data⟩
  tree := ⟨m.root, readRefs m.cells m.nodes, readRefs m.cells m.branches, readRefs m.cells m.tags⟩

/-- Allocate. -/
def Mem.alloc (m : Mem) (c : Cell) : Nat × Mem := (m.cells.length, { m with cells := m.cells ++ [c] })

/-- Copy a `map[string]string` (pkg/spaces/trees/node.go:170-174). -/
def Mem.copyStrs (m : Mem) : Option Nat → Option Nat × Mem
  | none => (none, m)
  | some p => let (q, m') := m.alloc (.strs (readStrs m.cells (some p)).entries); (some q, m')

/-- Copy a `map[string]Node` (pkg/spaces/trees/tree.go:126-135, :143-152; pkg/spaces/trees/node.go:83-93). -/
def Mem.copyRefs (m : Mem) : Option Nat → Option Nat × Mem
  | none => (none, m)
  | some p => let (q, m') := m.alloc (.refs (readRefs m.cells (some p)).entries); (some q, m')

/-- Copy a slice (pkg/spaces/trees/node.go:203-208, :221-226): nil stays nil. -/
def Mem.copyBytes (m : Mem) : Option Nat → Option Nat × Mem
  | none => (none, m)
  | some q => let (q', m') := m.alloc (.bytes ((readBytes m.cells (some q)).getD [])); (some q', m')

/-- The loop over the entries of a data map (pkg/spaces/trees/node.go:202-210). -/
def Mem.copyEntries (m : Mem) : List (Str × Option Nat) → List (Str × Option Nat) × Mem
  | [] => ([], m)
  | (k, v) :: es =>
    let (v', m1) := m.copyBytes v
    let (es', m2) := m1.copyEntries es
    ((k, v') :: es', m2)

/-- Copy a `map[string][]byte` with its slices (pkg/spaces/trees/node.go:196-211). -/
def Mem.copyData (m : Mem) : Option Nat → Option Nat × Mem
  | none => (none, m)
  | some p =>
    let (es, m1) := m.copyEntries (dataOf m.cells p)
    let (q, m2) := m1.alloc (.datas es)
    (some q, m2)

/-- Overwrite a cell. -/
def Mem.store (m : Mem) (p : Nat) (c : Cell) : Mem := { m with cells := m.cells.set p c }

/-- Change a node. -/
def Mem.setObj (m : Mem) (r : Ref) (o : Obj) : Mem := { m with objs := m.objs.set r o }

/-- The maps of nodes that the tree and the nodes hold. -/
inductive Field where
  | nodes | branches | tags
  | children (r : Ref)

/-- The reference in a field; `none` also when there is no such node. -/
def Mem.field (m : Mem) : Field → Option Nat
  | .nodes => m.nodes
  | .branches => m.branches
  | .tags => m.tags
  | .children r => (m.objs[r]?).bind (·.children)

/-- Let a field of the tree or of a node point to the map `p` (the assignments `tree.tags = …` and the like, pkg/spaces/trees/tree.go:235-236). -/
def Mem.setField (m : Mem) (p : Option Nat) : Field → Mem
  | .nodes => { m with nodes := p }
  | .branches => { m with branches := p }
  | .tags => { m with tags := p }
  | .children r => match m.objs[r]? with
    | none => m
    | some o => m.setObj r { o with children := p }

/-- `make` the map if it is nil, then assign (pkg/spaces/trees/tree.go:235-238, :274-277, :312, :333, :361-371; pkg/spaces/trees/node.go:137-140): all writes of the tree
methods into maps of nodes. -/
def Mem.assign (m : Mem) (f : Field) (k : Str) (r : Ref) : Mem :=
  match m.field f with
  | none => let (p, m1) := m.alloc (.refs [(k, r)]); m1.setField (some p) f
  | some p => m.store p (.refs (AL.put (readRefs m.cells (some p)).entries k r))

/-- `delete` (pkg/spaces/trees/tree.go:253, :347; pkg/spaces/trees/node.go:158). -/
def Mem.delete (m : Mem) (f : Field) (k : Str) : Mem :=
  match m.field f with
  | none => m
  | some p => m.store p (.refs ((readRefs m.cells (some p)).delete k).entries)

/-- `NewNode` (pkg/spaces/trees/node.go:49-51). -/
def Mem.newNode (m : Mem) (id : UID) : Mem := { m with objs := m.objs ++ [⟨id, none, none, none, none⟩] }

/-- `SetParent` (pkg/spaces/trees/node.go:120-122). -/
def Mem.setParent (m : Mem) (r : Ref) (p : Option Ref) : Mem :=
  match m.objs[r]? with
  | none => m
  | some o => m.setObj r { o with parent := p }

/-- `AddAnnotation` (pkg/spaces/trees/node.go:178-185). -/
def Mem.addAnnotation (m : Mem) (r : Ref) (k v : Str) : Mem :=
  match m.objs[r]? with
  | none => m
  | some o => match o.annotations with
    | none => let (p, m1) := m.alloc (.strs [(k, v)]); m1.setObj r { o with annotations := some p }
    | some p => m.store p (.strs (AL.put (readStrs m.cells (some p)).entries k v))

/-- `AddData` (pkg/spaces/trees/node.go:215-228): the slice is copied. -/
def Mem.addData (m : Mem) (r : Ref) (k : Str) (v : Option Nat) : Mem :=
  match m.objs[r]? with
  | none => m
  | some o =>
    let (v', m1) := m.copyBytes v
    match o.data with
    | none => let (p, m2) := m1.alloc (.datas [(k, v')]); m2.setObj r { o with data := some p }
    | some p => m1.store p (.datas (AL.put (dataOf m1.cells p) k v'))

/-- `SetAnnotations` (pkg/spaces/trees/node.go:188-192): the reference is stored. -/
def Mem.setAnnotations (m : Mem) (r : Ref) (p : Option Nat) : Mem :=
  match m.objs[r]? with
  | none => m
  | some o => m.setObj r { o with annotations := p }

/-- `SetData` (pkg/spaces/trees/node.go:231-235): the reference is stored. -/
def Mem.setData (m : Mem) (r : Ref) (p : Option Nat) : Mem :=
  match m.objs[r]? with
  | none => m
  | some o => m.setObj r { o with data := p }

/-- The references that a fresh piece of memory holds. -/
def fresh (m m' : Mem) : Nat → Prop := fun p => m.cells.length ≤ p ∧ p < m'.cells.length

/-- The API calls. Next to the memory, `K` are the cells that the caller can reach and has not handed over. What a getter allocates, the
caller can reach. `SetAnnotations` and `SetData` keep the caller's map: it is handed over, and the caller may not touch it again
(what happens if they do: `C53_setters_keep`). -/
inductive Call : Mem → (Nat → Prop) → Mem → (Nat → Prop) → Prop where
  | newNode {m : Mem} {K : Nat → Prop} (id : UID) : Call m K (m.newNode id) K
  | setParent {m : Mem} {K : Nat → Prop} (r : Ref) (p : Option Ref) : Call m K (m.setParent r p) K
  | setRoot {m : Mem} {K : Nat → Prop} (r : Option Ref) : Call m K { m with root := r } K
  | assign {m : Mem} {K : Nat → Prop} (f : Field) (k : Str) (r : Ref) : Call m K (m.assign f k r) K
  | delete {m : Mem} {K : Nat → Prop} (f : Field) (k : Str) : Call m K (m.delete f k) K
  | addAnnotation {m : Mem} {K : Nat → Prop} (r : Ref) (k v : Str) : Call m K (m.addAnnotation r k v) K
  | addData {m : Mem} {K : Nat → Prop} (r : Ref) (k : Str) (v : Option Nat) : (∀ q, v = some q → K q) → Call m K (m.addData r k v) K
  | setAnnotations {m : Mem} {K : Nat → Prop} (r : Ref) (p : Nat) : K p → Call m K (m.setAnnotations r (some p)) (fun q => K q ∧ q ≠ p)
  | setData {m : Mem} {K : Nat → Prop} (r : Ref) (p : Nat) : K p → (∀ e ∈ dataOf m.cells p, ∀ q, e.2 = some q → K q) →
      Call m K (m.setData r (some p)) (fun q => K q ∧ q ≠ p ∧ ∀ e ∈ dataOf m.cells p, e.2 ≠ some q)
  /-- `Tags` (pkg/spaces/trees/tree.go:122-136), `Branches` (pkg/spaces/trees/tree.go:139-153), `Children` (pkg/spaces/trees/node.go:79-94). -/
  | getRefs {m : Mem} {K : Nat → Prop} (f : Field) :
      Call m K (m.copyRefs (m.field f)).2 (fun p => K p ∨ fresh m (m.copyRefs (m.field f)).2 p)
  /-- `Annotations` (pkg/spaces/trees/node.go:164-175). -/
  | getAnnotations {m : Mem} {K : Nat → Prop} {r : Ref} {o : Obj} : m.objs[r]? = some o →
      Call m K (m.copyStrs o.annotations).2 (fun p => K p ∨ fresh m (m.copyStrs o.annotations).2 p)
  /-- `Data` (pkg/spaces/trees/node.go:195-212). -/
  | getData {m : Mem} {K : Nat → Prop} {r : Ref} {o : Obj} : m.objs[r]? = some o →
      Call m K (m.copyData o.data).2 (fun p => K p ∨ fresh m (m.copyData o.data).2 p)

/-- What the caller can do on their own: allocate maps and slices, and overwrite any cell that they can reach with anything that
refers to cells that they can reach. -/
inductive Own : Mem → (Nat → Prop) → Mem → (Nat → Prop) → Prop where
  | alloc {m : Mem} {K : Nat → Prop} (c : Cell) : (∀ l, c = .datas l → ∀ e ∈ l, ∀ q, e.2 = some q → K q) →
      Own m K (m.alloc c).2 (fun p => K p ∨ fresh m (m.alloc c).2 p)
  | write {m : Mem} {K : Nat → Prop} {p : Nat} (c : Cell) : K p → (∀ l, c = .datas l → ∀ e ∈ l, ∀ q, e.2 = some q → K q) →
      Own m K (m.store p c) K

/-- Any sequence of calls and of the caller's own steps, from a new tree. -/
inductive Run : Mem → (Nat → Prop) → Prop where
  | start : Run ⟨[], [], none, none, none, none⟩ (fun _ => False)
  | call {m m' : Mem} {K K' : Nat → Prop} : Run m K → Call m K m' K' → Run m' K'
  | own {m m' : Mem} {K K' : Nat → Prop} : Run m K → Own m K m' K' → Run m' K'

end Alias
end Verif
