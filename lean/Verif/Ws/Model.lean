import Verif.Ws.Branch
import Verif.Tree.Model
import Verif.Go.Sort
import Verif.Space.Model
/-!
# `pkg/workspaces/workspace.go`

The workspace methods as functions of the tree in memory. `Space.Save` is not part of them: the commands that save are put
together in `Verif.World`.

`range` over a map visits the entries in any order, and `sort.Slice` is not stable; both are relations here.
-/
set_option autoImplicit false
namespace Verif
open TS

/-- `for k, v := range m`: the entries in the order of the iteration. -/
def Ranges {α : Type} (m : GoMap α) (order : List (Str × α)) : Prop := order.Perm m.entries

/-- `sort.Slice(l, less)`: `out` is `l` in an order in which no element is less than an earlier one. -/
def SortsTo {α : Type} (less : α → α → Bool) (l out : List α) : Prop :=
  out.Perm l ∧ out.Pairwise fun a b => less b a = false

/-- `defaultWorkspace` (pkg/workspaces/workspace.go:38-45). The space is passed separately as the tree state; the mount is left out
here. -/
structure Ws where
  id : UID
  path : Str
  head : Ref
  branch : Str

/-- `Branch` (pkg/workspaces/branch.go:72-77): a branch with its head. -/
structure HBranch where
  info : BranchInfo
  head : Ref
  deriving DecidableEq

namespace Ws

/-- `headTag` (pkg/workspaces/workspace.go:22). -/
def headTag : Str := lit "HEAD"

/-- `defaultWorkspace.Branch` (pkg/workspaces/workspace.go:75-77). -/
def branchInfo (w : Ws) : BranchInfo := ⟨some w.id, w.branch⟩

/-- `defaultWorkspace.Search` (pkg/workspaces/workspace.go:345-363). For HEAD the node is the parent of the head, which is nil for a root.
The result is a node (or nil), a key type, and whether something was found. -/
def search {ε : Type} (s : TS) (w : Ws) (ref : Str) : Res ε (Option (Option Ref × KeyType)) :=
  if ref = headTag then
    match s.heap[w.head]? with
    | none => .panic
    | some o => .ok (some (o.parent, .commit))
  else
    (s.search ref).bind fun x =>
      match x with
      | some (r, k) => .ok (some (some r, k))
      | none =>
        match (BranchInfo.parseLocalName w.id ref).findSome? fun b => s.getByBranch b.fullName with
        | some r => .ok (some (some r, .branch))
        | none => .ok none

/-- The loop body of `AllBranches` (pkg/workspaces/workspace.go:143-151). That the parser cannot panic is `C20_parse_total`. -/
def pickAll (w : Ws) (e : Str × Ref) : Option HBranch :=
  match BranchInfo.parseFullName e.1 with
  | .ok b =>
    match b.ws with
    | some v => if v.base32 = w.id.base32 then some ⟨b, e.2⟩ else none
    | none => some ⟨b, e.2⟩
  | _ => none

/-- The comparison of `AllBranches` (pkg/workspaces/workspace.go:154-166). -/
def lessAll (a b : HBranch) : Bool :=
  if a.info.isLocal && b.info.isGlobal then true
  else if a.info.isGlobal && b.info.isLocal then false
  else strLt a.info.name b.info.name

/-- `AllBranches` (pkg/workspaces/workspace.go:140-168). -/
def AllBranches (s : TS) (w : Ws) (out : List HBranch) : Prop :=
  ∃ order, Ranges s.tree.branches order ∧ SortsTo lessAll (order.filterMap w.pickAll) out

/-- The loop body of `LocalBranches` (pkg/workspaces/workspace.go:174-186). -/
def pickLocal (w : Ws) (e : Str × Ref) : Option HBranch :=
  match BranchInfo.parseFullName e.1 with
  | .ok b =>
    match b.ws with
    | some v => if v.base32 = w.id.base32 then some ⟨b, e.2⟩ else none
    | none => none
  | _ => none

/-- The comparison of `LocalBranches` and `RemoteBranches` (pkg/workspaces/workspace.go:189-192, :211-214). -/
def lessName (a b : HBranch) : Bool := strLt a.info.name b.info.name

/-- `LocalBranches` (pkg/workspaces/workspace.go:171-194). -/
def LocalBranches (s : TS) (w : Ws) (out : List HBranch) : Prop :=
  ∃ order, Ranges s.tree.branches order ∧ SortsTo lessName (order.filterMap w.pickLocal) out

/-- The loop body of `RemoteBranches` (pkg/workspaces/workspace.go:200-208). -/
def pickRemote (e : Str × Ref) : Option HBranch :=
  match BranchInfo.parseFullName e.1 with
  | .ok b =>
    match b.ws with
    | some _ => none
    | none => some ⟨b, e.2⟩
  | _ => none

/-- `RemoteBranches` (pkg/workspaces/workspace.go:197-216). -/
def RemoteBranches (s : TS) (out : List HBranch) : Prop :=
  ∃ order, Ranges s.tree.branches order ∧ SortsTo lessName (order.filterMap pickRemote) out

/-- `Tags` (pkg/workspaces/workspace.go:285-301). -/
def Tags (s : TS) (out : List Str) : Prop :=
  ∃ order, Ranges s.tree.tags order ∧
    if s.tree.tags.size = 0 then out = [] else SortsTo strLt ((order.map Prod.fst).filter fun t => t ≠ rootTag) out

/-- `SetBranch` (pkg/workspaces/workspace.go:219-228). -/
def setBranch (s : TS) (w : Ws) (name : Str) : Res TreeErr (TS × Ws) :=
  match s.heap[w.head]? with
  | none => .panic
  | some o =>
    match o.parent.bind (s.heap[·]?) with
    | none => .panic
    | some p => (s.addBranch (BranchInfo.fullName ⟨some w.id, name⟩) p.id).bind fun s' => .ok (s', { w with branch := name })

/-- Errors of the methods below. -/
inductive Err where
  /-- `failed to resolve ... as valid ref` (pkg/workspaces/workspace.go:234, :321). -/
  | badRef
  /-- `branch ... already exists` (pkg/workspaces/workspace.go:241). -/
  | branchExists
  /-- `tag ... already exists` (pkg/workspaces/workspace.go:326). -/
  | tagExists
  /-- `can not delete branch ... checked out` (pkg/workspaces/workspace.go:261). -/
  | checkedOut
  /-- `branch ... not found` (pkg/workspaces/workspace.go:273). -/
  | branchNotFound
  /-- `tag ... not found` (pkg/workspaces/workspace.go:307). -/
  | tagNotFound
  /-- `revision ... not found` (pkg/workspaces/workspace.go:125). -/
  | revisionNotFound
  /-- An error of the tree. -/
  | tree (e : TreeErr)
  deriving DecidableEq, Repr

/-- `AddBranch` (pkg/workspaces/workspace.go:231-247) up to saving. `existsNode.ID()` cannot fail: a branch is never nil. -/
def addBranch (s : TS) (w : Ws) (name ref : Str) (force : Bool) : Res Err TS :=
  (w.search s ref).bind fun x =>
    match x with
    | none => .err .badRef
    | some (n, _) =>
      let b : BranchInfo := ⟨some w.id, name⟩
      if (s.getByBranch b.fullName).isSome && !force then .err .branchExists
      else match n.bind (s.heap[·]?) with
        | none => .panic
        | some o => (s.addBranch b.fullName o.id).mapErr .tree

/-- `DeleteBranch` (pkg/workspaces/workspace.go:258-274) up to saving. -/
def deleteBranch (s : TS) (w : Ws) (name : Str) (isGlobal : Bool) : Res Err TS :=
  if !isGlobal && name = w.branch then .err .checkedOut
  else
    let b : BranchInfo := if isGlobal then ⟨none, name⟩ else ⟨some w.id, name⟩
    match s.deleteBranch b.fullName with
    | (s', true) => .ok s'
    | (_, false) => .err .branchNotFound

/-- `DeleteTag` (pkg/workspaces/workspace.go:304-308) up to saving. -/
def deleteTag (s : TS) (name : Str) : Res Err TS :=
  match s.deleteTag name with
  | (s', true) => .ok s'
  | (_, false) => .err .tagNotFound

/-- `AddTag` (pkg/workspaces/workspace.go:318-332) up to saving. -/
def addTag (s : TS) (w : Ws) (name ref : Str) (force : Bool) : Res Err TS :=
  (w.search s ref).bind fun x =>
    match x with
    | none => .err .badRef
    | some (n, _) =>
      if (s.getByTag name).isSome && !force then .err .tagExists
      else match n.bind (s.heap[·]?) with
        | none => .panic
        | some o => (s.addTag name o.id).mapErr .tree

/-- The loop of `GetHistory` (pkg/workspaces/workspace.go:129-134): the nodes in the order in which they are visited. A chain longer than
the number of objects is a cycle, so running out of fuel is an endless loop. -/
def historyLoop (heap : List NodeObj) : (fuel : Nat) → Ref → Res Err (List Ref)
  | 0, _ => .diverge
  | n + 1, cur =>
    match heap[cur]? with
    | none => .panic
    | some o =>
      match o.parent with
      | none => .ok []
      | some p => (historyLoop heap n p).bind fun l => .ok (cur :: l)

/-- `GetHistory` (pkg/workspaces/workspace.go:121-137): the nodes for which commits are returned. What a commit shows of its node is
`CommitOf` in `Verif.Ws.Commit`. -/
def history (s : TS) (w : Ws) (ref : Str) : Res Err (List Ref) :=
  (w.search s ref).bind fun x =>
    match x with
    | some (some r, _) => historyLoop s.heap s.walkFuel r
    | _ => .err .revisionNotFound

end Ws
end Verif
