import Verif.Ws.Model
import Verif.Ws.Time
import Verif.Tree.Inv
/-!
# `pkg/workspaces/commit.go` and `pkg/commands/log.go`

What the history shows of each node, and what the log command prints of it.
-/
set_option autoImplicit false
namespace Verif
open TS

/-- `defaultCommit` as `GetCommitFromNode` fills it (pkg/workspaces/commit.go:65-71). -/
structure Commit where
  id : UID
  /-- nil if the node has no date, or none that can be read. -/
  date : Option Time
  message : Str
  branches : List HBranch
  tags : List Str
  deriving DecidableEq

/-- The date of a node (pkg/workspaces/commit.go:22-30). Reading a key that is not in the map gives the empty string. -/
def dateOf (lenient : Str → Option Time) (anno : Str → Option Str) : Option Time :=
  let s := (anno (lit "commit-date")).getD []
  if s = [] then none else Time.parse lenient s

namespace Ws

/-- `GetCommitFromNode` (pkg/workspaces/commit.go:19-57): `c` is a commit it can return for the object `r`. The order of the tags is that of the
iteration over a map. The heads of branches and tags are never nil in a tree that is well formed, so that `.ID()` cannot fail. -/
def CommitOf (lenient : Str → Option Time) (s : TS) (w : Ws) (r : Ref) (c : Commit) : Prop :=
  ∃ o bs order, s.heap[r]? = some o ∧ w.AllBranches s bs ∧ Ranges s.tree.tags order ∧
    c = { id := o.id
          date := dateOf lenient o.annotations.get
          message := (o.annotations.get (lit "commit-message")).getD []
          branches := bs.filter fun b => (idAt s.heap b.head).map UID.hex = some o.id.hex
          tags := (order.filter fun e => (idAt s.heap e.2).map UID.hex = some o.id.hex).map Prod.fst }

/-- The commits of a list of nodes. -/
inductive CommitsOf (lenient : Str → Option Time) (s : TS) (w : Ws) : List Ref → List Commit → Prop where
  | nil : CommitsOf lenient s w [] []
  | cons {r : Ref} {l : List Ref} {c : Commit} {cs : List Commit} :
      w.CommitOf lenient s r c → CommitsOf lenient s w l cs → CommitsOf lenient s w (r :: l) (c :: cs)

end Ws

/-- What stands in parentheses behind a commit (pkg/commands/log.go:51-68). -/
inductive Mark where
  /-- `HEAD -> name`, for the branch that is checked out. -/
  | head (name : Str)
  | tag (name : Str)
  | own (name : Str)
  | remote (name : Str)
  deriving DecidableEq, Repr

namespace Mark

/-- `\033` and a colour code, as the format strings of pkg/commands/log.go:53-79 write it. -/
def esc (code : String) : Str := 27 :: lit code

/-- The coloured text of a mark (pkg/commands/log.go:53, :58, :63, :65). -/
def text : Mark → Str
  | .tag n => esc "[33m" ++ lit "tag: " ++ n ++ esc "[0m"
  | .head n => esc "[34m" ++ lit "HEAD -> " ++ esc "[32m" ++ n ++ esc "[0m"
  | .own n => esc "[32m" ++ n ++ esc "[0m"
  | .remote n => esc "[31m" ++ n ++ esc "[0m"

end Mark

/-- The loop over the branches of a commit (pkg/commands/log.go:55-68). -/
def addMark (cur : Str) (ps : List Mark) (b : HBranch) : List Mark :=
  if cur = b.info.fullName then .head b.info.localName :: ps
  else if b.info.isLocal then ps ++ [.own b.info.localName]
  else ps ++ [.remote b.info.localName]

/-- `pointers` (pkg/commands/log.go:51-68). -/
def Commit.marks (w : Ws) (c : Commit) : List Mark :=
  c.branches.foldl (addMark w.branchInfo.fullName) (c.tags.map .tag)

/-- `strings.Join`. -/
def joinWith (sep : Str) : List Str → Str
  | [] => []
  | [x] => x
  | x :: y :: l => x ++ sep ++ joinWith sep (y :: l)

/-- `strings.TrimRight(s, "\r\n ")`. -/
def trimEnd (s : Str) : Str := (s.reverse.dropWhile fun c => c == 13 || c == 10 || c == 32).reverse

/-- `strings.ReplaceAll(s, "\n", "\n    ")`. -/
def indent (s : Str) : Str := s.flatMap fun c => if c = 10 then lit "\n    " else [c]

/-- What is printed for one commit (pkg/commands/log.go:51-85). The condition `c.Date != nil` compares a method with nil and is always true, so
that a commit without a date dereferences nil. How a date looks (`time.ANSIC`) is the parameter `ansic`. -/
def Commit.print (ansic : Time → Str) (w : Ws) (c : Commit) : Res Ws.Err Str :=
  let ms := c.marks w
  let line :=
    if ms ≠ [] then Mark.esc "[33m" ++ lit "commit " ++ c.id.hex ++ Mark.esc "[0m" ++ lit " (" ++ joinWith (Mark.esc "[33m" ++ lit ", " ++ Mark.esc "[0m") (ms.map Mark.text) ++ lit ")\n"
    else Mark.esc "[33m" ++ lit "commit " ++ c.id.hex ++ Mark.esc "[0m" ++ lit "\n"
  match c.date with
  | none => .panic
  | some t =>
    .ok (line ++ lit "Date:  " ++ ansic t ++ lit "\n" ++ (if c.message ≠ [] then lit "\n    " ++ indent (trimEnd c.message) ++ lit "\n\n" else []))

/-- The loop of the log command (pkg/commands/log.go:50-86). What was printed before a panic is left out. -/
def printAll (ansic : Time → Str) (w : Ws) : List Commit → Res Ws.Err Str
  | [] => .ok []
  | c :: cs => (c.print ansic w).bind fun x => (printAll ansic w cs).bind fun y => .ok (x ++ y)

namespace Ws

/-- `GetHistory` and the loop of the log command (pkg/commands/log.go:44-86) on a workspace that was opened. -/
inductive Logs (lenient : Str → Option Time) (ansic : Time → Str) (s : TS) (w : Ws) (ref : Str) : Res Err Str → Prop where
  | ok {l : List Ref} {cs : List Commit} : w.history s ref = .ok l → w.CommitsOf lenient s l cs → Logs lenient ansic s w ref (printAll ansic w cs)
  | err {e : Err} : w.history s ref = .err e → Logs lenient ansic s w ref (.err e)
  | panic : w.history s ref = .panic → Logs lenient ansic s w ref .panic
  | diverge : w.history s ref = .diverge → Logs lenient ansic s w ref .diverge

end Ws
end Verif
