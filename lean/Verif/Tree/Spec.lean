import Verif.Uid
/-!
# What a user sees of a commit tree

A small specification that does not mention the heap, the indexes or any loop: a tree is a partial function from IDs to
parent, annotations and data, a root, and two name tables.
-/
set_option autoImplicit false
namespace Verif

/-- The observable content of a node. -/
structure ANode where
  parent : Option UID
  anno : Str → Option Str
  data : Str → Option (Option Str)

/-- The observable content of a tree. -/
structure ATree where
  node : UID → Option ANode
  root : Option UID
  branch : Str → Option UID
  tag : Str → Option UID

/-- Function update. -/
def upd {α β : Type} [DecidableEq α] (f : α → β) (a : α) (b : β) : α → β := fun x => if x = a then b else f x

@[simp] theorem upd_self {α β : Type} [DecidableEq α] (f : α → β) (a : α) (b : β) : upd f a b a = b := by simp [upd]
theorem upd_ne {α β : Type} [DecidableEq α] (f : α → β) {a x : α} (b : β) (h : x ≠ a) : upd f a b x = f x := by
  simp [upd, h]

namespace ATree

/-- The tree without nodes. -/
def empty : ATree := ⟨fun _ => none, none, fun _ => none, fun _ => none⟩

/-- `h` is `u` or an ancestor of `u`. -/
inductive Anc (a : ATree) (h : UID) : UID → Prop where
  | refl {n : ANode} : a.node h = some n → Anc a h h
  | step {u p : UID} {n : ANode} : a.node u = some n → n.parent = some p → Anc a h p → Anc a h u

/-- `u` is present. -/
def Has (a : ATree) (u : UID) : Prop := ∃ n, a.node u = some n

/-- The IDs from `u` up to and including a node without parent, `u` first. -/
inductive Path (a : ATree) : UID → List UID → Prop where
  | root {u : UID} {n : ANode} : a.node u = some n → n.parent = none → Path a u [u]
  | step {u p : UID} {n : ANode} {l : List UID} :
      a.node u = some n → n.parent = some p → Path a p l → Path a u (u :: l)

/-- The spec of a well-formed tree: one parentless node, the root, from which every node descends by finitely many
steps; every branch and tag names a present node. -/
structure Rooted (a : ATree) : Prop where
  /-- The root is present and has no parent. -/
  root : ∀ r, a.root = some r → ∃ n, a.node r = some n ∧ n.parent = none
  /-- Every present node descends from the root. -/
  reach : ∀ u, a.Has u → ∃ r, a.root = some r ∧ Anc a r u
  /-- Parents are present. -/
  parent : ∀ u n p, a.node u = some n → n.parent = some p → a.Has p
  /-- No other node is parentless. -/
  unique : ∀ u n, a.node u = some n → n.parent = none → a.root = some u
  /-- No node is its own proper ancestor: each node has a finite path to the root. -/
  path : ∀ u, a.Has u → ∃ l, Path a u l
  /-- Branches name present nodes. -/
  branch : ∀ b u, a.branch b = some u → a.Has u
  /-- Tags name present nodes. -/
  tag : ∀ t u, a.tag t = some u → a.Has u

/-- Effect of adding a node. -/
def add (a : ATree) (pid : Option UID) (u : UID) (anno : Str → Option Str) (data : Str → Option (Option Str)) : ATree :=
  { a with node := upd a.node u (some ⟨pid, anno, data⟩), root := if pid = none then some u else a.root }

/-- Effect of setting a tag. -/
def setTag (a : ATree) (t : Str) (u : UID) : ATree := { a with tag := upd a.tag t (some u) }
/-- Effect of deleting a tag. -/
def delTag (a : ATree) (t : Str) : ATree := { a with tag := upd a.tag t none }
/-- Effect of setting a branch. -/
def setBranch (a : ATree) (b : Str) (u : UID) : ATree := { a with branch := upd a.branch b (some u) }
/-- Effect of deleting a branch. -/
def delBranch (a : ATree) (b : Str) : ATree := { a with branch := upd a.branch b none }

end ATree
end Verif
