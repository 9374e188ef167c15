import Verif.Go.Basic
/-!
# Layer contents and what an overlay shows

Overlayfs as documented in the kernel: a directory shows the entries of all layers, higher layers hide lower ones, a
whiteout hides an entry, an opaque directory hides the directories of the same name below it.

A path is a list of names, the last component first. Owner and mode of a file are part of its `data`.
-/
set_option autoImplicit false
namespace Verif

/-- Mode and owner of a directory. -/
structure Attr where
  mode : Nat
  owner : Nat
  deriving DecidableEq, Repr

/-- An entry of one layer. -/
inductive Ent where
  | file (data : Str)
  | dir (opq : Bool) (attr : Attr)
  | whiteout
  deriving DecidableEq, Repr

/-- The `diff` directory of a layer. The empty path is the directory itself. -/
abbrev Content := List Str → Option Ent

/-- An entry that a mount shows. -/
inductive VEnt where
  | file (data : Str)
  | dir (attr : Attr)
  deriving DecidableEq, Repr

/-- The attributes of a directory that `os.Mkdir(..., 0755)` of root makes. -/
def Attr.new : Attr := ⟨0o755, 0⟩

/-- A new directory. -/
def Content.empty : Content := fun p => if p = [] then some (.dir false .new) else none

/-- The layers whose directory `p` is part of the merged directory, given those of the parent directory. -/
def merge (p : List Str) : List Content → List Content
  | [] => []
  | c :: cs =>
    match c p with
    | none => merge p cs
    | some (.dir true _) => [c]
    | some (.dir false _) => c :: merge p cs
    | some _ => []

/-- The layers that make up the merged directory `p`. -/
def stack (ls : List Content) : List Str → List Content
  | [] => ls
  | x :: p => merge (x :: p) (stack ls p)

/-- The topmost entry at `p`. -/
def topEnt (p : List Str) : List Content → Option VEnt
  | [] => none
  | c :: cs =>
    match c p with
    | none => topEnt p cs
    | some (.file d) => some (.file d)
    | some (.dir _ a) => some (.dir a)
    | some .whiteout => none

/-- What a mount of the layers `ls`, topmost first, shows at `p`. -/
def view (ls : List Content) : List Str → Option VEnt
  | [] => topEnt [] ls
  | x :: p => topEnt (x :: p) (stack ls p)

/-- A layer without entries of its own. -/
def Blank (c : Content) : Prop := ∀ x p, c (x :: p) = none

theorem blank_empty : Blank .empty := fun x p => by simp [Content.empty]

theorem stack_blank {c : Content} (h : Blank c) (ls : List Content) (x : Str) (p : List Str) :
    stack (c :: ls) (x :: p) = stack ls (x :: p) := by
  induction p generalizing x with
  | nil => simp only [stack, merge, h x []]
  | cons y p ih => rw [stack, ih]; rfl

/-- A blank layer on top changes nothing but possibly the attributes of the top directory. -/
theorem view_blank {c : Content} (h : Blank c) (ls : List Content) (x : Str) (p : List Str) :
    view (c :: ls) (x :: p) = view ls (x :: p) := by
  cases p with
  | nil => simp only [view, stack, topEnt, h x []]
  | cons y p => rw [view, stack_blank h, view]

/-- The files and directories that a mount shows, apart from its top directory itself. -/
def files (ls : List Content) : List Str → Option VEnt := fun p => if p = [] then none else view ls p

theorem files_blank {c : Content} (h : Blank c) (ls : List Content) : files (c :: ls) = files ls := by
  funext p
  cases p with
  | nil => rfl
  | cons x p => simp only [files, if_neg (List.cons_ne_nil x p), view_blank h]

/-- A whiteout hides what is below, an opaque directory too, and files of a directory are merged. -/
example : let lo : Content := fun p => if p = [lit "a"] then some (.file (lit "1")) else if p = [lit "b"] then some (.dir false .new)
      else if p = [lit "x", lit "b"] then some (.file (lit "2")) else none
    let hi : Content := fun p => if p = [lit "a"] then some .whiteout else if p = [lit "b"] then some (.dir false .new)
      else if p = [lit "y", lit "b"] then some (.file (lit "3")) else none
    let op : Content := fun p => if p = [lit "b"] then some (.dir true .new) else none
    view [hi, lo] [lit "a"] = none ∧ view [lo] [lit "a"] = some (.file (lit "1")) ∧
    view [hi, lo] [lit "x", lit "b"] = some (.file (lit "2")) ∧ view [hi, lo] [lit "y", lit "b"] = some (.file (lit "3")) ∧
    view [op, hi, lo] [lit "x", lit "b"] = none ∧ view [op, hi, lo] [lit "b"] = some (.dir .new) := by decide

end Verif
