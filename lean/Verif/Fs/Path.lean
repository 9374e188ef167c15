import Verif.Props.Uid
/-!
# `path/filepath` on Unix, and how a path leads to a mount ID

The functions of `path/filepath` that the manager uses, on components instead of bytes. Only absolute bases occur.
-/
set_option autoImplicit false
namespace Verif
namespace Path

/-- The separator. -/
def slash : UInt8 := 0x2F

/-- `strings.Split(s, "/")`: the pieces between slashes, at least one. -/
def split : Str → List Str
  | [] => [[]]
  | c :: s =>
    if c = slash then [] :: split s
    else match split s with
      | [] => [[c]]
      | p :: ps => (c :: p) :: ps

/-- `strings.Join(l, "/")`. -/
def join : List Str → Str
  | [] => []
  | [a] => a
  | a :: l => a ++ slash :: join l

/-- One step of the loop of `filepath.Clean` for a rooted path: the components kept so far, innermost first. -/
def push (stack : List Str) (c : Str) : List Str :=
  if c = [] ∨ c = lit "." then stack
  else if c = lit ".." then stack.tail
  else c :: stack

/-- The components of a cleaned rooted path, outermost first. -/
def comps (p : Str) : List Str := ((split p).foldl push []).reverse

/-- `filepath.Clean` of a path that starts with a slash. -/
def clean (p : Str) : Str := slash :: join (comps p)

/-- `filepath.IsAbs`. -/
def isAbs (p : Str) : Bool := p.head? = some slash

/-- `filepath.Abs` with working directory `cwd`: for a relative path `filepath.Join(cwd, p)`. -/
def abs (cwd p : Str) : Str := if isAbs p then clean p else clean (cwd ++ slash :: p)

/-- The components of `filepath.Rel(base, targ)` for rooted paths: up to the common part, then down. Equal paths give
`"."`. -/
def relComps : List Str → List Str → List Str
  | [], [] => [lit "."]
  | [], t => t
  | b :: bs, [] => (b :: bs).map fun _ => lit ".."
  | b :: bs, t :: ts => if b = t then relComps bs ts else (b :: bs).map (fun _ => lit "..") ++ t :: ts

/-- `filepath.Rel` for rooted paths. It cannot fail for them. -/
def rel (base targ : Str) : Str := join (relComps (comps base) (comps targ))

end Path

open Path in
/-- The first part of `GetWorkspaceFromPath` (pkg/manager/manager_default.go:169-196): the mount ID that a path leads to. `link` is what
`os.Readlink` gives if the path is a symbolic link. -/
def mountIDOf (dataRoot cwd path : Str) (link : Option Str) : Res UID.DecErr UID :=
  let absPath := Path.abs cwd path
  let mountPath := link.getD absPath
  let absMountPath := Path.abs cwd mountPath
  let relPath := Path.rel (clean (dataRoot ++ lit "/mounts")) absMountPath
  UID.decodeBase32 ((Path.split relPath).headD [])

end Verif
