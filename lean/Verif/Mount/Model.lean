import Verif.Fs.Path
import Verif.Tree.Model
/-!
# `pkg/mounts`: from layers to the option string of an overlay mount
-/
set_option autoImplicit false
namespace Verif
open Path

/-- `filepath.Join(dataRoot, ...)` for a rooted `dataRoot`. -/
def joinRoot (root : Str) (rest : List Str) : Str := slash :: join (comps root ++ rest)

/-- `defaultLayer.DiffDir` (pkg/layers/layer.go:46-48) of a layer made by `getLayerDataRoot` (pkg/layers/manager.go:118-120) with the data
root of doPrepare (pkg/manager/manager_default.go:82, :91). -/
def diffDir (root : Str) (u : UID) : Str := joinRoot root [lit "overlay", u.base32, lit "diff"]

/-- `OverlayMountOptions` (overlay.go) without source and read-only flag, which are never set. -/
structure OvlOpts where
  mountPath : Str
  lowerDir : List Str
  upperDir : Str
  workDir : Str
  deriving DecidableEq, Repr

/-- `mounts.New` (pkg/mounts/mount.go:32-69). `layers` is the list of diff directories, bottom first. `none` is the error for fewer than
two layers. The loop fills the slice at the indexes `len-i-2`. -/
def mountNew (root : Str) (mountID : UID) (layers : List Str) : Option OvlOpts :=
  if layers.length < 2 then none
  else
    let n := layers.length
    let lower := ((layers.take (n - 1)).zipIdx).foldl (fun acc li => acc.set (n - li.2 - 2) li.1) (List.replicate (n - 1) [])
    some {
      mountPath := joinRoot root [lit "mounts", mountID.base32, lit "merged"]
      lowerDir := lower
      upperDir := layers.getD (n - 1) []
      workDir := joinRoot root [lit "mounts", mountID.base32, lit "work"] }

/-- `strings.Join(l, ":")`. -/
def joinColon : List Str → Str
  | [] => []
  | [a] => a
  | a :: l => a ++ 0x3A :: joinColon l

/-- The option string of `CreateOverlayMount` (pkg/mounts/overlay_linux.go:31-36). -/
def OvlOpts.data (o : OvlOpts) : Str :=
  lit "lowerdir=" ++ joinColon o.lowerDir ++ lit ",upperdir=" ++ o.upperDir ++ lit ",workdir=" ++ o.workDir

/-- The loop of `CreateMount` (pkg/spaces/default.go:168-177): the layers from `cur` up to the root, each of which must exist.
`none` is the error of `Get`. A chain longer than the number of objects is a cycle. -/
def layerWalk (heap : List NodeObj) (isDir : UID → Bool) : (fuel : Nat) → Option Ref → Res Unit (List UID)
  | _, none => .ok []
  | 0, some _ => .diverge
  | n + 1, some cur =>
    match heap[cur]? with
    | none => .panic
    | some o =>
      if isDir o.id then (layerWalk heap isDir n o.parent).bind fun l => .ok (o.id :: l)
      else .err ()

/-! ## What the kernel does with the option string

`fs/overlayfs` of Linux. This is the environment, not code of the project. -/

namespace Kernel

/-- Cut at a separator. A backslash protects the byte after it; both stay in the piece (`ovl_next_opt`,
`ovl_split_lowerdirs`). -/
def cut (sep : UInt8) : Str → List Str
  | [] => [[]]
  | [c] => if c = sep then [[], []] else [[c]]
  | c :: d :: s =>
    if c = 0x5C then
      match cut sep s with
      | [] => [[c, d]]
      | p :: ps => (c :: d :: p) :: ps
    else if c = sep then [] :: cut sep (d :: s)
    else match cut sep (d :: s) with
      | [] => [[c]]
      | p :: ps => (c :: p) :: ps

/-- Remove the protecting backslashes (`ovl_unescape`). -/
def unesc : Str → Str
  | [] => []
  | [c] => if c = 0x5C then [] else [c]
  | c :: d :: s => if c = 0x5C then d :: unesc s else c :: unesc (d :: s)

/-- What the kernel reads from an option string. -/
structure Parsed where
  lower : List Str
  upper : Option Str
  work : Option Str
  deriving DecidableEq, Repr

/-- One option. `none` is EINVAL. -/
def option (p : Parsed) (s : Str) : Option Parsed :=
  if s.take 9 = lit "lowerdir=" then some { p with lower := (cut 0x3A (s.drop 9)).map unesc }
  else if s.take 9 = lit "upperdir=" then some { p with upper := some (unesc (s.drop 9)) }
  else if s.take 8 = lit "workdir=" then some { p with work := some (unesc (s.drop 8)) }
  else none

/-- The whole string, which `mount(2)` cuts off after 4095 bytes. -/
def parse (data : Str) : Option Parsed :=
  ((cut 0x2C (data.take 4095)).foldlM option ⟨[], none, none⟩)

end Kernel
end Verif
