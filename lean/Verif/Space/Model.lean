import Verif.Json.Depth
import Verif.Json.Utf8
/-!
# `pkg/spaces/default.go`: saving and loading a space

The tree file `tree.json` of a space, as bytes.
-/
set_option autoImplicit false
namespace Verif
open TS Json

/-- What `os.ReadFile` returns. With an error it also returns the bytes read so far. -/
inductive ReadRes where
  | ok (bytes : Str)
  | notExist
  | failed (sofar : Str)

/-- Errors of `Space.Load`. -/
inductive SpaceErr where
  /-- `read tree dump error` (pkg/spaces/default.go:89). -/
  | read
  /-- `unmarshal tree dump from json error` (pkg/spaces/default.go:94). -/
  | unmarshal
  /-- `load tree from dump error` (pkg/spaces/default.go:99). -/
  | load (e : LoadErr)
  deriving DecidableEq, Repr

/-- `defaultSpace.Load` (pkg/spaces/default.go:82-103) as a function of what reading the file gives. Only a missing file is reported
as a read error (pkg/spaces/default.go:88); after any other error the bytes read so far are decoded. -/
def spaceLoad (r : ReadRes) : Res SpaceErr TS :=
  let go (raw : Str) : Res SpaceErr TS :=
    match unmarshalDump raw with
    | none => .err .unmarshal
    | some d => (TS.load d).mapErr .load
  match r with
  | .ok raw => go raw
  | .failed raw => go raw
  | .notExist => .err .read

/-- `defaultSpace.Save` (pkg/spaces/default.go:106-124): the bytes that it writes to the tree file, for any iteration order of the
maps, in either style of the Go versions (`sh`). -/
def SavesAs (sh : Bool) (s : TS) (bytes : Str) : Prop := ∃ d, Dumps s d ∧ bytes = marshalDump sh d

/-- `RootTag` (pkg/spaces/default.go:25). -/
def rootTag : Str := lit "ROOT"

/-- `defaultSpace.Init` (pkg/spaces/default.go:59-79) after the layer with ID `id` has been created. -/
def spaceInit (id : UID) : Res TreeErr TS :=
  (TS.empty.addNew none id none none).bind fun s => s.addTag rootTag id

end Verif
