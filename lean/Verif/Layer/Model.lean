import Verif.Uid
import Verif.Go.Sort
import Verif.World.Content
/-!
# `pkg/layers`: the layer store

The directory `overlay` as a list of named entries, and `Create`, `Get`, `List`, `Delete` on it. `World.Disk` keeps only the
entries that the code makes itself; here the directory may hold anything.

Which system calls fail is an argument of each operation. A test (`os.Stat`) can only wrongly say no.
-/
set_option autoImplicit false
namespace Verif
namespace Layer

/-- What is at `overlay/<name>/diff`. -/
inductive Diff where
  | dir (c : Content)
  | other

/-- What is at `overlay/<name>`. -/
inductive LEnt where
  /-- A directory; `none` when it has no entry `diff`. -/
  | dir (diff : Option Diff)
  /-- A symbolic link to a directory. -/
  | linkDir
  /-- A file, a broken link, a link to a file. -/
  | other

/-- The entries of the directory `overlay`, by name. -/
abbrev Store := List (Str × LEnt)

/-- Errors of the layer manager. -/
inductive LayerErr where
  /-- `make dir for layer data root error` (pkg/layers/manager.go:49). -/
  | mkdir
  /-- `make dir for layer diff error` (pkg/layers/layer.go:55). -/
  | diff
  /-- `layer not found` (pkg/layers/manager.go:63, :106). -/
  | notFound
  /-- `read layers data root dir error` (pkg/layers/manager.go:78). -/
  | readDir
  /-- `remove layer data error` (pkg/layers/manager.go:109). -/
  | remove
  deriving DecidableEq, Repr

/-- `fsutil.IsDir` on an entry (pkg/utils/fs/stat.go:12-19): links are followed. -/
def statDir : Option LEnt → Bool
  | some (.dir _) => true
  | some .linkDir => true
  | _ => false

/-- `defaultLayer.Save` (pkg/layers/layer.go:51-59) in the directory `name`; `st`: the test works, `mk`: making the directory works.
In a directory that is reached over a link nothing is modelled and an error is returned. -/
def save (s : Store) (name : Str) (st mk : Bool) : Store × Res LayerErr Unit :=
  match AL.get s name with
  | some (.dir (some (.dir _))) => if st then (s, .ok ()) else (s, .err .diff)
  | some (.dir none) => if mk then (AL.put s name (.dir (some (.dir .empty))), .ok ()) else (s, .err .diff)
  | _ => (s, .err .diff)

/-- `defaultLayerManager.Create` (pkg/layers/manager.go:44-57) when the random generator gives `id`. `os.Mkdir` fails when the name is
taken. -/
def create (s : Store) (id : UID) (mk st mkDiff : Bool) : Store × Res LayerErr UID :=
  match AL.get s id.base32 with
  | some _ => (s, .err .mkdir)
  | none =>
    if mk then
      match save (AL.put s id.base32 (.dir none)) id.base32 st mkDiff with
      | (s', .ok ()) => (s', .ok id)
      | (s', .err e) => (s', .err e)
      | (s', .panic) => (s', .panic)
      | (s', .diverge) => (s', .diverge)
    else (s, .err .mkdir)

/-- `defaultLayerManager.Get` (pkg/layers/manager.go:60-69). -/
def get (s : Store) (id : UID) (st : Bool) : Res LayerErr UID :=
  if st && statDir (AL.get s id.base32) then .ok id else .err .notFound

/-- The loop of `defaultLayerManager.List` (pkg/layers/manager.go:83-97). `item.IsDir()` does not follow links. -/
def listLoop : List (Str × LEnt) → Res LayerErr (List UID)
  | [] => .ok []
  | (name, .dir _) :: es =>
    match UID.decodeBase32 name with
    | .ok id => (listLoop es).bind fun l => .ok (id :: l)
    | .err _ => listLoop es
    | .panic => .panic
    | .diverge => .diverge
  | _ :: es => listLoop es

/-- `defaultLayerManager.List` (pkg/layers/manager.go:72-100). `os.ReadDir` sorts by name. -/
def list (s : Store) (rd : Bool) : Res LayerErr (List UID) :=
  if rd then listLoop (sortBy Prod.fst s) else .err .readDir

/-- `defaultLayerManager.Delete` (pkg/layers/manager.go:103-115). When `os.RemoveAll` fails it may have removed any part; `left` is what
then remains of the directory. -/
def delete (s : Store) (id : UID) (st rm : Bool) (left : Option Diff) : Store × Res LayerErr UID :=
  match AL.get s id.base32 with
  | some (.dir _) =>
    if st then
      if rm then (AL.del s id.base32, .ok id) else (AL.put s id.base32 (.dir left), .err .remove)
    else (s, .err .notFound)
  | some .linkDir =>
    if st then
      if rm then (AL.del s id.base32, .ok id) else (s, .err .remove)
    else (s, .err .notFound)
  | _ => (s, .err .notFound)

/-! ## Sequences of calls -/

/-- A call that may change the store, or a user who writes files into a layer (through a mount). -/
inductive Op where
  | create (id : UID) (mk st mkDiff : Bool)
  | delete (id : UID) (st rm : Bool) (left : Option Diff)
  | write (id : UID) (c : Content)

/-- Writing into a layer that has a `diff` directory. -/
def write (s : Store) (id : UID) (c : Content) : Store :=
  match AL.get s id.base32 with
  | some (.dir (some (.dir _))) => AL.put s id.base32 (.dir (some (.dir c)))
  | _ => s

/-- Run one call. -/
def call (s : Store) : Op → Store × Res LayerErr UID
  | .create id mk st d => create s id mk st d
  | .delete id st rm left => delete s id st rm left
  | .write id c => (write s id c, .ok id)

/-- The stores that sequences of calls make, with the calls and their results, the last one first. -/
inductive Run : List (Op × Res LayerErr UID) → Store → Prop where
  | new : Run [] []
  | step {h : List (Op × Res LayerErr UID)} {s : Store} (op : Op) : Run h s → Run ((op, (call s op).2) :: h) (call s op).1

end Layer
end Verif
