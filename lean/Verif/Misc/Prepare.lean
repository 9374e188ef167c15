/-!
# `Prepare` of `pkg/manager/manager_default.go`
-/
set_option autoImplicit false
namespace Verif
namespace Prep

/-- The directories that `Prepare` makes (pkg/manager/manager_default.go:74, :82, :95, :104). -/
inductive Dir where
  | root | layers | spaces | mounts
  deriving DecidableEq, Repr

/-- What is at a path, following links. A link that leads nowhere is `other`: `mkdir` fails on it. -/
inductive Kind where
  | missing | dir | other
  deriving DecidableEq, Repr

/-- What stands at each of the directories. -/
abbrev Fs := Dir → Kind

/-- Below a data root that is no directory there is nothing. -/
def Fs.OK (fs : Fs) : Prop := fs .root ≠ .dir → ∀ d, d ≠ .root → fs d = .missing

/-- What may go wrong: a `stat` fails on a directory that exists (`blind`), a `mkdir` fails for a reason of its own (`broken`), another
process makes the directory between the check and the `mkdir` (`raced`). -/
structure Trouble where
  blind : Dir → Bool
  broken : Dir → Bool
  raced : Dir → Bool

/-- Nothing goes wrong. -/
def calm : Trouble := ⟨fun _ => false, fun _ => false, fun _ => false⟩

/-- The directory has been made. -/
def Fs.put (fs : Fs) (d : Dir) : Fs := fun x => if x = d then .dir else fs x

/-- The manager (pkg/manager/manager_default.go:47-55): `sync.Once` has run, the layer manager is not nil. -/
structure Mgr where
  once : Bool
  layerManager : Bool
  deriving DecidableEq, Repr

/-- `New` (pkg/manager/manager_default.go:33-45). -/
def new : Mgr := ⟨false, false⟩

/-- `fsutil.IsDir` (fs/…:12-19). -/
def isDir (t : Trouble) (fs : Fs) (d : Dir) : Bool := fs d == .dir && !t.blind d

/-- Another process. -/
def race (t : Trouble) (fs : Fs) (d : Dir) : Fs := if t.raced d && fs d == .missing then fs.put d else fs

/-- `os.Mkdir`: whatever exists already is an error. The result tells whether it failed. -/
def mkdir (t : Trouble) (fs : Fs) (d : Dir) : Bool × Fs :=
  match fs d with
  | .missing => if t.broken d then (true, fs) else (false, fs.put d)
  | _ => (true, fs)

/-- `os.MkdirAll`: an existing directory is fine. The directories above the data root are left out. -/
def mkdirAll (t : Trouble) (fs : Fs) (d : Dir) : Bool × Fs :=
  match fs d with
  | .missing => if t.broken d then (true, fs) else (false, fs.put d)
  | .dir => (false, fs)
  | .other => (true, fs)

/-- One "make sure that it exists" (pkg/manager/manager_default.go:74-79, :83-88, :96-101, :105-110). -/
def ensure (mk : Trouble → Fs → Dir → Bool × Fs) (t : Trouble) (fs : Fs) (d : Dir) : Bool × Fs :=
  if isDir t fs d then (false, fs) else mk t (race t fs d) d

/-- `doPrepare` (pkg/manager/manager_default.go:69-113): the directory at which it fails, if it does. -/
def doPrepare (t : Trouble) (m : Mgr) (fs : Fs) : Option Dir × Mgr × Fs :=
  let (e1, fs1) := ensure mkdirAll t fs .root
  if e1 then (some .root, m, fs1) else
  let (e2, fs2) := ensure mkdir t fs1 .layers
  if e2 then (some .layers, m, fs2) else
  let m1 := { m with layerManager := true }
  let (e3, fs3) := ensure mkdir t fs2 .spaces
  if e3 then (some .spaces, m1, fs3) else
  let (e4, fs4) := ensure mkdir t fs3 .mounts
  if e4 then (some .mounts, m1, fs4) else
  (none, m1, fs4)

/-- `Prepare` (pkg/manager/manager_default.go:60-66): `err` is a local variable, so that a call that does not run `doPrepare` returns nil. -/
def prepare (t : Trouble) (m : Mgr) (fs : Fs) : Option Dir × Mgr × Fs :=
  if m.once then (none, m, fs)
  else
    let (e, m', fs') := doPrepare t m fs
    (e, { m' with once := true }, fs')

end Prep
end Verif
