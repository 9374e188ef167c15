import Verif.World.Content
import Verif.Mount.Model
import Verif.Space.Model
import Verif.Json.Dump
/-!
# The file system and single effects on it

`Disk` is the data directory of the manager, the mounts, and the paths of the user. `Cmd` lists the system calls that the
code makes, one constructor per call site; `Step` says what each may answer and how it changes the disk. File contents of
the data directory are bytes; names of directories are the strings the code builds.

Simplifications: paths of the user are opaque strings, each with its own entry; the emptiness of a directory does not
follow from the entries below it. Permissions are not checked, since every command that writes runs as root.
-/
set_option autoImplicit false
namespace Verif
open Path

/-- A directory `mounts/<n>` (pkg/mounts/mount.go:15-18): the `merged` directory with its own content (visible while nothing is mounted
on it), and the `work` directory. -/
structure MDir where
  merged : Option Content
  work : Bool

/-- A mounted overlay: the layers by their IDs, lowers topmost first. -/
structure Mnt where
  upper : UID
  lowers : List UID
  deriving DecidableEq

/-- What is at a path of the user. -/
inductive UEnt where
  /-- Nothing, and the parent directory is missing. -/
  | noParent
  /-- Nothing, but the parent directory exists. -/
  | none
  | emptyDir
  | dir
  | file
  | link (target : Str)
  deriving DecidableEq, Repr

/-- The world outside the process. -/
structure Disk where
  /-- `overlay/<id>`: no directory, a directory without `diff`, or a layer with content. -/
  layer : UID → Option (Option Content)
  /-- `spaces/<name>`: no directory, a directory without tree file, or the bytes of `tree.json`. -/
  space : Str → Option (Option Str)
  /-- `mounts/<name>`. -/
  mdir : Str → Option MDir
  /-- `mounts/<name>.workspace`. -/
  info : Str → Option Str
  /-- What is mounted on `mounts/<name>/merged`. -/
  mnt : Str → Option Mnt
  /-- The user's paths. -/
  user : Str → UEnt
  /-- The IDs drawn so far. -/
  used : List UID

/-- Fixed parameters: the data root, the style of the JSON encoder (it differs between Go versions), the owner that the
manager sets. -/
structure Env where
  root : Str
  sh : Bool
  owner : Nat

/-- The same for commands of the user `o`. -/
@[reducible] def Env.as (E : Env) (o : Nat) : Env := { E with owner := o }

/-- What may go wrong: calls fail although they could succeed (or stop half way), a mount is busy when it is unmounted, the
random generator repeats an ID. -/
structure Faults where
  io : Bool
  busy : Bool
  rep : Bool

/-- Nothing goes wrong. -/
def Faults.none : Faults := ⟨false, false, false⟩
/-- Anything may go wrong. -/
def Faults.all : Faults := ⟨true, true, true⟩

/-- The mount point of the mount `n` (pkg/mounts/mount.go:49, :73). -/
def Env.mountPath (E : Env) (n : Str) : Str := joinRoot E.root [lit "mounts", n, lit "merged"]

/-- `p` is the mount point of `n` or lies below it. -/
def Env.Inside (E : Env) (p n : Str) : Prop := ∃ rest, comps p = comps E.root ++ [lit "mounts", n, lit "merged"] ++ rest

/-- The option string for `k` lower layers fits (`C39_fits_iff_partial`). -/
def Env.Fits (E : Env) (k : Nat) : Prop :=
  k * (((comps E.root).map fun a => a.length + 1).sum + 41) + 2 * ((comps E.root).map fun a => a.length + 1).sum ≤ 3989

/-- `os.Mkdir` where an existing directory is told apart. -/
inductive MkdirAns where
  | ok | exist | fail
  deriving DecidableEq, Repr

/-- `os.Remove` where a missing file is told apart. -/
inductive RmAns where
  | ok | notExist | fail
  deriving DecidableEq, Repr

/-- Calls that concern only the process. -/
inductive Sys where
  | getwd | chdirRoot | chdirBack
  deriving DecidableEq, Repr

/-- One call to the outside. -/
inductive Cmd where
  /-- `uid.NewUID128` (pkg/layers/manager.go:46; pkg/manager/manager_default.go:147, :395, :466, :490). -/
  | rand
  /-- `os.Mkdir(spaces/<n>)` (pkg/manager/manager_default.go:470). -/
  | mkdirSpace (n : Str)
  /-- `os.Mkdir(overlay/<u>)` (pkg/layers/manager.go:48). -/
  | mkdirLayer (u : UID)
  /-- `IsDir(overlay/<u>/diff)` (pkg/layers/layer.go:53). -/
  | isDirDiff (u : UID)
  /-- `os.Mkdir(overlay/<u>/diff)` (pkg/layers/layer.go:54). -/
  | mkdirDiff (u : UID)
  /-- `IsDir(overlay/<u>)` (pkg/layers/manager.go:62, :105). -/
  | isDirLayer (u : UID)
  /-- `os.Mkdir(mounts/<n>)` (pkg/manager/manager_default.go:494). -/
  | mkdirMount (n : Str)
  /-- `IsDir(mounts/<n>/merged)` (pkg/utils/fs/stat.go:12-19; pkg/mounts/mount_linux.go:24). -/
  | isDirMerged (n : Str)
  /-- `os.Mkdir(mounts/<n>/merged)` (pkg/mounts/mount_linux.go:26). -/
  | mkdirMerged (n : Str)
  /-- `IsDir(mounts/<n>/work)` (pkg/mounts/mount_linux.go:30). -/
  | isDirWork (n : Str)
  /-- `os.Mkdir(mounts/<n>/work)` (pkg/mounts/mount_linux.go:32). -/
  | mkdirWork (n : Str)
  /-- `syscall.Mount` (pkg/mounts/overlay_linux.go:40) with options for these layers. That the option string says just this is
  `C38_options_partial`; the data root is taken to be free of comma, colon and backslash. -/
  | mountOverlay (n : Str) (u : UID) (ls : List UID)
  /-- `os.Chown(mounts/<n>/merged)` (pkg/mounts/mount_linux.go:40). -/
  | chownMerged (n : Str)
  /-- `os.Getwd`, `os.Chdir` (pkg/workspaces/workspace.go:90, :94, :113; pkg/manager/manager_default.go:252, :256, :280). -/
  | sys (k : Sys)
  /-- `IsExists(p)` (pkg/utils/fs/stat.go:6-9; pkg/workspaces/workspace.go:99; pkg/commands/init.go:41). -/
  | exists_ (p : Str)
  /-- `IsEmptyDir(p)` (pkg/utils/fs/stat.go:22-33; pkg/commands/init.go:41). -/
  | isEmptyDir (p : Str)
  /-- `IsSymlink(p)` (pkg/utils/fs/stat.go:36-43; pkg/manager/manager_default.go:175). -/
  | isSymlink (p : Str)
  /-- `os.Readlink(p)` (pkg/manager/manager_default.go:176). -/
  | readlink (p : Str)
  /-- `os.Remove(p)` (pkg/workspaces/workspace.go:101). -/
  | remove (p : Str)
  /-- `os.Symlink(target, p)` (pkg/mounts/mount.go:133). -/
  | symlink (target p : Str)
  /-- `os.Lchown(p)` (pkg/mounts/mount.go:136). -/
  | lchown (p : Str)
  /-- `syscall.Unmount(mounts/<n>/merged, 0)` (pkg/mounts/mount_linux.go:50). -/
  | umount (n : Str)
  /-- `os.RemoveAll(mounts/<n>)` (pkg/manager/manager_default.go:268). -/
  | removeAllMount (n : Str)
  /-- `os.Remove(mounts/<n>.workspace)` (pkg/manager/manager_default.go:275). -/
  | removeInfo (n : Str)
  /-- `os.ReadFile(mounts/<n>.workspace)` (pkg/manager/manager_default.go:448). -/
  | readInfo (n : Str)
  /-- `os.WriteFile(mounts/<n>.workspace)` (pkg/manager/manager_default.go:433), opening with truncation. -/
  | truncInfo (n : Str)
  /-- The same call, writing. -/
  | writeInfo (n : Str) (b : Str)
  /-- `os.ReadFile(spaces/<n>/tree.json)` (pkg/spaces/default.go:87; the path is `treeDumpSavePath`, pkg/spaces/default.go:187-189). -/
  | readTree (n : Str)
  /-- `os.WriteFile(spaces/<n>/tree.json)` (pkg/spaces/default.go:119), opening with truncation. -/
  | truncTree (n : Str)
  /-- The same call, writing. -/
  | writeTree (n : Str) (b : Str)
  /-- `trees.Dump` and `json.Marshal` (pkg/spaces/default.go:111-114): not a system call, but not determined by the tree. -/
  | dump (s : TS)

/-- What a call answers. `Bool` is success, or the answer of a test. -/
@[reducible] def Cmd.Ans : Cmd → Type
  | .rand => UID
  | .mkdirMerged _ => MkdirAns
  | .mkdirWork _ => MkdirAns
  | .readlink _ => Option Str
  | .removeInfo _ => RmAns
  | .readInfo _ => ReadRes
  | .readTree _ => ReadRes
  | .dump _ => Str
  | _ => Bool

namespace Disk

/-- Replace the directory of a layer. -/
def setLayer (d : Disk) (u : UID) (x : Option (Option Content)) : Disk := { d with layer := upd d.layer u x }
/-- Replace the directory of a space. -/
def setSpace (d : Disk) (n : Str) (x : Option (Option Str)) : Disk := { d with space := upd d.space n x }
/-- Replace the data directory of a mount. -/
def setMdir (d : Disk) (n : Str) (x : Option MDir) : Disk := { d with mdir := upd d.mdir n x }
/-- Replace a workspace record. -/
def setInfo (d : Disk) (n : Str) (x : Option Str) : Disk := { d with info := upd d.info n x }
/-- Replace what is mounted. -/
def setMnt (d : Disk) (n : Str) (x : Option Mnt) : Disk := { d with mnt := upd d.mnt n x }
/-- Replace what stands at a path of the user. -/
def setUser (d : Disk) (p : Str) (x : UEnt) : Disk := { d with user := upd d.user p x }

/-- The content of a layer; a missing one counts as empty. -/
def content (d : Disk) (u : UID) : Content := ((d.layer u).bind fun x => x).getD .empty

/-- Replace the content of a layer that has a `diff` directory. -/
def put (d : Disk) (u : UID) (c : Content) : Disk :=
  match d.layer u with
  | some (some _) => d.setLayer u (some (some c))
  | _ => d

/-- The layer has a `diff` directory. -/
def HasDiff (d : Disk) (u : UID) : Prop := ∃ c, d.layer u = some (some c)

/-- What is seen at the mount point of `n`. -/
def shows (d : Disk) (n : Str) : List Str → Option VEnt :=
  match d.mnt n with
  | some m => view ((m.upper :: m.lowers).map d.content)
  | none =>
    match d.mdir n with
    | some ⟨some c, _⟩ => view [c]
    | _ => fun _ => none

end Disk

/-- Changing the owner of the top directory. -/
def Content.chown (c : Content) (owner : Nat) : Content := fun p =>
  if p = [] then
    match c [] with
    | some (.dir o a) => some (.dir o { a with owner := owner })
    | x => x
  else c p

/-- A test that can only wrongly say no. -/
def Tests (f : Faults) (P : Prop) (d : Disk) (a : Bool) (d' : Disk) : Prop :=
  d' = d ∧ ((a = true ∧ P) ∨ (a = false ∧ (¬ P ∨ f.io = true)))

/-- A call that needs `P` and has the effect `d1`, or fails without effect. -/
def Does (f : Faults) (P : Prop) (d1 : Disk) (d : Disk) (a : Bool) (d' : Disk) : Prop :=
  (a = true ∧ P ∧ d' = d1) ∨ (a = false ∧ (¬ P ∨ f.io = true) ∧ d' = d)

/-- A call on a path inside a mount may change the upper layer of that mount in any way and answer anything. -/
def Meddles (E : Env) (p : Str) (d d' : Disk) : Prop :=
  d' = d ∨ ∃ n m c, E.Inside p n ∧ d.mnt n = some m ∧ d' = d.put m.upper c

/-- `os.Stat` on a path of the user. A link is followed; where it leads is known only for mount points. -/
def Exists (E : Env) (d : Disk) (p : Str) (a : Bool) : Prop :=
  match d.user p with
  | .noParent | .none => a = false
  | .emptyDir | .dir | .file => a = true
  | .link t => ∀ n, t = E.mountPath n → (a = true ↔ ∃ m c, d.mdir n = some m ∧ m.merged = some c)

/-- `IsEmptyDir` (pkg/utils/fs/stat.go:22-33) on a path of the user. -/
def EmptyDir (E : Env) (d : Disk) (p : Str) (a : Bool) : Prop :=
  match d.user p with
  | .emptyDir => a = true
  | .link t => ∀ n, t = E.mountPath n → (a = true ↔ (∃ m c, d.mdir n = some m ∧ m.merged = some c) ∧
      ∀ x, d.shows n [x] = none)
  | _ => a = false

/-- Writing `b` at the start of a file that has the content `old`. -/
def overwrite (b old : Str) : Str := b ++ old.drop b.length

/-- What a call may answer and do. -/
def Step (E : Env) (f : Faults) : (c : Cmd) → Disk → c.Ans → Disk → Prop
  | .rand, d, u, d' => (u ∉ d.used ∨ f.rep = true) ∧ d' = { d with used := u :: d.used }
  | .mkdirSpace n, d, a, d' => Does f (d.space n = none) (d.setSpace n (some none)) d a d'
  | .mkdirLayer u, d, a, d' => Does f (d.layer u = none) (d.setLayer u (some none)) d a d'
  | .isDirDiff u, d, a, d' => Tests f (d.HasDiff u) d a d'
  | .mkdirDiff u, d, a, d' => Does f (d.layer u = some none) (d.setLayer u (some (some .empty))) d a d'
  | .isDirLayer u, d, a, d' => Tests f (d.layer u ≠ none) d a d'
  | .mkdirMount n, d, a, d' => Does f (d.mdir n = none) (d.setMdir n (some ⟨none, false⟩)) d a d'
  | .isDirMerged n, d, a, d' => Tests f (∃ m c, d.mdir n = some m ∧ m.merged = some c) d a d'
  | .mkdirMerged n, d, a, d' =>
    (a = .ok ∧ ∃ m, d.mdir n = some m ∧ m.merged = none ∧ d' = d.setMdir n (some { m with merged := some .empty })) ∨
    (a = .exist ∧ d' = d ∧ ∃ m c, d.mdir n = some m ∧ m.merged = some c) ∨
    (a = .fail ∧ d' = d ∧ (d.mdir n = none ∨ f.io = true))
  | .isDirWork n, d, a, d' => Tests f (∃ m, d.mdir n = some m ∧ m.work = true) d a d'
  | .mkdirWork n, d, a, d' =>
    (a = .ok ∧ ∃ m, d.mdir n = some m ∧ m.work = false ∧ d' = d.setMdir n (some { m with work := true })) ∨
    (a = .exist ∧ d' = d ∧ ∃ m, d.mdir n = some m ∧ m.work = true) ∨
    (a = .fail ∧ d' = d ∧ (d.mdir n = none ∨ f.io = true))
  | .mountOverlay n u ls, d, a, d' =>
    Does f ((∃ m c, d.mdir n = some m ∧ m.merged = some c ∧ m.work = true) ∧ (∀ v ∈ u :: ls, d.HasDiff v) ∧ E.Fits ls.length)
      (d.setMnt n (some ⟨u, ls⟩)) d a d'
  | .chownMerged n, d, a, d' =>
    match d.mnt n with
    | some m => Does f True (d.put m.upper ((d.content m.upper).chown E.owner)) d a d'
    | none =>
      match d.mdir n with
      | some ⟨some c, w⟩ => Does f True (d.setMdir n (some ⟨some (c.chown E.owner), w⟩)) d a d'
      | _ => a = false ∧ d' = d
  | .sys _, d, a, d' => Does f True d d a d'
  | .exists_ p, d, a, d' => d' = d ∧ (Exists E d p a ∨ (∃ n, E.Inside p n) ∨ (a = false ∧ f.io = true))
  | .isEmptyDir p, d, a, d' => d' = d ∧ (EmptyDir E d p a ∨ (∃ n, E.Inside p n) ∨ (a = false ∧ f.io = true))
  | .isSymlink p, d, a, d' => d' = d ∧ ((a = true ↔ ∃ t, d.user p = .link t) ∨ (∃ n, E.Inside p n) ∨ (a = false ∧ f.io = true))
  | .readlink p, d, a, d' => d' = d ∧ ((∃ t, d.user p = .link t ∧ a = some t) ∨ (∃ n, E.Inside p n) ∨
      (a = none ∧ ((∀ t, d.user p ≠ .link t) ∨ f.io = true)))
  | .remove p, d, a, d' =>
    (¬ (∃ n, E.Inside p n) ∧ Does f (d.user p = .emptyDir ∨ d.user p = .file ∨ ∃ t, d.user p = .link t) (d.setUser p .none) d a d') ∨
    ((∃ n, E.Inside p n) ∧ Meddles E p d d')
  | .symlink t p, d, a, d' =>
    (¬ (∃ n, E.Inside p n) ∧ Does f (d.user p = .none) (d.setUser p (.link t)) d a d') ∨
    ((∃ n, E.Inside p n) ∧ Meddles E p d d')
  | .lchown p, d, a, d' =>
    (¬ (∃ n, E.Inside p n) ∧ Does f (d.user p ≠ .none ∧ d.user p ≠ .noParent) d d a d') ∨
    ((∃ n, E.Inside p n) ∧ Meddles E p d d')
  | .umount n, d, a, d' =>
    (a = true ∧ d.mnt n ≠ none ∧ d' = d.setMnt n none) ∨
    (a = false ∧ d' = d ∧ (d.mnt n = none ∨ f.busy = true ∨ f.io = true))
  | .removeAllMount n, d, a, d' =>
    match d.mnt n with
    | none => (a = true ∧ d' = d.setMdir n none) ∨
        (a = false ∧ f.io = true ∧ ∃ m m', d.mdir n = some m ∧ d' = d.setMdir n (some m'))
    | some m =>
      -- everything visible is deleted through the overlay, but the mount point itself cannot be removed
      a = false ∧ ∃ c' w, (∀ x p, view (c' :: m.lowers.map d.content) (x :: p) = none ∨
          (f.io = true ∧ view (c' :: m.lowers.map d.content) (x :: p) = d.shows n (x :: p))) ∧
        d' = (d.put m.upper c').setMdir n ((d.mdir n).map fun x => { x with work := w })
  | .removeInfo n, d, a, d' =>
    (a = .ok ∧ d.info n ≠ none ∧ d' = d.setInfo n none) ∨ (a = .notExist ∧ d.info n = none ∧ d' = d) ∨
    (a = .fail ∧ f.io = true ∧ d' = d)
  | .readInfo n, d, a, d' => d' = d ∧
    match a with
    | .ok b => d.info n = some b
    | .notExist => d.info n = none
    | .failed b => f.io = true ∧ ∃ full, d.info n = some full ∧ b <+: full
  | .truncInfo n, d, a, d' => Does f True (d.setInfo n (some [])) d a d'
  | .writeInfo n b, d, a, d' =>
    match d.info n with
    | none => d' = d ∧ (a = true ∨ f.io = true)
    | some old => (a = true ∧ d' = d.setInfo n (some (overwrite b old))) ∨
        (a = false ∧ f.io = true ∧ ∃ p, p <+: b ∧ d' = d.setInfo n (some (overwrite p old)))
  | .readTree n, d, a, d' => d' = d ∧
    match a with
    | .ok b => d.space n = some (some b)
    | .notExist => d.space n = none ∨ d.space n = some none
    | .failed b => f.io = true ∧ ∃ full, d.space n = some (some full) ∧ b <+: full
  | .truncTree n, d, a, d' => Does f (d.space n ≠ none) (d.setSpace n (some (some []))) d a d'
  | .writeTree n b, d, a, d' =>
    match d.space n with
    | some (some old) => (a = true ∧ d' = d.setSpace n (some (some (overwrite b old)))) ∨
        (a = false ∧ f.io = true ∧ ∃ p, p <+: b ∧ d' = d.setSpace n (some (some (overwrite p old))))
    | _ => d' = d ∧ a = false
  | .dump s, d, a, d' => d' = d ∧ (SavesAs E.sh s a ∨ (a = [] ∧ ∀ b, ¬ SavesAs E.sh s b))

theorem mountPath_inj {E : Env} {n n' : Str} (h : E.mountPath n = E.mountPath n') : n = n' := by
  have key : ∀ (l : List Str) (n n' : Str), join (l ++ [lit "mounts", n, lit "merged"]) = join (l ++ [lit "mounts", n', lit "merged"]) →
      n = n' := by
    intro l
    induction l with
    | nil =>
      intro n n' h
      simp only [List.nil_append, join] at h
      exact List.append_cancel_right (List.cons.inj (List.append_cancel_left h)).2
    | cons a l ih =>
      intro n n' h
      cases l with
      | nil =>
        simp only [List.cons_append, List.nil_append, join] at h ih
        exact ih n n' (by simpa using h)
      | cons b l =>
        simp only [List.cons_append, join] at h ih
        exact ih n n' (List.cons.inj (List.append_cancel_left h)).2
  unfold Env.mountPath joinRoot at h
  exact key _ n n' (List.cons.inj h).2

/-- A layer that hides everything. -/
def Content.hide : Content := fun _ => some .whiteout

theorem stack_hide (ls : List Content) (x : Str) (p : List Str) : stack (.hide :: ls) (x :: p) = [] := by
  induction p generalizing x with
  | nil => simp [stack, merge, Content.hide]
  | cons y p ih => rw [stack, ih]; rfl

theorem view_hide (ls : List Content) (x : Str) (p : List Str) : view (.hide :: ls) (x :: p) = none := by
  cases p with
  | nil => simp [view, stack, topEnt, Content.hide]
  | cons y p => rw [view, stack_hide]; rfl

theorem does_total (f : Faults) (P : Prop) (d1 d : Disk) : ∃ a d', Does f P d1 d a d' := by
  by_cases h : P
  · exact ⟨true, d1, Or.inl ⟨rfl, h, rfl⟩⟩
  · exact ⟨false, d, Or.inr ⟨rfl, Or.inl h, rfl⟩⟩

theorem tests_total (f : Faults) (P : Prop) (d : Disk) : ∃ a d', Tests f P d a d' := by
  by_cases h : P
  · exact ⟨true, d, rfl, Or.inl ⟨rfl, h⟩⟩
  · exact ⟨false, d, rfl, Or.inr ⟨rfl, Or.inl h⟩⟩

theorem leads_total {E : Env} (t : Str) (P : Str → Prop) : ∃ a : Bool, ∀ n, t = E.mountPath n → (a = true ↔ P n) := by
  by_cases h : ∃ n, t = E.mountPath n
  · obtain ⟨n, rfl⟩ := h
    by_cases hp : P n
    · refine ⟨true, fun n' hn => ?_⟩
      rw [← mountPath_inj hn]; simp [hp]
    · refine ⟨false, fun n' hn => ?_⟩
      rw [← mountPath_inj hn]; simp [hp]
  · exact ⟨true, fun n hn => (h ⟨n, hn⟩).elim⟩

/-- Every call answers something, except that a fresh ID has to exist. -/
theorem step_total (E : Env) (f : Faults) (c : Cmd) (d : Disk) (hr : ∃ u, u ∉ d.used ∨ f.rep = true) : ∃ a d', Step E f c d a d' := by
  cases c with
  | rand => obtain ⟨u, hu⟩ := hr; exact ⟨u, _, hu, rfl⟩
  | mkdirSpace n => exact does_total _ _ _ _
  | mkdirLayer u => exact does_total _ _ _ _
  | isDirDiff u => exact tests_total _ _ _
  | mkdirDiff u => exact does_total _ _ _ _
  | isDirLayer u => exact tests_total _ _ _
  | mkdirMount n => exact does_total _ _ _ _
  | isDirMerged n => exact tests_total _ _ _
  | mkdirMerged n =>
    cases h : d.mdir n with
    | none => exact ⟨.fail, d, Or.inr (Or.inr ⟨rfl, rfl, Or.inl h⟩)⟩
    | some m =>
      cases hm : m.merged with
      | none => exact ⟨.ok, _, Or.inl ⟨rfl, m, h, hm, rfl⟩⟩
      | some c => exact ⟨.exist, d, Or.inr (Or.inl ⟨rfl, rfl, m, c, h, hm⟩)⟩
  | isDirWork n => exact tests_total _ _ _
  | mkdirWork n =>
    cases h : d.mdir n with
    | none => exact ⟨.fail, d, Or.inr (Or.inr ⟨rfl, rfl, Or.inl h⟩)⟩
    | some m =>
      cases hm : m.work with
      | false => exact ⟨.ok, _, Or.inl ⟨rfl, m, h, hm, rfl⟩⟩
      | true => exact ⟨.exist, d, Or.inr (Or.inl ⟨rfl, rfl, m, h, hm⟩)⟩
  | mountOverlay n u ls => exact does_total _ _ _ _
  | chownMerged n =>
    simp only [Step]
    split
    · exact does_total _ _ _ _
    · split
      · exact does_total _ _ _ _
      · exact ⟨false, d, rfl, rfl⟩
  | sys k => exact does_total _ _ _ _
  | exists_ p =>
    simp only [Step, Exists]
    cases h : d.user p with
    | link t =>
      obtain ⟨a, ha⟩ := leads_total (E := E) t fun n => ∃ m c, d.mdir n = some m ∧ m.merged = some c
      exact ⟨a, d, rfl, Or.inl ha⟩
    | _ => first | exact ⟨true, d, rfl, Or.inl rfl⟩ | exact ⟨false, d, rfl, Or.inl rfl⟩
  | isEmptyDir p =>
    simp only [Step, EmptyDir]
    cases h : d.user p with
    | link t =>
      obtain ⟨a, ha⟩ := leads_total (E := E) t fun n => (∃ m c, d.mdir n = some m ∧ m.merged = some c) ∧ ∀ x, d.shows n [x] = none
      exact ⟨a, d, rfl, Or.inl ha⟩
    | _ => first | exact ⟨true, d, rfl, Or.inl rfl⟩ | exact ⟨false, d, rfl, Or.inl rfl⟩
  | isSymlink p =>
    by_cases h : ∃ t, d.user p = .link t
    · exact ⟨true, d, rfl, Or.inl (by simp [h])⟩
    · exact ⟨false, d, rfl, Or.inl (by simp [h])⟩
  | readlink p =>
    by_cases h : ∃ t, d.user p = .link t
    · obtain ⟨t, ht⟩ := h
      exact ⟨some t, d, rfl, Or.inl ⟨t, ht, rfl⟩⟩
    · exact ⟨none, d, rfl, Or.inr (Or.inr ⟨rfl, Or.inl fun t ht => h ⟨t, ht⟩⟩)⟩
  | remove p =>
    by_cases h : ∃ n, E.Inside p n
    · exact ⟨true, d, Or.inr ⟨h, Or.inl rfl⟩⟩
    · obtain ⟨a, d', hd⟩ := does_total f (d.user p = .emptyDir ∨ d.user p = .file ∨ ∃ t, d.user p = .link t) (d.setUser p .none) d
      exact ⟨a, d', Or.inl ⟨h, hd⟩⟩
  | symlink t p =>
    by_cases h : ∃ n, E.Inside p n
    · exact ⟨true, d, Or.inr ⟨h, Or.inl rfl⟩⟩
    · obtain ⟨a, d', hd⟩ := does_total f (d.user p = .none) (d.setUser p (.link t)) d
      exact ⟨a, d', Or.inl ⟨h, hd⟩⟩
  | lchown p =>
    by_cases h : ∃ n, E.Inside p n
    · exact ⟨true, d, Or.inr ⟨h, Or.inl rfl⟩⟩
    · obtain ⟨a, d', hd⟩ := does_total f (d.user p ≠ .none ∧ d.user p ≠ .noParent) d d
      exact ⟨a, d', Or.inl ⟨h, hd⟩⟩
  | umount n =>
    by_cases h : d.mnt n = none
    · exact ⟨false, d, Or.inr ⟨rfl, rfl, Or.inl h⟩⟩
    · exact ⟨true, _, Or.inl ⟨rfl, h, rfl⟩⟩
  | removeAllMount n =>
    simp only [Step]
    split
    · exact ⟨true, _, Or.inl ⟨rfl, rfl⟩⟩
    · exact ⟨false, _, rfl, .hide, true, fun x p => Or.inl (view_hide _ x p), rfl⟩
  | removeInfo n =>
    by_cases h : d.info n = none
    · exact ⟨.notExist, d, Or.inr (Or.inl ⟨rfl, h, rfl⟩)⟩
    · exact ⟨.ok, _, Or.inl ⟨rfl, h, rfl⟩⟩
  | readInfo n =>
    cases h : d.info n with
    | none => exact ⟨.notExist, d, rfl, h⟩
    | some b => exact ⟨.ok b, d, rfl, h⟩
  | truncInfo n => exact does_total _ _ _ _
  | writeInfo n b =>
    simp only [Step]
    split
    · exact ⟨true, d, rfl, Or.inl rfl⟩
    · exact ⟨true, _, Or.inl ⟨rfl, rfl⟩⟩
  | readTree n =>
    cases h : d.space n with
    | none => exact ⟨.notExist, d, rfl, Or.inl h⟩
    | some x =>
      cases x with
      | none => exact ⟨.notExist, d, rfl, Or.inr h⟩
      | some b => exact ⟨.ok b, d, rfl, h⟩
  | truncTree n => exact does_total _ _ _ _
  | writeTree n b =>
    simp only [Step]
    split
    · exact ⟨true, _, Or.inl ⟨rfl, rfl⟩⟩
    · exact ⟨false, d, rfl, rfl⟩
  | dump s =>
    by_cases h : ∃ b, SavesAs E.sh s b
    · obtain ⟨b, hb⟩ := h
      exact ⟨b, d, rfl, Or.inl hb⟩
    · exact ⟨[], d, rfl, Or.inr ⟨rfl, fun b hb => h ⟨b, hb⟩⟩⟩

end Verif
