import Verif.World.Prog
import Verif.Fs.Path
import Verif.Ws.Model
/-!
# `pkg/layers`, `pkg/spaces/default.go`, `pkg/mounts`, `pkg/manager`, `pkg/commands` as programs

Logging is left out. The trees are values of the process; only `tree.json` is shared.
-/
set_option autoImplicit false
namespace Verif
open M TS Json

/-! ## Layers -/

/-- `defaultLayerManager.Create` (pkg/layers/manager.go:44-57) with `defaultLayer.Save` (pkg/layers/layer.go:51-59). -/
def layerCreate : M UID := do
  let u ← ask .rand
  need (← ask (.mkdirLayer u)) .mkdirLayer
  if ← ask (.isDirDiff u) then
    return u
  need (← ask (.mkdirDiff u)) .mkdirDiff
  return u

/-! ## Spaces -/

/-- `defaultSpace.Init` (pkg/spaces/default.go:59-79). -/
def spaceInitP : M TS := do
  let u ← layerCreate
  lift .tree (spaceInit u)

/-- `defaultSpace.Save` (pkg/spaces/default.go:106-124). `json.Marshal` cannot fail on these types. -/
def spaceSave (name : Str) (s : TS) : M Unit := do
  let b ← ask (.dump s)
  need (← ask (.truncTree name)) .saveTree
  need (← ask (.writeTree name b)) .saveTree

/-- `defaultSpace.CreateLayer` (pkg/spaces/default.go:127-150): the tree with the new node, and the node. -/
def createLayer (s : TS) (base : UID) : M (TS × Ref) :=
  match (s.get base).bind (s.heap[·]?) with
  | none => fail .layerNotFound
  | some o => do
    let u ← layerCreate
    let (r, s1) := s.newNode u
    let s2 ← lift .tree (s1.addNode (some o.id) r)
    return (s2, r)

/-- The loop of `CreateMount` (pkg/spaces/default.go:168-177): the IDs of the layers, the new one first. -/
def layerChain (heap : List NodeObj) : (fuel : Nat) → Option Ref → M (List UID)
  | _, none => return []
  | 0, some _ => Prog.ret .diverge
  | n + 1, some r =>
    match heap[r]? with
    | none => Prog.ret .panic
    | some o => do
      need (← ask (.isDirLayer o.id)) .getLayer
      let l ← layerChain heap n o.parent
      return o.id :: l

/-- A mount object (pkg/mounts/mount.go:96-112): its ID, the name of its data directory, and the layers if it can be mounted. -/
structure MountObj where
  id : UID
  dir : Str
  layers : Option Mnt

/-- `defaultSpace.CreateMount` (pkg/spaces/default.go:153-184) with `mounts.New` (pkg/mounts/mount.go:32-69). By `C37_mount_new` the
first layer of the chain becomes the upper one, the others the lower ones in this order. -/
def spaceCreateMount (s : TS) (commit : UID) (mountID : UID) : M (TS × MountObj × Ref) := do
  let (s', r) ← createLayer s commit
  match ← layerChain s'.heap s'.walkFuel (some r) with
  | u :: l :: ls => return (s', ⟨mountID, mountID.base32, some ⟨u, l :: ls⟩⟩, r)
  | _ => fail .tooFew

/-- `defaultManager.createMount` (pkg/manager/manager_default.go:482-506). -/
def createMount (s : TS) (commit : UID) : M (TS × MountObj × Ref) := do
  let m ← ask .rand
  need (← ask (.mkdirMount m.base32)) .mkdirMount
  spaceCreateMount s commit m

/-- `defaultManager.createSpace` (pkg/manager/manager_default.go:463-479): the ID of the space and its tree. -/
def createSpace : M (UID × TS) := do
  let i ← ask .rand
  need (← ask (.mkdirSpace i.base32)) .mkdirSpace
  let s ← spaceInitP
  return (i, s)

/-! ## Workspaces -/

/-- A workspace object (pkg/workspaces/workspace.go:38-45) with its space and mount. `spaceDir` is the name of the directory of
the space. -/
structure OpenWs where
  tree : TS
  spaceID : UID
  spaceDir : Str
  mount : MountObj
  ws : Ws

/-- The record of a workspace (pkg/manager/manager_default.go:415-422). -/
def infoOf (w : OpenWs) (head : UID) : WsInfo where
  id := w.ws.id.base32
  path := w.ws.path
  spaceID := w.spaceID.base32
  mountID := w.mount.id.base32
  head := head.hex
  branch := (Ws.branchInfo w.ws).localName

/-- `defaultManager.saveWorkspaceInfo` (pkg/manager/manager_default.go:411-438). -/
def saveInfo (E : Env) (w : OpenWs) : M Unit :=
  match w.tree.heap[w.ws.head]? with
  | none => Prog.ret .panic
  | some o => do
    let n := w.mount.id.base32
    need (← ask (.truncInfo n)) .saveInfo
    need (← ask (.writeInfo n (Json.marshalInfo E.sh (infoOf w o.id)))) .saveInfo

/-- The end of `CreateWorkspace`, `Commit`, `Checkout` and `Clone` (pkg/manager/manager_default.go:152-160, :318-326, :361-369,
:397-405). -/
def saveAll (E : Env) (w : OpenWs) : M OpenWs := do
  spaceSave w.spaceDir w.tree
  saveInfo E w
  return w

/-- `defaultManager.CreateWorkspace` (pkg/manager/manager_default.go:126-163) on an absolute path. -/
def createWorkspace (E : Env) (path branch : Str) : M OpenWs := do
  let (i, s) ← createSpace
  match s.tree.root.bind (s.heap[·]?) with
  | none => Prog.ret .panic
  | some o =>
    let (s1, mount, head) ← createMount s o.id
    let wid ← ask .rand
    let (s2, w) ← lift .tree (Ws.setBranch s1 ⟨wid, path, head, []⟩ branch)
    saveAll E ⟨s2, i, i.base32, mount, w⟩

/-- `defaultManager.loadWorkspaceInfo` (pkg/manager/manager_default.go:441-460). -/
def loadInfo (m : UID) : M WsInfo := do
  match ← ask (.readInfo m.base32) with
  | .ok b => lift (fun _ => .infoJson) (match Json.unmarshalInfo b with | some w => .ok w | none => (.err () : Res Unit WsInfo))
  | _ => fail .infoRead

/-- The target if the path is a symbolic link (pkg/manager/manager_default.go:174-180). -/
def linkOf (absPath : Str) : M (Option Str) := do
  if ← ask (.isSymlink absPath) then
    match ← ask (.readlink absPath) with
    | some t => return some t
    | none => fail .path
  else return none

/-- `defaultManager.GetWorkspaceFromPath` (pkg/manager/manager_default.go:166-245). `cwd` is the working directory. -/
def getWorkspace (E : Env) (cwd path : Str) : M OpenWs := do
  let absPath := Path.abs cwd path
  let link ← linkOf absPath
  let m ← lift (fun _ => .path) (mountIDOf E.root cwd path link)
  let info ← loadInfo m
  let wid ← lift (fun _ => .wsID) (UID.decodeBase32 info.id)
  let sid ← lift (fun _ => .spaceID) (UID.decodeBase32 info.spaceID)
  let s ← lift .space (spaceLoad (← ask (.readTree info.spaceID)))
  let h ← lift (fun _ => .headHex) (UID.decodeHex info.head)
  match s.get h with
  | none => fail .headMissing
  | some r => return ⟨s, sid, info.spaceID, ⟨m, info.mountID, none⟩, ⟨wid, absPath, r, info.branch⟩⟩

/-- `CommitInfo` (pkg/workspaces/commit.go:10-16): the date as `SetToNode` formats it, and the message. -/
structure CommitInfo where
  date : Str
  message : Str

/-- `nodeAnnoCommitDate` (pkg/workspaces/commit.go:60). -/
def annoDate : Str := lit "commit-date"
/-- `nodeAnnoCommitMessage` (pkg/workspaces/commit.go:61). -/
def annoMessage : Str := lit "commit-message"

/-- `SetToNode` (pkg/workspaces/commit.go:102-110). -/
def setToNode (s : TS) (r : Ref) (ci : CommitInfo) : Option TS :=
  (s.addAnnotation r annoDate ci.date).bind fun s1 => s1.addAnnotation r annoMessage ci.message

/-- The ID of the parent of a node, as `head.Parent().ID()`; a nil parent is dereferenced. -/
def parentID {ε : Type} (s : TS) (r : Ref) : Res ε UID :=
  match (s.heap[r]?).bind fun o => o.parent.bind (s.heap[·]?) with
  | some p => .ok p.id
  | none => .panic

/-- Moving the branch in `Commit` (pkg/manager/manager_default.go:309-314). -/
def moveBranch (s : TS) (b : BranchInfo) (head : Ref) : M TS :=
  if b.name ≠ [] then do
    let p ← lift .tree (parentID s head)
    lift .tree (s.updateBranch b.fullName p false)
  else return s

/-- `defaultManager.Commit` (pkg/manager/manager_default.go:288-329). -/
def commitP (E : Env) (w : OpenWs) (ci : CommitInfo) : M OpenWs :=
  match setToNode w.tree w.ws.head ci with
  | none => Prog.ret .panic
  | some s1 =>
    match s1.heap[w.ws.head]? with
    | none => Prog.ret .panic
    | some o => do
      let (s2, mount, head) ← createMount s1 o.id
      let s3 ← moveBranch s2 (Ws.branchInfo w.ws) head
      saveAll E { w with tree := s3, mount := mount, ws := ⟨w.ws.id, w.ws.path, head, (Ws.branchInfo w.ws).localName⟩ }

/-- `defaultManager.Checkout` (pkg/manager/manager_default.go:332-372). `Search` answers with a nil node only for HEAD of a root. -/
def checkoutP (E : Env) (w : OpenWs) (key : Str) : M OpenWs := do
  match ← lift (fun e : Empty => e.elim) (Ws.search w.tree w.ws key) with
  | none => fail .keyNotFound
  | some (n, kt) =>
    match n.bind (w.tree.heap[·]?) with
    | none => Prog.ret .panic
    | some o =>
      let (s1, mount, head) ← createMount w.tree o.id
      saveAll E { w with tree := s1, mount := mount, ws := ⟨w.ws.id, w.ws.path, head, if kt = .branch then key else []⟩ }

/-- `defaultManager.Clone` (pkg/manager/manager_default.go:375-408). -/
def cloneP (E : Env) (w : OpenWs) (target : Str) : M OpenWs := do
  let p ← lift .tree (parentID w.tree w.ws.head)
  let (s1, mount, head) ← createMount w.tree p
  let wid ← ask .rand
  saveAll E { w with tree := s1, mount := mount, ws := ⟨wid, target, head, (Ws.branchInfo w.ws).localName⟩ }

/-! ## Expanding and removing -/

/-- `os.Mkdir` where an existing directory is no error (pkg/mounts/mount_linux.go:26, :32). -/
def okMkdir (a : MkdirAns) : Bool := a ≠ .fail

/-- `defaultMount.Mount` (pkg/mounts/mount_linux.go:17-44). A mount that was loaded refuses (pkg/mounts/mount.go:120-122). -/
def mountP (m : MountObj) : M Unit :=
  match m.layers with
  | none => fail .mount
  | some l => do
    if !(← ask (.isDirMerged m.dir)) then
      need (okMkdir (← ask (.mkdirMerged m.dir))) .mount
    if !(← ask (.isDirWork m.dir)) then
      need (okMkdir (← ask (.mkdirWork m.dir))) .mount
    need (← ask (.mountOverlay m.dir l.upper l.lowers)) .mount
    need (← ask (.chownMerged m.dir)) .mount

/-- `defaultWorkspace.Expand` (pkg/workspaces/workspace.go:80-118) with `CreateSymlink` (pkg/mounts/mount.go:130-140). -/
def expand (E : Env) (w : OpenWs) : M Unit := do
  mountP w.mount
  need (← ask (.sys .getwd)) .cwd
  need (← ask (.sys .chdirRoot)) .cwd
  if ← ask (.exists_ w.ws.path) then
    need (← ask (.remove w.ws.path)) .clearPath
  need (← ask (.symlink (E.mountPath w.mount.dir) w.ws.path)) .symlink
  need (← ask (.lchown w.ws.path)) .symlink
  need (← ask (.sys .chdirBack)) .cwd

/-- `defaultManager.RemoveWorkspaceMount` (pkg/manager/manager_default.go:248-285). The result of unmounting is only logged. It unmounts
by the recorded directory name and deletes by the ID. -/
def removeMount (m : MountObj) : M Unit := do
  need (← ask (.sys .getwd)) .cwd
  need (← ask (.sys .chdirRoot)) .cwd
  let _ ← ask (.umount m.dir)
  need (← ask (.removeAllMount m.id.base32)) .removeData
  match ← ask (.removeInfo m.id.base32) with
  | .fail => fail .removeInfo
  | _ => need (← ask (.sys .chdirBack)) .cwd

/-! ## Commands -/

/-- `init` (pkg/commands/init.go:26-61) on an absolute path. -/
def initCmd (E : Env) (path branch : Str) : M OpenWs := do
  if ← ask (.exists_ path) then
    need (← ask (.isEmptyDir path)) .notEmpty
  let w ← createWorkspace E path branch
  expand E w
  return w

/-- `clone` (pkg/commands/clone.go:25-64) with an absolute target path. -/
def cloneCmd (E : Env) (cwd source target : Str) : M OpenWs := do
  let w ← getWorkspace E cwd source
  let w' ← cloneP E w target
  expand E w'
  return w'

/-- `commit` (pkg/commands/commit.go:25-57): the workspace before and after. -/
def commitCmd (E : Env) (cwd : Str) (ci : CommitInfo) : M (OpenWs × OpenWs) := do
  let w ← getWorkspace E cwd (lit ".")
  let w' ← commitP E w ci
  expand E w'
  removeMount w.mount
  return (w, w')

/-- `checkout` (pkg/commands/checkout.go:24-58). -/
def checkoutCmd (E : Env) (cwd key : Str) : M (OpenWs × OpenWs) := do
  let w ← getWorkspace E cwd (lit ".")
  let w' ← checkoutP E w key
  expand E w'
  removeMount w.mount
  return (w, w')

/-- What `branch` and `tag` do to the tree of the workspace. -/
inductive Edit where
  | addBranch (name ref : Str) (force : Bool)
  | deleteBranch (name : Str) (global : Bool)
  | addTag (name ref : Str) (force : Bool)
  | deleteTag (name : Str)

/-- One workspace method that changes the tree. -/
def Edit.apply (s : TS) (w : Ws) : Edit → Res Ws.Err TS
  | .addBranch name ref force => Ws.addBranch s w name ref force
  | .deleteBranch name global => Ws.deleteBranch s w name global
  | .addTag name ref force => Ws.addTag s w name ref force
  | .deleteTag name => Ws.deleteTag s name

/-- Each method saves the tree itself (pkg/workspaces/workspace.go:250, :277, :311, :335). `branch -d` and `tag -d` take several
names (pkg/commands/branch.go:101-111, pkg/commands/tag.go:71-81). -/
def editAll (dir : Str) (w : Ws) : List Edit → TS → M TS
  | [], s => return s
  | e :: es, s => do
    let s' ← lift .ws (e.apply s w)
    spaceSave dir s'
    editAll dir w es s'

/-- `branch` and `tag` with changes (pkg/commands/branch.go:25-60, pkg/commands/tag.go:25-52). -/
def editCmd (E : Env) (cwd : Str) (es : List Edit) : M TS := do
  let w ← getWorkspace E cwd (lit ".")
  editAll w.spaceDir w.ws es w.tree

end Verif
