import Verif.World.Inside
/-!
# The working directory of the process itself

`Expand` and `RemoveWorkspaceMount` ask `os.Getwd` where they are, go to `/`, do their work and go back to the path they were
told. `os.Getwd` answers `$PWD` if that is an absolute path that names the working directory, and else the real path of the
working directory. In `Step` these calls just succeed (`Cmd.sys`). Here they are followed: `ExecAt E pwd` are the runs of a
program by one process with the environment variable `PWD = pwd`, while nothing else goes wrong and nobody else works inside
a mount.
-/
set_option autoImplicit false
namespace Verif
open M TS Json

/-- A directory a process can work in: one of the user (or `/`), or the top of a mount. Directories below the top of a mount are
not modelled. -/
inductive Place where
  | dir (p : Str)
  | mount (m : UID)

/-- The real path of a directory, as the kernel tells it (`getcwd`). -/
def Place.path (E : Env) : Place → Str
  | .dir p => p
  | .mount m => E.mountPath m.base32

/-- `os.Stat` and `os.Chdir` of the path `p` come to the directory `l`: links are followed. Only links whose text is an absolute
path are modelled. -/
inductive Leads (E : Env) (d : Disk) : Str → Place → Prop where
  | top : Leads E d (lit "/") (.dir (lit "/"))
  | dir {p : Str} : p ≠ lit "/" → E.Off p → d.user p = .dir ∨ d.user p = .emptyDir → Leads E d p (.dir p)
  | mount {i : UID} {m : MDir} {c : Content} : d.mdir i.base32 = some m → m.merged = some c → Leads E d (E.mountPath i.base32) (.mount i)
  | link {p t : Str} {l : Place} : p ≠ lit "/" → E.Off p → d.user p = .link t → Leads E d t l → Leads E d p l

/-- `os.Getwd` of a process in the directory `l`: `$PWD` if it is an absolute path to this directory, else the real path (os.Getwd
of the Go library). -/
def Getwd (E : Env) (d : Disk) (pwd : Option Str) (l : Place) (a : Str) : Prop :=
  (∃ q, pwd = some q ∧ Path.isAbs q = true ∧ Leads E d q l ∧ a = q) ∨
  ((∀ q, pwd = some q → Path.isAbs q = true → ¬ Leads E d q l) ∧ a = l.path E)

/-- `ChangeWorkingDirectory` (pkg/utils/cmd/cmd_util.go:78-102) with a path that is not empty, when it succeeds: from the environment
`pwd` and the directory `l` to `pwd'` and `l'`. -/
def ChangesDir (E : Env) (d : Disk) (path : Str) (pwd : Option Str) (l : Place) (pwd' : Option Str) (l' : Place) : Prop :=
  ∃ cwd, Getwd E d pwd l cwd ∧ Leads E d (Path.abs cwd path) l' ∧ pwd' = some (Path.abs cwd path)

/-- What the model keeps of the process: where it is, and the path in the variable `pwd` of `Expand`
(pkg/workspaces/workspace.go:91) or `RemoveWorkspaceMount` (pkg/manager/manager_default.go:249). -/
structure Proc1 where
  cwd : Place
  saved : Str

/-- One call of a process with the environment variable `PWD = pwd`. `Step` says nothing about the answers to questions about paths
inside a mount; here those about the top of a mount that exists are given. -/
def StepAt (E : Env) (pwd : Option Str) : (c : Cmd) → Proc1 → Disk → c.Ans → Proc1 → Disk → Prop
  | .sys .getwd, s, d, a, s', d' => a = true ∧ d' = d ∧ s'.cwd = s.cwd ∧ Getwd E d pwd s.cwd s'.saved
  | .sys .chdirRoot, s, d, a, s', d' => a = true ∧ d' = d ∧ s' = ⟨.dir (lit "/"), s.saved⟩
  | .sys .chdirBack, s, d, a, s', d' => d' = d ∧
      ((a = true ∧ ∃ l, Leads E d s.saved l ∧ s' = ⟨l, s.saved⟩) ∨ (a = false ∧ (∀ l, ¬ Leads E d s.saved l) ∧ s' = s))
  | .umount n, s, d, a, s', d' => s' = s ∧ StepIn E (fun k => ∃ i, s.cwd = .mount i ∧ k = i.base32) (.umount n) d a d'
  | .isSymlink p, s, d, a, s', d' => s' = s ∧ Step E Faults.none (.isSymlink p) d a d' ∧ ∀ i : UID, p = E.mountPath i.base32 → a = false
  | .exists_ p, s, d, a, s', d' => s' = s ∧ Step E Faults.none (.exists_ p) d a d' ∧
      ∀ i : UID, p = E.mountPath i.base32 → (a = true ↔ ∃ m c, d.mdir i.base32 = some m ∧ m.merged = some c)
  | .remove p, s, d, a, s', d' => s' = s ∧ Step E Faults.none (.remove p) d a d' ∧
      ∀ i : UID, p = E.mountPath i.base32 → d.mnt i.base32 ≠ none → a = false ∧ d' = d
  | c, s, d, a, s', d' => s' = s ∧ Step E Faults.none c d a d'

/-- `ExecAt E pwd p s d a s' d'`: started as `s` on the disk `d`, the program `p` ends with `a` as `s'` and leaves `d'`. -/
inductive ExecAt {α : Type} (E : Env) (pwd : Option Str) : Prog α → Proc1 → Disk → α → Proc1 → Disk → Prop where
  | ret (a : α) (s : Proc1) (d : Disk) : ExecAt E pwd (.ret a) s d a s d
  | op {c : Cmd} {k : c.Ans → Prog α} {s s1 s2 : Proc1} {d d1 d2 : Disk} {x : c.Ans} {a : α} :
      StepAt E pwd c s d x s1 d1 → ExecAt E pwd (k x) s1 d1 a s2 d2 → ExecAt E pwd (.op c k) s d a s2 d2

section
variable {α β : Type} {E : Env} {pwd : Option Str}

theorem execAt_bind {p : Prog α} {g : α → Prog β} {s s' : Proc1} {d d' : Disk} {b : β} (h : ExecAt E pwd (p.bind g) s d b s' d') :
    ∃ a s1 d1, ExecAt E pwd p s d a s1 d1 ∧ ExecAt E pwd (g a) s1 d1 b s' d' := by
  induction p generalizing s d with
  | ret a => exact ⟨a, s, d, .ret a s d, h⟩
  | op c k ih =>
    rw [Prog.bind] at h
    cases h with
    | op hs he =>
      obtain ⟨a, s1, d1, h1, h2⟩ := ih _ he
      exact ⟨a, s1, d1, .op hs h1, h2⟩

theorem execAt_trans {p : Prog α} {g : α → Prog β} {s s1 s' : Proc1} {d d1 d' : Disk} {a : α} {b : β} (h : ExecAt E pwd p s d a s1 d1)
    (h' : ExecAt E pwd (g a) s1 d1 b s' d') : ExecAt E pwd (p.bind g) s d b s' d' := by
  induction h with
  | ret a s d => exact h'
  | op hs _ ih => exact .op hs (ih h')

/-! ## Programs that do not look where they are -/

/-- The call neither moves the process nor depends on where it is, and no path comes to lead elsewhere by it. `A` holds of the paths
whose links it may read. -/
def Cmd.Calm (A : Str → Prop) : Cmd → Prop
  | .sys _ => False
  | .umount _ => False
  | .exists_ _ => False
  | .remove _ => False
  | .symlink _ _ => False
  | .lchown _ => False
  | .removeAllMount _ => False
  | .isEmptyDir _ => False
  | .isSymlink p => A p
  | .readlink p => A p
  | _ => True

/-- The program makes such calls only. -/
def CalmP (A : Str → Prop) : Prog α → Prop
  | .ret _ => True
  | .op c k => c.Calm A ∧ ∀ x, CalmP A (k x)

variable {A : Str → Prop}

theorem stepAt_calm {c : Cmd} (h : c.Calm A) {s s' : Proc1} {d d' : Disk} {a : c.Ans} (hs : StepAt E pwd c s d a s' d') :
    s' = s ∧ Step E Faults.none c d a d' := by
  cases c with
  | isSymlink p => exact ⟨hs.1, hs.2.1⟩
  | sys _ => exact h.elim
  | umount _ => exact h.elim
  | exists_ _ => exact h.elim
  | remove _ => exact h.elim
  | _ => exact hs

theorem stepAt_of_calm (hA : ∀ p, ∀ i : UID, A p → p ≠ E.mountPath i.base32) {c : Cmd} (h : c.Calm A) {s : Proc1} {d d' : Disk} {a : c.Ans} (hs : Step E Faults.none c d a d') :
    StepAt E pwd c s d a s d' := by
  cases c with
  | isSymlink p => exact ⟨rfl, hs, fun n e => absurd e (hA p n h)⟩
  | sys _ => exact h.elim
  | umount _ => exact h.elim
  | exists_ _ => exact h.elim
  | remove _ => exact h.elim
  | _ => exact ⟨rfl, hs⟩

theorem execAt_calm {p : Prog α} (h : CalmP A p) {s s' : Proc1} {d d' : Disk} {a : α} (he : ExecAt E pwd p s d a s' d') :
    s' = s ∧ Exec E Faults.none p d a d' := by
  induction he with
  | ret a s d => exact ⟨rfl, .ret a d⟩
  | op hs _ ih =>
    obtain ⟨rfl, h1⟩ := stepAt_calm h.1 hs
    obtain ⟨rfl, h2⟩ := ih (h.2 _)
    exact ⟨rfl, .op h1 h2⟩

theorem execAt_of_calm (hA : ∀ p, ∀ i : UID, A p → p ≠ E.mountPath i.base32) {p : Prog α} (h : CalmP A p) {s : Proc1} {d d' : Disk} {a : α} (he : Exec E Faults.none p d a d') :
    ExecAt E pwd p s d a s d' := by
  induction he with
  | ret a d => exact .ret a _ d
  | op hs _ ih => exact .op (stepAt_of_calm hA h.1 hs) (ih (h.2 _))

/-- The same for a program that may fail. -/
def Calms (A : Str → Prop) (x : M α) : Prop := CalmP (α := Res CErr α) A x

theorem calms_bind {x : M α} {g : α → M β} (h : Calms A x) (h' : ∀ a, Calms A (g a)) : Calms A (x >>= g : M β) := by
  have key : ∀ {p : Prog (Res CErr α)} {q : Res CErr α → Prog (Res CErr β)}, CalmP A p → (∀ a, CalmP A (q a)) → CalmP A (p.bind q) := by
    intro p q hp hq
    induction p with
    | ret a => exact hq a
    | op c k ih => exact ⟨hp.1, fun x => ih x (hp.2 x)⟩
  refine key h fun r => ?_
  cases r with
  | ok a => exact h' a
  | _ => trivial

theorem calms_pure {a : α} : Calms A (Pure.pure a : M α) := trivial
theorem calms_fail {e : CErr} : Calms A (M.fail e : M α) := trivial
theorem calms_ret {r : Res CErr α} : Calms A (Prog.ret r : M α) := trivial
theorem calms_lift {ε : Type} {g : ε → CErr} {r : Res ε α} : Calms A (M.lift g r : M α) := by cases r <;> trivial
theorem calms_need {b : Bool} {e : CErr} : Calms A (M.need b e) := by cases b <;> trivial
theorem calms_ask {c : Cmd} (h : c.Calm A) : Calms A (M.ask c) := ⟨h, fun _ => trivial⟩
theorem calms_must {c : Cmd} {g : c.Ans → Bool} {e : CErr} {m : Unit → M β} (h : c.Calm A) (hm : Calms A (m ())) :
    Calms A (M.ask c >>= fun x => M.need (g x) e >>= m : M β) :=
  calms_bind (calms_ask h) fun _ => calms_bind calms_need fun _ => hm
theorem calms_last {c : Cmd} {g : c.Ans → Bool} {e : CErr} (h : c.Calm A) : Calms A (M.ask c >>= fun x => M.need (g x) e : M Unit) :=
  calms_bind (calms_ask h) fun _ => calms_need

theorem layerCreate_calms : Calms A layerCreate := by
  unfold layerCreate
  refine calms_bind (calms_ask trivial) fun u => calms_must trivial (calms_bind (calms_ask trivial) fun b => ?_)
  split
  · exact calms_pure
  · exact calms_must trivial calms_pure

theorem createLayer_calms (s : TS) (base : UID) : Calms A (createLayer s base) := by
  unfold createLayer
  split
  · exact calms_fail
  · exact calms_bind layerCreate_calms fun u => calms_bind calms_lift fun _ => calms_pure

theorem layerChain_calms (heap : List NodeObj) : ∀ (n : Nat) (r : Option Ref), Calms A (layerChain heap n r)
  | n, none => by cases n <;> exact calms_pure
  | 0, some _ => calms_ret
  | n + 1, some r => by
    rw [layerChain]
    split
    · exact calms_ret
    · exact calms_must trivial (calms_bind (layerChain_calms heap n _) fun _ => calms_pure)

theorem createMount_calms (s : TS) (u : UID) : Calms A (createMount s u) := by
  unfold createMount
  refine calms_bind (calms_ask trivial) fun m => calms_must trivial ?_
  unfold spaceCreateMount
  refine calms_bind (createLayer_calms s u) fun x => calms_bind (layerChain_calms _ _ _) fun l => ?_
  split
  · exact calms_pure
  · exact calms_fail

theorem saveAll_calms (E : Env) (w : OpenWs) : Calms A (saveAll E w) := by
  unfold saveAll spaceSave saveInfo
  refine calms_bind (calms_bind (calms_ask trivial) fun b => calms_must trivial (calms_last trivial)) fun _ => calms_bind ?_ fun _ => calms_pure
  split
  · exact calms_ret
  · exact calms_must trivial (calms_last trivial)

theorem mountP_calms (m : MountObj) : Calms A (mountP m) := by
  unfold mountP
  split
  · exact calms_fail
  · refine calms_bind (calms_ask trivial) fun b => ?_
    have tail : ∀ l : Mnt, Calms A (do
        need (← ask (.mountOverlay m.dir l.upper l.lowers)) .mount
        need (← ask (.chownMerged m.dir)) .mount : M Unit) := fun l => calms_must trivial (calms_last trivial)
    have middle : ∀ l : Mnt, Calms A (do
        if !(← ask (.isDirWork m.dir)) then
          need (okMkdir (← ask (.mkdirWork m.dir))) .mount
        need (← ask (.mountOverlay m.dir l.upper l.lowers)) .mount
        need (← ask (.chownMerged m.dir)) .mount : M Unit) := fun l => by
      refine calms_bind (calms_ask trivial) fun b => ?_
      split
      · exact calms_bind (calms_ask trivial) fun _ => calms_bind calms_need fun _ => tail l
      · exact tail l
    split
    · exact calms_bind (calms_ask trivial) fun _ => calms_bind calms_need fun _ => middle _
    · exact middle _

theorem getWorkspace_calms (E : Env) (cwd path : Str) (h : A (Path.abs cwd path)) : Calms A (getWorkspace E cwd path) := by
  unfold getWorkspace
  refine calms_bind ?_ fun link => calms_bind calms_lift fun m => calms_bind ?_ fun i => calms_bind calms_lift fun wid => calms_bind calms_lift fun sid =>
    calms_bind (calms_ask trivial) fun t => calms_bind calms_lift fun s => calms_bind calms_lift fun h => ?_
  · unfold linkOf
    refine calms_bind (calms_ask h) fun b => ?_
    split
    · refine calms_bind (calms_ask h) fun t => ?_
      split
      · exact calms_pure
      · exact calms_fail
    · exact calms_pure
  · unfold loadInfo
    refine calms_bind (calms_ask trivial) fun r => ?_
    split
    · exact calms_lift
    · exact calms_fail
  · split
    · exact calms_fail
    · exact calms_pure

theorem commitP_calms (E : Env) (w : OpenWs) (ci : CommitInfo) : Calms A (commitP E w ci) := by
  unfold commitP
  split
  · exact calms_ret
  split
  · exact calms_ret
  refine calms_bind (createMount_calms _ _) fun x => calms_bind ?_ fun s3 => saveAll_calms E _
  unfold moveBranch
  split
  · exact calms_bind calms_lift fun _ => calms_lift
  · exact calms_pure

theorem checkoutP_calms (E : Env) (w : OpenWs) (key : Str) : Calms A (checkoutP E w key) := by
  unfold checkoutP
  refine calms_bind calms_lift fun x => ?_
  split
  · exact calms_fail
  · split
    · exact calms_ret
    · exact calms_bind (createMount_calms _ _) fun x => saveAll_calms E _


/-! ## Where paths lead -/

/-- Every path that led somewhere still leads there: no entry of the user changed, and no mount point is gone. -/
def Beholds (d d' : Disk) : Prop :=
  d'.user = d.user ∧ ∀ n m c, d.mdir n = some m → m.merged = some c → ∃ m' c', d'.mdir n = some m' ∧ m'.merged = some c'

theorem sees_refl (d : Disk) : Beholds d d := ⟨rfl, fun _ m c h h' => ⟨m, c, h, h'⟩⟩

theorem sees_trans {d d1 d2 : Disk} (h : Beholds d d1) (h' : Beholds d1 d2) : Beholds d d2 :=
  ⟨h'.1.trans h.1, fun n m c h1 h2 => by obtain ⟨m', c', h3, h4⟩ := h.2 n m c h1 h2; exact h'.2 n m' c' h3 h4⟩

theorem sees_eq {d d' : Disk} (h : d'.user = d.user) (h' : d'.mdir = d.mdir) : Beholds d d' := ⟨h, fun _ m c h1 h2 => ⟨m, c, by rw [h']; exact h1, h2⟩⟩

theorem sees_mdir {d : Disk} {n : Str} {m' : MDir} (h : ∀ m c, d.mdir n = some m → m.merged = some c → m'.merged ≠ none) :
    Beholds d (d.setMdir n (some m')) := by
  refine ⟨rfl, fun k m c h1 h2 => ?_⟩
  by_cases e : k = n
  · subst e
    obtain ⟨c', hc'⟩ := Option.ne_none_iff_exists'.1 (h m c h1 h2)
    exact ⟨m', c', upd_self _ _ _, hc'⟩
  · exact ⟨m, c, (upd_ne _ _ e).trans h1, h2⟩

theorem leads_sees {d d' : Disk} (h : Beholds d d') {p : Str} {l : Place} (hl : Leads E d p l) : Leads E d' p l := by
  induction hl with
  | top => exact .top
  | dir h1 h2 h3 => exact .dir h1 h2 (by rw [h.1]; exact h3)
  | mount h1 h2 => obtain ⟨m', c', h3, h4⟩ := h.2 _ _ _ h1 h2; exact .mount h3 h4
  | link h1 h2 h3 _ ih => exact .link h1 h2 (by rw [h.1]; exact h3) ih

theorem step_sees {c : Cmd} (hc : c.Calm A) {d d' : Disk} {a : c.Ans} (h : Step E Faults.none c d a d') : Beholds d d' := by
  have hput : ∀ u x, Beholds d (d.put u x) := fun u x => sees_eq (put_rest d u x).2.2.2.2.1 (put_rest d u x).2.1
  have hdoes : ∀ {P : Prop} {d1 : Disk} {x : Bool}, (P → Beholds d d1) → Does Faults.none P d1 d x d' → Beholds d d' := by
    intro P d1 x h1 h2
    rcases h2 with ⟨_, hp, rfl⟩ | ⟨_, _, rfl⟩
    · exact h1 hp
    · exact sees_refl _
  cases c with
  | rand => obtain ⟨_, rfl⟩ := h; exact sees_eq rfl rfl
  | mkdirSpace n => exact hdoes (d1 := _) (fun _ => sees_eq (by rfl) (by rfl)) h
  | mkdirLayer n => exact hdoes (d1 := _) (fun _ => sees_eq (by rfl) (by rfl)) h
  | mkdirDiff n => exact hdoes (d1 := _) (fun _ => sees_eq (by rfl) (by rfl)) h
  | mkdirMount n => exact hdoes (fun hn => sees_mdir fun m c h1 _ => nomatch hn.symm.trans h1) h
  | sys n => exact hc.elim
  | truncInfo n => exact hdoes (d1 := _) (fun _ => sees_eq (by rfl) (by rfl)) h
  | truncTree n => exact hdoes (d1 := _) (fun _ => sees_eq (by rfl) (by rfl)) h
  | mkdirMerged n =>
    rcases h with ⟨_, m, hm, _, rfl⟩ | ⟨_, rfl, _⟩ | ⟨_, rfl, _⟩
    · exact sees_mdir fun _ _ _ _ => nofun
    all_goals exact sees_refl _
  | mkdirWork n =>
    rcases h with ⟨_, m, hm, _, rfl⟩ | ⟨_, rfl, _⟩ | ⟨_, rfl, _⟩
    · refine sees_mdir fun m' c h1 h2 => ?_
      cases hm.symm.trans h1
      simp [h2]
    all_goals exact sees_refl _
  | mountOverlay n u ls => exact hdoes (d1 := _) (fun _ => sees_eq (by rfl) (by rfl)) h
  | chownMerged n =>
    simp only [Step] at h
    split at h
    · exact hdoes (fun _ => hput _ _) h
    · split at h
      · exact hdoes (fun _ => sees_mdir fun _ _ _ _ => by simp) h
      · rw [h.2]; exact sees_refl _
  | remove p => exact hc.elim
  | symlink t p => exact hc.elim
  | lchown p =>
    rcases h with h | ⟨_, h⟩
    · exact hdoes (fun _ => sees_refl _) h.2
    · rcases h with rfl | ⟨_, _, _, _, _, rfl⟩
      · exact sees_refl _
      · exact hput _ _
  | umount n => exact hc.elim
  | removeAllMount n => exact hc.elim
  | removeInfo n => rcases h with ⟨_, _, rfl⟩ | ⟨_, _, rfl⟩ | ⟨_, _, rfl⟩ <;> exact sees_eq rfl rfl
  | writeInfo n b =>
    simp only [Step] at h
    split at h
    · rw [h.1]; exact sees_refl _
    · rcases h with ⟨_, rfl⟩ | ⟨_, _, _, _, rfl⟩ <;> exact sees_eq rfl rfl
  | writeTree n b =>
    simp only [Step] at h
    split at h
    · rcases h with ⟨_, rfl⟩ | ⟨_, _, _, _, rfl⟩ <;> exact sees_eq rfl rfl
    · rw [h.1]; exact sees_refl _
  | _ => obtain ⟨rfl, _⟩ := h; exact sees_refl _

theorem exec_sees {p : Prog α} (hp : CalmP A p) {d d' : Disk} {a : α} (h : Exec E Faults.none p d a d') : Beholds d d' := by
  induction h with
  | ret a d => exact sees_refl _
  | op hs _ ih => exact sees_trans (step_sees hp.1 hs) (ih (hp.2 _))

theorem comps_mountPath (i : UID) : Path.comps (E.mountPath i.base32) = Path.comps E.root ++ [lit "mounts", i.base32, lit "merged"] := by
  have hb32 := (C05_base32_decode_iff i.base32 i).1 (C02_base32_roundtrip i)
  refine Path.comps_render fun c hc => ?_
  rcases List.mem_append.1 hc with hc | hc
  · exact Path.comps_plain _ c hc
  · simp only [List.mem_cons, List.not_mem_nil, or_false] at hc
    rcases hc with rfl | rfl | rfl
    · exact ⟨by decide, by decide, by decide, by decide⟩
    · have hl := C02_base32_length i
      refine ⟨?_, ?_, ?_, ?_⟩
      · intro h; rw [h] at hl; cases hl
      · intro h; rw [h] at hl; cases hl
      · intro h; rw [h] at hl; cases hl
      · intro h; exact absurd (hb32.2.1 _ h) (by decide)
    · exact ⟨by decide, by decide, by decide, by decide⟩

theorem off_ne {p : Str} (h : E.Off p) (i : UID) : p ≠ E.mountPath i.base32 := by
  rintro rfl
  exact h i.base32 ⟨[], by rw [comps_mountPath, List.append_nil]⟩

theorem mountPath_ne_root (i : UID) : E.mountPath i.base32 ≠ lit "/" := by
  intro h
  have := congrArg Path.comps h
  rw [comps_mountPath] at this
  exact absurd (congrArg List.length this) (by simp [show Path.comps (lit "/") = [] by decide])

/-- A path that leads somewhere still does so after one path was replaced by a link to a mount point. -/
theorem leads_replaced {d d' : Disk} {path : Str} {i : UID} {m : MDir} {c : Content} (hoff : E.Off path) (hu : d'.user = upd d.user path (.link (E.mountPath i.base32)))
    (hd : ∀ n m c, d.mdir n = some m → m.merged = some c → ∃ m' c', d'.mdir n = some m' ∧ m'.merged = some c') (h1 : d'.mdir i.base32 = some m) (h2 : m.merged = some c)
    {p : Str} {l : Place} (hl : Leads E d p l) : ∃ l', Leads E d' p l' := by
  have hself : ∀ q, q ≠ lit "/" → q = path → ∃ l', Leads E d' q l' := by
    rintro q hq rfl
    exact ⟨_, .link hq hoff (by rw [hu]; exact upd_self _ _ _) (.mount h1 h2)⟩
  induction hl with
  | top => exact ⟨_, .top⟩
  | @dir q h3 h4 h5 =>
    by_cases e : q = path
    · exact hself q h3 e
    · exact ⟨_, .dir h3 h4 (by rw [hu, upd_ne _ _ e]; exact h5)⟩
  | mount h3 h4 => obtain ⟨m', c', h5, h6⟩ := hd _ _ _ h3 h4; exact ⟨_, .mount h5 h6⟩
  | @link q t l h3 h4 h5 _ ih =>
    by_cases e : q = path
    · exact hself q h3 e
    · obtain ⟨l', ih⟩ := ih
      exact ⟨l', .link h3 h4 (by rw [hu, upd_ne _ _ e]; exact h5) ih⟩

/-- A path that is a link to a mount point leads nowhere else. -/
theorem leads_only {d : Disk} {p : Str} {i : UID} (hp : E.Off p) (h0 : p ≠ lit "/") (hu : d.user p = .link (E.mountPath i.base32)) {l : Place} (h : Leads E d p l) : l = .mount i := by
  have hm : ∀ {q : Str} {l : Place}, Leads E d q l → q = E.mountPath i.base32 → l = .mount i := by
    intro q l hl e
    cases hl with
    | top => exact absurd e.symm (mountPath_ne_root i)
    | dir _ h => exact absurd e (off_ne h i)
    | mount _ _ => rw [base32_inj (mountPath_inj e)]
    | link _ h => exact absurd e (off_ne h i)
  generalize hq : p = q at h
  cases h with
  | top => exact absurd hq h0
  | dir _ _ h => subst hq; rw [hu] at h; rcases h with h | h <;> cases h
  | mount _ _ => exact absurd hq (off_ne hp _)
  | link _ _ h h' => subst hq; rw [hu] at h; cases h; exact hm h' rfl

/-! ## Expanding a workspace and removing a mount -/

/-- After a successful `Mount` its mount point exists. -/
theorem mountP_merged {m : MountObj} {d d' : Disk} (h : Exec E Faults.none (mountP m) d (.ok ()) d') : ∃ x c, d'.mdir m.dir = some x ∧ x.merged = some c := by
  suffices hw : wpm E Faults.none (fun _ => True) (mountP m) (fun _ d' => ∃ x c, d'.mdir m.dir = some x ∧ x.merged = some c) (fun _ _ => True) d from wpm_exec_ok hw h
  unfold mountP
  split
  · exact wpm_fail trivial
  · rename_i l _
    have tail : ∀ d0, wpm E Faults.none (fun _ => True) (do
        need (← ask (.mountOverlay m.dir l.upper l.lowers)) .mount
        need (← ask (.chownMerged m.dir)) .mount : M Unit) (fun _ d' => ∃ x c, d'.mdir m.dir = some x ∧ x.merged = some c) (fun _ _ => True) d0 := by
      intro d0
      refine wpm_must fun a d1 h1 => ⟨trivial, fun ha => ?_, fun _ => trivial⟩
      rcases h1 with ⟨_, ⟨⟨x, c, hx, hc, _⟩, _⟩, rfl⟩ | ⟨hf, _⟩
      · refine wpm_bind (wpm_ask fun a d2 h2 => ⟨trivial, wpm_need (fun _ => ?_) fun _ => trivial⟩)
        obtain ⟨x', c', h3, h4⟩ := (step_sees (A := fun _ => True) (c := .chownMerged m.dir) trivial h2).2 m.dir x c hx hc
        exact ⟨x', c', h3, h4⟩
      · rw [hf] at ha; cases ha
    have middle : ∀ d0, wpm E Faults.none (fun _ => True) (do
        if !(← ask (.isDirWork m.dir)) then
          need (okMkdir (← ask (.mkdirWork m.dir))) .mount
        need (← ask (.mountOverlay m.dir l.upper l.lowers)) .mount
        need (← ask (.chownMerged m.dir)) .mount : M Unit) (fun _ d' => ∃ x c, d'.mdir m.dir = some x ∧ x.merged = some c) (fun _ _ => True) d0 := by
      intro d0
      refine wpm_call fun b d1 _ => ⟨trivial, ?_⟩
      split
      · exact wpm_call fun _ d2 _ => ⟨trivial, wpm_bind (wpm_need (fun _ => tail d2) fun _ => trivial)⟩
      · exact tail d1
    refine wpm_call fun b d1 _ => ⟨trivial, ?_⟩
    split
    · exact wpm_call fun _ d2 _ => ⟨trivial, wpm_bind (wpm_need (fun _ => middle d2) fun _ => trivial)⟩
    · exact middle d1

/-- With `PWD` the path of the working directory, `os.Getwd` answers it. -/
theorem getwd_pwd {d : Disk} {P a : Str} {l : Place} (hp : pwd = some P) (ha : Path.isAbs P = true) (hl : Leads E d P l) : Getwd E d pwd l a ↔ a = P := by
  constructor
  · rintro (⟨q, h1, _, _, rfl⟩ | ⟨h, _⟩)
    · exact Option.some.inj (h1.symm.trans hp)
    · exact absurd hl (h P hp ha)
  · rintro rfl
    exact Or.inl ⟨_, hp, ha, hl, rfl⟩

/-- `os.Getwd` has one answer. -/
theorem getwd_only {d : Disk} {P a : Str} {l : Place} (h : Getwd E d pwd l P) : Getwd E d pwd l a ↔ a = P := by
  constructor
  · intro h'
    rcases h with ⟨q, h1, h2, h3, rfl⟩ | ⟨h1, rfl⟩
    · exact (getwd_pwd h1 h2 h3).1 h'
    · rcases h' with ⟨q, g1, g2, g3, rfl⟩ | ⟨_, rfl⟩
      · exact absurd g3 (h1 _ g1 g2)
      · rfl
  · rintro rfl; exact h

/-- A mount point to which some path leads is there. -/
theorem leads_there {d : Disk} {p : Str} {l : Place} (h : Leads E d p l) : ∀ i, l = .mount i → ∃ m c, d.mdir i.base32 = some m ∧ m.merged = some c := by
  induction h with
  | top => exact fun i e => nomatch e
  | dir _ _ _ => exact fun i e => nomatch e
  | mount h1 h2 => rintro i ⟨⟩; exact ⟨_, _, h1, h2⟩
  | link _ _ _ _ ih => exact ih

/-- What leads to a directory that was there before led to it before. -/
theorem leads_back {d d1 : Disk} (h : Beholds d d1) {q p : Str} {l : Place} (hp : Leads E d p l) (hl : Leads E d1 q l) : Leads E d q l := by
  induction hl with
  | top => exact .top
  | dir h1 h2 h3 => exact .dir h1 h2 (by rw [← h.1]; exact h3)
  | @mount i _ _ h1 h2 => obtain ⟨m, c, h3, h4⟩ := leads_there hp i rfl; exact .mount h3 h4
  | link h1 h2 h3 _ ih => exact .link h1 h2 (by rw [← h.1]; exact h3) (ih hp)

theorem getwd_sees {d d1 : Disk} (h : Beholds d d1) {P : Str} {l : Place} (hl : Leads E d P l) (hw : Getwd E d pwd l P) : Getwd E d1 pwd l P := by
  rcases hw with ⟨q, h1, h2, h3, h4⟩ | ⟨h1, h2⟩
  · exact Or.inl ⟨q, h1, h2, leads_sees h h3, h4⟩
  · exact Or.inr ⟨fun q g1 g2 g3 => h1 q g1 g2 (leads_back h hl g3), h2⟩

/-- The end of `Expand`: the path is cleared and linked, and the process goes back. -/
def relink (E : Env) (w : OpenWs) : M Unit := do
  need (← ask (.sys .getwd)) .cwd
  need (← ask (.sys .chdirRoot)) .cwd
  if ← ask (.exists_ w.ws.path) then
    need (← ask (.remove w.ws.path)) .clearPath
  need (← ask (.symlink (E.mountPath w.mount.dir) w.ws.path)) .symlink
  need (← ask (.lchown w.ws.path)) .symlink
  need (← ask (.sys .chdirBack)) .cwd

theorem expand_eq (E : Env) (w : OpenWs) : expand E w = (mountP w.mount >>= fun _ => relink E w) := rfl

/-- A process that knows its working directory goes back to where that path leads now. -/
theorem relink_at {w : OpenWs} {s s' : Proc1} {d d' : Disk} {r : Res CErr Unit} {P : Str} {i : UID} {m : MDir} {c : Content} (hd : w.mount.dir = i.base32)
    (hoff : E.Off w.ws.path) (hw : Getwd E d pwd s.cwd P) (hl : Leads E d P s.cwd) (hm : d.mdir i.base32 = some m) (hc : m.merged = some c)
    (h : ExecAt E pwd (relink E w) s d r s' d') :
    Exec E Faults.none (relink E w) d r d' ∧ (r = .ok () → Leads E d' P s'.cwd) := by
  unfold relink at h ⊢
  cases h with | op h1 h =>
  obtain ⟨rfl, e1, hcwd, hg⟩ := h1
  obtain rfl := e1.symm
  rw [getwd_only hw] at hg
  cases h with | op h2 h =>
  obtain ⟨rfl, e2, rfl⟩ := h2
  obtain rfl := e2.symm
  have h0 : ∀ (k : Sys) (d : Disk), Step E Faults.none (.sys k) d true d := fun _ _ => Or.inl ⟨rfl, trivial, rfl⟩
  -- the rest, once the path is clear
  have tail : ∀ (q : Proc1) (d0 : Disk), q.saved = P → d0.mdir = d.mdir → (∀ e, upd d0.user w.ws.path e = upd d.user w.ws.path e) →
      ∀ {r s' d'}, ExecAt E pwd (do
        need (← ask (.symlink (E.mountPath w.mount.dir) w.ws.path)) .symlink
        need (← ask (.lchown w.ws.path)) .symlink
        need (← ask (.sys .chdirBack)) .cwd : M Unit) q d0 r s' d' →
      Exec E Faults.none (do
        need (← ask (.symlink (E.mountPath w.mount.dir) w.ws.path)) .symlink
        need (← ask (.lchown w.ws.path)) .symlink
        need (← ask (.sys .chdirBack)) .cwd : M Unit) d0 r d' ∧ (r = .ok () → Leads E d' P s'.cwd) := by
    intro q d0 hq hmd hus r s' d' h
    cases h with | op h3 h =>
    obtain ⟨rfl, h3⟩ := h3
    have h3' := h3
    rcases h3 with ⟨_, h3⟩ | ⟨h3, _⟩
    rotate_left
    · exact absurd h3 (off_not hoff)
    rcases h3 with ⟨rfl, _, rfl⟩ | ⟨rfl, _, rfl⟩
    rotate_left
    · cases h; exact ⟨.op h3' (.ret _ _), nofun⟩
    cases h with | op h4 h =>
    obtain ⟨rfl, h4⟩ := h4
    have h4' := h4
    rcases h4 with ⟨_, h4⟩ | ⟨h4, _⟩
    rotate_left
    · exact absurd h4 (off_not hoff)
    rcases h4 with ⟨rfl, _, rfl⟩ | ⟨rfl, _, rfl⟩
    rotate_left
    · cases h; exact ⟨.op h3' (.op h4' (.ret _ _)), nofun⟩
    have hlead : ∃ l', Leads E (d0.setUser w.ws.path (.link (E.mountPath w.mount.dir))) P l' :=
      leads_replaced (d := d) (d' := d0.setUser w.ws.path (.link (E.mountPath w.mount.dir))) (i := i) hoff (by rw [hd]; exact hus _)
        (fun n m c h1 h2 => ⟨m, c, (congrFun hmd n).trans h1, h2⟩) ((congrFun hmd _).trans hm) hc hl
    cases h with | op h5 h =>
    obtain ⟨rfl, ⟨rfl, l', h5, rfl⟩ | ⟨_, h5, _⟩⟩ := h5
    · cases h
      rw [hq] at h5
      exact ⟨.op h3' (.op h4' (.op (h0 _ _) (.ret _ _))), fun _ => h5⟩
    · obtain ⟨l', hl'⟩ := hlead
      rw [hq] at h5
      exact absurd hl' (h5 l')
  cases h with | @op _ _ _ _ _ _ _ _ x _ h3 h =>
  obtain ⟨rfl, h3, _⟩ := h3
  obtain rfl := h3.1.symm
  cases x with
  | false =>
    obtain ⟨h6, h7⟩ := tail ⟨.dir (lit "/"), _⟩ _ hg rfl (fun _ => rfl) h
    exact ⟨.op (h0 _ _) (.op (h0 _ _) (.op h3 h6)), h7⟩
  | true =>
    cases h with | op h4 h =>
    obtain ⟨rfl, h4, _⟩ := h4
    have h4' := h4
    rcases h4 with ⟨_, h4⟩ | ⟨h4, _⟩
    rotate_left
    · exact absurd h4 (off_not hoff)
    rcases h4 with ⟨rfl, _, rfl⟩ | ⟨rfl, _, rfl⟩
    · obtain ⟨h6, h7⟩ := tail ⟨.dir (lit "/"), _⟩ (d.setUser w.ws.path .none) hg rfl (fun e => upd_upd _ _ _ _) h
      exact ⟨.op (h0 _ _) (.op (h0 _ _) (.op h3 (.op h4' h6))), h7⟩
    · cases h
      exact ⟨.op (h0 _ _) (.op (h0 _ _) (.op h3 (.op h4' (.ret _ _)))), nofun⟩

/-- Every run of it is one that such a process can make. -/
theorem relink_run {w : OpenWs} {s : Proc1} {d d' : Disk} {r : Res CErr Unit} {P : Str} {i : UID} {m : MDir} {c : Content} (hd : w.mount.dir = i.base32)
    (hoff : E.Off w.ws.path) (hw : Getwd E d pwd s.cwd P) (hl : Leads E d P s.cwd) (hm : d.mdir i.base32 = some m) (hc : m.merged = some c)
    (h : Exec E Faults.none (relink E w) d r d') : ∃ s', ExecAt E pwd (relink E w) s d r s' d' := by
  unfold relink at h ⊢
  have hsys : ∀ {k : Sys} {d d1 : Disk} {a : Bool}, Step E Faults.none (.sys k) d a d1 → a = true ∧ d1 = d := by
    rintro k d d1 a (⟨h1, _, h2⟩ | ⟨_, h1, _⟩)
    · exact ⟨h1, h2⟩
    · simp [Faults.none] at h1
  cases h with | op h1 h =>
  obtain ⟨rfl, e1⟩ := hsys h1
  obtain rfl := e1.symm
  cases h with | op h2 h =>
  obtain ⟨rfl, e2⟩ := hsys h2
  obtain rfl := e2.symm
  have g1 : StepAt E pwd (.sys .getwd) s d true ⟨s.cwd, P⟩ d := ⟨rfl, rfl, rfl, hw⟩
  have g2 : StepAt E pwd (.sys .chdirRoot) ⟨s.cwd, P⟩ d true ⟨.dir (lit "/"), P⟩ d := ⟨rfl, rfl, rfl⟩
  have tail : ∀ (d0 : Disk), d0.mdir = d.mdir → (∀ e, upd d0.user w.ws.path e = upd d.user w.ws.path e) →
      ∀ {r d'}, Exec E Faults.none (do
        need (← ask (.symlink (E.mountPath w.mount.dir) w.ws.path)) .symlink
        need (← ask (.lchown w.ws.path)) .symlink
        need (← ask (.sys .chdirBack)) .cwd : M Unit) d0 r d' →
      ∃ s', ExecAt E pwd (do
        need (← ask (.symlink (E.mountPath w.mount.dir) w.ws.path)) .symlink
        need (← ask (.lchown w.ws.path)) .symlink
        need (← ask (.sys .chdirBack)) .cwd : M Unit) ⟨.dir (lit "/"), P⟩ d0 r s' d' := by
    intro d0 hmd hus r d' h
    cases h with | op h3 h =>
    have h3' := h3
    rcases h3 with ⟨_, h3⟩ | ⟨h3, _⟩
    rotate_left
    · exact absurd h3 (off_not hoff)
    rcases h3 with ⟨rfl, _, rfl⟩ | ⟨rfl, _, rfl⟩
    rotate_left
    · cases h; exact ⟨_, .op ⟨rfl, h3'⟩ (.ret _ _ _)⟩
    cases h with | op h4 h =>
    have h4' := h4
    rcases h4 with ⟨_, h4⟩ | ⟨h4, _⟩
    rotate_left
    · exact absurd h4 (off_not hoff)
    rcases h4 with ⟨rfl, _, rfl⟩ | ⟨rfl, _, rfl⟩
    rotate_left
    · cases h; exact ⟨_, .op ⟨rfl, h3'⟩ (.op ⟨rfl, h4'⟩ (.ret _ _ _))⟩
    obtain ⟨l', hl'⟩ : ∃ l', Leads E (d0.setUser w.ws.path (.link (E.mountPath w.mount.dir))) P l' :=
      leads_replaced (d := d) (d' := d0.setUser w.ws.path (.link (E.mountPath w.mount.dir))) (i := i) hoff (by rw [hd]; exact hus _)
        (fun n m c h1 h2 => ⟨m, c, (congrFun hmd n).trans h1, h2⟩) ((congrFun hmd _).trans hm) hc hl
    cases h with | op h5 h =>
    obtain ⟨rfl, rfl⟩ := hsys h5
    cases h
    exact ⟨_, .op ⟨rfl, h3'⟩ (.op ⟨rfl, h4'⟩ (.op (s1 := ⟨l', P⟩) ⟨rfl, Or.inl ⟨rfl, l', hl', rfl⟩⟩ (.ret _ _ _)))⟩
  cases h with | @op _ _ _ _ _ x _ h3 h =>
  obtain rfl := h3.1.symm
  have g3 : StepAt E pwd (.exists_ w.ws.path) ⟨.dir (lit "/"), P⟩ d x ⟨.dir (lit "/"), P⟩ d := ⟨rfl, h3, fun j e => absurd e (off_ne hoff j)⟩
  cases x with
  | false =>
    obtain ⟨s', h6⟩ := tail d rfl (fun _ => rfl) h
    exact ⟨s', .op g1 (.op g2 (.op g3 h6))⟩
  | true =>
    cases h with | @op _ _ _ d4 _ x _ h4 h =>
    have g4 : StepAt E pwd (.remove w.ws.path) ⟨.dir (lit "/"), P⟩ d x ⟨.dir (lit "/"), P⟩ d4 := ⟨rfl, h4, fun j e => absurd e (off_ne hoff j)⟩
    rcases h4 with ⟨_, h4⟩ | ⟨h4, _⟩
    rotate_left
    · exact absurd h4 (off_not hoff)
    rcases h4 with ⟨rfl, _, rfl⟩ | ⟨rfl, _, rfl⟩
    · obtain ⟨s', h6⟩ := tail (d.setUser w.ws.path .none) rfl (fun e => upd_upd _ _ _ _) h
      exact ⟨s', .op g1 (.op g2 (.op g3 (.op g4 h6)))⟩
    · cases h
      exact ⟨_, .op g1 (.op g2 (.op g3 (.op g4 (.ret _ _ _))))⟩

/-- The runs of `Expand` by a process that knows its working directory are those without faults, and it goes back to where its
path leads then. -/
theorem expand_at {w : OpenWs} {s s' : Proc1} {d d' : Disk} {r : Res CErr Unit} {P : Str} {i : UID} (hd : w.mount.dir = i.base32)
    (hoff : E.Off w.ws.path) (hw : Getwd E d pwd s.cwd P) (hl : Leads E d P s.cwd) (h : ExecAt E pwd (expand E w) s d r s' d') :
    Exec E Faults.none (expand E w) d r d' ∧ (r = .ok () → Leads E d' P s'.cwd) := by
  rw [expand_eq] at h ⊢
  obtain ⟨q, s1, d1, h1, h2⟩ := execAt_bind h
  obtain ⟨rfl, k1⟩ := execAt_calm (A := fun _ => True) (mountP_calms _) h1
  cases q with
  | ok a =>
    obtain ⟨m, c, hm, hc⟩ := mountP_merged k1
    rw [hd] at hm
    obtain ⟨h3, h4⟩ := relink_at hd hoff (getwd_sees (exec_sees (A := fun _ => True) (mountP_calms _) k1) hl hw) (leads_sees (exec_sees (A := fun _ => True) (mountP_calms _) k1) hl) hm hc h2
    exact ⟨exec_ok k1 h3, h4⟩
  | _ => cases h2; exact ⟨exec_trans k1 (.ret _ _), nofun⟩

theorem expand_run {w : OpenWs} {s : Proc1} {d d' : Disk} {r : Res CErr Unit} {P : Str} {i : UID} (hd : w.mount.dir = i.base32)
    (hoff : E.Off w.ws.path) (hw : Getwd E d pwd s.cwd P) (hl : Leads E d P s.cwd) (h : Exec E Faults.none (expand E w) d r d') :
    ∃ s', ExecAt E pwd (expand E w) s d r s' d' := by
  rw [expand_eq] at h ⊢
  obtain ⟨q, d1, h1, h2⟩ := exec_bind h
  have g1 := execAt_of_calm (pwd := pwd) (s := s) (A := fun _ => False) (fun _ _ => False.elim) (mountP_calms _) h1
  cases q with
  | ok a =>
    obtain ⟨m, c, hm, hc⟩ := mountP_merged h1
    rw [hd] at hm
    obtain ⟨s', h3⟩ := relink_run hd hoff (getwd_sees (exec_sees (A := fun _ => True) (mountP_calms _) h1) hl hw) (leads_sees (exec_sees (A := fun _ => True) (mountP_calms _) h1) hl) hm hc h2
    exact ⟨s', execAt_trans g1 h3⟩
  | _ => cases h2; exact ⟨_, execAt_trans g1 (.ret _ _ _)⟩

/-- A process whose path is a link to another mount than the one to be removed: the removal succeeds, it is a run without faults,
and the process is in the mount its path leads to. -/
theorem removeMount_at {m : MountObj} {s s' : Proc1} {d d' : Disk} {r : Res CErr Unit} {P : Str} {i : UID} {x : MDir} {c : Content} (hm : m.dir = m.id.base32)
    (hw : Getwd E d pwd s.cwd P) (hl : Leads E d P s.cwd) (hoff : E.Off P) (h0 : P ≠ lit "/") (hu : d.user P = .link (E.mountPath i.base32))
    (hi : i.base32 ≠ m.id.base32) (hx : d.mdir i.base32 = some x) (hc : x.merged = some c) (h : ExecAt E pwd (removeMount m) s d r s' d') :
    Exec E Faults.none (removeMount m) d r d' ∧ s'.cwd = .mount i := by
  unfold removeMount at h ⊢
  have hsys : ∀ (k : Sys) (d : Disk), Step E Faults.none (.sys k) d true d := fun _ _ => Or.inl ⟨rfl, trivial, rfl⟩
  cases h with | op h1 h =>
  obtain ⟨rfl, e1, hcwd, hg⟩ := h1
  obtain rfl := e1.symm
  rw [getwd_only hw] at hg
  cases h with | op h2 h =>
  obtain ⟨rfl, e2, rfl⟩ := h2
  obtain rfl := e2.symm
  cases h with | @op _ _ _ s3 _ _ d3 _ a _ h3 h =>
  obtain ⟨rfl, h3⟩ := h3
  have h3' : Step E Faults.none (.umount m.dir) d a d3 := by
    rcases h3 with ⟨e1, e2, _, e3⟩ | ⟨e1, e2, e3 | ⟨_, e3, _⟩⟩
    · exact Or.inl ⟨e1, e2, e3⟩
    · exact Or.inr ⟨e1, e2, Or.inl e3⟩
    · cases e3
  have hn3 : d3.mnt m.id.base32 = none ∧ d3.user = d.user ∧ d3.mdir = d.mdir := by
    rw [hm] at h3
    rcases h3 with ⟨_, _, _, rfl⟩ | ⟨_, rfl, e3 | ⟨_, e3, _⟩⟩
    · exact ⟨upd_self _ _ _, rfl, rfl⟩
    · exact ⟨e3, rfl, rfl⟩
    · cases e3
  cases h with | op h4 h =>
  obtain ⟨rfl, h4⟩ := h4
  have h4' := h4
  simp only [Step, hn3.1] at h4
  rcases h4 with ⟨rfl, rfl⟩ | ⟨_, h4, _⟩
  rotate_left
  · cases h4
  cases h with | @op _ _ _ s5 _ _ d5 _ b _ h5 h =>
  obtain ⟨rfl, h5⟩ := h5
  have h5' := h5
  have hd5 : b ≠ .fail ∧ d5.user = d.user ∧ d5.mdir = upd d.mdir m.id.base32 none := by
    rcases h5 with ⟨rfl, _, rfl⟩ | ⟨rfl, _, rfl⟩ | ⟨_, h5, _⟩
    · exact ⟨nofun, hn3.2.1, by simp only [Disk.setInfo, Disk.setMdir, hn3.2.2]⟩
    · exact ⟨nofun, hn3.2.1, by simp only [Disk.setMdir, hn3.2.2]⟩
    · cases h5
  have hlead : Leads E d5 P (.mount i) := .link h0 hoff (by rw [hd5.2.1]; exact hu) (.mount (by rw [hd5.2.2, upd_ne _ _ hi]; exact hx) hc)
  have back : ∀ {q : Proc1} {r : Res CErr Unit} {s'}, q.saved = P → ExecAt E pwd (do need (← ask (.sys .chdirBack)) .cwd : M Unit) q d5 r s' d' →
      Exec E Faults.none (do need (← ask (.sys .chdirBack)) .cwd : M Unit) d5 r d' ∧ s'.cwd = .mount i := by
    intro q r s' hg h
    cases h with | op h6 h =>
    obtain ⟨rfl, ⟨rfl, l', h6, rfl⟩ | ⟨_, h6, _⟩⟩ := h6
    · cases h
      rw [hg] at h6
      exact ⟨.op (hsys _ _) (.ret _ _), leads_only hoff h0 (by rw [hd5.2.1]; exact hu) h6⟩
    · rw [hg] at h6
      exact absurd hlead (h6 _)
  cases b with
  | fail => exact absurd rfl hd5.1
  | _ =>
    obtain ⟨h7, h8⟩ := back (q := ⟨.dir (lit "/"), _⟩) hg h
    exact ⟨.op (hsys _ _) (.op (hsys _ _) (.op h3' (.op h4' (.op h5' h7)))), h8⟩

/-- There is such a run. -/
theorem removeMount_run_at {m : MountObj} {s : Proc1} {d : Disk} {P : Str} {i : UID} {x : MDir} {c : Content} (hm : m.dir = m.id.base32)
    (hw : Getwd E d pwd s.cwd P) (hl : Leads E d P s.cwd) (hoff : E.Off P) (h0 : P ≠ lit "/") (hu : d.user P = .link (E.mountPath i.base32))
    (hi : i.base32 ≠ m.id.base32) (hx : d.mdir i.base32 = some x) (hc : x.merged = some c) :
    ExecAt E pwd (removeMount m) s d (.ok ()) ⟨.mount i, P⟩ (removed m.id.base32 d) := by
  unfold removeMount
  refine .op (s1 := ⟨s.cwd, P⟩) (d1 := d) (x := true) ⟨rfl, rfl, rfl, hw⟩ ?_
  refine .op (c := .sys .chdirRoot) (s1 := ⟨.dir (lit "/"), P⟩) (d1 := d) (x := true) ⟨rfl, rfl, rfl⟩ ?_
  obtain ⟨a, ha⟩ : ∃ a, StepAt E pwd (.umount m.dir) ⟨.dir (lit "/"), P⟩ d a ⟨.dir (lit "/"), P⟩ (d.setMnt m.id.base32 none) := by
    rw [hm]
    by_cases e : d.mnt m.id.base32 = none
    · refine ⟨false, rfl, Or.inr ⟨rfl, ?_, Or.inl e⟩⟩
      simp only [Disk.setMnt]
      rw [show upd d.mnt m.id.base32 none = d.mnt from funext fun k => by
        by_cases ek : k = m.id.base32
        · rw [ek, upd_self]; exact e.symm
        · exact upd_ne _ _ ek]
    · exact ⟨true, rfl, Or.inl ⟨rfl, e, (fun ⟨_, h, _⟩ => nomatch h), rfl⟩⟩
  refine .op ha ?_
  refine .op (c := .removeAllMount m.id.base32) (s1 := ⟨.dir (lit "/"), P⟩) (d1 := (d.setMnt m.id.base32 none).setMdir m.id.base32 none) (x := true) ⟨rfl, ?_⟩ ?_
  · simp only [Step, Disk.setMnt, upd_self]
    exact Or.inl ⟨trivial, trivial⟩
  have hback : StepAt E pwd (.sys .chdirBack) ⟨.dir (lit "/"), P⟩ (removed m.id.base32 d) true ⟨.mount i, P⟩ (removed m.id.base32 d) :=
    ⟨rfl, Or.inl ⟨rfl, _, .link h0 hoff hu (.mount (by simp only [removed, Disk.setInfo, Disk.setMdir, upd_ne _ _ hi]; exact hx) hc), rfl⟩⟩
  by_cases e : d.info m.id.base32 = none
  · refine .op (c := .removeInfo m.id.base32) (s1 := ⟨.dir (lit "/"), P⟩) (d1 := removed m.id.base32 d) (x := .notExist) ⟨rfl, Or.inr (Or.inl ⟨rfl, e, ?_⟩)⟩ (.op hback (.ret _ _ _))
    simp only [removed, Disk.setInfo, Disk.setMdir, Disk.setMnt]
    rw [show upd d.info m.id.base32 none = d.info from funext fun k => by
      by_cases ek : k = m.id.base32
      · rw [ek, upd_self]; exact e.symm
      · exact upd_ne _ _ ek]
  · exact .op (c := .removeInfo m.id.base32) (s1 := ⟨.dir (lit "/"), P⟩) (d1 := removed m.id.base32 d) (x := .ok) ⟨rfl, Or.inl ⟨rfl, e, rfl⟩⟩ (.op hback (.ret _ _ _))

end
end Verif
