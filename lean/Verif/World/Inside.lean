import Verif.World.Mono
import Verif.World.After
/-!
# Processes that work inside a mount

The kernel refuses to unmount a file system while a process has its working directory or an open file in it, and only then.
Here nothing else goes wrong: `ExecIn E inside` are the runs of a program while processes work in the mounts `inside`. It
says more than `Faults.busy`, which only allows an unmount to fail.
-/
set_option autoImplicit false
namespace Verif
open M TS Json

/-- One call while processes work in the mounts `inside`: unmounting (pkg/mounts/mount_linux.go:47-49, `umount2` without flags)
works just if something is mounted there and nobody is in it; all other calls work as without faults. -/
def StepIn (E : Env) (inside : Str → Prop) : (c : Cmd) → Disk → c.Ans → Disk → Prop
  | .umount n, d, a, d' => (a = true ∧ d.mnt n ≠ none ∧ ¬ inside n ∧ d' = d.setMnt n none) ∨ (a = false ∧ d' = d ∧ (d.mnt n = none ∨ inside n))
  | c, d, a, d' => Step E Faults.none c d a d'

/-- `ExecIn E inside p d a d'`: run alone from `d` while processes work in the mounts `inside`, the program `p` ends with `a` and
leaves `d'`. -/
inductive ExecIn {α : Type} (E : Env) (inside : Str → Prop) : Prog α → Disk → α → Disk → Prop where
  | ret (a : α) (d : Disk) : ExecIn E inside (.ret a) d a d
  | op {c : Cmd} {k : c.Ans → Prog α} {d d1 d2 : Disk} {x : c.Ans} {a : α} :
      StepIn E inside c d x d1 → ExecIn E inside (k x) d1 a d2 → ExecIn E inside (.op c k) d a d2

/-- Nothing fails but unmounting. -/
def Faults.busyOnly : Faults := ⟨false, true, false⟩

section
variable {α β : Type} {E : Env} {inside : Str → Prop}

theorem none_le_busyOnly : Faults.none.Le Faults.busyOnly := ⟨nofun, nofun, nofun⟩

theorem stepIn_step {c : Cmd} {d d' : Disk} {a : c.Ans} (h : StepIn E inside c d a d') : Step E Faults.busyOnly c d a d' := by
  cases c with
  | umount n =>
    rcases h with ⟨h1, h2, _, h3⟩ | ⟨h1, h2, _⟩
    · exact Or.inl ⟨h1, h2, h3⟩
    · exact Or.inr ⟨h1, h2, Or.inr (Or.inl rfl)⟩
  | _ => exact step_mono none_le_busyOnly h

theorem execIn_exec {p : Prog α} {d d' : Disk} {a : α} (h : ExecIn E inside p d a d') : Exec E Faults.busyOnly p d a d' := by
  induction h with
  | ret a d => exact .ret a d
  | op hs _ ih => exact .op (stepIn_step hs) ih

theorem execIn_bind {p : Prog α} {g : α → Prog β} {d d' : Disk} {b : β} (h : ExecIn E inside (p.bind g) d b d') :
    ∃ a d1, ExecIn E inside p d a d1 ∧ ExecIn E inside (g a) d1 b d' := by
  induction p generalizing d with
  | ret a => exact ⟨a, d, .ret a d, h⟩
  | op c k ih =>
    rw [Prog.bind] at h
    cases h with
    | op hs he =>
      obtain ⟨a, d1, h1, h2⟩ := ih _ he
      exact ⟨a, d1, .op hs h1, h2⟩

theorem execIn_trans {p : Prog α} {g : α → Prog β} {d d1 d' : Disk} {a : α} {b : β} (h : ExecIn E inside p d a d1)
    (h' : ExecIn E inside (g a) d1 b d') : ExecIn E inside (p.bind g) d b d' := by
  induction h with
  | ret a d => exact h'
  | op hs _ ih => exact .op hs (ih h')

/-- While nobody works anywhere these are the runs without faults. -/
theorem execIn_free (hin : ∀ n, ¬ inside n) {p : Prog α} {d d' : Disk} {a : α} (h : Exec E Faults.none p d a d') : ExecIn E inside p d a d' := by
  induction h with
  | ret a d => exact .ret a d
  | @op c k d d1 d2 x a hs _ ih =>
    refine .op ?_ ih
    cases c with
    | umount n =>
      rcases hs with ⟨h1, h2, h3⟩ | ⟨h1, h2, h3⟩
      · exact Or.inl ⟨h1, h2, hin n, h3⟩
      · rcases h3 with h3 | h3 | h3
        · exact Or.inr ⟨h1, h2, Or.inl h3⟩
        all_goals cases h3
    | _ => exact hs

/-! ## Programs that do not unmount -/

/-- The call is not an unmount. -/
def Cmd.stable : Cmd → Bool
  | .umount _ => false
  | _ => true

/-- The program never unmounts. -/
def NoUmount : Prog α → Prop
  | .ret _ => True
  | .op c k => c.stable = true ∧ ∀ x, NoUmount (k x)

theorem stepIn_stable {c : Cmd} (h : c.stable = true) {d d' : Disk} {a : c.Ans} : StepIn E inside c d a d' ↔ Step E Faults.none c d a d' := by
  cases c <;> first | exact Iff.rfl | cases h

/-- For such a program it does not matter who works where. -/
theorem execIn_iff {p : Prog α} (h : NoUmount p) {d d' : Disk} {a : α} : ExecIn E inside p d a d' ↔ Exec E Faults.none p d a d' := by
  constructor
  · intro he
    induction he with
    | ret a d => exact .ret a d
    | op hs _ ih => exact .op ((stepIn_stable h.1).1 hs) (ih (h.2 _))
  · intro he
    induction he with
    | ret a d => exact .ret a d
    | op hs _ ih => exact .op ((stepIn_stable h.1).2 hs) (ih (h.2 _))

/-- The same for a program that may fail. -/
def Leaves (x : M α) : Prop := NoUmount (α := Res CErr α) x

theorem leaves_bind {x : M α} {g : α → M β} (h : Leaves x) (h' : ∀ a, Leaves (g a)) : Leaves (x >>= g : M β) := by
  have key : ∀ {p : Prog (Res CErr α)} {q : Res CErr α → Prog (Res CErr β)}, NoUmount p → (∀ a, NoUmount (q a)) → NoUmount (p.bind q) := by
    intro p q hp hq
    induction p with
    | ret a => exact hq a
    | op c k ih => exact ⟨hp.1, fun x => ih x (hp.2 x)⟩
  refine key h fun r => ?_
  cases r with
  | ok a => exact h' a
  | _ => trivial

theorem leaves_pure {a : α} : Leaves (Pure.pure a : M α) := trivial
theorem leaves_fail {e : CErr} : Leaves (M.fail e : M α) := trivial
theorem leaves_ret {r : Res CErr α} : Leaves (Prog.ret r : M α) := trivial
theorem leaves_lift {ε : Type} {g : ε → CErr} {r : Res ε α} : Leaves (M.lift g r : M α) := by cases r <;> trivial
theorem leaves_need {b : Bool} {e : CErr} : Leaves (M.need b e) := by cases b <;> trivial
theorem leaves_ask {c : Cmd} (h : c.stable = true) : Leaves (M.ask c) := ⟨h, fun _ => trivial⟩
theorem leaves_must {c : Cmd} {g : c.Ans → Bool} {e : CErr} {m : Unit → M β} (h : c.stable = true) (hm : Leaves (m ())) :
    Leaves (M.ask c >>= fun x => M.need (g x) e >>= m : M β) :=
  leaves_bind (leaves_ask h) fun _ => leaves_bind leaves_need fun _ => hm
theorem leaves_last {c : Cmd} {g : c.Ans → Bool} {e : CErr} (h : c.stable = true) : Leaves (M.ask c >>= fun x => M.need (g x) e : M Unit) :=
  leaves_bind (leaves_ask h) fun _ => leaves_need

theorem layerCreate_leaves : Leaves layerCreate := by
  unfold layerCreate
  refine leaves_bind (leaves_ask (by rfl)) fun u => leaves_must (by rfl) (leaves_bind (leaves_ask (by rfl)) fun b => ?_)
  split
  · exact leaves_pure
  · exact leaves_must (by rfl) leaves_pure

theorem createLayer_leaves (s : TS) (base : UID) : Leaves (createLayer s base) := by
  unfold createLayer
  split
  · exact leaves_fail
  · exact leaves_bind layerCreate_leaves fun u => leaves_bind leaves_lift fun _ => leaves_pure

theorem layerChain_leaves (heap : List NodeObj) : ∀ (n : Nat) (r : Option Ref), Leaves (layerChain heap n r)
  | n, none => by cases n <;> exact leaves_pure
  | 0, some _ => leaves_ret
  | n + 1, some r => by
    rw [layerChain]
    split
    · exact leaves_ret
    · exact leaves_must (by rfl) (leaves_bind (layerChain_leaves heap n _) fun _ => leaves_pure)

theorem createMount_leaves (s : TS) (u : UID) : Leaves (createMount s u) := by
  unfold createMount
  refine leaves_bind (leaves_ask (by rfl)) fun m => leaves_must (by rfl) ?_
  unfold spaceCreateMount
  refine leaves_bind (createLayer_leaves s u) fun x => leaves_bind (layerChain_leaves _ _ _) fun l => ?_
  split
  · exact leaves_pure
  · exact leaves_fail

theorem saveAll_leaves (E : Env) (w : OpenWs) : Leaves (saveAll E w) := by
  unfold saveAll spaceSave saveInfo
  refine leaves_bind (leaves_bind (leaves_ask (by rfl)) fun b => leaves_must (by rfl) (leaves_last (by rfl))) fun _ => leaves_bind ?_ fun _ => leaves_pure
  split
  · exact leaves_ret
  · exact leaves_must (by rfl) (leaves_last (by rfl))

theorem mountP_leaves (m : MountObj) : Leaves (mountP m) := by
  unfold mountP
  split
  · exact leaves_fail
  · refine leaves_bind (leaves_ask (by rfl)) fun b => ?_
    have tail : ∀ l : Mnt, Leaves (do
        need (← ask (.mountOverlay m.dir l.upper l.lowers)) .mount
        need (← ask (.chownMerged m.dir)) .mount : M Unit) := fun l => leaves_must (by rfl) (leaves_last (by rfl))
    have middle : ∀ l : Mnt, Leaves (do
        if !(← ask (.isDirWork m.dir)) then
          need (okMkdir (← ask (.mkdirWork m.dir))) .mount
        need (← ask (.mountOverlay m.dir l.upper l.lowers)) .mount
        need (← ask (.chownMerged m.dir)) .mount : M Unit) := fun l => by
      refine leaves_bind (leaves_ask (by rfl)) fun b => ?_
      split
      · exact leaves_bind (leaves_ask (by rfl)) fun _ => leaves_bind leaves_need fun _ => tail l
      · exact tail l
    split
    · exact leaves_bind (leaves_ask (by rfl)) fun _ => leaves_bind leaves_need fun _ => middle _
    · exact middle _

theorem expand_leaves (E : Env) (w : OpenWs) : Leaves (expand E w) := by
  unfold expand
  refine leaves_bind (mountP_leaves _) fun _ => leaves_must (by rfl) (leaves_must (by rfl) (leaves_bind (leaves_ask (by rfl)) fun b => ?_))
  have tail : Leaves (do
      need (← ask (.symlink (E.mountPath w.mount.dir) w.ws.path)) .symlink
      need (← ask (.lchown w.ws.path)) .symlink
      need (← ask (.sys .chdirBack)) .cwd : M Unit) :=
    leaves_must (by rfl) (leaves_must (by rfl) (leaves_last (by rfl)))
  split
  · exact leaves_must (by rfl) tail
  · exact tail

theorem getWorkspace_leaves (E : Env) (cwd path : Str) : Leaves (getWorkspace E cwd path) := by
  unfold getWorkspace
  refine leaves_bind ?_ fun link => leaves_bind leaves_lift fun m => leaves_bind ?_ fun i => leaves_bind leaves_lift fun wid => leaves_bind leaves_lift fun sid =>
    leaves_bind (leaves_ask (by rfl)) fun t => leaves_bind leaves_lift fun s => leaves_bind leaves_lift fun h => ?_
  · unfold linkOf
    refine leaves_bind (leaves_ask (by rfl)) fun b => ?_
    split
    · refine leaves_bind (leaves_ask (by rfl)) fun t => ?_
      split
      · exact leaves_pure
      · exact leaves_fail
    · exact leaves_pure
  · unfold loadInfo
    refine leaves_bind (leaves_ask (by rfl)) fun r => ?_
    split
    · exact leaves_lift
    · exact leaves_fail
  · split
    · exact leaves_fail
    · exact leaves_pure

theorem commitP_leaves (E : Env) (w : OpenWs) (ci : CommitInfo) : Leaves (commitP E w ci) := by
  unfold commitP
  split
  · exact leaves_ret
  split
  · exact leaves_ret
  refine leaves_bind (createMount_leaves _ _) fun x => leaves_bind ?_ fun s3 => saveAll_leaves E _
  unfold moveBranch
  split
  · exact leaves_bind leaves_lift fun _ => leaves_lift
  · exact leaves_pure

theorem checkoutP_leaves (E : Env) (w : OpenWs) (key : Str) : Leaves (checkoutP E w key) := by
  unfold checkoutP
  refine leaves_bind leaves_lift fun x => ?_
  split
  · exact leaves_fail
  · split
    · exact leaves_ret
    · exact leaves_bind (createMount_leaves _ _) fun x => saveAll_leaves E _

/-- Such a program ends no mount. -/
theorem step_mounts {c : Cmd} (hc : c.stable = true) {d d' : Disk} {a : c.Ans} (h : Step E Faults.none c d a d') :
    d'.mnt = d.mnt ∨ ∃ n m, d'.mnt = upd d.mnt n (some m) := by
  have hput : ∀ u x, (d.put u x).mnt = d.mnt := fun u x => (put_rest d u x).2.2.2.1
  have hdoes : ∀ {P : Prop} {d1 : Disk} {x : Bool}, d1.mnt = d.mnt → Does Faults.none P d1 d x d' → d'.mnt = d.mnt ∨ ∃ n m, d'.mnt = upd d.mnt n (some m) := by
    intro P d1 x h1 h2
    rcases h2 with ⟨_, _, rfl⟩ | ⟨_, _, rfl⟩
    · exact Or.inl h1
    · exact Or.inl rfl
  have hmed : ∀ {p : Str}, Meddles E p d d' → d'.mnt = d.mnt ∨ ∃ n m, d'.mnt = upd d.mnt n (some m) := by
    intro p h
    rcases h with rfl | ⟨_, _, _, _, _, rfl⟩
    · exact Or.inl rfl
    · exact Or.inl (hput _ _)
  cases c with
  | rand => obtain ⟨_, rfl⟩ := h; exact Or.inl rfl
  | mkdirSpace n => exact hdoes (by rfl) h
  | mkdirLayer n => exact hdoes (by rfl) h
  | mkdirDiff n => exact hdoes (by rfl) h
  | mkdirMount n => exact hdoes (by rfl) h
  | sys n => exact hdoes (by rfl) h
  | truncInfo n => exact hdoes (by rfl) h
  | truncTree n => exact hdoes (by rfl) h
  | mkdirMerged n => rcases h with ⟨_, m, hm, _, rfl⟩ | ⟨_, rfl, _⟩ | ⟨_, rfl, _⟩ <;> exact Or.inl rfl
  | mkdirWork n => rcases h with ⟨_, m, hm, _, rfl⟩ | ⟨_, rfl, _⟩ | ⟨_, rfl, _⟩ <;> exact Or.inl rfl
  | mountOverlay n u ls =>
    rcases h with ⟨_, _, rfl⟩ | ⟨_, _, rfl⟩
    · exact Or.inr ⟨n, _, rfl⟩
    · exact Or.inl rfl
  | chownMerged n =>
    simp only [Step] at h
    split at h
    · exact hdoes (hput _ _) h
    · split at h
      · exact hdoes (by rfl) h
      · exact Or.inl (by rw [h.2])
  | remove p => exact h.elim (fun h => hdoes (by rfl) h.2) fun h => hmed h.2
  | symlink t p => exact h.elim (fun h => hdoes (by rfl) h.2) fun h => hmed h.2
  | lchown p => exact h.elim (fun h => hdoes (by rfl) h.2) fun h => hmed h.2
  | umount n => cases hc
  | removeAllMount n =>
    simp only [Step] at h
    split at h
    · rcases h with ⟨_, rfl⟩ | ⟨_, _, _, _, _, rfl⟩ <;> exact Or.inl rfl
    · obtain ⟨_, c, w, _, rfl⟩ := h; exact Or.inl (hput _ _)
  | removeInfo n => rcases h with ⟨_, _, rfl⟩ | ⟨_, _, rfl⟩ | ⟨_, _, rfl⟩ <;> exact Or.inl rfl
  | writeInfo n b =>
    simp only [Step] at h
    split at h
    · exact Or.inl (by rw [h.1])
    · rcases h with ⟨_, rfl⟩ | ⟨_, _, _, _, rfl⟩ <;> exact Or.inl rfl
  | writeTree n b =>
    simp only [Step] at h
    split at h
    · rcases h with ⟨_, rfl⟩ | ⟨_, _, _, _, rfl⟩ <;> exact Or.inl rfl
    · exact Or.inl (by rw [h.1])
  | _ => obtain ⟨rfl, _⟩ := h; exact Or.inl rfl

theorem exec_mounts {p : Prog α} (hp : NoUmount p) {d d' : Disk} {a : α} (h : Exec E Faults.none p d a d') {n : Str} (hn : d.mnt n ≠ none) : d'.mnt n ≠ none := by
  induction h with
  | ret a d => exact hn
  | op hs _ ih =>
    refine ih (hp.2 _) ?_
    rcases step_mounts hp.1 hs with h | ⟨n', m, h⟩
    · rw [h]; exact hn
    · rw [h]
      by_cases e : n = n'
      · subst e; simp
      · rw [upd_ne _ _ e]; exact hn

/-! ## Replacing the mount of a workspace -/

/-- A program that does not unmount and then another one: either the first succeeds, or it ends the whole, which is then a run
without any faults. -/
theorem execIn_first {x : M α} {k : α → M β} (hx : Leaves x) {d d2 : Disk} {r : Res CErr β} (h : ExecIn E inside (M.bind x k) d r d2) :
    (∃ a d1, Exec E Faults.none x d (.ok a) d1 ∧ ExecIn E inside (k a) d1 r d2) ∨ (Exec E Faults.none (M.bind x k) d r d2 ∧ ∀ b, r ≠ .ok b) := by
  obtain ⟨q, d1, h1, h2⟩ := execIn_bind h
  have h1 := (execIn_iff hx).1 h1
  cases q with
  | ok a => exact Or.inl ⟨a, d1, h1, h2⟩
  | _ => cases h2; exact Or.inr ⟨exec_trans h1 (.ret _ _), nofun⟩

/-- The end of `RemoveWorkspaceMount`, after unmounting. -/
def removeRest (m : MountObj) : M Unit := do
  need (← ask (.removeAllMount m.id.base32)) .removeData
  match ← ask (.removeInfo m.id.base32) with
  | .fail => fail .removeInfo
  | _ => need (← ask (.sys .chdirBack)) .cwd

theorem removeRest_leaves (m : MountObj) : Leaves (removeRest m) := by
  unfold removeRest
  refine leaves_must (by rfl) (leaves_bind (leaves_ask (by rfl)) fun a => ?_)
  cases a with
  | fail => exact leaves_fail
  | _ => exact leaves_last (by rfl)

/-- `RemoveWorkspaceMount` comes to unmounting and goes on, whatever the answer. -/
theorem removeMount_in {m : MountObj} {d d' : Disk} {r : Res CErr Unit} (h : ExecIn E inside (removeMount m) d r d') :
    ∃ a d1, StepIn E inside (.umount m.dir) d a d1 ∧ Exec E Faults.none (removeRest m) d1 r d' := by
  unfold removeMount at h
  cases h with | op h1 h =>
  rcases h1 with ⟨rfl, -, rfl⟩ | ⟨rfl, h1, rfl⟩
  · cases h with | op h2 h =>
    rcases h2 with ⟨rfl, -, rfl⟩ | ⟨rfl, h2, rfl⟩
    · cases h with | op h3 h => exact ⟨_, _, h3, (execIn_iff (removeRest_leaves m)).1 h⟩
    · simp [Faults.none] at h2
  · simp [Faults.none] at h1

/-- The other way round. -/
theorem removeMount_run {m : MountObj} {d d1 d' : Disk} {a : Bool} {r : Res CErr Unit} (h : StepIn E inside (.umount m.dir) d a d1)
    (h' : Exec E Faults.none (removeRest m) d1 r d') : ExecIn E inside (removeMount m) d r d' := by
  refine .op (c := .sys .getwd) (x := true) (Or.inl ⟨rfl, trivial, rfl⟩) ?_
  refine .op (c := .sys .chdirRoot) (x := true) (Or.inl ⟨rfl, trivial, rfl⟩) ?_
  exact .op (c := .umount m.dir) (x := a) h ((execIn_iff (removeRest_leaves m)).2 h')

/-- While nobody is in the mount, it is removed. -/
theorem removeMount_out {m : MountObj} (hm : m.dir = m.id.base32) (hn : ¬ inside m.id.base32) {d d' : Disk} {r : Res CErr Unit}
    (h : ExecIn E inside (removeMount m) d r d') : r = .ok () ∧ d' = removed m.id.base32 d := by
  obtain ⟨a, d1, h1, h2⟩ := removeMount_in h
  have h0 : Exec E Faults.none (removeMount m) d r d' := by
    refine .op (c := .sys .getwd) (x := true) (Or.inl ⟨rfl, trivial, rfl⟩) ?_
    refine .op (c := .sys .chdirRoot) (x := true) (Or.inl ⟨rfl, trivial, rfl⟩) ?_
    refine .op (c := .umount m.dir) (x := a) (d1 := d1) ?_ h2
    rw [hm] at h1 ⊢
    rcases h1 with ⟨e1, e2, _, e3⟩ | ⟨e1, e2, e3 | e3⟩
    · exact Or.inl ⟨e1, e2, e3⟩
    · exact Or.inr ⟨e1, e2, Or.inl e3⟩
    · exact absurd e3 hn
  have := wpm_exec (removeMount_wp hm) h0
  cases r with
  | ok a => exact ⟨rfl, this⟩
  | err e => obtain ⟨_, _, h | h⟩ := this
             · cases h
             · cases h.1
  | panic => exact this.elim
  | diverge => exact this.elim

/-- While somebody is in the mount, everything it shows is deleted and the removal fails. -/
theorem removeMount_wipes {m : MountObj} (hm : m.dir = m.id.base32) (hn : inside m.id.base32) {d d' : Disk} {r : Res CErr Unit}
    (hd : d.mnt m.id.base32 ≠ none) (h : ExecIn E inside (removeMount m) d r d') :
    r = .err .removeData ∧ Wiped Faults.busyOnly m.id.base32 d d' := by
  obtain ⟨a, d1, h1, h2⟩ := removeMount_in h
  rw [hm] at h1
  obtain rfl : d1 = d := by
    rcases h1 with ⟨_, _, e, _⟩ | ⟨_, e, _⟩
    · exact absurd hn e
    · exact e
  obtain ⟨mt, hmt⟩ := Option.ne_none_iff_exists'.1 hd
  unfold removeRest at h2
  cases h2 with | op h3 h2 =>
  simp only [Step, hmt] at h3
  obtain ⟨rfl, c, wk, h4, rfl⟩ := h3
  cases h2
  exact ⟨rfl, rfl, mt, c, wk, hmt, fun _ x p => (h4 x p).resolve_right (fun h => nomatch h.1), rfl⟩

/-- There is such a run. -/
theorem removeMount_wiping {m : MountObj} (hm : m.dir = m.id.base32) (hn : inside m.id.base32) {d : Disk} (hd : d.mnt m.id.base32 ≠ none) :
    ∃ d', ExecIn E inside (removeMount m) d (.err .removeData) d' := by
  obtain ⟨mt, hmt⟩ := Option.ne_none_iff_exists'.1 hd
  refine ⟨_, removeMount_run (a := false) (by rw [hm]; exact Or.inr ⟨rfl, rfl, Or.inr hn⟩) (d' := (d.put mt.upper .hide).setMdir m.id.base32 ((d.mdir m.id.base32).map fun x => { x with work := true })) ?_⟩
  unfold removeRest
  refine .op (c := .removeAllMount m.id.base32) (x := false) ?_ (.ret _ _)
  simp only [Step, hmt]
  exact ⟨trivial, .hide, true, fun x p => Or.inl (view_hide _ x p), rfl⟩

/-- What `commit` and `checkout` do: open a workspace, make its successor, put it in its place and remove the old mount. -/
def replaceCmd (E : Env) (x : M OpenWs) (y : OpenWs → M OpenWs) : M (OpenWs × OpenWs) := do
  let w ← x
  let w' ← y w
  expand E w'
  removeMount w.mount
  return (w, w')

theorem commitCmd_eq (E : Env) (cwd : Str) (ci : CommitInfo) : commitCmd E cwd ci = replaceCmd E (getWorkspace E cwd (lit ".")) (commitP E · ci) := rfl
theorem checkoutCmd_eq (E : Env) (cwd key : Str) : checkoutCmd E cwd key = replaceCmd E (getWorkspace E cwd (lit ".")) (checkoutP E · key) := rfl

/-- Such a command comes to the removal, or it ends before that as if nobody were inside. -/
theorem replace_in {x : M OpenWs} {y : OpenWs → M OpenWs} (hx : Leaves x) (hy : ∀ w, Leaves (y w)) {d d' : Disk} {r : Res CErr (OpenWs × OpenWs)}
    (h : ExecIn E inside (replaceCmd E x y) d r d') :
    (∃ w w' d1 d2 d3 q, Exec E Faults.none x d (.ok w) d1 ∧ Exec E Faults.none (y w) d1 (.ok w') d2 ∧ Exec E Faults.none (expand E w') d2 (.ok ()) d3 ∧
      ExecIn E inside (removeMount w.mount) d3 q d' ∧ r = q.bind fun _ => .ok (w, w')) ∨
    (Exec E Faults.none (replaceCmd E x y) d r d' ∧ ∀ b, r ≠ .ok b) := by
  rcases execIn_first hx h with ⟨w, d1, h1, h⟩ | h
  rotate_left
  · exact Or.inr h
  rcases execIn_first (hy w) h with ⟨w', d2, h2, h⟩ | h
  rotate_left
  · exact Or.inr ⟨exec_ok h1 h.1, h.2⟩
  rcases execIn_first (expand_leaves E w') h with ⟨⟨⟩, d3, h3, h⟩ | h
  rotate_left
  · exact Or.inr ⟨exec_ok h1 (exec_ok h2 h.1), h.2⟩
  obtain ⟨q, d4, h4, h5⟩ := execIn_bind h
  cases q <;> cases h5 <;> exact Or.inl ⟨w, w', d1, d2, d3, _, h1, h2, h3, h4, rfl⟩

end
end Verif
