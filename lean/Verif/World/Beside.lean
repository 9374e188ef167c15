import Verif.World.After
import Verif.World.Reads
import Verif.World.Pool
/-!
# Listings beside another command

A command changes the history first, then the record of the new mount, then the link at the path of the workspace, and removes the
record of the old mount last. A listing reads in the other direction: the link, the record, the history. So what a listing reads
beside one such command was on disk at one moment.
-/
set_option autoImplicit false
namespace Verif
open M TS Json

section
variable {α β ι : Type} [DecidableEq ι]

/-! ## Programs at the same time, with the moments -/

/-- `Alongside F f ps d ms qs e`: the programs `ps` run at the same time from `d`, each with its own user and its own faults, and come
to `qs` when the disk is `e`. Between any two calls of one the others make any number of calls. `ms` are the states of the disk from
`d` to `e`, the last one first. -/
inductive Alongside (F : ι → Env) (f : ι → Faults) (ps : ι → Prog α) (d : Disk) : List Disk → (ι → Prog α) → Disk → Prop where
  | refl : Alongside F f ps d [d] ps d
  | step {ms : List Disk} {qs : ι → Prog α} {e e' : Disk} {i : ι} {c : Cmd} {k : c.Ans → Prog α} {x : c.Ans} :
      Alongside F f ps d ms qs e → qs i = .op c k → Step (F i) (f i) c e x e' → Alongside F f ps d (e' :: ms) (upd qs i (k x)) e'

/-! ## The order of the changes -/

/-- When a call comes among the changes of a command: 0 for the history, 1 for records, 2 for paths of the user, 3 for the removal of a
record. The other calls change none of these. -/
def Cmd.rank : Cmd → Option Nat
  | .mkdirSpace _ | .truncTree _ | .writeTree _ _ => some 0
  | .truncInfo _ | .writeInfo _ _ => some 1
  | .remove _ | .symlink _ _ | .lchown _ => some 2
  | .removeInfo _ => some 3
  | _ => none

/-- The rank after a call. -/
def Cmd.next (n : Nat) (c : Cmd) : Nat := c.rank.getD n

/-- Along every path through the program the ranks do not decrease, from `n` on, and `Q` holds for the last rank at the end. -/
def Phased (Q : α → Nat → Prop) : Prog α → Nat → Prop
  | .ret a, n => Q a n
  | .op c k, n => (∀ m, c.rank = some m → n ≤ m) ∧ ∀ x, Phased Q (k x) (c.next n)

theorem Phased.mono {Q R : α → Nat → Prop} (h : ∀ a n, Q a n → R a n) {p : Prog α} : ∀ {n : Nat}, Phased Q p n → Phased R p n := by
  induction p with
  | ret a => exact h a _
  | op c k ih => exact fun h' => ⟨h'.1, fun x => ih x (h'.2 x)⟩

theorem Phased.lower {Q : α → Nat → Prop} (hQ : ∀ a n m, m ≤ n → Q a n → Q a m) {p : Prog α} : ∀ {n m : Nat}, m ≤ n → Phased Q p n → Phased Q p m := by
  induction p with
  | ret a => exact fun h h' => hQ a _ _ h h'
  | op c k ih =>
    intro n m h h'
    refine ⟨fun j hj => Nat.le_trans h (h'.1 j hj), fun x => ?_⟩
    have := h'.2 x
    unfold Cmd.next at this ⊢
    cases hc : c.rank with
    | none => rw [hc] at this; exact ih x h this
    | some j => rw [hc] at this; exact this

theorem Phased.bind {Q : α → Nat → Prop} {R : β → Nat → Prop} {g : α → Prog β} {p : Prog α} :
    ∀ {n : Nat}, Phased Q p n → (∀ a m, Q a m → Phased R (g a) m) → Phased R (p.bind g) n := by
  induction p with
  | ret a => exact fun h h' => h' a _ h
  | op c k ih => exact fun h h' => ⟨h.1, fun x => ih x (h.2 x) h'⟩

/-- The rank is at most `n`. -/
def Upto (n : Nat) (_ : α) (m : Nat) : Prop := m ≤ n

/-- The changes of the program have the ranks from `n` to `m`. -/
def Ph (n m : Nat) (p : Prog α) : Prop := Phased (Upto m) p n

theorem Ph.bind {n m l : Nat} {x : M α} {g : α → M β} (h : Ph n m x) (hml : m ≤ l) (h' : ∀ a, Ph m l (g a)) : Ph n l (M.bind x g) := by
  refine Phased.bind h fun r j hj => ?_
  have low : ∀ (b : Res CErr β), Phased (Upto l) (Prog.ret b) j := fun b => Nat.le_trans hj hml
  cases r with
  | ok a => exact (h' a).lower (fun _ _ _ h1 h2 => Nat.le_trans h1 h2) hj
  | err e => exact low _
  | panic => exact low _
  | diverge => exact low _

theorem Ph.pure {n m : Nat} (h : n ≤ m) {a : α} : Ph n m (M.pure a) := h
theorem Ph.ret {n m : Nat} (h : n ≤ m) {a : α} : Ph n m (Prog.ret a) := h
theorem Ph.fail {n m : Nat} (h : n ≤ m) {e : CErr} : Ph n m (M.fail e : M α) := h
theorem Ph.lift {n m : Nat} (h : n ≤ m) {ε : Type} {g : ε → CErr} {r : Res ε α} : Ph n m (M.lift g r) := by
  cases r <;> exact h
theorem Ph.need {n m : Nat} (h : n ≤ m) {b : Bool} {e : CErr} : Ph n m (M.need b e) := by
  cases b <;> exact h
/-- A call that changes nothing of this. -/
theorem Ph.still {n m : Nat} (h : n ≤ m) {c : Cmd} (hc : c.rank = none) : Ph n m (M.ask c) :=
  ⟨fun j hj => (by rw [hc] at hj; cases hj), fun _ => by show c.next n ≤ m; rw [Cmd.next, hc]; exact h⟩
/-- A call that changes. -/
theorem Ph.ask {n m j : Nat} {c : Cmd} (hc : c.rank = some j) (h : n ≤ j) (h' : j ≤ m) : Ph n m (M.ask c) :=
  ⟨fun i hi => (by rw [hc] at hi; cases hi; exact h), fun _ => by show c.next n ≤ m; rw [Cmd.next, hc]; exact h'⟩

theorem Ph.lower {n n' m : Nat} {p : Prog α} (h : Ph n m p) (hn : n' ≤ n) : Ph n' m p := Phased.lower (fun _ _ _ h1 h2 => Nat.le_trans h1 h2) hn h

end

/-! ## The programs -/

variable {E : Env}

theorem layerCreate_ph (n : Nat) : Ph n n layerCreate := by
  unfold layerCreate
  refine Ph.bind (.still (Nat.le_refl _) rfl) (Nat.le_refl _) fun u => Ph.bind (.still (Nat.le_refl _) rfl) (Nat.le_refl _) fun a =>
    Ph.bind (.need (Nat.le_refl _)) (Nat.le_refl _) fun _ => Ph.bind (.still (Nat.le_refl _) rfl) (Nat.le_refl _) fun b => ?_
  cases b with
  | true => exact .pure (Nat.le_refl _)
  | false => exact Ph.bind (.still (Nat.le_refl _) rfl) (Nat.le_refl _) fun c => Ph.bind (.need (Nat.le_refl _)) (Nat.le_refl _) fun _ => .pure (Nat.le_refl _)

theorem spaceSave_ph (name : Str) (s : TS) : Ph 0 0 (spaceSave name s) :=
  Ph.bind (.still (Nat.le_refl _) rfl) (Nat.le_refl _) fun _ => Ph.bind (.ask rfl (Nat.le_refl _) (Nat.le_refl _)) (Nat.le_refl _) fun _ =>
    Ph.bind (.need (Nat.le_refl _)) (Nat.le_refl _) fun _ => Ph.bind (.ask rfl (Nat.le_refl _) (Nat.le_refl _)) (Nat.le_refl _) fun _ => .need (Nat.le_refl _)

theorem createLayer_ph (s : TS) (base : UID) (n : Nat) : Ph n n (createLayer s base) := by
  unfold createLayer
  split
  · exact .fail (Nat.le_refl _)
  · exact Ph.bind (layerCreate_ph n) (Nat.le_refl _) fun u => Ph.bind (.lift (Nat.le_refl _)) (Nat.le_refl _) fun _ => .pure (Nat.le_refl _)

theorem layerChain_ph (heap : List NodeObj) (n : Nat) : ∀ (fuel : Nat) (r : Option Ref), Ph n n (layerChain heap fuel r)
  | _, none => by rw [layerChain.eq_def]; exact .pure (Nat.le_refl _)
  | 0, some _ => by rw [layerChain]; exact .ret (Nat.le_refl _)
  | k + 1, some r => by
    rw [layerChain]
    split
    · exact .ret (Nat.le_refl _)
    · exact Ph.bind (.still (Nat.le_refl _) rfl) (Nat.le_refl _) fun _ => Ph.bind (.need (Nat.le_refl _)) (Nat.le_refl _) fun _ =>
        Ph.bind (layerChain_ph heap n k _) (Nat.le_refl _) fun _ => .pure (Nat.le_refl _)

theorem createMount_ph (s : TS) (c : UID) (n : Nat) : Ph n n (createMount s c) := by
  unfold createMount spaceCreateMount
  refine Ph.bind (.still (Nat.le_refl _) rfl) (Nat.le_refl _) fun m => Ph.bind (.still (Nat.le_refl _) rfl) (Nat.le_refl _) fun _ =>
    Ph.bind (.need (Nat.le_refl _)) (Nat.le_refl _) fun _ => Ph.bind (createLayer_ph s c n) (Nat.le_refl _) fun x =>
    Ph.bind (layerChain_ph _ n _ _) (Nat.le_refl _) fun l => ?_
  split
  · exact .pure (Nat.le_refl _)
  · exact .fail (Nat.le_refl _)

theorem saveInfo_ph (w : OpenWs) : Ph 0 1 (saveInfo E w) := by
  unfold saveInfo
  split
  · exact .ret (by decide)
  · exact Ph.bind (m := 1) (.ask rfl (by decide) (by decide)) (by decide) fun _ => Ph.bind (m := 1) (.need (by decide)) (by decide) fun _ =>
      Ph.bind (m := 1) (.ask rfl (by decide) (by decide)) (by decide) fun _ => .need (by decide)

theorem saveAll_ph (w : OpenWs) : Ph 0 1 (saveAll E w) :=
  Ph.bind (spaceSave_ph _ _) (by decide) fun _ => Ph.bind (m := 1) (saveInfo_ph w) (by decide) fun _ => .pure (by decide)

theorem createWorkspace_ph (path branch : Str) : Ph 0 1 (createWorkspace E path branch) := by
  unfold createWorkspace createSpace spaceInitP
  refine Ph.bind (m := 0) (Ph.bind (m := 0) (.still (Nat.le_refl _) rfl) (Nat.le_refl _) fun i => Ph.bind (m := 0) (.ask rfl (Nat.le_refl _) (Nat.le_refl _)) (Nat.le_refl _) fun _ =>
    Ph.bind (m := 0) (.need (Nat.le_refl _)) (Nat.le_refl _) fun _ => Ph.bind (m := 0) (Ph.bind (m := 0) (layerCreate_ph 0) (Nat.le_refl _) fun _ => .lift (Nat.le_refl _)) (Nat.le_refl _) fun _ =>
    .pure (Nat.le_refl _)) (by decide) fun x => ?_
  dsimp only
  split
  · exact .ret (by decide)
  · exact Ph.bind (createMount_ph _ _ 0) (by decide) fun _ => Ph.bind (m := 0) (.still (Nat.le_refl _) rfl) (by decide) fun _ =>
      Ph.bind (m := 0) (.lift (Nat.le_refl _)) (by decide) fun _ => saveAll_ph _

theorem commitP_ph (w : OpenWs) (ci : CommitInfo) : Ph 0 1 (commitP E w ci) := by
  unfold commitP
  split
  · exact .ret (by decide)
  · split
    · exact .ret (by decide)
    · refine Ph.bind (createMount_ph _ _ 0) (by decide) fun _ => Ph.bind (m := 0) ?_ (by decide) fun _ => saveAll_ph _
      unfold moveBranch
      split
      · exact Ph.bind (m := 0) (.lift (Nat.le_refl _)) (Nat.le_refl _) fun _ => .lift (Nat.le_refl _)
      · exact .pure (Nat.le_refl _)

theorem checkoutP_ph (w : OpenWs) (key : Str) : Ph 0 1 (checkoutP E w key) := by
  unfold checkoutP
  refine Ph.bind (m := 0) (.lift (Nat.le_refl _)) (by decide) fun r => ?_
  split
  · exact .fail (by decide)
  · split
    · exact .ret (by decide)
    · exact Ph.bind (createMount_ph _ _ 0) (by decide) fun _ => saveAll_ph _

theorem cloneP_ph (w : OpenWs) (target : Str) : Ph 0 1 (cloneP E w target) :=
  Ph.bind (m := 0) (.lift (Nat.le_refl _)) (by decide) fun _ => Ph.bind (createMount_ph _ _ 0) (by decide) fun _ =>
    Ph.bind (m := 0) (.still (Nat.le_refl _) rfl) (by decide) fun _ => saveAll_ph _

theorem mountP_ph (m : MountObj) (n : Nat) : Ph n n (mountP m) := by
  unfold mountP
  split
  · exact .fail (Nat.le_refl _)
  · have tail : ∀ l : Mnt, Ph n n (M.bind (M.ask (.mountOverlay m.dir l.upper l.lowers)) fun a => M.bind (M.need a .mount) fun _ =>
        M.bind (M.ask (.chownMerged m.dir)) fun b => M.need b .mount) := fun l =>
      Ph.bind (.still (Nat.le_refl _) rfl) (Nat.le_refl _) fun _ => Ph.bind (.need (Nat.le_refl _)) (Nat.le_refl _) fun _ =>
        Ph.bind (.still (Nat.le_refl _) rfl) (Nat.le_refl _) fun _ => .need (Nat.le_refl _)
    have work : ∀ l : Mnt, Ph n n (M.bind (M.ask (.isDirWork m.dir)) fun a => if (!a) = true then
        M.bind (M.ask (.mkdirWork m.dir)) fun a => M.bind (M.need (okMkdir a) .mount) fun _ => M.bind (M.ask (.mountOverlay m.dir l.upper l.lowers)) fun a => M.bind (M.need a .mount) fun _ =>
          M.bind (M.ask (.chownMerged m.dir)) fun b => M.need b .mount
        else M.bind (M.ask (.mountOverlay m.dir l.upper l.lowers)) fun a => M.bind (M.need a .mount) fun _ =>
          M.bind (M.ask (.chownMerged m.dir)) fun b => M.need b .mount) := fun l => by
      refine Ph.bind (.still (Nat.le_refl _) rfl) (Nat.le_refl _) fun a => ?_
      split
      · exact Ph.bind (.still (Nat.le_refl _) rfl) (Nat.le_refl _) fun _ => Ph.bind (.need (Nat.le_refl _)) (Nat.le_refl _) fun _ => tail l
      · exact tail l
    refine Ph.bind (.still (Nat.le_refl _) rfl) (Nat.le_refl _) fun a => ?_
    split
    · exact Ph.bind (.still (Nat.le_refl _) rfl) (Nat.le_refl _) fun _ => Ph.bind (.need (Nat.le_refl _)) (Nat.le_refl _) fun _ => work _
    · exact work _

theorem expand_ph (w : OpenWs) : Ph 1 2 (expand E w) := by
  unfold expand
  have tail : Ph 2 2 (M.bind (M.ask (.symlink (E.mountPath w.mount.dir) w.ws.path)) fun a => M.bind (M.need a .symlink) fun _ =>
      M.bind (M.ask (.lchown w.ws.path)) fun a => M.bind (M.need a .symlink) fun _ => M.bind (M.ask (.sys .chdirBack)) fun a => M.need a .cwd) :=
    Ph.bind (.ask rfl (Nat.le_refl _) (Nat.le_refl _)) (Nat.le_refl _) fun _ => Ph.bind (.need (Nat.le_refl _)) (Nat.le_refl _) fun _ =>
      Ph.bind (.ask rfl (Nat.le_refl _) (Nat.le_refl _)) (Nat.le_refl _) fun _ => Ph.bind (.need (Nat.le_refl _)) (Nat.le_refl _) fun _ =>
      Ph.bind (.still (Nat.le_refl _) rfl) (Nat.le_refl _) fun _ => .need (Nat.le_refl _)
  refine Ph.bind (mountP_ph _ 1) (by decide) fun _ => Ph.bind (m := 1) (.still (Nat.le_refl _) rfl) (by decide) fun _ => Ph.bind (m := 1) (.need (Nat.le_refl _)) (by decide) fun _ =>
    Ph.bind (m := 1) (.still (Nat.le_refl _) rfl) (by decide) fun _ => Ph.bind (m := 1) (.need (Nat.le_refl _)) (by decide) fun _ =>
    Ph.bind (m := 1) (.still (Nat.le_refl _) rfl) (by decide) fun a => ?_
  split
  · exact Ph.bind (m := 2) (.ask rfl (by decide) (by decide)) (by decide) fun _ => Ph.bind (m := 2) (.need (Nat.le_refl _)) (by decide) fun _ => tail
  · exact tail.lower (by decide)

theorem removeMount_ph (m : MountObj) : Ph 2 3 (removeMount m) := by
  unfold removeMount
  refine Ph.bind (m := 2) (.still (Nat.le_refl _) rfl) (by decide) fun _ => Ph.bind (m := 2) (.need (Nat.le_refl _)) (by decide) fun _ =>
    Ph.bind (m := 2) (.still (Nat.le_refl _) rfl) (by decide) fun _ => Ph.bind (m := 2) (.need (Nat.le_refl _)) (by decide) fun _ =>
    Ph.bind (m := 2) (.still (Nat.le_refl _) rfl) (by decide) fun _ => Ph.bind (m := 2) (.still (Nat.le_refl _) rfl) (by decide) fun _ =>
    Ph.bind (m := 2) (.need (Nat.le_refl _)) (by decide) fun _ => Ph.bind (m := 3) (.ask rfl (by decide) (by decide)) (by decide) fun a => ?_
  split
  · exact .fail (Nat.le_refl _)
  · exact Ph.bind (m := 3) (.still (Nat.le_refl _) rfl) (by decide) fun _ => .need (Nat.le_refl _)

theorem linkOf_ph (p : Str) (n : Nat) : Ph n n (linkOf p) := by
  unfold linkOf
  refine Ph.bind (.still (Nat.le_refl _) rfl) (Nat.le_refl _) fun a => ?_
  split
  · refine Ph.bind (.still (Nat.le_refl _) rfl) (Nat.le_refl _) fun t => ?_
    split
    · exact .pure (Nat.le_refl _)
    · exact .fail (Nat.le_refl _)
  · exact .pure (Nat.le_refl _)

theorem loadInfo_ph (m : UID) (n : Nat) : Ph n n (loadInfo m) := by
  unfold loadInfo
  refine Ph.bind (.still (Nat.le_refl _) rfl) (Nat.le_refl _) fun a => ?_
  split
  · exact .lift (Nat.le_refl _)
  · exact .fail (Nat.le_refl _)

theorem getWorkspace_ph (cwd path : Str) (n : Nat) : Ph n n (getWorkspace E cwd path) := by
  unfold getWorkspace
  refine Ph.bind (linkOf_ph _ n) (Nat.le_refl _) fun _ => Ph.bind (.lift (Nat.le_refl _)) (Nat.le_refl _) fun _ => Ph.bind (loadInfo_ph _ n) (Nat.le_refl _) fun _ =>
    Ph.bind (.lift (Nat.le_refl _)) (Nat.le_refl _) fun _ => Ph.bind (.lift (Nat.le_refl _)) (Nat.le_refl _) fun _ => Ph.bind (.still (Nat.le_refl _) rfl) (Nat.le_refl _) fun _ =>
    Ph.bind (.lift (Nat.le_refl _)) (Nat.le_refl _) fun _ => Ph.bind (.lift (Nat.le_refl _)) (Nat.le_refl _) fun _ => ?_
  split
  · exact .fail (Nat.le_refl _)
  · exact .pure (Nat.le_refl _)

theorem editAll_ph (dir : Str) (w : Ws) : ∀ (es : List Edit) (s : TS), Ph 0 0 (editAll dir w es s)
  | [], s => by rw [editAll]; exact .pure (Nat.le_refl _)
  | e :: es, s => by
    rw [editAll]
    exact Ph.bind (.lift (Nat.le_refl _)) (Nat.le_refl _) fun _ => Ph.bind (spaceSave_ph _ _) (Nat.le_refl _) fun _ => editAll_ph dir w es _

/-- Every command makes its changes in this order. -/
theorem command_ph (c : Command) : Ph 0 3 (c.prog E) := by
  cases c with
  | init path branch =>
    refine Ph.bind (m := 2) ?_ (by decide) fun _ => .pure (by decide)
    unfold initCmd
    have tail : Ph 0 2 (M.bind (createWorkspace E path branch) fun w => M.bind (expand E w) fun _ => M.pure w) :=
      Ph.bind (createWorkspace_ph _ _) (by decide) fun w => Ph.bind (expand_ph w) (by decide) fun _ => .pure (by decide)
    refine Ph.bind (m := 0) (.still (Nat.le_refl _) rfl) (by decide) fun a => ?_
    split
    · exact Ph.bind (m := 0) (.still (Nat.le_refl _) rfl) (by decide) fun _ => Ph.bind (m := 0) (.need (Nat.le_refl _)) (by decide) fun _ => tail
    · exact tail
  | clone cwd source target =>
    exact Ph.bind (m := 2) (Ph.bind (getWorkspace_ph _ _ 0) (by decide) fun w => Ph.bind (cloneP_ph w target) (by decide) fun w' =>
      Ph.bind (expand_ph w') (by decide) fun _ => .pure (by decide)) (by decide) fun _ => .pure (by decide)
  | commit cwd ci =>
    exact Ph.bind (m := 3) (Ph.bind (getWorkspace_ph _ _ 0) (by decide) fun w => Ph.bind (commitP_ph w ci) (by decide) fun w' =>
      Ph.bind (expand_ph w') (by decide) fun _ => Ph.bind (removeMount_ph _) (by decide) fun _ => .pure (by decide)) (by decide) fun _ => .pure (by decide)
  | checkout cwd key =>
    exact Ph.bind (m := 3) (Ph.bind (getWorkspace_ph _ _ 0) (by decide) fun w => Ph.bind (checkoutP_ph w key) (by decide) fun w' =>
      Ph.bind (expand_ph w') (by decide) fun _ => Ph.bind (removeMount_ph _) (by decide) fun _ => .pure (by decide)) (by decide) fun _ => .pure (by decide)
  | edit cwd es =>
    exact Ph.bind (m := 0) (Ph.bind (getWorkspace_ph _ _ 0) (by decide) fun w => editAll_ph _ _ _ _) (by decide) fun _ => .pure (by decide)
  | look cwd => exact Ph.bind (getWorkspace_ph _ _ 0) (by decide) fun _ => .pure (by decide)

/-! ## What a call changes -/

/-- The part of the disk that a listing reads. -/
structure Alike (d e : Disk) : Prop where
  user : e.user = d.user
  info : e.info = d.info
  space : e.space = d.space

theorem Alike.refl (d : Disk) : Alike d d := ⟨rfl, rfl, rfl⟩

/-- A change of rank `n`. -/
def Change (d e : Disk) : Nat → Prop
  | 0 => e.user = d.user ∧ e.info = d.info
  | 1 => e.user = d.user ∧ e.space = d.space
  | 2 => e.info = d.info ∧ e.space = d.space
  | _ => e.user = d.user ∧ e.space = d.space ∧ ∀ n b, e.info n = some b → d.info n = some b

theorem put_alike (d : Disk) (u : UID) (c : Content) : Alike d (d.put u c) := by
  unfold Disk.put
  split <;> exact ⟨rfl, rfl, rfl⟩

theorem does_alike {f : Faults} {P : Prop} {d d1 e : Disk} {a : Bool} (h : Does f P d1 d a e) (h1 : Alike d d1) : Alike d e := by
  rcases h with ⟨_, _, rfl⟩ | ⟨_, _, rfl⟩
  · exact h1
  · exact .refl _

theorem does_change {f : Faults} {P : Prop} {d d1 e : Disk} {a : Bool} {n : Nat} (h : Does f P d1 d a e) (h1 : Change d d1 n) : Alike d e ∨ Change d e n := by
  rcases h with ⟨_, _, rfl⟩ | ⟨_, _, rfl⟩
  · exact Or.inr h1
  · exact Or.inl (.refl _)

theorem meddles_alike {p : Str} {d e : Disk} (h : Meddles E p d e) : Alike d e := by
  rcases h with rfl | ⟨n, m, c, _, _, rfl⟩
  · exact .refl _
  · exact put_alike _ _ _

/-- A call changes what its rank says. -/
theorem step_change {f : Faults} {c : Cmd} {d e : Disk} {x : c.Ans} (h : Step E f c d x e) : Alike d e ∨ ∃ n, c.rank = some n ∧ Change d e n := by
  cases c with
  | rand => exact Or.inl (by rw [h.2]; exact ⟨rfl, rfl, rfl⟩)
  | mkdirSpace n => exact (does_change h (n := 0) ⟨rfl, rfl⟩).imp_right fun h => ⟨0, rfl, h⟩
  | mkdirLayer u => exact Or.inl (does_alike h ⟨rfl, rfl, rfl⟩)
  | isDirDiff u => exact Or.inl (by rw [h.1]; exact .refl _)
  | mkdirDiff u => exact Or.inl (does_alike h ⟨rfl, rfl, rfl⟩)
  | isDirLayer u => exact Or.inl (by rw [h.1]; exact .refl _)
  | mkdirMount n => exact Or.inl (does_alike h ⟨rfl, rfl, rfl⟩)
  | isDirMerged n => exact Or.inl (by rw [h.1]; exact .refl _)
  | mkdirMerged n =>
    rcases h with ⟨_, _, _, _, rfl⟩ | ⟨_, rfl, _⟩ | ⟨_, rfl, _⟩
    · exact Or.inl ⟨rfl, rfl, rfl⟩
    · exact Or.inl (.refl _)
    · exact Or.inl (.refl _)
  | isDirWork n => exact Or.inl (by rw [h.1]; exact .refl _)
  | mkdirWork n =>
    rcases h with ⟨_, _, _, _, rfl⟩ | ⟨_, rfl, _⟩ | ⟨_, rfl, _⟩
    · exact Or.inl ⟨rfl, rfl, rfl⟩
    · exact Or.inl (.refl _)
    · exact Or.inl (.refl _)
  | mountOverlay n u ls => exact Or.inl (does_alike h ⟨rfl, rfl, rfl⟩)
  | chownMerged n =>
    left
    simp only [Step] at h
    split at h
    · exact does_alike h (put_alike _ _ _)
    · split at h
      · exact does_alike h ⟨rfl, rfl, rfl⟩
      · rw [h.2]; exact .refl _
  | sys s => exact Or.inl (does_alike h (.refl _))
  | exists_ p => exact Or.inl (by rw [h.1]; exact .refl _)
  | isEmptyDir p => exact Or.inl (by rw [h.1]; exact .refl _)
  | isSymlink p => exact Or.inl (by rw [h.1]; exact .refl _)
  | readlink p => exact Or.inl (by rw [h.1]; exact .refl _)
  | remove p =>
    rcases h with ⟨_, h⟩ | ⟨_, h⟩
    · exact (does_change h (n := 2) ⟨rfl, rfl⟩).imp_right fun h => ⟨2, rfl, h⟩
    · exact Or.inl (meddles_alike h)
  | symlink t p =>
    rcases h with ⟨_, h⟩ | ⟨_, h⟩
    · exact (does_change h (n := 2) ⟨rfl, rfl⟩).imp_right fun h => ⟨2, rfl, h⟩
    · exact Or.inl (meddles_alike h)
  | lchown p =>
    rcases h with ⟨_, h⟩ | ⟨_, h⟩
    · exact Or.inl (does_alike h (.refl _))
    · exact Or.inl (meddles_alike h)
  | umount n =>
    rcases h with ⟨_, _, rfl⟩ | ⟨_, rfl, _⟩
    · exact Or.inl ⟨rfl, rfl, rfl⟩
    · exact Or.inl (.refl _)
  | removeAllMount n =>
    left
    simp only [Step] at h
    split at h
    · rcases h with ⟨_, rfl⟩ | ⟨_, _, _, _, _, rfl⟩ <;> exact ⟨rfl, rfl, rfl⟩
    · obtain ⟨_, c, w, _, rfl⟩ := h
      exact ⟨(put_alike _ _ _).user, (put_alike _ _ _).info, (put_alike _ _ _).space⟩
  | removeInfo n =>
    rcases h with ⟨_, _, rfl⟩ | ⟨_, _, rfl⟩ | ⟨_, _, rfl⟩
    · refine Or.inr ⟨3, rfl, rfl, rfl, fun m b hm => ?_⟩
      simp only [Disk.setInfo, upd] at hm
      split at hm
      · cases hm
      · exact hm
    · exact Or.inl (.refl _)
    · exact Or.inl (.refl _)
  | readInfo n => exact Or.inl (by rw [h.1]; exact .refl _)
  | truncInfo n => exact (does_change h (n := 1) ⟨rfl, rfl⟩).imp_right fun h => ⟨1, rfl, h⟩
  | writeInfo n b =>
    simp only [Step] at h
    split at h
    · exact Or.inl (by rw [h.1]; exact .refl _)
    · rcases h with ⟨_, rfl⟩ | ⟨_, _, _, _, rfl⟩ <;> exact Or.inr ⟨1, rfl, rfl, rfl⟩
  | readTree n => exact Or.inl (by rw [h.1]; exact .refl _)
  | truncTree n => exact (does_change h (n := 0) ⟨rfl, rfl⟩).imp_right fun h => ⟨0, rfl, h⟩
  | writeTree n b =>
    simp only [Step] at h
    split at h
    · rcases h with ⟨_, rfl⟩ | ⟨_, _, _, _, rfl⟩ <;> exact Or.inr ⟨0, rfl, rfl, rfl⟩
    · exact Or.inl (by rw [h.1]; exact .refl _)
  | dump s => exact Or.inl (by rw [h.1]; exact .refl _)

/-! ## What a reader knows -/

/-- The rank of the other command so far, the states of the disk so far, and the state now. -/
structure Sofar where
  rank : Nat
  past : List Disk
  now : Disk

/-- One call later. -/
inductive Tick : Sofar → Sofar → Prop where
  | quiet {n : Nat} {ms : List Disk} {e e' : Disk} (m : Nat) : n ≤ m → Alike e e' → Tick ⟨n, ms, e⟩ ⟨m, e' :: ms, e'⟩
  | change {n m : Nat} {ms : List Disk} {e e' : Disk} : n ≤ m → m ≤ 3 → Change e e' m → Tick ⟨n, ms, e⟩ ⟨m, e' :: ms, e'⟩

/-- Any number of calls later. -/
inductive Ticks : Sofar → Sofar → Prop where
  | refl (s : Sofar) : Ticks s s
  | step {s t u : Sofar} : Ticks s t → Tick t u → Ticks s u

theorem Ticks.trans {s t u : Sofar} (h : Ticks s t) (h' : Ticks t u) : Ticks s u := by
  induction h' with
  | refl => exact h
  | step _ hm ih => exact .step ih hm

/-- The state now is among the states so far. -/
def Sofar.Ok (s : Sofar) : Prop := s.now ∈ s.past

theorem tick_ok {s t : Sofar} (h : Tick s t) : t.Ok := by
  cases h <;> exact List.mem_cons_self

theorem tick_past {s t : Sofar} (h : Tick s t) {l : Disk} (hl : l ∈ s.past) : l ∈ t.past := by
  cases h <;> exact List.mem_cons_of_mem _ hl

theorem ticks_ok {s t : Sofar} (h : Ticks s t) (hs : s.Ok) : t.Ok := by
  cases h with
  | refl => exact hs
  | step _ hm => exact tick_ok hm

theorem ticks_past {s t : Sofar} (h : Ticks s t) {l : Disk} (hl : l ∈ s.past) : l ∈ t.past := by
  induction h with
  | refl => exact hl
  | step _ hm ih => exact tick_past hm ih

/-- The link `t` has been read at `p`. Then there is a state with this link, all records of now, and the history of now, unless the
history or a record may still be changed: then the link is still there. -/
def KnowsLink (p t : Str) (s : Sofar) : Prop :=
  (s.rank ≤ 1 ∧ s.now.user p = .link t) ∨
  (2 ≤ s.rank ∧ ∃ l ∈ s.past, l.user p = .link t ∧ (∀ n b, s.now.info n = some b → l.info n = some b) ∧ l.space = s.now.space)

/-- The link `t` has been read at `p`, then the record `b`. -/
def KnowsRec (p t n b : Str) (s : Sofar) : Prop :=
  (s.rank = 0 ∧ s.now.user p = .link t ∧ s.now.info n = some b) ∨
  (1 ≤ s.rank ∧ ∃ l ∈ s.past, l.user p = .link t ∧ l.info n = some b ∧ l.space = s.now.space)

theorem knowsLink_tick {p t : Str} {s u : Sofar} (h : KnowsLink p t s) (hs : s.Ok) (hm : Tick s u) : KnowsLink p t u := by
  cases hm with
  | @quiet n ms e e' m hn ha =>
    by_cases hm : m ≤ 1
    · rcases h with ⟨_, h⟩ | ⟨h, _⟩
      · exact Or.inl ⟨hm, by show e'.user p = _; rw [ha.user]; exact h⟩
      · have : 2 ≤ n := h
        omega
    · refine Or.inr ⟨by show 2 ≤ m; omega, ?_⟩
      rcases h with ⟨_, h⟩ | ⟨_, l, h1, h2, h3, h4⟩
      · exact ⟨e, List.mem_cons_of_mem _ hs, h, fun n b hb => by rw [← ha.info]; exact hb, ha.space.symm⟩
      · exact ⟨l, List.mem_cons_of_mem _ h1, h2, fun n b hb => h3 n b (by show e.info n = _; rw [← ha.info]; exact hb), h4.trans ha.space.symm⟩
  | @change n m ms e e' hn hm3 hc =>
    have other : 2 ≤ m → (∀ n b, e'.info n = some b → e.info n = some b) → e'.space = e.space → KnowsLink p t ⟨m, e' :: ms, e'⟩ := by
      intro hm hi hsp
      refine Or.inr ⟨hm, ?_⟩
      rcases h with ⟨_, h⟩ | ⟨_, l, h1, h2, h3, h4⟩
      · exact ⟨e, List.mem_cons_of_mem _ hs, h, hi, hsp.symm⟩
      · exact ⟨l, List.mem_cons_of_mem _ h1, h2, fun n b hb => h3 n b (hi n b hb), h4.trans hsp.symm⟩
    have same : m ≤ 1 → e'.user = e.user → KnowsLink p t ⟨m, e' :: ms, e'⟩ := by
      intro hm hu
      rcases h with ⟨_, h⟩ | ⟨h, _⟩
      · exact Or.inl ⟨hm, by show e'.user p = _; rw [hu]; exact h⟩
      · have : 2 ≤ n := h
        omega
    match m, hc with
    | 0, hc => exact same (by decide) hc.1
    | 1, hc => exact same (by decide) hc.1
    | 2, hc => exact other (by decide) (fun n b hb => by rw [← hc.1]; exact hb) hc.2
    | m + 3, hc => exact other (by omega) hc.2.2 hc.2.1

theorem knowsRec_tick {p t n b : Str} {s u : Sofar} (h : KnowsRec p t n b s) (hs : s.Ok) (hm : Tick s u) : KnowsRec p t n b u := by
  cases hm with
  | @quiet k ms e e' m hn ha =>
    by_cases hm : m = 0
    · rcases h with ⟨_, h, h'⟩ | ⟨h, _⟩
      · exact Or.inl ⟨hm, by show e'.user p = _; rw [ha.user]; exact h, by show e'.info n = _; rw [ha.info]; exact h'⟩
      · have : 1 ≤ k := h
        omega
    · refine Or.inr ⟨by show 1 ≤ m; omega, ?_⟩
      rcases h with ⟨_, h, h'⟩ | ⟨_, l, h1, h2, h3, h4⟩
      · exact ⟨e, List.mem_cons_of_mem _ hs, h, h', ha.space.symm⟩
      · exact ⟨l, List.mem_cons_of_mem _ h1, h2, h3, h4.trans ha.space.symm⟩
  | @change k m ms e e' hn hm3 hc =>
    have other : 1 ≤ m → e'.space = e.space → KnowsRec p t n b ⟨m, e' :: ms, e'⟩ := by
      intro hm hsp
      refine Or.inr ⟨hm, ?_⟩
      rcases h with ⟨_, h, h'⟩ | ⟨_, l, h1, h2, h3, h4⟩
      · exact ⟨e, List.mem_cons_of_mem _ hs, h, h', hsp.symm⟩
      · exact ⟨l, List.mem_cons_of_mem _ h1, h2, h3, h4.trans hsp.symm⟩
    match m, hc with
    | 0, hc =>
      rcases h with ⟨_, h, h'⟩ | ⟨h, _⟩
      · exact Or.inl ⟨rfl, by show e'.user p = _; rw [hc.1]; exact h, by show e'.info n = _; rw [hc.2]; exact h'⟩
      · have : 1 ≤ k := h
        omega
    | 1, hc => exact other (by decide) hc.2
    | 2, hc => exact other (by decide) hc.2
    | m + 3, hc => exact other (by omega) hc.2.1

theorem knowsLink_ticks {p t : Str} {s u : Sofar} (h : KnowsLink p t s) (hs : s.Ok) (hm : Ticks s u) : KnowsLink p t u := by
  induction hm with
  | refl => exact h
  | step h1 h2 ih => exact knowsLink_tick ih (ticks_ok h1 hs) h2

theorem knowsRec_ticks {p t n b : Str} {s u : Sofar} (h : KnowsRec p t n b s) (hs : s.Ok) (hm : Ticks s u) : KnowsRec p t n b u := by
  induction hm with
  | refl => exact h
  | step h1 h2 ih => exact knowsRec_tick ih (ticks_ok h1 hs) h2

/-- Reading the link. -/
theorem knowsLink_read {p t : Str} {s : Sofar} (hs : s.Ok) (h : s.now.user p = .link t) : KnowsLink p t s := by
  by_cases hr : s.rank ≤ 1
  · exact Or.inl ⟨hr, h⟩
  · exact Or.inr ⟨by omega, s.now, hs, h, fun _ _ h => h, rfl⟩

/-- Reading the record. -/
theorem knowsRec_read {p t n b : Str} {s : Sofar} (hs : s.Ok) (h : KnowsLink p t s) (hb : s.now.info n = some b) : KnowsRec p t n b s := by
  rcases h with ⟨h1, h2⟩ | ⟨h1, l, h2, h3, h4, h5⟩
  · by_cases hr : s.rank = 0
    · exact Or.inl ⟨hr, h2, hb⟩
    · exact Or.inr ⟨by omega, s.now, hs, h2, hb, rfl⟩
  · exact Or.inr ⟨by omega, l, h2, h3, h4 _ _ hb, h5⟩

/-- Reading the history. -/
theorem knows_all {p t n b : Str} {s : Sofar} (hs : s.Ok) (h : KnowsRec p t n b s) :
    ∃ l ∈ s.past, l.user p = .link t ∧ l.info n = some b ∧ l.space = s.now.space := by
  rcases h with ⟨_, h1, h2⟩ | ⟨_, h⟩
  · exact ⟨s.now, hs, h1, h2, rfl⟩
  · exact h

/-! ## Programs that read -/

section
variable {α β σ : Type} {R : σ → σ → Prop} {now : σ → Disk}

/-- `σ` are the states of the rest of the world, `R` says how they go on, `now` is the disk. The program only reads, whatever happens
between its calls, and `Q` holds at its end and from then on. -/
def Peeks (R : σ → σ → Prop) (now : σ → Disk) (E : Env) (f : Faults) (Q : α → σ → Prop) : Prog α → σ → Prop
  | .ret a, s => ∀ t, R s t → Q a t
  | .op c k, s => ∀ t, R s t → ∀ x e, Step E f c (now t) x e → e = now t ∧ Peeks R now E f Q (k x) t

/-- `Q` holds if the program succeeds. -/
def Finds (R : σ → σ → Prop) (now : σ → Disk) (E : Env) (f : Faults) (Q : α → σ → Prop) (p : M α) (s : σ) : Prop :=
  Peeks R now E f (fun r t => ∀ a, r = .ok a → Q a t) p s

theorem Peeks.later (ht : ∀ a b c, R a b → R b c → R a c) {f : Faults} {Q : α → σ → Prop} {p : Prog α} {s t : σ} (h : Peeks R now E f Q p s) (hm : R s t) :
    Peeks R now E f Q p t := by
  cases p with
  | ret a => exact fun u hu => h u (ht _ _ _ hm hu)
  | op c k => exact fun u hu => h u (ht _ _ _ hm hu)

theorem Finds.bind (hr : ∀ a, R a a) {f : Faults} {Q : α → σ → Prop} {P : β → σ → Prop} {g : α → M β} {p : M α} :
    ∀ {s : σ}, Finds R now E f Q p s → (∀ a t, Q a t → Finds R now E f P (g a) t) → Finds R now E f P (M.bind p g) s := by
  unfold Finds
  induction p with
  | ret r =>
    intro s h h'
    cases r with
    | ok a => exact h' a s (h s (hr s) a rfl)
    | err e => exact fun t _ b hb => by cases hb
    | panic => exact fun t _ b hb => by cases hb
    | diverge => exact fun t _ b hb => by cases hb
  | op c k ih => exact fun h h' t ht x e hx => ⟨(h t ht x e hx).1, ih x (h t ht x e hx).2 h'⟩

/-- A computation without calls. -/
theorem Finds.lift {f : Faults} {ε : Type} {g : ε → CErr} {r : Res ε α} {Q : α → σ → Prop} {s : σ}
    (h : ∀ a t, R s t → r = .ok a → Q a t) : Finds R now E f Q (M.lift g r) s := by
  cases r with
  | ok a => exact fun t ht b hb => by cases hb; exact h a t ht rfl
  | err e => exact fun t _ b hb => by cases hb
  | panic => exact fun t _ b hb => by cases hb
  | diverge => exact fun t _ b hb => by cases hb

/-- `t`, `b` and `tb` are the link, the record and the tree file with which opening gives `w`. -/
structure OpensWith (E : Env) (cwd path t b tb : Str) (w : OpenWs) : Prop where
  link : mountIDOf E.root cwd path (some t) = .ok w.mount.id
  record : ∃ info h, Json.unmarshalInfo b = some info ∧ UID.decodeBase32 info.id = .ok w.ws.id ∧ UID.decodeBase32 info.spaceID = .ok w.spaceID ∧
    info.spaceID = w.spaceDir ∧ info.mountID = w.mount.dir ∧ info.branch = w.ws.branch ∧ UID.decodeHex info.head = .ok h ∧ w.tree.get h = some w.ws.head
  tree : spaceLoad (.ok tb) = .ok w.tree
  path : w.ws.path = Path.abs cwd path
  mount : w.mount.layers = none

/-- The three files are on this disk. -/
structure HasThree (l : Disk) (p t n b m tb : Str) : Prop where
  user : l.user p = .link t
  info : l.info n = some b
  space : l.space m = some (some tb)

/-- Opening needs three files. -/
theorem gets_of_three {l : Disk} {cwd path t b tb : Str} {w : OpenWs} (h : OpensWith E cwd path t b tb w)
    (hl : HasThree l (Path.abs cwd path) t w.mount.id.base32 b w.spaceDir tb) : Gets E l cwd path w := by
  obtain ⟨info, u, h4, h5, h6, h7, h8, h9, h10, h11⟩ := h.record
  have : w = ⟨w.tree, w.spaceID, info.spaceID, ⟨w.mount.id, info.mountID, none⟩, ⟨w.ws.id, Path.abs cwd path, w.ws.head, info.branch⟩⟩ := by
    rw [h7, h8, h9, ← h.path, ← h.mount]
  rw [this]
  unfold Gets getWorkspace
  refine exec_ok (exec_linkOf hl.user) (exec_ok (exec_lift h.link) (exec_ok (d1 := l) (a := info) ?_ ?_))
  · exact exec_ok (a := .ok b) (exec_ask ⟨rfl, hl.info⟩) (exec_lift (by rw [h4]))
  · refine exec_ok (exec_lift h5) (exec_ok (exec_lift h6) (exec_ok (d1 := l) (a := .ok tb) (exec_ask ⟨rfl, by show l.space info.spaceID = _; rw [h7]; exact hl.space⟩)
      (exec_ok (exec_lift h.tree) (exec_ok (exec_lift h10) ?_))))
    simp only [h11]
    exact .ret _ _

/-- What a reader knows after each of its three reads, so that it goes on to hold. -/
structure Learns (R : σ → σ → Prop) (now : σ → Disk) (p : Str) (K0 : σ → Prop) (K1 : Str → σ → Prop) (K2 : Str → Str → Str → σ → Prop)
    (K3 : Str → Str → Str → Str → Str → σ → Prop) : Prop where
  refl : ∀ s, R s s
  trans : ∀ a b c, R a b → R b c → R a c
  keep0 : ∀ s t, R s t → K0 s → K0 t
  keep1 : ∀ v s t, R s t → K1 v s → K1 v t
  keep2 : ∀ v n b s t, R s t → K2 v n b s → K2 v n b t
  keep3 : ∀ v n b m tb s t, R s t → K3 v n b m tb s → K3 v n b m tb t
  link : ∀ v s, K0 s → (now s).user p = .link v → K1 v s
  info : ∀ v n b s, K1 v s → (now s).info n = some b → K2 v n b s
  space : ∀ v n b m tb s, K2 v n b s → (now s).space m = some (some tb) → K3 v n b m tb s

/-- Opening reads the link, then the record, then the tree file. -/
theorem finds_get {f : Faults} {cwd path : Str} (hout : E.Outside (Path.abs cwd path)) (hf : f.io = false) {K0 : σ → Prop} {K1 : Str → σ → Prop}
    {K2 : Str → Str → Str → σ → Prop} {K3 : Str → Str → Str → Str → Str → σ → Prop} (L : Learns R now (Path.abs cwd path) K0 K1 K2 K3) {s : σ} (hs : K0 s) :
    Finds R now E f (fun w t => ∃ v b tb, OpensWith E cwd path v b tb w ∧ K3 v w.mount.id.base32 b w.spaceDir tb t) (getWorkspace E cwd path) s := by
  have hoff := off_not (off_of_outside hout)
  unfold getWorkspace
  refine Finds.bind L.refl (Q := fun o t => ∀ x, o = some x → K1 x t) ?_ fun o t ho => ?_
  · unfold linkOf
    intro t ht x e hx
    refine ⟨hx.1, ?_⟩
    cases x with
    | false => exact fun t' ht' a ha => by cases ha; exact fun _ h => (nomatch h)
    | true =>
      intro t1 ht1 y e1 hy
      refine ⟨hy.1, ?_⟩
      cases y with
      | none => exact fun t' _ a ha => by cases ha
      | some v =>
        intro t2 ht2 a ha
        cases ha
        intro x hx
        cases hx
        rcases hy.2 with ⟨t', h1, h2⟩ | h | ⟨h, _⟩
        · cases h2; exact L.keep1 _ _ _ ht2 (L.link _ _ (L.keep0 _ _ (L.trans _ _ _ ht ht1) hs) h1)
        · exact absurd h hoff
        · cases h
  · cases o with
    | none =>
      obtain ⟨e, he⟩ := leads_outside hout
      refine Finds.bind L.refl (Q := fun _ _ => False) (Finds.lift fun a t' _ ha => ?_) fun _ _ h => h.elim
      rw [he] at ha; cases ha
    | some v =>
      refine Finds.bind L.refl (Q := fun m t => mountIDOf E.root cwd path (some v) = .ok m ∧ K1 v t)
        (Finds.lift fun a t' ht' ha => ⟨ha, L.keep1 _ _ _ ht' (ho v rfl)⟩) fun m t ⟨hm, hk⟩ => ?_
      refine Finds.bind L.refl (Q := fun info t => ∃ b, Json.unmarshalInfo b = some info ∧ K2 v m.base32 b t) ?_ fun info t ⟨b, hb, hr⟩ => ?_
      · unfold loadInfo
        intro t1 ht1 y e1 hy
        refine ⟨hy.1, ?_⟩
        have hk1 := L.keep1 _ _ _ ht1 hk
        cases y with
        | ok b =>
          refine Finds.lift fun info t2 ht2 h => ⟨b, ?_, L.keep2 _ _ _ _ _ ht2 (L.info _ _ _ _ hk1 hy.2)⟩
          split at h
          · cases h; assumption
          · cases h
        | notExist => exact fun t' _ a ha => by cases ha
        | failed b => exact fun t' _ a ha => by cases ha
      · refine Finds.bind L.refl (Q := fun wid t => UID.decodeBase32 info.id = .ok wid ∧ K2 v m.base32 b t)
          (Finds.lift fun a t' ht' ha => ⟨ha, L.keep2 _ _ _ _ _ ht' hr⟩) fun wid t ⟨hw, hr⟩ => ?_
        refine Finds.bind L.refl (Q := fun sid t => UID.decodeBase32 info.spaceID = .ok sid ∧ K2 v m.base32 b t)
          (Finds.lift fun a t' ht' ha => ⟨ha, L.keep2 _ _ _ _ _ ht' hr⟩) fun sid t ⟨hsid, hr⟩ => ?_
        intro t1 ht1 y e1 hy
        refine ⟨hy.1, ?_⟩
        have hr1 := L.keep2 _ _ _ _ _ ht1 hr
        refine Finds.bind L.refl (Q := fun s t => spaceLoad y = .ok s ∧ ∃ tb, y = .ok tb ∧ K3 v m.base32 b info.spaceID tb t) (Finds.lift fun a t' ht' ha => ⟨ha, ?_⟩)
          fun s t ⟨hsp, tb, htb, h3⟩ => ?_
        · cases y with
          | ok tb => exact ⟨tb, rfl, L.keep3 _ _ _ _ _ _ _ ht' (L.space _ _ _ _ _ _ hr1 hy.2)⟩
          | notExist => cases ha
          | failed b' => exact absurd hy.2.1 (by rw [hf]; decide)
        · refine Finds.bind L.refl (Q := fun h t => UID.decodeHex info.head = .ok h ∧ K3 v m.base32 b info.spaceID tb t)
            (Finds.lift fun a t' ht' ha => ⟨ha, L.keep3 _ _ _ _ _ _ _ ht' h3⟩) fun h t ⟨hh, h3⟩ => ?_
          split
          · exact fun t' _ a ha => by cases ha
          · rename_i r hr
            intro t' ht' w hw'
            cases hw'
            exact ⟨v, b, tb, ⟨hm, ⟨info, h, hb, hw, hsid, rfl, rfl, rfl, hh, hr⟩, htb ▸ hsp, rfl, rfl⟩, L.keep3 _ _ _ _ _ _ _ ht' h3⟩

theorem finds_exec {f : Faults} {Q : α → Unit → Prop} {p : M α} {d d' : Disk} {a : α} (hp : Finds (fun _ _ => True) (fun _ => d) E f Q p ())
    (h : Exec E f p d (.ok a) d') : Q a () := by
  obtain ⟨r, hr⟩ : ∃ r, r = Res.ok (ε := CErr) a := ⟨_, rfl⟩
  rw [← hr] at h
  unfold Finds at hp
  suffices H : ∀ (p : Prog (Res CErr α)) (e : Disk), e = d → Peeks (fun _ _ => True) (fun _ => d) E f (fun r t => ∀ a, r = .ok a → Q a t) p () → Exec E f p e r d' → Q a () from
    H p d rfl hp h
  clear h hp
  intro p e he hp h
  induction h with
  | ret r d1 => exact hp () trivial a hr
  | op hs _ ih =>
    subst he
    obtain ⟨h1, h2⟩ := hp () trivial _ _ hs
    exact ih hr h1 h2

/-- Opening a path outside the data directory gives what the three files say. -/
theorem gets_three {l : Disk} {cwd path : Str} {w : OpenWs} (hout : E.Outside (Path.abs cwd path)) (h : Gets E l cwd path w) :
    ∃ v b tb, OpensWith E cwd path v b tb w ∧ HasThree l (Path.abs cwd path) v w.mount.id.base32 b w.spaceDir tb :=
  finds_exec (finds_get (K0 := fun _ => True) (K1 := fun v _ => l.user (Path.abs cwd path) = .link v) (K2 := fun v n b _ => l.user (Path.abs cwd path) = .link v ∧ l.info n = some b)
    (K3 := fun v n b m tb _ => HasThree l (Path.abs cwd path) v n b m tb) hout rfl
    ⟨fun _ => trivial, fun _ _ _ _ _ => trivial, fun _ _ _ h => h, fun _ _ _ _ h => h, fun _ _ _ _ _ _ h => h, fun _ _ _ _ _ _ _ _ h => h,
      fun _ _ _ h => h, fun _ _ _ _ h h' => ⟨h, h'⟩, fun _ _ _ _ _ _ h h' => ⟨h.1, h.2, h'⟩⟩ trivial) h

/-- So it gives only one workspace. -/
theorem gets_one {l : Disk} {cwd path : Str} {w w' : OpenWs} (hout : E.Outside (Path.abs cwd path)) (h : Gets E l cwd path w) (h' : Gets E l cwd path w') : w = w' := by
  obtain ⟨v, b, tb, ⟨a1, ⟨info, u, a2, a3, a4, a5, a6, a7, a8, a9⟩, a10, a11, a12⟩, hd⟩ := gets_three hout h
  obtain ⟨v', b', tb', ⟨b1, ⟨info', u', b2, b3, b4, b5, b6, b7, b8, b9⟩, b10, b11, b12⟩, hd'⟩ := gets_three hout h'
  have e1 : v = v' := by have := hd.user.symm.trans hd'.user; cases this; rfl
  subst e1
  have e2 : w.mount.id = w'.mount.id := by exact Res.ok.inj (a1.symm.trans b1)
  have e3 : b = b' := by have := hd.info; rw [e2, hd'.info] at this; cases this; rfl
  subst e3
  have e4 : info = info' := by have := a2.symm.trans b2; cases this; rfl
  subst e4
  have e5 : w.spaceDir = w'.spaceDir := a5.symm.trans b5
  have e6 : tb = tb' := by have := hd.space; rw [e5, hd'.space] at this; cases this; rfl
  subst e6
  have e7 : w.tree = w'.tree := by exact Res.ok.inj (a10.symm.trans b10)
  have e8 : u = u' := by have := a8.symm.trans b8; cases this; rfl
  subst e8
  obtain ⟨t, sid, dir, ⟨mid, mdir, ml⟩, ⟨wid, wp, wh, wb⟩⟩ := w
  obtain ⟨t', sid', dir', ⟨mid', mdir', ml'⟩, ⟨wid', wp', wh', wb'⟩⟩ := w'
  dsimp only at *
  subst e2 e5 e7
  have e9 : sid = sid' := by have := a4.symm.trans b4; cases this; rfl
  have e10 : wid = wid' := by have := a3.symm.trans b3; cases this; rfl
  have e11 : wh = wh' := by have := a9.symm.trans b9; cases this; rfl
  rw [e9, e10, e11, ← a6, ← b6, ← a7, ← b7, a11, b11, a12, b12]

/-- Beside one other command. -/
theorem learns_ticks (p : Str) : Learns Ticks Sofar.now p Sofar.Ok (fun v s => s.Ok ∧ KnowsLink p v s) (fun v n b s => s.Ok ∧ KnowsRec p v n b s)
    (fun v n b m tb s => ∃ l ∈ s.past, HasThree l p v n b m tb) where
  refl := .refl
  trans := fun _ _ _ => .trans
  keep0 := fun _ _ h hs => ticks_ok h hs
  keep1 := fun _ _ _ h hs => ⟨ticks_ok h hs.1, knowsLink_ticks hs.2 hs.1 h⟩
  keep2 := fun _ _ _ _ _ h hs => ⟨ticks_ok h hs.1, knowsRec_ticks hs.2 hs.1 h⟩
  keep3 := fun _ _ _ _ _ _ _ h ⟨l, hl, hh⟩ => ⟨l, ticks_past h hl, hh⟩
  link := fun _ _ hs h => ⟨hs, knowsLink_read hs h⟩
  info := fun _ _ _ _ hs h => ⟨hs.1, knowsRec_read hs.1 hs.2 h⟩
  space := fun _ _ _ _ _ s hs h => by
    obtain ⟨l, h1, h2, h3, h4⟩ := knows_all hs.1 hs.2
    exact ⟨l, h1, h2, h3, by rw [h4]; exact h⟩

/-- Beside anything. -/
theorem learns_any (p : Str) : Learns (fun s t : Sofar => (s.Ok → t.Ok) ∧ ∀ l ∈ s.past, l ∈ t.past) Sofar.now p Sofar.Ok (fun v s => s.Ok ∧ ∃ l ∈ s.past, l.user p = .link v)
    (fun v n b s => s.Ok ∧ (∃ l ∈ s.past, l.user p = .link v) ∧ ∃ l ∈ s.past, l.info n = some b)
    (fun v n b m tb s => (∃ l ∈ s.past, l.user p = .link v) ∧ (∃ l ∈ s.past, l.info n = some b) ∧ ∃ l ∈ s.past, l.space m = some (some tb)) where
  refl := fun _ => ⟨_root_.id, fun _ h => h⟩
  trans := fun _ _ _ h h' => ⟨fun k => h'.1 (h.1 k), fun l hl => h'.2 l (h.2 l hl)⟩
  keep0 := fun _ _ h hs => h.1 hs
  keep1 := fun _ _ _ h ⟨hs, l, hl, hh⟩ => ⟨h.1 hs, l, h.2 l hl, hh⟩
  keep2 := fun _ _ _ _ _ h ⟨hs, ⟨l, hl, hh⟩, ⟨l', hl', hh'⟩⟩ => ⟨h.1 hs, ⟨l, h.2 l hl, hh⟩, ⟨l', h.2 l' hl', hh'⟩⟩
  keep3 := fun _ _ _ _ _ _ _ h ⟨⟨l, hl, hh⟩, ⟨l', hl', hh'⟩, ⟨k, hk, hk'⟩⟩ => ⟨⟨l, h.2 l hl, hh⟩, ⟨l', h.2 l' hl', hh'⟩, ⟨k, h.2 k hk, hk'⟩⟩
  link := fun _ s hs h => ⟨hs, s.now, hs, h⟩
  info := fun _ _ _ s hs h => ⟨hs.1, hs.2, s.now, hs.1, h⟩
  space := fun _ _ _ _ _ s hs h => ⟨hs.2.1, hs.2.2, s.now, hs.1, h⟩

end
end Verif
