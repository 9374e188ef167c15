import Verif.Props.BelowEdit
/-!
# Who owns the link of a workspace (C111)

The path of a workspace is a symbolic link. The program runs as root, so a link that it makes belongs to root until it is given away
(`os.Lchown` in `CreateSymlink`, pkg/mounts/mount.go:130-140). The disk of the model has no owners of links: they are recorded beside it, call by call.
-/
set_option autoImplicit false
namespace Verif
open M TS Json

/-- The owner of the link at each path, `none` where nobody has made one. -/
abbrev LinkOwners := Str → Option Nat

/-- What a call of a process of root does to them: `symlink(2)` makes a link of the caller, `unlink(2)` takes it away, `lchown(2)` gives it to the user who
gave the command. A call that fails does nothing. -/
def LinkOwners.after (me : Nat) : (c : Cmd) → c.Ans → LinkOwners → LinkOwners
  | .symlink _ p, true, o => upd o p (some 0)
  | .remove p, true, o => upd o p none
  | .lchown p, true, o => upd o p (some me)
  | _, _, o => o

section
variable {α β : Type} {E : Env} {f : Faults}

/-- The runs of a program with the owners of links. -/
inductive ExecBy (E : Env) (f : Faults) : Prog α → Disk → LinkOwners → α → Disk → LinkOwners → Prop where
  | ret (a : α) (d : Disk) (o : LinkOwners) : ExecBy E f (.ret a) d o a d o
  | op {c : Cmd} {k : c.Ans → Prog α} {d d1 d2 : Disk} {o o2 : LinkOwners} {x : c.Ans} {a : α} :
      Step E f c d x d1 → ExecBy E f (k x) d1 (o.after E.owner c x) a d2 o2 → ExecBy E f (.op c k) d o a d2 o2

/-- Its runs up to the moment when it is killed. -/
inductive StopsBy (E : Env) (f : Faults) : Prog α → Disk → LinkOwners → Disk → LinkOwners → Prop where
  | here (p : Prog α) (d : Disk) (o : LinkOwners) : StopsBy E f p d o d o
  | op {c : Cmd} {k : c.Ans → Prog α} {d d1 d2 : Disk} {o o2 : LinkOwners} {x : c.Ans} :
      Step E f c d x d1 → StopsBy E f (k x) d1 (o.after E.owner c x) d2 o2 → StopsBy E f (.op c k) d o d2 o2

/-- These are the runs of the program. -/
theorem execBy_exec {x : Prog α} {d d' : Disk} {o o' : LinkOwners} {a : α} (h : ExecBy E f x d o a d' o') : Exec E f x d a d' := by
  induction h with
  | ret a d o => exact .ret a d
  | op hs _ ih => exact .op hs ih

theorem execBy_of_exec {x : Prog α} {d d' : Disk} {a : α} (h : Exec E f x d a d') (o : LinkOwners) : ∃ o', ExecBy E f x d o a d' o' := by
  induction h generalizing o with
  | ret a d => exact ⟨o, .ret a d o⟩
  | op hs _ ih => obtain ⟨o', h⟩ := ih (o.after E.owner _ _); exact ⟨o', .op hs h⟩

theorem stopsBy_stops {x : Prog α} {d d' : Disk} {o o' : LinkOwners} (h : StopsBy E f x d o d' o') : Stops E f x d d' := by
  induction h with
  | here p d o => exact .here p d
  | op hs _ ih => exact .op hs ih

theorem execBy_bind {x : Prog α} {g : α → Prog β} {d d' : Disk} {o o' : LinkOwners} {b : β} (h : ExecBy E f (x.bind g) d o b d' o') :
    ∃ a d1 o1, ExecBy E f x d o a d1 o1 ∧ ExecBy E f (g a) d1 o1 b d' o' := by
  induction x generalizing d o with
  | ret a => exact ⟨a, d, o, .ret a d o, h⟩
  | op c k ih =>
    rw [Prog.bind] at h
    cases h with
    | op hs he =>
      obtain ⟨a, d1, o1, h1, h2⟩ := ih _ he
      exact ⟨a, d1, o1, .op hs h1, h2⟩

theorem stopsBy_trans {x : Prog α} {g : α → Prog β} {d d1 d' : Disk} {o o1 o' : LinkOwners} {a : α} (h : ExecBy E f x d o a d1 o1)
    (h' : StopsBy E f (g a) d1 o1 d' o') : StopsBy E f (x.bind g) d o d' o' := by
  induction h with
  | ret a d o => exact h'
  | op hs _ ih => exact .op hs (ih h')

/-! ## What all programs do to owners -/

/-- `lwp`: whatever the answers are, the owners satisfy `I` at every moment and `Q` at the end. -/
def lwp (me : Nat) (I : LinkOwners → Prop) : Prog α → (α → LinkOwners → Prop) → LinkOwners → Prop
  | .ret a, Q, o => I o ∧ Q a o
  | .op c k, Q, o => I o ∧ ∀ x, lwp me I (k x) Q (o.after me c x)

variable {me : Nat} {I : LinkOwners → Prop}

theorem lwp_exec {x : Prog α} {Q : α → LinkOwners → Prop} {d d' : Disk} {o o' : LinkOwners} {a : α} (h : ExecBy E f x d o a d' o') (hw : lwp E.owner I x Q o) : Q a o' := by
  induction h with
  | ret a d o => exact hw.2
  | op hs _ ih => exact ih (hw.2 _)

theorem lwp_stops {x : Prog α} {Q : α → LinkOwners → Prop} {d d' : Disk} {o o' : LinkOwners} (h : StopsBy E f x d o d' o') (hw : lwp E.owner I x Q o) : I o' := by
  induction h with
  | here p d o => cases p <;> exact hw.1
  | op hs _ ih => exact ih (hw.2 _)

theorem lwp_bind {x : Prog α} {g : α → Prog β} {Q : β → LinkOwners → Prop} {o : LinkOwners} (h : lwp me I x (fun a o' => lwp me I (g a) Q o') o) :
    lwp me I (x.bind g) Q o := by
  induction x generalizing o with
  | ret a => exact h.2
  | op c k ih => exact ⟨h.1, fun x => ih x (h.2 x)⟩

theorem lwp_mono {x : Prog α} {Q Q' : α → LinkOwners → Prop} {o : LinkOwners} (h : lwp me I x Q o) (hq : ∀ a o, Q a o → Q' a o) : lwp me I x Q' o := by
  induction x generalizing o with
  | ret a => exact ⟨h.1, hq _ _ h.2⟩
  | op c k ih => exact ⟨h.1, fun x => ih x (h.2 x)⟩

/-- Sequencing where the rest only runs after success. -/
theorem lwp_seq {x : M α} {g : α → M β} {Q : Res CErr β → LinkOwners → Prop} {o : LinkOwners}
    (h : lwp (α := Res CErr α) me I x (fun r o' => match r with | .ok a => lwp (α := Res CErr β) me I (g a) Q o' | .err e => I o' ∧ Q (.err e) o' | .panic => I o' ∧ Q .panic o' | .diverge => I o' ∧ Q .diverge o') o) :
    lwp (α := Res CErr β) me I (x >>= g : M β) Q o := by
  refine lwp_bind (x := x) (lwp_mono h fun r o' hr => ?_)
  cases r <;> exact hr

/-- A program that does not touch links leaves owners alone. -/
theorem lwp_calm {A : Str → Prop} {x : Prog α} (hx : CalmP A x) {Q : α → LinkOwners → Prop} {o : LinkOwners} (hI : I o) (hq : ∀ a, Q a o) : lwp me I x Q o := by
  induction x with
  | ret a => exact ⟨hI, hq a⟩
  | op c k ih =>
    refine ⟨hI, fun x => ?_⟩
    have : o.after me c x = o := by
      have hc := hx.1
      cases c with
      | symlink t p => exact hc.elim
      | remove p => exact hc.elim
      | lchown p => exact hc.elim
      | _ => rfl
    rw [this]
    exact ih x (hx.2 x)

/-- The same with what is known of its result. -/
theorem lwp_calm_rets {A : Str → Prop} {R : α → Prop} {x : Prog α} (hx : CalmP A x) (hr : RetsP R x) {Q : α → LinkOwners → Prop} {o : LinkOwners} (hI : I o)
    (hq : ∀ a, R a → Q a o) : lwp me I x Q o := by
  induction x with
  | ret a => exact ⟨hI, hq a hr⟩
  | op c k ih =>
    refine ⟨hI, fun x => ?_⟩
    have : o.after me c x = o := by
      have hc := hx.1
      cases c with
      | symlink t p => exact hc.elim
      | remove p => exact hc.elim
      | lchown p => exact hc.elim
      | _ => rfl
    rw [this]
    exact ih x (hx.2 x) (hr x)

theorem getWorkspace_rets (cwd path : Str) : RetsP (AtTarget (Path.abs cwd path)) (getWorkspace E cwd path) := by
  unfold getWorkspace
  refine rets_m fun l => rets_m fun m => rets_m fun i => rets_m fun wid => rets_m fun sid => rets_m fun b => rets_m fun s => rets_m fun h => ?_
  split
  · exact nofun
  · rintro w' ⟨⟩
    rfl

theorem saveAll_rets (w : OpenWs) : RetsP (AtTarget w.ws.path) (saveAll E w) := by
  unfold saveAll
  refine rets_m fun _ => rets_m fun _ => ?_
  rintro w' ⟨⟩
  rfl

theorem commitP_rets (w : OpenWs) (ci : CommitInfo) : RetsP (AtTarget w.ws.path) (commitP E w ci) := by
  unfold commitP
  split
  · exact nofun
  · split
    · exact nofun
    · exact rets_m fun x => rets_m fun s => saveAll_rets _

theorem checkoutP_rets (w : OpenWs) (key : Str) : RetsP (AtTarget w.ws.path) (checkoutP E w key) := by
  unfold checkoutP
  refine rets_m fun x => ?_
  split
  · exact nofun
  · split
    · exact nofun
    · exact rets_m fun y => saveAll_rets _

theorem setBranch_path {s s' : TS} {w w' : Ws} {b : Str} (h : Ws.setBranch s w b = .ok (s', w')) : w'.path = w.path := by
  unfold Ws.setBranch at h
  split at h
  · cases h
  · split at h
    · cases h
    · rename_i p _
      cases ha : s.addBranch (BranchInfo.fullName ⟨some w.id, b⟩) p.id with
      | ok s1 => rw [ha] at h; cases h; rfl
      | _ => rw [ha] at h; cases h

theorem createWorkspace_rets (path branch : Str) : RetsP (AtTarget path) (createWorkspace E path branch) := by
  unfold createWorkspace
  refine rets_m fun x => ?_
  dsimp only
  split
  · exact fun w h => nomatch h
  · refine rets_m fun y => rets_m fun wid => ?_
    cases hb : Ws.setBranch y.1 ⟨wid, path, y.2.2, []⟩ branch with
    | ok z =>
      have := saveAll_rets (E := E) ⟨z.1, x.1, x.1.base32, y.2.1, z.2⟩
      rw [show (OpenWs.ws ⟨z.1, x.1, x.1.base32, y.2.1, z.2⟩).path = path from setBranch_path hb] at this
      exact this
    | err e => exact nofun
    | panic => exact nofun
    | diverge => exact nofun

/-- What can have become of the owners while a command with this path runs: the link is as before, gone, of root, or of the user; no other link is touched. -/
def LinkOwners.Kept (me : Nat) (p : Str) (o o' : LinkOwners) : Prop :=
  (∀ q, q ≠ p → o' q = o q) ∧ (o' p = o p ∨ o' p = none ∨ o' p = some 0 ∨ o' p = some me)

theorem linkKept_self {p : Str} (o : LinkOwners) : o.Kept me p o := ⟨fun _ _ => rfl, Or.inl rfl⟩

theorem linkKept_upd {p : Str} {o o' : LinkOwners} {v : Option Nat} (h : o.Kept me p o') (hv : v = none ∨ v = some 0 ∨ v = some me) : o.Kept me p (upd o' p v) := by
  refine ⟨fun q hq => by rw [upd_ne o' v hq]; exact h.1 q hq, Or.inr ?_⟩
  rw [upd_self]
  exact hv

/-- `Expand` gives the link to the user, if it gets to its end. -/
theorem expand_lwp (w : OpenWs) (o : LinkOwners) : lwp (α := Res CErr Unit) me (o.Kept me w.ws.path) (expand E w)
    (fun r o' => o.Kept me w.ws.path o' ∧ ∀ x, r = .ok x → o' = upd o w.ws.path (some me)) o := by
  have k0 := linkKept_self (me := me) (p := w.ws.path) o
  have tail : ∀ o1, o.Kept me w.ws.path o1 → (o1 = o ∨ o1 = upd o w.ws.path none) → lwp (α := Res CErr Unit) me (o.Kept me w.ws.path) (do
      need (← ask (.symlink (E.mountPath w.mount.dir) w.ws.path)) .symlink
      need (← ask (.lchown w.ws.path)) .symlink
      need (← ask (.sys .chdirBack)) .cwd : M Unit) (fun r o' => o.Kept me w.ws.path o' ∧ ∀ x, r = .ok x → o' = upd o w.ws.path (some me)) o1 := by
    intro o1 h1 h1'
    refine ⟨h1, fun a => ?_⟩
    cases a
    · exact ⟨h1, h1, nofun⟩
    have h2 : o.Kept me w.ws.path (upd o1 w.ws.path (some 0)) := linkKept_upd h1 (Or.inr (Or.inl rfl))
    refine ⟨h2, fun a => ?_⟩
    cases a
    · exact ⟨h2, h2, nofun⟩
    have h3 : o.Kept me w.ws.path (upd (upd o1 w.ws.path (some 0)) w.ws.path (some me)) := linkKept_upd h2 (Or.inr (Or.inr rfl))
    refine ⟨h3, fun a => ?_⟩
    cases a
    · exact ⟨h3, h3, nofun⟩
    refine ⟨h3, h3, fun _ _ => ?_⟩
    funext q
    by_cases hq : q = w.ws.path
    · subst hq
      show upd (upd o1 w.ws.path (some 0)) w.ws.path (some me) _ = _
      rw [upd_self, upd_self]
    · show upd (upd o1 w.ws.path (some 0)) w.ws.path (some me) q = _
      rw [upd_ne _ _ hq, upd_ne _ _ hq, upd_ne _ _ hq]
      rcases h1' with rfl | rfl
      · rfl
      · exact upd_ne _ _ hq
  unfold expand
  refine lwp_seq (lwp_calm (A := fun _ => True) (mountP_calms w.mount) k0 fun r => ?_)
  cases r with
  | err e => exact ⟨k0, k0, nofun⟩
  | panic => exact ⟨k0, k0, nofun⟩
  | diverge => exact ⟨k0, k0, nofun⟩
  | ok _ =>
  refine ⟨k0, fun a => ?_⟩
  cases a
  · exact ⟨k0, k0, nofun⟩
  refine ⟨k0, fun a => ?_⟩
  cases a
  · exact ⟨k0, k0, nofun⟩
  refine ⟨k0, fun a => ?_⟩
  cases a
  · exact tail o k0 (Or.inl rfl)
  refine ⟨k0, fun a => ?_⟩
  cases a
  · exact ⟨k0, k0, nofun⟩
  · exact tail _ (linkKept_upd k0 (Or.inl rfl)) (Or.inr rfl)

/-- Removing the old mount touches no link. -/
theorem removeMount_lwp (m : MountObj) {o : LinkOwners} (hI : I o) : lwp (α := Res CErr Unit) me I (removeMount m) (fun _ o' => o' = o) o := by
  unfold removeMount
  refine ⟨hI, fun a => ?_⟩
  cases a
  · exact ⟨hI, rfl⟩
  refine ⟨hI, fun a => ?_⟩
  cases a
  · exact ⟨hI, rfl⟩
  refine ⟨hI, fun a => ?_⟩
  refine ⟨hI, fun a => ?_⟩
  cases a
  · exact ⟨hI, rfl⟩
  refine ⟨hI, fun a => ?_⟩
  cases a
  case fail => exact ⟨hI, rfl⟩
  all_goals
    refine ⟨hI, fun a => ?_⟩
    cases a <;> exact ⟨hI, rfl⟩

/-- What a command does to owners of links: nothing but to the link at its path, and that belongs to the user in the end. -/
def Owning (me : Nat) (p : Str) (x : M α) : Prop :=
  ∀ o : LinkOwners, lwp (α := Res CErr α) me (o.Kept me p) x (fun r o' => o.Kept me p o' ∧ ∀ a, r = .ok a → o' = upd o p (some me)) o

theorem owning_pre {p : Str} {A : Str → Prop} {x : M OpenWs} (hx : Calms A x) (hr : RetsP (AtTarget p) x) {g : OpenWs → M α}
    (hg : ∀ w, w.ws.path = p → Owning me p (g w)) : Owning me p (x >>= g : M α) := by
  intro o
  refine lwp_seq (lwp_calm_rets hx hr (linkKept_self o) fun r hr => ?_)
  cases r with
  | err e => exact ⟨linkKept_self o, linkKept_self o, nofun⟩
  | panic => exact ⟨linkKept_self o, linkKept_self o, nofun⟩
  | diverge => exact ⟨linkKept_self o, linkKept_self o, nofun⟩
  | ok w => exact hg w (hr w rfl) o

theorem owning_expand {w : OpenWs} {g : Unit → M α} (hg : ∀ (J : LinkOwners → Prop) o, J o → lwp (α := Res CErr α) me J (g ()) (fun _ o' => o' = o) o) :
    Owning me w.ws.path (expand E w >>= g : M α) := by
  intro o
  refine lwp_seq (lwp_mono (expand_lwp w o) fun r o' h => ?_)
  cases r with
  | err e => exact ⟨h.1, h.1, nofun⟩
  | panic => exact ⟨h.1, h.1, nofun⟩
  | diverge => exact ⟨h.1, h.1, nofun⟩
  | ok a =>
    refine lwp_mono (hg _ o' h.1) fun r o2 h2 => ?_
    subst h2
    exact ⟨h.1, fun _ _ => h.2 a rfl⟩

theorem owning_move {w0 w : OpenWs} : Owning me w.ws.path (expand E w >>= fun _ => removeMount w0.mount >>= fun _ => Pure.pure (w0, w) : M (OpenWs × OpenWs)) := by
  refine owning_expand fun J o hJ => ?_
  refine lwp_seq (lwp_mono (removeMount_lwp w0.mount hJ) fun r o' h => ?_)
  subst h
  cases r <;> exact ⟨hJ, rfl⟩

theorem commit_owning (cwd : Str) (ci : CommitInfo) : Owning me (Path.abs cwd (lit ".")) (commitCmd E cwd ci) := by
  unfold commitCmd
  refine owning_pre (A := fun _ => True) (getWorkspace_calms E cwd _ trivial) (getWorkspace_rets cwd _) fun w hw => ?_
  rw [← hw]
  refine owning_pre (A := fun _ => True) (commitP_calms E w ci) (commitP_rets w ci) fun w' hw' => ?_
  rw [← hw']
  exact owning_move

theorem checkout_owning (cwd key : Str) : Owning me (Path.abs cwd (lit ".")) (checkoutCmd E cwd key) := by
  unfold checkoutCmd
  refine owning_pre (A := fun _ => True) (getWorkspace_calms E cwd _ trivial) (getWorkspace_rets cwd _) fun w hw => ?_
  rw [← hw]
  refine owning_pre (A := fun _ => True) (checkoutP_calms E w key) (checkoutP_rets w key) fun w' hw' => ?_
  rw [← hw']
  exact owning_move

theorem owning_new {w : OpenWs} : Owning me w.ws.path (expand E w >>= fun _ => Pure.pure w : M OpenWs) :=
  owning_expand fun _ _ hJ => ⟨hJ, rfl⟩

theorem init_owning (path branch : Str) : Owning me path (initCmd E path branch) := by
  have rest : Owning me path (createWorkspace E path branch >>= fun w => expand E w >>= fun _ => Pure.pure w : M OpenWs) := by
    refine owning_pre (A := fun _ => True) (createWorkspace_calms E path branch) (createWorkspace_rets path branch) fun w hw => ?_
    rw [← hw]
    exact owning_new
  intro o
  unfold initCmd
  refine ⟨linkKept_self o, fun a => ?_⟩
  cases a
  · exact rest o
  refine ⟨linkKept_self o, fun a => ?_⟩
  cases a
  · exact ⟨linkKept_self o, linkKept_self o, nofun⟩
  · exact rest o

theorem clone_owning (cwd source target : Str) : Owning me target (cloneCmd E cwd source target) := by
  intro o
  unfold cloneCmd
  refine lwp_seq (lwp_calm (A := fun _ => True) (getWorkspace_calms E cwd _ trivial) (linkKept_self o) fun r => ?_)
  cases r with
  | err e => exact ⟨linkKept_self o, linkKept_self o, nofun⟩
  | panic => exact ⟨linkKept_self o, linkKept_self o, nofun⟩
  | diverge => exact ⟨linkKept_self o, linkKept_self o, nofun⟩
  | ok w =>
  refine owning_pre (A := fun _ => True) (cloneP_calms E w target) (cloneP_rets w target) (fun w' hw' => ?_) o
  rw [← hw']
  exact owning_new

/-! ## The claims -/

/-- **C111.** On every disk and whatever fails: when a commit reports success, the link of its workspace belongs to the user who gave the command, whoever owned it before. No other link changes its owner. -/
theorem C111_commit {d d' : Disk} {o o' : LinkOwners} {cwd : Str} {ci : CommitInfo} {x : OpenWs × OpenWs} (h : ExecBy (α := Res CErr _) E f (commitCmd E cwd ci) d o (.ok x) d' o') :
    o' = upd o (Path.abs cwd (lit ".")) (some E.owner) :=
  (lwp_exec h (commit_owning cwd ci o)).2 x rfl

/-- **C111.** The same for a checkout. -/
theorem C111_checkout {d d' : Disk} {o o' : LinkOwners} {cwd key : Str} {x : OpenWs × OpenWs} (h : ExecBy (α := Res CErr _) E f (checkoutCmd E cwd key) d o (.ok x) d' o') :
    o' = upd o (Path.abs cwd (lit ".")) (some E.owner) :=
  (lwp_exec h (checkout_owning cwd key o)).2 x rfl

/-- **C111.** The link of a new workspace belongs to the user who made it. -/
theorem C111_init {d d' : Disk} {o o' : LinkOwners} {path branch : Str} {w : OpenWs} (h : ExecBy (α := Res CErr _) E f (initCmd E path branch) d o (.ok w) d' o') :
    o' = upd o path (some E.owner) :=
  (lwp_exec h (init_owning path branch o)).2 w rfl

/-- **C111.** So does the link of a clone, whoever owns its source. -/
theorem C111_clone {d d' : Disk} {o o' : LinkOwners} {cwd source target : Str} {w : OpenWs} (h : ExecBy (α := Res CErr _) E f (cloneCmd E cwd source target) d o (.ok w) d' o') :
    o' = upd o target (some E.owner) :=
  (lwp_exec h (clone_owning cwd source target o)).2 w rfl

/-- **C111.** `branch` and `tag` change no owner, however they end. -/
theorem C111_edit {d d' : Disk} {o o' : LinkOwners} {cwd : Str} {es : List Edit} {r : Res CErr TS} (h : ExecBy (α := Res CErr _) E f (editCmd E cwd es) d o r d' o') : o' = o := by
  refine lwp_exec (I := fun _ => True) (Q := fun _ o' => o' = o) h ?_
  unfold editCmd
  refine lwp_seq (lwp_calm (A := fun _ => True) (getWorkspace_calms E cwd _ trivial) trivial fun r => ?_)
  cases r with
  | err e => exact ⟨trivial, rfl⟩
  | panic => exact ⟨trivial, rfl⟩
  | diverge => exact ⟨trivial, rfl⟩
  | ok w => exact lwp_calm (A := fun _ => True) (edit_away _ _ es _) trivial fun _ => rfl

/-- The four commands that make links, with the path of the link. -/
inductive Links (E : Env) : Str → {α : Type} → M α → Prop where
  | init (path branch : Str) : Links E path (initCmd E path branch)
  | clone (cwd source target : Str) : Links E target (cloneCmd E cwd source target)
  | commit (cwd : Str) (ci : CommitInfo) : Links E (Path.abs cwd (lit ".")) (commitCmd E cwd ci)
  | checkout (cwd key : Str) : Links E (Path.abs cwd (lit ".")) (checkoutCmd E cwd key)

/-- **C111.** However such a command ends, and wherever it is killed, it has touched no link but that at its own path, and it has given that to nobody but its user: it is as before, gone, root's or the user's. -/
theorem C111_no_other {p : Str} {x : M α} (hx : Links E p x) {d d' : Disk} {o o' : LinkOwners}
    (h : (∃ r, ExecBy (α := Res CErr α) E f x d o r d' o') ∨ StopsBy (α := Res CErr α) E f x d o d' o') :
    (∀ q, q ≠ p → o' q = o q) ∧ (o' p = o p ∨ o' p = none ∨ o' p = some 0 ∨ o' p = some E.owner) := by
  have ho : Owning E.owner p x := by
    cases hx with
    | init path branch => exact init_owning _ _
    | clone cwd source target => exact clone_owning _ _ _
    | commit cwd ci => exact commit_owning _ _
    | checkout cwd key => exact checkout_owning _ _
  rcases h with ⟨r, h⟩ | h
  · exact (lwp_exec h (ho o)).1
  · exact lwp_stops h (ho o)

theorem execBy_ok {x : M α} {g : α → M β} {d d' : Disk} {o o' : LinkOwners} {b : β} (h : ExecBy (α := Res CErr β) E f (x >>= g : M β) d o (.ok b) d' o') :
    ∃ a d1 o1, ExecBy (α := Res CErr α) E f x d o (.ok a) d1 o1 ∧ ExecBy (α := Res CErr β) E f (g a) d1 o1 (.ok b) d' o' := by
  obtain ⟨r, d1, o1, h1, h2⟩ := execBy_bind h
  cases r with
  | ok a => exact ⟨a, d1, o1, h1, h2⟩
  | err e => cases h2
  | panic => cases h2
  | diverge => cases h2

theorem stopsBy_ok {x : M α} {g : α → M β} {d d1 d' : Disk} {o o1 o' : LinkOwners} {a : α} (h : ExecBy (α := Res CErr α) E f x d o (.ok a) d1 o1)
    (h' : StopsBy (α := Res CErr β) E f (g a) d1 o1 d' o') : StopsBy (α := Res CErr β) E f (x >>= g : M β) d o d' o' :=
  stopsBy_trans h h'

theorem stopsBy_left {x : Prog α} {g : α → Prog β} {d d' : Disk} {o o' : LinkOwners} (h : StopsBy E f x d o d' o') : StopsBy E f (x.bind g) d o d' o' := by
  induction h with
  | here p d o => exact .here _ d o
  | op hs _ ih => exact .op hs ih

/-- In every expansion there is a moment when the link is there and root's. -/
theorem expand_cut {w : OpenWs} {d d' : Disk} {o o' : LinkOwners} {x : Unit} (hp : ¬ ∃ n, E.Inside w.ws.path n)
    (h : ExecBy (α := Res CErr Unit) E f (expand E w) d o (.ok x) d' o') :
    ∃ d1 o1, StopsBy (α := Res CErr Unit) E f (expand E w) d o d1 o1 ∧ d1.user w.ws.path = .link (E.mountPath w.mount.dir) ∧ o1 w.ws.path = some 0 := by
  have tail : ∀ {d d' o o'}, ExecBy (α := Res CErr Unit) E f (do
      need (← ask (.symlink (E.mountPath w.mount.dir) w.ws.path)) .symlink
      need (← ask (.lchown w.ws.path)) .symlink
      need (← ask (.sys .chdirBack)) .cwd : M Unit) d o (.ok x) d' o' →
      ∃ d1 o1, StopsBy (α := Res CErr Unit) E f (do
      need (← ask (.symlink (E.mountPath w.mount.dir) w.ws.path)) .symlink
      need (← ask (.lchown w.ws.path)) .symlink
      need (← ask (.sys .chdirBack)) .cwd : M Unit) d o d1 o1 ∧ d1.user w.ws.path = .link (E.mountPath w.mount.dir) ∧ o1 w.ws.path = some 0 := by
    intro d d' o o' h
    cases h with
    | @op c k _ d1 _ _ _ a _ hs he =>
    cases a with
    | false => cases he
    | true =>
    refine ⟨d1, upd o w.ws.path (some 0), .op (x := true) hs (.here _ _ _), ?_, upd_self _ _ _⟩
    rcases hs with ⟨_, ⟨_, _, rfl⟩ | ⟨h, _⟩⟩ | ⟨h, _⟩
    · exact upd_self _ _ _
    · cases h
    · exact absurd h hp
  unfold expand at h ⊢
  obtain ⟨_, d1, o1, h1, h⟩ := execBy_ok h
  cases h with
  | @op _ _ _ d2 _ _ _ a _ s2 h =>
  cases a with
  | false => cases h
  | true =>
  cases h with
  | @op _ _ _ d3 _ _ _ a _ s3 h =>
  cases a with
  | false => cases h
  | true =>
  cases h with
  | @op _ _ _ d4 _ _ _ a _ s4 h =>
  cases a with
  | false =>
    obtain ⟨d', o', k1, k2⟩ := tail h
    exact ⟨d', o', stopsBy_ok h1 (.op (x := true) s2 (.op (x := true) s3 (.op (x := false) s4 k1))), k2⟩
  | true =>
  cases h with
  | @op _ _ _ d5 _ _ _ a _ s5 h =>
  cases a with
  | false => cases h
  | true =>
    obtain ⟨d', o', k1, k2⟩ := tail h
    exact ⟨d', o', stopsBy_ok h1 (.op (x := true) s2 (.op (x := true) s3 (.op (x := true) s4 (.op (x := true) s5 k1)))), k2⟩

/-- **C111 (violated).** In every commit that succeeds there is a moment when the link of the workspace has been made again and belongs to root. If the process is killed there, it stays root's, whoever owned it before. -/
theorem C111_violated_killed {d d' : Disk} {o o' : LinkOwners} {cwd : Str} (hout : E.Outside (Path.abs cwd (lit "."))) {ci : CommitInfo} {x : OpenWs × OpenWs}
    (h : ExecBy (α := Res CErr _) E f (commitCmd E cwd ci) d o (.ok x) d' o') :
    ∃ d1 o1, StopsBy (α := Res CErr _) E f (commitCmd E cwd ci) d o d1 o1 ∧
      d1.user (Path.abs cwd (lit ".")) = .link (E.mountPath x.2.mount.dir) ∧ o1 (Path.abs cwd (lit ".")) = some 0 := by
  unfold commitCmd at h ⊢
  obtain ⟨w, d1, o1, h1, h⟩ := execBy_ok h
  obtain ⟨w', d2, o2, h2, h⟩ := execBy_ok h
  have e1 : w.ws.path = Path.abs cwd (lit ".") := lwp_exec (I := fun _ => True) (Q := fun r _ => AtTarget (Path.abs cwd (lit ".")) r) h1
    (lwp_calm_rets (A := fun _ => True) (getWorkspace_calms E cwd _ trivial) (getWorkspace_rets cwd _) trivial fun _ h => h) w rfl
  have e2 : w'.ws.path = w.ws.path := lwp_exec (I := fun _ => True) (Q := fun r _ => AtTarget w.ws.path r) h2
    (lwp_calm_rets (A := fun _ => True) (commitP_calms E w ci) (commitP_rets w ci) trivial fun _ h => h) w' rfl
  obtain ⟨_, d3, o3, h3, h⟩ := execBy_ok h
  have ex : x = (w, w') := by
    obtain ⟨_, _, _, _, h⟩ := execBy_ok h
    cases h
    rfl
  subst ex
  have hp : ¬ ∃ n, E.Inside w'.ws.path n := by
    rw [e2, e1]
    rintro ⟨n, hn⟩
    exact off_of_outside hout n hn
  obtain ⟨d4, o4, k1, k2, k3⟩ := expand_cut hp h3
  rw [e2, e1] at k2 k3
  exact ⟨d4, o4, stopsBy_ok h1 (stopsBy_ok h2 (stopsBy_left k1)), k2, k3⟩

end
end Verif
