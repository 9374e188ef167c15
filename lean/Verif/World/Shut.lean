import Verif.World.WholeInv
/-!
# A space that cannot be read stays that way

A program saves the tree of a space only after it has made the directory of the space or has read a tree from it. So nobody
ever writes to a space whose tree file cannot be read.
-/
set_option autoImplicit false
namespace Verif
open M TS Json

/-! ## Programs that save no tree -/

/-- The call does not write to a tree file. -/
def Cmd.silent : Cmd → Bool
  | .truncTree _ | .writeTree .. => false
  | _ => true

/-- The program never writes to a tree file. -/
def Silent {α : Type} : Prog α → Prop
  | .ret _ => True
  | .op c k => c.silent = true ∧ ∀ x, Silent (k x)

/-- The same for a program that may fail. -/
def Mute {α : Type} (x : M α) : Prop := Silent (α := Res CErr α) x

section
variable {α β : Type}

theorem silent_prog_bind {p : Prog α} {g : α → Prog β} (h : Silent p) (h' : ∀ a, Silent (g a)) : Silent (p.bind g) := by
  induction p with
  | ret a => exact h' a
  | op c k ih => exact ⟨h.1, fun x => ih x (h.2 x)⟩

theorem silent_bind {x : M α} {g : α → M β} (h : Mute x) (h' : ∀ a, Mute (g a)) :
    Mute (x >>= g : M β) := by
  refine silent_prog_bind h fun r => ?_
  cases r with
  | ok a => exact h' a
  | _ => trivial

theorem silent_pure {a : α} : Mute (Pure.pure a : M α) := trivial
theorem silent_fail {e : CErr} : Mute (M.fail e : M α) := trivial
theorem silent_ret {r : Res CErr α} : Mute (Prog.ret r : M α) := trivial
theorem silent_lift {ε : Type} {g : ε → CErr} {r : Res ε α} : Mute (M.lift g r : M α) := by cases r <;> trivial
theorem silent_need {b : Bool} {e : CErr} : Mute (M.need b e) := by cases b <;> trivial
theorem silent_ask {c : Cmd} (h : c.silent = true) : Mute (M.ask c) := ⟨h, fun _ => trivial⟩

/-- A call and a test. -/
theorem silent_must {c : Cmd} {g : c.Ans → Bool} {e : CErr} {m : Unit → M β} (h : c.silent = true) (hm : Mute (m ())) :
    Mute (M.ask c >>= fun x => M.need (g x) e >>= m : M β) :=
  silent_bind (silent_ask h) fun _ => silent_bind silent_need fun _ => hm

theorem layerCreate_silent : Mute layerCreate := by
  unfold layerCreate
  refine silent_bind (silent_ask (by rfl)) fun u => silent_must (by rfl) (silent_bind (silent_ask (by rfl)) fun b => ?_)
  split
  · exact silent_pure
  · exact silent_must (by rfl) silent_pure

theorem createLayer_silent (s : TS) (base : UID) : Mute (createLayer s base) := by
  unfold createLayer
  split
  · exact silent_fail
  · exact silent_bind layerCreate_silent fun u => silent_bind silent_lift fun _ => silent_pure

theorem layerChain_silent (heap : List NodeObj) : ∀ (n : Nat) (r : Option Ref), Mute (layerChain heap n r)
  | n, none => by cases n <;> exact silent_pure
  | 0, some _ => silent_ret
  | n + 1, some r => by
    rw [layerChain]
    split
    · exact silent_ret
    · exact silent_must (by rfl) (silent_bind (layerChain_silent heap n _) fun _ => silent_pure)

theorem createMount_silent (s : TS) (u : UID) : Mute (createMount s u) := by
  unfold createMount
  refine silent_bind (silent_ask (by rfl)) fun m => silent_must (by rfl) ?_
  unfold spaceCreateMount
  refine silent_bind (createLayer_silent s u) fun x => silent_bind (layerChain_silent _ _ _) fun l => ?_
  split
  · exact silent_pure
  · exact silent_fail

theorem saveInfo_silent (E : Env) (w : OpenWs) : Mute (saveInfo E w) := by
  unfold saveInfo
  split
  · exact silent_ret
  · exact silent_must (by rfl) (silent_bind (silent_ask (by rfl)) fun _ => silent_need)

theorem mountP_silent (m : MountObj) : Mute (mountP m) := by
  unfold mountP
  split
  · exact silent_fail
  · refine silent_bind (silent_ask (by rfl)) fun b => ?_
    have tail : ∀ l : Mnt, Mute (do
        need (← ask (.mountOverlay m.dir l.upper l.lowers)) .mount
        need (← ask (.chownMerged m.dir)) .mount : M Unit) := fun l => silent_must (by rfl) (silent_bind (silent_ask (by rfl)) fun _ => silent_need)
    have middle : ∀ l : Mnt, Mute (do
        if !(← ask (.isDirWork m.dir)) then
          need (okMkdir (← ask (.mkdirWork m.dir))) .mount
        need (← ask (.mountOverlay m.dir l.upper l.lowers)) .mount
        need (← ask (.chownMerged m.dir)) .mount : M Unit) := fun l => by
      refine silent_bind (silent_ask (by rfl)) fun b => ?_
      split
      · exact silent_bind (silent_ask (by rfl)) fun _ => silent_bind silent_need fun _ => tail l
      · exact tail l
    split
    · exact silent_bind (silent_ask (by rfl)) fun _ => silent_bind silent_need fun _ => middle _
    · exact middle _

theorem expand_silent (E : Env) (w : OpenWs) : Mute (expand E w) := by
  unfold expand
  refine silent_bind (mountP_silent _) fun _ => silent_must (by rfl) (silent_must (by rfl) (silent_bind (silent_ask (by rfl)) fun b => ?_))
  have tail : Mute (do
      need (← ask (.symlink (E.mountPath w.mount.dir) w.ws.path)) .symlink
      need (← ask (.lchown w.ws.path)) .symlink
      need (← ask (.sys .chdirBack)) .cwd : M Unit) :=
    silent_must (by rfl) (silent_must (by rfl) (silent_bind (silent_ask (by rfl)) fun _ => silent_need))
  split
  · exact silent_must (by rfl) tail
  · exact tail

theorem removeMount_silent (m : MountObj) : Mute (removeMount m) := by
  unfold removeMount
  refine silent_must (by rfl) (silent_must (by rfl) (silent_bind (silent_ask (by rfl)) fun _ => silent_must (by rfl) (silent_bind (silent_ask (by rfl)) fun a => ?_)))
  cases a with
  | fail => exact silent_fail
  | _ => exact silent_bind (silent_ask (by rfl)) fun _ => silent_need

theorem linkOf_silent (p : Str) : Mute (linkOf p) := by
  unfold linkOf
  refine silent_bind (silent_ask (by rfl)) fun b => ?_
  split
  · refine silent_bind (silent_ask (by rfl)) fun t => ?_
    split
    · exact silent_pure
    · exact silent_fail
  · exact silent_pure

theorem loadInfo_silent (m : UID) : Mute (loadInfo m) := by
  unfold loadInfo
  refine silent_bind (silent_ask (by rfl)) fun r => ?_
  split
  · exact silent_lift
  · exact silent_fail

end

/-! ## Who saves a tree -/

/-- The program made the directory of the space or read a tree from it. -/
def HasTree (tr : Trace) (n : Str) : Prop :=
  (⟨.mkdirSpace n, true⟩ : Ev) ∈ tr ∨ ∃ t s, (⟨.readTree n, t⟩ : Ev) ∈ tr ∧ spaceLoad t = .ok s

/-- Only then does it write to the tree file. -/
def SaveGuard (tr : Trace) : Cmd → Prop
  | .truncTree n => HasTree tr n
  | .writeTree n _ => HasTree tr n
  | _ => True

theorem saveGuard_silent {tr : Trace} {c : Cmd} (h : c.silent = true) : SaveGuard tr c := by
  cases c <;> first | trivial | cases h

/-- Everything before stays. -/
abbrev Longer (tr tr' : Trace) : Prop := ∀ e ∈ tr, e ∈ tr'

theorem grows_holds {tr tr' : Trace} {n : Str} (h : Longer tr tr') (hh : HasTree tr n) : HasTree tr' n :=
  hh.imp (h _) fun ⟨t, s, h1, h2⟩ => ⟨t, s, h _ h1, h2⟩

section
variable {E : Env}

theorem silent_twp {α : Type} {p : Prog α} (h : Silent p) (tr : Trace) : twp AnyAns SaveGuard p (fun _ tr' => Longer tr tr') tr := by
  induction p generalizing tr with
  | ret a => exact fun e he => he
  | op c k ih =>
    refine ⟨saveGuard_silent h.1, fun x _ => twp_mono (ih x (h.2 x) _) fun _ tr' hg e he => ?_⟩
    exact hg e (List.mem_cons_of_mem _ he)

theorem silent_tok {α : Type} {x : M α} (h : Mute x) {tr : Trace} : tok AnyAns SaveGuard x (fun _ tr' => Longer tr tr') tr :=
  twp_mono (silent_twp h tr) fun _ _ h _ _ => h

theorem spaceSave_held {n : Str} {s : TS} {tr : Trace} (h : HasTree tr n) : tok AnyAns SaveGuard (spaceSave n s) (fun _ tr' => Longer tr tr') tr := by
  unfold spaceSave
  refine tok_bind (tok_ask trivial fun b _ => ?_)
  refine tok_must (grows_holds (fun e he => List.mem_cons_of_mem _ he) h) fun x _ hx => ?_
  refine tok_bind (tok_ask (grows_holds (fun e he => List.mem_cons_of_mem _ (List.mem_cons_of_mem _ he)) h) fun y _ => tok_need fun _ e he => ?_)
  simp [he]

theorem saveAll_held {w : OpenWs} {tr : Trace} (h : HasTree tr w.spaceDir) : tok AnyAns SaveGuard (saveAll E w) (fun _ tr' => Longer tr tr') tr := by
  unfold saveAll
  refine tok_bind (tok_mono (spaceSave_held h) fun _ tr1 h1 => ?_)
  refine tok_bind (tok_mono (silent_tok (saveInfo_silent E w)) fun _ tr2 h2 => ?_)
  exact tok_pure fun e he => h2 e (h1 e he)

theorem createSpace_held (tr : Trace) : tok AnyAns SaveGuard createSpace (fun x tr' => HasTree tr' x.1.base32) tr := by
  unfold createSpace
  refine tok_bind (tok_ask trivial fun i _ => ?_)
  refine tok_must trivial fun x _ hx => ?_
  subst hx
  unfold spaceInitP
  refine tok_bind (tok_mono (silent_tok (silent_bind layerCreate_silent fun _ => silent_lift)) fun s tr1 h1 => ?_)
  exact tok_pure (Or.inl (h1 _ (by simp)))

theorem createWorkspace_held (path branch : Str) (tr : Trace) : tok AnyAns SaveGuard (createWorkspace E path branch) (fun _ _ => True) tr := by
  unfold createWorkspace
  refine tok_bind (tok_mono (createSpace_held tr) ?_)
  rintro ⟨i, s⟩ tr1 h1
  simp only
  split
  · exact tok_panic
  · refine tok_bind (tok_mono (silent_tok (createMount_silent s _)) ?_)
    rintro ⟨s1, mount, head⟩ tr2 h2
    refine tok_bind (tok_ask trivial fun wid _ => ?_)
    refine tok_bind (tok_lift ?_)
    rintro ⟨s2, w⟩ _
    exact tok_mono (saveAll_held (w := ⟨s2, i, i.base32, mount, w⟩) (grows_holds (fun e he => List.mem_cons_of_mem _ (h2 e he)) h1)) fun _ _ _ => trivial

theorem getWorkspace_held (cwd path : Str) (tr : Trace) : tok AnyAns SaveGuard (getWorkspace E cwd path) (fun w tr' => HasTree tr' w.spaceDir) tr := by
  unfold getWorkspace
  refine tok_bind (tok_mono (silent_tok (linkOf_silent _)) fun link tr1 _ => ?_)
  refine tok_bind (tok_lift fun m _ => ?_)
  refine tok_bind (tok_mono (silent_tok (loadInfo_silent m)) fun i tr2 _ => ?_)
  refine tok_bind (tok_lift fun wid _ => ?_)
  refine tok_bind (tok_lift fun sid _ => ?_)
  refine tok_bind (tok_ask trivial fun t _ => ?_)
  refine tok_bind (tok_lift fun s hs => ?_)
  refine tok_bind (tok_lift fun h _ => ?_)
  split
  · exact tok_fail
  · exact tok_pure (Or.inr ⟨t, s, by simp, hs⟩)

theorem moveBranch_silent (s : TS) (b : BranchInfo) (r : Ref) : Mute (moveBranch s b r) := by
  unfold moveBranch
  split
  · exact silent_bind silent_lift fun _ => silent_lift
  · exact silent_pure

theorem commitP_held {w : OpenWs} {ci : CommitInfo} {tr : Trace} (h : HasTree tr w.spaceDir) : tok AnyAns SaveGuard (commitP E w ci) (fun _ _ => True) tr := by
  unfold commitP
  split
  · exact tok_panic
  split
  · exact tok_panic
  refine tok_bind (tok_mono (silent_tok (createMount_silent _ _)) ?_)
  rintro ⟨s2, mount, head⟩ tr2 h2
  refine tok_bind (tok_mono (silent_tok (moveBranch_silent s2 _ head)) fun s3 tr3 h3 => ?_)
  exact tok_mono (saveAll_held (grows_holds (fun e he => h3 e (h2 e he)) h)) fun _ _ _ => trivial

theorem checkoutP_held {w : OpenWs} {key : Str} {tr : Trace} (h : HasTree tr w.spaceDir) : tok AnyAns SaveGuard (checkoutP E w key) (fun _ _ => True) tr := by
  unfold checkoutP
  refine tok_bind (tok_lift fun x _ => ?_)
  split
  · exact tok_fail
  · split
    · exact tok_panic
    · refine tok_bind (tok_mono (silent_tok (createMount_silent _ _)) ?_)
      rintro ⟨s2, mount, head⟩ tr2 h2
      exact tok_mono (saveAll_held (grows_holds h2 h)) fun _ _ _ => trivial

theorem cloneP_held {w : OpenWs} {target : Str} {tr : Trace} (h : HasTree tr w.spaceDir) : tok AnyAns SaveGuard (cloneP E w target) (fun _ _ => True) tr := by
  unfold cloneP
  refine tok_bind (tok_lift fun p _ => ?_)
  refine tok_bind (tok_mono (silent_tok (createMount_silent _ _)) ?_)
  rintro ⟨s2, mount, head⟩ tr2 h2
  refine tok_bind (tok_ask trivial fun wid _ => ?_)
  exact tok_mono (saveAll_held (grows_holds (fun e he => List.mem_cons_of_mem _ (h2 e he)) h)) fun _ _ _ => trivial

theorem editAll_held (dir : Str) (w : Ws) : ∀ (es : List Edit) (s : TS) {tr : Trace}, HasTree tr dir →
    tok AnyAns SaveGuard (editAll dir w es s) (fun _ _ => True) tr
  | [], s, tr, _ => by rw [editAll]; exact tok_pure trivial
  | e :: es, s, tr, h => by
    rw [editAll]
    refine tok_bind (tok_lift fun s' _ => ?_)
    exact tok_bind (tok_mono (spaceSave_held h) fun _ tr1 h1 => editAll_held dir w es s' (grows_holds h1 h))

theorem silent_true {α : Type} {x : M α} (h : Mute x) {tr : Trace} : tok AnyAns SaveGuard x (fun _ _ => True) tr :=
  tok_mono (silent_tok h) fun _ _ _ => trivial

theorem initCmd_held (path branch : Str) (tr : Trace) : tok AnyAns SaveGuard (initCmd E path branch) (fun _ _ => True) tr := by
  unfold initCmd
  have tail : ∀ {tr : Trace}, tok AnyAns SaveGuard (do
      let w ← createWorkspace E path branch
      expand E w
      return w : M OpenWs) (fun _ _ => True) tr := fun {tr} =>
    tok_bind (tok_mono (createWorkspace_held path branch tr) fun w tr1 _ => silent_true (silent_bind (expand_silent E w) fun _ => silent_pure))
  refine tok_bind (tok_ask trivial fun b _ => ?_)
  split
  · exact tok_must trivial fun _ _ _ => tail
  · exact tail

/-- Every command keeps to it. -/
theorem command_held (c : Command) : tok AnyAns SaveGuard (c.prog E) (fun _ _ => True) [] := by
  cases c with
  | init path branch => exact tok_bind (tok_mono (initCmd_held path branch []) fun _ _ _ => tok_pure trivial)
  | clone cwd source target =>
    refine tok_bind ?_
    unfold cloneCmd
    refine tok_bind (tok_mono (getWorkspace_held cwd source []) fun w tr1 h1 => ?_)
    refine tok_bind (tok_mono (cloneP_held h1) fun w' tr2 _ => ?_)
    exact tok_mono (silent_true (silent_bind (expand_silent E w') fun _ => silent_pure)) fun _ _ _ => tok_pure trivial
  | commit cwd ci =>
    refine tok_bind ?_
    unfold commitCmd
    refine tok_bind (tok_mono (getWorkspace_held cwd _ []) fun w tr1 h1 => ?_)
    refine tok_bind (tok_mono (commitP_held h1) fun w' tr2 _ => ?_)
    exact tok_mono (silent_true (silent_bind (expand_silent E w') fun _ => silent_bind (removeMount_silent _) fun _ => silent_pure)) fun _ _ _ => tok_pure trivial
  | checkout cwd key =>
    refine tok_bind ?_
    unfold checkoutCmd
    refine tok_bind (tok_mono (getWorkspace_held cwd _ []) fun w tr1 h1 => ?_)
    refine tok_bind (tok_mono (checkoutP_held h1) fun w' tr2 _ => ?_)
    exact tok_mono (silent_true (silent_bind (expand_silent E w') fun _ => silent_bind (removeMount_silent _) fun _ => silent_pure)) fun _ _ _ => tok_pure trivial
  | edit cwd es =>
    refine tok_bind ?_
    unfold editCmd
    refine tok_bind (tok_mono (getWorkspace_held cwd _ []) fun w tr1 h1 => ?_)
    exact tok_mono (editAll_held _ _ es _ h1) fun _ _ _ => tok_pure trivial
  | look cwd => exact tok_bind (tok_mono (getWorkspace_held cwd _ []) fun _ _ _ => tok_pure trivial)

/-! ## The system -/

/-- The space is there, and however its tree file is read, no tree comes out. -/
def Shut (f : Faults) (d : Disk) (n : Str) : Prop :=
  d.space n ≠ none ∧ ∀ b, (d.space n = some (some b) ∨ (f.io = true ∧ ∃ full, d.space n = some (some full) ∧ b <+: full)) → ∀ s, spaceLoad (.ok b) ≠ .ok s

/-- No command that goes on made the space or read a tree from it. -/
structure Unheld (n : Str) (w : World) : Prop where
  free : ∀ i p, w.procs i = some p → (∃ r, p.prog = .ret r) ∨ ¬ HasTree p.tr n
  guard : ∀ i p, w.procs i = some p → twp AnyAns SaveGuard p.prog (fun _ _ => True) p.tr

theorem unheld_idle (n : Str) {w : World} (h : ∀ i, w.procs i = .none) : Unheld n w :=
  ⟨fun i p hp => (nomatch (h i).symm.trans hp), fun i p hp => (nomatch (h i).symm.trans hp)⟩

theorem upd_cases {γ : Type} {g : Nat → Option γ} {i j : Nat} {v : Option γ} {p : γ} (h : upd g i v j = some p) :
    v = some p ∨ g j = some p := by
  by_cases hj : j = i
  · subst hj; rw [upd_self] at h; exact Or.inl h
  · rw [upd_ne _ _ hj] at h; exact Or.inr h

/-- What changes a space. -/
theorem eff_space_cause {e : Ev} {d d' : Disk} (h : Effect e d d') (n : Str) :
    d'.space n = d.space n ∨ (d.space n = .none) ∨ (∃ x : Bool, e = ⟨.truncTree n, x⟩) ∨ ∃ b, ∃ x : Bool, e = ⟨.writeTree n b, x⟩ := by
  cases h with
  | @mkSpace n' _ h0 =>
    by_cases hx : n = n'
    · subst hx; exact Or.inr (Or.inl h0)
    · exact Or.inl (by simp only [Disk.setSpace, upd_ne _ _ hx])
  | @truncTree n' _ _ =>
    by_cases hx : n = n'
    · subst hx; exact Or.inr (Or.inr (Or.inl ⟨true, rfl⟩))
    · exact Or.inl (by simp only [Disk.setSpace, upd_ne _ _ hx])
  | @writeTree n' b q old y _ _ _ _ =>
    by_cases hx : n = n'
    · subst hx; exact Or.inr (Or.inr (Or.inr ⟨b, y, rfl⟩))
    · exact Or.inl (by simp only [Disk.setSpace, upd_ne _ _ hx])
  | @upper n m _ _ c hm => exact Or.inl (by rw [(put_rest _ _ c).1])
  | @wipe n m _ c w hm => exact Or.inl (by simp only [Disk.setMdir]; rw [(put_rest _ _ c).1])
  | _ => exact Or.inl rfl

theorem shut_next {f : Faults} {n : Str} {w w' : World} (hs : Shut f w.disk n) (hu : Unheld n w) (hn : Sys.Next E f w w') :
    w'.disk.space n = w.disk.space n ∧ Unheld n w' := by
  cases hn with
  | start i c hi =>
    refine ⟨rfl, fun j p hp => ?_, fun j p hp => ?_⟩
    · rcases upd_cases hp with h | h
      · cases h
        refine Or.inr ?_
        rintro (h | ⟨_, _, h, _⟩) <;> cases h
      · exact hu.free j p h
    · rcases upd_cases hp with h | h
      · cases h
        exact twp_mono (command_held c) fun _ _ _ => trivial
      · exact hu.guard j p h
  | @run i p c k x d' o hp hk hst =>
    have hg := hu.guard i p hp
    rw [hk] at hg
    have hh : ¬ HasTree p.tr n := by
      rcases hu.free i p hp with ⟨r, h⟩ | h
      · rw [hk] at h; cases h
      · exact h
    refine ⟨?_, fun j q hq => ?_, fun j q hq => ?_⟩
    · rcases eff_space_cause (step_effect hst) n with h | h | ⟨y, h⟩ | ⟨b, y, h⟩
      · exact h
      · exact absurd h hs.1
      · cases h; exact absurd hg.1 hh
      · cases h; exact absurd hg.1 hh
    · rcases upd_cases hq with h | h
      · cases h
        refine Or.inr ?_
        rintro (h | ⟨t, s, h, hl⟩)
        · rcases List.mem_cons.1 h with h | h
          · cases h
            rcases hst with ⟨_, h0, _⟩ | ⟨h0, _⟩
            · exact hs.1 h0
            · cases h0
          · exact hh (Or.inl h)
        · rcases List.mem_cons.1 h with h | h
          · cases h
            obtain ⟨_, h0⟩ := hst
            cases t with
            | ok b => exact hs.2 b (Or.inl h0) s hl
            | notExist => cases hl
            | failed b => exact hs.2 b (Or.inr h0) s hl
          · exact hh (Or.inr ⟨t, s, h, hl⟩)
      · exact hu.free j q h
    · rcases upd_cases hq with h | h
      · cases h
        exact hg.2 x trivial
      · exact hu.guard j q h
  | kill i =>
    refine ⟨rfl, fun j p hp => ?_, fun j p hp => ?_⟩
    · rcases upd_cases hp with h | h
      · cases h
      · exact hu.free j p h
    · rcases upd_cases hp with h | h
      · cases h
      · exact hu.guard j p h
  | outside ho =>
    refine ⟨?_, hu.free, hu.guard⟩
    cases ho with
    | write c hm => show (Disk.put _ _ c).space n = _; rw [(put_rest _ _ c).1]
    | _ => rfl

theorem shut_congr {f : Faults} {n : Str} {d d' : Disk} (h : Shut f d n) (he : d'.space n = d.space n) : Shut f d' n := by
  unfold Shut at *; rw [he]; exact h

theorem shut_steps {f : Faults} {n : Str} {w w' : World} (hs : Shut f w.disk n) (hu : Unheld n w) (hn : Sys.Steps E f w w') :
    w'.disk.space n = w.disk.space n ∧ Unheld n w' := by
  induction hn with
  | refl => exact ⟨rfl, hu⟩
  | step _ hn ih =>
    obtain ⟨h1, h2⟩ := ih
    obtain ⟨h3, h4⟩ := shut_next (shut_congr hs h1) h2 hn
    exact ⟨h3.trans h1, h4⟩

end
end Verif
