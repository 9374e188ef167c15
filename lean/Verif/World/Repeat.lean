import Verif.World.PoolRec
/-!
# Commands that draw an ID that is in use

All commands that make something draw at least two IDs, and the second is that of a layer. Until its directory is made they
touch nothing that exists.
-/
set_option autoImplicit false
namespace Verif
open M TS Json

/-- The call reads, or makes a directory that was not there. -/
def Cmd.careful : Cmd → Bool
  | .rand | .mkdirSpace _ | .mkdirLayer _ | .mkdirMount _ | .isDirDiff _ | .isDirLayer _ | .isDirMerged _ | .isDirWork _ | .sys _
  | .exists_ _ | .isEmptyDir _ | .isSymlink _ | .readlink _ | .readInfo _ | .readTree _ | .dump _ => true
  | _ => false

/-- The ID that a call drew. -/
def Ev.draw : Ev → List UID
  | ⟨.rand, u⟩ => [u]
  | _ => []

/-- The IDs that were drawn, the first one first. -/
def drawn : Trace → List UID
  | [] => []
  | e :: tr => drawn tr ++ Ev.draw e

/-- The layer with the second ID was made. -/
def Aft (tr : Trace) : Prop := ∃ v, (drawn tr)[1]? = some v ∧ Made tr v

/-- So far all was careful. -/
def Fore (tr : Trace) : Prop := ∀ e ∈ tr, e.1.careful = true

/-- A call that is not careful comes only after the layer with the second ID was made. -/
def OwnLayer (tr : Trace) (c : Cmd) : Prop := c.careful = true ∨ Aft tr

/-- The error after which the second ID was not made. -/
def NoLayer {α : Type} (r : Res CErr α) : Prop := r = .err .mkdirLayer

/-- How a function may end that did not succeed. -/
def Gone {α : Type} (r : Res CErr α) (tr : Trace) : Prop := Aft tr ∨ (Fore tr ∧ ((drawn tr).length < 2 ∨ NoLayer r))

section
variable {α β : Type}

theorem aft_cons {e : Ev} {tr : Trace} (h : Aft tr) : Aft (e :: tr) := by
  obtain ⟨v, h1, h2⟩ := h
  refine ⟨v, ?_, List.mem_cons_of_mem _ h2⟩
  rw [drawn, List.getElem?_append_left (List.getElem?_eq_some_iff.1 h1).1, h1]

theorem fore_nil : Fore [] := fun _ h => nomatch h

theorem fore_cons {c : Cmd} {x : c.Ans} {tr : Trace} (hc : c.careful = true) (h : Fore tr) : Fore (⟨c, x⟩ :: tr) := by
  intro e he
  rcases List.mem_cons.1 he with rfl | he
  · exact hc
  · exact h e he

/-- The calls satisfy `OwnLayer`; if `x` succeeds then `R` holds, else it is `Gone`. -/
def own (x : M α) (R : α → Trace → Prop) (tr : Trace) : Prop :=
  twp AnyAns OwnLayer x (fun r tr => (∀ a, r = .ok a → R a tr) ∧ ((∀ a, r ≠ .ok a) → Gone r tr)) tr

theorem own_mono {x : M α} {R R' : α → Trace → Prop} {tr : Trace} (h : own x R tr) (hr : ∀ a tr, R a tr → R' a tr) : own x R' tr :=
  twp_mono h fun _ tr ho => ⟨fun a ha => hr a tr (ho.1 a ha), ho.2⟩

theorem own_bind {x : M α} {g : α → M β} {R : β → Trace → Prop} {tr : Trace} (h : own x (fun a tr => own (g a) R tr) tr) : own (x >>= g) R tr := by
  refine twp_bind.2 (twp_mono h fun r tr hr => ?_)
  cases r with
  | ok a => exact hr.1 a rfl
  | err e =>
    refine ⟨fun a ha => (nomatch ha), fun _ => ?_⟩
    rcases hr.2 (fun a ha => nomatch ha) with h | ⟨hf, h | h⟩
    · exact Or.inl h
    · exact Or.inr ⟨hf, Or.inl h⟩
    · refine Or.inr ⟨hf, Or.inr ?_⟩
      cases h; rfl
  | panic =>
    refine ⟨fun a ha => (nomatch ha), fun _ => ?_⟩
    rcases hr.2 (fun a ha => nomatch ha) with h | ⟨hf, h | h⟩
    · exact Or.inl h
    · exact Or.inr ⟨hf, Or.inl h⟩
    · cases h
  | diverge =>
    refine ⟨fun a ha => (nomatch ha), fun _ => ?_⟩
    rcases hr.2 (fun a ha => nomatch ha) with h | ⟨hf, h | h⟩
    · exact Or.inl h
    · exact Or.inr ⟨hf, Or.inl h⟩
    · cases h

theorem own_pure {a : α} {R : α → Trace → Prop} {tr : Trace} (h : R a tr) : own (Pure.pure a : M α) R tr :=
  ⟨fun b hb => by cases hb; exact h, fun hb => absurd rfl (hb a)⟩

theorem own_ret {r : Res CErr α} {R : α → Trace → Prop} {tr : Trace} (h : ∀ a, r = .ok a → R a tr) (hg : Gone r tr) : own (Prog.ret r : M α) R tr :=
  ⟨h, fun _ => hg⟩

theorem own_lift {ε : Type} {g : ε → CErr} {r : Res ε α} {R : α → Trace → Prop} {tr : Trace} (hf : Fore tr) (hl : (drawn tr).length < 2)
    (h : ∀ a, r = .ok a → R a tr) : own (M.lift g r) R tr := by
  cases r with
  | ok a => exact own_ret (fun b hb => by cases hb; exact h a rfl) (Or.inr ⟨hf, Or.inl hl⟩)
  | _ => exact own_ret (fun b hb => nomatch hb) (Or.inr ⟨hf, Or.inl hl⟩)

theorem own_ask {c : Cmd} {R : c.Ans → Trace → Prop} {tr : Trace} (hc : c.careful = true) (h : ∀ x, R x (⟨c, x⟩ :: tr)) : own (M.ask c) R tr :=
  ⟨Or.inl hc, fun x _ => ⟨fun b hb => by cases hb; exact h x, fun hb => absurd rfl (hb x)⟩⟩

theorem own_need {b : Bool} {e : CErr} {R : Unit → Trace → Prop} {tr : Trace} (h : b = true → R () tr) (hg : b = false → Gone (.err e : Res CErr Unit) tr) :
    own (M.need b e) R tr := by
  unfold M.need
  cases b with
  | true => exact own_pure (h rfl)
  | false => exact own_ret (fun b hb => nomatch hb) (hg rfl)

/-- After that, anything goes. -/
theorem own_aft (x : M α) {tr : Trace} (h : Aft tr) : own x (fun _ tr => Aft tr) tr := by
  have key : ∀ (p : Prog (Res CErr α)) (tr : Trace), Aft tr → twp AnyAns OwnLayer p (fun _ tr => Aft tr) tr := by
    intro p
    induction p with
    | ret a => exact fun tr h => h
    | op c k ih => exact fun tr h => ⟨Or.inr h, fun x _ => ih x _ (aft_cons h)⟩
  exact twp_mono (key x tr h) fun r tr h => ⟨fun _ _ => h, fun _ => Or.inl h⟩

/-! ## The commands -/

/-- Careful, with these IDs drawn. -/
def DrewIds (us : List UID) (tr : Trace) : Prop := Fore tr ∧ drawn tr = us

theorem DrewIds.gone {us : List UID} {tr : Trace} (h : DrewIds us tr) (hl : us.length < 2) (r : Res CErr α) : Gone r tr :=
  Or.inr ⟨h.1, Or.inl (by rw [h.2]; exact hl)⟩

theorem drewIds_cons {us : List UID} {tr : Trace} {c : Cmd} {x : c.Ans} (h : DrewIds us tr) (hc : c.careful = true) (hr : Ev.draw ⟨c, x⟩ = []) : DrewIds us (⟨c, x⟩ :: tr) :=
  ⟨fore_cons hc h.1, by rw [drawn, hr, List.append_nil]; exact h.2⟩

theorem drewIds_rand {us : List UID} {tr : Trace} (h : DrewIds us tr) (u : UID) : DrewIds (us ++ [u]) (⟨.rand, u⟩ :: tr) :=
  ⟨fore_cons rfl h.1, by rw [drawn, h.2]; rfl⟩

theorem layerCreate_own {tr : Trace} {v : UID} (h : DrewIds [v] tr) : own layerCreate (fun _ tr => Aft tr) tr := by
  refine own_bind (own_ask rfl fun u => ?_)
  refine own_bind (own_ask rfl fun x => ?_)
  have h1 := drewIds_rand h u
  refine own_bind (own_need (fun hx => ?_) fun hx => Or.inr ⟨fore_cons rfl h1.1, Or.inr rfl⟩)
  subst hx
  exact own_aft _ ⟨u, by rw [drawn, h1.2]; rfl, by simp [Made]⟩

theorem createMount_own (s : TS) (commit : UID) {tr : Trace} (h : DrewIds [] tr) : own (createMount s commit) (fun _ tr => Aft tr) tr := by
  refine own_bind (own_ask rfl fun m => ?_)
  have h1 := drewIds_rand h m
  refine own_bind (own_ask rfl fun x => ?_)
  have h2 : DrewIds [m] (⟨.mkdirMount m.base32, x⟩ :: ⟨.rand, m⟩ :: tr) := drewIds_cons h1 rfl rfl
  refine own_bind (own_need (fun _ => ?_) fun _ => h2.gone (by simp) _)
  refine own_bind ?_
  refine own_mono (R := fun _ tr => Aft tr) ?_ fun _ _ h => own_aft _ h
  unfold createLayer
  split
  · exact own_ret (fun _ h => nomatch h) (h2.gone (by simp) _)
  · exact own_bind (own_mono (layerCreate_own h2) fun _ _ h => own_aft _ h)

theorem createSpace_own {tr : Trace} (h : DrewIds [] tr) : own createSpace (fun _ tr => Aft tr) tr := by
  refine own_bind (own_ask rfl fun m => ?_)
  have h1 := drewIds_rand h m
  refine own_bind (own_ask rfl fun x => ?_)
  have h2 : DrewIds [m] (⟨.mkdirSpace m.base32, x⟩ :: ⟨.rand, m⟩ :: tr) := drewIds_cons h1 rfl rfl
  refine own_bind (own_need (fun _ => ?_) fun _ => h2.gone (by simp) _)
  refine own_bind ?_
  refine own_mono (R := fun _ tr => Aft tr) ?_ fun _ _ h => own_aft _ h
  exact own_bind (own_mono (layerCreate_own h2) fun _ _ h => own_aft _ h)

theorem getWorkspace_own (E : Env) (cwd path : Str) {tr : Trace} (h : DrewIds [] tr) : own (getWorkspace E cwd path) (fun _ tr => DrewIds [] tr) tr := by
  have lf : ∀ {γ ε : Type} {g : ε → CErr} {r : Res ε γ} {tr : Trace}, DrewIds [] tr → own (M.lift g r) (fun _ tr => DrewIds [] tr) tr :=
    fun h => own_lift h.1 (by rw [h.2]; simp) fun _ _ => h
  refine own_bind (own_mono (R := fun _ tr => DrewIds [] tr) ?_ fun link tr h => ?_)
  · refine own_bind (own_ask rfl fun b => ?_)
    have h1 : DrewIds [] (⟨.isSymlink (Path.abs cwd path), b⟩ :: tr) := drewIds_cons h rfl rfl
    split
    · refine own_bind (own_ask rfl fun t => ?_)
      have h2 : DrewIds [] (⟨.readlink (Path.abs cwd path), t⟩ :: ⟨.isSymlink (Path.abs cwd path), b⟩ :: tr) := drewIds_cons h1 rfl rfl
      split
      · exact own_pure h2
      · exact own_ret (fun _ h => nomatch h) (h2.gone (by simp) _)
    · exact own_pure h1
  refine own_bind (own_mono (lf h) fun m tr h => ?_)
  refine own_bind (own_mono (R := fun _ tr => DrewIds [] tr) ?_ fun info tr h => ?_)
  · refine own_bind (own_ask rfl fun b => ?_)
    have h1 : DrewIds [] (⟨.readInfo m.base32, b⟩ :: tr) := drewIds_cons h rfl rfl
    split
    · exact lf h1
    · exact own_ret (fun _ h => nomatch h) (h1.gone (by simp) _)
  refine own_bind (own_mono (lf h) fun wid tr h => ?_)
  refine own_bind (own_mono (lf h) fun sid tr h => ?_)
  refine own_bind (own_ask rfl fun b => ?_)
  have h1 : DrewIds [] (⟨.readTree info.spaceID, b⟩ :: tr) := drewIds_cons h rfl rfl
  refine own_bind (own_mono (lf h1) fun s tr h => ?_)
  refine own_bind (own_mono (lf h) fun hd tr h => ?_)
  split
  · exact own_ret (fun _ h => nomatch h) (h.gone (by simp) _)
  · exact own_pure h

theorem initCmd_own (E : Env) (path branch : Str) {tr : Trace} (h : DrewIds [] tr) : own (initCmd E path branch) (fun _ tr => Aft tr) tr := by
  refine own_bind (own_ask rfl fun b => ?_)
  have h1 : DrewIds [] (⟨.exists_ path, b⟩ :: tr) := drewIds_cons h rfl rfl
  have go : ∀ {tr : Trace}, DrewIds [] tr → own (do let w ← createWorkspace E path branch; expand E w; Pure.pure w : M OpenWs) (fun _ tr => Aft tr) tr := by
    intro tr h
    refine own_bind (own_mono (R := fun _ tr => Aft tr) ?_ fun _ _ h => own_aft _ h)
    exact own_bind (own_mono (createSpace_own h) fun _ _ h => own_aft _ h)
  split
  · refine own_bind (own_ask rfl fun x => ?_)
    have h2 : DrewIds [] (⟨.isEmptyDir path, x⟩ :: ⟨.exists_ path, b⟩ :: tr) := drewIds_cons h1 rfl rfl
    exact own_bind (own_need (fun _ => go h2) fun _ => h2.gone (by simp) _)
  · exact go h1

theorem commitCmd_own (E : Env) (cwd : Str) (ci : CommitInfo) {tr : Trace} (h : DrewIds [] tr) : own (commitCmd E cwd ci) (fun _ tr => Aft tr) tr := by
  refine own_bind (own_mono (getWorkspace_own E cwd _ h) fun w tr h => ?_)
  refine own_bind (own_mono (R := fun _ tr => Aft tr) ?_ fun _ _ h => own_aft _ h)
  unfold commitP
  split
  · exact own_ret (fun _ h => nomatch h) (h.gone (by simp) _)
  · split
    · exact own_ret (fun _ h => nomatch h) (h.gone (by simp) _)
    · exact own_bind (own_mono (createMount_own _ _ h) fun _ _ h => own_aft _ h)

theorem checkoutCmd_own (E : Env) (cwd key : Str) {tr : Trace} (h : DrewIds [] tr) : own (checkoutCmd E cwd key) (fun _ tr => Aft tr) tr := by
  refine own_bind (own_mono (getWorkspace_own E cwd _ h) fun w tr h => ?_)
  refine own_bind (own_mono (R := fun _ tr => Aft tr) ?_ fun _ _ h => own_aft _ h)
  refine own_bind (own_lift h.1 (by rw [h.2]; simp) fun x _ => ?_)
  split
  · exact own_ret (fun _ h => nomatch h) (h.gone (by simp) _)
  · split
    · exact own_ret (fun _ h => nomatch h) (h.gone (by simp) _)
    · exact own_bind (own_mono (createMount_own _ _ h) fun _ _ h => own_aft _ h)

theorem cloneCmd_own (E : Env) (cwd source target : Str) {tr : Trace} (h : DrewIds [] tr) : own (cloneCmd E cwd source target) (fun _ tr => Aft tr) tr := by
  refine own_bind (own_mono (getWorkspace_own E cwd _ h) fun w tr h => ?_)
  refine own_bind (own_mono (R := fun _ tr => Aft tr) ?_ fun _ _ h => own_aft _ h)
  refine own_bind (own_lift h.1 (by rw [h.2]; simp) fun p _ => ?_)
  exact own_bind (own_mono (createMount_own _ _ h) fun _ _ h => own_aft _ h)

end

/-- The commands that make something. -/
def Command.makes : Command → Bool
  | .init .. | .clone .. | .commit .. | .checkout .. => true
  | _ => false

theorem command_own (E : Env) {c : Command} (hc : c.makes = true) {tr : Trace} (h : DrewIds [] tr) : own (c.prog E) (fun _ tr => Aft tr) tr := by
  cases c with
  | init path branch => exact own_bind (own_mono (initCmd_own E path branch h) fun _ _ h => own_aft _ h)
  | clone cwd source target => exact own_bind (own_mono (cloneCmd_own E cwd source target h) fun _ _ h => own_aft _ h)
  | commit cwd ci => exact own_bind (own_mono (commitCmd_own E cwd ci h) fun _ _ h => own_aft _ h)
  | checkout cwd key => exact own_bind (own_mono (checkoutCmd_own E cwd key h) fun _ _ h => own_aft _ h)
  | edit cwd es => cases hc
  | look cwd => cases hc

/-! ## On the disk -/

/-- Nothing that was there has changed: at most, new directories appeared. -/
structure Unharmed (d d' : Disk) : Prop where
  info : d'.info = d.info
  mnt : d'.mnt = d.mnt
  user : d'.user = d.user
  space : ∀ n, d.space n ≠ none → d'.space n = d.space n
  mdir : ∀ n, d.mdir n ≠ none → d'.mdir n = d.mdir n
  layer : ∀ u, d.layer u ≠ none → d'.layer u = d.layer u

theorem unharmed_refl (d : Disk) : Unharmed d d := ⟨rfl, rfl, rfl, fun _ _ => rfl, fun _ _ => rfl, fun _ _ => rfl⟩

theorem unharmed_trans {a b c : Disk} (h : Unharmed a b) (h' : Unharmed b c) : Unharmed a c :=
  ⟨h'.info.trans h.info, h'.mnt.trans h.mnt, h'.user.trans h.user,
    fun n hn => (h'.space n (by rw [h.space n hn]; exact hn)).trans (h.space n hn),
    fun n hn => (h'.mdir n (by rw [h.mdir n hn]; exact hn)).trans (h.mdir n hn),
    fun n hn => (h'.layer n (by rw [h.layer n hn]; exact hn)).trans (h.layer n hn)⟩

theorem careful_step {E : Env} {f : Faults} {c : Cmd} (hc : c.careful = true) {d d' : Disk} {x : c.Ans} (h : Step E f c d x d') : Unharmed d d' := by
  have ne : ∀ {β : Type} {m : UID → Option β} {y : Option β} {u v : UID}, m u = none → m v ≠ none → upd m u y v = m v :=
    fun h1 h2 => upd_ne _ _ (fun e => h2 (by rw [e]; exact h1))
  have ne' : ∀ {β : Type} {m : Str → Option β} {y : Option β} {u v : Str}, m u = none → m v ≠ none → upd m u y v = m v :=
    fun h1 h2 => upd_ne _ _ (fun e => h2 (by rw [e]; exact h1))
  cases c <;> try (cases hc; done)
  case rand => obtain ⟨_, rfl⟩ := h; exact ⟨rfl, rfl, rfl, fun _ _ => rfl, fun _ _ => rfl, fun _ _ => rfl⟩
  case mkdirSpace n =>
    rcases h with ⟨_, h1, rfl⟩ | ⟨_, _, rfl⟩
    · exact ⟨rfl, rfl, rfl, fun _ hn => ne' h1 hn, fun _ _ => rfl, fun _ _ => rfl⟩
    · exact unharmed_refl _
  case mkdirLayer n =>
    rcases h with ⟨_, h1, rfl⟩ | ⟨_, _, rfl⟩
    · exact ⟨rfl, rfl, rfl, fun _ _ => rfl, fun _ _ => rfl, fun _ hn => ne h1 hn⟩
    · exact unharmed_refl _
  case mkdirMount n =>
    rcases h with ⟨_, h1, rfl⟩ | ⟨_, _, rfl⟩
    · exact ⟨rfl, rfl, rfl, fun _ _ => rfl, fun _ hn => ne' h1 hn, fun _ _ => rfl⟩
    · exact unharmed_refl _
  case sys k =>
    rcases h with ⟨_, _, rfl⟩ | ⟨_, _, rfl⟩ <;> exact unharmed_refl _
  all_goals obtain ⟨rfl, _⟩ := h; exact unharmed_refl _

theorem step_draw {E : Env} {f : Faults} {c : Cmd} {d d' : Disk} {x : c.Ans} (h : Step E f c d x d') : d'.used = Ev.draw ⟨c, x⟩ ++ d.used := by
  rcases eff_used (step_effect h) with e | ⟨u, e, e'⟩
  · rw [e]
    cases c <;> try rfl
    case rand =>
      have := h.2
      rw [this] at e
      exact absurd (congrArg List.length e) (by simp)
  · cases e; rw [e']; rfl

/-- The trace of a run. -/
theorem exec_drawn {α : Type} {E : Env} {f : Faults} {p : Prog α} {d d' : Disk} {a : α} (h : Exec E f p d a d') :
    ∀ {Q : α → Trace → Prop} {tr : Trace}, twp AnyAns OwnLayer p Q tr → Fore tr ∨ Aft tr → ∃ new, Q a (new ++ tr) ∧ (Fore (new ++ tr) ∨ Aft (new ++ tr)) ∧
      (∀ l, d.used = (drawn tr).reverse ++ l → d'.used = (drawn (new ++ tr)).reverse ++ l) ∧ (Fore (new ++ tr) → Unharmed d d') ∧
      (∀ v, d.layer v ≠ none → d'.layer v ≠ none ∧ ¬ Made new v) ∧ ∀ v, Made new v → d'.layer v ≠ none := by
  induction h with
  | ret a d => exact fun {Q tr} h hf => ⟨[], h, hf, fun _ h => h, fun _ => unharmed_refl _, fun v hv => ⟨hv, (nomatch ·)⟩, fun v hv => nomatch hv⟩
  | @op c k d d1 d2 x a hs he ih =>
    intro Q tr h hf
    have hfa : Fore (⟨c, x⟩ :: tr) ∨ Aft (⟨c, x⟩ :: tr) := by
      rcases hf with hf | hf
      · rcases h.1 with hc | hc
        · exact Or.inl (fore_cons hc hf)
        · exact Or.inr (aft_cons hc)
      · exact Or.inr (aft_cons hf)
    have hu := step_draw hs
    have hef := step_effect hs
    obtain ⟨new, h1, h2, h3, h4, h5, h6⟩ := ih (h.2 x trivial) hfa
    have e : (new ++ [⟨c, x⟩]) ++ tr = new ++ ⟨c, x⟩ :: tr := by simp
    have hmk : ∀ v, (⟨c, x⟩ : Ev) = ⟨.mkdirLayer v, true⟩ → d.layer v = none ∧ d1.layer v ≠ none := by
      intro v hv
      cases hv
      rcases hs with ⟨_, h, rfl⟩ | ⟨h, _⟩
      · exact ⟨h, by simp [Disk.setLayer]⟩
      · cases h
    have hmade : ∀ v, Made (new ++ [⟨c, x⟩]) v ↔ Made new v ∨ (⟨c, x⟩ : Ev) = ⟨.mkdirLayer v, true⟩ := by
      intro v
      simp only [Made, List.mem_append, List.mem_singleton]
      exact or_congr Iff.rfl eq_comm
    refine ⟨new ++ [⟨c, x⟩], by rw [e]; exact h1, by rw [e]; exact h2, fun l hl => ?_, fun hF => ?_, fun v hv => ?_, fun v hv => ?_⟩
    · rw [e]
      refine h3 l ?_
      rw [hu, hl, drawn, List.reverse_append, List.append_assoc]
      congr 1
      unfold Ev.draw
      split <;> rfl
    · rw [e] at hF
      exact unharmed_trans (careful_step (hF ⟨c, x⟩ (by simp)) hs) (h4 hF)
    · have := h5 v (eff_exists hef hv)
      refine ⟨this.1, fun hm => ?_⟩
      rcases (hmade v).1 hm with h' | h'
      · exact this.2 h'
      · exact hv (hmk v h').1
    · rcases (hmade v).1 hv with h' | h'
      · exact h6 v h'
      · exact (h5 v (hmk v h').2).1

/-- The same for one command that makes something, from the start. -/
theorem command_drawn {E : Env} {f : Faults} {c : Command} (hc : c.makes = true) {d d' : Disk} {r : Res CErr Out} (h : Exec E f (c.prog E) d r d') :
    ∃ us : List UID, d'.used = us.reverse ++ d.used ∧ (∀ v, d.layer v ≠ none → d'.layer v ≠ none) ∧
      ((∃ v, us[1]? = some v ∧ d.layer v = none ∧ d'.layer v ≠ none) ∨
       (Unharmed d d' ∧ (∀ o, r ≠ .ok o) ∧ (us.length < 2 ∨ r = .err .mkdirLayer))) := by
  obtain ⟨new, h1, h2, h3, h4, h5, h6⟩ := exec_drawn h (command_own E hc (tr := []) ⟨fore_nil, rfl⟩) (Or.inl fore_nil)
  rw [List.append_nil] at h1 h2 h3 h4
  refine ⟨drawn new, h3 _ rfl, fun v hv => (h5 v hv).1, ?_⟩
  have go : Aft new → ∃ v, (drawn new)[1]? = some v ∧ d.layer v = none ∧ d'.layer v ≠ none := fun ⟨v, a, b⟩ => by
    refine ⟨v, a, ?_, h6 v b⟩
    cases hl : d.layer v with
    | none => rfl
    | some y => exact absurd b (h5 v (by rw [hl]; simp)).2
  by_cases hok : ∃ o, r = .ok o
  · obtain ⟨o, rfl⟩ := hok
    exact Or.inl (go (h1.1 o rfl))
  · have hno : ∀ o, r ≠ .ok o := fun o ho => hok ⟨o, ho⟩
    rcases h1.2 hno with h | ⟨hF, h⟩
    · exact Or.inl (go h)
    · exact Or.inr ⟨h4 hF, hno, h⟩

end Verif
