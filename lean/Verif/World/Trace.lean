import Verif.World.Manager
/-!
# Traces

The calls that a program made so far with their answers, and a weakest precondition over traces. It does not look at the
disk: what it proves holds whatever other programs do between the calls.
-/
set_option autoImplicit false
namespace Verif
open M TS Json

/-- A call with its answer. -/
abbrev Ev := (c : Cmd) × c.Ans
/-- The calls so far, the latest first. -/
abbrev Trace := List Ev

section
variable {α β : Type}

/-- `Ends p tr a tr'`: continuing from the trace `tr`, the program can end with `a` and the trace `tr'`. -/
inductive Ends : Prog α → Trace → α → Trace → Prop where
  | ret (a : α) (tr : Trace) : Ends (.ret a) tr a tr
  | op {c : Cmd} {k : c.Ans → Prog α} {tr tr' : Trace} {a : α} (x : c.Ans) : Ends (k x) (⟨c, x⟩ :: tr) a tr' → Ends (.op c k) tr a tr'

/-- Weakest precondition over traces: each call satisfies the guard `G`, and `Q` holds at the end, if the answers are
plausible (`A`). -/
def twp (A : Trace → (c : Cmd) → c.Ans → Prop) (G : Trace → Cmd → Prop) : Prog α → (α → Trace → Prop) → Trace → Prop
  | .ret a, Q, tr => Q a tr
  | .op c k, Q, tr => G tr c ∧ ∀ x, A tr c x → twp A G (k x) Q (⟨c, x⟩ :: tr)

variable {A : Trace → (c : Cmd) → c.Ans → Prop} {G : Trace → Cmd → Prop}

theorem twp_mono {p : Prog α} {Q Q' : α → Trace → Prop} {tr : Trace} (h : twp A G p Q tr) (hq : ∀ a tr, Q a tr → Q' a tr) :
    twp A G p Q' tr := by
  induction p generalizing tr with
  | ret a => exact hq _ _ h
  | op c k ih => exact ⟨h.1, fun x hx => ih x (h.2 x hx)⟩

theorem twp_bind {p : Prog α} {g : α → Prog β} {Q : β → Trace → Prop} {tr : Trace} :
    twp A G (p.bind g) Q tr ↔ twp A G p (fun a tr' => twp A G (g a) Q tr') tr := by
  induction p generalizing tr with
  | ret a => rfl
  | op c k ih =>
    constructor
    · exact fun h => ⟨h.1, fun x hx => (ih x).1 (h.2 x hx)⟩
    · exact fun h => ⟨h.1, fun x hx => (ih x).2 (h.2 x hx)⟩

theorem twp_and {p : Prog α} {Q Q' : α → Trace → Prop} {tr : Trace} {G' : Trace → Cmd → Prop} (h : twp A G p Q tr)
    (h' : twp A G' p Q' tr) : twp A (fun tr c => G tr c ∧ G' tr c) p (fun a tr => Q a tr ∧ Q' a tr) tr := by
  induction p generalizing tr with
  | ret a => exact ⟨h, h'⟩
  | op c k ih => exact ⟨⟨h.1, h'.1⟩, fun x hx => ih x (h.2 x hx) (h'.2 x hx)⟩

/-- The postcondition that is only about success. -/
def onOk (R : α → Trace → Prop) : Res CErr α → Trace → Prop := fun r tr => ∀ a, r = .ok a → R a tr

/-- `tok A G x R tr`: the calls satisfy the guard, and if `x` succeeds then `R` holds. -/
def tok (A : Trace → (c : Cmd) → c.Ans → Prop) (G : Trace → Cmd → Prop) (x : M α) (R : α → Trace → Prop) (tr : Trace) : Prop :=
  twp A G x (onOk R) tr

theorem tok_bind {x : M α} {g : α → M β} {R : β → Trace → Prop} {tr : Trace}
    (h : tok A G x (fun a tr => tok A G (g a) R tr) tr) : tok A G (x >>= g) R tr := by
  refine twp_bind.2 (twp_mono h fun r tr hr => ?_)
  cases r with
  | ok a => exact hr a rfl
  | _ => intro b hb; cases hb

theorem tok_mono {x : M α} {R R' : α → Trace → Prop} {tr : Trace} (h : tok A G x R tr) (hr : ∀ a tr, R a tr → R' a tr) :
    tok A G x R' tr := twp_mono h fun _ tr ho a ha => hr a tr (ho a ha)

theorem tok_pure {a : α} {R : α → Trace → Prop} {tr : Trace} (h : R a tr) : tok A G (Pure.pure a : M α) R tr := by
  intro b hb; cases hb; exact h

theorem tok_fail {e : CErr} {R : α → Trace → Prop} {tr : Trace} : tok A G (M.fail e : M α) R tr := by
  intro b hb; cases hb

theorem tok_panic {R : α → Trace → Prop} {tr : Trace} : tok A G (Prog.ret .panic : M α) R tr := by
  intro b hb; cases hb

theorem tok_diverge {R : α → Trace → Prop} {tr : Trace} : tok A G (Prog.ret .diverge : M α) R tr := by
  intro b hb; cases hb

theorem tok_lift {ε : Type} {g : ε → CErr} {r : Res ε α} {R : α → Trace → Prop} {tr : Trace} (h : ∀ a, r = .ok a → R a tr) :
    tok A G (M.lift g r) R tr := by
  cases r with
  | ok a => intro b hb; cases hb; exact h a rfl
  | _ => intro b hb; cases hb

theorem tok_ask {c : Cmd} {R : c.Ans → Trace → Prop} {tr : Trace} (hg : G tr c) (h : ∀ x, A tr c x → R x (⟨c, x⟩ :: tr)) :
    tok A G (M.ask c) R tr := by
  refine ⟨hg, fun x hx => ?_⟩
  intro b hb; cases hb; exact h x hx

theorem tok_need {b : Bool} {e : CErr} {R : Unit → Trace → Prop} {tr : Trace} (h : b = true → R () tr) :
    tok A G (M.need b e) R tr := by
  unfold M.need
  cases b with
  | true => intro b hb; cases hb; exact h rfl
  | false => intro b hb; cases hb

/-- A call and a test of its answer. -/
theorem tok_must {c : Cmd} {g : c.Ans → Bool} {e : CErr} {m : Unit → M β} {R : β → Trace → Prop} {tr : Trace}
    (hg : G tr c) (h : ∀ x, A tr c x → g x = true → tok A G (m ()) R (⟨c, x⟩ :: tr)) :
    tok A G (M.ask c >>= fun x => M.need (g x) e >>= m) R tr :=
  tok_bind (tok_ask hg fun x hx => tok_bind (tok_need fun hb => h x hx hb))

theorem twp_ends {p : Prog α} {Q : α → Trace → Prop} {tr tr' : Trace} {a : α} (h : twp (fun _ _ _ => True) G p Q tr)
    (he : Ends p tr a tr') : Q a tr' := by
  induction he with
  | ret a tr => exact h
  | op x _ ih => exact ih (h.2 x trivial)

end

/-! ## Who owns what -/

/-- The program created the layer directory. -/
def Made (tr : Trace) (u : UID) : Prop := (⟨.mkdirLayer u, true⟩ : Ev) ∈ tr
/-- The program saw the layer's `diff` directory. -/
def Based (tr : Trace) (u : UID) : Prop := (⟨.mkdirDiff u, true⟩ : Ev) ∈ tr ∨ (⟨.isDirDiff u, true⟩ : Ev) ∈ tr
/-- The program created the mount directory. -/
def Named (tr : Trace) (n : Str) : Prop := (⟨.mkdirMount n, true⟩ : Ev) ∈ tr
/-- The program wrote, or tried to write, this record. -/
def Wrote (tr : Trace) (n b : Str) : Prop := ∃ x : Bool, (⟨.writeInfo n b, x⟩ : Ev) ∈ tr
/-- The program wrote a record. -/
def WroteAny (tr : Trace) : Prop := ∃ n b, Wrote tr n b
/-- The program mounted something, or tried. -/
def Mounted (tr : Trace) : Prop := ∃ n u ls, ∃ x : Bool, (⟨.mountOverlay n u ls, x⟩ : Ev) ∈ tr
/-- `b` is a record that says: the working layer of mount `n` is `u`. -/
def RecordOf (E : Env) (b n : Str) (u : UID) : Prop := ∃ i : WsInfo, b = marshalInfo E.sh i ∧ i.head = u.hex ∧ i.mountID = n

/-- The program has written this record, and the call succeeded. -/
def WroteOk (tr : Trace) (n b : Str) : Prop := (⟨.writeInfo n b, true⟩ : Ev) ∈ tr

/-- The program has drawn this ID, or found it in a record as that of a workspace. -/
def KnowsId (tr : Trace) (x : UID) : Prop :=
  (⟨.rand, x⟩ : Ev) ∈ tr ∨ ∃ n b i, (⟨.readInfo n, .ok b⟩ : Ev) ∈ tr ∧ unmarshalInfo b = some i ∧ UID.decodeBase32 i.id = .ok x

/-- The bytes are a record of a workspace whose ID the program knows. -/
def RecordBy (E : Env) (tr : Trace) (b : Str) : Prop := ∃ (i : WsInfo) (x : UID), b = marshalInfo E.sh i ∧ i.id = x.base32 ∧ KnowsId tr x

/-- How the commands may use the data directory. -/
def Guard (E : Env) (tr : Trace) : Cmd → Prop
  | .mkdirSpace n => ∃ m : UID, n = m.base32 ∧ (⟨.rand, m⟩ : Ev) ∈ tr
  | .mkdirLayer u => (⟨.rand, u⟩ : Ev) ∈ tr
  | .mkdirDiff u => Made tr u
  | .mkdirMount n => ∃ (m : UID) (tl : Trace), n = m.base32 ∧ tr = ⟨.rand, m⟩ :: tl
  | .truncInfo n => Named tr n ∧ ¬ WroteAny tr
  | .writeInfo n b => Named tr n ∧ ¬ WroteAny tr ∧ (∃ u, Made tr u ∧ Based tr u ∧ RecordOf E b n u) ∧ RecordBy E tr b ∧ (⟨.truncInfo n, true⟩ : Ev) ∈ tr
  | .mountOverlay n u _ => Made tr u ∧ Based tr u ∧ Named tr n ∧ (∃ b, WroteOk tr n b ∧ RecordOf E b n u) ∧ ¬ Mounted tr
  | .removeAllMount n => ∃ b i, (⟨.readInfo n, .ok b⟩ : Ev) ∈ tr ∧ unmarshalInfo b = some i
  | .removeInfo n => (⟨.removeAllMount n, true⟩ : Ev) ∈ tr
  | _ => True

/-- Calls that neither write a record nor mount. -/
def Cmd.quiet : Cmd → Bool
  | .writeInfo .. | .mountOverlay .. => false
  | _ => true

/-- No record written and nothing mounted so far. -/
def Quiet (tr : Trace) : Prop := ∀ e ∈ tr, e.1.quiet = true

theorem quiet_nil : Quiet [] := by intro e he; cases he
theorem quiet_cons {c : Cmd} {x : c.Ans} {tr : Trace} (hc : c.quiet = true) (h : Quiet tr) : Quiet (⟨c, x⟩ :: tr) := by
  intro e he
  rcases List.mem_cons.1 he with rfl | he
  · exact hc
  · exact h e he
theorem not_wrote_of_quiet {tr : Trace} (h : Quiet tr) : ¬ WroteAny tr := by
  rintro ⟨n, b, x, hx⟩; exact absurd (h _ hx) (by simp [Cmd.quiet])
theorem not_mounted_of_quiet {tr : Trace} (h : Quiet tr) : ¬ Mounted tr := by
  rintro ⟨n, u, ls, x, hx⟩; exact absurd (h _ hx) (by simp [Cmd.quiet])

/-! ## The commands keep to the guard -/

/-- Any answer. -/
abbrev AnyAns : Trace → (c : Cmd) → c.Ans → Prop := fun _ _ _ => True

section
variable {E : Env}

/-- What one function adds to the trace: everything before stays, and nothing is written or mounted. -/
def Adds (tr tr' : Trace) : Prop := ∃ new, tr' = new ++ tr ∧ Quiet new

theorem adds_refl (tr : Trace) : Adds tr tr := ⟨[], rfl, quiet_nil⟩
theorem adds_cons {tr tr' : Trace} {c : Cmd} {x : c.Ans} (h : Adds tr tr') (hc : c.quiet = true) : Adds tr (⟨c, x⟩ :: tr') := by
  obtain ⟨new, rfl, hq⟩ := h
  exact ⟨⟨c, x⟩ :: new, rfl, quiet_cons hc hq⟩
theorem adds_trans {a b c : Trace} (h : Adds a b) (h' : Adds b c) : Adds a c := by
  obtain ⟨n1, rfl, h1⟩ := h
  obtain ⟨n2, rfl, h2⟩ := h'
  refine ⟨n2 ++ n1, by simp, fun e he => ?_⟩
  rcases List.mem_append.1 he with he | he
  · exact h2 e he
  · exact h1 e he
theorem adds_mem {tr tr' : Trace} (h : Adds tr tr') {e : Ev} (he : e ∈ tr) : e ∈ tr' := by
  obtain ⟨new, rfl, _⟩ := h
  exact List.mem_append_right _ he
theorem adds_quiet {tr tr' : Trace} (h : Adds tr tr') (hq : Quiet tr) : Quiet tr' := by
  obtain ⟨new, rfl, h1⟩ := h
  intro e he
  rcases List.mem_append.1 he with he | he
  · exact h1 e he
  · exact hq e he
theorem adds_made {tr tr' : Trace} (h : Adds tr tr') {u : UID} (he : Made tr u) : Made tr' u := adds_mem h he
theorem adds_named {tr tr' : Trace} (h : Adds tr tr') {n : Str} (he : Named tr n) : Named tr' n := adds_mem h he
theorem adds_based {tr tr' : Trace} (h : Adds tr tr') {u : UID} (he : Based tr u) : Based tr' u :=
  he.imp (adds_mem h) (adds_mem h)

theorem adds_knowsId {tr tr' : Trace} {x : UID} (h : Adds tr tr') (hk : KnowsId tr x) : KnowsId tr' x :=
  hk.imp (adds_mem h) fun ⟨n, b, i, h1, h2⟩ => ⟨n, b, i, adds_mem h h1, h2⟩

theorem layerCreate_guard (tr : Trace) :
    tok AnyAns (Guard E) layerCreate (fun u tr' => Adds tr tr' ∧ Made tr' u ∧ Based tr' u) tr := by
  unfold layerCreate
  refine tok_bind (tok_ask trivial fun u _ => ?_)
  refine tok_must (by simp [Guard]) fun x _ hx => ?_
  subst hx
  have h1 : Adds tr (⟨.mkdirLayer u, true⟩ :: ⟨.rand, u⟩ :: tr) := adds_cons (adds_cons (adds_refl _) rfl) rfl
  refine tok_bind (tok_ask trivial fun b _ => ?_)
  split
  · rename_i hb
    subst hb
    exact tok_pure ⟨adds_cons h1 rfl, by simp [Made], Or.inr (by simp)⟩
  · refine tok_must (by simp [Guard, Made]) fun x _ hx => ?_
    subst hx
    exact tok_pure ⟨adds_cons (adds_cons h1 rfl) rfl, by simp [Made], Or.inl (by simp)⟩

/-! ### IDs of objects never change, whatever the tree looks like -/

theorem idAt_set {heap : List NodeObj} {r : Ref} {o o' : NodeObj} (ho : heap[r]? = some o) (he : o'.id = o.id) :
    idAt (heap.set r o') = idAt heap := by
  funext x
  unfold idAt
  rw [List.getElem?_set]
  split
  · rename_i h; subst h
    have hl := lt_of_getElem? ho
    rw [ho]
    simp [hl, he]
  · rfl

theorem updateIndexes_heap {ε : Type} {s s' : TS} {r : Ref} (h : (s.updateIndexes r : Res ε TS) = .ok s') : s'.heap = s.heap := by
  unfold updateIndexes at h
  cases hi : (indexLoop s.heap (s.heap.length + 1) [r] s.tree.nodes.ensure.entries : Res ε _) with
  | ok idx => rw [hi] at h; cases h; rfl
  | _ => rw [hi] at h; cases h

theorem addNode_idAt {s s' : TS} {p : Option UID} {r : Ref} (h : s.addNode p r = .ok s') : idAt s'.heap = idAt s.heap := by
  unfold addNode at h
  cases p with
  | none =>
    cases hr : s.tree.root with
    | some _ => simp [hr] at h
    | none => simp only [hr] at h; rw [updateIndexes_heap h]
  | some pid =>
    simp only at h
    split at h
    · cases h
    · rename_i p hp
      split at h
      · cases h
      · rename_i s1 b hc
        have h1 : idAt s1.heap = idAt s.heap := by
          unfold addChild at hc
          split at hc
          · rename_i po co hpo hco
            split at hc
            · cases hc; rfl
            · split at hc
              · cases hc
              · cases hc; exact idAt_set hpo rfl
          · cases hc
        split at h
        · cases h
        · rename_i s2 hs
          have h2 : idAt s2.heap = idAt s1.heap := by
            unfold setParent TS.modify at hs
            split at hs
            · cases hs
            · rename_i o ho
              cases hs; exact idAt_set ho rfl
          rw [updateIndexes_heap h, h2, h1]

theorem addBranch_heap {s s' : TS} {b : Str} {u : UID} (h : s.addBranch b u = .ok s') : s'.heap = s.heap := by
  unfold addBranch at h
  split at h
  · cases h
  · split at h
    · cases h
    · cases h; rfl

theorem updateBranch_heap {s s' : TS} {b : Str} {u : UID} {f : Bool} (h : s.updateBranch b u f = .ok s') : s'.heap = s.heap := by
  unfold updateBranch at h
  split at h
  · cases h
  · split at h
    · cases h
    · split at h
      · split at h
        · cases h; rfl
        · simp only at h
          split at h
          · split at h
            · cases h
            · cases h; rfl
          · rename_i ho no _ _ _ _
            cases hc : (connected s.heap ho.id.hex s.walkFuel (some _) : Res TreeErr Bool) with
            | ok c =>
              rw [hc] at h
              simp only [Res.bind] at h
              split at h
              · split at h
                · cases h
                · cases h; rfl
              · cases h
            | _ => rw [hc] at h; cases h
      · cases h

/-! ### Function by function -/

theorem createLayer_guard (s : TS) (base : UID) (tr : Trace) :
    tok AnyAns (Guard E) (createLayer s base)
      (fun x tr' => Adds tr tr' ∧ ∃ u, Made tr' u ∧ Based tr' u ∧ idAt x.1.heap x.2 = some u) tr := by
  unfold createLayer
  split
  · exact tok_fail
  · refine tok_bind (tok_mono (layerCreate_guard tr) fun u tr1 h1 => ?_)
    refine tok_bind (tok_lift fun s2 hs => ?_)
    refine tok_pure ⟨h1.1, u, h1.2.1, h1.2.2, ?_⟩
    rw [addNode_idAt hs]
    simp [newNode, idAt]

theorem layerChain_guard (heap : List NodeObj) : ∀ (fuel : Nat) (r : Option Ref) (tr : Trace),
    tok AnyAns (Guard E) (layerChain heap fuel r)
      (fun l tr' => Adds tr tr' ∧ ∀ r0, r = some r0 → ∃ o t, heap[r0]? = some o ∧ l = o.id :: t) tr
  | fuel, none, tr => by rw [layerChain.eq_def]; exact tok_pure ⟨adds_refl _, by simp⟩
  | 0, some r, tr => by rw [layerChain]; exact tok_diverge
  | n + 1, some r, tr => by
    rw [layerChain]
    split
    · exact tok_panic
    · rename_i o ho
      refine tok_must trivial fun x _ hx => ?_
      refine tok_bind (tok_mono (layerChain_guard heap n o.parent _) fun l tr1 h1 => ?_)
      exact tok_pure ⟨adds_trans (adds_cons (adds_refl _) rfl) h1.1, fun r0 hr => by cases hr; exact ⟨o, l, ho, rfl⟩⟩

/-- What `createMount` leaves in the trace: the new mount and its upper layer belong to the program. -/
def Built (tr : Trace) (s : TS) (m : MountObj) (r : Ref) : Prop :=
  m.dir = m.id.base32 ∧ Named tr m.dir ∧ ∃ u ls, m.layers = some ⟨u, ls⟩ ∧ Made tr u ∧ Based tr u ∧ idAt s.heap r = some u

theorem adds_built {tr tr' : Trace} {s : TS} {m : MountObj} {r : Ref} (h : Adds tr tr') (hb : Built tr s m r) : Built tr' s m r := by
  obtain ⟨a, b, u, ls, c, d, e, f⟩ := hb
  exact ⟨a, adds_named h b, u, ls, c, adds_made h d, adds_based h e, f⟩

theorem createMount_guard (s : TS) (commit : UID) (tr : Trace) :
    tok AnyAns (Guard E) (createMount s commit) (fun x tr' => Adds tr tr' ∧ Built tr' x.1 x.2.1 x.2.2) tr := by
  unfold createMount
  refine tok_bind (tok_ask trivial fun m _ => ?_)
  refine tok_must ⟨m, tr, rfl, rfl⟩ fun x _ hx => ?_
  subst hx
  unfold spaceCreateMount
  refine tok_bind (tok_mono (createLayer_guard s commit _) ?_)
  rintro ⟨s', r⟩ tr1 ⟨h1, u, hm, hb, hi⟩
  refine tok_bind (tok_mono (layerChain_guard _ _ _ tr1) fun l tr2 h2 => ?_)
  obtain ⟨h2, hl⟩ := h2
  obtain ⟨o, t, ho, rfl⟩ := hl r rfl
  have hu : o.id = u := by simpa [idAt, ho] using hi
  subst hu
  cases t with
  | nil => exact tok_fail
  | cons l ls =>
    refine tok_pure ⟨?_, rfl, ?_, o.id, l :: ls, rfl, adds_made h2 hm, adds_based h2 hb, hi⟩
    · exact adds_trans (adds_cons (adds_cons (adds_refl _) rfl) rfl) (adds_trans h1 h2)
    · exact adds_named (adds_trans h1 h2) (by simp [Named])

theorem spaceSave_guard (name : Str) (s : TS) (tr : Trace) :
    tok AnyAns (Guard E) (spaceSave name s) (fun _ tr' => Adds tr tr') tr := by
  unfold spaceSave
  refine tok_bind (tok_ask trivial fun b _ => ?_)
  refine tok_must trivial fun x _ hx => ?_
  refine tok_bind (tok_ask trivial fun y _ => tok_need fun _ => ?_)
  exact adds_cons (adds_cons (adds_cons (adds_refl _) rfl) rfl) rfl

/-- The record has been written and nothing mounted. -/
def Ready (E : Env) (tr : Trace) (m : MountObj) : Prop :=
  ∃ u ls, m.layers = some ⟨u, ls⟩ ∧ Made tr u ∧ Based tr u ∧ Named tr m.dir ∧ (∃ b, WroteOk tr m.dir b ∧ RecordOf E b m.dir u) ∧
    ¬ Mounted tr

theorem saveAll_guard (w : OpenWs) {tr : Trace} (hq : Quiet tr) (hb : Built tr w.tree w.mount w.ws.head)
    (hid : KnowsId tr w.ws.id) :
    tok AnyAns (Guard E) (saveAll E w) (fun w' tr' => w' = w ∧ (∀ e ∈ tr, e ∈ tr') ∧ Ready E tr' w.mount) tr := by
  unfold saveAll
  refine tok_bind (tok_mono (spaceSave_guard w.spaceDir w.tree tr) fun _ tr1 h1 => ?_)
  have hq1 := adds_quiet h1 hq
  obtain ⟨hd, hn, u, ls, hl, hm, hba, hi⟩ := adds_built h1 hb
  unfold saveInfo
  refine tok_bind ?_
  split
  · exact tok_panic
  · rename_i o ho
    have hu : o.id = u := by simpa [idAt, ho] using hi
    subst hu
    rw [hd] at hn
    refine tok_must ⟨hn, not_wrote_of_quiet hq1⟩ fun x _ hx => ?_
    subst hx
    have hq2 : Quiet (⟨.truncInfo w.mount.id.base32, true⟩ :: tr1) := quiet_cons rfl hq1
    have h2 : Adds tr1 (⟨.truncInfo w.mount.id.base32, true⟩ :: tr1) := adds_cons (adds_refl _) rfl
    refine tok_bind (tok_ask ⟨adds_named h2 hn, not_wrote_of_quiet hq2, ⟨o.id, adds_made h2 hm, adds_based h2 hba,
      infoOf w o.id, rfl, rfl, rfl⟩, ⟨infoOf w o.id, w.ws.id, rfl, rfl, adds_knowsId (adds_trans h1 h2) hid⟩, by simp⟩ fun y _ => tok_need fun hy => ?_)
    refine tok_pure ⟨rfl, fun e he => ?_, o.id, ls, hl, ?_, ?_, ?_, ⟨_, ?_, infoOf w o.id, rfl, rfl, ?_⟩, ?_⟩
    · exact List.mem_cons_of_mem _ (adds_mem h2 (adds_mem h1 he))
    · exact List.mem_cons_of_mem _ (adds_made h2 hm)
    · exact (adds_based h2 hba).imp (List.mem_cons_of_mem _) (List.mem_cons_of_mem _)
    · rw [hd]; exact List.mem_cons_of_mem _ (adds_named h2 hn)
    · rw [hd]; subst hy; simp [WroteOk]
    · exact hd.symm
    · rintro ⟨n, u, l, z, hz⟩
      rcases List.mem_cons.1 hz with he | he
      · cases he
      · exact not_mounted_of_quiet hq2 ⟨n, u, l, z, he⟩

theorem createSpace_guard (tr : Trace) : tok AnyAns (Guard E) createSpace (fun _ tr' => Adds tr tr') tr := by
  unfold createSpace
  refine tok_bind (tok_ask trivial fun i _ => ?_)
  refine tok_must ⟨i, rfl, by simp⟩ fun x _ hx => ?_
  unfold spaceInitP
  refine tok_bind (tok_bind (tok_mono (layerCreate_guard _) fun u tr1 h1 => ?_))
  refine tok_lift fun s hs => ?_
  exact tok_pure (adds_trans (adds_cons (adds_cons (adds_refl _) rfl) rfl) h1.1)

theorem setBranch_heap {s s' : TS} {w w' : Ws} {b : Str} (h : Ws.setBranch s w b = .ok (s', w')) :
    s'.heap = s.heap ∧ w'.head = w.head ∧ w'.id = w.id := by
  unfold Ws.setBranch at h
  split at h
  · cases h
  · split at h
    · cases h
    · rename_i p _
      cases ha : s.addBranch (BranchInfo.fullName ⟨some w.id, b⟩) p.id with
      | ok s1 => rw [ha] at h; cases h; exact ⟨addBranch_heap ha, rfl, rfl⟩
      | _ => rw [ha] at h; cases h

theorem built_heap {tr : Trace} {s s' : TS} {m : MountObj} {r : Ref} (h : s'.heap = s.heap) (hb : Built tr s m r) : Built tr s' m r := by
  unfold Built at *; rw [h]; exact hb

theorem createWorkspace_guard (path branch : Str) {tr : Trace} (hq : Quiet tr) :
    tok AnyAns (Guard E) (createWorkspace E path branch) (fun w tr' => (∀ e ∈ tr, e ∈ tr') ∧ Ready E tr' w.mount) tr := by
  unfold createWorkspace
  refine tok_bind (tok_mono (createSpace_guard tr) ?_)
  rintro ⟨i, s⟩ tr1 h1
  simp only
  split
  · exact tok_panic
  · refine tok_bind (tok_mono (createMount_guard s _ tr1) ?_)
    rintro ⟨s1, mount, head⟩ tr2 ⟨h2, hb⟩
    refine tok_bind (tok_ask trivial fun wid _ => ?_)
    refine tok_bind (tok_lift ?_)
    rintro ⟨s2, w⟩ hs
    have h3 : Adds tr2 (⟨.rand, wid⟩ :: tr2) := adds_cons (adds_refl _) rfl
    obtain ⟨e1, e2, e3⟩ := setBranch_heap hs
    refine tok_mono (saveAll_guard ⟨s2, i, i.base32, mount, w⟩ (adds_quiet (adds_trans h1 (adds_trans h2 h3)) hq)
      (by have := adds_built h3 (built_heap e1 hb); rw [show w.head = head from e2]; exact this) (by rw [show w.id = wid from e3]; exact Or.inl (by simp))) ?_
    rintro w' tr' ⟨rfl, hm, hr⟩
    exact ⟨fun e he => hm e (adds_mem (adds_trans h1 (adds_trans h2 h3)) he), hr⟩

/-- What opening a workspace leaves in the trace. -/
def Opened (tr : Trace) (w : OpenWs) : Prop :=
  ∃ b i h, (⟨.readInfo w.mount.id.base32, .ok b⟩ : Ev) ∈ tr ∧ unmarshalInfo b = some i ∧ w.mount.dir = i.mountID ∧
    w.spaceDir = i.spaceID ∧ UID.decodeHex i.head = .ok h ∧ w.tree.get h = some w.ws.head ∧ (∃ t, spaceLoad t = .ok w.tree) ∧
    UID.decodeBase32 i.id = .ok w.ws.id

theorem opened_knowsId {tr : Trace} {w : OpenWs} (h : Opened tr w) : KnowsId tr w.ws.id := by
  obtain ⟨b, i, x, h1, h2, _, _, _, _, _, h3⟩ := h
  exact Or.inr ⟨_, b, i, h1, h2, h3⟩

theorem linkOf_guard (p : Str) (tr : Trace) : tok AnyAns (Guard E) (linkOf p) (fun _ tr' => Adds tr tr') tr := by
  unfold linkOf
  refine tok_bind (tok_ask trivial fun b _ => ?_)
  have h1 : Adds tr (⟨.isSymlink p, b⟩ :: tr) := adds_cons (adds_refl _) rfl
  split
  · refine tok_bind (tok_ask trivial fun t _ => ?_)
    split
    · exact tok_pure (adds_cons h1 rfl)
    · exact tok_fail
  · exact tok_pure h1

theorem getWorkspace_guard (cwd path : Str) (tr : Trace) :
    tok AnyAns (Guard E) (getWorkspace E cwd path) (fun w tr' => Adds tr tr' ∧ Opened tr' w) tr := by
  unfold getWorkspace
  refine tok_bind (tok_mono (linkOf_guard _ tr) fun link tr1 h1 => ?_)
  refine tok_bind (tok_lift fun m _ => ?_)
  unfold loadInfo
  refine tok_bind (tok_bind (tok_ask trivial fun r _ => ?_))
  split
  · rename_i b _
    refine tok_lift fun i hi => ?_
    have hi' : unmarshalInfo b = some i := by
      cases hu : unmarshalInfo b with
      | none => rw [hu] at hi; cases hi
      | some w => rw [hu] at hi; cases hi; rfl
    refine tok_bind (tok_lift fun wid hw => ?_)
    refine tok_bind (tok_lift fun sid _ => ?_)
    refine tok_bind (tok_ask trivial fun t _ => ?_)
    refine tok_bind (tok_lift fun s hs => ?_)
    refine tok_bind (tok_lift fun h hh => ?_)
    split
    · exact tok_fail
    · rename_i r hr
      refine tok_pure ⟨adds_cons (adds_cons h1 rfl) rfl, b, i, h, ?_, hi', rfl, rfl, hh, hr, ⟨t, hs⟩, hw⟩
      simp
  · exact tok_fail

theorem setToNode_idAt {s s' : TS} {r : Ref} {ci : CommitInfo} (h : setToNode s r ci = some s') : idAt s'.heap = idAt s.heap := by
  unfold setToNode at h
  cases h1 : s.addAnnotation r annoDate ci.date with
  | none => rw [h1] at h; cases h
  | some s1 =>
    rw [h1] at h
    have key : ∀ {a b : TS} {k v : Str}, a.addAnnotation r k v = some b → idAt b.heap = idAt a.heap := by
      intro a b k v hab
      unfold addAnnotation TS.modify at hab
      split at hab
      · cases hab
      · rename_i o ho
        cases hab; exact idAt_set ho rfl
    rw [key h, key h1]

theorem moveBranch_guard (s : TS) (b : BranchInfo) (head : Ref) (tr : Trace) :
    tok AnyAns (Guard E) (moveBranch s b head) (fun s' tr' => s'.heap = s.heap ∧ tr' = tr) tr := by
  unfold moveBranch
  split
  · exact tok_bind (tok_lift fun p _ => tok_lift fun s3 hs3 => ⟨updateBranch_heap hs3, rfl⟩)
  · exact tok_pure ⟨rfl, rfl⟩

theorem commitP_guard (w : OpenWs) (ci : CommitInfo) {tr : Trace} (hq : Quiet tr) (hid : KnowsId tr w.ws.id) :
    tok AnyAns (Guard E) (commitP E w ci) (fun w' tr' => (∀ e ∈ tr, e ∈ tr') ∧ Ready E tr' w'.mount) tr := by
  unfold commitP
  split
  · exact tok_panic
  rename_i s1 hs
  split
  · exact tok_panic
  rename_i o ho
  refine tok_bind (tok_mono (createMount_guard s1 o.id tr) ?_)
  rintro ⟨s2, mount, head⟩ tr2 ⟨h2, hb⟩
  refine tok_bind (tok_mono (moveBranch_guard s2 _ head tr2) ?_)
  rintro s3 tr' ⟨e1, rfl⟩
  refine tok_mono (saveAll_guard _ (adds_quiet h2 hq) (built_heap e1 hb) (adds_knowsId h2 hid)) ?_
  rintro w' tr3 ⟨rfl, hm, hr⟩
  exact ⟨fun e he => hm e (adds_mem h2 he), hr⟩

theorem checkoutP_guard (w : OpenWs) (key : Str) {tr : Trace} (hq : Quiet tr) (hid : KnowsId tr w.ws.id) :
    tok AnyAns (Guard E) (checkoutP E w key) (fun w' tr' => (∀ e ∈ tr, e ∈ tr') ∧ Ready E tr' w'.mount) tr := by
  unfold checkoutP
  refine tok_bind (tok_lift fun x _ => ?_)
  split
  · exact tok_fail
  · rename_i n kt
    split
    · exact tok_panic
    · rename_i o _
      refine tok_bind (tok_mono (createMount_guard w.tree o.id tr) ?_)
      rintro ⟨s2, mount, head⟩ tr2 ⟨h2, hb⟩
      refine tok_mono (saveAll_guard _ (adds_quiet h2 hq) hb (adds_knowsId h2 hid)) ?_
      rintro w' tr3 ⟨rfl, hm, hr⟩
      exact ⟨fun e he => hm e (adds_mem h2 he), hr⟩

theorem cloneP_guard (w : OpenWs) (target : Str) {tr : Trace} (hq : Quiet tr) :
    tok AnyAns (Guard E) (cloneP E w target) (fun w' tr' => (∀ e ∈ tr, e ∈ tr') ∧ Ready E tr' w'.mount) tr := by
  unfold cloneP
  refine tok_bind (tok_lift fun p _ => ?_)
  refine tok_bind (tok_mono (createMount_guard w.tree p tr) ?_)
  rintro ⟨s2, mount, head⟩ tr2 ⟨h2, hb⟩
  refine tok_bind (tok_ask trivial fun wid _ => ?_)
  have h3 : Adds tr2 (⟨.rand, wid⟩ :: tr2) := adds_cons (adds_refl _) rfl
  refine tok_mono (saveAll_guard _ (adds_quiet (adds_trans h2 h3) hq) (adds_built h3 hb) (Or.inl (by simp))) ?_
  rintro w' tr3 ⟨rfl, hm, hr⟩
  exact ⟨fun e he => hm e (adds_mem (adds_trans h2 h3) he), hr⟩

/-- After these calls nothing more is required of the trace but what it already contains. -/
theorem tok_ask_keep {tr0 tr : Trace} {c : Cmd} {R : c.Ans → Trace → Prop} (hg : Guard E tr c) (hk : ∀ e ∈ tr0, e ∈ tr)
    (h : ∀ x tr', (∀ e ∈ tr0, e ∈ tr') → (⟨c, x⟩ : Ev) ∈ tr' → R x tr') : tok AnyAns (Guard E) (M.ask c) R tr :=
  tok_ask hg fun x _ => h x _ (fun e he => List.mem_cons_of_mem _ (hk e he)) List.mem_cons_self

theorem mountP_guard (m : MountObj) {tr : Trace} (hr : Ready E tr m) :
    tok AnyAns (Guard E) (mountP m) (fun _ tr' => ∀ e ∈ tr, e ∈ tr') tr := by
  unfold mountP
  obtain ⟨u, ls, hl, hrest⟩ := hr
  rw [hl]
  simp only
  have step : ∀ {tr : Trace} {c : Cmd} {x : c.Ans}, (∀ n u ls, c ≠ .mountOverlay n u ls) →
      (Made tr u ∧ Based tr u ∧ Named tr m.dir ∧ (∃ b, WroteOk tr m.dir b ∧ RecordOf E b m.dir u) ∧ ¬ Mounted tr) →
      (Made (⟨c, x⟩ :: tr) u ∧ Based (⟨c, x⟩ :: tr) u ∧ Named (⟨c, x⟩ :: tr) m.dir ∧
        (∃ b, WroteOk (⟨c, x⟩ :: tr) m.dir b ∧ RecordOf E b m.dir u) ∧ ¬ Mounted (⟨c, x⟩ :: tr)) := by
    rintro tr c x hc ⟨h1, h2, h3, ⟨b, h4, h5⟩, h6⟩
    refine ⟨List.mem_cons_of_mem _ h1, h2.imp (List.mem_cons_of_mem _) (List.mem_cons_of_mem _), List.mem_cons_of_mem _ h3,
      ⟨b, List.mem_cons_of_mem _ h4, h5⟩, ?_⟩
    rintro ⟨n, v, l, z, hz⟩
    rcases List.mem_cons.1 hz with he | he
    · cases he; exact hc _ _ _ rfl
    · exact h6 ⟨n, v, l, z, he⟩
  have tail : ∀ {tr0 : Trace}, (∀ e ∈ tr, e ∈ tr0) →
      (Made tr0 u ∧ Based tr0 u ∧ Named tr0 m.dir ∧ (∃ b, WroteOk tr0 m.dir b ∧ RecordOf E b m.dir u) ∧ ¬ Mounted tr0) →
      tok AnyAns (Guard E) (do
        need (← ask (.mountOverlay m.dir u ls)) .mount
        need (← ask (.chownMerged m.dir)) .mount : M Unit) (fun _ tr' => ∀ e ∈ tr, e ∈ tr') tr0 := by
    intro tr0 hk h0
    refine tok_must h0 fun x _ _ => ?_
    refine tok_bind (tok_ask trivial fun y _ => tok_need fun _ e he => ?_)
    exact List.mem_cons_of_mem _ (List.mem_cons_of_mem _ (hk e he))
  have middle : ∀ {tr0 : Trace}, (∀ e ∈ tr, e ∈ tr0) →
      (Made tr0 u ∧ Based tr0 u ∧ Named tr0 m.dir ∧ (∃ b, WroteOk tr0 m.dir b ∧ RecordOf E b m.dir u) ∧ ¬ Mounted tr0) →
      tok AnyAns (Guard E) (do
        if !(← ask (.isDirWork m.dir)) then
          need (okMkdir (← ask (.mkdirWork m.dir))) .mount
        need (← ask (.mountOverlay m.dir u ls)) .mount
        need (← ask (.chownMerged m.dir)) .mount : M Unit) (fun _ tr' => ∀ e ∈ tr, e ∈ tr') tr0 := by
    intro tr0 hk h0
    refine tok_bind (tok_ask trivial fun b _ => ?_)
    have h1 := step (c := .isDirWork m.dir) (x := b) (by simp) h0
    split
    · refine tok_bind (tok_ask trivial fun y _ => ?_)
      refine tok_bind (tok_need fun _ => tail ?_ (step (by simp) h1))
      exact fun e he => List.mem_cons_of_mem _ (List.mem_cons_of_mem _ (hk e he))
    · exact tail (fun e he => List.mem_cons_of_mem _ (hk e he)) h1
  refine tok_bind (tok_ask trivial fun b _ => ?_)
  have h1 := step (c := .isDirMerged m.dir) (x := b) (by simp) hrest
  split
  · refine tok_bind (tok_ask trivial fun y _ => ?_)
    refine tok_bind (tok_need fun _ => middle ?_ (step (by simp) h1))
    exact fun e he => List.mem_cons_of_mem _ (List.mem_cons_of_mem _ he)
  · exact middle (fun e he => List.mem_cons_of_mem _ he) h1

theorem expand_guard (w : OpenWs) {tr : Trace} (hr : Ready E tr w.mount) :
    tok AnyAns (Guard E) (expand E w) (fun _ tr' => ∀ e ∈ tr, e ∈ tr') tr := by
  unfold expand
  refine tok_bind (tok_mono (mountP_guard w.mount hr) fun _ tr1 h1 => ?_)
  refine tok_must trivial fun _ _ _ => ?_
  refine tok_must trivial fun _ _ _ => ?_
  refine tok_bind (tok_ask trivial fun b _ => ?_)
  have tail : ∀ {tr0 : Trace}, (∀ e ∈ tr, e ∈ tr0) → tok AnyAns (Guard E) (do
      need (← ask (.symlink (E.mountPath w.mount.dir) w.ws.path)) .symlink
      need (← ask (.lchown w.ws.path)) .symlink
      need (← ask (.sys .chdirBack)) .cwd : M Unit) (fun _ tr' => ∀ e ∈ tr, e ∈ tr') tr0 := by
    intro tr0 hk
    refine tok_must trivial fun _ _ _ => ?_
    refine tok_must trivial fun _ _ _ => ?_
    refine tok_bind (tok_ask trivial fun _ _ => tok_need fun _ e he => ?_)
    simp [hk e he]
  split
  · refine tok_must trivial fun _ _ _ => tail fun e he => ?_
    simp [h1 e he]
  · exact tail fun e he => by simp [h1 e he]

theorem removeMount_guard (m : MountObj) {tr : Trace} {b : Str} {i : WsInfo} (hb : (⟨.readInfo m.id.base32, .ok b⟩ : Ev) ∈ tr)
    (hi : unmarshalInfo b = some i) :
    tok AnyAns (Guard E) (removeMount m)
      (fun _ tr' => (∀ e ∈ tr, e ∈ tr') ∧ (⟨.removeAllMount m.id.base32, true⟩ : Ev) ∈ tr') tr := by
  unfold removeMount
  refine tok_must trivial fun _ _ _ => ?_
  refine tok_must trivial fun _ _ _ => ?_
  refine tok_bind (tok_ask trivial fun _ _ => ?_)
  refine tok_must ⟨b, i, by simp [hb], hi⟩ fun x _ hx => ?_
  subst hx
  refine tok_bind (tok_ask (by simp [Guard]) fun y _ => ?_)
  split
  · exact tok_fail
  · refine tok_bind (tok_ask trivial fun _ _ => tok_need fun _ => ⟨fun e he => ?_, ?_⟩)
    · simp [he]
    · simp

theorem initCmd_guard (path branch : Str) : tok AnyAns (Guard E) (initCmd E path branch) (fun _ _ => True) [] := by
  unfold initCmd
  have tail : ∀ {tr : Trace}, Quiet tr → tok AnyAns (Guard E) (do
      let w ← createWorkspace E path branch
      expand E w
      return w : M OpenWs) (fun _ _ => True) tr := by
    intro tr hq
    refine tok_bind (tok_mono (createWorkspace_guard path branch hq) fun w tr1 h1 => ?_)
    exact tok_bind (tok_mono (expand_guard w h1.2) fun _ _ _ => tok_pure trivial)
  refine tok_bind (tok_ask trivial fun b _ => ?_)
  split
  · exact tok_must trivial fun _ _ _ => tail (quiet_cons rfl (quiet_cons rfl quiet_nil))
  · exact tail (quiet_cons rfl quiet_nil)

theorem cloneCmd_guard (cwd source target : Str) :
    tok AnyAns (Guard E) (cloneCmd E cwd source target) (fun _ _ => True) [] := by
  unfold cloneCmd
  refine tok_bind (tok_mono (getWorkspace_guard cwd source []) fun w tr1 h1 => ?_)
  refine tok_bind (tok_mono (cloneP_guard w target (adds_quiet h1.1 quiet_nil)) fun w' tr2 h2 => ?_)
  exact tok_bind (tok_mono (expand_guard w' h2.2) fun _ _ _ => tok_pure trivial)

/-- What a command that moves a workspace leaves in the trace: it opened the old mount and then removed it. -/
def Moved (tr : Trace) (w : OpenWs) : Prop :=
  Opened tr w ∧ (⟨.removeAllMount w.mount.id.base32, true⟩ : Ev) ∈ tr

theorem opened_mono {tr tr' : Trace} {w : OpenWs} (h : ∀ e ∈ tr, e ∈ tr') (ho : Opened tr w) : Opened tr' w := by
  obtain ⟨b, i, x, h1, h2⟩ := ho
  exact ⟨b, i, x, h _ h1, h2⟩

theorem commitCmd_guard (cwd : Str) (ci : CommitInfo) :
    tok AnyAns (Guard E) (commitCmd E cwd ci) (fun x tr' => Moved tr' x.1) [] := by
  unfold commitCmd
  refine tok_bind (tok_mono (getWorkspace_guard cwd _ []) fun w tr1 h1 => ?_)
  refine tok_bind (tok_mono (commitP_guard w ci (adds_quiet h1.1 quiet_nil) (opened_knowsId h1.2)) fun w' tr2 h2 => ?_)
  refine tok_bind (tok_mono (expand_guard w' h2.2) fun _ tr3 h3 => ?_)
  obtain ⟨b, i, h, hb, hi, _⟩ := h1.2
  refine tok_bind (tok_mono (removeMount_guard w.mount (h3 _ (h2.1 _ hb)) hi) fun _ tr4 h4 => ?_)
  exact tok_pure ⟨opened_mono (fun e he => h4.1 e (h3 e (h2.1 e he))) h1.2, h4.2⟩

theorem checkoutCmd_guard (cwd key : Str) :
    tok AnyAns (Guard E) (checkoutCmd E cwd key) (fun x tr' => Moved tr' x.1) [] := by
  unfold checkoutCmd
  refine tok_bind (tok_mono (getWorkspace_guard cwd _ []) fun w tr1 h1 => ?_)
  refine tok_bind (tok_mono (checkoutP_guard w key (adds_quiet h1.1 quiet_nil) (opened_knowsId h1.2)) fun w' tr2 h2 => ?_)
  refine tok_bind (tok_mono (expand_guard w' h2.2) fun _ tr3 h3 => ?_)
  obtain ⟨b, i, h, hb, hi, _⟩ := h1.2
  refine tok_bind (tok_mono (removeMount_guard w.mount (h3 _ (h2.1 _ hb)) hi) fun _ tr4 h4 => ?_)
  exact tok_pure ⟨opened_mono (fun e he => h4.1 e (h3 e (h2.1 e he))) h1.2, h4.2⟩

theorem editAll_guard (dir : Str) (w : Ws) : ∀ (es : List Edit) (s : TS) (tr : Trace),
    tok AnyAns (Guard E) (editAll dir w es s) (fun _ _ => True) tr
  | [], s, tr => by rw [editAll]; exact tok_pure trivial
  | e :: es, s, tr => by
    rw [editAll]
    refine tok_bind (tok_lift fun s' _ => ?_)
    exact tok_bind (tok_mono (spaceSave_guard dir s' tr) fun _ tr1 _ => editAll_guard dir w es s' tr1)

theorem editCmd_guard (cwd : Str) (es : List Edit) : tok AnyAns (Guard E) (editCmd E cwd es) (fun _ _ => True) [] := by
  unfold editCmd
  exact tok_bind (tok_mono (getWorkspace_guard cwd _ []) fun w tr1 _ => editAll_guard _ _ es _ tr1)

end
end Verif
