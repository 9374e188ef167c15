import Verif.World.Pool
import Verif.World.Sound
import Verif.World.SeqEdit
/-!
# What each command saves, whatever the others do

The trees that a command saves are made of nodes that it read and nodes that it made, each below the parent that it had.
Nothing is assumed of the others here but that files that can be read were saved by somebody (`Ans`).
-/
set_option autoImplicit false
namespace Verif
open M TS Json

/-! ## Rules -/

section
variable {α β : Type} {A : Trace → (c : Cmd) → c.Ans → Prop} {G : Trace → Cmd → Prop} {B : Trace → Prop}

/-- `R` after success, `B` after a panic, no endless loop. -/
def Sane (B : Trace → Prop) (R : α → Trace → Prop) : Res CErr α → Trace → Prop
  | .ok a, tr => R a tr
  | .err _, _ => True
  | .panic, tr => B tr
  | .diverge, _ => False

/-- The calls satisfy the guard, and the end is as `Sane` says. -/
def tpm (A : Trace → (c : Cmd) → c.Ans → Prop) (G : Trace → Cmd → Prop) (B : Trace → Prop) (x : M α) (R : α → Trace → Prop) (tr : Trace) : Prop :=
  twp A G x (Sane B R) tr

theorem tpm_bind {x : M α} {g : α → M β} {R : β → Trace → Prop} {tr : Trace}
    (h : tpm A G B x (fun a tr => tpm A G B (g a) R tr) tr) : tpm A G B (x >>= g) R tr := by
  refine twp_bind.2 (twp_mono h fun r tr hr => ?_)
  cases r with
  | ok a => exact hr
  | err e => exact trivial
  | panic => exact hr
  | diverge => exact hr.elim

theorem tpm_mono {x : M α} {R R' : α → Trace → Prop} {tr : Trace} (h : tpm A G B x R tr) (hr : ∀ a tr, R a tr → R' a tr) :
    tpm A G B x R' tr := by
  refine twp_mono h fun r tr hx => ?_
  cases r with
  | ok a => exact hr a tr hx
  | err e => exact trivial
  | panic => exact hx
  | diverge => exact hx.elim

theorem tpm_pure {a : α} {R : α → Trace → Prop} {tr : Trace} (h : R a tr) : tpm A G B (Pure.pure a : M α) R tr := h
theorem tpm_fail {e : CErr} {R : α → Trace → Prop} {tr : Trace} : tpm A G B (M.fail e : M α) R tr := trivial

theorem tpm_lift {ε : Type} {g : ε → CErr} {r : Res ε α} {R : α → Trace → Prop} {tr : Trace} (h : ∀ a, r = .ok a → R a tr)
    (hp : r = .panic → B tr) (hd : r ≠ .diverge) : tpm A G B (M.lift g r) R tr := by
  cases r with
  | ok a => exact h a rfl
  | err e => exact trivial
  | panic => exact hp rfl
  | diverge => exact absurd rfl hd

theorem tpm_lift_ok {ε : Type} {g : ε → CErr} {r : Res ε α} {a : α} {R : α → Trace → Prop} {tr : Trace} (hr : r = .ok a) (h : R a tr) :
    tpm A G B (M.lift g r) R tr := by subst hr; exact h

theorem tpm_lift_err {ε : Type} {g : ε → CErr} {r : Res ε α} {e : ε} {R : α → Trace → Prop} {tr : Trace} (hr : r = .err e) :
    tpm A G B (M.lift g r) R tr := by subst hr; exact trivial

theorem tpm_ask {c : Cmd} {R : c.Ans → Trace → Prop} {tr : Trace} (hg : G tr c) (h : ∀ x, A tr c x → R x (⟨c, x⟩ :: tr)) :
    tpm A G B (M.ask c) R tr := ⟨hg, fun x hx => h x hx⟩

theorem tpm_need {b : Bool} {e : CErr} {R : Unit → Trace → Prop} {tr : Trace} (h : b = true → R () tr) :
    tpm A G B (M.need b e) R tr := by
  cases b with
  | true => exact h rfl
  | false => exact trivial

theorem tpm_must {c : Cmd} {g : c.Ans → Bool} {e : CErr} {m : Unit → M β} {R : β → Trace → Prop} {tr : Trace}
    (hg : G tr c) (h : ∀ x, A tr c x → g x = true → tpm A G B (m ()) R (⟨c, x⟩ :: tr)) :
    tpm A G B (M.ask c >>= fun x => M.need (g x) e >>= m) R tr :=
  tpm_bind (tpm_ask hg fun x hx => tpm_bind (tpm_need fun hb => h x hx hb))

end

/-! ## Where nodes come from -/

/-- The program read a tree in which `u` is below `q`. -/
def Knows (tr : Trace) (u : UID) (q : Option UID) : Prop :=
  ∃ n r s nd, (⟨.readTree n, r⟩ : Ev) ∈ tr ∧ spaceLoad r = .ok s ∧ s.abs.node u = some nd ∧ nd.parent = q

/-- The program has not yet marshalled a tree. -/
def Undumped (tr : Trace) : Prop := ∀ s b, (⟨.dump s, b⟩ : Ev) ∉ tr

/-- The program read a tree with this branch, or it is a branch of a workspace that the program knows. -/
def Tells (tr : Trace) (b : Str) : Prop :=
  (∃ n r s, (⟨.readTree n, r⟩ : Ev) ∈ tr ∧ spaceLoad r = .ok s ∧ s.abs.branch b ≠ none) ∨ ∃ i x, KnowsId tr i ∧ b = i.base32 ++ lit "/" ++ x

/-- Each node of the tree was read, or made for this first save. -/
def Src (tr : Trace) (a : ATree) : Prop :=
  (∀ u nd, a.node u = some nd → Knows tr u nd.parent ∨ (Made tr u ∧ Based tr u ∧ Undumped tr)) ∧ ∀ b, a.branch b ≠ none → Tells tr b

/-- All nodes were read. -/
def Known (tr : Trace) (a : ATree) : Prop := (∀ u nd, a.node u = some nd → Knows tr u nd.parent) ∧ ∀ b, a.branch b ≠ none → Tells tr b

/-- What is assumed of the answers. -/
def Ans (E : Env) (tr : Trace) : (c : Cmd) → c.Ans → Prop
  | .dump s, b => Reach s → SavesAs E.sh s b
  | .readTree _, r => (∃ e, spaceLoad r = .err e) ∨ ∃ s, spaceLoad r = .ok s ∧ Reach s ∧
      ∀ m b i u nd, (⟨.readInfo m, .ok b⟩ : Ev) ∈ tr → unmarshalInfo b = some i → i.head = UID.hex u → s.abs.node u = some nd → nd.parent ≠ none
  | .readInfo _, r => ∀ b i, r = .ok b → unmarshalInfo b = some i →
      ∃ r : WsRec, i.id = r.ws.base32 ∧ i.spaceID = r.space.base32 ∧ i.head = r.head.hex
  | .mkdirLayer u, x => x = true → (∀ q, ¬ Knows tr u q) ∧ ¬ Made tr u
  | _, _ => True

/-- The program has marshalled a tree in which `ls` is the history below `u`. -/
def Stands (tr : Trace) (u : UID) (ls : List UID) : Prop :=
  ∃ (s : TS) (b : Str) (p : UID), (⟨.dump s, b⟩ : Ev) ∈ tr ∧ Below s.abs u p ∧ s.abs.Path p ls

theorem stands_mono {tr tr' : Trace} (h : ∀ e ∈ tr, e ∈ tr') {u : UID} {ls : List UID} (hs : Stands tr u ls) : Stands tr' u ls := by
  obtain ⟨s, b, p, h1, h2⟩ := hs
  exact ⟨s, b, p, h _ h1, h2⟩

/-- What the commands keep to. -/
def Saves (E : Env) (tr : Trace) : Cmd → Prop
  | .dump s => Reach s ∧ Src tr s.abs
  | .writeTree n b => (∃ tl, tr = ⟨.truncTree n, true⟩ :: tl) ∧ ∃ s, (⟨.dump s, b⟩ : Ev) ∈ tr
  | .writeInfo n b => (∃ tl, tr = ⟨.truncInfo n, true⟩ :: tl) ∧
      ∃ (r : WsRec) (s : TS) (b' : Str) (p : UID), b = r.bytes E ∧ (⟨.dump s, b'⟩ : Ev) ∈ tr ∧ Below s.abs r.head p
  | .mountOverlay _ u ls => Stands tr u ls
  | _ => True

/-- Calls that read nothing of the store and marshal nothing. -/
def Cmd.still : Cmd → Bool
  | .readTree _ | .readInfo _ | .dump _ => false
  | _ => true

/-- Only such calls were added. -/
def Grows (tr tr' : Trace) : Prop := ∃ new, tr' = new ++ tr ∧ ∀ e ∈ new, e.1.still = true

theorem grows_refl (tr : Trace) : Grows tr tr := ⟨[], rfl, by simp⟩
theorem grows_cons {tr tr' : Trace} {c : Cmd} {x : c.Ans} (h : Grows tr tr') (hc : c.still = true) : Grows tr (⟨c, x⟩ :: tr') := by
  obtain ⟨new, rfl, hn⟩ := h
  refine ⟨⟨c, x⟩ :: new, rfl, fun e he => ?_⟩
  rcases List.mem_cons.1 he with rfl | he
  · exact hc
  · exact hn e he
theorem grows_trans {a b c : Trace} (h : Grows a b) (h' : Grows b c) : Grows a c := by
  obtain ⟨n1, rfl, h1⟩ := h
  obtain ⟨n2, rfl, h2⟩ := h'
  refine ⟨n2 ++ n1, by simp, fun e he => ?_⟩
  rcases List.mem_append.1 he with he | he
  · exact h2 e he
  · exact h1 e he
theorem grows_mem {tr tr' : Trace} (h : Grows tr tr') {e : Ev} (he : e ∈ tr) : e ∈ tr' := by
  obtain ⟨new, rfl, _⟩ := h
  exact List.mem_append_right _ he
theorem grows_back {tr tr' : Trace} (h : Grows tr tr') {e : Ev} (hs : e.1.still = false) (he : e ∈ tr') : e ∈ tr := by
  obtain ⟨new, rfl, hn⟩ := h
  rcases List.mem_append.1 he with he | he
  · rw [hn e he] at hs; cases hs
  · exact he
theorem grows_undumped {tr tr' : Trace} (h : Grows tr tr') (hu : Undumped tr) : Undumped tr' := fun s b hb => hu s b (grows_back h rfl hb)

theorem knows_mono {tr tr' : Trace} (h : ∀ e ∈ tr, e ∈ tr') {u : UID} {q : Option UID} (hk : Knows tr u q) : Knows tr' u q := by
  obtain ⟨n, r, s, nd, h1, h2⟩ := hk
  exact ⟨n, r, s, nd, h _ h1, h2⟩

theorem grows_knows {tr tr' : Trace} (h : Grows tr tr') {u : UID} {q : Option UID} (hk : Knows tr' u q) : Knows tr u q := by
  obtain ⟨n, r, s, nd, h1, h2⟩ := hk
  exact ⟨n, r, s, nd, grows_back h rfl h1, h2⟩

theorem knowsId_mono {tr tr' : Trace} (h : ∀ e ∈ tr, e ∈ tr') {i : UID} (hk : KnowsId tr i) : KnowsId tr' i := by
  rcases hk with hk | ⟨n, b, j, h1, h2⟩
  · exact Or.inl (h _ hk)
  · exact Or.inr ⟨n, b, j, h _ h1, h2⟩

theorem tells_mono {tr tr' : Trace} (h : ∀ e ∈ tr, e ∈ tr') {b : Str} (hk : Tells tr b) : Tells tr' b := by
  rcases hk with ⟨n, r, s, h1, h2⟩ | ⟨i, x, h1, h2⟩
  · exact Or.inl ⟨n, r, s, h _ h1, h2⟩
  · exact Or.inr ⟨i, x, knowsId_mono h h1, h2⟩

theorem grows_src {tr tr' : Trace} (h : Grows tr tr') {a : ATree} (hs : Src tr a) : Src tr' a := by
  refine ⟨fun u nd hn => ?_, fun b hb => tells_mono (fun e he => grows_mem h he) (hs.2 b hb)⟩
  rcases hs.1 u nd hn with h1 | ⟨h1, h2, h3⟩
  · exact Or.inl (knows_mono (fun e he => grows_mem h he) h1)
  · exact Or.inr ⟨grows_mem h h1, h2.imp (grows_mem h) (grows_mem h), grows_undumped h h3⟩

theorem src_congr {tr : Trace} {a b : ATree} (h : ∀ x, (b.node x).map ANode.parent = (a.node x).map ANode.parent)
    (hb : ∀ x, b.branch x ≠ none → a.branch x ≠ none ∨ Tells tr x) (hs : Src tr a) : Src tr b := by
  refine ⟨fun u nd hn => ?_, fun x hx => (hb x hx).elim (hs.2 x) _root_.id⟩
  obtain ⟨m, hm, e⟩ := map_parent.1 ((h u).symm.trans (map_parent.2 ⟨nd, hn, rfl⟩))
  rw [← e]; exact hs.1 u m hm

theorem known_src {tr : Trace} {a : ATree} (h : Known tr a) : Src tr a := ⟨fun u nd hn => Or.inl (h.1 u nd hn), h.2⟩

theorem known_mono {tr tr' : Trace} (h : ∀ e ∈ tr, e ∈ tr') {a : ATree} (hk : Known tr a) : Known tr' a :=
  ⟨fun u nd hn => knows_mono h (hk.1 u nd hn), fun b hb => tells_mono h (hk.2 b hb)⟩

theorem abs_node_heap {s s' : TS} (h1 : s'.heap = s.heap) (h2 : s'.tree.nodes = s.tree.nodes) : s'.abs.node = s.abs.node := by
  funext u
  simp only [abs, TS.get, h1, h2]

/-! ## Function by function -/

section
variable {E : Env} {B : Trace → Prop}

theorem layerCreate_saves (tr : Trace) :
    tpm (Ans E) (Saves E) B layerCreate (fun u tr' => Grows tr tr' ∧ Made tr' u ∧ Based tr' u ∧ (∀ q, ¬ Knows tr u q) ∧ ¬ Made tr u) tr := by
  unfold layerCreate
  refine tpm_bind (tpm_ask trivial fun u _ => ?_)
  have h0 : Grows tr (⟨.rand, u⟩ :: tr) := grows_cons (grows_refl _) rfl
  refine tpm_must trivial fun x hA hx => ?_
  subst hx
  obtain ⟨a1, a2⟩ := hA rfl
  have a1' : ∀ q, ¬ Knows tr u q := fun q hq => a1 q (knows_mono (fun e he => grows_mem h0 he) hq)
  have a2' : ¬ Made tr u := fun hm => a2 (grows_mem h0 hm)
  have h1 : Grows tr (⟨.mkdirLayer u, true⟩ :: ⟨.rand, u⟩ :: tr) := grows_cons h0 rfl
  refine tpm_bind (tpm_ask trivial fun b _ => ?_)
  split
  · rename_i hb
    subst hb
    exact tpm_pure ⟨grows_cons h1 rfl, by simp [Made], Or.inr (by simp), a1', a2'⟩
  · refine tpm_must trivial fun x _ hx => ?_
    subst hx
    exact tpm_pure ⟨grows_cons (grows_cons h1 rfl) rfl, by simp [Made], Or.inl (by simp), a1', a2'⟩

/-- The tree with a new node `u` at `r` below `base`, not yet saved. -/
structure Grown (tr : Trace) (s s' : TS) (base u : UID) (r : Ref) : Prop where
  reach : Reach s'
  new : ¬ s.abs.Has u
  abs : s'.abs = s.abs.add (some base) u (fun _ => none) (fun _ => none)
  head : s'.get u = some r
  src : Src tr s'.abs

theorem grown_grows {tr tr' : Trace} {s s' : TS} {base u : UID} {r : Ref} (h : Grows tr tr') (hg : Grown tr s s' base u r) : Grown tr' s s' base u r :=
  ⟨hg.reach, hg.new, hg.abs, hg.head, grows_src h hg.src⟩

theorem createLayer_saves {s : TS} (base : UID) {tr : Trace} (hr : Reach s) (hs : Src tr s.abs) (hu : Undumped tr) :
    tpm (Ans E) (Saves E) B (createLayer s base) (fun x tr' => Grows tr tr' ∧ ∃ u, Grown tr' s x.1 base u x.2) tr := by
  unfold createLayer
  split
  · exact tpm_fail
  rename_i o ho
  obtain ⟨r0, g1, g2⟩ := Option.bind_eq_some_iff.1 ho
  have hb : s.abs.Has base := (abs_has_iff_get (wf_of_reach hr) base).2 ⟨r0, g1⟩
  have hid : o.id = base := by
    obtain ⟨o', h1, h2⟩ := head_obj (wf_of_reach hr) g1
    have h2' : s.heap[r0]? = some o := g2
    rw [h2'] at h1; cases h1; exact h2
  refine tpm_bind (tpm_mono (layerCreate_saves tr) ?_)
  rintro u tr1 ⟨h1, h2, h3, h4, h5⟩
  have hnew : ¬ s.abs.Has u := by
    rintro ⟨nd, hn⟩
    rcases hs.1 u nd hn with h | ⟨h, _⟩
    · exact h4 _ h
    · exact h5 h
  obtain ⟨s', e1, e2, e3, e4⟩ := addLayer_spec hr hb hnew
  rw [hid]
  refine tpm_bind (tpm_lift_ok e1 (tpm_pure ⟨h1, u, e2, hnew, e3, e4, fun v nd hn => ?_, fun b hb => ?_⟩))
  rotate_left
  · rw [e3] at hb
    exact (grows_src h1 hs).2 b hb
  rw [e3] at hn
  by_cases hv : v = u
  · subst hv; exact Or.inr ⟨h2, h3, grows_undumped h1 hu⟩
  · rw [ATree.add] at hn
    simp only [upd_ne _ _ hv] at hn
    exact (grows_src h1 hs).1 v nd hn

theorem layerChain_saves {s : TS} (h : WF s) {dep : Nat → Nat}
    (hd : ∀ r o, s.heap[r]? = some o → s.tree.nodes.get o.id.hex = some r → ∀ p, o.parent = some p → dep r = dep p + 1) :
    ∀ (fuel : Nat) (r : Nat) (o : NodeObj) (tr : Trace), s.heap[r]? = some o → s.tree.nodes.get o.id.hex = some r → dep r < fuel →
      tpm (Ans E) (Saves E) B (layerChain s.heap fuel (some r)) (fun l tr' => Grows tr tr' ∧ s.abs.Path o.id l) tr
  | 0, _, _, _, _, _, hlt => absurd hlt (Nat.not_lt_zero _)
  | n + 1, r, o, tr, ho, hi, hlt => by
    rw [layerChain]
    have hnode := (abs_node_iff h o.id _).2 ⟨r, o, ho, hi, rfl, rfl⟩
    simp only [ho]
    refine tpm_must trivial fun x _ _ => ?_
    have hg : Grows tr (⟨.isDirLayer o.id, x⟩ :: tr) := grows_cons (grows_refl _) rfl
    rcases h.par r o ho hi with ⟨hn, _⟩ | ⟨q, qo, h1, h2, h3, h4⟩
    · rw [hn]
      have : layerChain s.heap n none = (Pure.pure [] : M _) := by cases n <;> rfl
      rw [this]
      exact tpm_bind (tpm_pure (tpm_pure ⟨hg, .root hnode (by simp [absObj, hn])⟩))
    · rw [h1]
      have hlt' : dep q < n := by have := hd r o ho hi q h1; omega
      exact tpm_bind (tpm_mono (layerChain_saves h hd n q qo _ h2 h3 hlt') fun l tr1 hl =>
        tpm_pure ⟨grows_trans hg hl.1, .step hnode (by simp [absObj, h1, idAt, h2]) hl.2⟩)

/-- The mount puts the working layer `u` on the history of `p`. -/
def Stacked (a : ATree) (m : MountObj) (u p : UID) : Prop := ∃ ls, m.layers = some ⟨u, ls⟩ ∧ Below a u p ∧ a.Path p ls

theorem stacked_congr {a b : ATree} (h : b.node = a.node) {m : MountObj} {u p : UID} (hs : Stacked a m u p) : Stacked b m u p := by
  obtain ⟨ls, h1, ⟨n, h2, h3⟩, h4⟩ := hs
  have hx : Extends (fun _ => False) a b := fun v n hn => ⟨n, by rw [h]; exact hn, rfl, fun _ => sameNode_refl n⟩
  exact ⟨ls, h1, ⟨n, by rw [h]; exact h2, h3⟩, extends_path hx h4⟩

theorem createMount_saves {s : TS} (commit : UID) {tr : Trace} (hr : Reach s) (hs : Src tr s.abs) (hu : Undumped tr) :
    tpm (Ans E) (Saves E) B (createMount s commit)
      (fun x tr' => Grows tr tr' ∧ ∃ u, Grown tr' s x.1 commit u x.2.2 ∧ Stacked x.1.abs x.2.1 u commit) tr := by
  unfold createMount
  refine tpm_bind (tpm_ask trivial fun m _ => ?_)
  refine tpm_must trivial fun x _ _ => ?_
  have h0 : Grows tr (⟨.mkdirMount m.base32, x⟩ :: ⟨.rand, m⟩ :: tr) := grows_cons (grows_cons (grows_refl _) rfl) rfl
  unfold spaceCreateMount
  refine tpm_bind (tpm_mono (createLayer_saves commit hr (grows_src h0 hs) (grows_undumped h0 hu)) ?_)
  rintro ⟨s', r⟩ tr1 ⟨h1, u, hg⟩
  have hw' := wf_of_reach hg.reach
  obtain ⟨o, ho, hid⟩ := head_obj hw' hg.head
  have hi : s'.tree.nodes.get o.id.hex = some r := by rw [hid]; exact hg.head
  obtain ⟨dep, hdep⟩ := hw'.depth
  have hlt : dep r < s'.walkFuel := by have := (hdep r o ho hi).1; simp only at this; unfold walkFuel; omega
  refine tpm_bind (tpm_mono (layerChain_saves hw' (fun r o a b => (hdep r o a b).2) s'.walkFuel r o tr1 ho hi hlt) fun l tr2 h2 => ?_)
  obtain ⟨h2, h3⟩ := h2
  rw [hid] at h3
  split
  · refine tpm_pure ⟨grows_trans h0 (grows_trans h1 h2), u, grown_grows h2 hg, ?_⟩
    have hnode : s'.abs.node u = some ⟨some commit, fun _ => none, fun _ => none⟩ := by rw [hg.abs]; simp [ATree.add]
    cases h3 with
    | step e1 e2 e3 =>
      rw [hnode] at e1; cases e1; cases e2
      exact ⟨_, rfl, ⟨_, hnode, rfl⟩, e3⟩
  · exact tpm_fail

/-- `Save` of a tree whose nodes are accounted for. -/
theorem spaceSave_saves (dir : Str) {s : TS} {tr : Trace} (hr : Reach s) (hs : Src tr s.abs) :
    tpm (Ans E) (Saves E) B (spaceSave dir s) (fun _ tr' => (∀ e ∈ tr, e ∈ tr') ∧ ∃ b, (⟨.dump s, b⟩ : Ev) ∈ tr') tr := by
  unfold spaceSave
  refine tpm_bind (tpm_ask ⟨hr, hs⟩ fun b _ => ?_)
  refine tpm_must trivial fun x _ hx => ?_
  subst hx
  refine tpm_bind (tpm_ask ⟨⟨_, rfl⟩, s, by simp⟩ fun y _ => tpm_need fun _ => ⟨fun e he => by simp [he], b, by simp⟩)

/-- The mount of the workspace can be shown. -/
def Showable (w : OpenWs) (tr : Trace) : Prop := ∀ l, w.mount.layers = some l → Stands tr l.upper l.lowers

theorem saveAll_saves {w : OpenWs} {tr : Trace} {u p : UID} (hr : Reach w.tree) (hs : Src tr w.tree.abs) (hh : w.ws.HeadAt w.tree u p)
    (hm : Stacked w.tree.abs w.mount u p) : tpm (Ans E) (Saves E) B (saveAll E w) Showable tr := by
  unfold saveAll
  refine tpm_bind (tpm_mono (spaceSave_saves w.spaceDir hr hs) ?_)
  rintro - tr1 ⟨h1, b', hb'⟩
  unfold saveInfo
  obtain ⟨o, ho, hid⟩ := head_obj (wf_of_reach hr) hh.1
  rw [ho]
  refine tpm_bind (tpm_must trivial fun x _ hx => ?_)
  subst hx
  have hb : Below w.tree.abs o.id p := by rw [hid]; exact hh.2
  refine tpm_bind (tpm_ask ⟨⟨_, rfl⟩, recOf w o.id, w.tree, b', p, rfl, List.mem_cons_of_mem _ hb', hb⟩ fun y _ => tpm_need fun _ => tpm_pure ?_)
  intro l hl
  obtain ⟨ls, m1, m2, m3⟩ := hm
  rw [hl] at m1
  cases m1
  exact ⟨w.tree, b', p, List.mem_cons_of_mem _ (List.mem_cons_of_mem _ hb'), m2, m3⟩

theorem createSpace_saves {tr : Trace} (hu : Undumped tr) :
    tpm (Ans E) (Saves E) B createSpace (fun x tr' => Grows tr tr' ∧ ∃ root, Reach x.2 ∧ x.2.abs = ATree.first root ∧ Src tr' x.2.abs) tr := by
  unfold createSpace
  refine tpm_bind (tpm_ask trivial fun i _ => ?_)
  refine tpm_must trivial fun x _ _ => ?_
  have h0 : Grows tr (⟨.mkdirSpace i.base32, x⟩ :: ⟨.rand, i⟩ :: tr) := grows_cons (grows_cons (grows_refl _) rfl) rfl
  unfold spaceInitP
  refine tpm_bind (tpm_bind (tpm_mono (layerCreate_saves _) ?_))
  rintro u tr1 ⟨h1, h2, h3, -, -⟩
  obtain ⟨s, e1, e2, e3⟩ := spaceInit_spec u
  refine tpm_lift_ok e1 (tpm_pure ⟨grows_trans h0 h1, u, e2, e3, fun v nd hn => ?_, fun b hb => ?_⟩)
  rotate_left
  · simp only [e3] at hb
    exact absurd rfl hb
  have hv : v = u := by
    simp only at hn
    rw [e3] at hn
    by_cases hv : v = u
    · exact hv
    · simp [ATree.first, ATree.add, ATree.setTag, upd_ne _ _ hv, ATree.empty] at hn
  subst hv
  exact Or.inr ⟨h2, h3, grows_undumped (grows_trans h0 h1) hu⟩

theorem grown_head {tr : Trace} {s s' : TS} {base u : UID} {r : Ref} (hg : Grown tr s s' base u r) (i : UID) (path b : Str) :
    (⟨i, path, r, b⟩ : Ws).HeadAt s' u base :=
  ⟨hg.head, ⟨some base, fun _ => none, fun _ => none⟩, by rw [hg.abs]; simp [ATree.add], rfl⟩

theorem createWorkspace_saves (path branch : Str) {tr : Trace} (hu : Undumped tr) :
    tpm (Ans E) (Saves E) B (createWorkspace E path branch) Showable tr := by
  unfold createWorkspace
  refine tpm_bind (tpm_mono (createSpace_saves hu) ?_)
  rintro ⟨i, s⟩ tr1 ⟨h1, root, hr, ha, hs⟩
  simp only at hr ha hs ⊢
  have hroot : s.abs.root = some root := by rw [ha]; rfl
  have hob : ∃ o, s.tree.root.bind (s.heap[·]?) = some o ∧ o.id = root := by
    simp only [abs, idAt, Option.bind_eq_some_iff, Option.map_eq_some_iff] at hroot
    obtain ⟨r, h1, o, h2, h3⟩ := hroot
    exact ⟨o, by rw [h1]; exact h2, h3⟩
  obtain ⟨o, ho1, ho2⟩ := hob
  rw [ho1]
  simp only [ho2]
  refine tpm_bind (tpm_mono (createMount_saves root hr hs (grows_undumped h1 hu)) ?_)
  rintro ⟨s2, mo, r⟩ tr2 ⟨h2, u, hg, hst⟩
  simp only at hg hst ⊢
  refine tpm_bind (tpm_ask trivial fun wid _ => ?_)
  have hg2 := grown_grows (grows_cons (grows_refl tr2) (rfl : Cmd.rand.still = true) (x := wid)) hg
  have hw2 := wf_of_reach hg.reach
  have hhead := grown_head hg2 wid path []
  have hrt2 : s2.abs.Has root := by
    obtain ⟨_, n, hn, hp⟩ := hhead
    exact (reach_rooted hg.reach).parent _ _ _ hn hp
  obtain ⟨s3, g1, g2, g3, g4⟩ := (addBranch_spec hw2 (BranchInfo.fullName ⟨some wid, branch⟩) root).1 hrt2
  have hset : Ws.setBranch s2 ⟨wid, path, r, []⟩ branch = .ok (s3, ⟨wid, path, r, branch⟩) := by
    obtain ⟨o, q, po, a1, a2, a3, a4, a5, a6, a7⟩ := Ws.headAt_obj hw2 hhead
    simp only at a1
    simp only [Ws.setBranch, a1, a4, Option.bind_some, a5, a6, g1, Res.bind]
  refine tpm_bind (tpm_lift_ok hset ?_)
  have hr3 : Reach s3 := .ok (op := .addBranch _ root) hg.reach trivial g1
  have hn : s3.abs.node = s2.abs.node := abs_node_heap (addBranch_heap g1) (addBranch_nodes g1)
  refine saveAll_saves (u := u) (p := root) hr3 (src_congr (fun x => by rw [hn]) (fun x hx => ?_) hg2.src) ⟨?_, ?_⟩ ?_
  · rw [g3] at hx
    simp only [ATree.setBranch, upd] at hx
    split at hx
    · rename_i e
      exact Or.inr (Or.inr ⟨wid, branch, Or.inl (by simp), e⟩)
    · exact Or.inl hx
  · show s3.get u = some r
    rw [TS.get, addBranch_nodes g1]; exact hg.head
  · show ∃ n, s3.abs.node u = some n ∧ _
    rw [hn]; exact hhead.2
  · exact stacked_congr hn hst

/-! ### Opening -/

/-- A link that was read, or the path itself, has a component that crashes the program (`C44_violated_newline`). -/
def Odd (cwd path : Str) (tr : Trace) : Prop :=
  ∃ link : Option Str, (∀ t, link = some t → (⟨.readlink (Path.abs cwd path), some t⟩ : Ev) ∈ tr) ∧
    ∃ c ∈ targetOf cwd path link, UID.decodeBase32 c = .panic

/-- The workspace has been read, and nothing been saved yet. -/
structure Fetched (tr : Trace) (w : OpenWs) (u p : UID) : Prop where
  reach : Reach w.tree
  known : Known tr w.tree.abs
  undumped : Undumped tr
  head : w.ws.HeadAt w.tree u p
  ided : KnowsId tr w.ws.id

theorem linkOf_saves (p : Str) {tr : Trace} :
    tpm (Ans E) (Saves E) B (linkOf p) (fun l tr' => Grows tr tr' ∧ ∀ t, l = some t → (⟨.readlink p, some t⟩ : Ev) ∈ tr') tr := by
  unfold linkOf
  refine tpm_bind (tpm_ask trivial fun x _ => ?_)
  have h0 : Grows tr (⟨.isSymlink p, x⟩ :: tr) := grows_cons (grows_refl _) rfl
  split
  · refine tpm_bind (tpm_ask trivial fun y _ => ?_)
    split
    · exact tpm_pure ⟨grows_cons h0 rfl, fun t ht => by cases ht; simp⟩
    · exact tpm_fail
  · exact tpm_pure ⟨h0, fun t ht => by cases ht⟩

theorem mountIDOf_odd {root cwd path : Str} {link : Option Str} {tr : Trace} (hl : ∀ t, link = some t → (⟨.readlink (Path.abs cwd path), some t⟩ : Ev) ∈ tr)
    (h : mountIDOf root cwd path link = .panic) : Odd cwd path tr := by
  refine Classical.byContradiction fun hn => ?_
  have hp : ∀ c ∈ targetOf cwd path link, UID.decodeBase32 c ≠ .panic := fun c hc hx => hn ⟨link, hl, c, hc, hx⟩
  obtain ⟨e, he⟩ := C44_otherwise_error root cwd path link hp fun m hm => by rw [h] at hm; cases hm
  rw [h] at he; cases he

theorem getWorkspace_saves (cwd path : Str) {tr : Trace} (hu : Undumped tr) (hB : ∀ tr, Odd cwd path tr → B tr) :
    tpm (Ans E) (Saves E) B (getWorkspace E cwd path) (fun w tr' => ∃ u p, Fetched tr' w u p) tr := by
  unfold getWorkspace
  refine tpm_bind (tpm_mono (linkOf_saves _) ?_)
  rintro l tr1 ⟨h1, hl⟩
  refine tpm_bind (tpm_lift (fun m hm => ?_) (fun h => hB _ (mountIDOf_odd hl h)) (by unfold mountIDOf; exact decodeBase32_not_diverge _))
  unfold loadInfo
  refine tpm_bind (tpm_bind (tpm_ask trivial fun x hx => ?_))
  cases x with
  | notExist => exact tpm_fail
  | failed b => exact tpm_fail
  | ok b =>
  simp only
  cases hi : unmarshalInfo b with
  | none => exact tpm_lift_err rfl
  | some i =>
  obtain ⟨r, e1, e2, e3⟩ := hx b i rfl hi
  refine tpm_lift_ok rfl ?_
  rw [e1, e2, e3]
  refine tpm_bind (tpm_lift_ok (C02_base32_roundtrip _) (tpm_bind (tpm_lift_ok (C02_base32_roundtrip _) (tpm_bind (tpm_ask trivial fun y hy => ?_)))))
  rcases hy with ⟨e, he⟩ | ⟨s, hs, hr, hh⟩
  · exact tpm_bind (tpm_lift_err he)
  refine tpm_bind (tpm_lift_ok hs (tpm_bind (tpm_lift_ok (C01_hex_roundtrip _) ?_)))
  cases hg : s.get r.head with
  | none => exact tpm_fail
  | some q =>
    obtain ⟨nd, hnd⟩ := (abs_has_iff_get (wf_of_reach hr) r.head).2 ⟨q, hg⟩
    obtain ⟨p, hp⟩ := Option.ne_none_iff_exists'.1 (hh _ b i r.head nd List.mem_cons_self hi e3 hnd)
    refine tpm_pure ⟨r.head, p, hr, ⟨fun u n hn => ⟨_, y, s, n, List.mem_cons_self, hs, hn, rfl⟩, fun x hx => ?_⟩, ?_, ⟨hg, nd, hnd, hp⟩, ?_⟩
    · exact Or.inl ⟨_, y, s, List.mem_cons_self, hs, hx⟩
    rotate_left
    · exact Or.inr ⟨_, b, i, List.mem_cons_of_mem _ List.mem_cons_self, hi, by rw [e1]; exact C02_base32_roundtrip _⟩
    · intro s b hb
      simp only [List.mem_cons, Sigma.mk.injEq, reduceCtorEq, false_and, false_or] at hb
      exact grows_undumped h1 hu s b hb

/-! ### The manager's methods -/

theorem moveBranch_saves {s : TS} (hr : Reach s) {w : Ws} {r : Nat} {u u' : UID} (hh : (⟨w.id, w.path, r, w.branch⟩ : Ws).HeadAt s u' u) {tr : Trace} :
    tpm (Ans E) (Saves E) B (moveBranch s (Ws.branchInfo w) r)
      (fun s' tr' => tr' = tr ∧ Reach s' ∧ s'.get = s.get ∧ s'.abs.node = s.abs.node ∧ ∀ x, s'.abs.branch x ≠ none → s.abs.branch x ≠ none) tr := by
  unfold moveBranch
  split
  · have hw := wf_of_reach hr
    refine tpm_bind (tpm_lift_ok (parentID_spec (w := ⟨w.id, w.path, r, w.branch⟩) hw hh) ?_)
    obtain ⟨h1, h2, h3, h4⟩ := updateBranch_spec hw (Ws.branchInfo w).fullName u false
    have hu : s.abs.Has u := by
      obtain ⟨_, n, hn, hp⟩ := hh
      exact (reach_rooted hr).parent _ _ _ hn hp
    cases hbr : s.abs.branch (Ws.branchInfo w).fullName with
    | none => exact tpm_lift_err (h2 hu hbr)
    | some hd =>
      by_cases ha : s.abs.Anc hd u
      · obtain ⟨s', e1, e2, e3, e4⟩ := h3 hd hu hbr (Or.inr ha)
        refine tpm_lift_ok e1 ⟨rfl, .ok (op := .updateBranch _ u false) hr trivial e1, ?_, abs_node_heap e4 (updateBranch_nodes e1), fun x hx => ?_⟩
        rotate_left
        · rw [e3] at hx
          simp only [ATree.setBranch, upd] at hx
          split at hx
          · rename_i e; rw [e, hbr]; simp
          · exact hx
        have : s'.tree.nodes = s.tree.nodes := updateBranch_nodes e1
        funext x
        simp only [TS.get, this]
      · exact tpm_lift_err (h4 hd hu hbr rfl ha)
  · exact tpm_pure ⟨rfl, hr, rfl, rfl, fun _ h => h⟩

theorem commitP_saves {w : OpenWs} {u p : UID} (ci : CommitInfo) {tr : Trace} (hw : Fetched tr w u p) :
    tpm (Ans E) (Saves E) B (commitP E w ci) Showable tr := by
  obtain ⟨s1, g1, g2, g3, ⟨o, g4, g5⟩, g6⟩ := setToNode_spec hw.reach hw.head.1 ci
  unfold commitP
  simp only [g1, g4]
  have hs : Src tr s1.abs := src_congr (fun x => by rw [g6, note_parent, note_parent]) (fun x hx => by rw [g6] at hx; exact Or.inl hx) (known_src hw.known)
  refine tpm_bind (tpm_mono (createMount_saves o.id g2 hs hw.undumped) ?_)
  rintro ⟨s2, mo, r⟩ tr1 ⟨h1, v, hg, hst⟩
  simp only at hg hst ⊢
  have hh := grown_head hg w.ws.id w.ws.path w.ws.branch
  refine tpm_bind (tpm_mono (moveBranch_saves hg.reach hh) ?_)
  rintro s3 tr2 ⟨rfl, a1, a2, a3, a4⟩
  refine saveAll_saves (u := v) (p := o.id) a1 (src_congr (fun x => by rw [a3]) (fun x hx => Or.inl (a4 x hx)) hg.src) ⟨?_, ?_⟩ ?_
  · show s3.get v = some r
    rw [a2]; exact hg.head
  · show ∃ n, s3.abs.node v = some n ∧ _
    rw [a3]; exact hh.2
  · exact stacked_congr a3 hst

theorem search_not_diverge {ε : Type} (s : TS) (w : Ws) (key : Str) : (w.search s key : Res ε _) ≠ .diverge := by
  have h0 : (TS.searchID key : Res ε (Option UID)) ≠ .diverge := by
    unfold TS.searchID
    rcases C04_hex_decode_total key with ⟨v, hv⟩ | ⟨e, he⟩
    · simp [hv]
    · simp only [he]
      have := decodeBase32_not_diverge key
      split <;> simp_all
  intro h
  unfold Ws.search at h
  split at h
  · split at h <;> cases h
  · unfold TS.search at h
    cases hx : (TS.searchID key : Res ε (Option UID)) with
    | diverge => exact h0 hx
    | panic => rw [hx] at h; cases h
    | err e => rw [hx] at h; cases h
    | ok a =>
      rw [hx] at h
      simp only [Res.bind] at h
      cases h1 : a.bind s.get <;> cases h2 : s.getByTag key <;> cases h3 : s.getByBranch key <;> simp only [h1, h2, h3] at h
      all_goals first
        | (cases h; done)
        | (split at h <;> cases h)

theorem checkoutP_saves {w : OpenWs} {u p : UID} (key : Str) {tr : Trace} (hw : Fetched tr w u p) (hB : ¬ PlainKey key → ∀ tr, B tr) :
    tpm (Ans E) (Saves E) B (checkoutP E w key) Showable tr := by
  unfold checkoutP
  have hspec := Ws.search_spec (ε := Empty) (wf_of_reach hw.reach) hw.head (ref := key)
  refine tpm_bind (tpm_lift (fun a ha => ?_) (fun ha => ?_) (search_not_diverge _ _ _))
  · cases a with
    | none => exact tpm_fail
    | some q =>
    obtain ⟨n, kt⟩ := q
    simp only
    cases hn : n.bind (w.tree.heap[·]?) with
    | none =>
      refine (?_ : B tr)
      refine hB (fun hk => ?_) tr
      rcases hspec hk with ⟨r, o, k, e1, e2, _⟩ | ⟨e1, _⟩
      · rw [ha] at e1; cases e1
        simp [e2] at hn
      · rw [ha] at e1; cases e1
    | some o =>
      refine tpm_bind (tpm_mono (createMount_saves o.id hw.reach (known_src hw.known) hw.undumped) ?_)
      rintro ⟨s2, mo, r⟩ tr1 ⟨h1, v, hg, hst⟩
      exact saveAll_saves (u := v) (p := o.id) hg.reach hg.src (grown_head hg _ _ _) hst
  · refine hB (fun hk => ?_) tr
    rcases hspec hk with ⟨r, o, k, e1, e2, _⟩ | ⟨e1, _⟩ <;> rw [ha] at e1 <;> cases e1

theorem cloneP_saves {w : OpenWs} {u p : UID} (target : Str) {tr : Trace} (hw : Fetched tr w u p) :
    tpm (Ans E) (Saves E) B (cloneP E w target) Showable tr := by
  unfold cloneP
  refine tpm_bind (tpm_lift_ok (parentID_spec (wf_of_reach hw.reach) hw.head) ?_)
  refine tpm_bind (tpm_mono (createMount_saves p hw.reach (known_src hw.known) hw.undumped) ?_)
  rintro ⟨s2, mo, r⟩ tr1 ⟨h1, v, hg, hst⟩
  refine tpm_bind (tpm_ask trivial fun wid _ => ?_)
  have hg2 := grown_grows (grows_cons (grows_refl tr1) (rfl : Cmd.rand.still = true) (x := wid)) hg
  exact saveAll_saves (u := v) (p := p) hg.reach hg2.src (grown_head hg _ _ _) hst

theorem edit_heap {s s' : TS} {w : Ws} {e : Edit} (h : e.apply s w = .ok s') : s'.heap = s.heap := by
  cases e with
  | addBranch name ref force =>
    simp only [Edit.apply, Ws.addBranch, Res.bind] at h
    split at h <;> try cases h
    split at h
    · cases h
    split at h
    · cases h
    split at h
    · cases h
    exact addBranch_heap (mapErr_ok h)
  | deleteBranch name g =>
    simp only [Edit.apply, Ws.deleteBranch] at h
    split at h
    · cases h
    split at h
    · rename_i x s1 hx
      injection h with h
      subst h
      have : s1 = (s.deleteBranch (if g = true then (⟨none, name⟩ : BranchInfo) else ⟨some w.id, name⟩).fullName).1 := by rw [hx]
      rw [this]
      simp only [TS.deleteBranch]
      split <;> rfl
    · cases h
  | addTag name ref force =>
    simp only [Edit.apply, Ws.addTag, Res.bind] at h
    split at h <;> try cases h
    split at h
    · cases h
    split at h
    · cases h
    split at h
    · cases h
    have h' := mapErr_ok h
    unfold TS.addTag at h'
    split at h'
    · cases h'
    split at h'
    · cases h'
    · injection h' with h'; rw [← h']
  | deleteTag name =>
    simp only [Edit.apply, Ws.deleteTag] at h
    split at h
    · rename_i x s1 hx
      injection h with h
      subst h
      have : s1 = (s.deleteTag name).1 := by rw [hx]
      rw [this]
      simp only [TS.deleteTag]
      split <;> rfl
    · cases h

theorem edit_branch {s s' : TS} {w : Ws} {e : Edit} (h : e.apply s w = .ok s') (x : Str) (hx : s'.abs.branch x ≠ none) :
    s.abs.branch x ≠ none ∨ ∃ y, x = w.id.base32 ++ lit "/" ++ y := by
  have hh := edit_heap h
  have key : ∀ {s' : TS}, s'.heap = s.heap → s'.tree.branches.get x = s.tree.branches.get x → s'.abs.branch x = s.abs.branch x := by
    intro s' h1 h2
    simp only [abs, getByBranch, h1, h2]
  cases e with
  | addBranch name ref force =>
    simp only [Edit.apply, Ws.addBranch, Res.bind] at h
    split at h <;> try cases h
    split at h
    · cases h
    split at h
    · cases h
    split at h
    · cases h
    have h' := mapErr_ok h
    by_cases e : x = w.id.base32 ++ lit "/" ++ name
    · exact Or.inr ⟨name, e⟩
    refine Or.inl ?_
    rw [← key hh ?_]
    · exact hx
    unfold TS.addBranch at h'
    split at h'
    · cases h'
    split at h'
    · cases h'
    rename_i m hm
    injection h' with h'
    rw [← h']
    rw [GoMap.assign_ensure] at hm
    injection hm with hm
    show m.get x = _
    rw [← hm, GoMap.get_some, AL.get_put, if_neg (fun e' => e e'.symm)]
    cases hb : s.tree.branches <;> rfl
  | deleteBranch name g =>
    simp only [Edit.apply, Ws.deleteBranch] at h
    split at h
    · cases h
    split at h
    · rename_i y s1 hy
      injection h with h
      subst h
      left
      have : s1 = (s.deleteBranch (if g = true then (⟨none, name⟩ : BranchInfo) else ⟨some w.id, name⟩).fullName).1 := by rw [hy]
      rw [this] at hx
      simp only [TS.deleteBranch] at hx
      split at hx
      · exact hx
      · intro hn
        refine hx ?_
        simp only [abs, getByBranch, GoMap.get_delete] at hn ⊢
        generalize (if g = true then (⟨none, name⟩ : BranchInfo) else ⟨some w.id, name⟩).fullName = y
        by_cases e : y = x
        · rw [if_pos e]; rfl
        · rw [if_neg e]; exact hn
    · cases h
  | addTag name ref force =>
    simp only [Edit.apply, Ws.addTag, Res.bind] at h
    split at h <;> try cases h
    split at h
    · cases h
    split at h
    · cases h
    split at h
    · cases h
    have h' := mapErr_ok h
    refine Or.inl ?_
    rw [← key hh ?_]
    · exact hx
    unfold TS.addTag at h'
    split at h'
    · cases h'
    split at h'
    · cases h'
    · injection h' with h'; rw [← h']
  | deleteTag name =>
    simp only [Edit.apply, Ws.deleteTag] at h
    split at h
    · rename_i y s1 hy
      injection h with h
      subst h
      refine Or.inl ?_
      rw [← key hh ?_]
      · exact hx
      have : s1 = (s.deleteTag name).1 := by rw [hy]
      rw [this]
      simp only [TS.deleteTag]
      split <;> rfl
    · cases h

theorem edit_not_diverge (s : TS) (w : Ws) (e : Edit) : e.apply s w ≠ .diverge := by
  intro h
  cases e with
  | addBranch name ref force =>
    simp only [Edit.apply, Ws.addBranch] at h
    cases hx : (w.search s ref : Res Ws.Err _) with
    | diverge => exact search_not_diverge _ _ _ hx
    | panic => rw [hx] at h; cases h
    | err e => rw [hx] at h; cases h
    | ok a =>
      rw [hx] at h
      simp only [Res.bind, TS.addBranch] at h
      repeat' split at h
      all_goals cases h
  | deleteBranch name g =>
    simp only [Edit.apply, Ws.deleteBranch] at h
    repeat' split at h
    all_goals cases h
  | addTag name ref force =>
    simp only [Edit.apply, Ws.addTag] at h
    cases hx : (w.search s ref : Res Ws.Err _) with
    | diverge => exact search_not_diverge _ _ _ hx
    | panic => rw [hx] at h; cases h
    | err e => rw [hx] at h; cases h
    | ok a =>
      rw [hx] at h
      simp only [Res.bind, TS.addTag] at h
      repeat' split at h
      all_goals cases h
  | deleteTag name =>
    simp only [Edit.apply, Ws.deleteTag] at h
    repeat' split at h
    all_goals cases h

theorem editAll_saves (dir : Str) (w : Ws) {u p : UID} : ∀ (es : List Edit) (s : TS) (tr : Trace), Reach s → Known tr s.abs → KnowsId tr w.id → w.HeadAt s u p →
    ((∃ e ∈ es, ¬ e.Plain) → ∀ tr, B tr) → tpm (Ans E) (Saves E) B (editAll dir w es s) (fun _ _ => True) tr
  | [], s, tr, _, _, _, _, _ => tpm_pure trivial
  | e :: es, s, tr, hr, hk, hi, hh, hB => by
    rw [editAll]
    refine tpm_bind (tpm_lift (fun s' hs' => ?_) (fun ha => ?_) (edit_not_diverge _ _ _))
    · obtain ⟨h1, h2⟩ := edit_reach hr hs'
      have hn : s'.abs.node = s.abs.node := abs_node_heap (edit_heap hs') h2
      have hk' : Known tr s'.abs := by
        refine ⟨fun x nd hx => hk.1 x nd (by rw [← hn]; exact hx), fun x hx => ?_⟩
        rcases edit_branch hs' x hx with h | ⟨y, h⟩
        · exact hk.2 x h
        · exact Or.inr ⟨w.id, y, hi, h⟩
      refine tpm_bind (tpm_mono (spaceSave_saves dir h1 (known_src hk')) ?_)
      rintro - tr1 ⟨hsub, -⟩
      refine editAll_saves (u := u) (p := p) dir w es s' tr1 h1 (known_mono hsub hk') (knowsId_mono hsub hi) ⟨?_, ?_⟩ fun ⟨e, he, hp⟩ => hB ⟨e, List.mem_cons_of_mem _ he, hp⟩
      · rw [TS.get, h2]; exact hh.1
      · rw [hn]; exact hh.2
    · refine hB ⟨e, List.mem_cons_self, fun hp => ?_⟩ tr
      rcases edit_spec hr hh hp with ⟨s', e1, _⟩ | ⟨err, e1, _⟩ <;> rw [ha] at e1 <;> cases e1

/-! ### Showing and removing -/

theorem mountP_saves (m : MountObj) {tr : Trace} (hm : ∀ l, m.layers = some l → Stands tr l.upper l.lowers) : tpm (Ans E) (Saves E) B (mountP m) (fun _ _ => True) tr := by
  unfold mountP
  split
  · exact tpm_fail
  rename_i l hl
  have h0 := hm l hl
  have tail : ∀ {tr : Trace}, Stands tr l.upper l.lowers → tpm (Ans E) (Saves E) B (do
      need (← ask (.mountOverlay m.dir l.upper l.lowers)) .mount
      need (← ask (.chownMerged m.dir)) .mount : M Unit) (fun _ _ => True) tr := fun hs =>
    tpm_must hs fun x _ _ => tpm_bind (tpm_ask trivial fun y _ => tpm_need fun _ => trivial)
  have more : ∀ {tr : Trace} {e : Ev}, Stands tr l.upper l.lowers → Stands (e :: tr) l.upper l.lowers :=
    fun hs => stands_mono (fun _ he => List.mem_cons_of_mem _ he) hs
  have middle : ∀ {tr : Trace}, Stands tr l.upper l.lowers → tpm (Ans E) (Saves E) B (do
      if !(← ask (.isDirWork m.dir)) then
        need (okMkdir (← ask (.mkdirWork m.dir))) .mount
      need (← ask (.mountOverlay m.dir l.upper l.lowers)) .mount
      need (← ask (.chownMerged m.dir)) .mount : M Unit) (fun _ _ => True) tr := by
    intro tr hs
    refine tpm_bind (tpm_ask trivial fun x _ => ?_)
    split
    · exact tpm_must trivial fun _ _ _ => tail (more (more hs))
    · exact tail (more hs)
  refine tpm_bind (tpm_ask trivial fun x _ => ?_)
  split
  · exact tpm_must trivial fun _ _ _ => middle (more (more h0))
  · exact middle (more h0)

theorem expand_saves (w : OpenWs) {tr : Trace} (hw : Showable w tr) : tpm (Ans E) (Saves E) B (expand E w) (fun _ _ => True) tr := by
  unfold expand
  refine tpm_bind (tpm_mono (mountP_saves w.mount hw) fun _ _ _ => ?_)
  refine tpm_must trivial fun _ _ _ => tpm_must trivial fun _ _ _ => tpm_bind (tpm_ask trivial fun b _ => ?_)
  have tail : ∀ {tr : Trace}, tpm (Ans E) (Saves E) B (do
      need (← ask (.symlink (E.mountPath w.mount.dir) w.ws.path)) .symlink
      need (← ask (.lchown w.ws.path)) .symlink
      need (← ask (.sys .chdirBack)) .cwd : M Unit) (fun _ _ => True) tr :=
    tpm_must trivial fun _ _ _ => tpm_must trivial fun _ _ _ => tpm_bind (tpm_ask trivial fun _ _ => tpm_need fun _ => trivial)
  split
  · exact tpm_must trivial fun _ _ _ => tail
  · exact tail

theorem removeMount_saves (m : MountObj) {tr : Trace} : tpm (Ans E) (Saves E) B (removeMount m) (fun _ _ => True) tr := by
  unfold removeMount
  refine tpm_must trivial fun _ _ _ => tpm_must trivial fun _ _ _ => tpm_bind (tpm_ask trivial fun _ _ => ?_)
  refine tpm_must trivial fun _ _ _ => tpm_bind (tpm_ask trivial fun y _ => ?_)
  split
  · exact tpm_fail
  · exact tpm_bind (tpm_ask trivial fun _ _ => tpm_need fun _ => trivial)

end

/-! ## Commands -/

/-- When a command may panic, given what it has read: the known crashes on odd bytes. -/
def Command.Trips : Command → Trace → Prop
  | .init _ _, _ => False
  | .clone cwd source _, tr => Odd cwd source tr
  | .commit cwd _, tr => Odd cwd (lit ".") tr
  | .checkout cwd key, tr => Odd cwd (lit ".") tr ∨ ¬ PlainKey key
  | .edit cwd es, tr => Odd cwd (lit ".") tr ∨ ∃ e ∈ es, ¬ e.Plain
  | .look cwd, tr => Odd cwd (lit ".") tr

theorem command_saves (E : Env) (c : Command) : tpm (Ans E) (Saves E) c.Trips (c.prog E) (fun _ _ => True) [] := by
  have h0 : Undumped [] := fun _ _ h => by cases h
  cases c with
  | init path branch =>
    refine tpm_bind (tpm_mono (R := fun _ _ => True) ?_ fun _ _ _ => tpm_pure trivial)
    unfold initCmd
    have tail : ∀ {tr : Trace}, Undumped tr → tpm (Ans E) (Saves E) (Command.init path branch).Trips (do
        let w ← createWorkspace E path branch
        expand E w
        return w : M OpenWs) (fun _ _ => True) tr := fun hu =>
      tpm_bind (tpm_mono (createWorkspace_saves path branch hu) fun w _ hw => tpm_bind (tpm_mono (expand_saves w hw) fun _ _ _ => tpm_pure trivial))
    refine tpm_bind (tpm_ask trivial fun b _ => ?_)
    split
    · exact tpm_must trivial fun _ _ _ => tail (grows_undumped (grows_cons (grows_cons (grows_refl _) rfl) rfl) h0)
    · exact tail (grows_undumped (grows_cons (grows_refl _) rfl) h0)
  | clone cwd source target =>
    refine tpm_bind (tpm_mono (R := fun _ _ => True) ?_ fun _ _ _ => tpm_pure trivial)
    refine tpm_bind (tpm_mono (getWorkspace_saves cwd source h0 fun _ h => h) ?_)
    rintro w tr ⟨u, p, hw⟩
    exact tpm_bind (tpm_mono (cloneP_saves target hw) fun w' _ hw' => tpm_bind (tpm_mono (expand_saves w' hw') fun _ _ _ => tpm_pure trivial))
  | commit cwd ci =>
    refine tpm_bind (tpm_mono (R := fun _ _ => True) ?_ fun _ _ _ => tpm_pure trivial)
    refine tpm_bind (tpm_mono (getWorkspace_saves cwd _ h0 fun _ h => h) ?_)
    rintro w tr ⟨u, p, hw⟩
    exact tpm_bind (tpm_mono (commitP_saves ci hw) fun w' _ hw' => tpm_bind (tpm_mono (expand_saves w' hw') fun _ _ _ =>
      tpm_bind (tpm_mono (removeMount_saves _) fun _ _ _ => tpm_pure trivial)))
  | checkout cwd key =>
    refine tpm_bind (tpm_mono (R := fun _ _ => True) ?_ fun _ _ _ => tpm_pure trivial)
    refine tpm_bind (tpm_mono (getWorkspace_saves cwd _ h0 fun _ h => Or.inl h) ?_)
    rintro w tr ⟨u, p, hw⟩
    exact tpm_bind (tpm_mono (checkoutP_saves key hw fun h _ => Or.inr h) fun w' _ hw' => tpm_bind (tpm_mono (expand_saves w' hw') fun _ _ _ =>
      tpm_bind (tpm_mono (removeMount_saves _) fun _ _ _ => tpm_pure trivial)))
  | edit cwd es =>
    refine tpm_bind (tpm_mono (R := fun _ _ => True) ?_ fun _ _ _ => tpm_pure trivial)
    refine tpm_bind (tpm_mono (getWorkspace_saves cwd _ h0 fun _ h => Or.inl h) ?_)
    rintro w tr ⟨u, p, hw⟩
    exact editAll_saves w.spaceDir w.ws es w.tree tr hw.reach hw.known hw.ided hw.head fun h _ => Or.inr h
  | look cwd =>
    exact tpm_bind (tpm_mono (getWorkspace_saves cwd _ h0 fun _ h => h) fun _ _ _ => tpm_pure trivial)

end Verif
