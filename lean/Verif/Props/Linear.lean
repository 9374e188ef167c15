import Verif.Misc.Linear
/-!
# C102: calls on a shared tree appear to happen one after another
-/
set_option autoImplicit false
namespace Verif
namespace Linear

/-! ## Two-phase locking -/

section
variable {L : Type} [DecidableEq L] {V : L → Type} {R C : Type}

theorem put_same (m : Mem V) (l : L) (v : V l) : m.put l v l = v := by simp [Mem.put]

theorem put_other {m : Mem V} {l k : L} {v : V l} (h : k ≠ l) : m.put l v k = m k := by simp [Mem.put, h]

/-- What is not locked for writing stays. -/
theorem run_keeps {h : List (L × Bool)} (p : Prog V R) : ∀ {m : Mem V}, p.Guarded h → ∀ {l : L}, (l, true) ∉ h → (p.run m).2 l = m l := by
  induction p with
  | ret r => intro m _ l _; rfl
  | read l k ih => intro m hg x hx; exact ih _ (hg.2 _) hx
  | write l f k ih =>
    intro m hg x hx
    have hne : x ≠ l := by rintro rfl; exact hx hg.1
    show (k.run _).2 x = _
    rw [ih hg.2 hx, put_other hne]

/-- What is not locked does not matter. -/
theorem run_agree {h : List (L × Bool)} (p : Prog V R) : ∀ {m m' : Mem V}, p.Guarded h → (∀ l w, (l, w) ∈ h → m l = m' l) →
    (p.run m).1 = (p.run m').1 ∧ ∀ l w, (l, w) ∈ h → (p.run m).2 l = (p.run m').2 l := by
  induction p with
  | ret r => intro m m' _ he; exact ⟨rfl, he⟩
  | read l k ih =>
    intro m m' hg he
    obtain ⟨⟨w, hw⟩, hk⟩ := hg
    have := ih (m l) (hk _) he
    show ((k (m l)).run m).1 = ((k (m' l)).run m').1 ∧ ∀ x w, (x, w) ∈ h → ((k (m l)).run m).2 x = ((k (m' l)).run m').2 x
    rw [← he l w hw]
    exact this
  | write l f k ih =>
    intro m m' hg he
    refine ih hg.2 fun x w hx => ?_
    by_cases hxl : x = l
    · subst hxl; rw [put_same, put_same, he x true hg.1]
    · rw [put_other hxl, put_other hxl, he x w hx]

/-- The invariant: `es` is what was seen so far with the moments at which the calls happened, `a` the memory after those. -/
structure Inv (impl : C → Call V R) (m0 : Mem V) (s : Sys V R C) (es : List (Ev R C)) (a : Mem V) : Prop where
  apart : ∀ t t' l w, t ≠ t' → (l, true) ∈ (s.thr t).held → (l, w) ∉ (s.thr t').held
  got : ∀ t c g w todo, s.thr t = .enter c g w todo → g ++ w = (impl c).locks
  guarded : ∀ t p h todo, s.thr t = .inside p h todo → p.Guarded h
  /-- What a goroutine is writing will be as in `a`. -/
  will : ∀ t p h todo, s.thr t = .inside p h todo → ∀ l, (l, true) ∈ h → a l = (p.run s.mem).2 l
  /-- The rest is. -/
  is : ∀ l, (∀ t p h todo, s.thr t = .inside p h todo → (l, true) ∉ h) → a l = s.mem l
  stage : ∀ t, match s.thr t with
    | .idle _ => Proper t es .between
    | .enter c _ _ _ => Proper t es (.called c)
    | .inside p _ _ => Proper t es (.happened (p.run s.mem).1)
    | .leave r _ _ => Proper t es (.happened r)
  replay : Replay (fun c m r m' => (impl c).body.run m = (r, m')) m0 es a

omit [DecidableEq L] in
theorem set_thr (s : Sys V R C) (t : Nat) (x : Thread V R C) (t' : Nat) : (s.set t x).thr t' = if t' = t then x else s.thr t' := rfl

/-- A step of `t` in which nothing is locked, and where `a` stays. -/
theorem apart_sub {s : Sys V R C} (h : ∀ t t' l w, t ≠ t' → (l, true) ∈ (s.thr t).held → (l, w) ∉ (s.thr t').held) {t : Nat} {x : Thread V R C}
    (hx : ∀ e, e ∈ x.held → e ∈ (s.thr t).held) : ∀ t1 t2 l w, t1 ≠ t2 → (l, true) ∈ ((s.set t x).thr t1).held → (l, w) ∉ ((s.set t x).thr t2).held := by
  have hs : ∀ t' e, e ∈ ((s.set t x).thr t').held → e ∈ (s.thr t').held := by
    intro t' e he
    rw [set_thr] at he
    split at he
    · rename_i e2; rw [e2]; exact hx e he
    · exact he
  intro t1 t2 l w hne h1 h2
  exact h t1 t2 l w hne (hs _ _ h1) (hs _ _ h2)

theorem proper_seen {es : List (Ev R C)} {e : Ev R C} {st : Stage R C} {t : Nat} (h : Proper t es st) (hw : e.who ≠ t) : Proper t (es ++ [e]) st := .other h hw

/-- Every step keeps the invariant. -/
theorem inv_step {impl : C → Call V R} {m0 : Mem V} {s s' : Sys V R C} {es v : List (Ev R C)} {a : Mem V} (h : Inv impl m0 s es a) (hs : Step impl s v s') :
    ∃ e a', e.filter Ev.seen = v ∧ Inv impl m0 s' (es ++ e) a' := by
  cases hs with
  | @invoke t c todo ht =>
    refine ⟨[.inv t c], a, rfl, ?_⟩
    have hi : ∀ t' p hh td, (s.set t (.enter c [] (impl c).locks todo)).thr t' = .inside p hh td → s.thr t' = .inside p hh td := by
      intro t' p hh td e
      rw [set_thr] at e
      split at e
      · cases e
      · exact e
    refine ⟨apart_sub h.apart (fun e he => by cases he), ?_, fun t' p hh td e => h.guarded t' p hh td (hi _ _ _ _ e),
      fun t' p hh td e => h.will t' p hh td (hi _ _ _ _ e), ?_, ?_, .seen h.replay rfl⟩
    · intro t' c' g w td e
      rw [set_thr] at e
      split at e
      · cases e; rfl
      · exact h.got t' c' g w td e
    · intro l hl
      refine h.is l fun t' p hh td e => hl t' p hh td ?_
      rw [set_thr, if_neg]
      · exact e
      · rintro rfl; rw [ht] at e; cases e
    · intro t'
      rw [set_thr]
      by_cases ht' : t' = t
      · subst ht'
        rw [if_pos rfl]
        have := h.stage t'
        rw [ht] at this
        exact .inv this
      · rw [if_neg ht']
        have hw : (Ev.inv t c : Ev R C).who ≠ t' := fun e => ht' e.symm
        have := h.stage t'
        show match s.thr t' with
          | .idle _ => _
          | .enter _ _ _ _ => _
          | .inside _ _ _ => _
          | .leave _ _ _ => _
        split at this
        all_goals exact .other this hw
  | @acquire t c got want l w todo ht hf =>
    refine ⟨[], a, rfl, ?_⟩
    rw [List.append_nil]
    have hi : ∀ t' p hh td, (s.set t (.enter c (got ++ [(l, w)]) want todo)).thr t' = .inside p hh td ↔ s.thr t' = .inside p hh td := by
      intro t' p hh td
      rw [set_thr]
      split
      · rename_i e; rw [e, ht]; constructor <;> (intro x; cases x)
      · exact Iff.rfl
    refine ⟨?_, ?_, fun t' p hh td e => h.guarded t' p hh td ((hi ..).1 e),
      fun t' p hh td e => h.will t' p hh td ((hi ..).1 e), fun x hx => h.is x fun t' p hh td e => hx t' p hh td ((hi ..).2 e), ?_, h.replay⟩
    · intro t1 t2 x w' hne h1 h2
      rw [set_thr] at h1 h2
      have hg : (s.thr t).held = got := by rw [ht]; rfl
      split at h1
      · rename_i e1
        have hne2 : t2 ≠ t := by rw [← e1]; exact fun e => hne e.symm
        rw [if_neg hne2] at h2
        rcases List.mem_append.1 h1 with h1 | h1
        · exact h.apart t t2 x w' (fun e => hne2 e.symm) (by rw [hg]; exact h1) h2
        · cases List.mem_singleton.1 h1
          exact absurd (hf t2 w' hne2 h2).1 (by decide)
      · rename_i e1
        split at h2
        · rename_i e2
          rcases List.mem_append.1 h2 with h2 | h2
          · exact h.apart t1 t x w' e1 h1 (by rw [hg]; exact h2)
          · cases List.mem_singleton.1 h2
            exact absurd (hf t1 true e1 h1).2 (by decide)
        · exact h.apart t1 t2 x w' hne h1 h2
    · intro t' c' g w' td e
      rw [set_thr] at e
      split at e
      · cases e
        have := h.got t _ _ _ _ ht
        rw [← this, List.append_assoc]; rfl
      · exact h.got t' c' g w' td e
    · intro t'
      rw [set_thr]
      by_cases ht' : t' = t
      · subst ht'
        rw [if_pos rfl]
        have := h.stage t'
        rw [ht] at this
        exact this
      · rw [if_neg ht']
        exact h.stage t'
  | @start t c got todo ht =>
    have hlocks : got = (impl c).locks := by have := h.got t _ _ _ _ ht; rw [List.append_nil] at this; exact this
    have hheld : (s.thr t).held = got := by rw [ht]; rfl
    have hsame : ∀ l w, (l, w) ∈ got → a l = s.mem l := fun l w hl => h.is l fun t' p hh td e hm => by
      have hne : t' ≠ t := by rintro rfl; rw [ht] at e; cases e
      exact h.apart t' t l w hne (by rw [e]; exact hm) (by rw [hheld]; exact hl)
    have hg : (impl c).body.Guarded got := by rw [hlocks]; exact (impl c).guarded
    obtain ⟨k1, k2⟩ := run_agree (impl c).body hg hsame
    refine ⟨[.lin t c ((impl c).body.run a).1], ((impl c).body.run a).2, rfl, ?_⟩
    refine ⟨apart_sub h.apart (fun e he => by rw [hheld]; exact he), ?_, ?_, ?_, ?_, ?_, .lin h.replay rfl⟩
    · intro t' c' g w' td e
      rw [set_thr] at e
      split at e
      · cases e
      · exact h.got t' c' g w' td e
    · intro t' p hh td e
      rw [set_thr] at e
      split at e
      · cases e; exact hg
      · exact h.guarded t' p hh td e
    · intro t' p hh td e l hl
      rw [set_thr] at e
      split at e
      · cases e; exact k2 l true hl
      · rename_i hne
        rw [run_keeps (impl c).body hg]
        · exact h.will t' p hh td e l hl
        · intro hm
          exact h.apart t t' l true (fun x => hne x.symm) (by rw [hheld]; exact hm) (by rw [e]; exact hl)
    · intro l hl
      have hn : (l, true) ∉ got := hl t (impl c).body got todo (by rw [set_thr, if_pos rfl])
      rw [run_keeps (impl c).body hg hn]
      refine h.is l fun t' p hh td e => hl t' p hh td ?_
      rw [set_thr, if_neg]
      · exact e
      · rintro rfl; rw [ht] at e; cases e
    · intro t'
      rw [set_thr]
      by_cases ht' : t' = t
      · subst ht'
        rw [if_pos rfl]
        have := h.stage t'
        rw [ht] at this
        show Proper t' _ (.happened ((impl c).body.run s.mem).1)
        rw [← k1]
        exact .lin this
      · rw [if_neg ht']
        have hw : (Ev.lin t c ((impl c).body.run a).1 : Ev R C).who ≠ t' := fun e => ht' e.symm
        have := h.stage t'
        show match s.thr t' with
          | .idle _ => _
          | .enter _ _ _ _ => _
          | .inside _ _ _ => _
          | .leave _ _ _ => _
        split at this
        all_goals exact .other this hw
  | @read t l k hh todo ht =>
    refine ⟨[], a, rfl, ?_⟩
    rw [List.append_nil]
    have hheld : (s.thr t).held = hh := by rw [ht]; rfl
    refine ⟨apart_sub h.apart (fun e he => by rw [hheld]; exact he), ?_, ?_, ?_, ?_, ?_, h.replay⟩
    · intro t' c' g w' td e
      rw [set_thr] at e
      split at e
      · cases e
      · exact h.got t' c' g w' td e
    · intro t' p hp td e
      rw [set_thr] at e
      split at e
      · cases e; exact (h.guarded _ _ _ _ ht).2 _
      · exact h.guarded t' p hp td e
    · intro t' p hp td e x hx
      rw [set_thr] at e
      split at e
      · cases e; exact h.will _ _ _ _ ht x hx
      · exact h.will t' p hp td e x hx
    · intro x hx
      refine h.is x fun t' p hp td e => ?_
      by_cases hne : t' = t
      · subst hne; rw [ht] at e; cases e
        exact hx t' (k (s.mem l)) _ _ (by rw [set_thr, if_pos rfl])
      · exact hx t' p hp td (by rw [set_thr, if_neg hne]; exact e)
    · intro t'
      rw [set_thr]
      by_cases ht' : t' = t
      · subst ht'
        rw [if_pos rfl]
        have := h.stage t'
        rw [ht] at this
        exact this
      · rw [if_neg ht']
        exact h.stage t'
  | @write t l f k hh todo ht =>
    refine ⟨[], a, rfl, ?_⟩
    rw [List.append_nil]
    have hheld : (s.thr t).held = hh := by rw [ht]; rfl
    have hl := (h.guarded _ _ _ _ ht).1
    -- the others do not see it
    have others : ∀ t' p hp td, t' ≠ t → s.thr t' = .inside p hp td → (p.run (s.mem.put l (f (s.mem l)))).1 = (p.run s.mem).1 ∧
        ∀ x w, (x, w) ∈ hp → (p.run (s.mem.put l (f (s.mem l)))).2 x = (p.run s.mem).2 x := by
      intro t' p hp td hne e
      refine run_agree p (h.guarded _ _ _ _ e) fun x w hx => put_other ?_
      rintro rfl
      exact h.apart t t' x w (fun e => hne e.symm) (by rw [hheld]; exact hl) (by rw [e]; exact hx)
    have hthr : ∀ t', ({ s.set t (.inside k hh todo) with mem := s.mem.put l (f (s.mem l)) } : Sys V R C).thr t' = if t' = t then .inside k hh todo else s.thr t' := fun _ => rfl
    refine ⟨apart_sub (x := .inside k hh todo) h.apart (fun e he => by rw [hheld]; exact he), ?_, ?_, ?_, ?_, ?_, h.replay⟩
    · intro t' c' g w' td e
      rw [hthr] at e
      split at e
      · cases e
      · exact h.got t' c' g w' td e
    · intro t' p hp td e
      rw [hthr] at e
      split at e
      · cases e; exact (h.guarded _ _ _ _ ht).2
      · exact h.guarded t' p hp td e
    · intro t' p hp td e x hx
      rw [hthr] at e
      split at e
      · cases e; exact h.will _ _ _ _ ht x hx
      · rename_i hne
        rw [h.will t' p hp td e x hx]
        exact ((others t' p hp td hne e).2 x true hx).symm
    · intro x hx
      have hxl : x ≠ l := by
        rintro rfl
        exact hx t k hh todo (by rw [hthr, if_pos rfl]) hl
      show a x = s.mem.put l _ x
      rw [put_other hxl]
      refine h.is x fun t' p hp td e => ?_
      by_cases hne : t' = t
      · subst hne; rw [ht] at e; cases e
        exact hx t' k _ _ (by rw [hthr, if_pos rfl])
      · exact hx t' p hp td (by rw [hthr, if_neg hne]; exact e)
    · intro t'
      rw [hthr]
      by_cases ht' : t' = t
      · subst ht'
        rw [if_pos rfl]
        have := h.stage t'
        rw [ht] at this
        exact this
      · rw [if_neg ht']
        have := h.stage t'
        split at this
        · exact this
        · exact this
        · rename_i p hp td e
          show Proper t' es (.happened (p.run (s.mem.put l (f (s.mem l)))).1)
          rw [(others t' p hp td ht' e).1]
          exact this
        · exact this
  | @finish t r hh todo ht =>
    refine ⟨[], a, rfl, ?_⟩
    rw [List.append_nil]
    have hheld : (s.thr t).held = hh := by rw [ht]; rfl
    have hi : ∀ t' p hp td, (s.set t (.leave r hh todo)).thr t' = .inside p hp td → s.thr t' = .inside p hp td := by
      intro t' p hp td e
      rw [set_thr] at e
      split at e
      · cases e
      · exact e
    refine ⟨apart_sub h.apart (fun e he => by rw [hheld]; exact he), ?_, fun t' p hp td e => h.guarded t' p hp td (hi _ _ _ _ e),
      fun t' p hp td e => h.will t' p hp td (hi _ _ _ _ e), ?_, ?_, h.replay⟩
    · intro t' c' g w' td e
      rw [set_thr] at e
      split at e
      · cases e
      · exact h.got t' c' g w' td e
    · intro x hx
      by_cases hm : (x, true) ∈ hh
      · exact h.will _ _ _ _ ht x hm
      · refine h.is x fun t' p hp td e => ?_
        by_cases hne : t' = t
        · subst hne; rw [ht] at e; cases e; exact hm
        · exact hx t' p hp td (by rw [set_thr, if_neg hne]; exact e)
    · intro t'
      rw [set_thr]
      by_cases ht' : t' = t
      · subst ht'
        rw [if_pos rfl]
        have := h.stage t'
        rw [ht] at this
        exact this
      · rw [if_neg ht']
        exact h.stage t'
  | @release t r x b y todo ht =>
    refine ⟨[], a, rfl, ?_⟩
    rw [List.append_nil]
    have hheld : (s.thr t).held = x ++ y :: b := by rw [ht]; rfl
    have hi : ∀ t' p hp td, (s.set t (.leave r (x ++ b) todo)).thr t' = .inside p hp td ↔ s.thr t' = .inside p hp td := by
      intro t' p hp td
      rw [set_thr]
      split
      · rename_i e; rw [e, ht]; constructor <;> (intro x; cases x)
      · exact Iff.rfl
    refine ⟨apart_sub h.apart (fun e he => ?_), ?_, fun t' p hp td e => h.guarded t' p hp td ((hi ..).1 e),
      fun t' p hp td e => h.will t' p hp td ((hi ..).1 e), fun z hz => h.is z fun t' p hh td e => hz t' p hh td ((hi ..).2 e), ?_, h.replay⟩
    · rw [hheld]
      rcases List.mem_append.1 he with he | he
      · exact List.mem_append_left _ he
      · exact List.mem_append_right _ (List.mem_cons_of_mem _ he)
    · intro t' c' g w' td e
      rw [set_thr] at e
      split at e
      · cases e
      · exact h.got t' c' g w' td e
    · intro t'
      rw [set_thr]
      by_cases ht' : t' = t
      · subst ht'
        rw [if_pos rfl]
        have := h.stage t'
        rw [ht] at this
        exact this
      · rw [if_neg ht']
        exact h.stage t'
  | @reply t r todo ht =>
    refine ⟨[.res t r], a, rfl, ?_⟩
    have hi : ∀ t' p hp td, (s.set t (.idle todo)).thr t' = .inside p hp td ↔ s.thr t' = .inside p hp td := by
      intro t' p hp td
      rw [set_thr]
      split
      · rename_i e; rw [e, ht]; constructor <;> (intro x; cases x)
      · exact Iff.rfl
    refine ⟨apart_sub h.apart (fun e he => by cases he), ?_, fun t' p hp td e => h.guarded t' p hp td ((hi ..).1 e),
      fun t' p hp td e => h.will t' p hp td ((hi ..).1 e), fun z hz => h.is z fun t' p hh td e => hz t' p hh td ((hi ..).2 e), ?_, .seen h.replay rfl⟩
    · intro t' c' g w' td e
      rw [set_thr] at e
      split at e
      · cases e
      · exact h.got t' c' g w' td e
    · intro t'
      rw [set_thr]
      by_cases ht' : t' = t
      · subst ht'
        rw [if_pos rfl]
        have := h.stage t'
        rw [ht] at this
        exact .res this
      · rw [if_neg ht']
        have hw : (Ev.res t r : Ev R C).who ≠ t' := fun e => ht' e.symm
        have := h.stage t'
        show match s.thr t' with
          | .idle _ => _
          | .enter _ _ _ _ => _
          | .inside _ _ _ => _
          | .leave _ _ _ => _
        split at this
        all_goals exact .other this hw

/-- All goroutines are between calls. -/
def Quiet (s : Sys V R C) : Prop := ∀ t, ∃ todo, s.thr t = .idle todo

theorem inv_start {impl : C → Call V R} {s : Sys V R C} (h : Quiet s) : Inv impl s.mem s [] s.mem := by
  have no : ∀ {P : Prop} {t : Nat} {x : Thread V R C}, s.thr t = x → (∀ todo, x ≠ .idle todo) → P := by
    intro P t x e hx
    obtain ⟨todo, ht⟩ := h t
    exact absurd (e.symm.trans ht) (hx todo)
  refine ⟨fun t t' l w _ hm => ?_, fun t c g w td e => no e (fun _ => nofun), fun t p hh td e => no e (fun _ => nofun), fun t p hh td e => no e (fun _ => nofun), fun _ _ => rfl,
    fun t => ?_, .nil⟩
  · obtain ⟨todo, ht⟩ := h t
    rw [ht] at hm; cases hm
  · obtain ⟨todo, ht⟩ := h t
    rw [ht]; exact .nil

theorem inv_steps {impl : C → Call V R} {s s' : Sys V R C} {v : List (Ev R C)} (h : Quiet s) (hs : Steps impl s v s') :
    ∃ es a, es.filter Ev.seen = v ∧ Inv impl s.mem s' es a := by
  induction hs with
  | refl => exact ⟨[], _, rfl, inv_start h⟩
  | step _ h2 ih =>
    obtain ⟨es, a, e1, e2⟩ := ih
    obtain ⟨e, a', k1, k2⟩ := inv_step e2 h2
    exact ⟨es ++ e, a', by rw [List.filter_append, e1, k1], k2⟩

/-- Calls that take all their locks before the first access are linearizable. -/
theorem two_phase {impl : C → Call V R} {s s' : Sys V R C} {v : List (Ev R C)} (h : Quiet s) (hs : Steps impl s v s') :
    ∃ a, Linearizes (fun c m r m' => (impl c).body.run m = (r, m')) s.mem v a ∧ (Quiet s' → a = s'.mem) := by
  obtain ⟨es, a, e1, hi⟩ := inv_steps h hs
  refine ⟨a, ⟨es, e1, fun t => ?_, hi.replay⟩, fun hq => ?_⟩
  · have := hi.stage t
    split at this <;> exact ⟨_, this⟩
  · funext l
    refine hi.is l fun t p hh td e => ?_
    obtain ⟨todo, ht⟩ := hq t
    rw [ht] at e; cases e

end

/-! ## The methods of a tree -/

theorem indexing_guarded {h : List (Guard × Bool)} (hh : (Guard.nodes, true) ∈ h) : ∀ (n : Nat) (rs : List Ref), (indexing n rs).Guarded h := by
  intro n
  induction n with
  | zero =>
    intro rs
    cases rs with
    | nil => exact trivial
    | cons a rs => exact trivial
  | succ n ih =>
    intro rs
    cases rs with
    | nil => exact trivial
    | cons a rs =>
      refine ⟨⟨true, hh⟩, fun v => ?_⟩
      dsimp only
      split
      · exact trivial
      · refine ⟨hh, ⟨true, hh⟩, fun v => ?_⟩
        dsimp only
        split
        · exact trivial
        · exact ih _

theorem indexes_guarded {h : List (Guard × Bool)} (hh : (Guard.nodes, true) ∈ h) (r : Ref) : (indexes r).Guarded h :=
  ⟨⟨true, hh⟩, fun _ => ⟨hh, indexing_guarded hh _ _⟩⟩

theorem walking_guarded {h : List (Guard × Bool)} {w : Bool} (hh : (Guard.nodes, w) ∈ h) {head : Str} {yes no : P} (hy : yes.Guarded h) (hn : no.Guarded h) :
    ∀ (n : Nat) (r : Option Ref), (walking head yes no n r).Guarded h := by
  intro n
  induction n with
  | zero =>
    intro r
    cases r with
    | none => exact hn
    | some r => exact trivial
  | succ n ih =>
    intro r
    cases r with
    | none => exact hn
    | some r =>
      refine ⟨⟨w, hh⟩, fun v => ?_⟩
      dsimp only
      split
      · exact trivial
      · split
        · exact hy
        · refine ⟨⟨w, hh⟩, fun v => ?_⟩
          dsimp only
          split
          · exact trivial
          · exact ih _

/-- Each method accesses only what its locks guard. -/
theorem body_guarded (c : Method) : (body c).Guarded (locks c) := by
  cases c with
  | get id => exact ⟨⟨false, by simp [locks]⟩, fun _ => trivial⟩
  | getByBranch n => exact ⟨⟨false, by simp [locks]⟩, fun _ => trivial⟩
  | getByTag n => exact ⟨⟨false, by simp [locks]⟩, fun _ => trivial⟩
  | root => exact ⟨⟨false, by simp [locks]⟩, fun _ => trivial⟩
  | tags =>
    refine ⟨⟨false, by simp [locks]⟩, fun v => ?_⟩
    dsimp only
    split
    · exact trivial
    · exact ⟨⟨false, by simp [locks]⟩, fun _ => trivial⟩
  | branches =>
    refine ⟨⟨false, by simp [locks]⟩, fun v => ?_⟩
    dsimp only
    split
    · exact trivial
    · exact ⟨⟨false, by simp [locks]⟩, fun _ => trivial⟩
  | addNode p r =>
    have hm : (Guard.nodes, true) ∈ locks (.addNode p r) := by simp [locks]
    cases p with
    | none =>
      refine ⟨⟨true, hm⟩, fun v => ?_⟩
      dsimp only
      split
      · exact trivial
      · exact ⟨hm, indexes_guarded hm _⟩
    | some pid =>
      refine ⟨⟨true, hm⟩, fun v => ?_⟩
      dsimp only
      split
      · exact trivial
      · refine ⟨⟨true, hm⟩, fun v => ?_⟩
        dsimp only
        split
        · split
          · exact ⟨hm, indexes_guarded hm _⟩
          · exact ⟨hm, hm, indexes_guarded hm _⟩
        · exact trivial
  | addTag n id =>
    refine ⟨⟨false, by simp [locks]⟩, fun v => ?_⟩
    dsimp only
    split
    · exact trivial
    · exact ⟨by simp [locks], by simp [locks], trivial⟩
  | deleteTag n =>
    refine ⟨⟨true, by simp [locks]⟩, fun v => ?_⟩
    dsimp only
    split
    · exact trivial
    · exact ⟨by simp [locks], trivial⟩
  | addBranch n id =>
    refine ⟨⟨false, by simp [locks]⟩, fun v => ?_⟩
    dsimp only
    split
    · exact trivial
    · exact ⟨by simp [locks], by simp [locks], trivial⟩
  | updateBranch n id f =>
    refine ⟨⟨false, by simp [locks]⟩, fun v => ?_⟩
    dsimp only
    split
    · exact trivial
    · refine ⟨⟨true, by simp [locks]⟩, fun v => ?_⟩
      dsimp only
      split
      · exact trivial
      · refine ⟨⟨false, by simp [locks]⟩, fun v => ?_⟩
        dsimp only
        split
        · split
          · exact trivial
          · split
            · exact ⟨by simp [locks], trivial⟩
            · refine walking_guarded (w := false) (by simp [locks]) ?_ ?_ _ _
              · exact ⟨by simp [locks], trivial⟩
              · exact trivial
        · exact trivial
  | deleteBranch n =>
    refine ⟨⟨true, by simp [locks]⟩, fun v => ?_⟩
    dsimp only
    split
    · exact trivial
    · exact ⟨by simp [locks], trivial⟩

/-- The methods as calls. -/
def impl (c : Method) : Call Guard.Val Ans := ⟨locks c, body c, body_guarded c⟩

theorem mem_tree (m : Mem Guard.Val) : mem (tree m) = m := by
  funext l
  cases l <;> rfl

theorem tree_mem (s : TS) : tree (mem s) = s := rfl

theorem run_readN (k : Nodes → P) (m : Mem Guard.Val) : (readN k).run m = (k (m .nodes)).run m := rfl
theorem run_writeN (f : Nodes → Nodes) (k : P) (s : TS) :
    (writeN f k).run (mem s) = k.run (mem ⟨(f (mem s .nodes)).heap, ⟨(f (mem s .nodes)).root, (f (mem s .nodes)).nodes, s.tree.branches, s.tree.tags⟩⟩) := by
  show k.run _ = k.run _
  congr 1
  funext l
  cases l <;> rfl
theorem run_readB (k : GoMap Ref → P) (m : Mem Guard.Val) : (readB k).run m = (k (m .branches)).run m := rfl
theorem run_writeB (f : GoMap Ref → GoMap Ref) (k : P) (s : TS) : (writeB f k).run (mem s) = k.run (mem { s with tree := { s.tree with branches := f s.tree.branches } }) := by
  show k.run _ = k.run _
  congr 1
  funext l
  cases l <;> rfl
theorem run_readT (k : GoMap Ref → P) (m : Mem Guard.Val) : (readT k).run m = (k (m .tags)).run m := rfl
theorem run_writeT (f : GoMap Ref → GoMap Ref) (k : P) (s : TS) : (writeT f k).run (mem s) = k.run (mem { s with tree := { s.tree with tags := f s.tree.tags } }) := by
  show k.run _ = k.run _
  congr 1
  funext l
  cases l <;> rfl

/-- The loop that fills the index. -/
theorem run_indexing : ∀ (n : Nat) (rs : List Ref) (s : TS) (idx : List (Str × Ref)), s.tree.nodes = some idx →
    ∀ s0, Outcome s0 ((TS.indexLoop s.heap n rs idx).bind fun idx => .ok { s with tree := { s.tree with nodes := some idx } })
      ((indexing n rs).run (mem s)).1 (tree ((indexing n rs).run (mem s)).2) := by
  intro n
  induction n with
  | zero =>
    intro rs s idx hi s0
    cases rs with
    | nil =>
      rw [TS.indexLoop, indexing]
      show Outcome s0 (.ok { s with tree := { s.tree with nodes := some idx } }) .done (tree (mem s))
      rw [tree_mem, ← hi]
      exact .ok
    | cons a rs =>
      rw [TS.indexLoop, indexing]
      exact .diverge
  | succ n ih =>
    intro rs s idx hi s0
    cases rs with
    | nil =>
      rw [TS.indexLoop, indexing]
      show Outcome s0 (.ok { s with tree := { s.tree with nodes := some idx } }) .done (tree (mem s))
      rw [tree_mem, ← hi]
      exact .ok
    | cons a rs =>
      rw [TS.indexLoop, indexing, run_readN]
      have hh : (mem s .nodes : Nodes).heap = s.heap := rfl
      rw [hh]
      cases ho : s.heap[a]? with
      | none => exact .panic
      | some o =>
        simp only
        rw [run_writeN, run_readN]
        have hn : (mem s .nodes : Nodes).nodes = some idx := hi
        have hh' : (mem ⟨s.heap, ⟨s.tree.root, assigned (some idx) o.id.hex a, s.tree.branches, s.tree.tags⟩⟩ .nodes : Nodes).heap = s.heap := rfl
        have hr : (mem s .nodes : Nodes).root = s.tree.root := rfl
        simp only [hn, hh, hr]
        rw [hh', ho]
        exact ih _ ⟨s.heap, ⟨s.tree.root, assigned (some idx) o.id.hex a, s.tree.branches, s.tree.tags⟩⟩ _ rfl s0

theorem run_indexes (r : Ref) (s s0 : TS) : Outcome s0 (s.updateIndexes r) ((indexes r).run (mem s)).1 (tree ((indexes r).run (mem s)).2) := by
  rw [indexes, run_readN, run_writeN]
  have := run_indexing (s.heap.length + 1) [r] ⟨s.heap, ⟨s.tree.root, s.tree.nodes.ensure, s.tree.branches, s.tree.tags⟩⟩ s.tree.nodes.ensure.entries
    (by cases s.tree.nodes <;> rfl) s0
  exact this

/-- The loop along the parents. -/
theorem run_walking (head : Str) (yes no : P) (s s0 : TS) (A B : Res TreeErr TS) (hy : Outcome s0 A (yes.run (mem s)).1 (tree (yes.run (mem s)).2))
    (hn : Outcome s0 B (no.run (mem s)).1 (tree (no.run (mem s)).2)) : ∀ (n : Nat) (r : Option Ref),
    Outcome s0 ((TS.connected s.heap head n r).bind fun c => if c then A else B) ((walking head yes no n r).run (mem s)).1 (tree ((walking head yes no n r).run (mem s)).2) := by
  intro n
  induction n with
  | zero =>
    intro r
    cases r with
    | none => rw [TS.connected, walking]; exact hn
    | some r => rw [TS.connected, walking]; exact .diverge
  | succ n ih =>
    intro r
    cases r with
    | none => rw [TS.connected, walking]; exact hn
    | some r =>
      rw [TS.connected, walking, run_readN]
      have hh : (mem s .nodes : Nodes).heap = s.heap := rfl
      rw [hh]
      cases ho : s.heap[r]? with
      | none => exact .panic
      | some o =>
        simp only
        split
        · exact hy
        · rw [run_readN, hh, ho]
          exact ih o.parent

/-- One call alone does what the model of the tree says. -/
theorem body_does (c : Method) (s : TS) : Does c s ((body c).run (mem s)).1 (tree ((body c).run (mem s)).2) := by
  cases c with
  | get id => exact ⟨rfl, rfl⟩
  | getByBranch n => exact ⟨rfl, rfl⟩
  | getByTag n => exact ⟨rfl, rfl⟩
  | root => exact ⟨rfl, rfl⟩
  | tags =>
    rw [body, run_readT]
    have h : mem s .tags = s.tree.tags := rfl
    rw [h]
    cases ht : s.tree.tags with
    | none => exact ⟨by rw [ht]; rfl, rfl⟩
    | some l => exact ⟨rfl, rfl⟩
  | branches =>
    rw [body, run_readB]
    have h : mem s .branches = s.tree.branches := rfl
    rw [h]
    cases ht : s.tree.branches with
    | none => exact ⟨by rw [ht]; rfl, rfl⟩
    | some l => exact ⟨rfl, rfl⟩
  | addNode p r =>
    cases p with
    | none =>
      show Outcome s (s.addNode none r) _ _
      rw [body, run_readN, TS.addNode]
      have h : (mem s .nodes : Nodes).root = s.tree.root := rfl
      rw [h]
      cases s.tree.root with
      | some x => exact .err
      | none =>
        simp only
        rw [run_writeN]
        exact run_indexes r _ s
    | some pid =>
      show Outcome s (s.addNode (some pid) r) _ _
      rw [body, run_readN, TS.addNode]
      have h : (mem s .nodes : Nodes).nodes = s.tree.nodes := rfl
      have hh : (mem s .nodes : Nodes).heap = s.heap := rfl
      rw [h]
      cases s.tree.nodes.get pid.hex with
      | none => exact .err
      | some p =>
        simp only
        rw [run_readN, hh, TS.addChild]
        cases hp : s.heap[p]? with
        | none => exact .panic
        | some po =>
          cases hr : s.heap[r]? with
          | none => exact .panic
          | some co =>
            simp only
            cases hc : po.children.get co.id.hex with
            | some x =>
              simp only
              rw [run_writeN]
              simp only [hh, hr]
              rw [TS.setParent, TS.modify, hr]
              exact run_indexes r _ s
            | none =>
              simp only
              have he : po.children.ensure.assign co.id.hex r = some (assigned po.children co.id.hex r) := by cases po.children <;> rfl
              rw [he, run_writeN, run_writeN]
              simp only [hh]
              have hlt := (List.getElem?_eq_some_iff.1 hr).1
              obtain ⟨o, ho⟩ : ∃ o, (s.heap.set p { po with children := assigned po.children co.id.hex r })[r]? = some o :=
                ⟨_, List.getElem?_eq_getElem (by simpa using hlt)⟩
              rw [TS.setParent, TS.modify]
              simp only [ho]
              have ho' : (mem ⟨s.heap.set p { po with children := assigned po.children co.id.hex r }, ⟨(mem s .nodes : Nodes).root, (mem s .nodes : Nodes).nodes, s.tree.branches, s.tree.tags⟩⟩ .nodes : Nodes).heap
                = s.heap.set p { po with children := assigned po.children co.id.hex r } := rfl
              rw [ho', ho]
              exact run_indexes r _ s
  | addTag n id =>
    show Outcome s (s.addTag n id) _ _
    rw [body, run_readN, TS.addTag]
    have h : (mem s .nodes : Nodes).nodes = s.tree.nodes := rfl
    rw [h]
    cases s.tree.nodes.get id.hex with
    | none => exact .err
    | some r =>
      simp only
      have he : s.tree.tags.ensure.assign n r = some (assigned s.tree.tags.ensure n r) := by cases s.tree.tags <;> rfl
      rw [he, run_writeT, run_writeT]
      exact .ok
  | deleteTag n =>
    show _ = _ ∧ _ = _
    rw [body, run_readT, TS.deleteTag]
    have h : mem s .tags = s.tree.tags := rfl
    rw [h]
    cases s.tree.tags.get n with
    | none => exact ⟨rfl, rfl⟩
    | some r =>
      simp only
      rw [run_writeT]
      exact ⟨rfl, rfl⟩
  | addBranch n id =>
    show Outcome s (s.addBranch n id) _ _
    rw [body, run_readN, TS.addBranch]
    have h : (mem s .nodes : Nodes).nodes = s.tree.nodes := rfl
    rw [h]
    cases s.tree.nodes.get id.hex with
    | none => exact .err
    | some r =>
      simp only
      have he : s.tree.branches.ensure.assign n r = some (assigned s.tree.branches.ensure n r) := by cases s.tree.branches <;> rfl
      rw [he, run_writeB, run_writeB]
      exact .ok
  | updateBranch n id f =>
    show Outcome s (s.updateBranch n id f) _ _
    rw [body, run_readN, TS.updateBranch]
    have h : (mem s .nodes : Nodes).nodes = s.tree.nodes := rfl
    have hh : (mem s .nodes : Nodes).heap = s.heap := rfl
    rw [h]
    cases s.tree.nodes.get id.hex with
    | none => exact .err
    | some r =>
      simp only
      rw [run_readB]
      have hb : mem s .branches = s.tree.branches := rfl
      rw [hb]
      cases hg : s.tree.branches.get n with
      | none => exact .err
      | some hd =>
        simp only
        rw [run_readN, hh, h]
        cases s.heap[hd]? with
        | none => exact .panic
        | some ho =>
          cases s.heap[r]? with
          | none => exact .panic
          | some no =>
            simp only
            split
            · exact .ok
            · have he : s.tree.branches.assign n r = some (assigned s.tree.branches n r) := by
                cases hbr : s.tree.branches with
                | none => rw [hbr] at hg; cases hg
                | some l => rfl
              have hset : Outcome s (.ok { s with tree := { s.tree with branches := assigned s.tree.branches n r } })
                  ((writeB (fun m => assigned m n r) (.ret .done)).run (mem s)).1 (tree ((writeB (fun m => assigned m n r) (.ret .done)).run (mem s)).2) := by
                rw [run_writeB]; exact .ok
              rw [he]
              split
              · exact hset
              · exact run_walking ho.id.hex _ _ s s _ _ hset .err _ _
  | deleteBranch n =>
    show _ = _ ∧ _ = _
    rw [body, run_readB, TS.deleteBranch]
    have h : mem s .branches = s.tree.branches := rfl
    rw [h]
    cases s.tree.branches.get n with
    | none => exact ⟨rfl, rfl⟩
    | some r =>
      simp only
      rw [run_writeB]
      exact ⟨rfl, rfl⟩

/-- `todo t`: the calls that goroutine `t` makes. -/
def start (s : TS) (todo : Nat → List Method) : Sys Guard.Val Ans Method := ⟨mem s, fun t => .idle (todo t)⟩

/-- **C102.** Any number of goroutines call methods of one tree, in any order and interrupted anywhere. Every call appears to happen at one moment
between the call and its answer, and answers what it would if it ran alone then. When all calls have been answered, the tree is as these calls one
after another leave it. -/
theorem C102_linearizable_partial (s : TS) (todo : Nat → List Method) {v : List (Ev Ans Method)} {z : Sys Guard.Val Ans Method} (h : Steps impl (start s todo) v z) :
    ∃ s', Linearizes Does s v s' ∧ (Quiet z → s' = tree z.mem) := by
  obtain ⟨a, ⟨es, e1, e2, e3⟩, h2⟩ := two_phase (s := start s todo) (fun t => ⟨_, rfl⟩) h
  refine ⟨tree a, ⟨es, e1, e2, ?_⟩, fun hq => by rw [h2 hq]⟩
  clear h2 e1 e2 h
  generalize hm : (start s todo).mem = m at e3
  induction e3 with
  | nil => rw [← hm]; exact .nil
  | seen _ hs ih => exact .seen ih hs
  | @lin es s1 s2 t c r _ hd ih =>
    refine .lin ih ?_
    have := body_does c (tree s1)
    rw [mem_tree] at this
    have hd : (body c).run s1 = (r, s2) := hd
    rw [hd] at this
    exact this

/-! ## What is not so -/

section
variable {L : Type} [DecidableEq L] {V : L → Type} {R C : Type}

/-- An execution whose memory has the property `Q` at every moment. -/
inductive Through (impl : C → Call V R) (Q : Mem V → Prop) : Sys V R C → List (Ev R C) → Sys V R C → Prop where
  | refl {s : Sys V R C} : Q s.mem → Through impl Q s [] s
  | step {s s1 s2 : Sys V R C} {es e : List (Ev R C)} : Through impl Q s es s1 → Step impl s1 e s2 → Q s2.mem → Through impl Q s (es ++ e) s2

theorem Through.steps {impl : C → Call V R} {Q : Mem V → Prop} {s s' : Sys V R C} {v : List (Ev R C)} (h : Through impl Q s v s') : Steps impl s v s' := by
  induction h with
  | refl => exact .refl
  | step _ h _ ih => exact .step ih h

theorem Through.trans {impl : C → Call V R} {Q : Mem V → Prop} {s s1 s2 : Sys V R C} {v w : List (Ev R C)} (h : Through impl Q s v s1) (h' : Through impl Q s1 w s2) :
    Through impl Q s (v ++ w) s2 := by
  induction h' with
  | refl => rw [List.append_nil]; exact h
  | step _ h2 h3 ih => rw [← List.append_assoc]; exact .step ih h2 h3

theorem Through.head {impl : C → Call V R} {Q : Mem V → Prop} {s s1 s2 : Sys V R C} {v w : List (Ev R C)} (hq : Q s.mem) (h : Step impl s v s1) (h' : Through impl Q s1 w s2)
    (hq1 : Q s1.mem) : Through impl Q s (v ++ w) s2 := Through.trans (.step (.refl hq) h hq1) h'

/-- `Q` at every moment of a body. -/
def Prog.All (Q : Mem V → Prop) : Prog V R → Mem V → Prop
  | .ret _, m => Q m
  | .read l k, m => (k (m l)).All Q m
  | .write l f k, m => Q m ∧ k.All Q (m.put l (f (m l)))

theorem Prog.All.here {Q : Mem V → Prop} (p : Prog V R) : ∀ {m : Mem V}, p.All Q m → Q m := by
  induction p with
  | ret r => exact fun h => h
  | read l k ih => exact fun h => ih _ h
  | write l f k ih => exact fun h => h.1

omit [DecidableEq L] in
theorem set_set (s : Sys V R C) (t : Nat) (x y : Thread V R C) : (s.set t x).set t y = s.set t y := by
  unfold Sys.set
  congr 1
  funext k
  by_cases hk : k = t <;> simp [hk]

omit [DecidableEq L] in
theorem set_set_mem (s : Sys V R C) (t : Nat) (x y : Thread V R C) (m : Mem V) : ({ s.set t x with mem := m } : Sys V R C).set t y = { s.set t y with mem := m } := by
  unfold Sys.set
  congr 1
  funext k
  by_cases hk : k = t <;> simp [hk]

omit [DecidableEq L] in
theorem set_at (s : Sys V R C) (t : Nat) (x : Thread V R C) : (s.set t x).thr t = x := if_pos rfl

/-- A goroutine that runs alone through its body. -/
theorem alone_body {impl : C → Call V R} {Q : Mem V → Prop} {t : Nat} {h : List (L × Bool)} {todo : List C} (p : Prog V R) : ∀ {s : Sys V R C}, p.All Q s.mem →
    s.thr t = .inside p h todo → Through impl Q s [] { s.set t (.leave (p.run s.mem).1 h todo) with mem := (p.run s.mem).2 } := by
  induction p with
  | ret r =>
    intro s hq ht
    exact Through.step (es := []) (e := []) (.refl hq) (.finish ht) hq
  | read l k ih =>
    intro s hq ht
    have := ih (s.mem l) (s := s.set t (.inside (k (s.mem l)) h todo)) hq (set_at ..)
    rw [set_set] at this
    exact Through.head (v := []) (w := []) (Prog.All.here _ hq) (.read ht) this (Prog.All.here _ hq)
  | write l f k ih =>
    intro s hq ht
    have := ih (s := { s.set t (.inside k h todo) with mem := s.mem.put l (f (s.mem l)) }) hq.2 (set_at ..)
    rw [set_set_mem] at this
    exact Through.head (v := []) (w := []) hq.1 (.write ht) this (Prog.All.here _ hq.2)

/-- A goroutine alone takes its locks. -/
theorem alone_acquire {impl : C → Call V R} {Q : Mem V → Prop} {t : Nat} {c : C} {todo : List C} (want : List (L × Bool)) : ∀ {got : List (L × Bool)} {s : Sys V R C}, Q s.mem →
    (∀ t', t' ≠ t → (s.thr t').held = []) → s.thr t = .enter c got want todo → Through impl Q s [] (s.set t (.enter c (got ++ want) [] todo)) := by
  induction want with
  | nil =>
    intro got s hq _ ht
    rw [List.append_nil]
    have : s.set t (.enter c got [] todo) = s := by
      unfold Sys.set
      congr 1
      funext k
      split
      · rename_i e; rw [e, ht]
      · rfl
    rw [this]
    exact .refl hq
  | cons x want ih =>
    intro got s hq ho ht
    obtain ⟨l, w⟩ := x
    have := ih (got := got ++ [(l, w)]) (s := s.set t (.enter c (got ++ [(l, w)]) want todo)) hq (fun t' h' => by rw [set_thr, if_neg h']; exact ho t' h') (set_at ..)
    rw [set_set, List.append_assoc] at this
    refine Through.head (v := []) (w := []) hq (.acquire ht fun t' w' h' hm => ?_) this hq
    rw [ho t' h'] at hm
    cases hm

/-- And gives them back. -/
theorem alone_release {impl : C → Call V R} {Q : Mem V → Prop} {t : Nat} {r : R} {todo : List C} (h : List (L × Bool)) : ∀ {s : Sys V R C}, Q s.mem →
    s.thr t = .leave r h todo → Through impl Q s [.res t r] (s.set t (.idle todo)) := by
  induction h with
  | nil => intro s hq ht; exact Through.step (es := []) (.refl hq) (.reply ht) hq
  | cons x h ih =>
    intro s hq ht
    have := ih (s := s.set t (.leave r h todo)) hq (set_at ..)
    rw [set_set] at this
    exact Through.head (v := []) hq (.release (a := []) ht) this hq

/-- A call while no other goroutine is in a call. -/
theorem alone {impl : C → Call V R} {Q : Mem V → Prop} {s : Sys V R C} (hs : Quiet s) {t : Nat} {c : C} {todo : List C} (ht : s.thr t = .idle (c :: todo))
    (hq : (impl c).body.All Q s.mem) :
    Through impl Q s [.inv t c, .res t ((impl c).body.run s.mem).1] { s.set t (.idle todo) with mem := ((impl c).body.run s.mem).2 } := by
  have h0 := Prog.All.here _ hq
  have ho : ∀ t', t' ≠ t → (s.thr t').held = [] := fun t' _ => by obtain ⟨td, e⟩ := hs t'; rw [e]; rfl
  have k1 := alone_acquire (impl := impl) (Q := Q) (c := c) (todo := todo) (impl c).locks (got := []) (s := s.set t (.enter c [] (impl c).locks todo)) h0
    (fun t' h' => by rw [set_thr, if_neg h']; exact ho t' h') (set_at ..)
  rw [set_set, List.nil_append] at k1
  have k2 := alone_body (impl := impl) (t := t) (h := (impl c).locks) (todo := todo) (impl c).body (s := s.set t (.inside (impl c).body (impl c).locks todo)) hq (set_at ..)
  rw [set_set] at k2
  have hq' : ∀ (p : Prog V R) (m : Mem V), p.All Q m → Q (p.run m).2 := by
    intro p
    induction p with
    | ret r => exact fun m h => h
    | read l k ih => exact fun m h => ih _ m h
    | write l f k ih => exact fun m h => ih _ h.2
  have k3 := alone_release (impl := impl) (Q := Q) (t := t) (r := ((impl c).body.run s.mem).1) (todo := todo) (impl c).locks
    (s := { s.set t (.leave ((impl c).body.run s.mem).1 (impl c).locks todo) with mem := ((impl c).body.run s.mem).2 }) (hq' _ _ hq) (set_at ..)
  rw [set_set_mem] at k3
  have k4 : Through impl Q (s.set t (.enter c (impl c).locks [] todo)) [] (s.set t (.inside (impl c).body (impl c).locks todo)) := by
    have := Step.start (impl := impl) (s := s.set t (.enter c (impl c).locks [] todo)) (t := t) (set_at ..)
    rw [set_set] at this
    exact Through.step (es := []) (e := []) (.refl h0) this h0
  have k5 : Through impl Q s [.inv t c] (s.set t (.enter c [] (impl c).locks todo)) := Through.step (es := []) (.refl h0) (.invoke ht) h0
  exact ((k5.trans k1).trans (k4.trans k2)).trans k3

end

/-- The same for trees. -/
theorem alone_tree {Q : Mem Guard.Val → Prop} {s s' : TS} {todo : Nat → List Method} {t : Nat} {c : Method} {rest : List Method} {r : Ans} (ht : todo t = c :: rest)
    (hq : (body c).All Q (mem s)) (hr : (body c).run (mem s) = (r, mem s')) :
    Through impl Q (start s todo) [.inv t c, .res t r] (start s' fun k => if k = t then rest else todo k) := by
  have h := alone (impl := impl) (Q := Q) (s := start s todo) (fun t => ⟨_, rfl⟩) (t := t) (c := c) (todo := rest) (by show Thread.idle (todo t) = _; rw [ht]) hq
  have hr' : (impl c).body.run (start s todo).mem = (r, mem s') := hr
  rw [hr'] at h
  have e : ({ (start s todo).set t (.idle rest) with mem := mem s' } : Sys Guard.Val Ans Method) = start s' fun k => if k = t then rest else todo k := by
    have : (fun k => if k = t then Thread.idle rest else Thread.idle (todo k)) = fun k => (Thread.idle (if k = t then rest else todo k) : Thread Guard.Val Ans Method) := by
      funext k
      by_cases hk : k = t <;> simp [hk]
    show (⟨mem s', fun k => if k = t then Thread.idle rest else Thread.idle (todo k)⟩ : Sys Guard.Val Ans Method) = ⟨mem s', fun k => Thread.idle (if k = t then rest else todo k)⟩
    rw [this]
  rw [e] at h
  exact h

/-- A tree with a root and a branch `x` at it, no tags. -/
def oneBranch (u : UID) : TS := ⟨[⟨u, none, none, none, none⟩], ⟨some 0, some [(u.hex, 0)], some [(lit "x", 0)], none⟩⟩

/-- What two goroutines do: one searches for `x`, which is no ID, so `Search` asks for a tag and then for a branch (pkg/spaces/trees/tree.go:174-181); the other makes
a tag `x` and then deletes the branch. -/
def searchAndMove (u : UID) : Nat → List Method
  | 0 => [.getByTag (lit "x"), .getByBranch (lit "x")]
  | 1 => [.addTag (lit "x") u, .deleteBranch (lit "x")]
  | _ => []

/-- **C102.** `Search` does not appear to happen at one moment: there is an execution in which `x` names the root at every moment, and yet `Search` for `x` finds
nothing, since it looks at the tags too early and at the branches too late. -/
theorem C102_violated_search (u : UID) : (TS.searchID (ε := TreeErr) (lit "x") = .ok none) ∧ ∃ z,
    Through impl (fun m => ∃ k, (tree m).search (ε := TreeErr) (lit "x") = .ok (some (0, k))) (start (oneBranch u) (searchAndMove u))
      [.inv 0 (.getByTag (lit "x")), .res 0 (.node none), .inv 1 (.addTag (lit "x") u), .res 1 .done, .inv 1 (.deleteBranch (lit "x")), .res 1 (.bool true),
        .inv 0 (.getByBranch (lit "x")), .res 0 (.node none)] z := by
  refine ⟨by decide, ?_⟩
  have q0 : Quiet (start (oneBranch u) (searchAndMove u)) := fun t => ⟨_, rfl⟩
  have found : ∀ m : Mem Guard.Val, (m .tags).get (lit "x") = some 0 ∨ ((m .tags).get (lit "x") = none ∧ (m .branches).get (lit "x") = some 0) →
      ∃ k, (tree m).search (ε := TreeErr) (lit "x") = .ok (some (0, k)) := by
    intro m hm
    have h0 : TS.searchID (ε := TreeErr) (lit "x") = .ok none := by decide
    rw [TS.search, h0]
    have ht : (tree m).getByTag (lit "x") = (m .tags).get (lit "x") := rfl
    have hb : (tree m).getByBranch (lit "x") = (m .branches).get (lit "x") := rfl
    simp only [Res.bind, Option.bind_none, ht, hb]
    rcases hm with h | ⟨h1, h2⟩
    · rw [h]; exact ⟨_, rfl⟩
    · rw [h1, h2]; exact ⟨_, rfl⟩
  have look : (mem (oneBranch u) .nodes : Nodes).nodes.get u.hex = some 0 := if_pos rfl
  let s2 : TS := { oneBranch u with tree := { (oneBranch u).tree with tags := some [(lit "x", 0)] } }
  let s3 : TS := { s2 with tree := { s2.tree with branches := some [] } }
  have b2 : body (.addTag (lit "x") u) = readN fun v => match v.nodes.get u.hex with
    | none => .ret (.refused .nodeNotFound)
    | some r => writeT GoMap.ensure (writeT (fun m => assigned m (lit "x") r) (.ret .done)) := rfl
  have r2 : (body (.addTag (lit "x") u)).run (mem (oneBranch u)) = (.done, mem s2) := by
    rw [b2, run_readN, look]
    simp only
    rw [run_writeT, run_writeT]
    rfl
  have q2 : (body (.addTag (lit "x") u)).All (fun m => ∃ k, (tree m).search (ε := TreeErr) (lit "x") = .ok (some (0, k))) (mem (oneBranch u)) := by
    rw [b2]
    show Prog.All _ (match (mem (oneBranch u) .nodes : Nodes).nodes.get u.hex with
      | none => .ret (.refused .nodeNotFound)
      | some r => writeT GoMap.ensure (writeT (fun m => assigned m (lit "x") r) (.ret .done))) _
    rw [look]
    exact ⟨found _ (.inr ⟨rfl, rfl⟩), found _ (.inr ⟨rfl, rfl⟩), found _ (.inl rfl)⟩
  have r3 : (body (.deleteBranch (lit "x"))).run (mem s2) = (.bool true, mem s3) := by
    show (writeB (fun m => m.delete (lit "x")) (.ret (.bool true))).run (mem s2) = _
    rw [run_writeB]
    rfl
  have a1 := alone_tree (Q := fun m => ∃ k, (tree m).search (ε := TreeErr) (lit "x") = .ok (some (0, k))) (todo := searchAndMove u) (t := 0) (s := oneBranch u) (c := .getByTag (lit "x")) (s' := oneBranch u) rfl (found _ (.inr ⟨rfl, rfl⟩)) rfl
  have a2 := alone_tree (todo := fun k => if k = 0 then [.getByBranch (lit "x")] else searchAndMove u k) (t := 1) rfl q2 r2
  have a3 := alone_tree (Q := fun m => ∃ k, (tree m).search (ε := TreeErr) (lit "x") = .ok (some (0, k))) (todo := fun k => if k = 1 then [.deleteBranch (lit "x")] else if k = 0 then [.getByBranch (lit "x")] else searchAndMove u k) (t := 1) rfl
    (by exact ⟨found (mem s2) (.inl rfl), found _ (.inl rfl)⟩) r3
  have a4 := alone_tree (Q := fun m => ∃ k, (tree m).search (ε := TreeErr) (lit "x") = .ok (some (0, k)))
    (todo := fun k => if k = 1 then [] else if k = 1 then [.deleteBranch (lit "x")] else if k = 0 then [.getByBranch (lit "x")] else searchAndMove u k) (t := 0)
    (s := s3) (s' := s3) (c := .getByBranch (lit "x")) rfl (found _ (.inl rfl)) rfl
  exact ⟨_, ((a1.trans a2).trans a3).trans a4⟩

/-- A root `u` and a node `w` that is not in the tree yet. -/
def oneNode (u w : UID) : TS := ⟨[⟨u, none, none, none, none⟩, ⟨w, none, none, none, none⟩], ⟨some 0, some [(u.hex, 0)], none, none⟩⟩

/-- **C102.** Nor does `AddNode` for those who look at the nodes themselves, since `Children`, `HasChild`, `Parent` and `IsRoot` (pkg/spaces/trees/node.go:74-109) do not take the lock
of the tree: there is a moment at which the new node is a child of `u` and has no parent. Alone, the call leaves a child that has a parent. -/
theorem C102_violated_links (u w : UID) : ∃ v z, Steps impl (start (oneNode u w) fun t => if t = 0 then [.addNode (some u) 1] else []) v z ∧
    (tree z.mem).hasChild 0 w = some true ∧ (tree z.mem).isRoot 1 = some true ∧
    ∀ a s', Does (.addNode (some u) 1) (oneNode u w) a s' → a = .done ∧ s'.hasChild 0 w = some true ∧ s'.isRoot 1 = some false := by
  have look : (mem (oneNode u w) .nodes : Nodes).nodes.get u.hex = some 0 := if_pos rfl
  let parent : P := writeN (fun v => { v with heap := match v.heap[1]? with
    | none => v.heap
    | some o => v.heap.set 1 { o with parent := some 0 } }) (indexes 1)
  let K2 : Nodes → P := fun v => match v.heap[0]?, v.heap[1]? with
    | some po, some co =>
      match po.children.get co.id.hex with
      | some _ => parent
      | none => writeN (fun v => { v with heap := v.heap.set 0 { po with children := assigned po.children co.id.hex 1 } }) parent
    | _, _ => .ret .panic
  let s0 := start (oneNode u w) fun t => if t = 0 then [.addNode (some u) 1] else []
  let h : List (Guard × Bool) := [(.nodes, true)]
  have t1 : Steps impl s0 [.inv 0 (.addNode (some u) 1)] (s0.set 0 (.enter (.addNode (some u) 1) [] h [])) := Steps.step (es := []) .refl (.invoke rfl)
  have t2 : Steps impl s0 [.inv 0 (.addNode (some u) 1)] (s0.set 0 (.enter (.addNode (some u) 1) h [] [])) := by
    have := Step.acquire (impl := impl) (s := s0.set 0 (.enter (.addNode (some u) 1) [] h [])) (t := 0) (set_at ..) (fun t' w' h' hm => by
      rw [set_thr, if_neg h'] at hm; cases hm)
    rw [set_set] at this
    exact Steps.step (e := []) t1 this
  have t3 : Steps impl s0 [.inv 0 (.addNode (some u) 1)] (s0.set 0 (.inside (body (.addNode (some u) 1)) h [])) := by
    have := Step.start (impl := impl) (s := s0.set 0 (.enter (.addNode (some u) 1) h [] [])) (t := 0) (set_at ..)
    rw [set_set] at this
    exact Steps.step (e := []) t2 this
  have t4 : Steps impl s0 [.inv 0 (.addNode (some u) 1)] (s0.set 0 (.inside (readN K2) h [])) := by
    have := Step.read (impl := impl) (s := s0.set 0 (.inside (body (.addNode (some u) 1)) h [])) (t := 0) (l := .nodes) (k := fun v : Nodes =>
      match v.nodes.get u.hex with
      | none => .ret (.refused .parentNotFound)
      | some p => readN fun v =>
        match v.heap[p]?, v.heap[1]? with
        | some po, some co =>
          let parent := writeN (fun v => { v with heap := match v.heap[1]? with
            | none => v.heap
            | some o => v.heap.set 1 { o with parent := some p } }) (indexes 1)
          match po.children.get co.id.hex with
          | some _ => parent
          | none => writeN (fun v => { v with heap := v.heap.set p { po with children := assigned po.children co.id.hex 1 } }) parent
        | _, _ => .ret .panic) (h := h) (todo := []) (set_at ..)
    rw [set_set] at this
    have e : ((s0.set 0 (.inside (body (.addNode (some u) 1)) h [])).mem .nodes : Nodes).nodes.get u.hex = some 0 := look
    rw [e] at this
    exact Steps.step (e := []) t3 this
  have t5 : Steps impl s0 [.inv 0 (.addNode (some u) 1)] (s0.set 0 (.inside (writeN (fun v => { v with heap := v.heap.set 0 ⟨u, none, assigned none w.hex 1, none, none⟩ }) parent) h [])) := by
    have := Step.read (impl := impl) (s := s0.set 0 (.inside (readN K2) h [])) (t := 0) (l := .nodes) (k := K2) (h := h) (todo := []) (set_at ..)
    rw [set_set] at this
    exact Steps.step (e := []) t4 this
  have t6 := Steps.step (e := []) t5 (.write (l := .nodes) (set_at ..))
  refine ⟨_, _, t6, ?_, ?_, ?_⟩
  · show some (((assigned none w.hex 1 : GoMap Ref).get w.hex).isSome) = some true
    have : (assigned none w.hex 1 : GoMap Ref).get w.hex = some 1 := if_pos rfl
    rw [this]; rfl
  · rfl
  · intro a s' hd
    have hd : Outcome (oneNode u w) ((oneNode u w).addNode (some u) 1) a s' := hd
    have e : (oneNode u w).addNode (some u) 1 = .ok ⟨[⟨u, none, some [(w.hex, 1)], none, none⟩, ⟨w, some 0, none, none, none⟩], ⟨some 0, some (AL.put [(u.hex, 0)] w.hex 1), none, none⟩⟩ := by
      have look : (oneNode u w).tree.nodes.get u.hex = some 0 := if_pos rfl
      rw [TS.addNode]
      simp only [look]
      rfl
    rw [e] at hd
    cases hd
    refine ⟨rfl, ?_, rfl⟩
    have : GoMap.get (some [(w.hex, 1)]) w.hex = some 1 := if_pos rfl
    show some (GoMap.get (some [(w.hex, 1)]) w.hex).isSome = _
    rw [this]; rfl

/-- The hypothesis of `C102_linearizable_partial` is met by these executions, in which calls of two goroutines alternate and in which a call is half done. -/
example (u w : UID) : (∃ v z, v.length = 8 ∧ Steps impl (start (oneBranch u) (searchAndMove u)) v z) ∧
    ∃ v z, Steps impl (start (oneNode u w) fun t => if t = 0 then [.addNode (some u) 1] else []) v z ∧ (tree z.mem).isRoot 1 = some true := by
  obtain ⟨_, z, h⟩ := C102_violated_search u
  obtain ⟨v, z', h1, _, h2, _⟩ := C102_violated_links u w
  exact ⟨⟨_, z, rfl, h.steps⟩, v, z', h1, h2⟩

end Linear
end Verif
