import Verif.Misc.NodeLock
/-!
# Calls on shared nodes appear to happen one after another
-/
set_option autoImplicit false
namespace Verif
namespace NodeLock
open Linear (Ev Stage Proper Replay Linearizes)

/-- The accesses without interruption. -/
def Acc.run : Acc → GoMap Val → Ans × GoMap Val
  | .ret a, m => (a, m)
  | .read k, m => (k m).run m
  | .make p, m => p.run m.ensure
  | .write f a, m => (a, f m)

/-- Nothing is written. -/
def Acc.Reads : Acc → Prop
  | .ret _ => True
  | .read k => ∀ m, (k m).Reads
  | _ => False

/-- A map never becomes nil. -/
def Acc.Keeps : Acc → Prop
  | .ret _ => True
  | .read k => ∀ m, (k m).Keeps
  | .make p => p.Keeps
  | .write f _ => ∀ m, m ≠ none → f m ≠ none

/-- The call of a goroutine and whether it has happened. -/
def Thread.stage : Thread → Stage Ans Call
  | .idle _ => .between
  | .check c _ | .want c _ | .inside c _ _ => .called c
  | .leave _ a _ | .back a _ => .happened a

/-- It does not set a map to nil. -/
def Thread.Tame : Thread → Prop
  | .idle todo | .leave _ _ todo | .back _ todo => ∀ c ∈ todo, c.op ≠ .set none
  | .check c todo => c.op = .bareCopy ∧ ∀ c ∈ todo, c.op ≠ .set none
  | .want c todo => c.op ≠ .set none ∧ ∀ c ∈ todo, c.op ≠ .set none
  | .inside _ p todo => p.Keeps ∧ ∀ c ∈ todo, c.op ≠ .set none

/-- It has seen that this map is not nil. -/
def Thread.SawMap : Thread → Cell → Prop
  | .want c _, x => c.op = .bareCopy ∧ c.cell = x
  | _, _ => False

theorem put_same (m : Cell → GoMap Val) (c : Cell) (v : GoMap Val) : put m c v c = v := if_pos rfl
theorem put_other (m : Cell → GoMap Val) {c x : Cell} (v : GoMap Val) (h : x ≠ c) : put m c v x = m x := if_neg h
theorem set_at (s : Sys) (t : Nat) (x : Thread) : (s.set t x).thr t = x := if_pos rfl
theorem set_other (s : Sys) {t k : Nat} (x : Thread) (h : k ≠ t) : (s.set t x).thr k = s.thr k := if_neg h

/-- Between the goroutines and the calls that have happened, with the maps `a` after them. -/
structure Inv (exact : Prop) (m0 : Cell → GoMap Val) (s : Sys) (es : List (Ev Ans Call)) (a : Cell → GoMap Val) : Prop where
  replay : Replay (Does exact) m0 es a
  proper : ∀ t, Proper t es (s.thr t).stage
  apart : ∀ t t' c w w', t ≠ t' → (s.thr t).held = some (c, w) → (s.thr t').held = some (c, w') → w = false ∧ w' = false
  nil : ∀ c, s.mem c = none → a c = none
  same : ∀ c, s.mem c = a c ∨ ∃ t k p todo, s.thr t = .inside k p todo ∧ k.cell = c ∧ k.op.writes = true
  will : ∀ t c p todo, s.thr t = .inside c p todo → Means exact (a c.cell) c.op (p.run (s.mem c.cell)).1 (p.run (s.mem c.cell)).2
  reads : ∀ t c p todo, s.thr t = .inside c p todo → c.op.writes = false → p.Reads
  bare : ∀ t c todo, s.thr t = .check c todo → c.op = .bareCopy
  tame : exact → ∀ t, (s.thr t).Tame
  saw : exact → ∀ t x, (s.thr t).SawMap x → s.mem x ≠ none

theorem range_run (k : List (Str × Val) → Acc) (m : GoMap Val) : (range k).run m = (k m.entries).run m := by
  simp only [range, Acc.run, if_true]

theorem body_means (exact : Prop) (op : Op) (m : GoMap Val) (h : exact → op = .bareCopy → m ≠ none) : Means exact m op ((body op).run m).1 ((body op).run m).2 := by
  cases op with
  | bareCopy =>
    rw [body, range_run]
    refine ⟨?_, rfl⟩
    cases m with
    | none => exact Or.inr ⟨fun e => h e rfl rfl, rfl, rfl⟩
    | some l => exact Or.inl rfl
  | copy =>
    rw [body]
    cases m with
    | none => exact ⟨rfl, rfl⟩
    | some l =>
      show Means exact _ _ ((range fun l => .ret (.map (some l))).run (some l)).1 ((range fun l => .ret (.map (some l))).run (some l)).2
      rw [range_run]; exact ⟨rfl, rfl⟩
  | has k => exact ⟨rfl, rfl⟩
  | isEmpty => exact ⟨rfl, rfl⟩
  | add k v => cases m <;> exact ⟨rfl, rfl⟩
  | insert k v =>
    rw [body, Acc.run]
    cases hg : m.get k with
    | some x => exact Or.inl ⟨rfl, by rw [hg]; simp, rfl⟩
    | none => cases m <;> exact Or.inr ⟨rfl, hg, rfl⟩
  | drop k =>
    rw [body, Acc.run]
    cases hg : m.get k with
    | some x => exact Or.inr ⟨rfl, by rw [hg]; simp, rfl⟩
    | none => exact Or.inl ⟨rfl, hg, rfl⟩
  | set v => exact ⟨rfl, rfl⟩

theorem range_reads {k : List (Str × Val) → Acc} (h : ∀ l, (k l).Reads) : (range k).Reads := by
  intro m m'
  show Acc.Reads (if m'.entries = m.entries then k m.entries else .ret .crash)
  split
  · exact h _
  · trivial

theorem body_reads {op : Op} (h : op.writes = false) : (body op).Reads := by
  cases op with
  | bareCopy => exact range_reads (k := fun l => .ret (.map (some l))) fun _ => trivial
  | copy =>
    intro m
    cases m with
    | none => trivial
    | some l => exact range_reads fun _ => trivial
  | has k => exact fun _ => trivial
  | isEmpty => exact fun _ => trivial
  | add k v => cases h
  | insert k v => cases h
  | drop k => cases h
  | set v => cases h

theorem range_keeps {k : List (Str × Val) → Acc} (h : ∀ l, (k l).Keeps) : (range k).Keeps := by
  intro m m'
  show Acc.Keeps (if m'.entries = m.entries then k m.entries else .ret .crash)
  split
  · exact h _
  · trivial

theorem assign_keeps (k : Str) (v : Val) (a : Ans) : (assign k v a).Keeps := by
  intro m
  cases m with
  | none => trivial
  | some l => exact fun _ _ => nofun

theorem body_keeps {op : Op} (h : op ≠ .set none) : (body op).Keeps := by
  cases op with
  | bareCopy => exact range_keeps (k := fun l => .ret (.map (some l))) fun _ => trivial
  | copy =>
    intro m
    cases m with
    | none => trivial
    | some l => exact range_keeps fun _ => trivial
  | has k => exact fun _ => trivial
  | isEmpty => exact fun _ => trivial
  | add k v =>
    intro m
    cases m <;> exact assign_keeps _ _ _
  | insert k v =>
    intro m
    show Acc.Keeps (match m.get k with
      | some _ => .ret (.bool false)
      | none => .read fun m => match m with
        | none => .make (assign k v (.bool true))
        | some _ => assign k v (.bool true))
    split
    · trivial
    · intro m
      cases m <;> exact assign_keeps _ _ _
  | drop k =>
    intro m
    show Acc.Keeps (match m.get k with
      | none => .ret (.bool false)
      | some _ => .write (fun m => m.delete k) (.bool true))
    split
    · trivial
    · intro m hm
      cases m with
      | none => exact absurd rfl hm
      | some l => exact nofun
  | set v => exact fun _ _ e => h (congrArg Op.set e)

section
variable {exact : Prop} {m0 a : Cell → GoMap Val} {s : Sys} {es : List (Ev Ans Call)} {t : Nat}

/-- A step that leaves the maps alone, and in which nothing happens. -/
theorem inv_quiet (h : Inv exact m0 s es a) {y : Thread} {e : List (Ev Ans Call)} (hp : Proper t (es ++ e) y.stage) (hwho : ∀ x ∈ e, x.who = t) (hseen : ∀ x ∈ e, x.seen = true)
    (hone : e = [] ∨ ∃ x, e = [x])
    (hheld : ∀ c w, y.held = some (c, w) → (s.thr t).held = some (c, w) ∨ s.Free t c w)
    (hin : ∀ c p todo, y = .inside c p todo → Means exact (a c.cell) c.op (p.run (s.mem c.cell)).1 (p.run (s.mem c.cell)).2 ∧ (c.op.writes = false → p.Reads))
    (hout : ∀ c p todo, s.thr t = .inside c p todo → ∃ p', y = .inside c p' todo)
    (hb : ∀ c todo, y = .check c todo → c.op = .bareCopy) (ht : exact → y.Tame) (hs : exact → ∀ x, y.SawMap x → s.mem x ≠ none) : Inv exact m0 (s.set t y) (es ++ e) a := by
  have hother : ∀ k, k ≠ t → ∀ st, Proper k es st → Proper k (es ++ e) st := by
    intro k hk st hq
    rcases hone with rfl | ⟨x, rfl⟩
    · rw [List.append_nil]; exact hq
    · exact .other hq (by rw [hwho x (by simp)]; exact fun e => hk e.symm)
  constructor
  · rcases hone with rfl | ⟨x, rfl⟩
    · rw [List.append_nil]; exact h.replay
    · exact .seen h.replay (hseen x (by simp))
  · intro k
    by_cases hk : k = t
    · subst hk; rw [set_at]; exact hp
    · rw [set_other _ _ hk]; exact hother k hk _ (h.proper k)
  · intro k k' c w w' hne h1 h2
    by_cases e1 : k = t
    · subst e1
      rw [set_at] at h1
      rw [set_other _ _ (fun e => hne e.symm)] at h2
      rcases hheld c w h1 with h1 | h1
      · exact h.apart k k' c w w' hne h1 h2
      · exact h1 k' w' (fun e => hne e.symm) h2
    · rw [set_other _ _ e1] at h1
      by_cases e2 : k' = t
      · subst e2
        rw [set_at] at h2
        rcases hheld c w' h2 with h2 | h2
        · exact h.apart k k' c w w' hne h1 h2
        · exact (h2 k w hne h1).symm
      · rw [set_other _ _ e2] at h2
        exact h.apart k k' c w w' hne h1 h2
  · exact h.nil
  · intro c
    rcases h.same c with h1 | ⟨k, c', p, todo, h1, h2, h3⟩
    · exact Or.inl h1
    · by_cases hk : k = t
      · subst hk
        obtain ⟨p', hy⟩ := hout _ _ _ h1
        exact Or.inr ⟨k, c', p', todo, by rw [set_at]; exact hy, h2, h3⟩
      · exact Or.inr ⟨k, c', p, todo, by rw [set_other _ _ hk]; exact h1, h2, h3⟩
  · intro k c p todo h1
    by_cases hk : k = t
    · subst hk; rw [set_at] at h1; exact (hin c p todo h1).1
    · rw [set_other _ _ hk] at h1; exact h.will k c p todo h1
  · intro k c p todo h1
    by_cases hk : k = t
    · subst hk; rw [set_at] at h1; exact (hin c p todo h1).2
    · rw [set_other _ _ hk] at h1; exact h.reads k c p todo h1
  · intro k c todo h1
    by_cases hk : k = t
    · subst hk; rw [set_at] at h1; exact hb c todo h1
    · rw [set_other _ _ hk] at h1; exact h.bare k c todo h1
  · intro hx k
    by_cases hk : k = t
    · subst hk; rw [set_at]; exact ht hx
    · rw [set_other _ _ hk]; exact h.tame hx k
  · intro hx k x h1
    by_cases hk : k = t
    · subst hk; rw [set_at] at h1; exact hs hx x h1
    · rw [set_other _ _ hk] at h1; exact h.saw hx k x h1

/-- No writer is inside if `t` has the lock for reading. -/
theorem no_writer (h : Inv exact m0 s es a) {c : Cell} (hf : ∀ k w, (s.thr k).held = some (c, w) → w = false) : s.mem c = a c := by
  rcases h.same c with h1 | ⟨k, c', p, todo, h1, rfl, h3⟩
  · exact h1
  · have := hf k true (by rw [h1, ← h3]; rfl)
    cases this

/-- A call happens while it has its lock. -/
theorem inv_happens (h : Inv exact m0 s es a) {c : Call} {p : Acc} {todo : List Call} (hi : s.thr t = .inside c p todo) {ans : Ans} {v : GoMap Val} (hr : p.run (s.mem c.cell) = (ans, v))
    (hv : c.op.writes = true ∨ v = s.mem c.cell) (hk : exact → s.mem c.cell ≠ none → v ≠ none) :
    Inv exact m0 { s.set t (.leave c ans todo) with mem := put s.mem c.cell v } (es ++ [.lin t c ans]) (put a c.cell v) := by
  have hwill := h.will t c p todo hi
  rw [hr] at hwill
  have hheld : (s.thr t).held = some (c.cell, c.op.writes) := by rw [hi]; rfl
  -- others inside the same map are readers, and so is `t`
  have halone : ∀ k c' p' todo', k ≠ t → s.thr k = .inside c' p' todo' → c'.cell = c.cell → v = s.mem c.cell ∧ v = a c.cell ∧ c'.op.writes = false := by
    intro k c' p' todo' hne h1 h2
    obtain ⟨e1, e2⟩ := h.apart t k c.cell c.op.writes c'.op.writes (fun e => hne e.symm) hheld (by rw [h1, ← h2]; rfl)
    have e3 : v = s.mem c.cell := by
      rcases hv with hv | hv
      · rw [e1] at hv; cases hv
      · exact hv
    refine ⟨e3, ?_, e2⟩
    rw [e3]
    refine no_writer h fun j w hj => ?_
    by_cases hjt : j = t
    · subst hjt; rw [hheld] at hj; cases hj; exact e1
    · exact (h.apart t j c.cell _ w (fun e => hjt e.symm) hheld hj).2
  have hrun : ∀ k c' p' todo', k ≠ t → s.thr k = .inside c' p' todo' → put s.mem c.cell v c'.cell = s.mem c'.cell ∧ put a c.cell v c'.cell = a c'.cell := by
    intro k c' p' todo' hne h1
    by_cases e : c'.cell = c.cell
    · obtain ⟨h2, h3, _⟩ := halone k c' p' todo' hne h1 e
      rw [e, put_same, put_same]; exact ⟨h2, h3⟩
    · rw [put_other _ _ e, put_other _ _ e]; exact ⟨rfl, rfl⟩
  constructor
  · refine .lin h.replay ⟨?_, fun x hx => put_other _ _ hx⟩
    rw [put_same]; exact hwill
  · intro k
    by_cases hk : k = t
    · subst hk
      show Proper k _ ((s.set k _).thr k).stage
      rw [set_at]
      have := h.proper k
      rw [hi] at this
      exact .lin this
    · show Proper k _ ((s.set t _).thr k).stage
      rw [set_other _ _ hk]
      exact .other (h.proper k) (fun e => hk e.symm)
  · intro k k' x w w' hne h1 h2
    have hh : ∀ j, ((s.set t (.leave c ans todo)).thr j).held = (s.thr j).held := by
      intro j
      by_cases hj : j = t
      · subst hj; rw [set_at, hheld]; rfl
      · rw [set_other _ _ hj]
    exact h.apart k k' x w w' hne (by rw [← hh]; exact h1) (by rw [← hh]; exact h2)
  · intro x hx
    by_cases e : x = c.cell
    · subst e
      show put a c.cell v c.cell = none
      rw [put_same]
      have : put s.mem c.cell v c.cell = none := hx
      rwa [put_same] at this
    · show put a c.cell v x = none
      rw [put_other _ _ e]
      have : put s.mem c.cell v x = none := hx
      rw [put_other _ _ e] at this
      exact h.nil x this
  · intro x
    by_cases e : x = c.cell
    · subst e
      refine Or.inl ?_
      show put s.mem c.cell v c.cell = put a c.cell v c.cell
      rw [put_same, put_same]
    · rcases h.same x with h1 | ⟨k, c', p', todo', h1, h2, h3⟩
      · refine Or.inl ?_
        show put s.mem c.cell v x = put a c.cell v x
        rw [put_other _ _ e, put_other _ _ e]; exact h1
      · have hk : k ≠ t := by
          rintro rfl
          rw [hi] at h1
          cases h1
          exact e h2.symm
        refine Or.inr ⟨k, c', p', todo', ?_, h2, h3⟩
        show (s.set t _).thr k = _
        rw [set_other _ _ hk]; exact h1
  · intro k c' p' todo' h1
    have h1 : (s.set t (.leave c ans todo)).thr k = .inside c' p' todo' := h1
    by_cases hk : k = t
    · subst hk; rw [set_at] at h1; cases h1
    · rw [set_other _ _ hk] at h1
      obtain ⟨e1, e2⟩ := hrun k c' p' todo' hk h1
      show Means exact (put a c.cell v c'.cell) c'.op (p'.run (put s.mem c.cell v c'.cell)).1 (p'.run (put s.mem c.cell v c'.cell)).2
      rw [e1, e2]
      exact h.will k c' p' todo' h1
  · intro k c' p' todo' h1
    have h1 : (s.set t (.leave c ans todo)).thr k = .inside c' p' todo' := h1
    by_cases hk : k = t
    · subst hk; rw [set_at] at h1; cases h1
    · rw [set_other _ _ hk] at h1; exact h.reads k c' p' todo' h1
  · intro k c' todo' h1
    have h1 : (s.set t (.leave c ans todo)).thr k = .check c' todo' := h1
    by_cases hk : k = t
    · subst hk; rw [set_at] at h1; cases h1
    · rw [set_other _ _ hk] at h1; exact h.bare k c' todo' h1
  · intro hx k
    show ((s.set t _).thr k).Tame
    by_cases hk : k = t
    · subst hk
      rw [set_at]
      have := h.tame hx k
      rw [hi] at this
      exact this.2
    · rw [set_other _ _ hk]; exact h.tame hx k
  · intro hx k x h1
    have h1 : ((s.set t (.leave c ans todo)).thr k).SawMap x := h1
    by_cases hk' : k = t
    · subst hk'; rw [set_at] at h1; exact h1.elim
    · rw [set_other _ _ hk'] at h1
      have h2 := h.saw hx k x h1
      show put s.mem c.cell v x ≠ none
      by_cases e : x = c.cell
      · subst e; rw [put_same]; exact hk hx h2
      · rw [put_other _ _ e]; exact h2

/-- The map is made. -/
theorem inv_make (h : Inv exact m0 s es a) {c : Call} {p : Acc} {todo : List Call} (hi : s.thr t = .inside c (.make p) todo) :
    Inv exact m0 { s.set t (.inside c p todo) with mem := put s.mem c.cell (s.mem c.cell).ensure } es a := by
  have hw : c.op.writes = true := by
    cases hw : c.op.writes with
    | true => rfl
    | false => exact (h.reads t c _ todo hi hw).elim
  have hheld : (s.thr t).held = some (c.cell, true) := by rw [hi, ← hw]; rfl
  have hne : ∀ k c' p' todo', k ≠ t → s.thr k = .inside c' p' todo' → c'.cell ≠ c.cell := by
    intro k c' p' todo' hk h1 e
    have := (h.apart t k c.cell true c'.op.writes (fun e => hk e.symm) hheld (by rw [h1, ← e]; rfl)).1
    cases this
  have hh : ∀ j, ((s.set t (.inside c p todo)).thr j).held = (s.thr j).held := by
    intro j
    by_cases hj : j = t
    · subst hj; rw [set_at, hheld, ← hw]; rfl
    · rw [set_other _ _ hj]
  constructor
  · exact h.replay
  · intro k
    show Proper k es ((s.set t _).thr k).stage
    by_cases hk : k = t
    · subst hk
      rw [set_at]
      have := h.proper k
      rw [hi] at this
      exact this
    · rw [set_other _ _ hk]; exact h.proper k
  · intro k k' x w w' hne h1 h2
    exact h.apart k k' x w w' hne (by rw [← hh]; exact h1) (by rw [← hh]; exact h2)
  · intro x hx
    have hx : put s.mem c.cell (s.mem c.cell).ensure x = none := hx
    by_cases e : x = c.cell
    · subst e; rw [put_same] at hx; cases hx
    · rw [put_other _ _ e] at hx; exact h.nil x hx
  · intro x
    by_cases e : x = c.cell
    · exact Or.inr ⟨t, c, p, todo, set_at _ _ _, e.symm, hw⟩
    · rcases h.same x with h1 | ⟨k, c', p', todo', h1, h2, h3⟩
      · refine Or.inl ?_
        show put s.mem c.cell _ x = _
        rw [put_other _ _ e]; exact h1
      · have hk : k ≠ t := by
          rintro rfl
          rw [hi] at h1
          cases h1
          exact e h2.symm
        refine Or.inr ⟨k, c', p', todo', ?_, h2, h3⟩
        show (s.set t _).thr k = _
        rw [set_other _ _ hk]; exact h1
  · intro k c' p' todo' h1
    have h1 : (s.set t (.inside c p todo)).thr k = .inside c' p' todo' := h1
    show Means exact (a c'.cell) c'.op (p'.run (put s.mem c.cell _ c'.cell)).1 (p'.run (put s.mem c.cell _ c'.cell)).2
    by_cases hk : k = t
    · subst hk
      rw [set_at] at h1
      cases h1
      rw [put_same]
      exact h.will k c _ todo hi
    · rw [set_other _ _ hk] at h1
      rw [put_other _ _ (hne k c' p' todo' hk h1)]
      exact h.will k c' p' todo' h1
  · intro k c' p' todo' h1 h2
    have h1 : (s.set t (.inside c p todo)).thr k = .inside c' p' todo' := h1
    by_cases hk : k = t
    · subst hk; rw [set_at] at h1; cases h1; rw [hw] at h2; cases h2
    · rw [set_other _ _ hk] at h1; exact h.reads k c' p' todo' h1 h2
  · intro k c' todo' h1
    have h1 : (s.set t (.inside c p todo)).thr k = .check c' todo' := h1
    by_cases hk : k = t
    · subst hk; rw [set_at] at h1; cases h1
    · rw [set_other _ _ hk] at h1; exact h.bare k c' todo' h1
  · intro hx k
    show ((s.set t _).thr k).Tame
    by_cases hk : k = t
    · subst hk
      rw [set_at]
      have := h.tame hx k
      rw [hi] at this
      exact this
    · rw [set_other _ _ hk]; exact h.tame hx k
  · intro hx k x h1
    have h1 : ((s.set t (.inside c p todo)).thr k).SawMap x := h1
    by_cases hk' : k = t
    · subst hk'; rw [set_at] at h1; exact h1.elim
    · rw [set_other _ _ hk'] at h1
      show put s.mem c.cell _ x ≠ none
      by_cases e : x = c.cell
      · subst e; rw [put_same]; exact nofun
      · rw [put_other _ _ e]; exact h.saw hx k x h1

end

/-- One step. -/
theorem inv_step {exact : Prop} {m0 a : Cell → GoMap Val} {s s' : Sys} {es v : List (Ev Ans Call)} (h : Inv exact m0 s es a) (hs : Step s v s') :
    ∃ e a', Inv exact m0 s' (es ++ e) a' ∧ e.filter Ev.seen = v := by
  cases hs with
  | @invoke t c todo h1 h2 =>
    have hp := h.proper t
    rw [h1] at hp
    refine ⟨[.inv t c], a, inv_quiet h (.inv hp) (by simp [Ev.who]) (by simp [Ev.seen]) (Or.inr ⟨_, rfl⟩) nofun nofun (by rw [h1]; nofun) nofun ?_ ?_, rfl⟩
    · intro hx
      have := h.tame hx t
      rw [h1] at this
      exact ⟨this c (by simp), fun c' hc' => this c' (by simp [hc'])⟩
    · exact fun _ x hx => absurd hx.1 h2
  | @invokeBare t c todo h1 h2 =>
    have hp := h.proper t
    rw [h1] at hp
    refine ⟨[.inv t c], a, inv_quiet h (.inv hp) (by simp [Ev.who]) (by simp [Ev.seen]) (Or.inr ⟨_, rfl⟩) nofun nofun (by rw [h1]; nofun) (by rintro _ _ ⟨⟩; exact h2) ?_ nofun, rfl⟩
    intro hx
    have := h.tame hx t
    rw [h1] at this
    exact ⟨h2, fun c' hc' => this c' (by simp [hc'])⟩
  | @isNil t c todo h1 h2 =>
    have hp := h.proper t
    rw [h1] at hp
    have hb := h.bare t c todo h1
    have hn := h.nil _ h2
    -- the call happens now, then a quiet step
    have hI : Inv exact m0 s es a := h
    refine ⟨[.lin t c (.map none)], a, ?_, rfl⟩
    have hr : Replay (Does exact) m0 (es ++ [.lin t c (.map none)]) a :=
      .lin h.replay ⟨by rw [hb]; exact ⟨Or.inl (by rw [hn]), rfl⟩, fun _ _ => rfl⟩
    constructor
    · exact hr
    · intro k
      by_cases hk : k = t
      · subst hk; rw [set_at]; exact .lin hp
      · rw [set_other _ _ hk]; exact .other (h.proper k) (fun e => hk e.symm)
    · intro k k' x w w' hne e1 e2
      have hh : ∀ j, ((s.set t (.back (.map none) todo)).thr j).held = (s.thr j).held := by
        intro j
        by_cases hj : j = t
        · subst hj; rw [set_at, h1]; rfl
        · rw [set_other _ _ hj]
      exact h.apart k k' x w w' hne (by rw [← hh]; exact e1) (by rw [← hh]; exact e2)
    · exact h.nil
    · intro x
      rcases h.same x with e1 | ⟨k, c', p', todo', e1, e2, e3⟩
      · exact Or.inl e1
      · refine Or.inr ⟨k, c', p', todo', ?_, e2, e3⟩
        rw [set_other _ _ (by rintro rfl; rw [h1] at e1; cases e1)]; exact e1
    · intro k c' p' todo' e1
      by_cases hk : k = t
      · subst hk; rw [set_at] at e1; cases e1
      · rw [set_other _ _ hk] at e1; exact h.will k c' p' todo' e1
    · intro k c' p' todo' e1
      by_cases hk : k = t
      · subst hk; rw [set_at] at e1; cases e1
      · rw [set_other _ _ hk] at e1; exact h.reads k c' p' todo' e1
    · intro k c' todo' e1
      by_cases hk : k = t
      · subst hk; rw [set_at] at e1; cases e1
      · rw [set_other _ _ hk] at e1; exact h.bare k c' todo' e1
    · intro hx k
      by_cases hk : k = t
      · subst hk
        rw [set_at]
        have := h.tame hx k
        rw [h1] at this
        exact this.2
      · rw [set_other _ _ hk]; exact h.tame hx k
    · intro hx k x e1
      by_cases hk : k = t
      · subst hk; rw [set_at] at e1; exact e1.elim
      · rw [set_other _ _ hk] at e1; exact h.saw hx k x e1
  | @isMap t c todo h1 h2 =>
    have hp := h.proper t
    rw [h1] at hp
    have hb := h.bare t c todo h1
    refine ⟨[], a, inv_quiet h (by rw [List.append_nil]; exact hp) (by simp) (by simp) (Or.inl rfl) nofun nofun (by rw [h1]; nofun) nofun ?_ ?_, rfl⟩
    · intro hx
      have := h.tame hx t
      rw [h1] at this
      exact ⟨by rw [hb]; exact nofun, this.2⟩
    · rintro _ x ⟨_, rfl⟩; exact h2
  | @lock t c todo h1 h2 =>
    have hp := h.proper t
    rw [h1] at hp
    refine ⟨[], a, inv_quiet h (by rw [List.append_nil]; exact hp) (by simp) (by simp) (Or.inl rfl) ?_ ?_ (by rw [h1]; nofun) nofun ?_ nofun, rfl⟩
    · rintro x w ⟨⟩; exact Or.inr h2
    · rintro c' p' todo' ⟨⟩
      refine ⟨?_, body_reads⟩
      have hm : s.mem c.cell = a c.cell := by
        rcases h.same c.cell with e | ⟨k, c', p, todo', e1, e2, e3⟩
        · exact e
        · have := (h2 k true (by rintro rfl; rw [h1] at e1; cases e1) (by rw [e1, ← e2, ← e3]; rfl)).2
          cases this
      rw [hm]
      refine body_means _ _ _ fun hx hb => ?_
      rw [← hm]
      exact h.saw hx t c.cell (by rw [h1]; exact ⟨hb, rfl⟩)
    · intro hx
      have := h.tame hx t
      rw [h1] at this
      exact ⟨body_keeps this.1, this.2⟩
  | @read t c k todo h1 =>
    have hp := h.proper t
    rw [h1] at hp
    refine ⟨[], a, inv_quiet h (by rw [List.append_nil]; exact hp) (by simp) (by simp) (Or.inl rfl) ?_ ?_ ?_ nofun ?_ nofun, rfl⟩
    · rintro x w ⟨⟩; exact Or.inl (by rw [h1]; rfl)
    · rintro c' p' todo' ⟨⟩
      exact ⟨h.will t c (.read k) todo h1, fun hw => h.reads t c _ todo h1 hw _⟩
    · rw [h1]; rintro c' p' todo' ⟨⟩; exact ⟨_, rfl⟩
    · intro hx
      have := h.tame hx t
      rw [h1] at this
      exact ⟨this.1 _, this.2⟩
  | @make t c p todo h1 => exact ⟨[], a, by rw [List.append_nil]; exact inv_make h h1, rfl⟩
  | @write t c f r todo h1 =>
    refine ⟨[.lin t c r], _, inv_happens h h1 (v := f (s.mem c.cell)) rfl (Or.inl ?_) ?_, rfl⟩
    · cases hw : c.op.writes with
      | true => rfl
      | false => exact (h.reads t c _ todo h1 hw).elim
    · intro hx hne
      have := h.tame hx t
      rw [h1] at this
      exact this.1 _ hne
  | @finish t c r todo h1 =>
    refine ⟨[.lin t c r], put a c.cell (s.mem c.cell), ?_, rfl⟩
    have := inv_happens h h1 (ans := r) (v := s.mem c.cell) rfl (Or.inr rfl) fun _ h => h
    have e : put s.mem c.cell (s.mem c.cell) = s.mem := by
      funext x
      by_cases e : x = c.cell
      · subst e; exact put_same _ _ _
      · exact put_other _ _ e
    rw [e] at this
    exact this
  | @unlock t c r todo h1 =>
    have hp := h.proper t
    rw [h1] at hp
    refine ⟨[], a, inv_quiet h (by rw [List.append_nil]; exact hp) (by simp) (by simp) (Or.inl rfl) nofun nofun (by rw [h1]; nofun) nofun ?_ nofun, rfl⟩
    intro hx
    have := h.tame hx t
    rw [h1] at this
    exact this
  | @reply t r todo h1 =>
    have hp := h.proper t
    rw [h1] at hp
    refine ⟨[.res t r], a, inv_quiet h (.res hp) (by simp [Ev.who]) (by simp [Ev.seen]) (Or.inr ⟨_, rfl⟩) nofun nofun (by rw [h1]; nofun) nofun ?_ nofun, rfl⟩
    intro hx
    have := h.tame hx t
    rw [h1] at this
    exact this

theorem inv_start {exact : Prop} {m : Cell → GoMap Val} {todo : Nat → List Call} (h : exact → ∀ t, ∀ c ∈ todo t, c.op ≠ .set none) :
    Inv exact m (start m todo) [] m :=
  ⟨.nil, fun _ => .nil, nofun, fun _ h => h, fun _ => Or.inl rfl, nofun, nofun, nofun, h, nofun⟩

theorem inv_steps {exact : Prop} {m : Cell → GoMap Val} {todo : Nat → List Call} (h : exact → ∀ t, ∀ c ∈ todo t, c.op ≠ .set none) {v : List (Ev Ans Call)} {z : Sys}
    (hs : Steps (start m todo) v z) : ∃ es a, Inv exact m z es a ∧ es.filter Ev.seen = v := by
  generalize he : start m todo = s0 at hs
  induction hs with
  | refl => subst he; exact ⟨[], m, inv_start h, rfl⟩
  | step _ h2 ih =>
    obtain ⟨es, a, h3, h4⟩ := ih
    obtain ⟨e, a', h5, h6⟩ := inv_step h3 h2
    exact ⟨es ++ e, a', h5, by rw [List.filter_append, h4, h6]⟩

/-- All goroutines are between calls. -/
def Quiet (z : Sys) : Prop := ∀ t, ∃ todo, z.thr t = .idle todo

theorem linearizes_of_inv {exact : Prop} {m a : Cell → GoMap Val} {z : Sys} {es : List (Ev Ans Call)} (h : Inv exact m z es a) :
    Linearizes (Does exact) m (es.filter Ev.seen) a ∧ (Quiet z → a = z.mem) := by
  refine ⟨⟨es, rfl, fun t => ⟨_, h.proper t⟩, h.replay⟩, fun hq => ?_⟩
  funext c
  rcases h.same c with h1 | ⟨t, k, p, todo, h1, _⟩
  · exact h1.symm
  · obtain ⟨todo', h2⟩ := hq t
    rw [h2] at h1
    cases h1

/-- The methods of nodes that concern children, annotations and data, called by any number of goroutines in any order on any nodes: unless
somebody sets the annotations or data to nil, every call appears to happen at one moment between call and return, with the answer and
the effect that it has alone. Missing: `SetAnnotations(nil)` and `SetData(nil)`, for which the claim does not hold, see
`C105_violated_nil` and `C105_linearizable_nil`. For `Parent` and `SetParent` see `C105_parent_partial`. -/
theorem C105_linearizable_partial (m : Cell → GoMap Val) (todo : Nat → List Call) (hn : ∀ t, ∀ c ∈ todo t, c.op ≠ .set none) {v : List (Ev Ans Call)} {z : Sys}
    (h : Steps (start m todo) v z) : ∃ m', Linearizes (Does True) m v m' ∧ (Quiet z → m' = z.mem) := by
  obtain ⟨es, a, h1, rfl⟩ := inv_steps (exact := True) (fun _ => hn) h
  exact ⟨a, linearizes_of_inv h1⟩

/-- With any calls the same holds, but `Annotations` and `Data` may return an empty map for nil. -/
theorem C105_linearizable_nil (m : Cell → GoMap Val) (todo : Nat → List Call) {v : List (Ev Ans Call)} {z : Sys}
    (h : Steps (start m todo) v z) : ∃ m', Linearizes (Does False) m v m' ∧ (Quiet z → m' = z.mem) := by
  obtain ⟨es, a, h1, rfl⟩ := inv_steps (exact := False) nofun h
  exact ⟨a, linearizes_of_inv h1⟩

/-- Who returns, returns what the call gave when it happened; and calls happen after they are made. -/
theorem proper_lin {R C : Type} {t : Nat} {es : List (Ev R C)} {st : Stage R C} (h : Proper t es st) :
    (∀ r, st = .happened r → ∃ c, .lin t c r ∈ es) ∧ (∀ c, st = .called c → .inv t c ∈ es) ∧
    (∀ r, .res t r ∈ es → ∃ c, .lin t c r ∈ es) ∧ ∀ c r, .lin t c r ∈ es → .inv t c ∈ es := by
  induction h with
  | nil => exact ⟨nofun, nofun, nofun, nofun⟩
  | @other es st e _ hw ih =>
    obtain ⟨h1, h2, h3, h4⟩ := ih
    refine ⟨fun r hr => ?_, fun c hc => ?_, fun r hr => ?_, fun c r hc => ?_⟩
    · obtain ⟨c, hc⟩ := h1 r hr; exact ⟨c, by simp [hc]⟩
    · simp [h2 c hc]
    · rcases List.mem_append.1 hr with hr | hr
      · obtain ⟨c, hc⟩ := h3 r hr; exact ⟨c, by simp [hc]⟩
      · rw [← List.mem_singleton.1 hr] at hw; exact absurd rfl hw
    · rcases List.mem_append.1 hc with hc | hc
      · simp [h4 c r hc]
      · rw [← List.mem_singleton.1 hc] at hw; exact absurd rfl hw
  | @inv es c _ ih =>
    obtain ⟨h1, h2, h3, h4⟩ := ih
    refine ⟨nofun, by rintro c ⟨⟩; simp, fun r hr => ?_, fun c r hc => ?_⟩
    · obtain ⟨c, hc⟩ := h3 r (by simpa using hr); exact ⟨c, by simp [hc]⟩
    · simp [h4 c r (by simpa using hc)]
  | @lin es c r _ ih =>
    obtain ⟨h1, h2, h3, h4⟩ := ih
    refine ⟨by rintro r ⟨⟩; exact ⟨c, by simp⟩, nofun, fun r hr => ?_, fun c' r' hc => ?_⟩
    · obtain ⟨c, hc⟩ := h3 r (by simpa using hr); exact ⟨c, by simp [hc]⟩
    · rcases List.mem_append.1 hc with hc | hc
      · simp [h4 c' r' hc]
      · cases List.mem_singleton.1 hc
        simp [h2 c rfl]
  | @res es r _ ih =>
    obtain ⟨h1, h2, h3, h4⟩ := ih
    refine ⟨nofun, nofun, fun r' hr => ?_, fun c r' hc => ?_⟩
    · rcases List.mem_append.1 hr with hr | hr
      · obtain ⟨c, hc⟩ := h3 r' hr; exact ⟨c, by simp [hc]⟩
      · cases List.mem_singleton.1 hr
        obtain ⟨c, hc⟩ := h1 r rfl; exact ⟨c, by simp [hc]⟩
    · simp [h4 c r' (by simpa using hc)]

theorem replay_lin {S R C : Type} {does : C → S → R → S → Prop} {s s' : S} {es : List (Ev R C)} (h : Replay does s es s') {t : Nat} {c : C} {r : R} (hm : .lin t c r ∈ es) :
    ∃ s1 s2, does c s1 r s2 := by
  induction h with
  | nil => cases hm
  | seen _ hs ih =>
    rcases List.mem_append.1 hm with hm | hm
    · exact ih hm
    · rw [← List.mem_singleton.1 hm] at hs; cases hs
  | lin _ hd ih =>
    rcases List.mem_append.1 hm with hm | hm
    · exact ih hm
    · cases List.mem_singleton.1 hm
      exact ⟨_, _, hd⟩

/-- No call assigns to a nil map or finds a map written while it copies it, which would end the process, whatever is called. -/
theorem C105_no_crash (m : Cell → GoMap Val) (todo : Nat → List Call) {v : List (Ev Ans Call)} {z : Sys} (h : Steps (start m todo) v z) (t : Nat) :
    .res t .crash ∉ v ∧ ∀ c p rest, z.thr t ≠ .leave c .crash rest ∧ z.thr t ≠ .inside c (.ret .crash) p := by
  obtain ⟨es, a, h1, rfl⟩ := inv_steps (exact := False) nofun h
  have hm : ∀ (op : Op) (x y : GoMap Val), ¬ Means False x op .crash y := by
    intro op x y hd
    cases op <;> simp [Means] at hd
  have hl : ∀ c, .lin t c .crash ∉ es := by
    intro c hc
    obtain ⟨s1, s2, hd, _⟩ := replay_lin h1.replay hc
    exact hm _ _ _ hd
  have hp := proper_lin (h1.proper t)
  refine ⟨fun hr => ?_, fun c p rest => ⟨fun e => ?_, fun e => ?_⟩⟩
  · obtain ⟨c, hc⟩ := hp.2.2.1 _ (List.mem_filter.1 hr).1
    exact hl c hc
  · rw [e] at hp
    obtain ⟨c, hc⟩ := hp.1 _ rfl
    exact hl c hc
  · exact hm _ _ _ (h1.will t _ _ _ e)

/-! ## `SetAnnotations(nil)` -/

/-- The annotations of a node. -/
def annoCell : Cell := (0, .annotations)

/-- One annotation. -/
def oneAnno (k v : Str) : Cell → GoMap Val := put (fun _ => none) annoCell (some [(k, .text v)])

/-- One goroutine calls `Annotations`, another `SetAnnotations(nil)`. -/
def getAndClear : Nat → List Call := fun t => if t = 0 then [⟨annoCell, .bareCopy⟩] else if t = 1 then [⟨annoCell, .set none⟩] else []

theorem replay_two {m m' : Cell → GoMap Val} {es : List (Ev Ans Call)} (h : Replay (Does True) m es m')
    (hc : ∀ t c r, .lin t c r ∈ es → c = ⟨annoCell, .bareCopy⟩ ∨ c = ⟨annoCell, .set none⟩) :
    (m' annoCell = m annoCell ∨ m' annoCell = none) ∧ ∀ t r, .lin t ⟨annoCell, .bareCopy⟩ r ∈ es → r = .map (m annoCell) ∨ r = .map none := by
  induction h with
  | nil => exact ⟨Or.inl rfl, nofun⟩
  | @seen es s' e _ hs ih =>
    obtain ⟨h1, h2⟩ := ih fun t c r hm => hc t c r (by simp [hm])
    refine ⟨h1, fun t r hm => ?_⟩
    rcases List.mem_append.1 hm with hm | hm
    · exact h2 t r hm
    · rw [← List.mem_singleton.1 hm] at hs; cases hs
  | @lin es s1 s2 t c r _ hd ih =>
    obtain ⟨h1, h2⟩ := ih fun t c r hm => hc t c r (by simp [hm])
    rcases hc t c r (by simp) with rfl | rfl
    · obtain ⟨⟨ha | ⟨hx, _⟩, hb⟩, _⟩ := hd
      · refine ⟨by rw [hb]; exact h1, fun t' r' hm => ?_⟩
        rcases List.mem_append.1 hm with hm | hm
        · exact h2 t' r' hm
        · cases List.mem_singleton.1 hm
          rcases h1 with h1 | h1
          · exact Or.inl (by rw [ha, h1])
          · exact Or.inr (by rw [ha, h1])
      · exact absurd trivial hx
    · obtain ⟨⟨_, hb⟩, _⟩ := hd
      refine ⟨Or.inr hb, fun t' r' hm => ?_⟩
      rcases List.mem_append.1 hm with hm | hm
      · exact h2 t' r' hm
      · cases List.mem_singleton.1 hm

/-- `Annotations` beside `SetAnnotations(nil)` can return an empty map that is not nil, although the annotations were a map with an entry at first
and nil then. No order of the two calls explains the answer. -/
theorem C105_violated_nil (k v : Str) :
    let seen : List (Ev Ans Call) := [.inv 0 ⟨annoCell, .bareCopy⟩, .inv 1 ⟨annoCell, .set none⟩, .res 1 .done, .res 0 (.map (some []))]
    (∃ z, Steps (start (oneAnno k v) getAndClear) seen z ∧ Quiet z) ∧ ¬ ∃ m', Linearizes (Does True) (oneAnno k v) seen m' := by
  refine ⟨?_, ?_⟩
  · let s0 := start (oneAnno k v) getAndClear
    let g : Call := ⟨annoCell, .bareCopy⟩
    let c : Call := ⟨annoCell, .set none⟩
    have h1 : Steps s0 ([] ++ [.inv 0 g]) _ := .step .refl (.invokeBare (t := 0) (c := g) (todo := []) rfl rfl)
    have h2 := h1.step (.isMap (t := 0) (c := g) (todo := []) (set_at _ _ _) (by show (oneAnno k v annoCell) ≠ none; rw [oneAnno, put_same]; exact nofun))
    have h3 := h2.step (.invoke (t := 1) (c := c) (todo := []) rfl nofun)
    have h4 := h3.step (.lock (t := 1) (c := c) (todo := []) (set_at _ _ _) (by
      intro t' w' hne hh
      rw [set_other _ _ hne] at hh
      by_cases e : t' = 0
      · subst e; rw [set_at] at hh; cases hh
      · rw [set_other _ _ e, set_other _ _ e] at hh; cases hh))
    have h5 := h4.step (.write (t := 1) (c := c) (f := fun _ => none) (a := .done) (todo := []) (set_at _ _ _))
    have h6 := h5.step (.unlock (t := 1) (c := c) (a := .done) (todo := []) rfl)
    have h7 := h6.step (.reply (t := 1) (a := .done) (todo := []) (set_at _ _ _))
    have h8 := h7.step (.lock (t := 0) (c := g) (todo := []) rfl (by
      intro t' w' hne hh
      by_cases e : t' = 1
      · subst e; cases hh
      · rw [set_other _ _ e, set_other _ _ e] at hh
        change ((((((s0.set 0 (.check g [])).set 0 (.want g [])).set 1 (.want c [])).set 1 (.inside c (body c.op) [])).set 1 (.leave c .done [])).thr t').held = _ at hh
        rw [set_other _ _ e, set_other _ _ e, set_other _ _ e, set_other _ _ hne, set_other _ _ hne] at hh
        cases hh))
    have h9 := h8.step (.read (t := 0) (c := g) (todo := []) (set_at _ _ _))
    have h10 := h9.step (.read (t := 0) (c := g) (todo := []) (set_at _ _ _))
    have h11 := h10.step (.finish (t := 0) (c := g) (a := .map (some [])) (todo := []) rfl)
    have h12 := h11.step (.unlock (t := 0) (c := g) (a := .map (some [])) (todo := []) (set_at _ _ _))
    have h13 := h12.step (.reply (t := 0) (a := .map (some [])) (todo := []) (set_at _ _ _))
    refine ⟨_, h13, fun t => ?_⟩
    by_cases e0 : t = 0
    · subst e0; exact ⟨_, set_at _ _ _⟩
    · rw [set_other _ _ e0]
      by_cases e1 : t = 1
      · subst e1; exact ⟨[], rfl⟩
      · refine ⟨[], ?_⟩
        rw [set_other _ _ e0, set_other _ _ e0, set_other _ _ e0, set_other _ _ e0, set_other _ _ e0, set_other _ _ e1, set_other _ _ e1]
        show ((((((s0.set 0 (.check g [])).set 0 (.want g [])).set 1 (.want c [])).set 1 (.inside c (body c.op) [])).set 1 (.leave c .done [])).thr t) = _
        rw [set_other _ _ e1, set_other _ _ e1, set_other _ _ e1, set_other _ _ e0, set_other _ _ e0]
        show Thread.idle (getAndClear t) = _
        rw [getAndClear, if_neg e0, if_neg e1]
  · rintro ⟨m', es, he, hp, hr⟩
    have hin : ∀ t c r, .lin t c r ∈ es → c = ⟨annoCell, .bareCopy⟩ ∨ c = ⟨annoCell, .set none⟩ := by
      intro t c r hm
      obtain ⟨st, hst⟩ := hp t
      have h1 : Ev.inv t c ∈ es.filter Ev.seen := List.mem_filter.2 ⟨(proper_lin hst).2.2.2 c r hm, rfl⟩
      rw [he] at h1
      simp at h1
      rcases h1 with h1 | h1
      · exact Or.inl h1.2
      · exact Or.inr h1.2
    obtain ⟨st, hst⟩ := hp 0
    have h0 : Ev.res 0 (.map (some [])) ∈ es := by
      have : Ev.res 0 (.map (some [])) ∈ es.filter Ev.seen := by rw [he]; simp
      exact (List.mem_filter.1 this).1
    obtain ⟨c, hc⟩ := (proper_lin hst).2.2.1 _ h0
    have hc0 : c = ⟨annoCell, .bareCopy⟩ := by
      have h1 : Ev.inv 0 c ∈ es.filter Ev.seen := List.mem_filter.2 ⟨(proper_lin hst).2.2.2 c _ hc, rfl⟩
      rw [he] at h1
      simpa using h1
    subst hc0
    rcases (replay_two hr hin).2 0 _ hc with h1 | h1
    · rw [oneAnno, put_same] at h1; simp at h1
    · simp at h1

/-! ## The meaning is that of the tree model -/

/-- A map of the tree model. -/
def tagged {α : Type} (f : α → Val) (m : GoMap α) : GoMap Val := Option.map (List.map fun e => (e.1, f e.2)) m

/-- The maps of a node of the tree model. -/
def maps (o : NodeObj) : Field → GoMap Val
  | .children => tagged .node o.children
  | .annotations => tagged .text o.annotations
  | .data => tagged .bytes o.data

/-- The maps of all nodes of the tree model. -/
def view (s : TS) (c : Cell) : GoMap Val := match s.heap[c.1]? with
  | none => none
  | some o => maps o c.2

theorem al_put_map {α β : Type} (f : α → β) (l : List (Str × α)) (k : Str) (v : α) :
    AL.put (l.map fun e => (e.1, f e.2)) k (f v) = (AL.put l k v).map fun e => (e.1, f e.2) := by
  induction l with
  | nil => rfl
  | cons e l ih =>
    obtain ⟨k', v'⟩ := e
    simp only [List.map_cons, AL.put]
    split <;> simp [ih]

theorem al_del_map {α β : Type} (f : α → β) (l : List (Str × α)) (k : Str) :
    AL.del (l.map fun e => (e.1, f e.2)) k = (AL.del l k).map fun e => (e.1, f e.2) := by
  simp only [AL.del, List.filter_map]
  rfl

theorem tagged_entries {α : Type} (f : α → Val) (m : GoMap α) : (tagged f m).entries = m.entries.map fun e => (e.1, f e.2) := by cases m <;> rfl

theorem tagged_get {α : Type} (f : α → Val) (m : GoMap α) (k : Str) : (tagged f m).get k = (m.get k).map f := by
  rw [GoMap.get, tagged_entries, AL.get_map]; rfl

theorem tagged_put {α : Type} (f : α → Val) (m : GoMap α) (k : Str) (v : α) :
    tagged f (some (AL.put m.entries k v)) = some (AL.put (tagged f m).entries k (f v)) := by
  rw [tagged_entries, al_put_map]; rfl

theorem tagged_delete {α : Type} (f : α → Val) (m : GoMap α) (k : Str) : tagged f (m.delete k) = (tagged f m).delete k := by
  cases m with
  | none => rfl
  | some l => exact congrArg some (al_del_map f l k).symm

theorem tagged_size {α : Type} (f : α → Val) (m : GoMap α) : (tagged f m).size = m.size := by
  rw [GoMap.size, tagged_entries, List.length_map]; rfl

theorem view_at {s : TS} {r : Ref} {o : NodeObj} (h : s.heap[r]? = some o) (f : Field) : view s (r, f) = maps o f := by
  simp only [view, h]

/-- A change of one map of one node. -/
theorem view_set {s : TS} {r : Ref} {o o' : NodeObj} (h : s.heap[r]? = some o) {f : Field} (hf : ∀ g, g ≠ f → maps o' g = maps o g) :
    view { s with heap := s.heap.set r o' } (r, f) = maps o' f ∧ ∀ x, x ≠ (r, f) → view { s with heap := s.heap.set r o' } x = view s x := by
  have hlt : r < s.heap.length := by
    rw [List.getElem?_eq_some_iff] at h; exact h.1
  have hat : ({ s with heap := s.heap.set r o' } : TS).heap[r]? = some o' := by
    simp [hlt]
  refine ⟨view_at hat f, fun x hx => ?_⟩
  obtain ⟨r', g⟩ := x
  by_cases e : r' = r
  · subst e
    rw [view_at hat, view_at h]
    exact hf g fun e => hx (by rw [e])
  · simp only [view]
    rw [List.getElem?_set_ne (fun h => e h.symm)]

/-- What a call means (`Does`) is what the functions of the tree model do, which the other properties are about. -/
theorem C105_alone (s s' : TS) (r c : Ref) (u : UID) (k v : Str) (b : Option Str) (ma : GoMap Str) (md : GoMap (Option Str)) (ok : Bool) :
    (s.addAnnotation r k v = some s' → Does True ⟨(r, .annotations), .add k (.text v)⟩ (view s) .done (view s')) ∧
    (s.setAnnotations r ma = some s' → Does True ⟨(r, .annotations), .set (tagged .text ma)⟩ (view s) .done (view s')) ∧
    (s.addData r k b = some s' → Does True ⟨(r, .data), .add k (.bytes b)⟩ (view s) .done (view s')) ∧
    (s.setData r md = some s' → Does True ⟨(r, .data), .set (tagged .bytes md)⟩ (view s) .done (view s')) ∧
    (s.addChild r c = some (s', ok) → ∀ co, s.heap[c]? = some co → Does True ⟨(r, .children), .insert co.id.hex (.node c)⟩ (view s) (.bool ok) (view s')) ∧
    (s.deleteChild r u = some (s', ok) → Does True ⟨(r, .children), .drop u.hex⟩ (view s) (.bool ok) (view s')) ∧
    (s.hasChild r u = some ok → Does True ⟨(r, .children), .has u.hex⟩ (view s) (.bool ok) (view s)) ∧
    (s.isLeaf r = some ok → Does True ⟨(r, .children), .isEmpty⟩ (view s) (.bool ok) (view s)) := by
  have modify : ∀ {f : NodeObj → NodeObj}, s.modify r f = some s' → ∃ o, s.heap[r]? = some o ∧ s' = { s with heap := s.heap.set r (f o) } := by
    intro f h
    rw [TS.modify] at h
    split at h
    · cases h
    · next o ho => cases h; exact ⟨o, ho, rfl⟩
  refine ⟨fun h => ?_, fun h => ?_, fun h => ?_, fun h => ?_, fun h co hco => ?_, fun h => ?_, fun h => ?_, fun h => ?_⟩
  · obtain ⟨o, ho, rfl⟩ := modify h
    obtain ⟨h1, h2⟩ := view_set (f := .annotations) (o' := { o with annotations := some (AL.put o.annotations.entries k v) }) ho (by intro g hg; cases g <;> first | rfl | exact absurd rfl hg)
    exact ⟨⟨rfl, by rw [h1, view_at ho]; exact tagged_put _ _ _ _⟩, h2⟩
  · obtain ⟨o, ho, rfl⟩ := modify h
    obtain ⟨h1, h2⟩ := view_set (f := .annotations) (o' := { o with annotations := ma }) ho (by intro g hg; cases g <;> first | rfl | exact absurd rfl hg)
    exact ⟨⟨rfl, by rw [h1]; rfl⟩, h2⟩
  · obtain ⟨o, ho, rfl⟩ := modify h
    obtain ⟨h1, h2⟩ := view_set (f := .data) (o' := { o with data := some (AL.put o.data.entries k b) }) ho (by intro g hg; cases g <;> first | rfl | exact absurd rfl hg)
    exact ⟨⟨rfl, by rw [h1, view_at ho]; exact tagged_put _ _ _ _⟩, h2⟩
  · obtain ⟨o, ho, rfl⟩ := modify h
    obtain ⟨h1, h2⟩ := view_set (f := .data) (o' := { o with data := md }) ho (by intro g hg; cases g <;> first | rfl | exact absurd rfl hg)
    exact ⟨⟨rfl, by rw [h1]; rfl⟩, h2⟩
  · rw [TS.addChild, hco] at h
    cases ho : s.heap[r]? with
    | none => rw [ho] at h; cases h
    | some o =>
      rw [ho] at h
      dsimp only at h
      cases hg : o.children.get co.id.hex with
      | some x =>
        rw [hg] at h
        cases h
        refine ⟨Or.inl ⟨rfl, ?_, rfl⟩, fun _ _ => rfl⟩
        rw [view_at ho, maps, tagged_get, hg]; exact nofun
      | none =>
        rw [hg, GoMap.assign_ensure] at h
        cases h
        obtain ⟨h1, h2⟩ := view_set (f := .children) (o' := { o with children := some (AL.put o.children.entries co.id.hex c) }) ho (by intro g hg; cases g <;> first | rfl | exact absurd rfl hg)
        refine ⟨Or.inr ⟨rfl, ?_, ?_⟩, h2⟩
        · rw [view_at ho, maps, tagged_get, hg]; rfl
        · rw [h1, view_at ho]; exact tagged_put _ _ _ _
  · rw [TS.deleteChild] at h
    cases ho : s.heap[r]? with
    | none => rw [ho] at h; cases h
    | some o =>
      rw [ho] at h
      dsimp only at h
      cases hg : o.children.get u.hex with
      | none =>
        rw [hg] at h
        cases h
        refine ⟨Or.inl ⟨rfl, ?_, rfl⟩, fun _ _ => rfl⟩
        rw [view_at ho, maps, tagged_get, hg]; rfl
      | some x =>
        rw [hg] at h
        cases h
        obtain ⟨h1, h2⟩ := view_set (f := .children) (o' := { o with children := o.children.delete u.hex }) ho (by intro g hg; cases g <;> first | rfl | exact absurd rfl hg)
        refine ⟨Or.inr ⟨rfl, ?_, ?_⟩, h2⟩
        · rw [view_at ho, maps, tagged_get, hg]; exact nofun
        · rw [h1, view_at ho]; exact tagged_delete _ _ _
  · rw [TS.hasChild] at h
    cases ho : s.heap[r]? with
    | none => rw [ho] at h; cases h
    | some o =>
      rw [ho] at h
      cases h
      refine ⟨⟨?_, rfl⟩, fun _ _ => rfl⟩
      rw [view_at ho, maps, tagged_get, Option.isSome_map]
  · rw [TS.isLeaf] at h
    cases ho : s.heap[r]? with
    | none => rw [ho] at h; cases h
    | some o =>
      rw [ho] at h
      cases h
      refine ⟨⟨?_, rfl⟩, fun _ _ => rfl⟩
      rw [view_at ho, maps, tagged_size]

/-! ## Not vacuous -/

/-- Two goroutines: one adds an annotation to a node without annotations while the other, which has looked at the nil map, returns. -/
example (k v : Str) : ∃ s z, Steps (start (fun _ => none) fun t => if t = 0 then [⟨annoCell, .add k (.text v)⟩] else if t = 1 then [⟨annoCell, .bareCopy⟩] else []) s z ∧
    s = [.inv 0 ⟨annoCell, .add k (.text v)⟩, .inv 1 ⟨annoCell, .bareCopy⟩, .res 1 (.map none), .res 0 .done] ∧ z.mem annoCell = some [(k, .text v)] := by
  let w : Call := ⟨annoCell, .add k (.text v)⟩
  let g : Call := ⟨annoCell, .bareCopy⟩
  let s0 := start (fun _ => none) fun t => if t = 0 then [w] else if t = 1 then [g] else []
  have h1 : Steps s0 ([] ++ [.inv 0 w]) _ := .step .refl (.invoke (t := 0) (c := w) (todo := []) rfl nofun)
  have h2 := h1.step (.lock (t := 0) (c := w) (todo := []) rfl (by
    intro t' w' hne hh
    rw [set_other _ _ hne] at hh
    cases hh))
  have h3 := h2.step (.read (t := 0) (c := w) (todo := []) (set_at _ _ _))
  have h4 := h3.step (.invokeBare (t := 1) (c := g) (todo := []) rfl rfl)
  have h5 := h4.step (.isNil (t := 1) (c := g) (todo := []) rfl rfl)
  have h6 := h5.step (.make (t := 0) (c := w) (p := assign k (.text v) .done) (todo := []) rfl)
  have h7 := h6.step (.read (t := 0) (c := w) (todo := []) rfl)
  have h8 := h7.step (.reply (t := 1) (a := .map none) (todo := []) rfl)
  have h9 := h8.step (.write (t := 0) (c := w) (f := fun m => some (AL.put m.entries k (.text v))) (a := .done) (todo := []) rfl)
  have h10 := h9.step (.unlock (t := 0) (c := w) (a := .done) (todo := []) rfl)
  have h11 := h10.step (.reply (t := 0) (a := .done) (todo := []) rfl)
  exact ⟨_, _, h11, rfl, rfl⟩

end NodeLock
end Verif
