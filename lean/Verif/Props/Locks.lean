import Verif.Misc.Locks
/-!
# C51: tree operations never deadlock
-/
set_option autoImplicit false
namespace Verif
namespace Locks

/-- The discipline: a lock is taken only while all locks held come earlier in the order, only what is held is released, and at
the end nothing is held. -/
def Ordered : List (Lock × Bool) → List Act → Prop
  | h, [] => h = []
  | h, .lock l :: k => (∀ x ∈ h, x.1.rank < l.rank) ∧ Ordered ((l, true) :: h) k
  | h, .rlock l :: k => (∀ x ∈ h, x.1.rank < l.rank) ∧ Ordered ((l, false) :: h) k
  | h, .unlock l :: k => (l, true) ∈ h ∧ Ordered (h.erase (l, true)) k
  | h, .runlock l :: k => (l, false) ∈ h ∧ Ordered (h.erase (l, false)) k

theorem ordered_append : ∀ {a b : List Act} {h : List (Lock × Bool)}, Ordered h a → Ordered [] b → Ordered h (a ++ b)
  | [], b, h, h1, h2 => by
    have h1 : h = [] := h1
    subst h1
    exact h2
  | .lock l :: a, b, h, h1, h2 => ⟨h1.1, ordered_append h1.2 h2⟩
  | .rlock l :: a, b, h, h1, h2 => ⟨h1.1, ordered_append h1.2 h2⟩
  | .unlock l :: a, b, h, h1, h2 => ⟨h1.1, ordered_append h1.2 h2⟩
  | .runlock l :: a, b, h, h1, h2 => ⟨h1.1, ordered_append h1.2 h2⟩

theorem ordered_visits (ns : List Nat) : ∀ (k : List Act), Ordered [(.nodes, true)] k →
    Ordered [(.nodes, true)] ((ns.flatMap fun n => [Act.rlock (.children n), .runlock (.children n)]) ++ k) := by
  induction ns with
  | nil => exact fun k h => h
  | cons n ns ih =>
    intro k h
    simp only [List.flatMap_cons, List.cons_append, List.nil_append, Ordered]
    refine ⟨by simp [Lock.rank], by simp, ?_⟩
    simpa using ih k h

theorem ordered_call {c : List Act} (h : Call c) : Ordered [] c := by
  cases h with
  | addRoot ns =>
    refine ⟨by simp, ordered_visits ns _ ?_⟩
    simp [Ordered]
  | addNode p ns =>
    refine ⟨by simp, by simp [Lock.rank], by simp, ?_⟩
    have : List.erase [(Lock.children p, true), (Lock.nodes, true)] (Lock.children p, true) = [(Lock.nodes, true)] := by simp
    rw [this]
    exact ordered_visits ns _ (by simp [Ordered])
  | _ => simp [Ordered, Lock.rank]

theorem ordered_job {k : List Act} (h : Job k) : Ordered [] k := by
  induction h with
  | done => rfl
  | call hc _ ih => exact ordered_append (ordered_call hc) ih

/-- What is always true of goroutines and locks. -/
structure Inv (s : State) : Prop where
  ordered : ∀ t, Ordered (s.threads t).held (s.threads t).todo
  nodup : ∀ t, ((s.threads t).held.map Prod.fst).Nodup
  /-- The writer that is inside holds the lock, and only it. -/
  writer : ∀ l t, (l, true) ∈ (s.threads t).held ↔ (s.locks l).writer = some (t, .inside)
  /-- The readers of a lock hold it. -/
  readers : ∀ l t, (l, false) ∈ (s.threads t).held ↔ t ∈ (s.locks l).readers
  once : ∀ l, (s.locks l).readers.Nodup
  /-- A writer that is not inside is about to take the lock. -/
  waiting : ∀ l t st, (s.locks l).writer = some (t, st) → st ≠ .inside → ∃ h k, s.threads t = ⟨h, .lock l :: k⟩
  /-- A writer that is inside is alone. -/
  alone : ∀ l t, (s.locks l).writer = some (t, .inside) → (s.locks l).readers = []

theorem inv_start {s : State} {n : Nat} (h : Start s n) : Inv s where
  ordered t := by rw [(h.job t).1]; exact ordered_job (h.job t).2
  nodup t := by rw [(h.job t).1]; simp
  writer l t := by rw [(h.job t).1, h.free]; simp
  readers l t := by rw [(h.job t).1, h.free]; simp
  once l := by rw [h.free]; simp
  waiting l t st hw := by rw [h.free] at hw; cases hw
  alone l t hw := by rw [h.free] at hw; cases hw

@[simp] theorem setLock_threads (s : State) (l : Lock) (x : LockState) : (setLock s l x).threads = s.threads := rfl
@[simp] theorem setLock_self (s : State) (l : Lock) (x : LockState) : (setLock s l x).locks l = x := by simp [setLock]
theorem setLock_ne (s : State) {l k : Lock} (x : LockState) (h : k ≠ l) : (setLock s l x).locks k = s.locks k := by simp [setLock, h]
@[simp] theorem setThread_locks (s : State) (t : Nat) (x : Thread) : (setThread s t x).locks = s.locks := rfl
@[simp] theorem setThread_self (s : State) (t : Nat) (x : Thread) : (setThread s t x).threads t = x := by simp [setThread]
theorem setThread_ne (s : State) {t k : Nat} (x : Thread) (h : k ≠ t) : (setThread s t x).threads k = s.threads k := by simp [setThread, h]

/-- While the locks held all come earlier, the lock is not among them. -/
theorem not_held {h : List (Lock × Bool)} {l : Lock} (hr : ∀ x ∈ h, x.1.rank < l.rank) (b : Bool) : (l, b) ∉ h := by
  intro hm
  exact Nat.lt_irrefl _ (hr _ hm)

theorem not_fst {h : List (Lock × Bool)} {l : Lock} (hr : ∀ x ∈ h, x.1.rank < l.rank) : l ∉ h.map Prod.fst := by
  intro hm
  obtain ⟨x, hx, rfl⟩ := List.mem_map.1 hm
  exact Nat.lt_irrefl _ (hr _ hx)

theorem nodup_of_fst {h : List (Lock × Bool)} (hn : (h.map Prod.fst).Nodup) : h.Nodup :=
  List.Pairwise.imp (fun hne he => hne (congrArg _ he)) (List.pairwise_map.1 hn)

theorem one_mode {h : List (Lock × Bool)} (hn : (h.map Prod.fst).Nodup) {l : Lock} {b c : Bool} (h1 : (l, b) ∈ h) (h2 : (l, c) ∈ h) : b = c := by
  induction h with
  | nil => simp at h1
  | cons x h ih =>
    simp only [List.map_cons, List.nodup_cons] at hn
    rcases List.mem_cons.1 h1 with h1 | h1 <;> rcases List.mem_cons.1 h2 with h2 | h2
    · have := h1.trans h2.symm; simpa using this
    · exact absurd (List.mem_map.2 ⟨_, h2, by rw [← h1]⟩) hn.1
    · exact absurd (List.mem_map.2 ⟨_, h1, by rw [← h2]⟩) hn.1
    · exact ih hn.2 h1 h2

theorem nodup_erase {h : List (Lock × Bool)} (hn : (h.map Prod.fst).Nodup) (x : Lock × Bool) : ((h.erase x).map Prod.fst).Nodup :=
  hn.sublist (List.Sublist.map _ List.erase_sublist)

theorem mem_erase_ne {h : List (Lock × Bool)} (x y : Lock × Bool) (hne : y ≠ x) : y ∈ h.erase x ↔ y ∈ h :=
  List.mem_erase_of_ne hne

theorem not_mem_erase {h : List (Lock × Bool)} (hn : (h.map Prod.fst).Nodup) (x : Lock × Bool) : x ∉ h.erase x :=
  fun hm => absurd rfl ((List.Nodup.mem_erase_iff (nodup_of_fst hn)).1 hm).1

theorem inv_next {s s' : State} {t : Nat} (h : Inv s) (hs : Next s t s') : Inv s' := by
  cases hs with
  | @claim hd l k rs ht hl =>
    refine ⟨h.ordered, h.nodup, fun m x => ?_, fun m x => ?_, fun m => ?_, fun m x st hw hst => ?_, fun m x hw => ?_⟩
    · by_cases hm : m = l
      · subst hm; rw [setLock_threads, h.writer, hl]; simp
      · rw [setLock_ne _ _ hm]; exact h.writer m x
    · by_cases hm : m = l
      · subst hm; have := h.readers m x; rw [hl] at this; simpa using this
      · rw [setLock_ne _ _ hm]; exact h.readers m x
    · by_cases hm : m = l
      · subst hm; have := h.once m; rw [hl] at this; simpa using this
      · rw [setLock_ne _ _ hm]; exact h.once m
    · by_cases hm : m = l
      · subst hm; simp only [setLock_self, Option.some.injEq, Prod.mk.injEq] at hw
        rw [← hw.1]; exact ⟨hd, k, ht⟩
      · rw [setLock_ne _ _ hm] at hw; exact h.waiting m x st hw hst
    · by_cases hm : m = l
      · subst hm; simp at hw
      · rw [setLock_ne _ _ hm] at hw ⊢; exact h.alone m x hw
  | @announce hd l k rs ht hl =>
    refine ⟨h.ordered, h.nodup, fun m x => ?_, fun m x => ?_, fun m => ?_, fun m x st hw hst => ?_, fun m x hw => ?_⟩
    · by_cases hm : m = l
      · subst hm; rw [setLock_threads, h.writer, hl]; simp
      · rw [setLock_ne _ _ hm]; exact h.writer m x
    · by_cases hm : m = l
      · subst hm; have := h.readers m x; rw [hl] at this; simpa using this
      · rw [setLock_ne _ _ hm]; exact h.readers m x
    · by_cases hm : m = l
      · subst hm; have := h.once m; rw [hl] at this; simpa using this
      · rw [setLock_ne _ _ hm]; exact h.once m
    · by_cases hm : m = l
      · subst hm; simp only [setLock_self, Option.some.injEq, Prod.mk.injEq] at hw
        rw [← hw.1]; exact ⟨hd, k, ht⟩
      · rw [setLock_ne _ _ hm] at hw; exact h.waiting m x st hw hst
    · by_cases hm : m = l
      · subst hm; simp at hw
      · rw [setLock_ne _ _ hm] at hw ⊢; exact h.alone m x hw
  | @enter hd l k ht hl =>
    have ho := h.ordered t
    rw [ht] at ho
    have hnd := h.nodup t
    rw [ht] at hnd
    refine ⟨fun x => ?_, fun x => ?_, fun m x => ?_, fun m x => ?_, fun m => ?_, fun m x st hw hst => ?_, fun m x hw => ?_⟩
    · by_cases hx : x = t
      · subst hx; simpa using ho.2
      · rw [setThread_ne _ _ hx]; exact h.ordered x
    · by_cases hx : x = t
      · subst hx; simp only [setThread_self, List.map_cons, List.nodup_cons]; exact ⟨not_fst ho.1, hnd⟩
      · rw [setThread_ne _ _ hx]; exact h.nodup x
    · simp only [setThread_locks]
      by_cases hx : x = t
      · subst hx
        have hw := h.writer m x
        rw [ht] at hw
        by_cases hm : m = l
        · subst hm; simp
        · rw [setLock_ne _ _ hm, ← hw]; simp [hm]
      · rw [setThread_ne _ _ hx, setLock_threads, h.writer m x]
        by_cases hm : m = l
        · subst hm; rw [hl]; simp [Ne.symm hx]
        · rw [setLock_ne _ _ hm]
    · simp only [setThread_locks]
      have hr := h.readers m x
      by_cases hx : x = t
      · subst hx
        rw [ht] at hr
        by_cases hm : m = l
        · subst hm; rw [hl] at hr; simpa using hr
        · rw [setLock_ne _ _ hm, ← hr]; simp
      · rw [setThread_ne _ _ hx, setLock_threads, hr]
        by_cases hm : m = l
        · subst hm; rw [hl]; simp
        · rw [setLock_ne _ _ hm]
    · simp only [setThread_locks]
      by_cases hm : m = l
      · subst hm; simp
      · rw [setLock_ne _ _ hm]; exact h.once m
    · simp only [setThread_locks] at hw
      by_cases hm : m = l
      · subst hm; simp only [setLock_self, Option.some.injEq, Prod.mk.injEq] at hw; exact absurd hw.2.symm hst
      · rw [setLock_ne _ _ hm] at hw
        obtain ⟨h', k', e⟩ := h.waiting m x st hw hst
        have hx : x ≠ t := by
          rintro rfl
          rw [ht] at e
          simp only [Thread.mk.injEq, List.cons.injEq, Act.lock.injEq] at e
          exact hm e.2.1.symm
        exact ⟨h', k', by rw [setThread_ne _ _ hx]; exact e⟩
    · simp only [setThread_locks] at hw ⊢
      by_cases hm : m = l
      · subst hm; simp
      · rw [setLock_ne _ _ hm] at hw ⊢; exact h.alone m x hw
  | @leave hd l k rs ht hl =>
    have ho := h.ordered t
    rw [ht] at ho
    have hnd := h.nodup t
    rw [ht] at hnd
    refine ⟨fun x => ?_, fun x => ?_, fun m x => ?_, fun m x => ?_, fun m => ?_, fun m x st hw hst => ?_, fun m x hw => ?_⟩
    · by_cases hx : x = t
      · subst hx; simpa using ho.2
      · rw [setThread_ne _ _ hx]; exact h.ordered x
    · by_cases hx : x = t
      · subst hx; simp only [setThread_self]; exact nodup_erase hnd _
      · rw [setThread_ne _ _ hx]; exact h.nodup x
    · simp only [setThread_locks]
      have hw := h.writer m x
      by_cases hx : x = t
      · subst hx
        rw [ht] at hw
        by_cases hm : m = l
        · subst hm; simp [not_mem_erase hnd]
        · rw [setLock_ne _ _ hm, ← hw, setThread_self]
          exact mem_erase_ne _ _ (by simp [hm])
      · rw [setThread_ne _ _ hx, setLock_threads, hw]
        by_cases hm : m = l
        · subst hm; rw [hl]; simp [Ne.symm hx]
        · rw [setLock_ne _ _ hm]
    · simp only [setThread_locks]
      have hr := h.readers m x
      by_cases hx : x = t
      · subst hx
        rw [ht] at hr
        rw [setThread_self]
        simp only
        rw [mem_erase_ne _ _ (by simp)]
        by_cases hm : m = l
        · subst hm; rw [hl] at hr; simpa using hr
        · rw [setLock_ne _ _ hm, ← hr]
      · rw [setThread_ne _ _ hx, setLock_threads, hr]
        by_cases hm : m = l
        · subst hm; rw [hl]; simp
        · rw [setLock_ne _ _ hm]
    · simp only [setThread_locks]
      by_cases hm : m = l
      · subst hm; have := h.once m; rw [hl] at this; simpa using this
      · rw [setLock_ne _ _ hm]; exact h.once m
    · simp only [setThread_locks] at hw
      by_cases hm : m = l
      · subst hm; simp at hw
      · rw [setLock_ne _ _ hm] at hw
        obtain ⟨h', k', e⟩ := h.waiting m x st hw hst
        have hx : x ≠ t := by
          rintro rfl
          rw [ht] at e
          simp at e
        exact ⟨h', k', by rw [setThread_ne _ _ hx]; exact e⟩
    · simp only [setThread_locks] at hw ⊢
      by_cases hm : m = l
      · subst hm; simp at hw
      · rw [setLock_ne _ _ hm] at hw ⊢; exact h.alone m x hw
  | @read hd l k rs w ht hl hc =>
    have ho := h.ordered t
    rw [ht] at ho
    have hnd := h.nodup t
    rw [ht] at hnd
    have hnot : t ∉ rs := by
      intro hm
      have hr := h.readers l t
      rw [ht, hl] at hr
      exact not_held ho.1 false (hr.2 hm)
    refine ⟨fun x => ?_, fun x => ?_, fun m x => ?_, fun m x => ?_, fun m => ?_, fun m x st hw hst => ?_, fun m x hw => ?_⟩
    · by_cases hx : x = t
      · subst hx; simpa using ho.2
      · rw [setThread_ne _ _ hx]; exact h.ordered x
    · by_cases hx : x = t
      · subst hx; simp only [setThread_self, List.map_cons, List.nodup_cons]; exact ⟨not_fst ho.1, hnd⟩
      · rw [setThread_ne _ _ hx]; exact h.nodup x
    · simp only [setThread_locks]
      have hw := h.writer m x
      have hlk : ((setLock s l ⟨t :: rs, w⟩).locks m).writer = (s.locks m).writer := by
        by_cases hm : m = l
        · subst hm; rw [hl]; simp
        · rw [setLock_ne _ _ hm]
      rw [hlk, ← hw]
      by_cases hx : x = t
      · subst hx; rw [ht]; simp
      · rw [setThread_ne _ _ hx, setLock_threads]
    · simp only [setThread_locks]
      have hr := h.readers m x
      by_cases hx : x = t
      · subst hx
        rw [ht] at hr
        by_cases hm : m = l
        · subst hm; simp
        · rw [setLock_ne _ _ hm, ← hr]; simp [hm]
      · rw [setThread_ne _ _ hx, setLock_threads, hr]
        by_cases hm : m = l
        · subst hm; rw [hl]; simp [hx]
        · rw [setLock_ne _ _ hm]
    · simp only [setThread_locks]
      have := h.once m
      by_cases hm : m = l
      · subst hm; rw [hl] at this; simp only [setLock_self, List.nodup_cons]; exact ⟨hnot, this⟩
      · rw [setLock_ne _ _ hm]; exact this
    · simp only [setThread_locks] at hw
      have hw' : (s.locks m).writer = some (x, st) := by
        by_cases hm : m = l
        · subst hm; rw [hl]; simpa using hw
        · rwa [setLock_ne _ _ hm] at hw
      obtain ⟨h', k', e⟩ := h.waiting m x st hw' hst
      have hx : x ≠ t := by
        rintro rfl
        rw [ht] at e
        simp at e
      exact ⟨h', k', by rw [setThread_ne _ _ hx]; exact e⟩
    · simp only [setThread_locks] at hw ⊢
      by_cases hm : m = l
      · subst hm
        simp only [setLock_self] at hw
        exact absurd (hc _ hw) (by simp)
      · rw [setLock_ne _ _ hm] at hw ⊢; exact h.alone m x hw
  | @leaveRead hd l k rs w ht hl hmem =>
    have ho := h.ordered t
    rw [ht] at ho
    have hnd := h.nodup t
    rw [ht] at hnd
    have honce := h.once l
    rw [hl] at honce
    refine ⟨fun x => ?_, fun x => ?_, fun m x => ?_, fun m x => ?_, fun m => ?_, fun m x st hw hst => ?_, fun m x hw => ?_⟩
    · by_cases hx : x = t
      · subst hx; simpa using ho.2
      · rw [setThread_ne _ _ hx]; exact h.ordered x
    · by_cases hx : x = t
      · subst hx; simp only [setThread_self]; exact nodup_erase hnd _
      · rw [setThread_ne _ _ hx]; exact h.nodup x
    · simp only [setThread_locks]
      have hw := h.writer m x
      have hlk : ((setLock s l ⟨rs.erase t, w⟩).locks m).writer = (s.locks m).writer := by
        by_cases hm : m = l
        · subst hm; rw [hl]; simp
        · rw [setLock_ne _ _ hm]
      rw [hlk, ← hw]
      by_cases hx : x = t
      · subst hx; rw [ht, setThread_self]; exact mem_erase_ne _ _ (by simp)
      · rw [setThread_ne _ _ hx, setLock_threads]
    · simp only [setThread_locks]
      have hr := h.readers m x
      by_cases hx : x = t
      · subst hx
        rw [ht] at hr
        by_cases hm : m = l
        · subst hm
          simp only [setThread_self, setLock_self]
          exact ⟨fun hh => absurd hh (not_mem_erase hnd _), fun hh => absurd rfl ((List.Nodup.mem_erase_iff honce).1 hh).1⟩
        · rw [setLock_ne _ _ hm, ← hr, setThread_self]; exact mem_erase_ne _ _ (by simp [hm])
      · rw [setThread_ne _ _ hx, setLock_threads, hr]
        by_cases hm : m = l
        · subst hm; rw [hl]; simp only [setLock_self]; exact (List.mem_erase_of_ne hx).symm
        · rw [setLock_ne _ _ hm]
    · simp only [setThread_locks]
      by_cases hm : m = l
      · subst hm; simp only [setLock_self]; exact honce.sublist List.erase_sublist
      · rw [setLock_ne _ _ hm]; exact h.once m
    · simp only [setThread_locks] at hw
      have hw' : (s.locks m).writer = some (x, st) := by
        by_cases hm : m = l
        · subst hm; rw [hl]; simpa using hw
        · rwa [setLock_ne _ _ hm] at hw
      obtain ⟨h', k', e⟩ := h.waiting m x st hw' hst
      have hx : x ≠ t := by
        rintro rfl
        rw [ht] at e
        simp at e
      exact ⟨h', k', by rw [setThread_ne _ _ hx]; exact e⟩
    · simp only [setThread_locks] at hw ⊢
      by_cases hm : m = l
      · subst hm
        simp only [setLock_self] at hw ⊢
        have := h.alone m x (by rw [hl]; exact hw)
        rw [hl] at this
        simp only at this
        rw [this] at hmem
        simp at hmem
      · rw [setLock_ne _ _ hm] at hw ⊢; exact h.alone m x hw

theorem inv_steps {s s' : State} {n : Nat} (h : Inv s) (hs : Steps s n s') : Inv s' := by
  induction hs with
  | refl => exact h
  | step _ hn ih => exact inv_next ih hn

/-! ## Somebody can go on -/

/-- The goroutine is at an operation that takes the lock `l`. -/
def Wants (s : State) (t : Nat) (l : Lock) : Prop := ∃ h k, s.threads t = ⟨h, .lock l :: k⟩ ∨ s.threads t = ⟨h, .rlock l :: k⟩

/-- A goroutine with work can go on, or wants a lock. -/
theorem next_or_wants {s : State} (h : Inv s) {t : Nat} (ht : (s.threads t).todo ≠ []) : (∃ s', Next s t s') ∨ ∃ l, Wants s t l := by
  obtain ⟨hd, todo, hth⟩ : ∃ hd todo, s.threads t = ⟨hd, todo⟩ := ⟨_, _, rfl⟩
  rw [hth] at ht
  cases todo with
  | nil => exact absurd rfl ht
  | cons a k =>
    have ho := h.ordered t
    rw [hth] at ho
    cases a with
    | lock l => exact Or.inr ⟨l, hd, k, Or.inl hth⟩
    | rlock l => exact Or.inr ⟨l, hd, k, Or.inr hth⟩
    | unlock l =>
      have hw := (h.writer l t).1 (by rw [hth]; exact ho.1)
      exact Or.inl ⟨_, .leave (rs := (s.locks l).readers) hth (by rw [← hw])⟩
    | runlock l =>
      have hr := (h.readers l t).1 (by rw [hth]; exact ho.1)
      exact Or.inl ⟨_, .leaveRead hth rfl hr⟩

/-- A goroutine that holds a lock can go on, or wants a later lock. -/
theorem holder {s : State} (h : Inv s) {t : Nat} {l : Lock} {b : Bool} (hm : (l, b) ∈ (s.threads t).held) :
    (∃ s', Next s t s') ∨ ∃ l', l.rank < l'.rank ∧ Wants s t l' := by
  have hne : (s.threads t).todo ≠ [] := by
    intro he
    have ho := h.ordered t
    rw [he] at ho
    have ho : (s.threads t).held = [] := ho
    rw [ho] at hm
    simp at hm
  rcases next_or_wants h hne with hs | ⟨l', hw⟩
  · exact Or.inl hs
  · refine Or.inr ⟨l', ?_, hw⟩
    obtain ⟨hd, k, hw | hw⟩ := hw
    all_goals
      have ho := h.ordered t
      rw [hw] at ho hm
      exact ho.1 _ hm

/-- If a goroutine wants a lock, it can go on, or some goroutine can, or some goroutine wants a later lock. -/
theorem wants_later {s : State} (h : Inv s) {t : Nat} {l : Lock} (hw : Wants s t l) :
    (∃ t' s', Next s t' s') ∨ ∃ t' l', l.rank < l'.rank ∧ Wants s t' l' := by
  have held : ∀ {t' : Nat} {b : Bool}, (l, b) ∈ (s.threads t').held → (∃ t' s', Next s t' s') ∨ ∃ t' l', l.rank < l'.rank ∧ Wants s t' l' := by
    intro t' b hm
    rcases holder h hm with ⟨s', hs⟩ | ⟨l', h1, h2⟩
    · exact Or.inl ⟨t', s', hs⟩
    · exact Or.inr ⟨t', l', h1, h2⟩
  have reader : ∀ {t' : Nat} {st : Stage}, (s.locks l).writer = some (t', st) → (∃ t' s', Next s t' s') ∨ ∃ t' l', l.rank < l'.rank ∧ Wants s t' l' := by
    intro t' st hwr
    cases st with
    | inside => exact held ((h.writer l t').2 hwr)
    | claimed =>
      obtain ⟨hd, k, e⟩ := h.waiting l t' _ hwr (by simp)
      exact Or.inl ⟨t', _, .announce (rs := (s.locks l).readers) e (by rw [← hwr])⟩
    | announced =>
      obtain ⟨hd, k, e⟩ := h.waiting l t' _ hwr (by simp)
      cases hrs : (s.locks l).readers with
      | nil => exact Or.inl ⟨t', _, .enter e (by rw [← hwr, ← hrs])⟩
      | cons x xs => exact held ((h.readers l x).2 (by rw [hrs]; simp))
  cases hwr : (s.locks l).writer with
  | some x => exact reader (t' := x.1) (st := x.2) hwr
  | none =>
    obtain ⟨hd, k, e | e⟩ := hw
    · exact Or.inl ⟨t, _, .claim (rs := (s.locks l).readers) e (by rw [← hwr])⟩
    · exact Or.inl ⟨t, _, .read e rfl (by rw [hwr]; intro x hx; cases hx)⟩

theorem rank_le (l : Lock) : l.rank ≤ 2 := by cases l <;> simp [Lock.rank]

theorem progress {s : State} (h : Inv s) : ∀ (n : Nat) {t : Nat} {l : Lock}, 2 - l.rank ≤ n → Wants s t l → ∃ t' s', Next s t' s'
  | n, t, l, hn, hw => by
    rcases wants_later h hw with hs | ⟨t', l', hr, hw'⟩
    · exact hs
    · have := rank_le l'
      cases n with
      | zero => omega
      | succ n => exact progress h n (by omega) hw'

/-- **C51.** Whatever tree operations any number of goroutines call, and however they interleave: as long as one of them has
not finished, one of them can take a step. -/
theorem C51_no_deadlock {s s' : State} {n m : Nat} (h : Start s n) (hs : Steps s m s') (hu : ∃ t, (s'.threads t).todo ≠ []) :
    ∃ t s'', Next s' t s'' := by
  obtain ⟨t, ht⟩ := hu
  have hi := inv_steps (inv_start h) hs
  rcases next_or_wants hi ht with ⟨s'', hs''⟩ | ⟨l, hw⟩
  · exact ⟨t, s'', hs''⟩
  · exact progress hi 2 (by omega) hw

/-- **C51.** The locks do what they are for: while one goroutine holds a lock for writing no other holds it at all. -/
theorem C51_exclusive {s s' : State} {n m : Nat} (h : Start s n) (hs : Steps s m s') {t t' : Nat} {l : Lock} {b : Bool}
    (hw : (l, true) ∈ (s'.threads t).held) (ho : (l, b) ∈ (s'.threads t').held) : t' = t := by
  have hi := inv_steps (inv_start h) hs
  have h1 := (hi.writer l t).1 hw
  cases b with
  | true =>
    have h2 := (hi.writer l t').1 ho
    rw [h1] at h2
    simpa using h2.symm
  | false =>
    have h2 := (hi.readers l t').1 ho
    rw [hi.alone l t h1] at h2
    simp at h2

/-! ## Everybody finishes -/

/-- The number of steps of an operation. -/
def Act.cost : Act → Nat
  | .lock _ => 3
  | _ => 1

def Stage.seen : Stage → Nat
  | .claimed => 1
  | .announced => 2
  | .inside => 0

/-- Steps already made for the operation at the head. -/
def made (s : State) (t : Nat) : Nat :=
  match (s.threads t).todo with
  | .lock l :: _ => match (s.locks l).writer with
    | some (t', st) => if t' = t then st.seen else 0
    | none => 0
  | _ => 0

/-- Steps that a goroutine still has to make. -/
def left (s : State) (t : Nat) : Nat := ((s.threads t).todo.map Act.cost).sum - made s t

/-- Steps that all goroutines still have to make. -/
def leftAll (s : State) : Nat → Nat
  | 0 => 0
  | n + 1 => leftAll s n + left s n

theorem leftAll_congr {s s' : State} {n : Nat} (h : ∀ t, t < n → left s' t = left s t) : leftAll s' n = leftAll s n := by
  induction n with
  | zero => rfl
  | succ n ih => simp only [leftAll]; rw [ih (fun t ht => h t (by omega)), h n (by omega)]

theorem leftAll_drop {s s' : State} {n t : Nat} (ht : t < n) (h : ∀ x, x ≠ t → left s' x = left s x) (hd : left s' t + 1 = left s t) :
    leftAll s' n + 1 = leftAll s n := by
  induction n with
  | zero => omega
  | succ n ih =>
    simp only [leftAll]
    by_cases hn : t = n
    · subst hn
      rw [leftAll_congr (s := s) (s' := s') (fun x hx => h x (by omega))]
      omega
    · have := ih (by omega)
      rw [h n (fun he => hn he.symm)]
      omega

theorem made_other {s s' : State} {t x : Nat} (hs : Next s t s') (hx : x ≠ t) : left s' x = left s x := by
  have hth : s'.threads x = s.threads x := by
    cases hs <;> first | rfl | (rw [setThread_ne _ _ hx]; rfl)
  have hmade : made s' x = made s x := by
    unfold made
    rw [hth]
    cases htodo : (s.threads x).todo with
    | nil => rfl
    | cons a k =>
      cases a with
      | lock m =>
        simp only
        have ne : ∀ {st : Stage} {t' : Nat} {z : Nat}, t' = t → (if t' = x then st.seen else z) = z := by
          intro st t' z e; rw [if_neg (fun he => hx (he.symm.trans e))]
        cases hs with
        | @claim hd l k' rs ht hl =>
          by_cases hm : m = l
          · subst hm; rw [hl]; simp [Ne.symm hx]
          · rw [setLock_ne _ _ hm]
        | @announce hd l k' rs ht hl =>
          by_cases hm : m = l
          · subst hm; rw [hl]; simp [Ne.symm hx]
          · rw [setLock_ne _ _ hm]
        | @enter hd l k' ht hl =>
          simp only [setThread_locks]
          by_cases hm : m = l
          · subst hm; rw [hl]; simp [Ne.symm hx]
          · rw [setLock_ne _ _ hm]
        | @leave hd l k' rs ht hl =>
          simp only [setThread_locks]
          by_cases hm : m = l
          · subst hm; rw [hl]; simp [Ne.symm hx]
          · rw [setLock_ne _ _ hm]
        | @read hd l k' rs w ht hl hc =>
          simp only [setThread_locks]
          by_cases hm : m = l
          · subst hm; rw [hl]; simp
          · rw [setLock_ne _ _ hm]
        | @leaveRead hd l k' rs w ht hl hmem =>
          simp only [setThread_locks]
          by_cases hm : m = l
          · subst hm; rw [hl]; simp
          · rw [setLock_ne _ _ hm]
      | _ => rfl
  unfold left
  rw [hth, hmade]

/-- After a goroutine has taken or left a lock it has made no step for its next operation yet. -/
theorem made_zero {s : State} {t : Nat} {hd : List (Lock × Bool)} {k : List Act} (ht : s.threads t = ⟨hd, k⟩)
    (hno : ∀ m st, (s.locks m).writer = some (t, st) → st = .inside) : made s t = 0 := by
  unfold made
  rw [ht]
  cases k with
  | nil => rfl
  | cons a k =>
    cases a with
    | lock m =>
      simp only
      cases hw : (s.locks m).writer with
      | none => rfl
      | some x =>
        obtain ⟨t', st⟩ := x
        simp only
        by_cases he : t' = t
        · subst he; rw [hno m st hw]; simp [Stage.seen]
        · simp [he]
    | _ => rfl

theorem made_self {s s' : State} (h : Inv s) {t : Nat} (hs : Next s t s') : left s' t + 1 = left s t := by
  cases hs with
  | @claim hd l k rs ht hl =>
    simp only [left, made, setLock_threads, ht, setLock_self, hl, List.map_cons, List.sum_cons, Act.cost, if_true, Stage.seen]
    omega
  | @announce hd l k rs ht hl =>
    simp only [left, made, setLock_threads, ht, setLock_self, hl, List.map_cons, List.sum_cons, Act.cost, if_true, Stage.seen]
    omega
  | @enter hd l k ht hl =>
    have hz := made_zero (s := setThread (setLock s l ⟨[], some (t, .inside)⟩) t ⟨(l, true) :: hd, k⟩) (t := t) (hd := (l, true) :: hd) (k := k) (by simp) (by
      intro m st hw
      simp only [setThread_locks] at hw
      by_cases hm : m = l
      · subst hm; simp only [setLock_self, Option.some.injEq, Prod.mk.injEq] at hw; exact hw.2.symm
      · rw [setLock_ne _ _ hm] at hw
        cases hst : decide (st = .inside) with
        | true => exact of_decide_eq_true hst
        | false =>
          obtain ⟨h', k', e⟩ := h.waiting m t st hw (of_decide_eq_false hst)
          rw [ht] at e
          simp only [Thread.mk.injEq, List.cons.injEq, Act.lock.injEq] at e
          exact absurd e.2.1.symm hm)
    unfold left
    rw [hz]
    simp only [made, setThread_self, ht, hl, List.map_cons, List.sum_cons, Act.cost, if_true, Stage.seen]
    omega
  | @leave hd l k rs ht hl =>
    have hz := made_zero (s := setThread (setLock s l ⟨rs, none⟩) t ⟨hd.erase (l, true), k⟩) (t := t) (hd := hd.erase (l, true)) (k := k) (by simp) (by
      intro m st hw
      simp only [setThread_locks] at hw
      by_cases hm : m = l
      · subst hm; simp at hw
      · rw [setLock_ne _ _ hm] at hw
        cases hst : decide (st = .inside) with
        | true => exact of_decide_eq_true hst
        | false =>
          obtain ⟨h', k', e⟩ := h.waiting m t st hw (of_decide_eq_false hst)
          rw [ht] at e
          simp at e)
    unfold left
    rw [hz]
    simp only [made, setThread_self, ht, List.map_cons, List.sum_cons, Act.cost]
    omega
  | @read hd l k rs w ht hl hc =>
    have hz := made_zero (s := setThread (setLock s l ⟨t :: rs, w⟩) t ⟨(l, false) :: hd, k⟩) (t := t) (hd := (l, false) :: hd) (k := k) (by simp) (by
      intro m st hw
      simp only [setThread_locks] at hw
      have hw' : (s.locks m).writer = some (t, st) := by
        by_cases hm : m = l
        · subst hm; rw [hl]; simpa using hw
        · rwa [setLock_ne _ _ hm] at hw
      cases hst : decide (st = .inside) with
      | true => exact of_decide_eq_true hst
      | false =>
        obtain ⟨h', k', e⟩ := h.waiting m t st hw' (of_decide_eq_false hst)
        rw [ht] at e
        simp at e)
    unfold left
    rw [hz]
    simp only [made, setThread_self, ht, List.map_cons, List.sum_cons, Act.cost]
    omega
  | @leaveRead hd l k rs w ht hl hmem =>
    have hz := made_zero (s := setThread (setLock s l ⟨rs.erase t, w⟩) t ⟨hd.erase (l, false), k⟩) (t := t) (hd := hd.erase (l, false)) (k := k) (by simp) (by
      intro m st hw
      simp only [setThread_locks] at hw
      have hw' : (s.locks m).writer = some (t, st) := by
        by_cases hm : m = l
        · subst hm; rw [hl]; simpa using hw
        · rwa [setLock_ne _ _ hm] at hw
      cases hst : decide (st = .inside) with
      | true => exact of_decide_eq_true hst
      | false =>
        obtain ⟨h', k', e⟩ := h.waiting m t st hw' (of_decide_eq_false hst)
        rw [ht] at e
        simp at e)
    unfold left
    rw [hz]
    simp only [made, setThread_self, ht, List.map_cons, List.sum_cons, Act.cost]
    omega

theorem next_works {s s' : State} {t : Nat} (hs : Next s t s') : (s.threads t).todo ≠ [] := by
  cases hs <;> simp_all

theorem next_shrinks {s s' : State} {t : Nat} (hs : Next s t s') {x : Nat} (hx : (s.threads x).todo = []) : (s'.threads x).todo = [] := by
  have hne : x ≠ t := by rintro rfl; exact next_works hs hx
  cases hs <;> first | exact hx | (rw [setThread_ne _ _ hne]; exact hx)

theorem left_steps {s s' : State} {n m : Nat} (h : Start s n) (hs : Steps s m s') :
    leftAll s' n + m = leftAll s n ∧ ∀ t, n ≤ t → (s'.threads t).todo = [] := by
  induction hs with
  | refl => exact ⟨rfl, h.only⟩
  | @step s1 s2 m t hs hn ih =>
    have hi := inv_steps (inv_start h) hs
    have ht : t < n := by
      rcases Nat.lt_or_ge t n with h1 | h1
      · exact h1
      · exact absurd (ih.2 t h1) (next_works hn)
    have := leftAll_drop ht (fun x hx => made_other hn hx) (made_self hi hn)
    exact ⟨by omega, fun x hx => next_shrinks hn (ih.2 x hx)⟩

/-- **C51.** All calls end: the number of steps is bounded, however the goroutines interleave, and a run that cannot be
continued has finished all work and left all locks free. -/
theorem C51_all_finish {s : State} {n : Nat} (h : Start s n) : ∃ bound, ∀ {m : Nat} {s' : State}, Steps s m s' →
    m ≤ bound ∧ ((¬ ∃ t s'', Next s' t s'') → ∀ t, s'.threads t = ⟨[], []⟩ ∧ ∀ l, (s'.locks l).readers = [] ∧ (s'.locks l).writer = none) := by
  refine ⟨leftAll s n, fun {m s'} hs => ⟨by have := (left_steps h hs).1; omega, fun hstuck => ?_⟩⟩
  have hi := inv_steps (inv_start h) hs
  have hdone : ∀ t, s'.threads t = ⟨[], []⟩ := by
    intro t
    have htodo : (s'.threads t).todo = [] := by
      cases hd : (s'.threads t).todo with
      | nil => rfl
      | cons a k => exact absurd (C51_no_deadlock h hs ⟨t, by rw [hd]; simp⟩) hstuck
    have ho := hi.ordered t
    rw [htodo] at ho
    have ho : (s'.threads t).held = [] := ho
    calc s'.threads t = ⟨(s'.threads t).held, (s'.threads t).todo⟩ := rfl
      _ = ⟨[], []⟩ := by rw [ho, htodo]
  refine fun t => ⟨hdone t, fun l => ⟨?_, ?_⟩⟩
  · cases hr : (s'.locks l).readers with
    | nil => rfl
    | cons x xs =>
      have := (hi.readers l x).2 (by rw [hr]; simp)
      rw [hdone x] at this
      simp at this
  · cases hw : (s'.locks l).writer with
    | none => rfl
    | some x =>
      obtain ⟨t', st⟩ := x
      cases hst : decide (st = .inside) with
      | true =>
        rw [of_decide_eq_true hst] at hw
        have := (hi.writer l t').2 hw
        rw [hdone t'] at this
        simp at this
      | false =>
        obtain ⟨h', k', e⟩ := hi.waiting l t' st hw (of_decide_eq_false hst)
        rw [hdone t'] at e
        simp at e

/-- Three goroutines: one adds a node below node 0 and then a tag, one moves a branch, one reads all. -/
def sampleStart : State where
  locks _ := ⟨[], none⟩
  threads
    | 0 => ⟨[], [.lock .nodes, .lock (.children 0), .unlock (.children 0), .rlock (.children 1), .runlock (.children 1), .unlock .nodes,
        .lock .tags, .rlock .nodes, .runlock .nodes, .unlock .tags]⟩
    | 1 => ⟨[], [.lock .branches, .rlock .nodes, .runlock .nodes, .unlock .branches]⟩
    | 2 => ⟨[], [.rlock .nodes, .runlock .nodes, .rlock .branches, .runlock .branches, .rlock .tags, .runlock .tags]⟩
    | _ => ⟨[], []⟩

theorem sampleStart_start : Start sampleStart 3 where
  free _ := rfl
  job t := by
    match t with
    | 0 => exact ⟨rfl, .call (.addNode 0 [1]) (.call .addTag .done)⟩
    | 1 => exact ⟨rfl, .call .addBranch .done⟩
    | 2 => exact ⟨rfl, .call .readNodes (.call .readBranches (.call .readTags .done))⟩
    | n + 3 => exact ⟨rfl, .done⟩
  only t ht := by
    match t, ht with
    | n + 3, _ => rfl

/-- A state in the middle of a run of the sample in which two goroutines wait for the lock of the nodes and one holds it. -/
example : ∃ m s', Steps sampleStart m s' ∧ 3 ≤ m ∧ (Lock.nodes, true) ∈ (s'.threads 0).held ∧ ∃ t, (s'.threads t).todo ≠ [] :=
  ⟨3, _, .step (.step (.step .refl (.claim (t := 0) rfl rfl)) (.announce (t := 0) (rs := []) rfl rfl)) (.enter (t := 0) rfl rfl), by omega,
    by simp [sampleStart], 1, by simp [setThread, setLock, sampleStart]⟩

end Locks
end Verif
