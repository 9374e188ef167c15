import Verif.Misc.Signal
/-!
# C48: what the first and the second interrupt do
-/
set_option autoImplicit false
namespace Verif
namespace Sig

theorem Steps.trans {s t u : St} (h1 : Steps s t) (h2 : Steps t u) : Steps s u := by
  induction h2 with
  | refl => exact h1
  | tail _ h ih => exact .tail ih h

/-- What is always true. -/
structure Inv (b : Bool) (s : St) : Prop where
  chan : ∀ n ∈ s.chan, n ∈ s.sent
  bound : s.chan.length ≤ cap
  /-- At the first `select` no signal is lost: those in the channel are the first that were sent. -/
  first : s.watcher = .first → s.sent.take cap = s.chan
  cancelling : s.watcher = .cancelling → s.sent ≠ []
  second : s.watcher = .second → s.cancelled = true
  returned : s.watcher = .returned → s.cancelled = true
  absent : s.watcher = .absent ↔ b = true
  exit : ∀ c, s.exit = some c → s.cancelled = true ∧ ∃ n ∈ s.sent, c = 128 + n
  why : s.cancelled = true → s.outside = true ∨ s.sent ≠ []
  start : b = true → s.cancelled = true

theorem inv_notify (b : Bool) : Inv b (notify b) := by
  cases b <;> refine ⟨?_, ?_, ?_, ?_, ?_, ?_, ?_, ?_, ?_, ?_⟩ <;> simp [notify]

theorem inv_step {b : Bool} {s s' : St} (h : Inv b s) (hs : Step s s') : Inv b s' := by
  cases hs with
  | signal n he =>
    refine ⟨?_, ?_, ?_, ?_, h.second, h.returned, h.absent, ?_, ?_, h.start⟩
    · intro x hx
      simp only [deliver] at hx ⊢
      split at hx
      · rcases List.mem_append.1 hx with hx | hx
        · exact List.mem_append_left _ (h.chan x hx)
        · exact List.mem_append_right _ hx
      · exact List.mem_append_left _ (h.chan x hx)
    · simp only [deliver]
      split
      · rename_i hlt
        simp only [List.length_append, List.length_singleton]
        omega
      · exact h.bound
    · intro hw
      have hf := h.first hw
      simp only [deliver]
      have hlen : s.chan.length = min cap s.sent.length := by rw [← hf, List.length_take]
      split
      · rename_i hlt
        have : s.sent.length < cap := by omega
        rw [List.take_of_length_le (by simp only [List.length_append, List.length_singleton]; omega), ← hf, List.take_of_length_le (by omega)]
      · rename_i hlt
        have : cap ≤ s.sent.length := by omega
        rw [List.take_append_of_le_length this, hf]
    · intro _
      simp [deliver]
    · intro c hc
      rw [show (deliver s n).exit = s.exit from rfl, he] at hc
      cases hc
    · intro _
      exact Or.inr (by simp [deliver])
  | outside he => exact ⟨h.chan, h.bound, h.first, h.cancelling, fun _ => rfl, fun _ => rfl, h.absent, fun c hc => ⟨rfl, (h.exit c hc).2⟩, fun _ => Or.inl rfl, fun _ => rfl⟩
  | watch he hw =>
    cases hw with
    | firstDone h1 h2 =>
      refine ⟨h.chan, h.bound, by simp, by simp, fun _ => h2, by simp, ?_, h.exit, h.why, h.start⟩
      have := h.absent
      rw [h1] at this
      simpa using this
    | @firstSignal n l h1 h2 =>
      refine ⟨fun x hx => h.chan x (by rw [h2]; simp [hx]), ?_, by simp, fun _ => ?_, by simp, by simp, ?_, h.exit, h.why, h.start⟩
      · have := h.bound
        rw [h2] at this
        simp only [List.length_cons] at this
        exact Nat.le_of_succ_le this
      · intro hn
        have := h.chan n (by rw [h2]; simp)
        simp only at hn
        rw [hn] at this
        simp at this
      · have := h.absent
        rw [h1] at this
        simpa using this
    | cancel h1 =>
      refine ⟨h.chan, h.bound, by simp, by simp, fun _ => rfl, by simp, ?_, fun c hc => ⟨rfl, (h.exit c hc).2⟩, fun _ => Or.inr (h.cancelling h1), fun _ => rfl⟩
      have := h.absent
      rw [h1] at this
      simpa using this
    | secondDone h1 h2 =>
      refine ⟨h.chan, h.bound, by simp, by simp, by simp, fun _ => h2, ?_, h.exit, h.why, h.start⟩
      have := h.absent
      rw [h1] at this
      simpa using this
    | @secondSignal n l h1 h2 =>
      refine ⟨fun x hx => h.chan x (by rw [h2]; simp [hx]), ?_, ?_, ?_, h.second, h.returned, h.absent, ?_, h.why, h.start⟩
      · have := h.bound
        rw [h2] at this
        simp only [List.length_cons] at this
        exact Nat.le_of_succ_le this
      · intro hf
        rw [show s.watcher = .second from h1] at hf
        cases hf
      · intro hf
        rw [show s.watcher = .second from h1] at hf
        cases hf
      · intro c hc
        cases hc
        exact ⟨h.second h1, n, h.chan n (by rw [h2]; simp), rfl⟩

theorem inv_steps {b : Bool} {s : St} (h : Steps (notify b) s) : Inv b s := by
  induction h with
  | refl => exact inv_notify b
  | tail _ hs ih => exact inv_step ih hs

theorem sent_step {s s' : St} (h : Step s s') : ∃ l, s'.sent = s.sent ++ l := by
  cases h with
  | signal n _ => exact ⟨[n], rfl⟩
  | outside _ => exact ⟨[], by simp⟩
  | watch _ hw => cases hw <;> exact ⟨[], by simp⟩

/-- **C48, first half.** On every schedule: once a signal has been passed on, the context is cancelled unless the goroutine has a
step to do, and after two steps of it the context is cancelled. -/
theorem C48_first_cancels {s : St} (h : Steps (notify false) s) (hsig : s.sent ≠ []) :
    (s.cancelled = true ∨ (s.exit = none ∧ ∃ s', Watch s s')) ∧
    ∀ s', Watches 2 s s' → s'.cancelled = true := by
  have hi := inv_steps h
  have hw : s.cancelled = true ∨ s.watcher = .cancelling ∨ (s.watcher = .first ∧ ∃ n l, s.chan = n :: l) := by
    cases hw : s.watcher with
    | absent => exact absurd (hi.absent.1 hw) (by simp)
    | first =>
      right; right
      have := hi.first hw
      cases hc : s.chan with
      | nil =>
        rw [hc] at this
        rcases List.take_eq_nil_iff.1 this with h | h
        · cases h
        · exact absurd h hsig
      | cons n l => exact ⟨rfl, n, l, rfl⟩
    | cancelling => exact Or.inr (Or.inl rfl)
    | second => exact Or.inl (hi.second hw)
    | returned => exact Or.inl (hi.returned hw)
  have mono : ∀ {a b : St}, Watch a b → a.cancelled = true → b.cancelled = true := by
    intro a b hab ha
    cases hab <;> first | exact ha | rfl
  refine ⟨?_, ?_⟩
  · rcases hw with hw | hw | ⟨hw, n, l, hc⟩
    · exact Or.inl hw
    · by_cases hx : s.exit = none
      · exact Or.inr ⟨hx, _, .cancel hw⟩
      · obtain ⟨c, hc⟩ := Option.ne_none_iff_exists'.1 hx
        exact Or.inl (hi.exit c hc).1
    · by_cases hx : s.exit = none
      · exact Or.inr ⟨hx, _, .firstSignal hw hc⟩
      · obtain ⟨c, hc⟩ := Option.ne_none_iff_exists'.1 hx
        exact Or.inl (hi.exit c hc).1
  · intro s' h2
    cases h2 with
    | tail h1 _ hb =>
      cases h1 with
      | tail h0 _ ha =>
        cases h0
        rcases hw with hw | hw | ⟨hw, n, l, hc⟩
        · exact mono hb (mono ha hw)
        · cases ha with
          | cancel _ => exact mono hb rfl
          | firstDone h3 _ => rw [hw] at h3; cases h3
          | firstSignal h3 _ => rw [hw] at h3; cases h3
          | secondDone h3 _ => rw [hw] at h3; cases h3
          | secondSignal h3 _ => rw [hw] at h3; cases h3
        · cases ha with
          | cancel h3 => rw [hw] at h3; cases h3
          | firstDone _ h3 => exact mono hb h3
          | firstSignal _ _ =>
            cases hb with
            | cancel _ => rfl
            | firstDone h3 _ => cases h3
            | firstSignal h3 _ => cases h3
            | secondDone h3 _ => cases h3
            | secondSignal h3 _ => cases h3
          | secondDone h3 _ => rw [hw] at h3; cases h3
          | secondSignal h3 _ => rw [hw] at h3; cases h3

/-- **C48.** The context is cancelled for no other reason: a signal was passed on, or someone else cancelled. -/
theorem C48_only_by_signal {b : Bool} {s : St} (h : Steps (notify b) s) (hc : s.cancelled = true) : s.outside = true ∨ s.sent ≠ [] :=
  (inv_steps h).why hc

/-- **C48.** If `Notify` ends the process, then the context was cancelled before, and the exit code is 128 plus the number of a signal
that arrived. -/
theorem C48_exit_code {b : Bool} {s : St} (h : Steps (notify b) s) {c : Nat} (hc : s.exit = some c) :
    s.cancelled = true ∧ ∃ n ∈ s.sent, c = 128 + n := (inv_steps h).exit c hc

theorem stays {s t : St} (hw : s.watcher = .returned ∨ s.watcher = .absent) (he : s.exit = none) (h : Steps s t) :
    (t.watcher = .returned ∨ t.watcher = .absent) ∧ t.exit = none := by
  induction h with
  | refl => exact ⟨hw, he⟩
  | tail _ hs ih =>
    cases hs with
    | signal n h1 => exact ih
    | outside h1 => exact ih
    | watch h1 hx =>
      exfalso
      rcases ih.1 with h2 | h2 <;> cases hx with
      | firstDone h3 _ => rw [h2] at h3; cases h3
      | firstSignal h3 _ => rw [h2] at h3; cases h3
      | cancel h3 => rw [h2] at h3; cases h3
      | secondDone h3 _ => rw [h2] at h3; cases h3
      | secondSignal h3 _ => rw [h2] at h3; cases h3

/-- **C48, second half, is violated.** After the first signal the goroutine can return without reading another one, whatever the
schedule was so far: from then on no number of signals ends the process. -/
theorem C48_violated_second {s : St} (h : Steps (notify false) s) (hsig : s.sent ≠ []) (he : s.exit = none) :
    ∃ t, Steps s t ∧ t.sent = s.sent ∧ ∀ u, Steps t u → u.exit = none := by
  have hi := inv_steps h
  cases hw : s.watcher with
  | absent => exact absurd (hi.absent.1 hw) (by simp)
  | first =>
    have hf := hi.first hw
    cases hc : s.chan with
    | nil =>
      rw [hc] at hf
      rcases List.take_eq_nil_iff.1 hf with h | h
      · cases h
      · exact absurd h hsig
    | cons n l =>
      exact ⟨_, .tail (.tail (.tail (.refl s) (.watch he (.firstSignal hw hc))) (.watch he (.cancel rfl))) (.watch he (.secondDone rfl rfl)), rfl,
        fun u hu => (stays (Or.inl (by rfl)) (by exact he) hu).2⟩
  | cancelling =>
    exact ⟨_, .tail (.tail (.refl s) (.watch he (.cancel hw))) (.watch he (.secondDone rfl rfl)), rfl, fun u hu => (stays (Or.inl (by rfl)) (by exact he) hu).2⟩
  | second => exact ⟨_, .tail (.refl s) (.watch he (.secondDone hw (hi.second hw))), rfl, fun u hu => (stays (Or.inl (by rfl)) (by exact he) hu).2⟩
  | returned => exact ⟨s, .refl s, rfl, fun u hu => (stays (Or.inl hw) he hu).2⟩

/-- **C48 is violated** when the parent was cancelled before: the signals are caught, but nothing ever reads them. -/
theorem C48_violated_cancelled {s : St} (h : Steps (notify true) s) : s.exit = none := (stays (Or.inr rfl) rfl h).2

/-- While nobody else cancels, what waits in the channel behind the first signal begins with the second one. -/
theorem second_waits {s : St} (h : Steps (notify false) s) :
    (s.outside = false → s.watcher = .first → s.cancelled = false) ∧
    (s.outside = false → s.exit = none → s.watcher = .cancelling ∨ s.watcher = .second → s.chan.head? = s.sent.tail.head?) := by
  induction h with
  | refl => exact ⟨fun _ _ => rfl, fun _ _ h => by simp [notify] at h⟩
  | @tail t u ht hs ih =>
    have hi := inv_steps ht
    cases hs with
    | signal n he =>
      refine ⟨ih.1, fun ho _ hw => ?_⟩
      have := ih.2 ho he hw
      have hne : t.sent ≠ [] := by
        rcases hw with hw | hw
        · exact hi.cancelling hw
        · rcases hi.why (hi.second hw) with h | h
          · rw [show t.outside = false from ho] at h; cases h
          · exact h
      simp only [deliver]
      cases hs : t.sent with
      | nil => exact absurd hs hne
      | cons a l =>
        rw [hs] at this
        cases hc : t.chan with
        | nil =>
          rw [hc] at this
          cases l with
          | nil => rfl
          | cons b l => cases this
        | cons x xs =>
          rw [hc] at this
          cases l with
          | nil => cases this
          | cons b l =>
            split
            · exact this
            · exact this
    | outside _ => exact ⟨fun ho => (nomatch ho), fun ho => (nomatch ho)⟩
    | watch he hw =>
      cases hw with
      | firstDone h1 h2 => exact ⟨fun _ h => (nomatch h), fun ho _ _ => by rw [ih.1 ho h1] at h2; cases h2⟩
      | @firstSignal n l h1 h2 =>
        refine ⟨fun _ h => (nomatch h), fun ho _ _ => ?_⟩
        have hf := hi.first h1
        show l.head? = t.sent.tail.head?
        have h2' : t.chan = n :: l := h2
        cases hs : t.sent with
        | nil => rw [hs, h2'] at hf; cases hf
        | cons a k =>
          rw [hs, h2'] at hf
          simp only [cap, List.take_succ_cons, List.cons.injEq] at hf
          rw [← hf.2]
          cases k <;> rfl
      | cancel h1 => exact ⟨fun _ h => (nomatch h), fun ho he _ => ih.2 ho he (Or.inl h1)⟩
      | secondDone h1 h2 => exact ⟨fun _ h => (nomatch h), fun _ _ h => h.elim (fun h => (nomatch h)) fun h => (nomatch h)⟩
      | secondSignal h1 h2 => exact ⟨fun _ h => absurd ((show t.watcher = .second from h1).symm.trans h) (by decide), fun _ h => (nomatch h)⟩

/-- **C48.** The second signal is not lost, even if it arrives before the goroutine has read the first one: if nobody else cancels,
then at its second `select` it is the next one in the channel, and the step that reads it ends the process with it. That step may
be missed (`C48_violated_second`), since the context is cancelled too. -/
theorem C48_second_not_lost_partial {s : St} (h : Steps (notify false) s) (ho : s.outside = false) (he : s.exit = none) (hw : s.watcher = .second) {a b : Nat} {l : List Nat}
    (hs : s.sent = a :: b :: l) : (∃ k, s.chan = b :: k) ∧ ∃ s', Watch s s' ∧ s'.exit = some (128 + b) := by
  have h1 := (second_waits h).2 ho he (Or.inr hw)
  rw [hs] at h1
  cases hc : s.chan with
  | nil => rw [hc] at h1; cases h1
  | cons x k =>
    rw [hc] at h1
    cases h1
    exact ⟨⟨k, rfl⟩, _, .secondSignal hw hc, rfl⟩

/-- Both signals arrive before the first is read. -/
example : ∃ s, Steps (notify false) s ∧ s.outside = false ∧ s.exit = none ∧ s.watcher = .second ∧ s.sent = [2, 15] :=
  ⟨_, .tail (.tail (.tail (.tail (.refl _) (.signal 2 rfl)) (.signal 15 rfl)) (.watch rfl (.firstSignal (n := 2) (l := [15]) rfl rfl))) (.watch rfl (.cancel rfl)), rfl, rfl, rfl, rfl⟩

/-- What is left of the second half: a signal that arrives while the goroutine is at its second `select` can end the process. It
is the only way that leads to an end. -/
theorem C48_second_partial {s s' : St} (hs : Step s s') (h1 : s.exit = none) (h2 : s'.exit ≠ none) :
    s.watcher = .second ∧ ∃ n l, s.chan = n :: l ∧ s'.exit = some (128 + n) := by
  cases hs with
  | signal n h3 => exact absurd h1 h2
  | outside h3 => exact absurd h1 h2
  | watch h3 hx =>
    cases hx with
    | firstDone _ _ => exact absurd h1 h2
    | firstSignal _ _ => exact absurd h1 h2
    | cancel _ => exact absurd h1 h2
    | secondDone _ _ => exact absurd h1 h2
    | @secondSignal n l h4 h5 => exact ⟨h4, n, l, h5, rfl⟩

/-- A schedule on which two interrupts do end the process, with 130. -/
theorem sampleExit : ∃ s, Steps (notify false) s ∧ s.sent = [2, 2] ∧ s.exit = some 130 :=
  ⟨_, .tail (.tail (.tail (.tail (.tail (.refl _) (.signal 2 rfl)) (.watch rfl (.firstSignal (n := 2) (l := []) rfl rfl))) (.watch rfl (.cancel rfl))) (.signal 2 rfl))
    (.watch rfl (.secondSignal (n := 2) (l := []) rfl rfl)), rfl, rfl⟩

/-- The hypotheses of the theorems above are met: one signal, not read yet. -/
example : ∃ s, Steps (notify false) s ∧ s.sent ≠ [] ∧ s.exit = none ∧ s.cancelled = false :=
  ⟨_, .tail (.refl _) (.signal 15 rfl), by decide, rfl, rfl⟩

example : ∃ s c, Steps (notify false) s ∧ s.exit = some c := let ⟨s, h, _, he⟩ := sampleExit; ⟨s, _, h, he⟩

/-- A single signal can end the process, too, once someone else has cancelled. -/
theorem C48_single_signal_exit : ∃ s, Steps (notify false) s ∧ s.sent = [15] ∧ s.exit = some 143 :=
  ⟨_, .tail (.tail (.tail (.tail (.refl _) (.outside rfl)) (.watch rfl (.firstDone rfl rfl))) (.signal 15 rfl))
    (.watch rfl (.secondSignal (n := 15) (l := []) rfl rfl)), rfl, rfl⟩

end Sig
end Verif
