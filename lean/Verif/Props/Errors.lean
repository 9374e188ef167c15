import Verif.Misc.Errors
import Verif.Cli.Parse
import Verif.Props.Uid
/-!
# C90: the reason of an error survives
-/
set_option autoImplicit false
namespace Verif

/-- The errors that one finds by `errors.Unwrap` again and again, the error itself first. -/
inductive GoErr.Chain : GoErr → GoErr → Prop where
  | here {e : GoErr} : Chain e e
  | inner {e e' : GoErr} {t : Str} : Chain e e' → Chain (.wrap t e) e'

/-- The error after wrapping it with each of the texts, the first one last. -/
def GoErr.wraps : List Str → GoErr → GoErr
  | [], e => e
  | t :: ts, e => .within t (wraps ts e)

theorem as_chain {e : GoErr} {s : Status} : e.as = some s → e.Chain (.status s) := by
  induction e with
  | plain => intro h; cases h
  | status s' => intro h; cases h; exact .here
  | wrap t e ih => exact fun h => .inner (ih h)

theorem chain_as {e : GoErr} {s : Status} (h : e.Chain (.status s)) : e.as = some s := by
  generalize hx : GoErr.status s = x at h
  induction h with
  | here => rw [← hx]; rfl
  | inner _ ih => exact ih hx

/-- **C90.** However often a status is wrapped, `FromError` gives it back. -/
theorem C90_wrapped (s : Status) (ts : List Str) : fromError (some (.wraps ts (.status s))) = .ok s := by
  have : (GoErr.wraps ts (.status s)).as = some s := by
    induction ts with
    | nil => rfl
    | cons t ts ih => exact ih
  simp only [fromError, this]

/-- **C90.** `FromError` gives the status in the chain, and if there is none `InternalError` with the whole text. No other outcome is possible for an
error that is not nil. -/
theorem C90_from (e : GoErr) (s : Status) :
    fromError (some e) = .ok s ↔ e.Chain (.status s) ∨ ((∀ s', ¬ e.Chain (.status s')) ∧ s = ⟨0, lit "InternalError", e.text⟩) := by
  unfold fromError
  constructor
  · intro h
    cases ha : e.as with
    | some s' =>
      simp only [ha] at h
      cases h
      exact Or.inl (as_chain ha)
    | none =>
      simp only [ha] at h
      cases h
      refine Or.inr ⟨fun s' hc => ?_, rfl⟩
      rw [chain_as hc] at ha; cases ha
  · rintro (h | ⟨h1, rfl⟩)
    · simp only [chain_as h]
    · cases ha : e.as with
      | some s' => exact absurd (as_chain ha) (h1 s')
      | none => simp only [ha]; rfl

/-- **C90.** The text of a wrapped error is that of the error inside behind the texts of the places it passed, outermost first. -/
theorem C90_text_kept (ts : List Str) (e : GoErr) : (GoErr.wraps ts e).text = (ts.map (· ++ lit ": ")).flatten ++ e.text := by
  induction ts with
  | nil => rfl
  | cons t ts ih =>
    show t ++ lit ": " ++ (GoErr.wraps ts e).text = _
    rw [ih]; simp

/-- The reason has no colon and no opening bracket. The interface asks for more: a word in camel case. -/
def Camel (r : Str) : Prop := ∀ c ∈ r, c ≠ 0x3a ∧ c ≠ 0x28

theorem take_camel {r : Str} (h : Camel r) (rest : Str) (hr : ∃ c rest', rest = c :: rest' ∧ (c = 0x3a ∨ c = 0x28)) :
    (r ++ rest).takeWhile (fun c => c ≠ 0x3a && c ≠ 0x28) = r ∧ (r ++ rest).dropWhile (fun c => c ≠ 0x3a && c ≠ 0x28) = rest := by
  induction r with
  | nil =>
    obtain ⟨c, rest', rfl, hc⟩ := hr
    rcases hc with rfl | rfl <;> simp
  | cons x r ih =>
    have hx := h x (by simp)
    have := ih fun c hc => h c (List.mem_cons_of_mem _ hc)
    simp only [List.cons_append, List.takeWhile_cons, List.dropWhile_cons]
    simp [hx.1, hx.2] at this ⊢
    exact this

theorem dec_digits (n : Nat) : ∀ c ∈ Time.dec n, c ≠ 0x29 := by
  induction n using Nat.strongRecOn with
  | _ n ih =>
    have hd : ∀ k, k < 10 → Time.digit k ≠ 0x29 := by decide
    rw [Time.dec]
    split
    · intro c hc
      rw [List.mem_singleton.1 hc]
      exact hd n (by omega)
    · intro c hc
      rcases List.mem_append.1 hc with hc | hc
      · exact ih (n / 10) (by omega) c hc
      · rw [List.mem_singleton.1 hc]
        exact hd _ (by omega)

theorem dec_inj {n m : Nat} (h : Time.dec n = Time.dec m) : n = m := by
  have h1 := Cli.digits_dec n
  rw [h, Cli.digits_dec m] at h1
  exact (Option.some.inj h1).symm

/-- **C90.** The text tells code, reason and message of a status whose reason is a word. -/
theorem C90_text_tells {s s' : Status} (h : Camel s.reason) (h' : Camel s'.reason) (ht : s.text = s'.text) : s = s' := by
  have split : ∀ s : Status, Camel s.reason → ∃ rest, s.text = s.reason ++ rest ∧ (∃ c rest', rest = c :: rest' ∧ (c = 0x3a ∨ c = 0x28)) ∧
      rest = if s.code = 0 then lit ": " ++ s.message else lit "(" ++ (Time.dec s.code.toNat ++ (lit "): " ++ s.message)) := by
    intro s _
    refine ⟨_, ?_, ?_, rfl⟩
    · unfold Status.text; split <;> simp
    · split
      · exact ⟨0x3a, _, rfl, Or.inl rfl⟩
      · exact ⟨0x28, _, rfl, Or.inr rfl⟩
  obtain ⟨x, hx, hx1, hx2⟩ := split s h
  obtain ⟨y, hy, hy1, hy2⟩ := split s' h'
  rw [hx, hy] at ht
  have hr : s.reason = s'.reason := by rw [← (take_camel h x hx1).1, ht, (take_camel h' y hy1).1]
  have hxy : x = y := by rw [← (take_camel h x hx1).2, ht, (take_camel h' y hy1).2]
  rw [hx2, hy2] at hxy
  obtain ⟨c, r, m⟩ := s
  obtain ⟨c', r', m'⟩ := s'
  cases hr
  simp only at hxy
  by_cases h0 : c = 0 <;> by_cases h0' : c' = 0
  · rw [if_pos h0, if_pos h0'] at hxy
    rw [h0, h0', List.append_cancel_left hxy]
  · rw [if_pos h0, if_neg h0'] at hxy
    exact absurd (List.cons.inj hxy).1 (by decide)
  · rw [if_neg h0, if_pos h0'] at hxy
    exact absurd (List.cons.inj hxy).1 (by decide)
  · rw [if_neg h0, if_neg h0'] at hxy
    have hxy := List.append_cancel_left hxy
    have key : ∀ (a b m m' : Str), (∀ c ∈ a, c ≠ 0x29) → (∀ c ∈ b, c ≠ 0x29) → a ++ (lit "): " ++ m) = b ++ (lit "): " ++ m') → a = b ∧ m = m' := by
      intro a
      induction a with
      | nil =>
        intro b m m' _ hb he
        cases b with
        | nil => exact ⟨rfl, List.append_cancel_left he⟩
        | cons y b => exact absurd (List.cons.inj he).1.symm (hb y (by simp))
      | cons x a ih =>
        intro b m m' ha hb he
        cases b with
        | nil => exact absurd (List.cons.inj he).1 (ha x (by simp))
        | cons y b =>
          obtain ⟨hxy, he'⟩ := List.cons.inj he
          subst hxy
          obtain ⟨rfl, rfl⟩ := ih b m m' (fun c hc => ha c (List.mem_cons_of_mem _ hc)) (fun c hc => hb c (List.mem_cons_of_mem _ hc)) he'
          exact ⟨rfl, rfl⟩
    obtain ⟨hc, hm⟩ := key _ _ _ _ (dec_digits _) (dec_digits _) hxy
    rw [UInt32.toNat_inj.1 (dec_inj hc), hm]

/-- **C90.** The error about a missing layer says so by its reason, however often it is wrapped, and its text tells the layer. -/
theorem C90_layer (id : UID) (ts : List Str) :
    (∃ s, fromError (some (.wraps ts (layerNotFound id))) = .ok s ∧ s.reason = lit "LayerNotFound" ∧ s.code = 0) ∧
    ∀ id', (layerNotFound id').text = (layerNotFound id).text → id' = id := by
  refine ⟨⟨_, C90_wrapped _ ts, rfl, rfl⟩, fun id' h => ?_⟩
  have hm : lit "layer \"" ++ id'.string ++ lit "\" not found" = lit "layer \"" ++ id.string ++ lit "\" not found" := List.append_cancel_left h
  exact C03_string_injective (List.append_cancel_left (List.append_cancel_right hm))

/-- **Violation.** Two different statuses have the same text, where a reason has other characters. -/
theorem C90_violated_text (code : UInt32) (h : code ≠ 0) (r m : Str) :
    ∃ s s' : Status, s ≠ s' ∧ s.text = s'.text ∧ s = Status.newWithCode code r m := by
  refine ⟨⟨code, r, m⟩, ⟨0, r ++ lit "(" ++ Time.dec code.toNat ++ lit ")", m⟩, fun e => h (congrArg Status.code e), ?_, rfl⟩
  unfold Status.text
  rw [if_neg h, if_pos rfl]
  simp [lit]

/-- `C90_wrapped`, `C90_from`, `C90_text_kept`, `C90_layer`: the error of a commit for which a layer is missing. -/
example (id : UID) : fromError (some (.wraps [lit "create mount error", lit "get layer error"] (layerNotFound id))) =
    .ok ⟨0, lit "LayerNotFound", lit "layer \"" ++ id.string ++ lit "\" not found"⟩ := C90_wrapped _ _
example : ∃ e : GoErr, (∀ s, ¬ e.Chain (.status s)) ∧ fromError (some e) = .ok ⟨0, lit "InternalError", lit "commit error: already mount"⟩ := by
  refine ⟨.wraps [lit "commit error"] (.plain (lit "already mount")), fun s h => ?_, by rfl⟩
  cases h with
  | inner h => cases h
/-- `C90_text_tells`: on reasons of this kind. -/
example : Camel (lit "LayerNotFound") ∧ Camel (lit "InternalError") := by unfold Camel; decide
example : ∃ s s' : Status, s ≠ s' ∧ s.text = s'.text ∧ s = ⟨5, lit "A", lit "m"⟩ := C90_violated_text 5 (by decide) _ _

end Verif
