import Verif.Json.ParseProofs
import Verif.Json.Spell
/-!
# The grammar of JSON texts, and the parser

`Text` is the grammar of RFC 8259, section 2 to 7, written down without any reference to the parser: which texts are a given value, with
white space allowed between any two tokens. The parser accepts exactly these texts, up to the nesting limit, and gives that value
(`parse_iff`). What a string says is `Says` of `Json/Spell`, which does not refer to the reader either.
-/
set_option autoImplicit false
namespace Verif
namespace Json

/-! ## Specification -/

/-- White space (RFC 8259, section 2). -/
def Blank (w : Str) : Prop := ∀ c ∈ w, c = 0x20 ∨ c = 0x09 ∨ c = 0x0A ∨ c = 0x0D

/-- A decimal digit. -/
def Digit (c : UInt8) : Prop := 0x30 ≤ c ∧ c ≤ 0x39

/-- One or more digits. -/
def Digits (s : Str) : Prop := s ≠ [] ∧ ∀ c ∈ s, Digit c

/-- A number (section 6): an optional minus, an integer without leading zeros, an optional fraction, an optional exponent. -/
def Number (s : Str) : Prop := ∃ m i f e : Str, s = m ++ i ++ f ++ e ∧ (m = [] ∨ m = [0x2D]) ∧ (i = [0x30] ∨ Digits i ∧ i.head? ≠ some 0x30) ∧
  (f = [] ∨ ∃ x, Digits x ∧ f = 0x2E :: x) ∧ (e = [] ∨ ∃ a g x, (a = 0x65 ∨ a = 0x45) ∧ (g = [] ∨ g = [0x2B] ∨ g = [0x2D]) ∧ Digits x ∧ e = a :: (g ++ x))

mutual
/-- `Text v t`: the text `t`, without white space around it, is the value `v`. -/
inductive Text : Val → Str → Prop where
  | null : Text .null (lit "null")
  | true : Text (.bool true) (lit "true")
  | false : Text (.bool false) (lit "false")
  | num {s : Str} : Number s → Text (.num s) s
  | str {raw s : Str} : Quoted raw → Says raw s → Text (.str s) (0x22 :: (raw ++ [0x22]))
  | arr0 {w : Str} : Blank w → Text (.arr .nil) (0x5B :: (w ++ [0x5D]))
  | arr {l : Vals} {t : Str} : Elems l t → Text (.arr l) (0x5B :: t)
  | obj0 {w : Str} : Blank w → Text (.obj .nil) (0x7B :: (w ++ [0x7D]))
  | obj {l : Fields} {t : Str} : Members l t → Text (.obj l) (0x7B :: t)
/-- One or more elements of an array, with the closing bracket. -/
inductive Elems : Vals → Str → Prop where
  | last {v : Val} {t w w' : Str} : Blank w → Text v t → Blank w' → Elems (.cons v .nil) (w ++ (t ++ (w' ++ [0x5D])))
  | more {v : Val} {t w w' : Str} {l : Vals} {r : Str} : Blank w → Text v t → Blank w' → Elems l r → Elems (.cons v l) (w ++ (t ++ (w' ++ 0x2C :: r)))
/-- One or more members of an object, with the closing brace. -/
inductive Members : Fields → Str → Prop where
  | last {raw k : Str} {v : Val} {t w1 w2 w3 w4 : Str} : Blank w1 → Quoted raw → Says raw k → Blank w2 → Blank w3 → Text v t → Blank w4 →
    Members (.cons k v .nil) (w1 ++ 0x22 :: (raw ++ 0x22 :: (w2 ++ 0x3A :: (w3 ++ (t ++ (w4 ++ [0x7D]))))))
  | more {raw k : Str} {v : Val} {t w1 w2 w3 w4 : Str} {l : Fields} {r : Str} : Blank w1 → Quoted raw → Says raw k → Blank w2 → Blank w3 → Text v t → Blank w4 → Members l r →
    Members (.cons k v l) (w1 ++ 0x22 :: (raw ++ 0x22 :: (w2 ++ 0x3A :: (w3 ++ (t ++ (w4 ++ 0x2C :: r))))))
end

/-- A whole file: a value with white space around it. -/
def IsText (v : Val) (s : Str) : Prop := ∃ w t w', s = w ++ (t ++ w') ∧ Blank w ∧ Text v t ∧ Blank w'

/-! ## White space -/

theorem isWs_iff (c : UInt8) : isWs c = true ↔ c = 0x20 ∨ c = 0x09 ∨ c = 0x0A ∨ c = 0x0D := by simp [isWs, or_assoc]

theorem skipWs_blank {w : Str} (h : Blank w) (t : Str) : skipWs (w ++ t) = skipWs t := by
  induction w with
  | nil => rfl
  | cons c w ih =>
    rw [List.cons_append, skipWs, if_pos ((isWs_iff c).2 (h c (by simp)))]
    exact ih fun x hx => h x (by simp [hx])

theorem skipWs_split (s : Str) : ∃ w, s = w ++ skipWs s ∧ Blank w := by
  induction s with
  | nil => exact ⟨[], rfl, fun _ h => nomatch h⟩
  | cons c r ih =>
    rw [skipWs]
    split
    · rename_i hc
      obtain ⟨w, h1, h2⟩ := ih
      refine ⟨c :: w, by rw [List.cons_append, ← h1], ?_⟩
      intro x hx
      rcases List.mem_cons.1 hx with rfl | hx
      · exact (isWs_iff _).1 hc
      · exact h2 x hx
    · exact ⟨[], rfl, fun _ h => nomatch h⟩

theorem skipWs_head {s : Str} {c : UInt8} {r : Str} (h : skipWs s = c :: r) : isWs c = false := by
  induction s with
  | nil => simp [skipWs] at h
  | cons a l ih =>
    rw [skipWs] at h
    split at h
    · exact ih h
    · rename_i ha; cases h; simpa using ha

theorem blank_of_skip {s : Str} (h : skipWs s = []) : Blank s := by
  obtain ⟨w, h1, h2⟩ := skipWs_split s
  rw [h, List.append_nil] at h1
  rw [h1]; exact h2

/-! ## Strings -/

theorem hexVal_isSome (c : UInt8) : (hexVal c).isSome = true ↔ HexChar c := by
  unfold hexVal HexChar
  by_cases h1 : 0x30 ≤ c ∧ c ≤ 0x39
  · simp [h1]
  by_cases h2 : 0x61 ≤ c ∧ c ≤ 0x66
  · simp [h1, h2]
  by_cases h3 : 0x41 ≤ c ∧ c ≤ 0x46
  · simp [h1, h2, h3]
  · simp [h1, h2, h3]

theorem simpleEscape_isSome (c : UInt8) : (simpleEscape c).isSome = true ↔ c ∈ lit "\"\\/bfnrt" := by
  have : lit "\"\\/bfnrt" = [0x22, 0x5C, 0x2F, 0x62, 0x66, 0x6E, 0x72, 0x74] := by decide
  rw [this]
  unfold simpleEscape
  simp only [List.mem_cons, List.not_mem_nil, or_false]
  repeat' split
  · rename_i h; simp only [Option.isSome_some, true_iff]; rcases h with h | h | h <;> simp [h]
  all_goals simp_all

theorem scanStr_of_quoted {raw : Str} (h : Quoted raw) (t : Str) : scanStr (raw ++ 0x22 :: t) = some (raw, t) := by
  induction h with
  | nil => rw [List.nil_append, scanStr_cons]; rfl
  | @plain c r h1 h2 h3 _ ih =>
    rw [List.cons_append, scanStr_cons, if_neg h2, if_neg h3, if_neg (by simpa using h1), ih]
    rfl
  | @esc c r hc _ ih =>
    rw [List.cons_append, scanStr_cons, if_neg (by decide), if_pos rfl]
    have h5 : c ≠ 0x75 := by rintro rfl; revert hc; decide
    simp only [List.cons_append, if_neg h5, (simpleEscape_isSome c).2 hc, if_true, ih]
    rfl
  | @uni a b c d r ha hb hc hd _ ih =>
    rw [List.cons_append, scanStr_cons, if_neg (by decide), if_pos rfl]
    simp only [List.cons_append, (hexVal_isSome _).2 ha, (hexVal_isSome _).2 hb, (hexVal_isSome _).2 hc, (hexVal_isSome _).2 hd, if_true, Bool.and_self, ih]
    rfl

theorem quoted_of_scanStr : ∀ (n : Nat) (s : Str), s.length ≤ n → ∀ x, scanStr s = some x → Quoted x.1 ∧ s = x.1 ++ 0x22 :: x.2 := by
  intro n
  induction n with
  | zero => intro s hs x h; simp at hs; subst hs; simp [scanStr] at h
  | succ n ih =>
    intro s hs x h
    cases s with
    | nil => simp [scanStr] at h
    | cons a r =>
      rw [scanStr_cons] at h
      simp only [List.length_cons] at hs
      split at h
      · rename_i ha; cases h; subst ha; exact ⟨.nil, rfl⟩
      · rename_i ha
        split at h
        · rename_i hb
          subst hb
          split at h
          · cases h
          · rename_i c r1
            simp only [List.length_cons] at hs
            split at h
            · rename_i hc
              subst hc
              split at h
              · rename_i h1 h2 h3 h4 r2
                simp only [List.length_cons] at hs
                split at h
                · rename_i hx
                  simp only [Bool.and_eq_true] at hx
                  obtain ⟨y, hy, rfl⟩ := Option.map_eq_some_iff.1 h
                  obtain ⟨q, e⟩ := ih r2 (by omega) y hy
                  refine ⟨.uni ((hexVal_isSome _).1 hx.1.1.1) ((hexVal_isSome _).1 hx.1.1.2) ((hexVal_isSome _).1 hx.1.2) ((hexVal_isSome _).1 hx.2) q, ?_⟩
                  rw [e]; rfl
                · cases h
              · cases h
            · split at h
              · rename_i hc
                obtain ⟨y, hy, rfl⟩ := Option.map_eq_some_iff.1 h
                obtain ⟨q, e⟩ := ih r1 (by omega) y hy
                refine ⟨.esc ((simpleEscape_isSome _).1 hc) q, ?_⟩
                rw [e]; rfl
              · cases h
        · rename_i hb
          split at h
          · cases h
          · rename_i hc
            obtain ⟨y, hy, rfl⟩ := Option.map_eq_some_iff.1 h
            obtain ⟨q, e⟩ := ih r (by omega) y hy
            refine ⟨.plain (by simpa using hc) ha hb q, ?_⟩
            rw [e]; rfl

/-! ## Numbers -/

theorem isDigit_iff (c : UInt8) : isDigit c = true ↔ Digit c := by simp [isDigit, Digit]

theorem dropDigits_nil {s : Str} : dropDigits s = [] ↔ ∀ c ∈ s, Digit c := by
  induction s with
  | nil => simp [dropDigits]
  | cons a r ih =>
    unfold dropDigits at ih ⊢
    rw [List.dropWhile_cons]
    cases h : isDigit a with
    | true =>
      simp only [if_true, ih, List.mem_cons, forall_eq_or_imp]
      exact ⟨fun x => ⟨(isDigit_iff a).1 h, x⟩, fun x => x.2⟩
    | false =>
      simp only [Bool.false_eq_true, if_false]
      refine ⟨fun x => (nomatch x), fun x => ?_⟩
      have := (isDigit_iff a).2 (x a (by simp))
      rw [h] at this; cases this

/-- The exponent of the specification. -/
def IsExp (e : Str) : Prop := e = [] ∨ ∃ a g x, (a = 0x65 ∨ a = 0x45) ∧ (g = [] ∨ g = [0x2B] ∨ g = [0x2D]) ∧ Digits x ∧ e = a :: (g ++ x)

theorem not_sign_of_digit {c : UInt8} (h : Digit c) : ¬ (c = 0x2B ∨ c = 0x2D) := by
  rintro (rfl | rfl) <;> exact absurd h (by unfold Digit; decide)

theorem okExp_iff (s : Str) : okExp s = true ↔ IsExp s := by
  cases s with
  | nil => simp [okExp, IsExp]
  | cons a r =>
    unfold okExp
    by_cases ha : a = 0x65 ∨ a = 0x45
    · simp only [if_pos ha, Bool.and_eq_true, Bool.not_eq_true', List.isEmpty_eq_false_iff, List.isEmpty_iff]
      constructor
      · intro h
        refine Or.inr ?_
        cases r with
        | nil => exact absurd rfl h.1
        | cons d r' =>
          simp only at h
          split at h
          · rename_i hd
            exact ⟨a, [d], r', ha, by rcases hd with rfl | rfl <;> simp, ⟨h.1, dropDigits_nil.1 h.2⟩, rfl⟩
          · exact ⟨a, [], d :: r', ha, Or.inl rfl, ⟨h.1, dropDigits_nil.1 h.2⟩, rfl⟩
      · rintro (h | ⟨a', g, x, _, hg, hx, h⟩)
        · cases h
        · cases h
          rcases hg with rfl | rfl | rfl
          · cases x with
            | nil => exact absurd rfl hx.1
            | cons d x =>
              have := not_sign_of_digit (hx.2 d (by simp))
              simp only [List.nil_append, if_neg this]
              exact ⟨hx.1, dropDigits_nil.2 hx.2⟩
          · simp only [List.singleton_append, true_or, if_true]
            exact ⟨hx.1, dropDigits_nil.2 hx.2⟩
          · simp only [List.singleton_append, or_true, if_true]
            exact ⟨hx.1, dropDigits_nil.2 hx.2⟩
    · simp only [if_neg ha, Bool.false_eq_true, false_iff]
      rintro (h | ⟨a', g, x, ha', _, _, h⟩)
      · cases h
      · cases h; exact ha ha'

theorem isExp_head {e : Str} (h : IsExp e) {c : UInt8} {r : Str} (he : e = c :: r) : ¬ Digit c ∧ c ≠ 0x2E := by
  rcases h with h | ⟨a, g, x, ha, _, _, h⟩
  · rw [h] at he; cases he
  · rw [h] at he; cases he
    rcases ha with rfl | rfl <;> exact ⟨by unfold Digit; decide, by decide⟩

theorem dropDigits_append {x e : Str} (hx : ∀ c ∈ x, Digit c) (he : ∀ c r, e = c :: r → ¬ Digit c) : dropDigits (x ++ e) = e := by
  induction x with
  | nil =>
    cases e with
    | nil => rfl
    | cons c r =>
      have : isDigit c = false := by
        cases h : isDigit c with
        | false => rfl
        | true => exact absurd ((isDigit_iff c).1 h) (he c r rfl)
      simp [dropDigits, this]
  | cons a x ih =>
    have := (isDigit_iff a).2 (hx a (by simp))
    unfold dropDigits at ih ⊢
    rw [List.cons_append, List.dropWhile_cons, this, if_pos rfl]
    exact ih fun c hc => hx c (by simp [hc])

theorem dropDigits_split (s : Str) : ∃ x, s = x ++ dropDigits s ∧ ∀ c ∈ x, Digit c := by
  induction s with
  | nil => exact ⟨[], rfl, fun _ h => nomatch h⟩
  | cons a r ih =>
    unfold dropDigits at ih ⊢
    rw [List.dropWhile_cons]
    cases h : isDigit a with
    | true =>
      obtain ⟨x, h1, h2⟩ := ih
      refine ⟨a :: x, by simp only [if_true, List.cons_append]; rw [← h1], ?_⟩
      intro c hc
      rcases List.mem_cons.1 hc with rfl | hc
      · exact (isDigit_iff _).1 h
      · exact h2 c hc
    | false => exact ⟨[], rfl, fun _ h => nomatch h⟩

/-- Fraction and exponent of the specification. -/
def IsFrac (s : Str) : Prop := ∃ f e, s = f ++ e ∧ (f = [] ∨ ∃ x, Digits x ∧ f = 0x2E :: x) ∧ IsExp e

theorem okFrac_iff (s : Str) : okFrac s = true ↔ IsFrac s := by
  cases s with
  | nil => simp only [okFrac, true_iff]; exact ⟨[], [], rfl, Or.inl rfl, Or.inl rfl⟩
  | cons c r =>
    unfold okFrac
    by_cases hc : c = 0x2E
    · simp only [if_pos hc]
      subst hc
      constructor
      · intro h
        cases r with
        | nil => cases h
        | cons d r =>
          simp only [Bool.and_eq_true] at h
          obtain ⟨x, h1, h2⟩ := dropDigits_split (d :: r)
          refine ⟨0x2E :: x, dropDigits (d :: r), by rw [List.cons_append, ← h1], Or.inr ⟨x, ⟨?_, h2⟩, rfl⟩, (okExp_iff _).1 h.2⟩
          rintro rfl
          have : dropDigits (d :: r) = dropDigits r := by unfold dropDigits; rw [List.dropWhile_cons, h.1, if_pos rfl]
          rw [List.nil_append, this] at h1
          have h3 : (dropDigits r).length ≤ r.length := (List.dropWhile_suffix _).length_le
          rw [← h1] at h3
          simp only [List.length_cons] at h3
          omega
      · rintro ⟨f, e, h1, h2, h3⟩
        rcases h2 with rfl | ⟨x, hx, rfl⟩
        · exact absurd rfl (isExp_head h3 h1.symm).2
        · rw [List.cons_append] at h1
          have h1 := (List.cons.inj h1).2
          subst h1
          cases x with
          | nil => exact absurd rfl hx.1
          | cons d x =>
            simp only [List.cons_append, Bool.and_eq_true]
            refine ⟨(isDigit_iff d).2 (hx.2 d (by simp)), ?_⟩
            rw [← List.cons_append, dropDigits_append hx.2 (fun c r he => (isExp_head h3 he).1)]
            exact (okExp_iff e).2 h3
    · simp only [if_neg hc]
      rw [okExp_iff]
      constructor
      · exact fun h => ⟨[], _, rfl, Or.inl rfl, h⟩
      · rintro ⟨f, e, h1, h2, h3⟩
        rcases h2 with rfl | ⟨x, hx, rfl⟩
        · rw [List.nil_append] at h1; rw [h1]; exact h3
        · exact absurd (List.cons.inj h1).1 hc

theorem isFrac_head {s : Str} (h : IsFrac s) {c : UInt8} {r : Str} (hs : s = c :: r) : ¬ Digit c := by
  obtain ⟨f, e, rfl, h2, h3⟩ := h
  rcases h2 with rfl | ⟨x, hx, rfl⟩
  · exact (isExp_head h3 hs).1
  · cases hs; unfold Digit; decide

theorem okNum_iff (s : Str) : okNum s = true ↔ Number s := by
  have body : ∀ t : Str, (match t with
      | [] => false
      | c :: r => if c = 0x30 then okFrac r else isDigit c && okFrac (dropDigits r)) = true ↔
      ∃ i q, t = i ++ q ∧ (i = [0x30] ∨ Digits i ∧ i.head? ≠ some 0x30) ∧ IsFrac q := by
    intro t
    cases t with
    | nil =>
      simp only [Bool.false_eq_true, false_iff]
      rintro ⟨i, q, h1, h2, _⟩
      have := List.append_eq_nil_iff.1 h1.symm
      rcases h2 with h2 | h2
      · rw [this.1] at h2; cases h2
      · exact h2.1.1 this.1
    | cons c r =>
      simp only
      by_cases hc : c = 0x30
      · rw [if_pos hc, okFrac_iff]
        subst hc
        constructor
        · exact fun h => ⟨[0x30], r, rfl, Or.inl rfl, h⟩
        · rintro ⟨i, q, h1, h2, h3⟩
          rcases h2 with rfl | ⟨h2, h4⟩
          · rw [(List.cons.inj h1).2]; exact h3
          · cases i with
            | nil => exact absurd rfl h2.1
            | cons a i => rw [← (List.cons.inj h1).1] at h4; exact absurd rfl h4
      · rw [if_neg hc, Bool.and_eq_true, okFrac_iff]
        constructor
        · rintro ⟨h1, h2⟩
          obtain ⟨x, h3, h4⟩ := dropDigits_split r
          refine ⟨c :: x, _, by rw [List.cons_append, ← h3], Or.inr ⟨⟨by simp, ?_⟩, ?_⟩, h2⟩
          · intro a ha
            rcases List.mem_cons.1 ha with rfl | ha
            · exact (isDigit_iff _).1 h1
            · exact h4 a ha
          · simpa using hc
        · rintro ⟨i, q, h1, h2, h3⟩
          rcases h2 with rfl | ⟨h2, h4⟩
          · exact absurd (List.cons.inj h1).1 hc
          · cases i with
            | nil => exact absurd rfl h2.1
            | cons a i =>
              obtain ⟨e1, e2⟩ := List.cons.inj h1
              rw [show r = i ++ q from e2]
              subst e1
              refine ⟨(isDigit_iff _).2 (h2.2 _ (by simp)), ?_⟩
              rw [dropDigits_append (fun b hb => h2.2 b (by simp [hb])) (fun _ _ hq => isFrac_head h3 hq)]
              exact h3
  have whole : okNum s = true ↔ ∃ m t, s = m ++ t ∧ (m = [] ∨ m = [0x2D]) ∧ ∃ i q, t = i ++ q ∧ (i = [0x30] ∨ Digits i ∧ i.head? ≠ some 0x30) ∧ IsFrac q := by
    unfold okNum
    refine (body _).trans ?_
    cases s with
    | nil =>
      constructor
      · exact fun h => ⟨[], [], rfl, Or.inl rfl, h⟩
      · rintro ⟨m, t, h1, _, h3⟩
        rw [(List.append_eq_nil_iff.1 h1.symm).2] at h3
        exact h3
    | cons c r =>
      simp only
      by_cases hc : c = 0x2D
      · subst hc
        simp only [if_pos]
        constructor
        · exact fun h => ⟨[0x2D], r, rfl, Or.inr rfl, h⟩
        · rintro ⟨m, t, h1, h2, h3⟩
          rcases h2 with rfl | rfl
          · exfalso
            obtain ⟨i, q, h4, h5, _⟩ := h3
            rw [List.nil_append] at h1
            rw [← h1] at h4
            rcases h5 with rfl | ⟨h5, _⟩
            · exact absurd (List.cons.inj h4).1 (by decide)
            · cases i with
              | nil => exact h5.1 rfl
              | cons a i =>
                have := h5.2 a (by simp)
                rw [← (List.cons.inj h4).1] at this
                exact absurd this (by unfold Digit; decide)
          · rw [(List.cons.inj h1).2]; exact h3
      · simp only [if_neg hc]
        constructor
        · exact fun h => ⟨[], _, rfl, Or.inl rfl, h⟩
        · rintro ⟨m, t, h1, h2, h3⟩
          rcases h2 with rfl | rfl
          · rw [List.nil_append] at h1; rw [h1]; exact h3
          · exact absurd (List.cons.inj h1).1 hc
  rw [whole]
  constructor
  · rintro ⟨m, t, rfl, hm, i, q, rfl, hi, f, e, rfl, hf, he⟩
    exact ⟨m, i, f, e, by simp, hm, hi, hf, he⟩
  · rintro ⟨m, i, f, e, rfl, hm, hi, hf, he⟩
    exact ⟨m, i ++ (f ++ e), by simp, hm, i, f ++ e, rfl, hi, f, e, rfl, hf, he⟩

/-! ## The parser accepts every text of the grammar -/

/-- What follows a number ends it. -/
def Ends (r : Str) : Prop := ∀ c l, r = c :: l → isNumChar c = false

theorem ends_nil : Ends [] := fun _ _ h => nomatch h
theorem ends_cons {c : UInt8} (h : isNumChar c = false) (l : Str) : Ends (c :: l) := fun _ _ e => by cases e; exact h
theorem ends_blank {w : Str} (h : Blank w) {r : Str} (hr : Ends r) : Ends (w ++ r) := by
  cases w with
  | nil => exact hr
  | cons c w =>
    refine ends_cons ?_ _
    rcases h c (by simp) with rfl | rfl | rfl | rfl <;> decide

theorem numChar_of_digit {c : UInt8} (h : Digit c) : isNumChar c = true := by
  unfold isNumChar
  simp [h.1, h.2]

theorem number_chars {s : Str} (h : Number s) : ∀ c ∈ s, isNumChar c = true := by
  obtain ⟨m, i, f, e, rfl, hm, hi, hf, he⟩ := h
  intro c hc
  simp only [List.mem_append] at hc
  rcases hc with ((hc | hc) | hc) | hc
  · rcases hm with rfl | rfl
    · cases hc
    · rw [List.mem_singleton.1 hc]; decide
  · rcases hi with rfl | hi
    · rw [List.mem_singleton.1 hc]; decide
    · exact numChar_of_digit (hi.1.2 c hc)
  · rcases hf with rfl | ⟨x, hx, rfl⟩
    · cases hc
    · rcases List.mem_cons.1 hc with rfl | hc
      · decide
      · exact numChar_of_digit (hx.2 c hc)
  · rcases he with rfl | ⟨a, g, x, ha, hg, hx, rfl⟩
    · cases hc
    · rcases List.mem_cons.1 hc with rfl | hc
      · rcases ha with rfl | rfl <;> decide
      · rcases List.mem_append.1 hc with hc | hc
        · rcases hg with rfl | rfl | rfl
          · cases hc
          · rw [List.mem_singleton.1 hc]; decide
          · rw [List.mem_singleton.1 hc]; decide
        · exact numChar_of_digit (hx.2 c hc)

theorem number_ne_nil {s : Str} (h : Number s) : s ≠ [] := by
  rintro rfl
  have := (okNum_iff []).2 h
  cases this

theorem takeWhile_numChars {s r : Str} (hs : ∀ c ∈ s, isNumChar c = true) (hr : Ends r) : (s ++ r).takeWhile isNumChar = s ∧ (s ++ r).dropWhile isNumChar = r := by
  induction s with
  | nil =>
    cases r with
    | nil => exact ⟨rfl, rfl⟩
    | cons c l => simp [hr c l rfl]
  | cons a s ih =>
    have ha := hs a (by simp)
    obtain ⟨h1, h2⟩ := ih fun c hc => hs c (by simp [hc])
    simp [ha, h1, h2]

/-- No value begins with white space or with a closing bracket or brace. -/
theorem text_head {v : Val} {t : Str} (h : Text v t) : ∃ c r, t = c :: r ∧ isWs c = false ∧ c ≠ 0x5D ∧ c ≠ 0x7D := by
  cases h with
  | null => exact ⟨_, _, rfl, by decide, by decide, by decide⟩
  | true => exact ⟨_, _, rfl, by decide, by decide, by decide⟩
  | false => exact ⟨_, _, rfl, by decide, by decide, by decide⟩
  | num hs =>
    cases t with
    | nil => exact absurd rfl (number_ne_nil hs)
    | cons c r =>
      have := number_chars hs c (by simp)
      refine ⟨c, r, rfl, ?_, ?_, ?_⟩
      · cases hw : isWs c with
        | false => rfl
        | true => rcases (isWs_iff c).1 hw with rfl | rfl | rfl | rfl <;> exact absurd this (by decide)
      · rintro rfl; exact absurd this (by decide)
      · rintro rfl; exact absurd this (by decide)
  | str => exact ⟨_, _, rfl, by decide, by decide, by decide⟩
  | arr0 => exact ⟨_, _, rfl, by decide, by decide, by decide⟩
  | arr => exact ⟨_, _, rfl, by decide, by decide, by decide⟩
  | obj0 => exact ⟨_, _, rfl, by decide, by decide, by decide⟩
  | obj => exact ⟨_, _, rfl, by decide, by decide, by decide⟩

theorem skipWs_text {v : Val} {t : Str} (h : Text v t) (r : Str) : skipWs (t ++ r) = t ++ r := by
  obtain ⟨c, l, rfl, h1, _⟩ := text_head h
  exact skipWs_cons h1 _

mutual
theorem pval_text : ∀ {v : Val} {t : Str}, Text v t → ∀ {d : Nat}, depth v ≤ d → ∀ {w r : Str}, Blank w → Ends r → ∃ n, pval n d (w ++ (t ++ r)) = some (v, r)
  | _, _, .null, d, _, w, r, hw, _ => ⟨1, by rw [pval, skipWs_blank hw]; rfl⟩
  | _, _, .true, d, _, w, r, hw, _ => ⟨1, by rw [pval, skipWs_blank hw]; rfl⟩
  | _, _, .false, d, _, w, r, hw, _ => ⟨1, by rw [pval, skipWs_blank hw]; rfl⟩
  | _, t, .num hs, d, _, w, r, hw, hr => by
    refine ⟨1, ?_⟩
    rw [pval, skipWs_blank hw, skipWs_text (.num hs)]
    obtain ⟨c, l, e, _⟩ := text_head (.num hs)
    have hc := number_chars hs c (by rw [e]; simp)
    have hx := takeWhile_numChars (number_chars hs) hr
    rw [e, List.cons_append] at hx ⊢
    have n1 : c ≠ 0x22 := by rintro rfl; exact absurd hc (by decide)
    have n2 : c ≠ 0x5B := by rintro rfl; exact absurd hc (by decide)
    have n3 : c ≠ 0x7B := by rintro rfl; exact absurd hc (by decide)
    simp only [if_neg n1, if_neg n2, if_neg n3, parseOther, parseLit_num hc, Option.none_or, parseNum, hx.1, hx.2]
    rw [← e, (okNum_iff _).2 hs, if_pos rfl]
  | _, _, .str (raw := raw) hq hs, d, _, w, r, hw, _ => by
    obtain rfl := unquote_of_says hs
    refine ⟨1, ?_⟩
    rw [pval, skipWs_blank hw, List.cons_append, skipWs_cons (by decide), List.append_assoc, List.singleton_append]
    simp only [if_true, scanStr_of_quoted hq]
    rfl
  | _, _, .arr0 (w := u) hu, d, hd, w, r, hw, _ => by
    refine ⟨2, ?_⟩
    obtain ⟨e, rfl⟩ : ∃ e, d = e + 1 := ⟨d - 1, by simp [depth] at hd; omega⟩
    rw [pval, skipWs_blank hw, List.cons_append, skipWs_cons (by decide)]
    simp only [show ((0x5B : UInt8) = 0x22) = False from by decide, if_false, if_true]
    rw [pvals, List.append_assoc, skipWs_blank hu, List.singleton_append, skipWs_cons (by decide)]
    rfl
  | _, _, .arr (t := t) hl, d, hd, w, r, hw, _ => by
    simp only [depth] at hd
    obtain ⟨e, rfl⟩ : ∃ e, d = e + 1 := ⟨d - 1, by omega⟩
    obtain ⟨n, hn⟩ := pvals_text hl true (d := e) (by omega) (r := r)
    refine ⟨n + 1, ?_⟩
    rw [pval, skipWs_blank hw, List.cons_append, skipWs_cons (by decide)]
    simp only [show ((0x5B : UInt8) = 0x22) = False from by decide, if_false, if_true, hn]
    rfl
  | _, _, .obj0 (w := u) hu, d, hd, w, r, hw, _ => by
    refine ⟨2, ?_⟩
    obtain ⟨e, rfl⟩ : ∃ e, d = e + 1 := ⟨d - 1, by simp [depth] at hd; omega⟩
    rw [pval, skipWs_blank hw, List.cons_append, skipWs_cons (by decide)]
    simp only [show ((0x7B : UInt8) = 0x22) = False from by decide, show ((0x7B : UInt8) = 0x5B) = False from by decide, if_false, if_true]
    rw [pfields, List.append_assoc, skipWs_blank hu, List.singleton_append, skipWs_cons (by decide)]
    rfl
  | _, _, .obj (t := t) hl, d, hd, w, r, hw, _ => by
    simp only [depth] at hd
    obtain ⟨e, rfl⟩ : ∃ e, d = e + 1 := ⟨d - 1, by omega⟩
    obtain ⟨n, hn⟩ := pfields_text hl true (d := e) (by omega) (r := r)
    refine ⟨n + 1, ?_⟩
    rw [pval, skipWs_blank hw, List.cons_append, skipWs_cons (by decide)]
    simp only [show ((0x7B : UInt8) = 0x22) = False from by decide, show ((0x7B : UInt8) = 0x5B) = False from by decide, if_false, if_true, hn]
    rfl
theorem pvals_text : ∀ {l : Vals} {t : Str}, Elems l t → ∀ (first : Bool) {d : Nat}, depthVals l ≤ d → ∀ {r : Str}, ∃ n, pvals n d first (t ++ r) = some (l, r)
  | _, _, .last (v := v) (t := t) (w := w) (w' := w') hw hv hw', first, d, hd, r => by
    simp only [depthVals] at hd
    obtain ⟨n, hn⟩ := pval_text hv (d := d) (by omega) (w := []) (r := w' ++ 0x5D :: r) (fun _ h => nomatch h) (ends_blank hw' (ends_cons (by decide) r))
    refine ⟨n + 1, ?_⟩
    have e : w ++ (t ++ (w' ++ [0x5D])) ++ r = w ++ (t ++ (w' ++ 0x5D :: r)) := by simp
    rw [e, pvals, skipWs_blank hw, skipWs_text hv]
    obtain ⟨c, s, h1, _, h2, _⟩ := text_head hv
    rw [List.nil_append] at hn
    rw [h1, List.cons_append] at hn ⊢
    simp only [h2, decide_false, Bool.and_false, Bool.false_eq_true, if_false, hn, Option.bind_some]
    rw [skipWs_blank hw', skipWs_cons (by decide)]
    rfl
  | _, _, .more (v := v) (t := t) (w := w) (w' := w') (l := l) (r := q) hw hv hw' hl, first, d, hd, r => by
    simp only [depthVals] at hd
    obtain ⟨n, hn⟩ := pval_text hv (d := d) (by omega) (w := []) (r := w' ++ 0x2C :: (q ++ r)) (fun _ h => nomatch h) (ends_blank hw' (ends_cons (by decide) _))
    obtain ⟨m, hm⟩ := pvals_text hl false (d := d) (by omega) (r := r)
    refine ⟨max n m + 1, ?_⟩
    have hn := (mono n (Nat.le_max_left n m) (Nat.le_refl d)).1 _ _ hn
    have hm := (mono m (Nat.le_max_right n m) (Nat.le_refl d)).2.1 _ _ _ hm
    have e : w ++ (t ++ (w' ++ 0x2C :: q)) ++ r = w ++ (t ++ (w' ++ 0x2C :: (q ++ r))) := by simp
    rw [e, pvals, skipWs_blank hw, skipWs_text hv]
    obtain ⟨c, s, h1, _, h2, _⟩ := text_head hv
    rw [List.nil_append] at hn
    rw [h1, List.cons_append] at hn ⊢
    simp only [h2, decide_false, Bool.and_false, Bool.false_eq_true, if_false, hn, Option.bind_some]
    rw [skipWs_blank hw', skipWs_cons (by decide)]
    simp only [show ((0x2C : UInt8) = 0x5D) = False from by decide, if_false, if_true, hm]
    rfl
theorem pfields_text : ∀ {l : Fields} {t : Str}, Members l t → ∀ (first : Bool) {d : Nat}, depthFields l ≤ d → ∀ {r : Str}, ∃ n, pfields n d first (t ++ r) = some (l, r)
  | _, _, .last (raw := raw) (v := v) (t := t) (w1 := w1) (w2 := w2) (w3 := w3) (w4 := w4) h1 hq hs h2 h3 hv h4, first, d, hd, r => by
    obtain rfl := unquote_of_says hs
    simp only [depthFields] at hd
    obtain ⟨n, hn⟩ := pval_text hv (d := d) (by omega) (w := w3) (r := w4 ++ 0x7D :: r) h3 (ends_blank h4 (ends_cons (by decide) r))
    refine ⟨n + 1, ?_⟩
    have e : w1 ++ 0x22 :: (raw ++ 0x22 :: (w2 ++ 0x3A :: (w3 ++ (t ++ (w4 ++ [0x7D]))))) ++ r =
        w1 ++ 0x22 :: (raw ++ 0x22 :: (w2 ++ 0x3A :: (w3 ++ (t ++ (w4 ++ 0x7D :: r))))) := by simp
    rw [e, pfields, skipWs_blank h1, skipWs_cons (by decide)]
    simp only [show ((0x22 : UInt8) = 0x7D) = False from by decide, decide_false, Bool.and_false, Bool.false_eq_true, if_false, if_true, scanStr_of_quoted hq, Option.bind_some]
    rw [skipWs_blank h2, skipWs_cons (by decide)]
    simp only [if_true, hn, Option.bind_some]
    rw [skipWs_blank h4, skipWs_cons (by decide)]
    rfl
  | _, _, .more (raw := raw) (v := v) (t := t) (w1 := w1) (w2 := w2) (w3 := w3) (w4 := w4) (l := l) (r := q) h1 hq hs h2 h3 hv h4 hl, first, d, hd, r => by
    obtain rfl := unquote_of_says hs
    simp only [depthFields] at hd
    obtain ⟨n, hn⟩ := pval_text hv (d := d) (by omega) (w := w3) (r := w4 ++ 0x2C :: (q ++ r)) h3 (ends_blank h4 (ends_cons (by decide) _))
    obtain ⟨m, hm⟩ := pfields_text hl false (d := d) (by omega) (r := r)
    refine ⟨max n m + 1, ?_⟩
    have hn := (mono n (Nat.le_max_left n m) (Nat.le_refl d)).1 _ _ hn
    have hm := (mono m (Nat.le_max_right n m) (Nat.le_refl d)).2.2 _ _ _ hm
    have e : w1 ++ 0x22 :: (raw ++ 0x22 :: (w2 ++ 0x3A :: (w3 ++ (t ++ (w4 ++ 0x2C :: q))))) ++ r =
        w1 ++ 0x22 :: (raw ++ 0x22 :: (w2 ++ 0x3A :: (w3 ++ (t ++ (w4 ++ 0x2C :: (q ++ r)))))) := by simp
    rw [e, pfields, skipWs_blank h1, skipWs_cons (by decide)]
    simp only [show ((0x22 : UInt8) = 0x7D) = False from by decide, decide_false, Bool.and_false, Bool.false_eq_true, if_false, if_true, scanStr_of_quoted hq, Option.bind_some]
    rw [skipWs_blank h2, skipWs_cons (by decide)]
    simp only [if_true, hn, Option.bind_some]
    rw [skipWs_blank h4, skipWs_cons (by decide)]
    simp only [show ((0x2C : UInt8) = 0x7D) = False from by decide, if_false, if_true, hm]
    rfl
end

/-! ## The parser accepts only texts of the grammar -/

theorem text_of_other {s : Str} {x : Val × Str} (h : parseOther s = some x) : ∃ t, s = t ++ x.2 ∧ Text x.1 t := by
  unfold parseOther at h
  cases hl : parseLit s with
  | some y =>
    rw [hl] at h
    cases h
    unfold parseLit at hl
    split at hl
    · cases hl; exact ⟨lit "null", rfl, .null⟩
    · cases hl; exact ⟨lit "true", rfl, .true⟩
    · cases hl; exact ⟨lit "false", rfl, .false⟩
    · cases hl
  | none =>
    rw [hl] at h
    simp only [Option.none_or, parseNum] at h
    split at h
    · rename_i hok
      cases h
      exact ⟨_, List.takeWhile_append_dropWhile.symm, .num ((okNum_iff _).1 hok)⟩
    · cases h

theorem sound : ∀ (n : Nat) {d : Nat},
    (∀ s x, pval n d s = some x → ∃ w t, s = w ++ (t ++ x.2) ∧ Blank w ∧ Text x.1 t) ∧
    (∀ f s x, pvals n d f s = some x → ∃ t, s = t ++ x.2 ∧ (Elems x.1 t ∨ f = true ∧ x.1 = .nil ∧ ∃ w, Blank w ∧ t = w ++ [0x5D])) ∧
    (∀ f s x, pfields n d f s = some x → ∃ t, s = t ++ x.2 ∧ (Members x.1 t ∨ f = true ∧ x.1 = .nil ∧ ∃ w, Blank w ∧ t = w ++ [0x7D])) := by
  intro n
  induction n with
  | zero => intro d; refine ⟨?_, ?_, ?_⟩ <;> intros <;> rename_i h <;> simp [pval, pvals, pfields] at h
  | succ n ih =>
    intro d
    refine ⟨?_, ?_, ?_⟩
    · intro s x h
      simp only [pval] at h
      obtain ⟨w, hw, hb⟩ := skipWs_split s
      split at h
      · cases h
      · rename_i c r heq
        rw [heq] at hw
        split at h
        · rename_i hc
          obtain ⟨y, hy, rfl⟩ := Option.map_eq_some_iff.1 h
          obtain ⟨hq, e⟩ := quoted_of_scanStr _ r (Nat.le_refl _) y hy
          exact ⟨w, 0x22 :: (y.1 ++ [0x22]), by rw [hw, hc, e]; simp, hb, .str hq (says_unquote hq)⟩
        · split at h
          · rename_i hc
            cases d with
            | zero => cases h
            | succ d =>
              obtain ⟨y, hy, rfl⟩ := Option.map_eq_some_iff.1 h
              obtain ⟨t, e, ht⟩ := (ih (d := d)).2.1 _ _ _ hy
              refine ⟨w, 0x5B :: t, by rw [hw, hc, e]; simp, hb, ?_⟩
              rcases ht with ht | ⟨_, h1, u, hu, rfl⟩
              · exact .arr ht
              · simp only [h1]; exact .arr0 hu
          · split at h
            · rename_i hc
              cases d with
              | zero => cases h
              | succ d =>
                obtain ⟨y, hy, rfl⟩ := Option.map_eq_some_iff.1 h
                obtain ⟨t, e, ht⟩ := (ih (d := d)).2.2 _ _ _ hy
                refine ⟨w, 0x7B :: t, by rw [hw, hc, e]; simp, hb, ?_⟩
                rcases ht with ht | ⟨_, h1, u, hu, rfl⟩
                · exact .obj ht
                · simp only [h1]; exact .obj0 hu
            · obtain ⟨t, e, ht⟩ := text_of_other h
              exact ⟨w, t, by rw [hw, e], hb, ht⟩
    · intro f s x h
      simp only [pvals] at h
      obtain ⟨w, hw, hb⟩ := skipWs_split s
      split at h
      · cases h
      · rename_i c r heq
        rw [heq] at hw
        split at h
        · rename_i hc
          simp only [Bool.and_eq_true, decide_eq_true_eq] at hc
          cases h
          exact ⟨w ++ [0x5D], by rw [hw, hc.2]; simp, Or.inr ⟨hc.1, rfl, w, hb, rfl⟩⟩
        · obtain ⟨y, hy, h⟩ := Option.bind_eq_some_iff.1 h
          obtain ⟨w1, t, e, hb1, ht⟩ := (ih (d := d)).1 _ _ hy
          have hbb : Blank (w ++ w1) := fun a ha => (List.mem_append.1 ha).elim (hb a) (hb1 a)
          obtain ⟨w2, hw2, hb2⟩ := skipWs_split y.2
          split at h
          · cases h
          · rename_i c' r' heq'
            rw [heq'] at hw2
            split at h
            · rename_i hc'
              cases h
              exact ⟨_, by rw [hw, e, hw2, hc']; simp, Or.inl (.last hbb ht hb2)⟩
            · split at h
              · rename_i hc'
                obtain ⟨z, hz, rfl⟩ := Option.map_eq_some_iff.1 h
                obtain ⟨t', e', ht'⟩ := (ih (d := d)).2.1 _ _ _ hz
                rcases ht' with ht' | ⟨h1, _⟩
                · exact ⟨_, by rw [hw, e, hw2, hc', e']; simp, Or.inl (.more hbb ht hb2 ht')⟩
                · cases h1
              · cases h
    · intro f s x h
      simp only [pfields] at h
      obtain ⟨w, hw, hb⟩ := skipWs_split s
      split at h
      · cases h
      · rename_i c r heq
        rw [heq] at hw
        split at h
        · rename_i hc
          simp only [Bool.and_eq_true, decide_eq_true_eq] at hc
          cases h
          exact ⟨w ++ [0x7D], by rw [hw, hc.2]; simp, Or.inr ⟨hc.1, rfl, w, hb, rfl⟩⟩
        · split at h
          · rename_i hc
            obtain ⟨k, hk, h⟩ := Option.bind_eq_some_iff.1 h
            obtain ⟨hq, ek⟩ := quoted_of_scanStr _ r (Nat.le_refl _) k hk
            obtain ⟨w2, hw2, hb2⟩ := skipWs_split k.2
            split at h
            · cases h
            · rename_i c2 r2 heq2
              rw [heq2] at hw2
              split at h
              · rename_i hc2
                obtain ⟨y, hy, h⟩ := Option.bind_eq_some_iff.1 h
                obtain ⟨w3, t, e, hb3, ht⟩ := (ih (d := d)).1 _ _ hy
                obtain ⟨w4, hw4, hb4⟩ := skipWs_split y.2
                split at h
                · cases h
                · rename_i c4 r4 heq4
                  rw [heq4] at hw4
                  split at h
                  · rename_i hc4
                    cases h
                    exact ⟨_, by rw [hw, hc, ek, hw2, hc2, e, hw4, hc4]; simp, Or.inl (.last hb hq (says_unquote hq) hb2 hb3 ht hb4)⟩
                  · split at h
                    · rename_i hc4
                      obtain ⟨z, hz, rfl⟩ := Option.map_eq_some_iff.1 h
                      obtain ⟨t', e', ht'⟩ := (ih (d := d)).2.2 _ _ _ hz
                      rcases ht' with ht' | ⟨h1, _⟩
                      · exact ⟨_, by rw [hw, hc, ek, hw2, hc2, e, hw4, hc4, e']; simp, Or.inl (.more hb hq (says_unquote hq) hb2 hb3 ht hb4 ht')⟩
                      · cases h1
                    · cases h
              · cases h
          · cases h

/-- The parser accepts exactly the texts of the grammar that are not nested too deeply, and gives their value. -/
theorem parseWith_iff (d : Nat) (s : Str) (v : Val) : parseWith d s = some v ↔ IsText v s ∧ depth v ≤ d := by
  constructor
  · intro h
    unfold parseWith at h
    split at h
    · rename_i v' r hp
      split at h
      · rename_i hr
        cases h
        obtain ⟨w, t, e, hw, ht⟩ := (sound _).1 _ _ hp
        exact ⟨⟨w, t, r, e, hw, ht, blank_of_skip hr⟩, (depth_le _).1 _ _ hp⟩
      · cases h
    · cases h
  · rintro ⟨⟨w, t, w', rfl, hw, ht, hw'⟩, hd⟩
    have he : Ends w' := by simpa using ends_blank hw' ends_nil
    obtain ⟨n, hn⟩ := pval_text ht hd hw he
    unfold parseWith
    rw [pval_fuel hn]
    have : skipWs w' = [] := by simpa [skipWs] using skipWs_blank hw' []
    simp [this]

/-- See `parseWith_iff`. -/
theorem parse_iff (s : Str) (v : Val) : parse s = some v ↔ IsText v s ∧ depth v ≤ maxDepth := parseWith_iff maxDepth s v

/-- A text has only one value. -/
theorem text_unique {s : Str} {v v' : Val} (h : IsText v s) (h' : IsText v' s) : v = v' := by
  have e := (parseWith_iff (max (depth v) (depth v')) s v).2 ⟨h, Nat.le_max_left _ _⟩
  have e' := (parseWith_iff (max (depth v) (depth v')) s v').2 ⟨h', Nat.le_max_right _ _⟩
  rw [e] at e'
  exact Option.some.inj e'

/-- What is written is a text of what was meant. -/
theorem emit_text (sh : Bool) (v : Val) (h : NoNum v) : IsText (clean v) (emit sh v) := by
  have := parseWith_emit sh (depth v) v h
  rw [if_pos (Nat.le_refl _)] at this
  exact ((parseWith_iff _ _ _).1 this).1

/-- Two texts of the same value are read alike. -/
theorem parse_same {s s' : Str} {v : Val} (h : IsText v s) (h' : IsText v s') : parse s = parse s' := by
  by_cases hd : depth v ≤ maxDepth
  · rw [(parse_iff s v).2 ⟨h, hd⟩, (parse_iff s' v).2 ⟨h', hd⟩]
  · have none : ∀ {t : Str}, IsText v t → parse t = none := by
      intro t ht
      cases hp : parse t with
      | none => rfl
      | some x =>
        obtain ⟨h1, h2⟩ := (parse_iff t x).1 hp
        rw [text_unique h1 ht] at h2
        exact absurd h2 hd
    rw [none h, none h']

end Json
end Verif
