import Verif.Json.Str
/-!
# Valid UTF-8 is the encoding of Unicode characters

`validUtf8` follows the table of `unicode/utf8`; here it is shown to be what it should be: a text is valid exactly when it
is the concatenation of the encodings of Unicode scalar values.
-/
set_option autoImplicit false
namespace Verif
namespace Json

/-- Unicode scalar values: code points without the surrogates. -/
def Scalar (r : Nat) : Prop := r < 0xD800 ∨ (0xE000 ≤ r ∧ r < 0x110000)

theorem toNat_ofNat {n : Nat} (h : n < 256) : (UInt8.ofNat n).toNat = n := by
  simp; omega

theorem within_iff {lo hi b : UInt8} : within lo hi b = true ↔ lo.toNat ≤ b.toNat ∧ b.toNat ≤ hi.toNat := by
  simp [within, UInt8.le_iff_toNat_le]

theorem cont_iff {b : UInt8} : cont b = true ↔ 128 ≤ b.toNat ∧ b.toNat ≤ 191 := within_iff

theorem second_eq (a : UInt8) : second a =
    if a.toNat < 0xC2 then none
    else if a.toNat < 0xE0 then some (0x80, 0xBF, 2)
    else if a.toNat = 0xE0 then some (0xA0, 0xBF, 3)
    else if a.toNat = 0xED then some (0x80, 0x9F, 3)
    else if a.toNat < 0xF0 then some (0x80, 0xBF, 3)
    else if a.toNat = 0xF0 then some (0x90, 0xBF, 4)
    else if a.toNat < 0xF4 then some (0x80, 0xBF, 4)
    else if a.toNat = 0xF4 then some (0x80, 0x8F, 4)
    else none := by
  simp only [second, UInt8.lt_iff_toNat_lt, ← UInt8.toNat_inj]; rfl

theorem head_two {a b : UInt8} {t : Str} (h1 : 0xC2 ≤ a.toNat) (h2 : a.toNat < 0xE0) (h3 : cont b = true) :
    head a (b :: t) = .multi [a, b] := by
  unfold head
  rw [if_neg (by rw [UInt8.lt_iff_toNat_lt]; simp; omega), second_eq, if_neg (by omega), if_pos h2]
  simp only
  exact if_pos h3

theorem head_three {a b c lo hi : UInt8} {t : Str} (ha : 0x80 ≤ a.toNat) (h1 : second a = some (lo, hi, 3)) (h2 : within lo hi b = true)
    (h3 : cont c = true) : head a (b :: c :: t) = .multi [a, b, c] := by
  unfold head
  rw [if_neg (by rw [UInt8.lt_iff_toNat_lt]; simp; omega), h1]
  simp only
  rw [if_pos (by simp [h2, h3])]

theorem head_four {a b c d lo hi : UInt8} {t : Str} (ha : 0x80 ≤ a.toNat) (h1 : second a = some (lo, hi, 4)) (h2 : within lo hi b = true)
    (h3 : cont c = true) (h4 : cont d = true) : head a (b :: c :: d :: t) = .multi [a, b, c, d] := by
  unfold head
  rw [if_neg (by rw [UInt8.lt_iff_toNat_lt]; simp; omega), h1]
  simp only
  rw [if_pos (by simp [h2, h3, h4])]

theorem cont_ofNat {n : Nat} (h : n < 64) : cont (UInt8.ofNat (0x80 + n)) = true := by
  rw [cont_iff, toNat_ofNat (by omega)]; omega

theorem chunks_of_head {a : UInt8} {r t : Str} {c : Chunk} (h : head a r = c) (hs : a :: r = c.src ++ t) :
    chunks (a :: r) = c :: chunks t := by
  obtain ⟨t', h1, h2⟩ := chunks_cons a r
  rw [h] at h1 h2
  rw [hs] at h1
  rw [h2, List.append_cancel_left h1]

/-- The encoding of a character is read as one valid step. -/
theorem chunks_rune {r : Nat} (h : Scalar r) (t : Str) :
    ∃ c, (∀ b, c ≠ .bad b) ∧ chunks (encodeRune r ++ t) = c :: chunks t := by
  unfold Scalar at h
  unfold encodeRune
  split
  · rename_i h1
    refine ⟨.ascii (UInt8.ofNat r), by simp, ?_⟩
    apply chunks_of_head
    · unfold head
      rw [if_pos]
      rw [UInt8.lt_iff_toNat_lt, toNat_ofNat (by omega)]; exact h1
    · rfl
  · split
    · refine ⟨.multi [UInt8.ofNat (0xC0 + r / 64), UInt8.ofNat (0x80 + r % 64)], by simp, ?_⟩
      apply chunks_of_head
      · apply head_two
        · rw [toNat_ofNat (by omega)]; omega
        · rw [toNat_ofNat (by omega)]; omega
        · exact cont_ofNat (by omega)
      · rfl
    · rw [if_neg (by omega)]
      split
      · refine ⟨.multi [UInt8.ofNat (0xE0 + r / 4096), UInt8.ofNat (0x80 + r / 64 % 64), UInt8.ofNat (0x80 + r % 64)], by simp, ?_⟩
        have ha : (UInt8.ofNat (0xE0 + r / 4096)).toNat = 0xE0 + r / 4096 := toNat_ofNat (by omega)
        have hb : (UInt8.ofNat (0x80 + r / 64 % 64)).toNat = 0x80 + r / 64 % 64 := toNat_ofNat (by omega)
        have hs : ∃ lo hi, second (UInt8.ofNat (0xE0 + r / 4096)) = some (lo, hi, 3) ∧
            within lo hi (UInt8.ofNat (0x80 + r / 64 % 64)) = true := by
          rw [second_eq, ha, if_neg (by omega), if_neg (by omega)]
          split
          · exact ⟨_, _, rfl, by rw [within_iff, hb]; simp; omega⟩
          · split
            · exact ⟨_, _, rfl, by rw [within_iff, hb]; simp; omega⟩
            · rw [if_pos (by omega)]
              exact ⟨_, _, rfl, by rw [within_iff, hb]; simp; omega⟩
        obtain ⟨lo, hi, h1, h2⟩ := hs
        apply chunks_of_head
        · exact head_three (by omega) h1 h2 (cont_ofNat (by omega))
        · rfl
      · rw [if_pos (by omega)]
        refine ⟨.multi [UInt8.ofNat (0xF0 + r / 262144), UInt8.ofNat (0x80 + r / 4096 % 64), UInt8.ofNat (0x80 + r / 64 % 64),
          UInt8.ofNat (0x80 + r % 64)], by simp, ?_⟩
        have ha : (UInt8.ofNat (0xF0 + r / 262144)).toNat = 0xF0 + r / 262144 := toNat_ofNat (by omega)
        have hb : (UInt8.ofNat (0x80 + r / 4096 % 64)).toNat = 0x80 + r / 4096 % 64 := toNat_ofNat (by omega)
        have hs : ∃ lo hi, second (UInt8.ofNat (0xF0 + r / 262144)) = some (lo, hi, 4) ∧
            within lo hi (UInt8.ofNat (0x80 + r / 4096 % 64)) = true := by
          rw [second_eq, ha, if_neg (by omega), if_neg (by omega), if_neg (by omega), if_neg (by omega), if_neg (by omega)]
          split
          · exact ⟨_, _, rfl, by rw [within_iff, hb]; simp; omega⟩
          · split
            · exact ⟨_, _, rfl, by rw [within_iff, hb]; simp; omega⟩
            · rw [if_pos (by omega)]
              exact ⟨_, _, rfl, by rw [within_iff, hb]; simp; omega⟩
        obtain ⟨lo, hi, h1, h2⟩ := hs
        apply chunks_of_head
        · exact head_four (by omega) h1 h2 (cont_ofNat (by omega)) (cont_ofNat (by omega))
        · rfl

theorem eq_ofNat {b : UInt8} {n : Nat} (h : n = b.toNat) : b = UInt8.ofNat n := by subst h; simp

/-- A valid step is the encoding of a character. -/
theorem rune_of_head {a : UInt8} {r : Str} (h : ∀ b, head a r ≠ .bad b) : ∃ k, Scalar k ∧ (head a r).src = encodeRune k := by
  unfold head at h ⊢
  have hal := a.toNat_lt
  split at h
  · rename_i h1
    rw [UInt8.lt_iff_toNat_lt] at h1
    simp at h1
    rw [if_pos (by rw [UInt8.lt_iff_toNat_lt]; exact h1)]
    refine ⟨a.toNat, Or.inl (by omega), ?_⟩
    rw [encodeRune, if_pos h1]
    simp [Chunk.src]
  · rename_i h1
    rw [if_neg h1]
    rw [second_eq] at h ⊢
    split at h
    · rename_i lo hi b t hs
      split at h
      · rename_i hw
        rw [if_pos hw]
        rw [within_iff] at hw
        have hbl := b.toNat_lt
        have hlo : 0xC2 ≤ a.toNat ∧ a.toNat < 0xE0 ∧ lo = 0x80 ∧ hi = 0xBF := by
          split at hs
          · cases hs
          · split at hs
            · cases hs; exact ⟨by omega, by omega, rfl, rfl⟩
            · repeat (split at hs; (first | cases hs))
              all_goals cases hs
        obtain ⟨a1, a2, rfl, rfl⟩ := hlo
        simp at hw
        refine ⟨(a.toNat - 0xC0) * 64 + (b.toNat - 0x80), Or.inl (by omega), ?_⟩
        rw [encodeRune, if_neg (by omega), if_pos (by omega)]
        simp only [Chunk.src, List.cons.injEq, and_true]
        exact ⟨eq_ofNat (by omega), eq_ofNat (by omega)⟩
      · exact absurd rfl (h _)
    · rename_i lo hi b c t hs
      split at h
      · rename_i hw
        rw [if_pos hw]
        rw [Bool.and_eq_true, within_iff, cont_iff] at hw
        obtain ⟨hw, hc⟩ := hw
        have hbl := b.toNat_lt
        have hrange : 0xE0 ≤ a.toNat ∧ a.toNat < 0xF0 ∧ 0x80 ≤ b.toNat ∧ b.toNat ≤ 0xBF ∧ (a.toNat = 0xE0 → 0xA0 ≤ b.toNat) ∧
            (a.toNat = 0xED → b.toNat ≤ 0x9F) := by
          split at hs
          · cases hs
          split at hs
          · cases hs
          split at hs
          · cases hs; simp at hw; omega
          split at hs
          · cases hs; simp at hw; omega
          split at hs
          · cases hs; simp at hw; omega
          split at hs
          · cases hs
          split at hs
          · cases hs
          split at hs
          · cases hs
          · cases hs
        refine ⟨(a.toNat - 0xE0) * 4096 + (b.toNat - 0x80) * 64 + (c.toNat - 0x80), by unfold Scalar; omega, ?_⟩
        rw [encodeRune, if_neg (by omega), if_neg (by omega), if_neg (by omega), if_pos (by omega)]
        simp only [Chunk.src, List.cons.injEq, and_true]
        exact ⟨eq_ofNat (by omega), eq_ofNat (by omega), eq_ofNat (by omega)⟩
      · exact absurd rfl (h _)
    · rename_i lo hi b c d t hs
      split at h
      · rename_i hw
        rw [if_pos hw]
        rw [Bool.and_eq_true, Bool.and_eq_true, within_iff, cont_iff, cont_iff] at hw
        obtain ⟨⟨hw, hc⟩, hd⟩ := hw
        have hbl := b.toNat_lt
        have hrange : 0xF0 ≤ a.toNat ∧ a.toNat ≤ 0xF4 ∧ 0x80 ≤ b.toNat ∧ b.toNat ≤ 0xBF ∧ (a.toNat = 0xF0 → 0x90 ≤ b.toNat) ∧
            (a.toNat = 0xF4 → b.toNat ≤ 0x8F) := by
          split at hs
          · cases hs
          split at hs
          · cases hs
          split at hs
          · cases hs
          split at hs
          · cases hs
          split at hs
          · cases hs
          split at hs
          · cases hs; simp at hw; omega
          split at hs
          · cases hs; simp at hw; omega
          split at hs
          · cases hs; simp at hw; omega
          · cases hs
        refine ⟨(a.toNat - 0xF0) * 262144 + (b.toNat - 0x80) * 4096 + (c.toNat - 0x80) * 64 + (d.toNat - 0x80),
          by unfold Scalar; omega, ?_⟩
        rw [encodeRune, if_neg (by omega), if_neg (by omega), if_neg (by omega), if_neg (by omega), if_pos (by omega)]
        simp only [Chunk.src, List.cons.injEq, and_true]
        exact ⟨eq_ofNat (by omega), eq_ofNat (by omega), eq_ofNat (by omega), eq_ofNat (by omega)⟩
      · exact absurd rfl (h _)
    · exact absurd rfl (h _)

/-- A text is valid exactly when it encodes a sequence of characters. -/
theorem validUtf8_iff (s : Str) : validUtf8 s ↔ ∃ rs : List Nat, (∀ r ∈ rs, Scalar r) ∧ s = rs.flatMap encodeRune := by
  constructor
  · have key : ∀ (n : Nat) (s : Str), s.length ≤ n → validUtf8 s →
        ∃ rs : List Nat, (∀ r ∈ rs, Scalar r) ∧ s = rs.flatMap encodeRune := by
      intro n
      induction n with
      | zero => intro s hs _; simp at hs; subst hs; exact ⟨[], by simp, rfl⟩
      | succ n ih =>
        intro s hs hv
        cases s with
        | nil => exact ⟨[], by simp, rfl⟩
        | cons a r =>
          obtain ⟨t, h1, h2⟩ := chunks_cons a r
          unfold validUtf8 at hv
          rw [h2] at hv
          obtain ⟨k, hk, hk2⟩ := rune_of_head (hv (head a r) (by simp))
          obtain ⟨l, h3, _⟩ := src_ne_nil a r
          have hl : t.length ≤ n := by
            have := congrArg List.length h1
            rw [h3] at this
            simp at this hs
            omega
          obtain ⟨rs, h4, h5⟩ := ih t hl fun c hc => hv c (by simp [hc])
          refine ⟨k :: rs, ?_, ?_⟩
          · intro x hx
            rcases List.mem_cons.1 hx with rfl | hx
            · exact hk
            · exact h4 x hx
          · rw [h1, List.flatMap_cons, hk2, ← h5]
    exact key _ s (Nat.le_refl _)
  · rintro ⟨rs, h1, rfl⟩
    induction rs with
    | nil => intro c hc; simp [chunks, chunksFrom] at hc
    | cons r rs ih =>
      obtain ⟨c, hc, he⟩ := chunks_rune (h1 r (by simp)) (rs.flatMap encodeRune)
      intro x hx
      rw [List.flatMap_cons, he] at hx
      rcases List.mem_cons.1 hx with rfl | hx
      · exact hc
      · exact ih (fun y hy => h1 y (by simp [hy])) x hx

end Json
end Verif
