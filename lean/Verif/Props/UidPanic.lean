import Verif.Props.Uid
/-!
# On which texts the base32 decoder panics (C05)

`DecodeUID128FromBase32` (pkg/utils/uid/uid_128.go:73-82) converts what was decoded to an array of 16 bytes and panics if it is shorter. The texts on
which this happens are described here byte by byte.
-/
set_option autoImplicit false
namespace Verif
open Base32
namespace UID

/-- As `readQuantum_cases`, with all that is known when the turn ends at a byte 0xFF. -/
theorem readQuantum_padded : ∀ {src : Str} {acc q : List Nat} {rest : Str} {fin : Bool},
    acc.length ≤ 8 → readQuantum src acc = some (q, rest, fin) →
    ∃ xs ys, vals xs = some ys ∧ q = acc ++ ys ∧
      ((fin = false ∧ q.length = 8 ∧ src = xs ++ rest) ∨
       (fin = true ∧ q.length < 8 ∧ src = xs) ∨
       (fin = true ∧ q.length ∈ [2, 4, 5, 7] ∧ ∃ tail, src = xs ++ List.replicate (8 - q.length) 0xFF ++ tail ∧ tail.length ≤ q.length))
  | [], acc, q, rest, fin, hl, h => by
    simp only [readQuantum] at h
    split at h
    · simp only [Option.some.injEq, Prod.mk.injEq] at h
      obtain ⟨rfl, rfl, rfl⟩ := h
      exact ⟨[], [], rfl, by simp, Or.inl ⟨rfl, by assumption, rfl⟩⟩
    · simp only [Option.some.injEq, Prod.mk.injEq] at h
      obtain ⟨rfl, rfl, rfl⟩ := h
      exact ⟨[], [], rfl, by simp, Or.inr (Or.inl ⟨rfl, by omega, rfl⟩)⟩
  | c :: src, acc, q, rest, fin, hl, h => by
    simp only [readQuantum] at h
    split at h
    · simp only [Option.some.injEq, Prod.mk.injEq] at h
      obtain ⟨rfl, rfl, rfl⟩ := h
      exact ⟨[], [], rfl, by simp, Or.inl ⟨rfl, by assumption, rfl⟩⟩
    · split at h
      · rename_i hne hp
        split at h
        · simp at h
        · split at h
          · simp at h
          · split at h
            · simp at h
            · rename_i h7 hany h36
              simp only [Option.some.injEq, Prod.mk.injEq] at h
              obtain ⟨rfl, rfl, rfl⟩ := h
              refine ⟨[], [], rfl, by simp, Or.inr (Or.inr ⟨rfl, ?_, src.drop (7 - acc.length), ?_, ?_⟩)⟩
              · have : acc.length = 2 ∨ acc.length = 4 ∨ acc.length = 5 ∨ acc.length = 7 := by
                  have := hp.2.1
                  simp only [not_or] at h36
                  omega
                rcases this with h | h | h | h <;> simp [h]
              · have ht : src.take (7 - acc.length) = List.replicate (7 - acc.length) 0xFF := by
                  rw [List.eq_replicate_iff]
                  refine ⟨by rw [List.length_take]; omega, fun b hb => ?_⟩
                  simp only [List.any_eq_true, not_exists, decide_eq_true_eq] at hany
                  exact Classical.not_not.1 fun hn => hany b ⟨hb, hn⟩
                have h8 : 8 - acc.length = (7 - acc.length) + 1 := by omega
                rw [List.nil_append, hp.1, h8, List.replicate_succ, List.cons_append, ← ht, List.take_append_drop]
              · rw [List.length_drop]
                have := hp.2.2
                omega
      · split at h
        · simp at h
        · rename_i hne hp v hv
          have hl' : (acc ++ [v]).length ≤ 8 := by simp; omega
          obtain ⟨xs, ys, h1, h2, h3⟩ := readQuantum_padded hl' h
          refine ⟨c :: xs, v :: ys, by simp [vals, hv, h1], by simp [h2], ?_⟩
          rcases h3 with ⟨a, b, e⟩ | ⟨a, b, e⟩ | ⟨a, b, t, e, f⟩
          · exact Or.inl ⟨a, b, by simp [e]⟩
          · exact Or.inr (Or.inl ⟨a, b, by simp [e]⟩)
          · exact Or.inr (Or.inr ⟨a, b, t, by simp [e], f⟩)

theorem readQuantum_pad : ∀ {xs tail : Str} {acc ys : List Nat} {j : Nat}, vals xs = some ys → acc.length + ys.length = j → j ∈ [2, 4, 5, 7] →
    tail.length ≤ j → ∃ rest, readQuantum (xs ++ List.replicate (8 - j) 0xFF ++ tail) acc = some (acc ++ ys, rest, true)
  | [], tail, acc, ys, j, h, hl, hj, ht => by
    simp [vals] at h; subst h
    simp only [List.length_nil, Nat.add_zero] at hl
    subst hl
    have hj' : acc.length = 2 ∨ acc.length = 4 ∨ acc.length = 5 ∨ acc.length = 7 := by simpa using hj
    have h8 : 8 - acc.length = (7 - acc.length) + 1 := by omega
    rw [List.nil_append, h8, List.replicate_succ, List.cons_append]
    simp only [readQuantum]
    have hlen : (List.replicate (7 - acc.length) (0xFF : UInt8) ++ tail).length = 7 - acc.length + tail.length := by simp
    rw [if_neg (by omega), if_pos (by refine ⟨?_, ?_, ?_⟩ <;> first | trivial | (rw [hlen]; omega) | omega), if_neg (by rw [hlen]; omega), if_neg, if_neg (by omega)]
    · rw [List.append_nil]; exact ⟨_, rfl⟩
    · rw [List.take_append_of_le_length (by simp), List.take_of_length_le (by simp)]
      simp
  | c :: cs, tail, acc, ys, j, h, hl, hj, ht => by
    have hj' : j = 2 ∨ j = 4 ∨ j = 5 ∨ j = 7 := by simpa using hj
    simp only [vals] at h
    split at h
    · rename_i q qs hq hqs
      simp at h; subst h
      simp only [List.length_cons] at hl
      simp only [List.cons_append, readQuantum]
      rw [if_neg (by omega), if_neg (by intro hh; exact value_ne_ff hq hh.1), hq]
      rw [show acc ++ q :: qs = (acc ++ [q]) ++ qs by simp]
      exact readQuantum_pad hqs (by simp; omega) hj ht
    · simp at h

/-- Specification: characters of base32 and then, where a group of eight has 2, 4, 5 or 7 of them, bytes 0xFF to the end of the group,
and at most that many bytes more. -/
def Padded (t : Str) : Prop :=
  ∃ p tail, t = p ++ List.replicate (8 - p.length % 8) 0xFF ++ tail ∧ (∀ c ∈ p, c ∈ base32Chars) ∧ p.length % 8 ∈ [2, 4, 5, 7] ∧ tail.length ≤ p.length % 8

theorem decodeLoop_padded : ∀ {n : Nat} {src : Str} {out : List Nat}, src.length ≤ n → decodeLoop n src = some out →
    (vals src).isSome ∨ Padded src
  | 0, src, out, hn, _ => by
    have : src = [] := List.eq_nil_of_length_eq_zero (by omega)
    subst this; exact Or.inl rfl
  | n + 1, [], out, _, _ => Or.inl rfl
  | n + 1, c :: src, out, hn, h => by
    simp only [decodeLoop] at h
    split at h
    · simp at h
    · rename_i q rest fin hq
      obtain ⟨xs, ys, hv, h2, h3⟩ := readQuantum_padded (by simp) hq
      have hxl := vals_length hv
      have hql : q.length = xs.length := by rw [h2]; simpa using hxl
      rcases h3 with ⟨rfl, hl, hs⟩ | ⟨rfl, hl, hs⟩ | ⟨rfl, hl, tail, hs, ht⟩
      · simp only [Bool.false_eq_true, if_false] at h
        cases hd : decodeLoop n rest with
        | none => simp [hd] at h
        | some o =>
          rw [hs] at hn ⊢
          simp only [List.length_append] at hn
          rcases decodeLoop_padded (n := n) (src := rest) (by omega) hd with ih | ⟨p, tail, h4, h5, h6, h7⟩
          · obtain ⟨w, hw⟩ := Option.isSome_iff_exists.1 ih
            simp [vals_append hv hw]
          · have he : (xs ++ p).length % 8 = p.length % 8 := by rw [List.length_append]; omega
            refine Or.inr ⟨xs ++ p, tail, by rw [he, h4]; simp, fun c hc => ?_, by rw [he]; exact h6, by rw [he]; exact h7⟩
            rcases List.mem_append.1 hc with h | h
            · exact (vals_isSome_iff xs).1 (by rw [hv]; rfl) c h
            · exact h5 c h
      · left; rw [hs, hv]; rfl
      · have h8 : xs.length % 8 = q.length := by
          have : q.length = 2 ∨ q.length = 4 ∨ q.length = 5 ∨ q.length = 7 := by simpa using hl
          omega
        exact Or.inr ⟨xs, tail, by rw [h8]; exact hs, (vals_isSome_iff xs).1 (by rw [hv]; rfl), by rw [h8]; exact hl, by rw [h8]; exact ht⟩

theorem decodeLoop_of_padded : ∀ {n : Nat} {p tail : Str}, p.length < n → (∀ c ∈ p, c ∈ base32Chars) → p.length % 8 ∈ [2, 4, 5, 7] →
    tail.length ≤ p.length % 8 → ∃ o, decodeLoop n (p ++ List.replicate (8 - p.length % 8) 0xFF ++ tail) = some o ∧ 8 * o.length ≤ 5 * p.length
  | 0, p, tail, hn, _, _, _ => (by omega)
  | n + 1, p, tail, hn, hp, hj, ht => by
    have hj' : p.length % 8 = 2 ∨ p.length % 8 = 4 ∨ p.length % 8 = 5 ∨ p.length % 8 = 7 := by simpa using hj
    by_cases h8 : p.length < 8
    · have e8 : p.length % 8 = p.length := Nat.mod_eq_of_lt h8
      rw [e8] at hj hj' ht ⊢
      obtain ⟨v, hv⟩ := Option.isSome_iff_exists.1 ((vals_isSome_iff p).2 hp)
      obtain ⟨rest, hr⟩ := readQuantum_pad (acc := []) (tail := tail) hv (by simpa using vals_length hv) hj ht
      cases p with
      | nil => simp at hj'
      | cons c cs =>
        simp only [List.cons_append] at hr ⊢
        rw [decodeLoop, hr]
        · refine ⟨_, rfl, ?_⟩
          rw [List.nil_append, ← vals_length hv]
          exact pack_length_bound v
        · simp
    · have hs : p = p.take 8 ++ p.drop 8 := (List.take_append_drop 8 p).symm
      have hd8 : (p.drop 8).length % 8 = p.length % 8 := by rw [List.length_drop]; omega
      obtain ⟨v, hv⟩ := Option.isSome_iff_exists.1 ((vals_isSome_iff (p.take 8)).2 fun c hc => hp c (List.mem_of_mem_take hc))
      obtain ⟨o, ho, hb⟩ := decodeLoop_of_padded (n := n) (p := p.drop 8) (tail := tail) (by rw [List.length_drop]; omega) (fun c hc => hp c (List.mem_of_mem_drop hc))
        (by rw [hd8]; exact hj) (by rw [hd8]; exact ht)
      rw [hd8] at ho
      have hv8 : v.length = 8 := by rw [vals_length hv, List.length_take]; omega
      have e : p ++ List.replicate (8 - p.length % 8) 0xFF ++ tail = p.take 8 ++ (p.drop 8 ++ List.replicate (8 - p.length % 8) 0xFF ++ tail) := by
        rw [← List.append_assoc, ← List.append_assoc, List.take_append_drop]
      rw [e, decodeLoop_full n hv hv8, ho]
      refine ⟨_, rfl, ?_⟩
      have := pack_length_bound v
      rw [List.length_drop] at hb
      rw [List.length_append]
      omega

/-- **C05 is violated** on exactly these texts: 26 bytes with a line break among characters of base32, and 26 bytes that are `Padded` once
line breaks are removed. -/
theorem C05_violated_exactly (s : Str) :
    decodeBase32 s = .panic ↔ s.length = 26 ∧
      ((∀ c ∈ s, c ∈ base32Chars ∨ c = 10 ∨ c = 13) ∧ ((10 : UInt8) ∈ s ∨ (13 : UInt8) ∈ s) ∨ Padded (s.filter fun c => c ≠ 10 ∧ c ≠ 13)) := by
  have hle : (stripNewlines s).length ≤ s.length := List.length_filter_le _ _
  constructor
  · intro hp
    by_cases hf : (0xFF : UInt8) ∈ s
    · by_cases hl : s.length = 26
      · refine ⟨hl, Or.inr ?_⟩
        unfold decodeBase32 at hp
        rw [if_neg (by omega)] at hp
        cases hd : Base32.decode s with
        | none => rw [hd] at hp; cases hp
        | some b =>
          unfold Base32.decode at hd
          cases ho : Base32.decodeLoop s.length (stripNewlines s) with
          | none => rw [ho] at hd; cases hd
          | some o =>
            rcases decodeLoop_padded hle ho with h | h
            · have := (vals_isSome_iff _).1 h 0xFF (by unfold stripNewlines; rw [List.mem_filter]; exact ⟨hf, by decide⟩)
              exact absurd this (by decide)
            · exact h
      · unfold decodeBase32 at hp
        rw [if_pos hl] at hp; cases hp
    · obtain ⟨h1, h2, h3⟩ := (C05_violated_iff s hf).1 hp
      exact ⟨h1, Or.inl ⟨h2, h3⟩⟩
  · rintro ⟨hl, ⟨h2, h3⟩ | ⟨p, tail, h4, h5, h6, h7⟩⟩
    · refine (C05_violated_iff s fun hf => ?_).2 ⟨hl, h2, h3⟩
      rcases h2 _ hf with h | h | h <;> revert h <;> decide
    · have hj' : p.length % 8 = 2 ∨ p.length % 8 = 4 ∨ p.length % 8 = 5 ∨ p.length % 8 = 7 := by simpa using h6
      change stripNewlines s = _ at h4
      have hlen : (stripNewlines s).length = p.length + (8 - p.length % 8) + tail.length := by rw [h4]; simp only [List.length_append, List.length_replicate]
      obtain ⟨o, ho, hb⟩ := decodeLoop_of_padded (n := s.length) (by omega) h5 h6 h7
      unfold decodeBase32 Base32.decode ofSlice
      rw [if_neg (by omega), h4, ho]
      simp only [Option.map_some, List.length_map]
      rw [dif_neg (by omega)]

/-- A text without line breaks that is `Padded`: 18 characters, six bytes 0xFF, two more bytes. -/
example : Padded (lit "AAAQEAYEAUDAOCAJBI" ++ [0xFF, 0xFF, 0xFF, 0xFF, 0xFF, 0xFF, 65, 0]) :=
  ⟨lit "AAAQEAYEAUDAOCAJBI", [65, 0], by decide, by decide, by decide, by decide⟩

/-- `C05_violated_exactly`: such a text makes the decoder panic, whatever the last two bytes are. -/
example (a b : UInt8) (ha : a ≠ 10 ∧ a ≠ 13) (hb : b ≠ 10 ∧ b ≠ 13) : decodeBase32 (lit "AAAQEAYEAUDAOCAJBI" ++ [0xFF, 0xFF, 0xFF, 0xFF, 0xFF, 0xFF, a, b]) = .panic :=
  (C05_violated_exactly _).2 ⟨by simp; decide, Or.inr ⟨lit "AAAQEAYEAUDAOCAJBI", [a, b], by
    rw [List.filter_append, show (lit "AAAQEAYEAUDAOCAJBI").filter (fun c => c ≠ 10 ∧ c ≠ 13) = lit "AAAQEAYEAUDAOCAJBI" by decide]
    simp [ha, hb]; rfl, by decide, by decide, Nat.le_refl 2⟩⟩

end UID
end Verif
