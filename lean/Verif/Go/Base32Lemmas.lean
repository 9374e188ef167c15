import Verif.Go.Base32
/-! Facts about the base32 model. -/
set_option autoImplicit false
namespace Verif.Base32
open Verif Verif.Hex

/-- The values of a text, if all characters are in the alphabet. -/
def vals : Str → Option (List Nat)
  | [] => some []
  | c :: cs => match value c, vals cs with
    | some q, some qs => some (q :: qs)
    | _, _ => none

theorem alpha_toNat {q : Nat} (h : q < 32) : (alpha q).toNat = if q < 26 then 65 + q else 24 + q := by
  unfold alpha; split <;> rw [toNat_ofNat_lt (by omega)]

theorem value_alpha {q : Nat} (h : q < 32) : value (alpha q) = some q := by
  simp only [value, alpha_toNat h]
  by_cases h1 : q < 26
  · simp only [h1, if_true]; rw [if_pos (by omega)]; congr 1; omega
  · simp only [h1, if_false]; rw [if_neg (by omega), if_pos (by omega)]; congr 1; omega

theorem value_lt {c : UInt8} {q : Nat} (h : value c = some q) : q < 32 := by
  simp only [value] at h
  split at h
  · simp at h; omega
  · split at h
    · simp at h; omega
    · simp at h

theorem alpha_value {c : UInt8} {q : Nat} (h : value c = some q) : alpha q = c := by
  have hq := value_lt h
  apply uint8_ext
  rw [alpha_toNat hq]
  simp only [value] at h
  split at h
  · simp only [Option.some.injEq] at h; split <;> omega
  · split at h
    · simp only [Option.some.injEq] at h; split <;> omega
    · simp at h

theorem value_ne_ff {c : UInt8} {q : Nat} (h : value c = some q) : c ≠ 0xFF := by
  rintro rfl; simp [value] at h

theorem vals_spec : ∀ {s : Str} {v : List Nat}, vals s = some v → s = v.map alpha ∧ ∀ q ∈ v, q < 32
  | [], v, h => by simp [vals] at h; subst h; simp
  | c :: cs, v, h => by
    simp only [vals] at h
    split at h
    · rename_i q qs hq hqs
      simp at h; subst h
      obtain ⟨h1, h2⟩ := vals_spec hqs
      constructor
      · simp [alpha_value hq, ← h1]
      · simp only [List.mem_cons]
        rintro a (rfl | ha)
        · exact value_lt hq
        · exact h2 a ha
    · simp at h

theorem vals_map : ∀ {v : List Nat}, (∀ q ∈ v, q < 32) → vals (v.map alpha) = some v
  | [], _ => rfl
  | q :: qs, h => by
    have ih : vals (qs.map alpha) = some qs := vals_map (fun a ha => h a (by simp [ha]))
    simp only [List.map_cons, vals, value_alpha (h q (by simp)), ih]

theorem vals_append {a b : Str} {x y : List Nat} (ha : vals a = some x) (hb : vals b = some y) :
      vals (a ++ b) = some (x ++ y) := by
  obtain ⟨rfl, h1⟩ := vals_spec ha
  obtain ⟨rfl, h2⟩ := vals_spec hb
  rw [← List.map_append]
  apply vals_map
  intro q hq
  rcases List.mem_append.1 hq with hq | hq
  · exact h1 q hq
  · exact h2 q hq

theorem vals_length {s : Str} {v : List Nat} (h : vals s = some v) : v.length = s.length := by
  rw [(vals_spec h).1]; simp

/-- What one turn of the decoder can return. -/
theorem readQuantum_cases : ∀ {src : Str} {acc q : List Nat} {rest : Str} {fin : Bool},
    acc.length ≤ 8 → readQuantum src acc = some (q, rest, fin) →
    ∃ xs ys, vals xs = some ys ∧ q = acc ++ ys ∧
      ((fin = false ∧ q.length = 8 ∧ src = xs ++ rest) ∨
       (fin = true ∧ q.length < 8 ∧ rest = [] ∧ src = xs) ∨
       (fin = true ∧ 2 ≤ q.length ∧ q.length < 8 ∧ src = xs ++ 0xFF :: rest ∧ rest.length < 8))
  | [], acc, q, rest, fin, hl, h => by
    simp only [readQuantum] at h
    split at h
    · simp only [Option.some.injEq, Prod.mk.injEq] at h
      obtain ⟨rfl, rfl, rfl⟩ := h
      exact ⟨[], [], rfl, by simp, Or.inl ⟨rfl, by assumption, rfl⟩⟩
    · simp only [Option.some.injEq, Prod.mk.injEq] at h
      obtain ⟨rfl, rfl, rfl⟩ := h
      exact ⟨[], [], rfl, by simp, Or.inr (Or.inl ⟨rfl, by omega, rfl, rfl⟩)⟩
  | c :: src, acc, q, rest, fin, hl, h => by
    simp only [readQuantum] at h
    split at h
    · simp only [Option.some.injEq, Prod.mk.injEq] at h
      obtain ⟨rfl, rfl, rfl⟩ := h
      exact ⟨[], [], rfl, by simp, Or.inl ⟨rfl, by assumption, rfl⟩⟩
    · split at h
      · rename_i hne hp
        split at h
        · simp at h
        · split at h
          · simp at h
          · split at h
            · simp at h
            · simp only [Option.some.injEq, Prod.mk.injEq] at h
              obtain ⟨rfl, rfl, rfl⟩ := h
              exact ⟨[], [], rfl, by simp, Or.inr (Or.inr ⟨rfl, hp.2.1, by omega, by simp [hp.1], hp.2.2⟩)⟩
      · split at h
        · simp at h
        · rename_i hne hp v hv
          have hl' : (acc ++ [v]).length ≤ 8 := by simp; omega
          obtain ⟨xs, ys, h1, h2, h3⟩ := readQuantum_cases hl' h
          refine ⟨c :: xs, v :: ys, by simp [vals, hv, h1], by simp [h2], ?_⟩
          rcases h3 with ⟨a, b, e⟩ | ⟨a, b, e, f⟩ | ⟨a, b, b', e, f⟩
          · exact Or.inl ⟨a, b, by simp [e]⟩
          · exact Or.inr (Or.inl ⟨a, b, e, by simp [f]⟩)
          · exact Or.inr (Or.inr ⟨a, b, b', by simp [e], f⟩)

theorem readQuantum_full : ∀ {xs rest : Str} {acc ys : List Nat}, vals xs = some ys →
    acc.length + ys.length = 8 → readQuantum (xs ++ rest) acc = some (acc ++ ys, rest, false)
  | [], rest, acc, ys, h, hl => by
    simp [vals] at h; subst h
    simp at hl
    cases rest <;> simp [readQuantum, hl]
  | c :: cs, rest, acc, ys, h, hl => by
    simp only [vals] at h
    split at h
    · rename_i q qs hq hqs
      simp at h; subst h
      simp only [List.length_cons] at hl
      simp only [List.cons_append, readQuantum]
      rw [if_neg (by omega), if_neg (by intro hh; exact value_ne_ff hq hh.1), hq]
      rw [show acc ++ q :: qs = (acc ++ [q]) ++ qs by simp]
      exact readQuantum_full hqs (by simp; omega)
    · simp at h

theorem readQuantum_short : ∀ {xs : Str} {acc ys : List Nat}, vals xs = some ys →
    acc.length + ys.length < 8 → readQuantum xs acc = some (acc ++ ys, [], true)
  | [], acc, ys, h, hl => by
    simp [vals] at h; subst h
    simp at hl
    simp only [readQuantum]; rw [if_neg (by omega)]; simp
  | c :: cs, acc, ys, h, hl => by
    simp only [vals] at h
    split at h
    · rename_i q qs hq hqs
      simp at h; subst h
      simp only [List.length_cons] at hl
      simp only [readQuantum]
      rw [if_neg (by omega), if_neg (by intro hh; exact value_ne_ff hq hh.1), hq]
      rw [show acc ++ q :: qs = (acc ++ [q]) ++ qs by simp]
      exact readQuantum_short hqs (by simp; omega)
    · simp at h

theorem decodeLoop_full {xs rest : Str} {ys : List Nat} (n : Nat) (h : vals xs = some ys) (hl : ys.length = 8) :
    decodeLoop (n + 1) (xs ++ rest) = (decodeLoop n rest).map (pack ys ++ ·) := by
  have hne : xs ++ rest ≠ [] := by
    have := vals_length h
    intro he
    have h1 := congrArg List.length he
    simp only [List.length_append, List.length_nil] at h1
    omega
  have hr := readQuantum_full (rest := rest) (acc := []) h (by simpa using hl)
  cases hx : xs ++ rest with
  | nil => exact absurd hx hne
  | cons c cs => rw [hx] at hr; simp [decodeLoop, hr]

theorem decodeLoop_short {xs : Str} {ys : List Nat} (n : Nat) (h : vals xs = some ys) (h0 : 0 < ys.length)
    (hl : ys.length < 8) : decodeLoop (n + 1) xs = some (pack ys) := by
  have hr := readQuantum_short (acc := []) h (by simpa using hl)
  have := vals_length h
  cases xs with
  | nil => simp only [List.length_nil] at this; omega
  | cons c cs => simp [decodeLoop, hr]

theorem groups_lt {a b c d e : Nat} (ha : a < 256) (hb : b < 256) (hc : c < 256) (hd : d < 256) (_he : e < 256) :
    ∀ q ∈ groups a b c d e, q < 32 := by
  intro q hq
  simp only [groups, List.mem_cons, List.not_mem_nil, or_false] at hq
  omega

theorem pack_groups {a b c d e : Nat} (ha : a < 256) (hb : b < 256) (hc : c < 256) (hd : d < 256) (he : e < 256) :
    pack (groups a b c d e) = [a, b, c, d, e] := by
  simp only [pack, groups, List.length_cons, List.length_nil, List.getD_cons_zero, List.getD_cons_succ]
  simp only [List.cons.injEq, and_true]
  omega

theorem pack_two {a : Nat} (ha : a < 256) : pack ((groups a 0 0 0 0).take 2) = [a] := by
  simp only [pack, groups, List.take, List.length_cons, List.length_nil, List.getD_cons_zero, List.getD_cons_succ]
  simp only [List.cons.injEq, and_true]
  omega

theorem list8 {q : List Nat} (h : q.length = 8) :
    ∃ a b c d e f g i, q = [a, b, c, d, e, f, g, i] := by
  match q, h with
  | [a, b, c, d, e, f, g, i], _ => exact ⟨a, b, c, d, e, f, g, i, rfl⟩

theorem groups_pack {q : List Nat} (h : q.length = 8) (hq : ∀ x ∈ q, x < 32) :
    ∃ a b c d e, a < 256 ∧ b < 256 ∧ c < 256 ∧ d < 256 ∧ e < 256 ∧
      pack q = [a, b, c, d, e] ∧ groups a b c d e = q := by
  obtain ⟨a, b, c, d, e, f, g, i, rfl⟩ := list8 h
  simp only [List.mem_cons, List.not_mem_nil, or_false, forall_eq_or_imp, forall_eq] at hq
  refine ⟨_, _, _, _, _, ?_, ?_, ?_, ?_, ?_, rfl, ?_⟩
  · exact Nat.mod_lt _ (by decide)
  · exact Nat.mod_lt _ (by decide)
  · exact Nat.mod_lt _ (by decide)
  · exact Nat.mod_lt _ (by decide)
  · exact Nat.mod_lt _ (by decide)
  · simp only [groups, List.getD_cons_zero, List.getD_cons_succ, List.cons.injEq, and_true]
    omega

theorem stripNewlines_vals {s : Str} {v : List Nat} (h : vals s = some v) : stripNewlines s = s := by
  obtain ⟨rfl, hv⟩ := vals_spec h
  unfold stripNewlines
  rw [List.filter_eq_self]
  intro c hc
  simp only [List.mem_map] at hc
  obtain ⟨q, hq, rfl⟩ := hc
  have h32 := hv q hq
  have := alpha_toNat h32
  have h10 : alpha q ≠ 10 := by
    intro he; rw [he] at this; revert this; split <;> simp <;> omega
  have h13 : alpha q ≠ 13 := by
    intro he; rw [he] at this; revert this; split <;> simp <;> omega
  simp [h10, h13]

theorem pack_length_le (q : List Nat) : (pack q).length ≤ 5 ∧ (q.length < 8 → (pack q).length ≤ 4) := by
  unfold pack
  simp only
  split <;> simp_all

theorem pack_length_bound (q : List Nat) : 8 * (pack q).length ≤ 5 * q.length := by
  unfold pack
  simp only
  split <;> simp_all

theorem decodeLoop_bound : ∀ {n : Nat} {src : Str} {out : List Nat},
    decodeLoop n src = some out → 8 * out.length ≤ 5 * src.length
  | 0, src, out, h => by simp [decodeLoop] at h; subst h; simp
  | n + 1, [], out, h => by simp [decodeLoop] at h; subst h; simp
  | n + 1, c :: src, out, h => by
    simp only [decodeLoop] at h
    split at h
    · simp at h
    · rename_i q rest fin hq
      obtain ⟨xs, ys, hv, h2, h3⟩ := readQuantum_cases (by simp) hq
      have hp := pack_length_bound q
      have hxl := vals_length hv
      have hql : q.length = xs.length := by rw [h2]; simpa using hxl
      rcases h3 with ⟨rfl, hl, hs⟩ | ⟨rfl, hl, hr, hs⟩ | ⟨rfl, hl, hl', hs, hr⟩
      · simp only [Bool.false_eq_true, if_false] at h
        cases hd : decodeLoop n rest with
        | none => simp [hd] at h
        | some o =>
          simp only [hd, Option.map_some, Option.some.injEq] at h
          subst h
          have ih := decodeLoop_bound hd
          rw [hs]; simp only [List.length_append]; omega
      · simp only [if_true, Option.some.injEq] at h
        subst h; rw [hs]; omega
      · simp only [if_true, Option.some.injEq] at h
        subst h; rw [hs]; simp only [List.length_append]; omega

/-- One turn of the loop, for inputs too long to hold padding. -/
theorem decodeLoop_step {n : Nat} {src : Str} {out : List Nat} (hl : 16 ≤ src.length)
    (h : decodeLoop (n + 1) src = some out) :
    ∃ xs ys rest o, vals xs = some ys ∧ ys.length = 8 ∧ src = xs ++ rest ∧
      decodeLoop n rest = some o ∧ out = pack ys ++ o := by
  cases src with
  | nil => simp at hl
  | cons c src =>
    simp only [decodeLoop] at h
    split at h
    · simp at h
    · rename_i q rest fin hq
      obtain ⟨xs, ys, hv, h2, h3⟩ := readQuantum_cases (by simp) hq
      have hxl := vals_length hv
      simp only [List.nil_append] at h2
      subst h2
      rcases h3 with ⟨rfl, hl', hs⟩ | ⟨rfl, hl', hr, hs⟩ | ⟨rfl, hl', hl'', hs, hr⟩
      · simp only [Bool.false_eq_true, if_false] at h
        cases hd : decodeLoop n rest with
        | none => simp [hd] at h
        | some o =>
          simp only [hd, Option.map_some, Option.some.injEq] at h
          exact ⟨xs, q, rest, o, hv, hl', hs, hd, h.symm⟩
      · rw [hs] at hl; omega
      · rw [hs] at hl; simp only [List.length_append, List.length_cons] at hl; omega

/-- The last ten characters: either padding (at most four bytes) or one full and one short quantum. -/
theorem decodeLoop_ten {n : Nat} {src : Str} {out : List Nat} (hl : src.length = 10)
    (h : decodeLoop (n + 2) src = some out) (ho : 6 ≤ out.length) :
    ∃ q x y, vals src = some (q ++ [x, y]) ∧ q.length = 8 ∧ out = pack q ++ pack [x, y] := by
  cases src with
  | nil => simp at hl
  | cons c src =>
    simp only [decodeLoop] at h
    split at h
    · simp at h
    · rename_i q rest fin hq
      obtain ⟨xs, ys, hv, h2, h3⟩ := readQuantum_cases (by simp) hq
      have hxl := vals_length hv
      simp only [List.nil_append] at h2
      subst h2
      rcases h3 with ⟨rfl, hl', hs⟩ | ⟨rfl, hl', hr, hs⟩ | ⟨rfl, hl', hl'', hs, hr⟩
      · simp only [Bool.false_eq_true, if_false] at h
        cases hd : decodeLoop (n + 1) rest with
        | none => simp [hd] at h
        | some o =>
          simp only [hd, Option.map_some, Option.some.injEq] at h
          have hrl : rest.length = 2 := by rw [hs] at hl; simp only [List.length_append] at hl; omega
          cases rest with
          | nil => simp at hrl
          | cons c' rest =>
            simp only [decodeLoop] at hd
            split at hd
            · simp at hd
            · rename_i q' rest' fin' hq'
              obtain ⟨xs', ys', hv', h2', h3'⟩ := readQuantum_cases (by simp) hq'
              have hxl' := vals_length hv'
              simp only [List.nil_append] at h2'
              subst h2'
              rcases h3' with ⟨rfl, hl3, hs3⟩ | ⟨rfl, hl3, hr3, hs3⟩ | ⟨rfl, hl3, hl3', hs3, hr3⟩
              · rw [hs3] at hrl; simp only [List.length_append] at hrl; omega
              · simp only [if_true, Option.some.injEq] at hd
                subst hd
                rw [hs3] at hrl
                match q', hxl'.trans hrl with
                | [x, y], _ =>
                  refine ⟨q, x, y, ?_, hl', h.symm⟩
                  rw [hs, hs3]
                  exact vals_append hv hv'
              · rw [hs3] at hrl; simp only [List.length_append, List.length_cons] at hrl; omega
      · rw [hs] at hl; omega
      · simp only [if_true, Option.some.injEq] at h
        have := (pack_length_le q).1
        subst h; omega

/-- Without byte 0xFF, success means that all characters are in the alphabet. -/
theorem decodeLoop_vals : ∀ {n : Nat} {src : Str} {out : List Nat}, src.length ≤ n → (0xFF : UInt8) ∉ src →
    decodeLoop n src = some out → (vals src).isSome
  | 0, src, out, hn, _, _ => by
    have : src = [] := List.eq_nil_of_length_eq_zero (by omega)
    subst this; rfl
  | n + 1, [], out, _, _, _ => rfl
  | n + 1, c :: src, out, hn, hf, h => by
    simp only [decodeLoop] at h
    split at h
    · simp at h
    · rename_i q rest fin hq
      obtain ⟨xs, ys, hv, h2, h3⟩ := readQuantum_cases (by simp) hq
      have hxl := vals_length hv
      have hql : q.length = xs.length := by rw [h2]; simpa using hxl
      rcases h3 with ⟨rfl, hl, hs⟩ | ⟨rfl, hl, hr, hs⟩ | ⟨rfl, hl, hl', hs, hr⟩
      · simp only [Bool.false_eq_true, if_false] at h
        cases hd : decodeLoop n rest with
        | none => simp [hd] at h
        | some o =>
          rw [hs] at hn hf ⊢
          simp only [List.length_append] at hn
          have ih := decodeLoop_vals (n := n) (src := rest) (by omega) (fun hm => hf (by simp [hm])) hd
          obtain ⟨w, hw⟩ := Option.isSome_iff_exists.1 ih
          simp [vals_append hv hw]
      · rw [hs, hv]; rfl
      · exact absurd (by rw [hs]; simp) hf

end Verif.Base32
