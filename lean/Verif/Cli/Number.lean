import Verif.Cli.Flags
import Verif.Props.Numerals
/-!
# The values of options

How numbers and truth values are spelled, written down without reference to `strconv`, and that the program reads them so.
-/
set_option autoImplicit false
namespace Verif
namespace Cli

/-! ## Specification -/

/-- `c` is the digit `d`: `0` to `9`, then the letters, in either case. -/
def DigitIs (c : UInt8) (d : Nat) : Prop :=
  (lit "0123456789abcdefghijklmnopqrstuvwxyz")[d]? = some c ∨ (lit "0123456789ABCDEFGHIJKLMNOPQRSTUVWXYZ")[d]? = some c

/-- One or more digits, with at most one underscore between any two. -/
inductive Grouped (base : Nat) : Str → List Nat → Prop where
  | last {c : UInt8} {d : Nat} : DigitIs c d → d < base → Grouped base [c] [d]
  | more {c : UInt8} {d : Nat} {s : Str} {ds : List Nat} : DigitIs c d → d < base → Grouped base s ds → Grouped base (c :: s) (d :: ds)
  | sep {c : UInt8} {d : Nat} {s : Str} {ds : List Nat} : DigitIs c d → d < base → Grouped base s ds → Grouped base (c :: 95 :: s) (d :: ds)

/-- The letter behind the zero that says the base. -/
inductive Letter : UInt8 → Nat → Prop where
  | b : Letter 98 2
  | B : Letter 66 2
  | o : Letter 111 8
  | O : Letter 79 8
  | x : Letter 120 16
  | X : Letter 88 16

/-- The spellings of a number: decimal without leading zero, octal with a leading zero, or a base by letter; behind a prefix there may be an
underscore. -/
inductive Spelt : Str → Nat → Prop where
  | zero : Spelt (lit "0") 0
  | dec {s : Str} {ds : List Nat} : Grouped 10 s ds → s.head? ≠ some 48 → Spelt s (numeral 10 ds)
  | oct {s : Str} {ds : List Nat} : Grouped 8 s ds → Spelt (48 :: s) (numeral 8 ds)
  | octSep {s : Str} {ds : List Nat} : Grouped 8 s ds → Spelt (48 :: 95 :: s) (numeral 8 ds)
  | base {l : UInt8} {b : Nat} {s : Str} {ds : List Nat} : Letter l b → Grouped b s ds → Spelt (48 :: l :: s) (numeral b ds)
  | baseSep {l : UInt8} {b : Nat} {s : Str} {ds : List Nat} : Letter l b → Grouped b s ds → Spelt (48 :: l :: 95 :: s) (numeral b ds)

/-- The same with a sign, in 64 bits. -/
inductive SpeltInt : Str → Int → Prop where
  | plain {s : Str} {n : Nat} : Spelt s n → n < 2 ^ 63 → SpeltInt s n
  | plus {s : Str} {n : Nat} : Spelt s n → n < 2 ^ 63 → SpeltInt (43 :: s) n
  | minus {s : Str} {n : Nat} : Spelt s n → n ≤ 2 ^ 63 → SpeltInt (45 :: s) (-(n : Int))

/-- Words for yes and no. -/
inductive Truth : Str → Bool → Prop where
  | yes {s : Str} : s ∈ [lit "1", lit "t", lit "T", lit "true", lit "True", lit "TRUE"] → Truth s true
  | no {s : Str} : s ∈ [lit "0", lit "f", lit "F", lit "false", lit "False", lit "FALSE"] → Truth s false

/-- The texts that can be given to an option. -/
inductive Fits : Kind → Str → Prop where
  | bool {s : Str} {b : Bool} : Truth s b → Fits .bool s
  | str (s : Str) : Fits .str s
  | int {s : Str} {n : Int} : SpeltInt s n → Fits .int s
  | uint32 {s : Str} {n : Nat} : Spelt s n → n < 2 ^ 32 → Fits .uint32 s

/-! ## Digits -/

theorem digitVal_of_is {c : UInt8} {d : Nat} (h : DigitIs c d) : digitVal c = some d := by
  have hlt : d < 36 := by
    rcases h with h | h
    · exact (List.getElem?_eq_some_iff.1 h).1
    · exact (List.getElem?_eq_some_iff.1 h).1
  have h1 : ∀ k : Fin 36, ((lit "0123456789abcdefghijklmnopqrstuvwxyz")[k.1]?).bind digitVal = some k.1 := by decide
  have h2 : ∀ k : Fin 36, ((lit "0123456789ABCDEFGHIJKLMNOPQRSTUVWXYZ")[k.1]?).bind digitVal = some k.1 := by decide
  rcases h with h | h
  · have := h1 ⟨d, hlt⟩; simp only [h, Option.bind_some] at this; exact this
  · have := h2 ⟨d, hlt⟩; simp only [h, Option.bind_some] at this; exact this

theorem lower36 : ∀ k : Fin 36, (lit "0123456789abcdefghijklmnopqrstuvwxyz")[k.1]? = some (if k.1 < 10 then UInt8.ofNat (48 + k.1) else UInt8.ofNat (87 + k.1)) := by decide
theorem upper36 : ∀ k : Fin 36, (lit "0123456789ABCDEFGHIJKLMNOPQRSTUVWXYZ")[k.1]? = some (if k.1 < 10 then UInt8.ofNat (48 + k.1) else UInt8.ofNat (55 + k.1)) := by decide

theorem is_of_digitVal {c : UInt8} {d : Nat} (h : digitVal c = some d) : DigitIs c d := by
  unfold digitVal at h
  simp only [UInt8.le_iff_toNat_le] at h
  have e1 : (48 : UInt8).toNat = 48 := rfl
  have e2 : (57 : UInt8).toNat = 57 := rfl
  have e3 : (97 : UInt8).toNat = 97 := rfl
  have e4 : (122 : UInt8).toNat = 122 := rfl
  have e5 : (65 : UInt8).toNat = 65 := rfl
  have e6 : (90 : UInt8).toNat = 90 := rfl
  rw [e1, e2, e3, e4, e5, e6] at h
  have back : ∀ n : Nat, n = c.toNat → UInt8.ofNat n = c := by rintro n rfl; exact UInt8.ofNat_toNat
  split at h
  · cases h
    left
    have := lower36 ⟨c.toNat - 48, by omega⟩
    rw [this, if_pos (by simp only; omega), back _ (by simp only; omega)]
  · split at h
    · cases h
      left
      have := lower36 ⟨c.toNat - 87, by omega⟩
      rw [this, if_neg (by simp only; omega), back _ (by simp only; omega)]
    · split at h
      · cases h
        right
        have := upper36 ⟨c.toNat - 55, by omega⟩
        rw [this, if_neg (by simp only; omega), back _ (by simp only; omega)]
      · cases h

theorem digitIs_iff (c : UInt8) (d : Nat) : DigitIs c d ↔ digitVal c = some d := ⟨digitVal_of_is, is_of_digitVal⟩

theorem digit_not_us {c : UInt8} {d : Nat} (h : digitVal c = some d) : c ≠ 95 := by
  rintro rfl
  have : digitVal 95 = none := by decide
  rw [this] at h; cases h

/-- The digits that `underscoreOK` knows. -/
def usDigit (hex : Bool) (c : UInt8) : Prop := 48 ≤ c ∧ c ≤ 57 ∨ hex = true ∧ (97 ≤ c ∧ c ≤ 102 ∨ 65 ≤ c ∧ c ≤ 70)

/-- Those of the base are among them. -/
def Knows (hex : Bool) (base : Nat) : Prop := ∀ c d, digitVal c = some d → d < base → usDigit hex c

theorem digitVal_small {c : UInt8} {d : Nat} (h : digitVal c = some d) (hd : d < 10) : 48 ≤ c ∧ c ≤ 57 := by
  unfold digitVal at h
  split at h
  · assumption
  · simp only [UInt8.le_iff_toNat_le] at h
    have e3 : (97 : UInt8).toNat = 97 := rfl
    have e4 : (122 : UInt8).toNat = 122 := rfl
    have e5 : (65 : UInt8).toNat = 65 := rfl
    have e6 : (90 : UInt8).toNat = 90 := rfl
    rw [e3, e4, e5, e6] at h
    split at h
    · cases h; omega
    · split at h
      · cases h; omega
      · cases h

theorem knows_small {hex : Bool} {base : Nat} (h : base ≤ 10) : Knows hex base := fun _ _ h1 h2 => .inl (digitVal_small h1 (by omega))

theorem knows_hex : Knows true 16 := by
  intro c d h hd
  unfold digitVal at h
  split at h
  · exact .inl (by assumption)
  · unfold usDigit
    simp only [UInt8.le_iff_toNat_le] at h ⊢
    have e3 : (97 : UInt8).toNat = 97 := rfl
    have e4 : (122 : UInt8).toNat = 122 := rfl
    have e5 : (65 : UInt8).toNat = 65 := rfl
    have e6 : (90 : UInt8).toNat = 90 := rfl
    have e7 : (102 : UInt8).toNat = 102 := rfl
    have e8 : (70 : UInt8).toNat = 70 := rfl
    rw [e3, e4, e5, e6] at h
    rw [e3, e5, e7, e8]
    right
    refine ⟨by simp, ?_⟩
    split at h
    · cases h; omega
    · split at h
      · cases h; omega
      · cases h

/-! ## The loops -/

theorem digits_us (base : Nat) (s : Str) (acc : Nat) : digits base (95 :: s) acc = digits base s acc := by rw [digits, if_pos rfl]

theorem digits_digit {base : Nat} {c : UInt8} {d : Nat} (h : digitVal c = some d) (hd : d < base) (s : Str) (acc : Nat) :
    digits base (c :: s) acc = digits base s (acc * base + d) := by
  rw [digits, if_neg (digit_not_us h), h]
  simp only [if_pos hd]

theorem digits_bad {base : Nat} {c : UInt8} (h : c ≠ 95) (hd : ∀ d, digitVal c = some d → ¬ d < base) (s : Str) (acc : Nat) : digits base (c :: s) acc = none := by
  rw [digits, if_neg h]
  cases hv : digitVal c with
  | none => rfl
  | some d => simp only [if_neg (hd d hv)]

theorem us_digit {hex : Bool} {c : UInt8} (h : usDigit hex c) (saw : UInt8) (s : Str) : underscores hex saw (c :: s) = underscores hex 48 s := by
  rw [underscores]; exact if_pos h

theorem us_not (hex : Bool) : ¬ usDigit hex 95 := by
  unfold usDigit
  decide +revert

theorem us_us (hex : Bool) (saw : UInt8) (s : Str) : underscores hex saw (95 :: s) = if saw ≠ 48 then false else underscores hex 95 s := by
  rw [underscores]
  exact (if_neg (us_not hex)).trans (if_pos rfl)

/-- The number that digits write, continued from a number. -/
def goOn (base acc : Nat) (ds : List Nat) : Nat := ds.foldl (fun n d => n * base + d) acc

theorem grouped_ne {base : Nat} {s : Str} {ds : List Nat} (h : Grouped base s ds) : ∃ c d r, s = c :: r ∧ digitVal c = some d ∧ d < base := by
  cases h with
  | last h1 h2 => exact ⟨_, _, _, rfl, (digitIs_iff _ _).1 h1, h2⟩
  | more h1 h2 _ => exact ⟨_, _, _, rfl, (digitIs_iff _ _).1 h1, h2⟩
  | sep h1 h2 _ => exact ⟨_, _, _, rfl, (digitIs_iff _ _).1 h1, h2⟩

theorem loops {hex : Bool} {base : Nat} (hk : Knows hex base) (s : Str) : ∀ acc n,
    (digits base s acc = some n ∧ underscores hex 48 s = true ↔
      (s = [] ∧ n = acc) ∨ ∃ s' ds, (s = s' ∨ s = 95 :: s') ∧ Grouped base s' ds ∧ n = goOn base acc ds) ∧
    (digits base s acc = some n ∧ underscores hex 95 s = true ↔ ∃ ds, Grouped base s ds ∧ n = goOn base acc ds) := by
  induction s with
  | nil =>
    intro acc n
    refine ⟨⟨?_, ?_⟩, ⟨?_, ?_⟩⟩
    · rintro ⟨h, _⟩; cases h; exact .inl ⟨rfl, rfl⟩
    · rintro (⟨_, rfl⟩ | ⟨s', ds, h, hg, _⟩)
      · exact ⟨rfl, by rw [underscores]; decide⟩
      · obtain ⟨c, d, r, rfl, _⟩ := grouped_ne hg
        rcases h with h | h <;> cases h
    · rintro ⟨_, h⟩
      rw [underscores] at h
      exact absurd h (by decide)
    · rintro ⟨ds, hg, _⟩
      obtain ⟨c, d, r, h, _⟩ := grouped_ne hg
      cases h
  | cons c s ih =>
    intro acc n
    by_cases hc : c = 95
    · subst hc
      rw [digits_us, us_us, us_us]
      simp only [ne_eq, not_true_eq_false, if_false]
      refine ⟨⟨?_, ?_⟩, ⟨?_, ?_⟩⟩
      · intro h
        obtain ⟨ds, hg, hn⟩ := ((ih acc n).2).1 h
        exact .inr ⟨s, ds, .inr rfl, hg, hn⟩
      · rintro (⟨h, _⟩ | ⟨s', ds, h, hg, hn⟩)
        · cases h
        · rcases h with h | h
          · subst h
            obtain ⟨c, d, r, h, hv, _⟩ := grouped_ne hg
            cases h; exact absurd rfl (digit_not_us hv)
          · cases h
            exact ((ih acc n).2).2 ⟨ds, hg, hn⟩
      · rintro ⟨_, h⟩
        rw [if_pos (by decide)] at h; cases h
      · rintro ⟨ds, hg, _⟩
        obtain ⟨c, d, r, h, hv, _⟩ := grouped_ne hg
        cases h; exact absurd rfl (digit_not_us hv)
    · by_cases hv : ∃ d, digitVal c = some d ∧ d < base
      · obtain ⟨d, hv, hd⟩ := hv
        rw [digits_digit hv hd, us_digit (hk c d hv hd), us_digit (hk c d hv hd)]
        have key : digits base s (acc * base + d) = some n ∧ underscores hex 48 s = true ↔ ∃ ds, Grouped base (c :: s) ds ∧ n = goOn base acc ds := by
          rw [(ih _ n).1]
          constructor
          · rintro (⟨rfl, rfl⟩ | ⟨s', ds, h | h, hg, rfl⟩)
            · exact ⟨[d], .last ((digitIs_iff _ _).2 hv) hd, rfl⟩
            · subst h; exact ⟨d :: ds, .more ((digitIs_iff _ _).2 hv) hd hg, rfl⟩
            · subst h; exact ⟨d :: ds, .sep ((digitIs_iff _ _).2 hv) hd hg, rfl⟩
          · rintro ⟨ds, hg, rfl⟩
            cases hg with
            | last h1 _ =>
              rw [digitIs_iff, hv] at h1; cases h1
              exact .inl ⟨rfl, rfl⟩
            | more h1 _ h3 =>
              rw [digitIs_iff, hv] at h1; cases h1
              exact .inr ⟨_, _, .inl rfl, h3, rfl⟩
            | sep h1 _ h3 =>
              rw [digitIs_iff, hv] at h1; cases h1
              exact .inr ⟨_, _, .inr rfl, h3, rfl⟩
        refine ⟨key.trans ⟨?_, ?_⟩, key⟩
        · rintro ⟨ds, hg, hn⟩; exact .inr ⟨_, ds, .inl rfl, hg, hn⟩
        · rintro (⟨h, _⟩ | ⟨s', ds, h | h, hg, hn⟩)
          · cases h
          · subst h; exact ⟨ds, hg, hn⟩
          · cases h; exact absurd rfl hc
      · rw [digits_bad hc (fun d h1 h2 => hv ⟨d, h1, h2⟩)]
        refine ⟨⟨fun h => (by cases h.1), ?_⟩, ⟨fun h => (by cases h.1), ?_⟩⟩
        · rintro (⟨h, _⟩ | ⟨s', ds, h | h, hg, hn⟩)
          · cases h
          · subst h
            obtain ⟨c', d, r, h, h1, h2⟩ := grouped_ne hg
            cases h; exact absurd ⟨d, h1, h2⟩ hv
          · cases h; exact absurd rfl hc
        · rintro ⟨ds, hg, _⟩
          obtain ⟨c', d, r, h, h1, h2⟩ := grouped_ne hg
          cases h; exact absurd ⟨d, h1, h2⟩ hv

/-- Without underscores there is nothing to check. -/
theorem us_free {hex : Bool} {base : Nat} (hk : Knows hex base) : ∀ (s : Str) (acc : Nat) (saw : UInt8), saw ≠ 95 → 95 ∉ s → (∃ n, digits base s acc = some n) → underscores hex saw s = true
  | [], acc, saw, hs, _, _ => by rw [underscores]; exact decide_eq_true hs
  | c :: s, acc, saw, hs, hm, ⟨n, hn⟩ => by
    have hc : c ≠ 95 := fun h => hm (by rw [h]; exact List.mem_cons_self ..)
    by_cases hv : ∃ d, digitVal c = some d ∧ d < base
    · obtain ⟨d, hv, hd⟩ := hv
      rw [digits_digit hv hd] at hn
      rw [us_digit (hk c d hv hd)]
      exact us_free hk s _ 48 (by decide) (fun h => hm (List.mem_cons_of_mem _ h)) ⟨n, hn⟩
    · rw [digits_bad hc (fun d h1 h2 => hv ⟨d, h1, h2⟩)] at hn; cases hn

/-- The digits behind a prefix. -/
theorem loops_pre {hex : Bool} {base : Nat} (hk : Knows hex base) (s : Str) (n : Nat) (hs : s ≠ []) :
    (digits base s 0 = some n ∧ (95 ∈ s → underscores hex 48 s = true)) ↔ ∃ s' ds, (s = s' ∨ s = 95 :: s') ∧ Grouped base s' ds ∧ n = numeral base ds := by
  have := (loops hk s 0 n).1
  have e : (digits base s 0 = some n ∧ (95 ∈ s → underscores hex 48 s = true)) ↔ (digits base s 0 = some n ∧ underscores hex 48 s = true) := by
    constructor
    · rintro ⟨h1, h2⟩
      by_cases hm : 95 ∈ s
      · exact ⟨h1, h2 hm⟩
      · exact ⟨h1, us_free hk s 0 48 (by decide) hm ⟨n, h1⟩⟩
    · rintro ⟨h1, h2⟩; exact ⟨h1, fun _ => h2⟩
  rw [e, this]
  constructor
  · rintro (⟨h, _⟩ | h)
    · exact absurd h hs
    · exact h
  · exact .inr

/-- The digits from the start. -/
theorem loops_dec (s : Str) (n : Nat) (hs : s ≠ []) :
    (digits 10 s 0 = some n ∧ (95 ∈ s → underscores false 94 s = true)) ↔ ∃ ds, Grouped 10 s ds ∧ n = numeral 10 ds := by
  have hk : Knows false 10 := knows_small (Nat.le_refl _)
  cases s with
  | nil => exact absurd rfl hs
  | cons c s =>
    by_cases hc : c = 95
    · subst hc
      constructor
      · rintro ⟨_, h⟩
        have := h (List.mem_cons_self ..)
        rw [us_us] at this
        rw [if_pos (by decide)] at this; cases this
      · rintro ⟨ds, hg, _⟩
        obtain ⟨c', d, r, h, h1, h2⟩ := grouped_ne hg
        cases h; exact absurd rfl (digit_not_us h1)
    · have : ∀ m, digits 10 (c :: s) 0 = some m → underscores false 94 (c :: s) = underscores false 48 (c :: s) := by
        intro m hm
        by_cases hv : ∃ d, digitVal c = some d ∧ d < 10
        · obtain ⟨d, hv, hd⟩ := hv
          rw [us_digit (hk c d hv hd), us_digit (hk c d hv hd)]
        · rw [digits_bad hc (fun d h1 h2 => hv ⟨d, h1, h2⟩)] at hm; cases hm
      have e := loops_pre hk (c :: s) n (by simp)
      constructor
      · rintro ⟨h1, h2⟩
        rw [this _ h1] at h2
        obtain ⟨s', ds, h | h, hg, hn⟩ := e.1 ⟨h1, h2⟩
        · subst h; exact ⟨ds, hg, hn⟩
        · cases h; exact absurd rfl hc
      · rintro ⟨ds, hg, hn⟩
        obtain ⟨h1, h2⟩ := e.2 ⟨_, ds, .inl rfl, hg, hn⟩
        exact ⟨h1, by rw [this _ h1]; exact h2⟩

/-! ## Numbers -/

theorem letter_iff (l : UInt8) (b : Nat) : Letter l b ↔ baseOf l = some b := by
  constructor
  · intro h; cases h <;> decide
  · intro h
    unfold baseOf at h
    split at h
    · rename_i e; cases h; rcases e with rfl | rfl <;> constructor
    · split at h
      · rename_i e; cases h; rcases e with rfl | rfl <;> constructor
      · split at h
        · rename_i e; cases h; rcases e with rfl | rfl <;> constructor
        · cases h

theorem knows_letter {l : UInt8} {b : Nat} (h : Letter l b) : Knows (b = 16) b := by
  cases h with
  | b => exact knows_small (by decide)
  | B => exact knows_small (by decide)
  | o => exact knows_small (by decide)
  | O => exact knows_small (by decide)
  | x => exact knows_hex
  | X => exact knows_hex

theorem letter_value {l : UInt8} {b : Nat} (h : Letter l b) : l ≠ 95 ∧ ∀ d, digitVal l = some d → ¬ d < 10 := by
  have : ∀ c ∈ [(98 : UInt8), 66, 111, 79, 120, 88], c ≠ 95 ∧ ∀ d : Fin 10, digitVal c ≠ some d.1 := by decide
  have hm : l ∈ [(98 : UInt8), 66, 111, 79, 120, 88] := by cases h <;> decide
  exact ⟨(this l hm).1, fun d hd hlt => (this l hm).2 ⟨d, hlt⟩ hd⟩

theorem bind_range {o : Option Nat} {P : Nat → Prop} [DecidablePred P] {n : Nat} : (o.bind fun n => if P n then some n else none) = some n ↔ o = some n ∧ P n := by
  cases o with
  | none => simp
  | some m =>
    simp only [Option.bind_some, Option.some.injEq]
    split
    · rename_i h
      simp only [Option.some.injEq]
      constructor
      · rintro rfl; exact ⟨rfl, h⟩
      · exact fun h => h.1
    · rename_i h
      simp only [reduceCtorEq, false_iff, not_and]
      rintro rfl; exact h

/-- How `ParseUint` reads. -/
theorem parseUint_iff (bits : Nat) (s : Str) (n : Nat) : parseUint bits s = some n ↔ Spelt s n ∧ n < 2 ^ bits := by
  have fin : ∀ {A B C D : Prop}, (A ∧ C ↔ D) → (A ∧ B ∧ C ↔ D ∧ B) := by
    intro A B C D h
    constructor
    · rintro ⟨a, b, c⟩; exact ⟨h.1 ⟨a, c⟩, b⟩
    · rintro ⟨d, b⟩; exact ⟨(h.2 d).1, b, (h.2 d).2⟩
  unfold parseUint
  cases s with
  | nil =>
    simp only [Option.bind_none, reduceCtorEq, false_iff, not_and]
    intro h
    cases h with
    | dec h _ => obtain ⟨_, _, _, h, _⟩ := grouped_ne h; cases h
  | cons c s =>
    by_cases hc : c = 48
    · subst hc
      -- a prefix
      cases s with
      | nil =>
        rw [bind_range]
        refine fin ⟨?_, ?_⟩
        · rintro ⟨h, _⟩; cases h; exact .zero
        · intro h
          refine ⟨?_, fun hm => absurd hm (by decide)⟩
          cases h with
          | zero => rfl
          | dec _ h => exact absurd rfl h
          | oct h => obtain ⟨_, _, _, h, _⟩ := grouped_ne h; cases h
      | cons b r =>
        have octal : (∀ m, ¬ Letter b m) → (digits 8 (b :: r) 0 = some n ∧ (95 ∈ (48 : UInt8) :: b :: r → underscoreOK (48 :: b :: r) = true) ↔ Spelt (48 :: b :: r) n) := by
          intro hl
          have hbo : baseOf b = none := by
            cases hb : baseOf b with
            | none => rfl
            | some m => exact absurd ((letter_iff b m).2 hb) (hl m)
          have hus : underscoreOK (48 :: b :: r) = underscores false 48 (b :: r) := by
            unfold underscoreOK
            rw [if_neg (by simp)]
            simp only [hbo]
            rw [us_digit (.inl (by decide))]
          have hmem : 95 ∈ (48 : UInt8) :: b :: r ↔ 95 ∈ b :: r := by simp
          rw [hus, hmem, loops_pre (knows_small (by decide)) _ _ (by simp)]
          constructor
          · rintro ⟨s', ds, h | h, hg, rfl⟩
            · rw [h]; exact .oct hg
            · rw [h]; exact .octSep hg
          · intro h
            cases h with
            | dec _ h => exact absurd rfl h
            | oct h => exact ⟨_, _, .inl rfl, h, rfl⟩
            | octSep h => exact ⟨_, _, .inr rfl, h, rfl⟩
            | base h _ => exact absurd h (hl _)
            | baseSep h _ => exact absurd h (hl _)
        have noOct : ∀ {l : UInt8} {m : Nat} {s : Str}, Letter l m → digits 8 (l :: s) 0 = none := fun hl =>
          digits_bad (letter_value hl).1 (fun d h1 h2 => (letter_value hl).2 d h1 (by omega)) _ _
        have noGroup : ∀ {l : UInt8} {m : Nat} {s : Str} {ds : List Nat}, Letter l m → ¬ Grouped 8 (l :: s) ds := by
          intro l m s ds hl hg
          obtain ⟨_, d, _, h, h1, h2⟩ := grouped_ne hg
          cases h
          exact (letter_value hl).2 d h1 (by omega)
        by_cases hl : ∃ m, Letter b m
        · obtain ⟨m, hl⟩ := hl
          have hb := (letter_iff b m).1 hl
          cases r with
          | nil =>
            rw [bind_range]
            refine fin ⟨?_, ?_⟩
            · rintro ⟨h, _⟩
              have h : digits 8 [b] 0 = some n := h
              rw [noOct hl] at h; cases h
            · intro h
              exfalso
              cases h with
              | dec _ h => exact absurd rfl h
              | oct h => exact noGroup hl h
              | octSep h => exact absurd rfl (letter_value hl).1
              | base _ h => obtain ⟨_, _, _, h, _⟩ := grouped_ne h; cases h
          | cons d r =>
            simp only [hb]
            rw [bind_range]
            apply fin
            have hus : underscoreOK (48 :: b :: d :: r) = underscores (m = 16) 48 (d :: r) := by
              unfold underscoreOK
              rw [if_neg (by simp)]
              simp only [hb]
            have hmem : 95 ∈ (48 : UInt8) :: b :: d :: r ↔ 95 ∈ d :: r := by
              rw [List.mem_cons, List.mem_cons]
              constructor
              · rintro (h | h | h)
                · exact absurd h (by decide)
                · exact absurd h.symm (letter_value hl).1
                · exact h
              · exact fun h => .inr (.inr h)
            rw [hus, hmem, loops_pre (knows_letter hl) _ _ (by simp)]
            constructor
            · rintro ⟨s', ds, h | h, hg, rfl⟩
              · rw [h]; exact .base hl hg
              · rw [h]; exact .baseSep hl hg
            · intro h
              cases h with
              | dec _ h => exact absurd rfl h
              | oct h => exact absurd h (noGroup hl)
              | octSep h => exact absurd rfl (letter_value hl).1
              | base h1 h2 =>
                have := (letter_iff _ _).1 h1
                rw [hb] at this; cases this
                exact ⟨_, _, .inl rfl, h2, rfl⟩
              | baseSep h1 h2 =>
                have := (letter_iff _ _).1 h1
                rw [hb] at this; cases this
                exact ⟨_, _, .inr rfl, h2, rfl⟩
        · have hl : ∀ m, ¬ Letter b m := fun m h => hl ⟨m, h⟩
          have hbo : baseOf b = none := by
            cases hb : baseOf b with
            | none => rfl
            | some m => exact absurd ((letter_iff b m).2 hb) (hl m)
          cases r with
          | nil => rw [bind_range]; exact fin (octal hl)
          | cons d r =>
            simp only [hbo]
            rw [bind_range]
            exact fin (octal hl)
    · rw [bind_range]
      split
      · rename_i e; cases e
      · rename_i e; cases e; exact absurd rfl hc
      · rename_i e; cases e; exact absurd rfl hc
      apply fin
      have hus : ∀ m, digits 10 (c :: s) 0 = some m → underscoreOK (c :: s) = underscores false 94 (c :: s) := by
        intro m hm
        have h1 : c ≠ 45 ∧ c ≠ 43 := by
          constructor <;> (rintro rfl; rw [digits_bad (by decide) (fun d h => absurd h (by simp [digitVal]))] at hm; cases hm)
        unfold underscoreOK
        rw [if_neg (by simp [h1.1, h1.2])]
        split
        · rename_i e; cases e; exact absurd rfl hc
        · rfl
      have key := loops_dec (c :: s) n (by simp)
      constructor
      · rintro ⟨h1, h2⟩
        rw [hus _ h1] at h2
        obtain ⟨ds, hg, rfl⟩ := key.1 ⟨h1, h2⟩
        exact .dec hg (by simp [hc])
      · intro h
        cases h with
        | dec h _ =>
          obtain ⟨h1, h2⟩ := key.2 ⟨_, h, rfl⟩
          exact ⟨h1, by rw [hus _ h1]; exact h2⟩
        | _ => exact absurd rfl hc

theorem spelt_head {s : Str} {n : Nat} (h : Spelt s n) : s.head? ≠ some 45 ∧ s.head? ≠ some 43 := by
  cases h with
  | dec h _ =>
    obtain ⟨c, d, r, rfl, h1, h2⟩ := grouped_ne h
    constructor <;> (intro e; cases e; exact absurd h1 (by simp [digitVal]))
  | _ => exact ⟨by simp [lit], by simp [lit]⟩

/-- How `ParseInt` reads. -/
theorem parseInt_iff (s : Str) (n : Int) : parseInt s = some n ↔ SpeltInt s n := by
  have pos : ∀ r : Str, ((parseUint 64 r).bind fun n => if n < 2 ^ 63 then some (n : Int) else none) = some n ↔ ∃ m : Nat, Spelt r m ∧ m < 2 ^ 63 ∧ n = m := by
    intro r
    rw [Option.bind_eq_some_iff]
    constructor
    · rintro ⟨m, h1, h2⟩
      rw [parseUint_iff] at h1
      split at h2
      · cases h2; exact ⟨m, h1.1, by assumption, rfl⟩
      · cases h2
    · rintro ⟨m, h1, h2, rfl⟩
      exact ⟨m, (parseUint_iff _ _ _).2 ⟨h1, by omega⟩, if_pos h2⟩
  unfold parseInt
  split
  · rename_i r
    rw [Option.bind_eq_some_iff]
    constructor
    · rintro ⟨m, h1, h2⟩
      rw [parseUint_iff] at h1
      split at h2
      · cases h2; exact .minus h1.1 (by assumption)
      · cases h2
    · intro h
      cases h with
      | plain h _ => exact absurd rfl (spelt_head h).1
      | minus h1 h2 => exact ⟨_, (parseUint_iff _ _ _).2 ⟨h1, by omega⟩, if_pos h2⟩
  · rename_i r
    rw [pos]
    constructor
    · rintro ⟨m, h1, h2, rfl⟩; exact .plus h1 h2
    · intro h
      cases h with
      | plain h _ => exact absurd rfl (spelt_head h).2
      | plus h1 h2 => exact ⟨_, h1, h2, rfl⟩
  · rename_i r h45 h43
    rw [pos]
    constructor
    · rintro ⟨m, h1, h2, rfl⟩; exact .plain h1 h2
    · intro h
      cases h with
      | plain h1 h2 => exact ⟨_, h1, h2, rfl⟩
      | plus => exact absurd rfl (h43 _)
      | minus => exact absurd rfl (h45 _)

theorem parseBool_iff (s : Str) (b : Bool) : parseBool s = some b ↔ Truth s b := by
  have e1 : s ∈ [lit "1", lit "t", lit "T", lit "TRUE", lit "true", lit "True"] ↔ s ∈ [lit "1", lit "t", lit "T", lit "true", lit "True", lit "TRUE"] := by
    simp only [List.mem_cons, List.not_mem_nil, or_false]; grind
  have e2 : s ∈ [lit "0", lit "f", lit "F", lit "FALSE", lit "false", lit "False"] ↔ s ∈ [lit "0", lit "f", lit "F", lit "false", lit "False", lit "FALSE"] := by
    simp only [List.mem_cons, List.not_mem_nil, or_false]; grind
  have e3 : ∀ s : Str, s ∈ [lit "0", lit "f", lit "F", lit "false", lit "False", lit "FALSE"] → s ∉ [lit "1", lit "t", lit "T", lit "true", lit "True", lit "TRUE"] := by
    intro s h
    simp only [List.mem_cons, List.not_mem_nil, or_false] at h
    rcases h with rfl | rfl | rfl | rfl | rfl | rfl <;> decide
  unfold parseBool
  simp only [e1, e2]
  constructor
  · intro h
    split at h
    · rename_i hm; cases h; exact .yes hm
    · split at h
      · rename_i hm; cases h; exact .no hm
      · cases h
  · intro h
    cases h with
    | yes h => rw [if_pos h]
    | no h => rw [if_neg (e3 s h), if_pos h]

/-- Which values options accept. -/
theorem accepts_iff (k : Kind) (s : Str) : k.accepts s = true ↔ Fits k s := by
  cases k with
  | bool =>
    rw [Kind.accepts, Option.isSome_iff_exists]
    constructor
    · rintro ⟨b, h⟩; exact .bool ((parseBool_iff s b).1 h)
    · intro h; cases h with
      | bool h => exact ⟨_, (parseBool_iff _ _).2 h⟩
  | str => exact ⟨fun _ => .str s, fun _ => rfl⟩
  | int =>
    rw [Kind.accepts, Option.isSome_iff_exists]
    constructor
    · rintro ⟨n, h⟩; exact .int ((parseInt_iff s n).1 h)
    · intro h; cases h with
      | int h => exact ⟨_, (parseInt_iff _ _).2 h⟩
  | uint32 =>
    rw [Kind.accepts, Option.isSome_iff_exists]
    constructor
    · rintro ⟨n, h⟩
      obtain ⟨h1, h2⟩ := (parseUint_iff 32 s n).1 h
      exact .uint32 h1 h2
    · intro h; cases h with
      | uint32 h1 h2 => exact ⟨_, (parseUint_iff _ _ _).2 ⟨h1, h2⟩⟩

/-- **C80.** The values that options take are exactly the ones specified above; what they mean is unambiguous. -/
theorem C80_values (s : Str) : (∀ k : Kind, k.accepts s = true ↔ Fits k s) ∧
    (∀ n, parseUint 32 s = some n ↔ Spelt s n ∧ n < 2 ^ 32) ∧ (∀ n, parseInt s = some n ↔ SpeltInt s n) ∧ (∀ b, parseBool s = some b ↔ Truth s b) :=
  ⟨fun k => accepts_iff k s, parseUint_iff 32 s, parseInt_iff s, parseBool_iff s⟩

/-- **C80.** A text spells at most one number. -/
theorem C80_one_number {s : Str} : (∀ m n, Spelt s m → Spelt s n → m = n) ∧ (∀ m n, SpeltInt s m → SpeltInt s n → m = n) := by
  constructor
  · intro m n hm hn
    have lt : ∀ k : Nat, k < 2 ^ k := fun k => Nat.lt_two_pow_self
    have h1 := (parseUint_iff (max m n) s m).2 ⟨hm, Nat.lt_of_lt_of_le (lt m) (Nat.pow_le_pow_right (by decide) (Nat.le_max_left ..))⟩
    have h2 := (parseUint_iff (max m n) s n).2 ⟨hn, Nat.lt_of_lt_of_le (lt n) (Nat.pow_le_pow_right (by decide) (Nat.le_max_right ..))⟩
    rw [h1] at h2
    exact Option.some.inj h2
  · intro m n hm hn
    rw [← parseInt_iff] at hm hn
    rw [hm] at hn
    exact Option.some.inj hn

/-- Three spellings of 1000. -/
example : Spelt (lit "1_000") 1000 ∧ Spelt (lit "0x_3e8") 1000 ∧ Spelt (lit "01750") 1000 := by
  refine ⟨((parseUint_iff 32 _ _).1 (by decide)).1, ((parseUint_iff 32 _ _).1 (by decide)).1, ((parseUint_iff 32 _ _).1 (by decide)).1⟩

/-- Not numbers: two underscores, an underscore at the end, a digit 8 in an octal number, letters. -/
example : ∀ s ∈ [lit "1__0", lit "10_", lit "_1", lit "08", lit "0b2", lit "0x", lit "12a", lit ""], ∀ n, n < 2 ^ 32 → ¬ Spelt s n := by
  intro s hs n hn h
  have h0 := (parseUint_iff 32 s n).2 ⟨h, hn⟩
  have h1 : ∀ s ∈ [lit "1__0", lit "10_", lit "_1", lit "08", lit "0b2", lit "0x", lit "12a", lit ""], parseUint 32 s = none := by decide
  rw [h1 s hs] at h0
  cases h0

end Cli
end Verif
