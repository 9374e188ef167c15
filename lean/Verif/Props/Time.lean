import Verif.Ws.Time
/-!
# C50: dates survive
-/
set_option autoImplicit false
namespace Verif
namespace Time

theorem digit_toNat {n : Nat} (h : n < 10) : (digit n).toNat = 48 + n := by
  simp only [digit, UInt8.toNat_ofNat']
  omega

theorem digit_ok {n : Nat} (h : n < 10) : (48 ≤ digit n && digit n ≤ 57) = true := by
  simp only [Bool.and_eq_true, decide_eq_true_eq, UInt8.le_iff_toNat_le, digit_toNat h]
  constructor
  · show 48 ≤ 48 + n; omega
  · show 48 + n ≤ 57; omega

theorem pad_two {n : Nat} (h : n < 100) : pad 2 n = [digit (n / 10), digit (n % 10)] := by
  have h0 : n / 10 / 10 = 0 := by omega
  have h1 : n / 10 % 10 = n / 10 := by omega
  simp [pad, h0, h1]

theorem pad_four {n : Nat} (h : n < 10000) : pad 4 n = [digit (n / 10 / 10 / 10), digit (n / 10 / 10 % 10), digit (n / 10 % 10), digit (n % 10)] := by
  have h0 : n / 10 / 10 / 10 / 10 = 0 := by omega
  have h1 : n / 10 / 10 / 10 % 10 = n / 10 / 10 / 10 := by omega
  simp [pad, h0, h1]

theorem num_two {n lo hi : Nat} (h : n < 100) (h1 : lo ≤ n) (h2 : n ≤ hi) : num [digit (n / 10), digit (n % 10)] lo hi = some n := by
  have e1 := digit_ok (n := n / 10) (by omega)
  have e2 := digit_ok (n := n % 10) (by omega)
  have e3 := digit_toNat (n := n / 10) (by omega)
  have e4 := digit_toNat (n := n % 10) (by omega)
  simp only [num, List.all_cons, List.all_nil, e1, e2, Bool.and_true, if_true, List.foldl_cons, List.foldl_nil, e3, e4]
  have : (0 * 10 + (48 + n / 10 - 48)) * 10 + (48 + n % 10 - 48) = n := by omega
  rw [this, if_pos ⟨h1, h2⟩]

theorem num_four {n : Nat} (h : n < 10000) :
    num [digit (n / 10 / 10 / 10), digit (n / 10 / 10 % 10), digit (n / 10 % 10), digit (n % 10)] 0 9999 = some n := by
  have a1 : n / 10 / 10 / 10 < 10 := by omega
  have a2 : n / 10 / 10 % 10 < 10 := by omega
  have a3 : n / 10 % 10 < 10 := by omega
  have a4 : n % 10 < 10 := by omega
  simp only [num, List.all_cons, List.all_nil, digit_ok a1, digit_ok a2, digit_ok a3, digit_ok a4, Bool.and_true, if_true, List.foldl_cons, List.foldl_nil,
    digit_toNat a1, digit_toNat a2, digit_toNat a3, digit_toNat a4]
  have : (((0 * 10 + (48 + n / 10 / 10 / 10 - 48)) * 10 + (48 + n / 10 / 10 % 10 - 48)) * 10 + (48 + n / 10 % 10 - 48)) * 10 + (48 + n % 10 - 48) = n := by omega
  rw [this, if_pos (by omega)]

theorem tdiv_small {o : Int} (h : -86400 < o ∧ o < 86400) : (o.tdiv 60).natAbs < 1440 := by
  rw [Int.natAbs_tdiv]
  show o.natAbs / 60 < 1440
  omega

theorem parseZone_zone {o : Int} (h : -86400 < o ∧ o < 86400) : parseZone (zone o) = some (o.tdiv 60 * 60) := by
  by_cases h0 : o = 0
  · subst h0; decide
  · have hz := tdiv_small h
    have hh : (o.tdiv 60).natAbs / 60 < 24 := by omega
    have hm : (o.tdiv 60).natAbs % 60 < 60 := by omega
    have e1 := num_two (n := (o.tdiv 60).natAbs / 60) (lo := 0) (hi := 23) (by omega) (by omega) (by omega)
    have e2 := num_two (n := (o.tdiv 60).natAbs % 60) (lo := 0) (hi := 59) (by omega) (by omega) (by omega)
    simp only [zone, h0, if_false, pad_two (show (o.tdiv 60).natAbs / 60 < 100 by omega), pad_two (show (o.tdiv 60).natAbs % 60 < 100 by omega)]
    by_cases hs : o.tdiv 60 < 0
    · simp only [hs, if_true]
      have : parseZone (lit "-" ++ [digit ((o.tdiv 60).natAbs / 60 / 10), digit ((o.tdiv 60).natAbs / 60 % 10)] ++ lit ":" ++
          [digit ((o.tdiv 60).natAbs % 60 / 10), digit ((o.tdiv 60).natAbs % 60 % 10)]) =
          match num [digit ((o.tdiv 60).natAbs / 60 / 10), digit ((o.tdiv 60).natAbs / 60 % 10)] 0 23,
            num [digit ((o.tdiv 60).natAbs % 60 / 10), digit ((o.tdiv 60).natAbs % 60 % 10)] 0 59 with
          | some h, some m => some (-(((h * 60 + m) * 60 : Nat) : Int))
          | _, _ => none := rfl
      rw [this, e1, e2]
      simp only [Option.some.injEq]
      omega
    · simp only [hs, if_false]
      have : parseZone (lit "+" ++ [digit ((o.tdiv 60).natAbs / 60 / 10), digit ((o.tdiv 60).natAbs / 60 % 10)] ++ lit ":" ++
          [digit ((o.tdiv 60).natAbs % 60 / 10), digit ((o.tdiv 60).natAbs % 60 % 10)]) =
          match num [digit ((o.tdiv 60).natAbs / 60 / 10), digit ((o.tdiv 60).natAbs / 60 % 10)] 0 23,
            num [digit ((o.tdiv 60).natAbs % 60 / 10), digit ((o.tdiv 60).natAbs % 60 % 10)] 0 59 with
          | some h, some m => some ((((h * 60 + m) * 60 : Nat) : Int))
          | _, _ => none := rfl
      rw [this, e1, e2]
      simp only [Option.some.injEq]
      omega

theorem days_small (m y : Nat) : daysIn m y ≤ 31 := by
  unfold daysIn
  repeat' split
  all_goals omega

theorem lastDay_days {y m n : Nat} (h : LastDay y m n) : daysIn m y = n := by
  cases h with
  | long h => simp at h; rcases h with h | h | h | h | h | h | h <;> subst h <;> rfl
  | short h => simp at h; rcases h with h | h | h | h <;> subst h <;> rfl
  | leap h =>
    have : leap y = true := by simp [leap]; omega
    simp [daysIn, this]
  | common h =>
    have : leap y = false := by simp [leap]; omega
    simp [daysIn, this]

/-- **C50.** A date that is written into a commit is read back to the second, with its offset to the minute, whatever the lenient
parser does. -/
theorem C50_date_round_trip {t : Time} (h : t.Valid) (lenient : Str → Option Time) : parse lenient t.format = some t.toMinute := by
  obtain ⟨y, m, d, hh, mi, s, o⟩ := t
  obtain ⟨⟨y1, y2⟩, ⟨m1, m2⟩, ⟨d1, ld, hld, d2⟩, h1, mi1, s1, ho⟩ := h
  rw [← lastDay_days hld] at d2
  simp only at y1 y2 m1 m2 d1 d2 h1 mi1 s1 ho
  have hd31 := days_small m y.toNat
  have hy : ¬ y < 0 := by omega
  have hy4 : y.natAbs < 10000 := by omega
  have hya : y.natAbs = y.toNat := by omega
  have e0 := num_four hy4
  have e1 := num_two (n := m) (lo := 1) (hi := 12) (by omega) m1 m2
  have e2 := num_two (n := d) (lo := 1) (hi := daysIn m y.natAbs) (by omega) d1 (by rw [hya]; exact d2)
  have e3 := num_two (n := hh) (lo := 0) (hi := 23) (by omega) (by omega) h1
  have e4 := num_two (n := mi) (lo := 0) (hi := 59) (by omega) (by omega) mi1
  have e5 := num_two (n := s) (lo := 0) (hi := 59) (by omega) (by omega) s1
  simp only [parse, format, hy, if_false, pad_four hy4, pad_two (show m < 100 by omega), pad_two (show d < 100 by omega), pad_two (show hh < 100 by omega),
    pad_two (show mi < 100 by omega), pad_two (show s < 100 by omega)]
  have key : ∀ (a b c e f g i j k l n p q r : UInt8) (z : Str),
      parseStrict ([] ++ [a, b, c, e] ++ lit "-" ++ [f, g] ++ lit "-" ++ [i, j] ++ lit "T" ++ [k, l] ++ lit ":" ++ [n, p] ++ lit ":" ++ [q, r] ++ z) =
      (num [a, b, c, e] 0 9999).bind fun y => (num [f, g] 1 12).bind fun m => (num [i, j] 1 (daysIn m y)).bind fun d => (num [k, l] 0 23).bind fun h =>
        (num [n, p] 0 59).bind fun n => (num [q, r] 0 59).bind fun sec => (parseZone z).map fun z => ⟨y, m, d, h, n, sec, z⟩ := by
    intros; rfl
  rw [key, e0, Option.bind_some, e1, Option.bind_some, e2, Option.bind_some, e3, Option.bind_some, e4, Option.bind_some, e5, Option.bind_some, parseZone_zone ho]
  simp only [Option.map_some, Option.some_or, toMinute, Option.some.injEq, Time.mk.injEq, and_true]
  omega

theorem format_ascii {t : Time} (h : t.Valid) : ∀ b ∈ t.format, b < (0x80 : UInt8) := by
  have hd : ∀ {n : Nat}, n < 10 → digit n < (0x80 : UInt8) := by
    intro n hn
    rw [UInt8.lt_iff_toNat_lt, digit_toNat hn]
    show 48 + n < 128
    omega
  have hp2 : ∀ {n : Nat}, n < 100 → ∀ b ∈ pad 2 n, b < (0x80 : UInt8) := by
    intro n hn b hb
    rw [pad_two hn] at hb
    simp only [List.mem_cons, List.not_mem_nil, or_false] at hb
    rcases hb with rfl | rfl
    · exact hd (by omega)
    · exact hd (by omega)
  have hp4 : ∀ {n : Nat}, n < 10000 → ∀ b ∈ pad 4 n, b < (0x80 : UInt8) := by
    intro n hn b hb
    rw [pad_four hn] at hb
    simp only [List.mem_cons, List.not_mem_nil, or_false] at hb
    rcases hb with rfl | rfl | rfl | rfl <;> exact hd (by omega)
  have hz : ∀ b ∈ zone t.offset, b < (0x80 : UInt8) := by
    intro b hb
    have := tdiv_small h.offset
    simp only [zone] at hb
    split at hb
    · revert b; decide
    · simp only [List.mem_append] at hb
      rcases hb with ((hb | hb) | hb) | hb
      · split at hb <;> revert b <;> decide
      · exact hp2 (by omega) b hb
      · revert b; decide
      · exact hp2 (by omega) b hb
  intro b hb
  have a1 := h.year
  have a2 := h.month
  have a3 := h.day
  have a4 := h.hour
  have a5 := h.min
  have a6 := h.sec
  have a7 := days_small t.month t.year.toNat
  obtain ⟨_, ld, hld, a8⟩ := a3
  rw [lastDay_days hld] at a7
  have hl : ∀ c ∈ lit "-T:", c < (0x80 : UInt8) := by decide
  simp only [format, List.mem_append] at hb
  rcases hb with ((((((((((((hb | hb) | hb) | hb) | hb) | hb) | hb) | hb) | hb) | hb) | hb) | hb) | hb)
  · split at hb
    · revert b; decide
    · cases hb
  · exact hp4 (by omega) b hb
  · revert b; decide
  · exact hp2 (by omega) b hb
  · revert b; decide
  · exact hp2 (by omega) b hb
  · revert b; decide
  · exact hp2 (by omega) b hb
  · revert b; decide
  · exact hp2 (by omega) b hb
  · revert b; decide
  · exact hp2 (by omega) b hb
  · exact hz b hb

/-- A leap day in Berlin. -/
def sampleTime : Time := ⟨2024, 2, 29, 23, 59, 58, 3600⟩

theorem sampleTime_valid : sampleTime.Valid := ⟨by decide, by decide, ⟨by decide, 29, .leap (by decide), by decide⟩, by decide, by decide, by decide, by decide⟩

example : sampleTime.format = lit "2024-02-29T23:59:58+01:00" := by decide
example : (⟨1900, 1, 1, 0, 0, 0, -1172⟩ : Time).format = lit "1900-01-01T00:00:00-00:19" := by decide
example : parseStrict (lit "2023-02-29T00:00:00Z") = none := by decide
example : parseStrict (lit "2023-02-28T00:00:00.125Z") = some ⟨2023, 2, 28, 0, 0, 0, 0⟩ := by decide

end Time
end Verif
