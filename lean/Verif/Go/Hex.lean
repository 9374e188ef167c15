import Verif.Go.Basic
/-!
# `encoding/hex`

Standard library, not in /repo; called from `pkg/utils/uid/uid_128.go:20` and `:64`.
-/
set_option autoImplicit false
namespace Verif.Hex
open Verif

/-- The hex digit of a nibble: `hextable = "0123456789abcdef"`. -/
def digit (n : Nat) : UInt8 := if n < 10 then UInt8.ofNat (48 + n) else UInt8.ofNat (87 + n)

/-- `hex.EncodeToString` (used at pkg/utils/uid/uid_128.go:20): two lower-case digits per byte, high nibble first. -/
def encode : Str → Str
  | [] => []
  | b :: bs => digit (b.toNat / 16) :: digit (b.toNat % 16) :: encode bs

/-- `fromHexChar`: the value of a hex digit in either case. -/
def nibble (c : UInt8) : Option Nat :=
  let n := c.toNat
  if 48 ≤ n ∧ n ≤ 57 then some (n - 48)
  else if 97 ≤ n ∧ n ≤ 102 then some (n - 87)
  else if 65 ≤ n ∧ n ≤ 70 then some (n - 55)
  else none

/-- `hex.DecodeString` (used at pkg/utils/uid/uid_128.go:64): `none` stands for `InvalidByteError` or `ErrLength`. -/
def decode : Str → Option Str
  | [] => some []
  | [_] => none
  | a :: b :: rest =>
    match nibble a, nibble b with
    | some x, some y => (decode rest).map (UInt8.ofNat (16 * x + y) :: ·)
    | _, _ => none

/-- ASCII lower-casing of one byte (specification vocabulary). -/
def lower (c : UInt8) : UInt8 := if 65 ≤ c.toNat ∧ c.toNat ≤ 90 then UInt8.ofNat (c.toNat + 32) else c

theorem uint8_ext {a b : UInt8} (h : a.toNat = b.toNat) : a = b := UInt8.toNat_inj.1 h

theorem toNat_ofNat_lt {n : Nat} (h : n < 256) : (UInt8.ofNat n).toNat = n := by
  simp; omega

theorem digit_toNat {n : Nat} (h : n < 16) :
    (digit n).toNat = if n < 10 then 48 + n else 87 + n := by
  unfold digit; split <;> rw [toNat_ofNat_lt (by omega)]

theorem nibble_digit {n : Nat} (h : n < 16) : nibble (digit n) = some n := by
  simp only [nibble, digit_toNat h]
  by_cases h1 : n < 10
  · simp only [h1, if_true]
    rw [if_pos (by omega)]; congr 1; omega
  · simp only [h1, if_false]
    rw [if_neg (by omega), if_pos (by omega)]; congr 1; omega

theorem nibble_lt {c : UInt8} {n : Nat} (h : nibble c = some n) : n < 16 := by
  simp only [nibble] at h
  split at h
  · simp at h; omega
  · split at h
    · simp at h; omega
    · split at h
      · simp at h; omega
      · simp at h

theorem digit_nibble {c : UInt8} {n : Nat} (h : nibble c = some n) : digit n = lower c := by
  have hn := nibble_lt h
  apply uint8_ext
  rw [digit_toNat hn]
  simp only [nibble] at h
  have hl : (lower c).toNat = if 65 ≤ c.toNat ∧ c.toNat ≤ 90 then c.toNat + 32 else c.toNat := by
    unfold lower
    split
    · rw [toNat_ofNat_lt (by omega)]
    · rfl
  rw [hl]
  split at h
  · simp only [Option.some.injEq] at h
    split <;> split <;> omega
  · split at h
    · simp only [Option.some.injEq] at h
      split <;> split <;> omega
    · split at h
      · simp only [Option.some.injEq] at h
        split <;> split <;> omega
      · simp at h

theorem decode_encode (s : Str) : decode (encode s) = some s := by
  induction s with
  | nil => rfl
  | cons b bs ih =>
    have hb := b.toNat_lt
    simp only [encode, decode, nibble_digit (show b.toNat / 16 < 16 by omega),
      nibble_digit (show b.toNat % 16 < 16 by omega), ih, Option.map_some]
    congr 2
    apply uint8_ext
    rw [toNat_ofNat_lt (by omega)]
    omega

theorem encode_length (s : Str) : (encode s).length = 2 * s.length := by
  induction s with
  | nil => rfl
  | cons b bs ih => simp [encode, ih]; omega

theorem encode_decode : ∀ {s r : Str}, decode s = some r → encode r = s.map lower
  | [], r, h => by simp [decode] at h; subst h; rfl
  | [_], r, h => by simp [decode] at h
  | a :: b :: rest, r, h => by
    simp only [decode] at h
    split at h
    · rename_i x y hx hy
      cases hd : decode rest with
      | none => simp [hd] at h
      | some r' =>
        simp only [hd, Option.map_some, Option.some.injEq] at h
        subst h
        have h1 := nibble_lt hx
        have h2 := nibble_lt hy
        simp only [encode, List.map_cons, encode_decode hd]
        rw [toNat_ofNat_lt (by omega), show (16 * x + y) / 16 = x by omega,
          show (16 * x + y) % 16 = y by omega, digit_nibble hx, digit_nibble hy]
    · simp at h

theorem decode_length : ∀ {s r : Str}, decode s = some r → s.length = 2 * r.length
  | [], r, h => by simp [decode] at h; subst h; rfl
  | [_], r, h => by simp [decode] at h
  | a :: b :: rest, r, h => by
    simp only [decode] at h
    split at h
    · cases hd : decode rest with
      | none => simp [hd] at h
      | some r' =>
        simp only [hd, Option.map_some, Option.some.injEq] at h
        subst h
        have := decode_length hd
        simp only [List.length_cons]; omega
    · simp at h

theorem decode_isSome : ∀ {s : Str}, s.length % 2 = 0 → (∀ c ∈ s, (nibble c).isSome) → (decode s).isSome
  | [], _, _ => rfl
  | [_], h, _ => by simp at h
  | a :: b :: rest, h, hc => by
    have ha := hc a (by simp)
    have hb := hc b (by simp)
    have hr := decode_isSome (s := rest) (by simp only [List.length_cons] at h; omega)
      (fun c hm => hc c (by simp [hm]))
    obtain ⟨x, hx⟩ := Option.isSome_iff_exists.1 ha
    obtain ⟨y, hy⟩ := Option.isSome_iff_exists.1 hb
    obtain ⟨r, hr⟩ := Option.isSome_iff_exists.1 hr
    simp [decode, hx, hy, hr]

theorem nibble_of_decode : ∀ {s r : Str}, decode s = some r → ∀ c ∈ s, (nibble c).isSome
  | [], _, _, c, hc => by simp at hc
  | [_], _, h, _, _ => by simp [decode] at h
  | a :: b :: rest, r, h, c, hc => by
    simp only [decode] at h
    split at h
    · rename_i x y hx hy
      cases hd : decode rest with
      | none => simp [hd] at h
      | some r' =>
        simp only [List.mem_cons] at hc
        rcases hc with rfl | rfl | hc
        · simp [hx]
        · simp [hy]
        · exact nibble_of_decode hd c hc
    · simp at h

end Verif.Hex
