import Verif.Go.Basic
/-!
# Standard base64 (`encoding/base64.StdEncoding`)

`encoding/json` writes `[]byte` values in this form.
-/
set_option autoImplicit false
namespace Verif
namespace Base64

/-- The alphabet `A-Z a-z 0-9 + /`. -/
def digit (n : Nat) : UInt8 :=
  if n < 26 then UInt8.ofNat (0x41 + n)
  else if n < 52 then UInt8.ofNat (0x61 + (n - 26))
  else if n < 62 then UInt8.ofNat (0x30 + (n - 52))
  else if n = 62 then 0x2B else 0x2F

/-- Value of a letter of the alphabet. -/
def value (c : UInt8) : Option Nat :=
  if 0x41 ≤ c ∧ c ≤ 0x5A then some (c.toNat - 0x41)
  else if 0x61 ≤ c ∧ c ≤ 0x7A then some (c.toNat - 0x61 + 26)
  else if 0x30 ≤ c ∧ c ≤ 0x39 then some (c.toNat - 0x30 + 52)
  else if c = 0x2B then some 62
  else if c = 0x2F then some 63
  else none

/-- `Encoding.EncodeToString`: groups of three bytes, the last one padded with `=`. -/
def encode : Str → Str
  | a :: b :: c :: r =>
    let n := a.toNat * 65536 + b.toNat * 256 + c.toNat
    digit (n / 262144) :: digit (n / 4096 % 64) :: digit (n / 64 % 64) :: digit (n % 64) :: encode r
  | [a, b] =>
    let n := a.toNat * 1024 + b.toNat * 4
    [digit (n / 4096), digit (n / 64 % 64), digit (n % 64), 0x3D]
  | [a] =>
    let n := a.toNat * 16
    [digit (n / 64), digit (n % 64), 0x3D, 0x3D]
  | [] => []

/-- Decode groups of four letters. The last bits of a padded group are not checked (Go's non-strict mode). -/
def decodeGroups : Str → Option Str
  | [] => some []
  | a :: b :: c :: d :: r =>
    (value a).bind fun x => (value b).bind fun y =>
      if c = 0x3D then
        if d = 0x3D ∧ r = [] then some [UInt8.ofNat ((x * 64 + y) / 16)] else none
      else (value c).bind fun z =>
        if d = 0x3D then
          if r = [] then
            let n := x * 4096 + y * 64 + z
            some [UInt8.ofNat (n / 1024), UInt8.ofNat (n / 4 % 256)]
          else none
        else (value d).bind fun w =>
          let n := x * 262144 + y * 4096 + z * 64 + w
          (decodeGroups r).map fun l =>
            UInt8.ofNat (n / 65536) :: UInt8.ofNat (n / 256 % 256) :: UInt8.ofNat (n % 256) :: l
  | _ => none

/-- `Encoding.DecodeString`: line breaks are skipped. -/
def decode (s : Str) : Option Str := decodeGroups (s.filter fun c => c ≠ 0x0D && c ≠ 0x0A)

theorem value_digit' : ∀ n : Fin 64, value (digit n.val) = some n.val := by decide
theorem value_digit {n : Nat} (h : n < 64) : value (digit n) = some n := value_digit' ⟨n, h⟩
theorem digit_plain' : ∀ n : Fin 64, digit n.val ≠ 0x3D ∧ digit n.val ≠ 0x0D ∧ digit n.val ≠ 0x0A ∧ digit n.val < 0x80 := by
  decide
theorem digit_plain {n : Nat} (h : n < 64) :
    digit n ≠ 0x3D ∧ digit n ≠ 0x0D ∧ digit n ≠ 0x0A ∧ digit n < 0x80 := digit_plain' ⟨n, h⟩

theorem ofNat_eq {n : Nat} {b : UInt8} (h : n = b.toNat) : UInt8.ofNat n = b := by subst h; simp

/-- Letters of an encoding: no line breaks, only ASCII. -/
theorem encode_plain : ∀ s : Str, ∀ c ∈ encode s, c ≠ 0x0D ∧ c ≠ 0x0A ∧ c < 0x80
  | [] => by simp [encode]
  | [a] => by
    intro c hc
    have ha := a.toNat_lt
    simp only [encode, List.mem_cons, List.not_mem_nil, or_false] at hc
    rcases hc with rfl | rfl | rfl | rfl
    · exact (digit_plain (by omega)).2
    · exact (digit_plain (by omega)).2
    · decide
    · decide
  | [a, b] => by
    intro c hc
    have ha := a.toNat_lt
    have hb := b.toNat_lt
    simp only [encode, List.mem_cons, List.not_mem_nil, or_false] at hc
    rcases hc with rfl | rfl | rfl | rfl
    · exact (digit_plain (by omega)).2
    · exact (digit_plain (by omega)).2
    · exact (digit_plain (by omega)).2
    · decide
  | a :: b :: c :: r => by
    intro x hx
    have ha := a.toNat_lt
    have hb := b.toNat_lt
    have hc := c.toNat_lt
    simp only [encode, List.mem_cons] at hx
    rcases hx with rfl | rfl | rfl | rfl | hx
    · exact (digit_plain (by omega)).2
    · exact (digit_plain (by omega)).2
    · exact (digit_plain (by omega)).2
    · exact (digit_plain (by omega)).2
    · exact encode_plain r x hx

theorem decodeGroups_encode : ∀ s : Str, decodeGroups (encode s) = some s
  | [] => by simp [encode, decodeGroups]
  | [a] => by
    have ha := a.toNat_lt
    simp only [encode, decodeGroups]
    rw [value_digit (by omega), value_digit (by omega)]
    simp only [Option.bind_some, if_true, and_self, Option.some.injEq, List.cons.injEq, and_true]
    exact ofNat_eq (by omega)
  | [a, b] => by
    have ha := a.toNat_lt
    have hb := b.toNat_lt
    simp only [encode, decodeGroups]
    rw [value_digit (by omega), value_digit (by omega), value_digit (by omega)]
    simp only [Option.bind_some, if_true, if_neg (digit_plain (show (a.toNat * 1024 + b.toNat * 4) % 64 < 64 by omega)).1,
      Option.some.injEq, List.cons.injEq, and_true]
    exact ⟨ofNat_eq (by omega), ofNat_eq (by omega)⟩
  | a :: b :: c :: r => by
    have ha := a.toNat_lt
    have hb := b.toNat_lt
    have hc := c.toNat_lt
    simp only [encode]
    generalize hn : a.toNat * 65536 + b.toNat * 256 + c.toNat = n
    simp only [decodeGroups]
    rw [value_digit (by omega), value_digit (by omega), value_digit (by omega), value_digit (by omega)]
    simp only [Option.bind_some, if_neg (digit_plain (show n / 64 % 64 < 64 by omega)).1,
      if_neg (digit_plain (show n % 64 < 64 by omega)).1, decodeGroups_encode r, Option.map_some,
      Option.some.injEq, List.cons.injEq, and_true]
    exact ⟨ofNat_eq (by omega), ofNat_eq (by omega), ofNat_eq (by omega)⟩

/-- Decoding undoes encoding. -/
theorem decode_encode (s : Str) : decode (encode s) = some s := by
  unfold decode
  rw [List.filter_eq_self.2, decodeGroups_encode]
  intro c hc
  obtain ⟨h1, h2, _⟩ := encode_plain s c hc
  simp [h1, h2]

/-- RFC 4648 test vectors. -/
example : encode (lit "foobar") = lit "Zm9vYmFy" ∧ encode (lit "fooba") = lit "Zm9vYmE=" ∧
    encode (lit "foob") = lit "Zm9vYg==" := by decide

end Base64
end Verif
