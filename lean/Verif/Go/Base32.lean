import Verif.Go.Hex
/-!
# `encoding/base32` with `StdEncoding.WithPadding(NoPadding)`

Standard library (Go 1.21), not in /repo; set up at `pkg/utils/uid/uid_128.go:39` and called from `:26` and `:77`.
Shifts and masks are written as division and remainder.
-/
set_option autoImplicit false
namespace Verif.Base32
open Verif

/-- The alphabet `A-Z2-7`. -/
def alpha (q : Nat) : UInt8 := if q < 26 then UInt8.ofNat (65 + q) else UInt8.ofNat (24 + q)

/-- `decodeMap`: `none` stands for the entry 0xFF. -/
def value (c : UInt8) : Option Nat :=
  let n := c.toNat
  if 65 ≤ n ∧ n ≤ 90 then some (n - 65)
  else if 50 ≤ n ∧ n ≤ 55 then some (n - 24)
  else none

/-- The eight 5-bit groups of five bytes. -/
def groups (a b c d e : Nat) : List Nat :=
  [a / 8, a % 8 * 4 + b / 64, b / 2 % 32, b % 2 * 16 + c / 16,
   c % 16 * 2 + d / 128, d / 4 % 32, d % 4 * 8 + e / 32, e % 32]

/-- The 5-bit groups of a byte string; a short last quantum is filled with zero bytes and only the groups that
carry bits are kept. -/
def quintets : List Nat → List Nat
  | [] => []
  | [a] => (groups a 0 0 0 0).take 2
  | [a, b] => (groups a b 0 0 0).take 4
  | [a, b, c] => (groups a b c 0 0).take 5
  | [a, b, c, d] => (groups a b c d 0).take 7
  | a :: b :: c :: d :: e :: rest => groups a b c d e ++ quintets rest

/-- `EncodeToString` without padding (used at pkg/utils/uid/uid_128.go:26). -/
def encode (s : Str) : Str := (quintets (s.map UInt8.toNat)).map alpha

/-- `stripNewlines`: `DecodeString` drops `\r` and `\n` before decoding. -/
def stripNewlines (s : Str) : Str := s.filter fun c => c ≠ 10 ∧ c ≠ 13

/-- One quantum of `Encoding.decode`: reads up to eight characters. The accumulator holds the values read so far
(its length is the loop variable `j`). Returns the values, the rest of the input and the flag `end`;
`none` is `CorruptInputError`. With `NoPadding` the pad character is `byte(rune(-1)) = 0xFF`, and the padding branch
is still taken for a byte 0xFF. -/
def readQuantum : (src : Str) → (acc : List Nat) → Option (List Nat × Str × Bool)
  | [], acc => if acc.length = 8 then some (acc, [], false) else some (acc, [], true)
  | c :: src, acc =>
    if acc.length = 8 then some (acc, c :: src, false)
    else if c = 0xFF ∧ 2 ≤ acc.length ∧ src.length < 8 then
      if src.length + acc.length < 7 then none
      else if (src.take (7 - acc.length)).any (· ≠ 0xFF) then none
      else if acc.length = 3 ∨ acc.length = 6 then none
      else some (acc, src, true)
    else
      match value c with
      | none => none
      | some q => readQuantum src (acc ++ [q])

/-- The bytes of one quantum: the `switch dlen` of `Encoding.decode`. Lengths 1, 3 and 6 match no case and give no byte. -/
def pack (q : List Nat) : List Nat :=
  let g := fun i => q.getD i 0
  let b0 := (g 0 * 8 + g 1 / 4) % 256
  let b1 := (g 1 * 64 + g 2 * 2 + g 3 / 16) % 256
  let b2 := (g 3 * 16 + g 4 / 2) % 256
  let b3 := (g 4 * 128 + g 5 * 4 + g 6 / 8) % 256
  let b4 := (g 6 * 32 + g 7) % 256
  match q.length with
  | 8 => [b0, b1, b2, b3, b4]
  | 7 => [b0, b1, b2, b3]
  | 5 => [b0, b1, b2]
  | 4 => [b0, b1]
  | 2 => [b0]
  | _ => []

/-- The outer loop of `Encoding.decode`: `for len(src) > 0 && !end`. Each turn reads at least one character, so the
length of the input is enough fuel. -/
def decodeLoop : (fuel : Nat) → Str → Option (List Nat)
  | 0, _ => some []
  | _ + 1, [] => some []
  | n + 1, src =>
    match readQuantum src [] with
    | none => none
    | some (q, rest, fin) =>
      if fin then some (pack q) else (decodeLoop n rest).map (pack q ++ ·)

/-- `DecodeString` (used at pkg/utils/uid/uid_128.go:77). -/
def decode (s : Str) : Option Str :=
  (decodeLoop s.length (stripNewlines s)).map (·.map UInt8.ofNat)

end Verif.Base32
