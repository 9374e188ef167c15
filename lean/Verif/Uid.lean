import Verif.Go.Base32
/-!
# `pkg/utils/uid`

128-bit IDs, their text forms and the decoders.
-/
set_option autoImplicit false
namespace Verif

/-- `uid128 [16]byte` (pkg/utils/uid/uid_128.go:13). The interface `UID` (pkg/utils/uid/uid.go:4) has this one implementation;
a nil `UID` is modelled by `Option UID` where it can occur. -/
structure UID where
  bytes : Str
  len : bytes.length = 16
  deriving DecidableEq, Repr

namespace UID

theorem ext' {u v : UID} (h : u.bytes = v.bytes) : u = v := by
  cases u; cases v; simp_all

/-- `uid128.Hex` (pkg/utils/uid/uid_128.go:19-21). -/
def hex (u : UID) : Str := Hex.encode u.bytes

/-- `uid128.Base32` (pkg/utils/uid/uid_128.go:25-27). -/
def base32 (u : UID) : Str := Base32.encode u.bytes

/-- `uid128.String` (pkg/utils/uid/uid_128.go:31-33): `fmt.Sprintf("%s(%s)", hex, base32)`. -/
def string (u : UID) : Str := u.hex ++ lit "(" ++ u.base32 ++ lit ")"

/-- Why a decoder returns an error. -/
inductive DecErr where
  /-- `wrong length in bytes` (pkg/utils/uid/uid_128.go:62, :75). -/
  | length
  /-- The error of the standard library decoder (pkg/utils/uid/uid_128.go:66, :79). -/
  | corrupt
  deriving DecidableEq, Repr

/-- The conversion `uid128(ret)` of a slice to an array (pkg/utils/uid/uid_128.go:68, :81, :89): panics if the slice is shorter than
the array, else takes the first 16 bytes. -/
def ofSlice {ε : Type} (s : Str) : Res ε UID :=
  if h : 16 ≤ s.length then .ok ⟨s.take 16, by simp; omega⟩ else .panic

/-- `DecodeUID128FromHex` (pkg/utils/uid/uid_128.go:60-69). -/
def decodeHex (s : Str) : Res DecErr UID :=
  if s.length ≠ 32 then .err .length
  else match Hex.decode s with
    | none => .err .corrupt
    | some b => ofSlice b

/-- `DecodeUID128FromBase32` (pkg/utils/uid/uid_128.go:73-82). -/
def decodeBase32 (s : Str) : Res DecErr UID :=
  if s.length ≠ 26 then .err .length
  else match Base32.decode s with
    | none => .err .corrupt
    | some b => ofSlice b

/-- The eight bytes that the inner loop of `NewUID128` (pkg/utils/uid/uid_128.go:50-53) takes from one draw, least significant first. -/
def leBytes (v : Nat) : (n : Nat) → Str
  | 0 => []
  | n + 1 => UInt8.ofNat (v % 256) :: leBytes (v / 256) n

theorem leBytes_length (v n : Nat) : (leBytes v n).length = n := by
  induction n generalizing v with
  | zero => rfl
  | succ n ih => simp [leBytes, ih]

/-- `NewUID128` (pkg/utils/uid/uid_128.go:46-56), with the two results of `randObj.Uint64()` as arguments. -/
def new (v0 v1 : UInt64) : UID :=
  ⟨leBytes v0.toNat 8 ++ leBytes v1.toNat 8, by simp [leBytes_length]⟩

/-- `NewUID128FromHash` (pkg/utils/uid/uid_128.go:86-90), with the digest `h.Sum(nil)` as argument. -/
def fromHash (digest : Str) : Res Empty UID := ofSlice digest

end UID
end Verif
