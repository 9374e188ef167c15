import Verif.Go.Basic
/-!
# The dates of commits

`time.Time` as far as `SetToNode` and `GetCommitFromNode` (pkg/workspaces/commit.go:19-27, :102-110) see it: the wall clock and the
offset of its zone. The Go standard library is not in /repo; these definitions follow the documented behaviour of
`Time.Format(time.RFC3339)` and `time.Parse(time.RFC3339, ...)` and the functions `appendFormatRFC3339` and `parseRFC3339`.
-/
set_option autoImplicit false
namespace Verif

/-- A point in time as a clock in some zone shows it. Parts of a second are left out: RFC 3339 without a fraction drops them. -/
structure Time where
  year : Int
  month : Nat
  day : Nat
  hour : Nat
  min : Nat
  sec : Nat
  /-- Seconds east of UTC. -/
  offset : Int
  deriving DecidableEq, Repr

namespace Time

/-- One decimal digit. -/
def digit (n : Nat) : UInt8 := UInt8.ofNat (48 + n)

/-- Decimal digits. -/
def dec (n : Nat) : Str := if n < 10 then [digit n] else dec (n / 10) ++ [digit (n % 10)]

/-- `appendInt` for numbers that are not negative: at least `w` digits. -/
def pad : Nat → Nat → Str
  | 0, n => if n = 0 then [] else dec n
  | w + 1, n => pad w (n / 10) ++ [digit (n % 10)]

/-- The zone as `Z07:00` has it: `offset/60` rounds towards zero. -/
def zone (offset : Int) : Str :=
  if offset = 0 then lit "Z"
  else
    let z := offset.tdiv 60
    (if z < 0 then lit "-" else lit "+") ++ pad 2 (z.natAbs / 60) ++ lit ":" ++ pad 2 (z.natAbs % 60)

/-- `Time.Format(time.RFC3339)` (pkg/workspaces/commit.go:107). -/
def format (t : Time) : Str :=
  (if t.year < 0 then lit "-" else []) ++ pad 4 t.year.natAbs ++ lit "-" ++ pad 2 t.month ++ lit "-" ++ pad 2 t.day ++ lit "T" ++ pad 2 t.hour ++
    lit ":" ++ pad 2 t.min ++ lit ":" ++ pad 2 t.sec ++ zone t.offset

/-- `isLeap` of package time. -/
def leap (y : Nat) : Bool := y % 4 == 0 && (y % 100 != 0 || y % 400 == 0)

/-- `daysIn`. -/
def daysIn (m y : Nat) : Nat :=
  if m = 2 then (if leap y then 29 else 28)
  else if m = 4 ∨ m = 6 ∨ m = 9 ∨ m = 11 then 30
  else 31

/-- `parseUint` inside `parseRFC3339`: digits only, and the number in a range. -/
def num (l : Str) (lo hi : Nat) : Option Nat :=
  if l.all fun c => 48 ≤ c && c ≤ 57 then
    let n := l.foldl (fun x c => x * 10 + (c.toNat - 48)) 0
    if lo ≤ n ∧ n ≤ hi then some n else none
  else none

/-- The part after the seconds: a fraction is dropped, then comes the zone. -/
def parseZone (s : Str) : Option Int :=
  let s := match s with
    | 46 :: c :: rest => if 48 ≤ c && c ≤ 57 then rest.dropWhile fun c => 48 ≤ c && c ≤ 57 else s
    | _ => s
  if s = lit "Z" then some 0
  else match s with
    | [sg, h1, h2, c, m1, m2] =>
      match num [h1, h2] 0 23, num [m1, m2] 0 59 with
      | some h, some m =>
        if (sg = 45 ∨ sg = 43) ∧ c = 58 then some (if sg = 45 then -(((h * 60 + m) * 60 : Nat) : Int) else (((h * 60 + m) * 60 : Nat) : Int)) else none
      | _, _ => none
    | _ => none

/-- `parseRFC3339`. -/
def parseStrict (s : Str) : Option Time :=
  match s with
  | y1 :: y2 :: y3 :: y4 :: c1 :: m1 :: m2 :: c2 :: d1 :: d2 :: c3 :: h1 :: h2 :: c4 :: n1 :: n2 :: c5 :: s1 :: s2 :: rest =>
    (num [y1, y2, y3, y4] 0 9999).bind fun y =>
    (num [m1, m2] 1 12).bind fun m =>
    (num [d1, d2] 1 (daysIn m y)).bind fun d =>
    (num [h1, h2] 0 23).bind fun h =>
    (num [n1, n2] 0 59).bind fun n =>
    (num [s1, s2] 0 59).bind fun sec =>
    if [c1, c2, c3, c4, c5] = lit "--T::" then (parseZone rest).map fun z => ⟨y, m, d, h, n, sec, z⟩ else none
  | _ => none

/-- `time.Parse(time.RFC3339, s)`: what the strict parser refuses goes to the general one, which accepts some texts more (such as
hours with one digit). The general one is a parameter: what is proved holds whatever it accepts. -/
def parse (lenient : Str → Option Time) (s : Str) : Option Time := (parseStrict s).or (lenient s)

/-- The last day of a month in the Gregorian calendar, told independently of `daysIn`. -/
inductive LastDay (y : Nat) : Nat → Nat → Prop where
  | long {m : Nat} : m ∈ [1, 3, 5, 7, 8, 10, 12] → LastDay y m 31
  | short {m : Nat} : m ∈ [4, 6, 9, 11] → LastDay y m 30
  | leap : (4 ∣ y ∧ ¬ 100 ∣ y) ∨ 400 ∣ y → LastDay y 2 29
  | common : ¬ ((4 ∣ y ∧ ¬ 100 ∣ y) ∨ 400 ∣ y) → LastDay y 2 28

/-- A date that a clock can show in the years 0 to 9999, in a zone less than a day away from UTC. -/
structure Valid (t : Time) : Prop where
  year : 0 ≤ t.year ∧ t.year ≤ 9999
  month : 1 ≤ t.month ∧ t.month ≤ 12
  day : 1 ≤ t.day ∧ ∃ n, LastDay t.year.toNat t.month n ∧ t.day ≤ n
  hour : t.hour ≤ 23
  min : t.min ≤ 59
  sec : t.sec ≤ 59
  offset : -86400 < t.offset ∧ t.offset < 86400

/-- The same wall clock with the offset cut to whole minutes. -/
def toMinute (t : Time) : Time := { t with offset := t.offset.tdiv 60 * 60 }

end Time
end Verif
