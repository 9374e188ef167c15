import Verif.Go.Basic
/-!
# Command-line flags

`github.com/spf13/pflag` v1.0.5 (see go.mod:10), which is not in /repo: `FlagSet.parseArgs`, `parseLongArg`, `parseShortArg` and the `Set`
methods of the value types that the program uses. Written from knowledge of that version.
-/
set_option autoImplicit false
namespace Verif
namespace Cli

/-- The types of flags in use. -/
inductive Kind where
  | bool | str | int | uint32
  deriving DecidableEq, Repr

/-- A flag: its name, its one-letter form (0 if it has none) and its type. -/
structure Flag where
  name : Str
  short : UInt8
  kind : Kind
  deriving DecidableEq, Repr

/-- Why parsing fails. -/
inductive ParseErr where
  /-- `bad flag syntax`. -/
  | syntax
  /-- `unknown flag`, `unknown shorthand flag`. -/
  | unknown
  /-- `flag needs an argument`. -/
  | needsArg
  /-- `invalid argument`. -/
  | invalid
  deriving DecidableEq, Repr

/-- `strconv.ParseBool`. -/
def parseBool (s : Str) : Option Bool :=
  if s ∈ [lit "1", lit "t", lit "T", lit "TRUE", lit "true", lit "True"] then some true
  else if s ∈ [lit "0", lit "f", lit "F", lit "FALSE", lit "false", lit "False"] then some false
  else none

/-- The value of a digit or letter. -/
def digitVal (c : UInt8) : Option Nat :=
  if 48 ≤ c ∧ c ≤ 57 then some (c.toNat - 48)
  else if 97 ≤ c ∧ c ≤ 122 then some (c.toNat - 87)
  else if 65 ≤ c ∧ c ≤ 90 then some (c.toNat - 55)
  else none

/-- The loop of `strconv.ParseUint`; underscores are skipped. That a number has become too large is noticed at the end here, in Go at once; both
are errors. -/
def digits (base : Nat) : Str → Nat → Option Nat
  | [], acc => some acc
  | c :: s, acc =>
    if c = 95 then digits base s acc
    else
      match digitVal c with
      | some d => if d < base then digits base s (acc * base + d) else none
      | none => none

/-- The loop of `strconv.underscoreOK`: `saw` is the class of the last character, `^`, `0`, `_` or `!`. -/
def underscores (hex : Bool) : UInt8 → Str → Bool
  | saw, [] => saw ≠ 95
  | saw, c :: s =>
    if 48 ≤ c ∧ c ≤ 57 ∨ hex = true ∧ (97 ≤ c ∧ c ≤ 102 ∨ 65 ≤ c ∧ c ≤ 70) then underscores hex 48 s
    else if c = 95 then if saw ≠ 48 then false else underscores hex 95 s
    else if saw = 95 then false
    else underscores hex 33 s

/-- A letter that selects a base. -/
def baseOf (c : UInt8) : Option Nat :=
  if c = 98 ∨ c = 66 then some 2 else if c = 111 ∨ c = 79 then some 8 else if c = 120 ∨ c = 88 then some 16 else none

/-- `strconv.underscoreOK`: underscores are allowed only between digits, or between the prefix and a digit. -/
def underscoreOK (s : Str) : Bool :=
  match (if s.head? = some 45 ∨ s.head? = some 43 then s.tail else s) with
  | 48 :: b :: r =>
    match baseOf b with
    | some n => underscores (n = 16) 48 r
    | none => underscores false 94 (48 :: b :: r)
  | s => underscores false 94 s

/-- `strconv.ParseUint(s, 0, bits)`: the prefix selects the base. -/
def parseUint (bits : Nat) (s : Str) : Option Nat :=
  let n := match s with
    | [] => none
    | 48 :: b :: d :: r =>
      match baseOf b with
      | some n => digits n (d :: r) 0
      | none => digits 8 (b :: d :: r) 0
    | 48 :: r => digits 8 r 0
    | s => digits 10 s 0
  n.bind fun n => if n < 2 ^ bits ∧ (95 ∈ s → underscoreOK s = true) then some n else none

/-- `strconv.ParseInt(s, 0, 64)`. -/
def parseInt (s : Str) : Option Int :=
  match s with
  | 45 :: r => (parseUint 64 r).bind fun n => if n ≤ 2 ^ 63 then some (-(n : Int)) else none
  | 43 :: r => (parseUint 64 r).bind fun n => if n < 2 ^ 63 then some (n : Int) else none
  | r => (parseUint 64 r).bind fun n => if n < 2 ^ 63 then some (n : Int) else none

/-- Whether `Value.Set` accepts a text. -/
def Kind.accepts : Kind → Str → Bool
  | .bool, s => (parseBool s).isSome
  | .str, _ => true
  | .int, s => (parseInt s).isSome
  | .uint32, s => (parseUint 32 s).isSome

/-- What parsing gives: which flags were set to which texts, in order; the arguments that are no flags; whether `--` ended the flags. -/
structure Parsed where
  sets : List (Str × Str)
  args : List Str
  dash : Bool
  deriving DecidableEq, Repr

def Parsed.none : Parsed := ⟨[], [], false⟩

/-- `flag.Value.Set`: the value is recorded if it is accepted. -/
def setFlag (f : Flag) (v : Str) (p : Parsed) : Except ParseErr Parsed :=
  if f.kind.accepts v then .ok { p with sets := p.sets ++ [(f.name, v)] } else .error .invalid

/-- Split at the first `=` (`strings.SplitN(name, "=", 2)`). -/
def cutEq : Str → Str × Option Str
  | [] => ([], .none)
  | c :: s => if c = 61 then ([], some s) else ((c :: (cutEq s).1), (cutEq s).2)

/-- `parseLongArg` on what follows the two dashes. A flag that still needs its value, from the next argument, is returned. A boolean flag has the
default `true` (`NoOptDefVal`). -/
def parseLong (fs : List Flag) (name : Str) (p : Parsed) : Except ParseErr (Parsed × Option Flag) :=
  match name with
  | [] => .error .syntax
  | c :: _ =>
    if c = 45 ∨ c = 61 then .error .syntax
    else
      match fs.find? (fun f => f.name = (cutEq name).1) with
      | .none => .error .unknown
      | some f =>
        match (cutEq name).2 with
        | some v => (setFlag f v p).map (·, .none)
        | .none => if f.kind = .bool then (setFlag f (lit "true") p).map (·, .none) else .ok (p, some f)

/-- `parseShortArg`: one letter after the other. -/
def parseShort (fs : List Flag) : Str → Parsed → Except ParseErr (Parsed × Option Flag)
  | [], p => .ok (p, .none)
  | c :: r, p =>
    match fs.find? (fun f => f.short ≠ 0 ∧ f.short = c) with
    | .none => .error .unknown
    | some f =>
      if 1 < r.length ∧ r.head? = some 61 then (setFlag f (r.drop 1) p).map (·, .none)
      else if f.kind = .bool then
        match setFlag f (lit "true") p with
        | .ok p' => parseShort fs r p'
        | .error e => .error e
      else if r ≠ [] then (setFlag f r p).map (·, .none)
      else .ok (p, some f)

/-- The body of the loop of `parseArgs` for one argument: the flags end (`none`), or the result so far and a flag that waits for its value. -/
def parseTok (fs : List Flag) (s : Str) (p : Parsed) : Except ParseErr (Option (Parsed × Option Flag)) :=
  match s with
  | 45 :: 45 :: [] => .ok .none
  | 45 :: 45 :: name => (parseLong fs name p).map some
  | 45 :: c :: r => (parseShort fs (c :: r) p).map some
  | s => .ok (some ({ p with args := p.args ++ [s] }, .none))

/-- `FlagSet.parseArgs` (flags and arguments may be mixed). `pending` is a flag that waits for its value. -/
def parseArgs (fs : List Flag) : (pending : Option Flag) → List Str → Parsed → Except ParseErr Parsed
  | .none, [], p => .ok p
  | some _, [], _ => .error .needsArg
  | some f, v :: rest, p =>
    match setFlag f v p with
    | .ok p' => parseArgs fs .none rest p'
    | .error e => .error e
  | .none, s :: rest, p =>
    match parseTok fs s p with
    | .error e => .error e
    | .ok .none => .ok { p with args := p.args ++ rest, dash := true }
    | .ok (some (p', q)) => parseArgs fs q rest p'

/-- `FlagSet.Parse`. -/
def parse (fs : List Flag) (args : List Str) : Except ParseErr Parsed := parseArgs fs .none args .none

/-- The last value that a flag was set to. -/
def Parsed.last (p : Parsed) (name : Str) : Option Str := (p.sets.reverse.find? fun e => e.1 = name).map Prod.snd

/-- A boolean option. -/
def Parsed.flag (p : Parsed) (name : Str) : Bool := ((p.last name).bind parseBool).getD false

end Cli
end Verif
