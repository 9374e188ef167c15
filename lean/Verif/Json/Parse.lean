import Verif.Json.Str
/-!
# JSON values: writing and parsing

`json.Marshal` without indentation, and the syntax check and value structure of `json.Unmarshal`: white space, literals,
numbers, the nesting limit, and nothing but white space after the value.
-/
set_option autoImplicit false
namespace Verif
namespace Json

mutual
/-- A JSON value. Object fields keep their order. -/
inductive Val where
  | null
  | bool (b : Bool)
  | num (s : Str)
  | str (s : Str)
  | arr (l : Vals)
  | obj (l : Fields)
/-- A list of values. -/
inductive Vals where
  | nil
  | cons (v : Val) (l : Vals)
/-- A list of fields. -/
inductive Fields where
  | nil
  | cons (k : Str) (v : Val) (l : Fields)
end

/-! ## Writing -/

mutual
/-- Write a value. -/
def emit (sh : Bool) : Val → Str
  | .null => lit "null"
  | .bool true => lit "true"
  | .bool false => lit "false"
  | .num s => s
  | .str s => quote sh s
  | .arr l => 0x5B :: emitVals sh l
  | .obj l => 0x7B :: emitFields sh l
/-- Write the rest of an array, with the closing bracket. -/
def emitVals (sh : Bool) : Vals → Str
  | .nil => [0x5D]
  | .cons v l => emit sh v ++ emitValsTail sh l
/-- The same after a first element. -/
def emitValsTail (sh : Bool) : Vals → Str
  | .nil => [0x5D]
  | .cons v l => 0x2C :: (emit sh v ++ emitValsTail sh l)
/-- Write the rest of an object, with the closing brace. -/
def emitFields (sh : Bool) : Fields → Str
  | .nil => [0x7D]
  | .cons k v l => quote sh k ++ 0x3A :: (emit sh v ++ emitFieldsTail sh l)
/-- The same after a first field. -/
def emitFieldsTail (sh : Bool) : Fields → Str
  | .nil => [0x7D]
  | .cons k v l => 0x2C :: (quote sh k ++ 0x3A :: (emit sh v ++ emitFieldsTail sh l))
end

/-! ## Parsing -/

/-- White space. -/
def isWs (c : UInt8) : Bool := c = 0x20 || c = 0x09 || c = 0x0A || c = 0x0D

/-- Skip white space. -/
def skipWs : Str → Str
  | [] => []
  | c :: r => if isWs c then skipWs r else c :: r

/-- Characters of numbers. -/
def isNumChar (c : UInt8) : Bool :=
  (0x30 ≤ c && c ≤ 0x39) || c = 0x2B || c = 0x2D || c = 0x2E || c = 0x45 || c = 0x65

/-- Digits. -/
def isDigit (c : UInt8) : Bool := 0x30 ≤ c && c ≤ 0x39

/-- Drop digits. -/
def dropDigits (s : Str) : Str := s.dropWhile isDigit

/-- After the integer part: an optional exponent. -/
def okExp : Str → Bool
  | [] => true
  | c :: r =>
    if c = 0x65 ∨ c = 0x45 then
      let r := match r with
        | d :: r' => if d = 0x2B ∨ d = 0x2D then r' else d :: r'
        | [] => []
      !r.isEmpty && (dropDigits r).isEmpty
    else false

/-- After the integer part: an optional fraction, an optional exponent. -/
def okFrac : Str → Bool
  | [] => true
  | c :: r =>
    if c = 0x2E then (match r with | d :: _ => isDigit d && okExp (dropDigits r) | [] => false)
    else okExp (c :: r)

/-- The grammar of JSON numbers. -/
def okNum (s : Str) : Bool :=
  let s := match s with
    | c :: r => if c = 0x2D then r else c :: r
    | [] => []
  match s with
  | [] => false
  | c :: r => if c = 0x30 then okFrac r else isDigit c && okFrac (dropDigits r)

/-- The literals `null`, `true`, `false` at the start of a text. -/
def parseLit (s : Str) : Option (Val × Str) :=
  match s with
  | 0x6E :: 0x75 :: 0x6C :: 0x6C :: r => some (.null, r)
  | 0x74 :: 0x72 :: 0x75 :: 0x65 :: r => some (.bool true, r)
  | 0x66 :: 0x61 :: 0x6C :: 0x73 :: 0x65 :: r => some (.bool false, r)
  | _ => none

/-- A number at the start of a text. -/
def parseNum (s : Str) : Option (Val × Str) :=
  if okNum (s.takeWhile isNumChar) then some (.num (s.takeWhile isNumChar), s.dropWhile isNumChar) else none

/-- A value that is no string, array or object. -/
def parseOther (s : Str) : Option (Val × Str) := (parseLit s).or (parseNum s)

mutual
/-- A value. `d` is the number of arrays and objects that may still be opened (`maxNestingDepth`). -/
def pval : (fuel d : Nat) → Str → Option (Val × Str)
  | 0, _, _ => none
  | n + 1, d, s =>
    match skipWs s with
    | [] => none
    | c :: r =>
      if c = 0x22 then (scanStr r).map fun x => (.str (unquote x.1), x.2)
      else if c = 0x5B then
        match d with
        | 0 => none
        | d + 1 => (pvals n d true r).map fun x => (.arr x.1, x.2)
      else if c = 0x7B then
        match d with
        | 0 => none
        | d + 1 => (pfields n d true r).map fun x => (.obj x.1, x.2)
      else parseOther (c :: r)
/-- The elements of an array up to its closing bracket. `first` says that the array may end here. -/
def pvals : (fuel d : Nat) → (first : Bool) → Str → Option (Vals × Str)
  | 0, _, _, _ => none
  | n + 1, d, first, s =>
    match skipWs s with
    | [] => none
    | c :: r =>
      if first && c = 0x5D then some (.nil, r)
      else (pval n d (c :: r)).bind fun x =>
        match skipWs x.2 with
        | [] => none
        | e :: r' =>
          if e = 0x5D then some (.cons x.1 .nil, r')
          else if e = 0x2C then (pvals n d false r').map fun y => (.cons x.1 y.1, y.2)
          else none
/-- The fields of an object up to its closing brace. -/
def pfields : (fuel d : Nat) → (first : Bool) → Str → Option (Fields × Str)
  | 0, _, _, _ => none
  | n + 1, d, first, s =>
    match skipWs s with
    | [] => none
    | c :: r =>
      if first && c = 0x7D then some (.nil, r)
      else if c = 0x22 then
        (scanStr r).bind fun k =>
          match skipWs k.2 with
          | [] => none
          | e :: r' =>
            if e = 0x3A then
              (pval n d r').bind fun x =>
                match skipWs x.2 with
                | [] => none
                | e :: r'' =>
                  if e = 0x7D then some (.cons (unquote k.1) x.1 .nil, r'')
                  else if e = 0x2C then (pfields n d false r'').map fun y => (.cons (unquote k.1) x.1 y.1, y.2)
                  else none
            else none
      else none
end

/-- `maxNestingDepth` of `encoding/json`. -/
def maxDepth : Nat := 10000

/-- Enough fuel for a text (`pval_fuel`). -/
def fuelFor (s : Str) : Nat := 2 * s.length + 1

/-- `json.Unmarshal` up to the value structure: the whole text is one value with white space around it. -/
def parseWith (d : Nat) (s : Str) : Option Val :=
  match pval (fuelFor s) d s with
  | some (v, r) => if skipWs r = [] then some v else none
  | none => none

/-- `json.Unmarshal` up to the value structure. -/
def parse (s : Str) : Option Val := parseWith maxDepth s

/-! ## Measures -/

mutual
/-- Depth of nesting. -/
def depth : Val → Nat
  | .arr l => 1 + depthVals l
  | .obj l => 1 + depthFields l
  | _ => 0
def depthVals : Vals → Nat
  | .nil => 0
  | .cons v l => max (depth v) (depthVals l)
def depthFields : Fields → Nat
  | .nil => 0
  | .cons _ v l => max (depth v) (depthFields l)
end

mutual
/-- The value with invalid UTF-8 in its strings replaced. -/
def clean : Val → Val
  | .null => .null
  | .bool b => .bool b
  | .num s => .num s
  | .str s => .str (sanitize s)
  | .arr l => .arr (cleanVals l)
  | .obj l => .obj (cleanFields l)
def cleanVals : Vals → Vals
  | .nil => .nil
  | .cons v l => .cons (clean v) (cleanVals l)
def cleanFields : Fields → Fields
  | .nil => .nil
  | .cons k v l => .cons (sanitize k) (clean v) (cleanFields l)
end

mutual
/-- No numbers: the only numbers in this program's files would come from elsewhere. -/
def NoNum : Val → Prop
  | .num _ => False
  | .arr l => NoNumVals l
  | .obj l => NoNumFields l
  | _ => True
def NoNumVals : Vals → Prop
  | .nil => True
  | .cons v l => NoNum v ∧ NoNumVals l
def NoNumFields : Fields → Prop
  | .nil => True
  | .cons _ v l => NoNum v ∧ NoNumFields l
end

/-! ## First characters -/

/-- First characters of values without numbers. -/
def Starts (s : Str) : Prop := ∃ c r, s = c :: r ∧ isWs c = false ∧ c ≠ 0x5D

theorem starts_emit (sh : Bool) (v : Val) (h : NoNum v) (t : Str) : Starts (emit sh v ++ t) := by
  cases v with
  | null => exact ⟨_, _, rfl, by decide, by decide⟩
  | bool b => cases b <;> exact ⟨_, _, rfl, by decide, by decide⟩
  | num s => exact absurd h (by simp [NoNum])
  | str s => exact ⟨_, _, rfl, by decide, by decide⟩
  | arr l => exact ⟨0x5B, emitVals sh l ++ t, by simp [emit], by decide, by decide⟩
  | obj l => exact ⟨0x7B, emitFields sh l ++ t, by simp [emit], by decide, by decide⟩

theorem skipWs_cons {c : UInt8} (h : isWs c = false) (r : Str) : skipWs (c :: r) = c :: r := by simp [skipWs, h]

theorem skipWs_starts {s : Str} (h : Starts s) : skipWs s = s := by
  obtain ⟨c, r, rfl, h1, _⟩ := h
  exact skipWs_cons h1 r

/-! ## Round trip -/

mutual
/-- Fuel that reading a written value needs. -/
def need : Val → Nat
  | .arr l => 1 + needVals l
  | .obj l => 1 + needFields l
  | _ => 1
def needVals : Vals → Nat
  | .nil => 1
  | .cons v l => 1 + max (need v) (needVals l)
def needFields : Fields → Nat
  | .nil => 1
  | .cons _ v l => 1 + max (need v) (needFields l)
end

theorem le_max_split {a b n : Nat} (h : 1 + max a b ≤ n) : ∃ m, n = m + 1 ∧ a ≤ m ∧ b ≤ m := by
  cases n with
  | zero => omega
  | succ m => exact ⟨m, rfl, by omega, by omega⟩

mutual
theorem pval_emit (sh : Bool) : ∀ (v : Val) (n d : Nat) (t : Str), NoNum v → need v ≤ n → depth v ≤ d →
    pval n d (emit sh v ++ t) = some (clean v, t)
  | .null, n, d, t, _, hn, _ => by
    obtain ⟨m, rfl⟩ : ∃ m, n = m + 1 := ⟨n - 1, by simp [need] at hn; omega⟩
    rfl
  | .bool true, n, d, t, _, hn, _ => by
    obtain ⟨m, rfl⟩ : ∃ m, n = m + 1 := ⟨n - 1, by simp [need] at hn; omega⟩
    rfl
  | .bool false, n, d, t, _, hn, _ => by
    obtain ⟨m, rfl⟩ : ∃ m, n = m + 1 := ⟨n - 1, by simp [need] at hn; omega⟩
    rfl
  | .num s, n, d, t, h, _, _ => absurd h (by simp [NoNum])
  | .str s, n, d, t, _, hn, _ => by
    obtain ⟨m, rfl⟩ : ∃ m, n = m + 1 := ⟨n - 1, by simp [need] at hn; omega⟩
    have h1 : emit sh (.str s) ++ t = 0x22 :: (quoteBody sh s ++ 0x22 :: t) := by simp [emit, quote]
    rw [h1, pval, skipWs_cons (by decide)]
    simp [scanStr_quote, unquote_quote, clean]
  | .arr l, n, d, t, h, hn, hd => by
    simp only [need] at hn
    simp only [depth] at hd
    obtain ⟨m, rfl⟩ : ∃ m, n = m + 1 := ⟨n - 1, by omega⟩
    obtain ⟨e, rfl⟩ : ∃ e, d = e + 1 := ⟨d - 1, by omega⟩
    have h1 : emit sh (.arr l) ++ t = 0x5B :: (emitVals sh l ++ t) := by simp [emit]
    rw [h1, pval, skipWs_cons (by decide)]
    simp only [show ((0x5B : UInt8) = 0x22) = False from by decide, if_false, if_true]
    rw [pvals_emit sh l m e t h (by omega) (by omega)]
    rfl
  | .obj l, n, d, t, h, hn, hd => by
    simp only [need] at hn
    simp only [depth] at hd
    obtain ⟨m, rfl⟩ : ∃ m, n = m + 1 := ⟨n - 1, by omega⟩
    obtain ⟨e, rfl⟩ : ∃ e, d = e + 1 := ⟨d - 1, by omega⟩
    have h1 : emit sh (.obj l) ++ t = 0x7B :: (emitFields sh l ++ t) := by simp [emit]
    rw [h1, pval, skipWs_cons (by decide)]
    simp only [show ((0x7B : UInt8) = 0x22) = False from by decide, show ((0x7B : UInt8) = 0x5B) = False from by decide,
      if_false, if_true]
    rw [pfields_emit sh l m e t h (by omega) (by omega)]
    rfl
theorem pvals_emit (sh : Bool) : ∀ (l : Vals) (n d : Nat) (t : Str), NoNumVals l → needVals l ≤ n → depthVals l ≤ d →
    pvals n d true (emitVals sh l ++ t) = some (cleanVals l, t)
  | .nil, n, d, t, _, hn, _ => by
    obtain ⟨m, rfl⟩ : ∃ m, n = m + 1 := ⟨n - 1, by simp [needVals] at hn; omega⟩
    simp [emitVals, pvals, skipWs_cons (c := 0x5D) (by decide), cleanVals]
  | .cons v l, n, d, t, h, hn, hd => by
    obtain ⟨m, rfl, h2, h3⟩ := le_max_split hn
    simp only [depthVals] at hd
    obtain ⟨c, r, he, hw, hc⟩ := starts_emit sh v h.1 (emitValsTail sh l ++ t)
    have h1 : emitVals sh (.cons v l) ++ t = emit sh v ++ (emitValsTail sh l ++ t) := by simp [emitVals]
    rw [h1, pvals, he, skipWs_cons hw]
    simp only [hc, decide_false, Bool.and_false, Bool.false_eq_true, if_false]
    rw [← he, pval_emit sh v m d _ h.1 h2 (by omega)]
    simp only [Option.bind_some]
    have := pvals_tail sh l m d t h.2 h3 (by omega)
    revert this
    cases emitValsTail sh l ++ t with
    | nil => intro hx; exact absurd hx (by simp)
    | cons e r' =>
      intro hx
      simp only [cleanVals]
      exact hx v
theorem pvals_tail (sh : Bool) : ∀ (l : Vals) (n d : Nat) (t : Str), NoNumVals l → needVals l ≤ n → depthVals l ≤ d →
    (match emitValsTail sh l ++ t with
      | [] => False
      | e :: r' => ∀ v : Val, (match skipWs (e :: r') with
          | [] => none
          | e :: r' =>
            if e = 0x5D then some (Vals.cons (clean v) .nil, r')
            else if e = 0x2C then (pvals n d false r').map fun y => (Vals.cons (clean v) y.1, y.2)
            else none) = some (Vals.cons (clean v) (cleanVals l), t))
  | .nil, n, d, t, _, hn, _ => by
    intro v
    simp [skipWs_cons (c := 0x5D) (by decide), cleanVals]
  | .cons w l, n, d, t, h, hn, hd => by
    intro v
    obtain ⟨m, rfl, h2, h3⟩ := le_max_split hn
    simp only [depthVals] at hd
    obtain ⟨c, r, he, hw, hc⟩ := starts_emit sh w h.1 (emitValsTail sh l ++ t)
    have hx := pvals_tail sh l m d t h.2 h3 (by omega)
    rw [show List.append (emit sh w ++ emitValsTail sh l) t = emit sh w ++ (emitValsTail sh l ++ t) from by
      simp]
    rw [skipWs_cons (by decide)]
    simp only [show ((0x2C : UInt8) = 0x5D) = False from by decide, if_false, if_true]
    rw [pvals, he, skipWs_cons hw]
    simp only [Bool.false_and, Bool.false_eq_true, if_false]
    rw [← he, pval_emit sh w m d _ h.1 h2 (by omega)]
    simp only [Option.bind_some]
    revert hx
    cases emitValsTail sh l ++ t with
    | nil => intro hx; exact absurd hx (by simp)
    | cons e r' =>
      intro hx
      have := hx w
      rw [this]
      simp [cleanVals]
theorem pfields_emit (sh : Bool) : ∀ (l : Fields) (n d : Nat) (t : Str), NoNumFields l → needFields l ≤ n →
    depthFields l ≤ d → pfields n d true (emitFields sh l ++ t) = some (cleanFields l, t)
  | .nil, n, d, t, _, hn, _ => by
    obtain ⟨m, rfl⟩ : ∃ m, n = m + 1 := ⟨n - 1, by simp [needFields] at hn; omega⟩
    simp [emitFields, pfields, skipWs_cons (c := 0x7D) (by decide), cleanFields]
  | .cons k v l, n, d, t, h, hn, hd => by
    obtain ⟨m, rfl, h2, h3⟩ := le_max_split hn
    simp only [depthFields] at hd
    have h1 : emitFields sh (.cons k v l) ++ t =
        0x22 :: (quoteBody sh k ++ 0x22 :: 0x3A :: (emit sh v ++ (emitFieldsTail sh l ++ t))) := by
      simp [emitFields, quote]
    rw [h1, pfields, skipWs_cons (by decide)]
    simp only [show ((0x22 : UInt8) = 0x7D) = False from by decide, decide_false, Bool.and_false, Bool.false_eq_true,
      if_false, if_true, scanStr_quote, Option.bind_some]
    rw [skipWs_cons (by decide)]
    simp only [if_true]
    rw [pval_emit sh v m d _ h.1 h2 (by omega)]
    simp only [Option.bind_some, unquote_quote]
    have hx := pfields_tail sh l m d t h.2 h3 (by omega)
    revert hx
    cases emitFieldsTail sh l ++ t with
    | nil => intro hx; exact absurd hx (by simp)
    | cons e r' =>
      intro hx
      simp only [cleanFields]
      exact hx _ v
theorem pfields_tail (sh : Bool) : ∀ (l : Fields) (n d : Nat) (t : Str), NoNumFields l → needFields l ≤ n →
    depthFields l ≤ d →
    (match emitFieldsTail sh l ++ t with
      | [] => False
      | e :: r' => ∀ (k : Str) (v : Val), (match skipWs (e :: r') with
          | [] => none
          | e :: r'' =>
            if e = 0x7D then some (Fields.cons k (clean v) .nil, r'')
            else if e = 0x2C then (pfields n d false r'').map fun y => (Fields.cons k (clean v) y.1, y.2)
            else none) = some (Fields.cons k (clean v) (cleanFields l), t))
  | .nil, n, d, t, _, hn, _ => by
    intro k v
    simp [skipWs_cons (c := 0x7D) (by decide), cleanFields]
  | .cons j w l, n, d, t, h, hn, hd => by
    intro k v
    obtain ⟨m, rfl, h2, h3⟩ := le_max_split hn
    simp only [depthFields] at hd
    have hx := pfields_tail sh l m d t h.2 h3 (by omega)
    rw [show List.append (quote sh j ++ 0x3A :: (emit sh w ++ emitFieldsTail sh l)) t =
        0x22 :: (quoteBody sh j ++ 0x22 :: 0x3A :: (emit sh w ++ (emitFieldsTail sh l ++ t))) from by
      simp [quote]]
    rw [skipWs_cons (by decide)]
    simp only [show ((0x2C : UInt8) = 0x7D) = False from by decide, if_false, if_true]
    rw [pfields, skipWs_cons (by decide)]
    simp only [Bool.false_and, Bool.false_eq_true, if_false, if_true, scanStr_quote, Option.bind_some]
    rw [skipWs_cons (by decide)]
    simp only [if_true]
    rw [pval_emit sh w m d _ h.1 h2 (by omega)]
    simp only [Option.bind_some, unquote_quote]
    revert hx
    cases emitFieldsTail sh l ++ t with
    | nil => intro hx; exact absurd hx (by simp)
    | cons e r' =>
      intro hx
      have := hx (sanitize j) w
      rw [this]
      simp [cleanFields]
end

end Json
end Verif
