import Verif.Go.Basic
/-!
# JSON strings: `unicode/utf8` and the string parts of `encoding/json`

The Go standard library is not in /repo. These definitions follow the documented behaviour of `utf8.DecodeRune`,
`utf8.EncodeRune` and of the string encoder and decoder of `encoding/json`, which `Space.Save`, `Space.Load`
(pkg/spaces/default.go:82-124) and the workspace info (pkg/manager/manager_default.go:411-460) rely on.
-/
set_option autoImplicit false
namespace Verif
namespace Json

/-! ## UTF-8 -/

/-- One step of `utf8.DecodeRune`: an ASCII byte, a byte that starts no valid encoding, or a valid sequence of two to four
bytes. -/
inductive Chunk where
  | ascii (b : UInt8)
  | bad (b : UInt8)
  | multi (bs : Str)
  deriving DecidableEq, Repr

/-- The bytes that the step consumes. -/
def Chunk.src : Chunk → Str
  | .ascii b => [b]
  | .bad b => [b]
  | .multi bs => bs

/-- Range of the second byte and length of the sequence, by the first byte (the tables of `unicode/utf8`). -/
def second (a : UInt8) : Option (UInt8 × UInt8 × Nat) :=
  if a < 0xC2 then none
  else if a < 0xE0 then some (0x80, 0xBF, 2)
  else if a = 0xE0 then some (0xA0, 0xBF, 3)
  else if a = 0xED then some (0x80, 0x9F, 3)
  else if a < 0xF0 then some (0x80, 0xBF, 3)
  else if a = 0xF0 then some (0x90, 0xBF, 4)
  else if a < 0xF4 then some (0x80, 0xBF, 4)
  else if a = 0xF4 then some (0x80, 0x8F, 4)
  else none

/-- `lo ≤ b ≤ hi`. -/
def within (lo hi b : UInt8) : Bool := lo ≤ b && b ≤ hi

/-- A continuation byte. -/
def cont (b : UInt8) : Bool := within 0x80 0xBF b

/-- The first step on a non-empty text. -/
def head (a : UInt8) (r : Str) : Chunk :=
  if a < 0x80 then .ascii a
  else match second a, r with
    | some (lo, hi, 2), b :: _ => if within lo hi b then .multi [a, b] else .bad a
    | some (lo, hi, 3), b :: c :: _ => if within lo hi b && cont c then .multi [a, b, c] else .bad a
    | some (lo, hi, 4), b :: c :: d :: _ => if within lo hi b && cont c && cont d then .multi [a, b, c, d] else .bad a
    | _, _ => .bad a

/-- All steps, after skipping `k` bytes. -/
def chunksFrom : (skip : Nat) → Str → List Chunk
  | _, [] => []
  | k + 1, _ :: r => chunksFrom k r
  | 0, a :: r => head a r :: chunksFrom ((head a r).src.length - 1) r

/-- All steps. -/
def chunks (s : Str) : List Chunk := chunksFrom 0 s

/-- U+FFFD in UTF-8. -/
def replacement : Str := [0xEF, 0xBF, 0xBD]

/-- The step with an invalid byte replaced by U+FFFD. -/
def Chunk.clean : Chunk → Str
  | .ascii b => [b]
  | .bad _ => replacement
  | .multi bs => bs

/-- The text with each invalid byte replaced by U+FFFD. -/
def sanitize (s : Str) : Str := (chunks s).flatMap Chunk.clean

/-- `utf8.Valid`. -/
def validUtf8 (s : Str) : Prop := ∀ c ∈ chunks s, ∀ b, c ≠ .bad b

/-- `utf8.EncodeRune`. -/
def encodeRune (r : Nat) : Str :=
  if r < 0x80 then [UInt8.ofNat r]
  else if r < 0x800 then [UInt8.ofNat (0xC0 + r / 64), UInt8.ofNat (0x80 + r % 64)]
  else if 0xD800 ≤ r ∧ r < 0xE000 then replacement
  else if r < 0x10000 then
    [UInt8.ofNat (0xE0 + r / 4096), UInt8.ofNat (0x80 + r / 64 % 64), UInt8.ofNat (0x80 + r % 64)]
  else if r < 0x110000 then
    [UInt8.ofNat (0xF0 + r / 262144), UInt8.ofNat (0x80 + r / 4096 % 64), UInt8.ofNat (0x80 + r / 64 % 64),
      UInt8.ofNat (0x80 + r % 64)]
  else replacement

/-! ## Writing a string -/

/-- `hex[b]` of `encoding/json`: lower case. -/
def hexDigit (n : Nat) : UInt8 := if n < 10 then UInt8.ofNat (0x30 + n) else UInt8.ofNat (0x61 + (n - 10))

/-- `htmlSafeSet`: printed as it is. -/
def safe (b : UInt8) : Bool :=
  0x20 ≤ b && b != 0x22 && b != 0x5C && b != 0x3C && b != 0x3E && b != 0x26

/-- `\u` and four digits, for code points up to 255. -/
def uEscape (b : UInt8) : Str := [0x5C, 0x75, 0x30, 0x30, hexDigit (b.toNat / 16), hexDigit (b.toNat % 16)]

/-- How one step is written by `appendString` with HTML escaping. `short` says whether backspace and form feed have short
escapes (from Go 1.22 on); all theorems hold for both. -/
def quoteChunk (short : Bool) : Chunk → Str
  | .ascii b =>
    if safe b then [b]
    else if b = 0x22 ∨ b = 0x5C then [0x5C, b]
    else if b = 0x0A then [0x5C, 0x6E]
    else if b = 0x0D then [0x5C, 0x72]
    else if b = 0x09 then [0x5C, 0x74]
    else if short = true ∧ b = 0x08 then [0x5C, 0x62]
    else if short = true ∧ b = 0x0C then [0x5C, 0x66]
    else uEscape b
  | .bad _ => [0x5C, 0x75, 0x66, 0x66, 0x66, 0x64]
  | .multi bs =>
    if bs = [0xE2, 0x80, 0xA8] then [0x5C, 0x75, 0x32, 0x30, 0x32, 0x38]
    else if bs = [0xE2, 0x80, 0xA9] then [0x5C, 0x75, 0x32, 0x30, 0x32, 0x39]
    else bs

/-- The text between the quotes. -/
def quoteBody (short : Bool) (s : Str) : Str := (chunks s).flatMap (quoteChunk short)

/-- The string with its quotes. -/
def quote (short : Bool) (s : Str) : Str := 0x22 :: (quoteBody short s ++ [0x22])

/-! ## Reading a string -/

/-- Value of a hex digit of either case. -/
def hexVal (c : UInt8) : Option Nat :=
  if 0x30 ≤ c ∧ c ≤ 0x39 then some (c.toNat - 0x30)
  else if 0x61 ≤ c ∧ c ≤ 0x66 then some (c.toNat - 0x61 + 10)
  else if 0x41 ≤ c ∧ c ≤ 0x46 then some (c.toNat - 0x41 + 10)
  else none

/-- The characters that may follow a backslash, other than `u`. -/
def simpleEscape (c : UInt8) : Option UInt8 :=
  if c = 0x22 ∨ c = 0x5C ∨ c = 0x2F then some c
  else if c = 0x62 then some 0x08
  else if c = 0x66 then some 0x0C
  else if c = 0x6E then some 0x0A
  else if c = 0x72 then some 0x0D
  else if c = 0x74 then some 0x09
  else none

/-- The scanner inside a string: the raw text up to the closing quote, and what follows it. Control characters and
unknown escapes are errors. -/
def scanStr : Str → Option (Str × Str)
  | [] => none
  | a :: r =>
    if a = 0x22 then some ([], r)
    else if a = 0x5C then
      match r with
      | [] => none
      | c :: r1 =>
        if c = 0x75 then
          match r1 with
          | h1 :: h2 :: h3 :: h4 :: r2 =>
            if (hexVal h1).isSome && (hexVal h2).isSome && (hexVal h3).isSome && (hexVal h4).isSome then
              (scanStr r2).map fun x => (a :: c :: h1 :: h2 :: h3 :: h4 :: x.1, x.2)
            else none
          | _ => none
        else if (simpleEscape c).isSome then (scanStr r1).map fun x => (a :: c :: x.1, x.2)
        else none
    else if a < 0x20 then none
    else (scanStr r).map fun x => (a :: x.1, x.2)

theorem scanStr_cons (a : UInt8) (r : Str) : scanStr (a :: r) =
    if a = 0x22 then some ([], r)
    else if a = 0x5C then
      match r with
      | [] => none
      | c :: r1 =>
        if c = 0x75 then
          match r1 with
          | h1 :: h2 :: h3 :: h4 :: r2 =>
            if (hexVal h1).isSome && (hexVal h2).isSome && (hexVal h3).isSome && (hexVal h4).isSome then
              (scanStr r2).map fun x => (a :: c :: h1 :: h2 :: h3 :: h4 :: x.1, x.2)
            else none
          | _ => none
        else if (simpleEscape c).isSome then (scanStr r1).map fun x => (a :: c :: x.1, x.2)
        else none
    else if a < 0x20 then none
    else (scanStr r).map fun x => (a :: x.1, x.2) := by
  rw [scanStr.eq_def]
  rfl

/-- The number written by four hex digits. -/
def hex4 (a b c d : UInt8) : Option Nat :=
  match hexVal a, hexVal b, hexVal c, hexVal d with
  | some a, some b, some c, some d => some (((a * 16 + b) * 16 + c) * 16 + d)
  | _, _, _, _ => none

/-- `getu4`: the escape `\uXXXX` at the start of the text. -/
def getu4 : Str → Option Nat
  | x :: y :: a :: b :: c :: d :: _ => if x = 0x5C ∧ y = 0x75 then hex4 a b c d else none
  | _ => none

/-- One step of `unquote`: the output and the number of bytes read. -/
def unquoteStep (a : UInt8) (r : Str) : Str × Nat :=
  if a = 0x5C then
    match r with
    | [] => ([], 1)
    | c :: r1 =>
      if c = 0x75 then
        match getu4 (a :: r) with
        | none => ([], 1)
        | some u =>
          if 0xD800 ≤ u ∧ u < 0xE000 then
            match getu4 (r1.drop 4) with
            | some w => if u < 0xDC00 ∧ 0xDC00 ≤ w ∧ w < 0xE000 then
                (encodeRune ((u - 0xD800) * 1024 + (w - 0xDC00) + 0x10000), 12) else (replacement, 6)
            | none => (replacement, 6)
          else (encodeRune u, 6)
      else match simpleEscape c with
        | some x => ([x], 2)
        | none => ([], 1)
  else ((head a r).clean, (head a r).src.length)

/-- `unquote` on the raw text between the quotes, after skipping `k` bytes. -/
def unquoteFrom : (skip : Nat) → Str → Str
  | _, [] => []
  | k + 1, _ :: r => unquoteFrom k r
  | 0, a :: r => (unquoteStep a r).1 ++ unquoteFrom ((unquoteStep a r).2 - 1) r

/-- `unquote` on the raw text between the quotes. -/
def unquote (s : Str) : Str := unquoteFrom 0 s

/-! ## Steps -/

theorem src_ne_nil (a : UInt8) (r : Str) : ∃ l, (head a r).src = a :: l ∧ ∃ t, r = l ++ t := by
  unfold head
  split
  · exact ⟨[], rfl, r, rfl⟩
  · split
    · rename_i b t _; split
      · exact ⟨[b], rfl, t, rfl⟩
      · exact ⟨[], rfl, _, rfl⟩
    · rename_i b c t _; split
      · exact ⟨[b, c], rfl, t, rfl⟩
      · exact ⟨[], rfl, _, rfl⟩
    · rename_i b c d t _; split
      · exact ⟨[b, c, d], rfl, t, rfl⟩
      · exact ⟨[], rfl, _, rfl⟩
    · exact ⟨[], rfl, _, rfl⟩

theorem chunksFrom_drop (k : Nat) (s : Str) : chunksFrom k s = chunks (s.drop k) := by
  induction s generalizing k with
  | nil => cases k <;> rfl
  | cons a r ih =>
    cases k with
    | zero => rfl
    | succ k => simp only [chunksFrom, List.drop_succ_cons]; exact ih k

/-- Unfolding: the first step and the steps of the rest. -/
theorem chunks_cons (a : UInt8) (r : Str) :
    ∃ t, a :: r = (head a r).src ++ t ∧ chunks (a :: r) = head a r :: chunks t := by
  obtain ⟨l, h1, t, h2⟩ := src_ne_nil a r
  refine ⟨t, by rw [h1, h2]; rfl, ?_⟩
  simp only [chunks, chunksFrom]
  rw [chunksFrom_drop, h1]
  simp [h2, chunks]

/-- Reading all steps of a text gives back the text. -/
theorem flatMap_src (s : Str) : (chunks s).flatMap Chunk.src = s := by
  have key : ∀ (n : Nat) (s : Str), s.length ≤ n → (chunks s).flatMap Chunk.src = s := by
    intro n
    induction n with
    | zero => intro s h; simp at h; subst h; rfl
    | succ n ih =>
      intro s h
      cases s with
      | nil => rfl
      | cons a r =>
        obtain ⟨t, h1, h2⟩ := chunks_cons a r
        rw [h2, List.flatMap_cons, ih t]
        · exact h1.symm
        · obtain ⟨l, h3, _⟩ := src_ne_nil a r
          have := congrArg List.length h1
          rw [h3] at this
          simp at this h
          omega
  exact key _ s (Nat.le_refl _)

/-- A valid text is not changed by `sanitize`. -/
theorem sanitize_valid {s : Str} (h : validUtf8 s) : sanitize s = s := by
  have : (chunks s).flatMap Chunk.clean = (chunks s).flatMap Chunk.src := by
    have key : ∀ l : List Chunk, (∀ c ∈ l, ∀ b, c ≠ .bad b) → l.flatMap Chunk.clean = l.flatMap Chunk.src := by
      intro l
      induction l with
      | nil => intro _; rfl
      | cons c l ih =>
        intro hl
        rw [List.flatMap_cons, List.flatMap_cons, ih (fun x hx => hl x (by simp [hx]))]
        cases c with
        | bad b => exact absurd rfl (hl _ (by simp) b)
        | _ => rfl
    exact key _ h
  rw [sanitize, this, flatMap_src]

/-- The step does not depend on what follows the sequence. -/
structure Chunk.Good (c : Chunk) : Prop where
  multi : ∀ bs, c = .multi bs → ∃ a r, bs = a :: r ∧ 0x80 ≤ a ∧ (∀ b ∈ bs, 0x80 ≤ b) ∧ ∀ t, head a (r ++ t) = .multi bs
  ascii : ∀ b, c = .ascii b → b < 0x80
  bad : ∀ b, c = .bad b → 0x80 ≤ b

theorem within_ge {lo hi b : UInt8} (h : within lo hi b = true) (hl : 0x80 ≤ lo) : 0x80 ≤ b := by
  simp only [within, Bool.and_eq_true, decide_eq_true_eq] at h
  exact UInt8.le_trans hl h.1

theorem second_lo {a lo hi : UInt8} {n : Nat} (h : second a = some (lo, hi, n)) : 0x80 ≤ lo := by
  unfold second at h
  repeat' split at h
  all_goals simp only [Option.some.injEq, Prod.mk.injEq, reduceCtorEq] at h
  all_goals (obtain ⟨rfl, _⟩ := h; decide)

theorem good_head (a : UInt8) (r : Str) : (head a r).Good := by
  by_cases ha : a < 0x80
  · have : head a r = .ascii a := by simp [head, ha]
    rw [this]
    exact ⟨by simp, by simp [ha], by simp⟩
  · have ha' : 0x80 ≤ a := by simpa using ha
    have hbad : (Chunk.bad a).Good := ⟨by simp, by simp, by simp [ha']⟩
    unfold head
    rw [if_neg ha]
    split
    · rename_i lo hi b t hs
      split
      · rename_i hw
        refine ⟨?_, by simp, by simp⟩
        rintro bs hbs; cases hbs
        refine ⟨a, [b], rfl, ha', ?_, fun t => by simp [head, ha, hs, hw]⟩
        intro x hx
        simp only [List.mem_cons, List.not_mem_nil, or_false] at hx
        rcases hx with rfl | rfl
        · exact ha'
        · exact within_ge hw (second_lo hs)
      · exact hbad
    · rename_i lo hi b c t hs
      split
      · rename_i hw
        refine ⟨?_, by simp, by simp⟩
        rintro bs hbs; cases hbs
        refine ⟨a, [b, c], rfl, ha', ?_, fun t => by simp [head, ha, hs, hw]⟩
        simp only [Bool.and_eq_true] at hw
        intro x hx
        simp only [List.mem_cons, List.not_mem_nil, or_false] at hx
        rcases hx with rfl | rfl | rfl
        · exact ha'
        · exact within_ge hw.1 (second_lo hs)
        · exact within_ge hw.2 (by decide)
      · exact hbad
    · rename_i lo hi b c d t hs
      split
      · rename_i hw
        refine ⟨?_, by simp, by simp⟩
        rintro bs hbs; cases hbs
        refine ⟨a, [b, c, d], rfl, ha', ?_, fun t => by simp [head, ha, hs, hw]⟩
        simp only [Bool.and_eq_true] at hw
        intro x hx
        simp only [List.mem_cons, List.not_mem_nil, or_false] at hx
        rcases hx with rfl | rfl | rfl | rfl
        · exact ha'
        · exact within_ge hw.1.1 (second_lo hs)
        · exact within_ge hw.1.2 (by decide)
        · exact within_ge hw.2 (by decide)
      · exact hbad
    · exact hbad

theorem good_chunks {s : Str} : ∀ c ∈ chunks s, c.Good := by
  have key : ∀ (n : Nat) (s : Str), s.length ≤ n → ∀ c ∈ chunks s, c.Good := by
    intro n
    induction n with
    | zero => intro s h; simp at h; subst h; simp [chunks, chunksFrom]
    | succ n ih =>
      intro s h
      cases s with
      | nil => simp [chunks, chunksFrom]
      | cons a r =>
        obtain ⟨t, h1, h2⟩ := chunks_cons a r
        rw [h2]
        intro c hc
        rcases List.mem_cons.1 hc with rfl | hc
        · exact good_head a r
        · refine ih t ?_ c hc
          obtain ⟨l, h3, _⟩ := src_ne_nil a r
          have := congrArg List.length h1
          rw [h3] at this
          simp at this h
          omega
  exact key _ s (Nat.le_refl _)

/-! ## Reading what was written -/

/-- Reading one written step. -/
structure ReadsBack (q out : Str) : Prop where
  /-- The scanner takes it as it is. -/
  scan : ∀ t, scanStr (q ++ t) = (scanStr t).map fun x => (q ++ x.1, x.2)
  /-- `unquote` turns it into the given text. -/
  unq : ∀ t, unquote (q ++ t) = out ++ unquote t

theorem unquoteFrom_drop (k : Nat) (s : Str) : unquoteFrom k s = unquote (s.drop k) := by
  induction s generalizing k with
  | nil => cases k <;> rfl
  | cons a r ih =>
    cases k with
    | zero => rfl
    | succ k => simp only [unquoteFrom, List.drop_succ_cons]; exact ih k

theorem unquote_cons (a : UInt8) (r : Str) :
    unquote (a :: r) = (unquoteStep a r).1 ++ unquote (r.drop ((unquoteStep a r).2 - 1)) := by
  show unquoteFrom 0 (a :: r) = _
  simp only [unquoteFrom]
  rw [unquoteFrom_drop]

/-- One byte that is neither special nor a control character. -/
theorem readsBack_byte {b : UInt8} (h1 : 0x20 ≤ b) (h2 : b ≠ 0x22) (h3 : b ≠ 0x5C) (h4 : b < 0x80) : ReadsBack [b] [b] := by
  have h1' : ¬ b < 0x20 := by simpa using h1
  constructor
  · intro t
    simp [scanStr_cons, h2, h3, h1']
  · intro t
    have : unquoteStep b t = ([b], 1) := by simp [unquoteStep, h3, head, h4, Chunk.clean, Chunk.src]
    simp [unquote_cons, this]

/-- A two-byte escape. -/
theorem readsBack_simple {c x : UInt8} (h : simpleEscape c = some x) : ReadsBack [0x5C, c] [x] := by
  have hu : c ≠ 0x75 := by rintro rfl; simp [simpleEscape] at h
  constructor
  · intro t
    rw [List.cons_append, scanStr_cons]; simp [hu, h]
  · intro t
    have : unquoteStep 0x5C (c :: t) = ([x], 2) := by simp [unquoteStep, hu, h]
    simp [unquote_cons, this]

/-- A six-byte escape of a code point that is no surrogate. -/
theorem readsBack_u {a b c d : UInt8} {n : Nat} (h : hex4 a b c d = some n) (hn : ¬ (0xD800 ≤ n ∧ n < 0xE000)) :
    ReadsBack [0x5C, 0x75, a, b, c, d] (encodeRune n) := by
  have hs : (hexVal a).isSome = true ∧ (hexVal b).isSome = true ∧ (hexVal c).isSome = true ∧ (hexVal d).isSome = true := by
    unfold hex4 at h
    split at h <;> simp_all
  constructor
  · intro t
    rw [List.cons_append, scanStr_cons]; simp [hs]
  · intro t
    have : unquoteStep 0x5C (0x75 :: a :: b :: c :: d :: t) = (encodeRune n, 6) := by
      simp only [unquoteStep, if_true, getu4, and_self, h]
      rw [if_neg hn]
    simp [unquote_cons, this]

theorem scan_high {l : Str} (h : ∀ b ∈ l, (0x80 : UInt8) ≤ b) (t : Str) :
    scanStr (l ++ t) = (scanStr t).map fun x => (l ++ x.1, x.2) := by
  induction l with
  | nil => simp
  | cons b l ih =>
    have hb := h b (by simp)
    have h1 : b ≠ 0x22 := by rintro rfl; exact absurd hb (by decide)
    have h2 : b ≠ 0x5C := by rintro rfl; exact absurd hb (by decide)
    have h3 : ¬ b < 0x20 := by
      intro hlt
      exact absurd (UInt8.lt_of_le_of_lt hb hlt) (by decide)
    simp only [List.cons_append, scanStr_cons b, if_neg h1, if_neg h2, if_neg h3]
    rw [ih (fun x hx => h x (by simp [hx]))]
    simp [Option.map_map, Function.comp_def]

theorem readsBack_multi {a : UInt8} {r : Str} (ha : 0x80 ≤ a) (hb : ∀ b ∈ a :: r, (0x80 : UInt8) ≤ b)
    (hh : ∀ t, head a (r ++ t) = .multi (a :: r)) : ReadsBack (a :: r) (a :: r) := by
  constructor
  · intro t; exact scan_high hb t
  · intro t
    have h2 : a ≠ 0x5C := by rintro rfl; exact absurd ha (by decide)
    have : unquoteStep a (r ++ t) = (a :: r, r.length + 1) := by
      simp [unquoteStep, h2, hh t, Chunk.clean, Chunk.src]
    simp [unquote_cons, this]

set_option maxRecDepth 10000 in
theorem hex4_uEscape : ∀ b : Fin 128,
    hex4 0x30 0x30 (hexDigit (b.val / 16)) (hexDigit (b.val % 16)) = some b.val ∧ encodeRune b.val = [UInt8.ofNat b.val] := by
  decide

theorem readsBack_chunk (short : Bool) {c : Chunk} (h : c.Good) : ReadsBack (quoteChunk short c) c.clean := by
  cases c with
  | bad b =>
    have := readsBack_u (a := 0x66) (b := 0x66) (c := 0x66) (d := 0x64) (n := 0xFFFD) (by decide) (by omega)
    have he : encodeRune 0xFFFD = replacement := by decide
    rw [he] at this
    exact this
  | multi bs =>
    obtain ⟨a, r, rfl, h1, h2, h3⟩ := h.multi bs rfl
    simp only [quoteChunk, Chunk.clean]
    split
    · rename_i heq
      rw [heq]
      have := readsBack_u (a := 0x32) (b := 0x30) (c := 0x32) (d := 0x38) (n := 0x2028) (by decide) (by omega)
      have he : encodeRune 0x2028 = [0xE2, 0x80, 0xA8] := by decide
      rw [he] at this; exact this
    · split
      · rename_i heq
        rw [heq]
        have := readsBack_u (a := 0x32) (b := 0x30) (c := 0x32) (d := 0x39) (n := 0x2029) (by decide) (by omega)
        have he : encodeRune 0x2029 = [0xE2, 0x80, 0xA9] := by decide
        rw [he] at this; exact this
      · exact readsBack_multi h1 h2 h3
  | ascii b =>
    have hb := h.ascii b rfl
    have hu : ReadsBack (uEscape b) [b] := by
      have hlt : b.toNat < 128 := by
        have := UInt8.lt_iff_toNat_lt.1 hb
        simpa using this
      obtain ⟨k1, k2⟩ := hex4_uEscape ⟨b.toNat, hlt⟩
      have := readsBack_u k1 (by simp only; omega)
      rw [k2] at this
      simpa [uEscape] using this
    simp only [quoteChunk, Chunk.clean]
    split
    · rename_i hs
      simp only [safe, Bool.and_eq_true, decide_eq_true_eq, bne_iff_ne, ne_eq] at hs
      exact readsBack_byte hs.1.1.1.1.1 hs.1.1.1.1.2 hs.1.1.1.2 hb
    · split
      · rename_i hc
        apply readsBack_simple
        rcases hc with rfl | rfl <;> decide
      · split
        · rename_i hc; subst hc; exact readsBack_simple (by decide)
        · split
          · rename_i hc; subst hc; exact readsBack_simple (by decide)
          · split
            · rename_i hc; subst hc; exact readsBack_simple (by decide)
            · split
              · rename_i hc; obtain ⟨_, rfl⟩ := hc; exact readsBack_simple (by decide)
              · split
                · rename_i hc; obtain ⟨_, rfl⟩ := hc; exact readsBack_simple (by decide)
                · exact hu

theorem readsBack_append {q1 o1 q2 o2 : Str} (h1 : ReadsBack q1 o1) (h2 : ReadsBack q2 o2) :
    ReadsBack (q1 ++ q2) (o1 ++ o2) := by
  constructor
  · intro t
    rw [List.append_assoc, h1.scan, h2.scan]
    simp [Option.map_map, Function.comp_def]
  · intro t
    rw [List.append_assoc, h1.unq, h2.unq, List.append_assoc]

theorem readsBack_nil : ReadsBack [] [] := ⟨fun t => by simp, fun t => rfl⟩

theorem readsBack_body (short : Bool) (s : Str) : ReadsBack (quoteBody short s) (sanitize s) := by
  have key : ∀ l : List Chunk, (∀ c ∈ l, c.Good) → ReadsBack (l.flatMap (quoteChunk short)) (l.flatMap Chunk.clean) := by
    intro l
    induction l with
    | nil => intro _; exact readsBack_nil
    | cons c l ih =>
      intro hl
      rw [List.flatMap_cons, List.flatMap_cons]
      exact readsBack_append (readsBack_chunk short (hl c (by simp))) (ih (fun x hx => hl x (by simp [hx])))
  exact key _ good_chunks

/-- The scanner finds the end of a written string. -/
theorem scanStr_quote (short : Bool) (s t : Str) :
    scanStr (quoteBody short s ++ 0x22 :: t) = some (quoteBody short s, t) := by
  rw [(readsBack_body short s).scan]
  simp [scanStr_cons]

/-- Reading a written string gives the text with invalid bytes replaced. -/
theorem unquote_quote (short : Bool) (s : Str) : unquote (quoteBody short s) = sanitize s := by
  have := (readsBack_body short s).unq []
  simpa [unquote, unquoteFrom] using this

end Json
end Verif
