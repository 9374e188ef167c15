import Verif.Json.Utf8
/-!
# What a JSON string says

`Utf8` is the definition of UTF-8 (RFC 3629, section 3) and `Says` says what is written by the text between the quotes of a JSON
string (RFC 8259, section 7): characters stand for themselves, escapes for what they name. Where the RFC leaves open what happens, that
is for bytes which are no UTF-8 and for halves of surrogate pairs, `Says` says what `encoding/json` documents: U+FFFD. Neither refers
to the model of `unquote`, which agrees with them (`says_iff`).
-/
set_option autoImplicit false
namespace Verif
namespace Json

/-! ## Specification -/

/-- A hexadecimal digit. -/
def HexChar (c : UInt8) : Prop := (0x30 ≤ c ∧ c ≤ 0x39) ∨ (0x61 ≤ c ∧ c ≤ 0x66) ∨ (0x41 ≤ c ∧ c ≤ 0x46)

/-- What may stand between the quotes of a string (section 7). -/
inductive Quoted : Str → Prop where
  | nil : Quoted []
  | plain {c : UInt8} {r : Str} : 0x20 ≤ c → c ≠ 0x22 → c ≠ 0x5C → Quoted r → Quoted (c :: r)
  | esc {c : UInt8} {r : Str} : c ∈ lit "\"\\/bfnrt" → Quoted r → Quoted (0x5C :: c :: r)
  | uni {a b c d : UInt8} {r : Str} : HexChar a → HexChar b → HexChar c → HexChar d → Quoted r → Quoted (0x5C :: 0x75 :: a :: b :: c :: d :: r)

/-- `Utf8 n w`: `w` is the UTF-8 form of the code point `n`. -/
inductive Utf8 : Nat → Str → Prop where
  | one {x : Nat} : x < 0x80 → Utf8 x [UInt8.ofNat x]
  | two {x y : Nat} : x < 32 → y < 64 → 0x80 ≤ x * 64 + y → Utf8 (x * 64 + y) [UInt8.ofNat (0xC0 + x), UInt8.ofNat (0x80 + y)]
  | three {x y z : Nat} : x < 16 → y < 64 → z < 64 → 0x800 ≤ x * 4096 + y * 64 + z →
    ¬ (0xD800 ≤ x * 4096 + y * 64 + z ∧ x * 4096 + y * 64 + z ≤ 0xDFFF) →
    Utf8 (x * 4096 + y * 64 + z) [UInt8.ofNat (0xE0 + x), UInt8.ofNat (0x80 + y), UInt8.ofNat (0x80 + z)]
  | four {x y z t : Nat} : x < 8 → y < 64 → z < 64 → t < 64 → 0x10000 ≤ x * 262144 + y * 4096 + z * 64 + t → x * 262144 + y * 4096 + z * 64 + t ≤ 0x10FFFF →
    Utf8 (x * 262144 + y * 4096 + z * 64 + t) [UInt8.ofNat (0xF0 + x), UInt8.ofNat (0x80 + y), UInt8.ofNat (0x80 + z), UInt8.ofNat (0x80 + t)]

/-- The text starts with no character. -/
def NoChar (s : Str) : Prop := ∀ n w t, Utf8 n w → s ≠ w ++ t

/-- U+FFFD, the replacement character. -/
def fffd : Str := [0xEF, 0xBF, 0xBD]

/-- The digit `c` counts `k`. -/
inductive HexNum : UInt8 → Nat → Prop where
  | digit {k : Nat} : k < 10 → HexNum (UInt8.ofNat (0x30 + k)) k
  | lower {k : Nat} : k < 6 → HexNum (UInt8.ofNat (0x61 + k)) (10 + k)
  | upper {k : Nat} : k < 6 → HexNum (UInt8.ofNat (0x41 + k)) (10 + k)

/-- `Unit16 s n`: `s` is a backslash, a `u` and the four digits of `n`. -/
inductive Unit16 : Str → Nat → Prop where
  | mk {a b c d : UInt8} {i j k l : Nat} : HexNum a i → HexNum b j → HexNum c k → HexNum d l →
    Unit16 [0x5C, 0x75, a, b, c, d] (i * 4096 + j * 256 + k * 16 + l)

/-- The escapes of one character and the characters they name. -/
inductive Names : UInt8 → UInt8 → Prop where
  | quote : Names 0x22 0x22
  | backslash : Names 0x5C 0x5C
  | slash : Names 0x2F 0x2F
  | b : Names 0x62 0x08
  | f : Names 0x66 0x0C
  | n : Names 0x6E 0x0A
  | r : Names 0x72 0x0D
  | t : Names 0x74 0x09

/-- `Says raw v`: between quotes, `raw` says `v`. -/
inductive Says : Str → Str → Prop where
  | nil : Says [] []
  /-- A character stands for itself. -/
  | char {n : Nat} {w r v : Str} : Utf8 n w → n ≠ 0x5C → Says r v → Says (w ++ r) (w ++ v)
  /-- A byte that starts no character. -/
  | bad {a : UInt8} {r v : Str} : NoChar (a :: r) → Says r v → Says (a :: r) (fffd ++ v)
  | esc {c x : UInt8} {r v : Str} : Names c x → Says r v → Says (0x5C :: c :: r) (x :: v)
  /-- The number of a character. -/
  | uni {u w r v : Str} {n : Nat} : Unit16 u n → Utf8 n w → Says r v → Says (u ++ r) (w ++ v)
  /-- The two halves of a character beyond the first 65536. -/
  | pair {u u' w r v : Str} {h l : Nat} : Unit16 u (0xD800 + h) → h < 1024 → Unit16 u' (0xDC00 + l) → l < 1024 → Utf8 (0x10000 + h * 1024 + l) w →
    Says r v → Says (u ++ (u' ++ r)) (w ++ v)
  /-- A half alone. -/
  | half {u r v : Str} {n : Nat} : Unit16 u n → 0xD800 ≤ n → n ≤ 0xDFFF →
    ¬ (n < 0xDC00 ∧ ∃ u' m t, Unit16 u' m ∧ r = u' ++ t ∧ 0xDC00 ≤ m ∧ m ≤ 0xDFFF) → Says r v → Says (u ++ r) (fffd ++ v)

/-! ## UTF-8 -/

theorem utf8_iff {n : Nat} {w : Str} : Utf8 n w ↔ Scalar n ∧ w = encodeRune n := by
  constructor
  · intro h
    cases h with
    | one h => exact ⟨Or.inl (by omega), by rw [encodeRune, if_pos h]⟩
    | @two x y h1 h2 h3 =>
      refine ⟨Or.inl (by omega), ?_⟩
      rw [encodeRune, if_neg (by omega), if_pos (by omega), show (x * 64 + y) / 64 = x by omega, show (x * 64 + y) % 64 = y by omega]
    | @three x y z h1 h2 h3 h4 h5 =>
      refine ⟨by unfold Scalar; omega, ?_⟩
      rw [encodeRune, if_neg (by omega), if_neg (by omega), if_neg (by omega), if_pos (by omega), show (x * 4096 + y * 64 + z) / 4096 = x by omega,
        show (x * 4096 + y * 64 + z) / 64 % 64 = y by omega, show (x * 4096 + y * 64 + z) % 64 = z by omega]
    | @four x y z t h1 h2 h3 h4 h5 h6 =>
      refine ⟨by unfold Scalar; omega, ?_⟩
      rw [encodeRune, if_neg (by omega), if_neg (by omega), if_neg (by omega), if_neg (by omega), if_pos (by omega),
        show (x * 262144 + y * 4096 + z * 64 + t) / 262144 = x by omega, show (x * 262144 + y * 4096 + z * 64 + t) / 4096 % 64 = y by omega,
        show (x * 262144 + y * 4096 + z * 64 + t) / 64 % 64 = z by omega, show (x * 262144 + y * 4096 + z * 64 + t) % 64 = t by omega]
  · rintro ⟨h, rfl⟩
    unfold Scalar at h
    unfold encodeRune
    split
    · exact .one (by omega)
    split
    · have := @Utf8.two (n / 64) (n % 64) (by omega) (by omega) (by omega)
      rwa [show n / 64 * 64 + n % 64 = n by omega] at this
    split
    · omega
    split
    · have := @Utf8.three (n / 4096) (n / 64 % 64) (n % 64) (by omega) (by omega) (by omega) (by omega) (by omega)
      rwa [show n / 4096 * 4096 + n / 64 % 64 * 64 + n % 64 = n by omega] at this
    split
    · have := @Utf8.four (n / 262144) (n / 4096 % 64) (n / 64 % 64) (n % 64) (by omega) (by omega) (by omega) (by omega) (by omega) (by omega)
      rwa [show n / 262144 * 262144 + n / 4096 % 64 * 4096 + n / 64 % 64 * 64 + n % 64 = n by omega] at this
    · omega

/-- A text is valid exactly when it is a sequence of characters. -/
theorem valid_iff_utf8 (s : Str) : validUtf8 s ↔ ∃ ws : List Str, (∀ w ∈ ws, ∃ n, Utf8 n w) ∧ s = ws.flatten := by
  rw [validUtf8_iff]
  constructor
  · rintro ⟨rs, h, rfl⟩
    refine ⟨rs.map encodeRune, ?_, by rw [List.flatMap_def]⟩
    intro w hw
    obtain ⟨r, hr, rfl⟩ := List.mem_map.1 hw
    exact ⟨r, utf8_iff.2 ⟨h r hr, rfl⟩⟩
  · rintro ⟨ws, h, rfl⟩
    induction ws with
    | nil => exact ⟨[], by simp, rfl⟩
    | cons w ws ih =>
      obtain ⟨rs, h1, h2⟩ := ih fun x hx => h x (by simp [hx])
      obtain ⟨n, hn⟩ := h w (by simp)
      obtain ⟨h3, h4⟩ := utf8_iff.1 hn
      refine ⟨n :: rs, ?_, by rw [List.flatten_cons, List.flatMap_cons, h2, h4]⟩
      intro r hr
      rcases List.mem_cons.1 hr with rfl | hr
      · exact h3
      · exact h1 r hr

theorem utf8_cons {n : Nat} {w : Str} (h : Utf8 n w) : ∃ a l, w = a :: l ∧ (a = 0x5C → n = 0x5C) := by
  cases h with
  | @one _ h => exact ⟨_, _, rfl, fun e => by have := congrArg UInt8.toNat e; rw [toNat_ofNat (by omega)] at this; exact this⟩
  | two => exact ⟨_, _, rfl, fun e => by have := congrArg UInt8.toNat e; rw [toNat_ofNat (by omega)] at this; simp at this; omega⟩
  | three => exact ⟨_, _, rfl, fun e => by have := congrArg UInt8.toNat e; rw [toNat_ofNat (by omega)] at this; simp at this; omega⟩
  | four => exact ⟨_, _, rfl, fun e => by have := congrArg UInt8.toNat e; rw [toNat_ofNat (by omega)] at this; simp at this; omega⟩

/-- At a character, the first step reads it. -/
theorem head_utf8 {n : Nat} {a : UInt8} {l : Str} (h : Utf8 n (a :: l)) (t : Str) : (head a (l ++ t)).src = a :: l ∧ (head a (l ++ t)).clean = a :: l := by
  obtain ⟨h1, h2⟩ := utf8_iff.1 h
  obtain ⟨c, h3, h4⟩ := chunks_rune h1 t
  rw [← h2] at h4
  obtain ⟨t', h5, h6⟩ := chunks_cons a (l ++ t)
  rw [List.cons_append, h6] at h4
  obtain ⟨e1, e2⟩ := List.cons.inj h4
  have e3 : t' = t := by
    have := congrArg (List.flatMap Chunk.src) e2
    rwa [flatMap_src, flatMap_src] at this
  subst e3
  have e4 : (head a (l ++ t')).src = a :: l := by
    rw [← List.cons_append] at h5
    exact (List.append_cancel_right h5).symm
  refine ⟨e4, ?_⟩
  rw [← e4, e1]
  cases c with
  | bad b => exact absurd rfl (h3 b)
  | _ => rfl

/-- Where there is no character, the first step reads an invalid byte. -/
theorem head_noChar {a : UInt8} {r : Str} (h : NoChar (a :: r)) : head a r = .bad a := by
  obtain ⟨t, h1, _⟩ := chunks_cons a r
  by_cases hb : ∀ b, head a r ≠ .bad b
  · obtain ⟨k, h2, h3⟩ := rune_of_head hb
    rw [h3] at h1
    exact absurd h1 (h k _ t (utf8_iff.2 ⟨h2, rfl⟩))
  · obtain ⟨b, hb⟩ : ∃ b, head a r = .bad b := by
      apply Classical.byContradiction
      intro hc
      exact hb fun b e => hc ⟨b, e⟩
    rw [hb] at h1 ⊢
    rw [(List.cons.inj h1).1]

/-! ## Escapes -/

theorem hexVal_iff (c : UInt8) (k : Nat) : hexVal c = some k ↔ HexNum c k := by
  have hl := c.toNat_lt
  constructor
  · intro h
    unfold hexVal at h
    simp only [UInt8.le_iff_toNat_le] at h
    split at h
    · rename_i h1
      simp at h1
      simp only [Option.some.injEq] at h
      have := @HexNum.digit k (by omega)
      rwa [← eq_ofNat (b := c) (by omega)] at this
    split at h
    · rename_i h1
      simp at h1
      simp only [Option.some.injEq] at h
      have := @HexNum.lower (k - 10) (by omega)
      rwa [← eq_ofNat (b := c) (by omega), show 10 + (k - 10) = k by omega] at this
    split at h
    · rename_i h1
      simp at h1
      simp only [Option.some.injEq] at h
      have := @HexNum.upper (k - 10) (by omega)
      rwa [← eq_ofNat (b := c) (by omega), show 10 + (k - 10) = k by omega] at this
    · cases h
  · intro h
    unfold hexVal
    simp only [UInt8.le_iff_toNat_le]
    cases h with
    | digit h =>
      rw [toNat_ofNat (by omega), if_pos (by simp; omega)]
      simp
    | lower h =>
      rw [toNat_ofNat (by omega), if_neg (by simp; omega), if_pos (by simp; omega)]
      simp; omega
    | upper h =>
      rw [toNat_ofNat (by omega), if_neg (by simp; omega), if_neg (by simp; omega), if_pos (by simp; omega)]
      simp; omega

theorem hexNum_unique {c : UInt8} {k k' : Nat} (h : HexNum c k) (h' : HexNum c k') : k = k' := by
  have h1 := (hexVal_iff c k).2 h
  rw [(hexVal_iff c k').2 h'] at h1
  exact (Option.some.inj h1).symm

theorem hexNum_lt {c : UInt8} {k : Nat} (h : HexNum c k) : k < 16 := by cases h <;> omega

theorem hexChar_iff (c : UInt8) : HexChar c ↔ ∃ k, HexNum c k := by
  have : HexChar c ↔ ∃ k, hexVal c = some k := by
    unfold hexVal HexChar
    by_cases h1 : 0x30 ≤ c ∧ c ≤ 0x39
    · simp [h1]
    by_cases h2 : 0x61 ≤ c ∧ c ≤ 0x66
    · simp [h1, h2]
    by_cases h3 : 0x41 ≤ c ∧ c ≤ 0x46
    · simp [h1, h2, h3]
    · simp [h1, h2, h3]
  rw [this]
  exact exists_congr fun k => hexVal_iff c k

theorem simpleEscape_iff (c x : UInt8) : simpleEscape c = some x ↔ Names c x := by
  constructor
  · intro h
    unfold simpleEscape at h
    repeat' split at h
    · rename_i h1
      rcases h1 with rfl | rfl | rfl <;> cases h <;> constructor
    all_goals first | (rename_i h1; subst h1; cases h; constructor; done) | cases h
  · intro h
    cases h <;> rfl

/-- `\u` and four digits at the start of the text. -/
theorem getu4_iff (s : Str) (n : Nat) : getu4 s = some n ↔ ∃ u t, Unit16 u n ∧ s = u ++ t := by
  constructor
  · intro h
    unfold getu4 at h
    split at h
    · rename_i x y a b c d t
      split at h
      · rename_i hx
        obtain ⟨rfl, rfl⟩ := hx
        unfold hex4 at h
        split at h
        · rename_i i j k l hi hj hk hl
          simp only [Option.some.injEq] at h
          have := Unit16.mk ((hexVal_iff _ _).1 hi) ((hexVal_iff _ _).1 hj) ((hexVal_iff _ _).1 hk) ((hexVal_iff _ _).1 hl)
          rw [show i * 4096 + j * 256 + k * 16 + l = n by omega] at this
          exact ⟨_, t, this, rfl⟩
        · cases h
      · cases h
    · cases h
  · rintro ⟨u, t, h, rfl⟩
    cases h with
    | mk hi hj hk hl =>
      simp only [List.cons_append, getu4, and_self, if_true, hex4, (hexVal_iff _ _).2 hi, (hexVal_iff _ _).2 hj, (hexVal_iff _ _).2 hk, (hexVal_iff _ _).2 hl,
        Option.some.injEq]
      omega

theorem unit16_cons {u : Str} {n : Nat} (h : Unit16 u n) : ∃ a b c d, u = [0x5C, 0x75, a, b, c, d] := by
  cases h; exact ⟨_, _, _, _, rfl⟩

theorem fffd_eq : fffd = replacement := rfl

/-! ## The reader -/

/-- The reader understands a string as it is spelled. -/
theorem unquote_of_says {raw v : Str} (h : Says raw v) : unquote raw = v := by
  induction h with
  | nil => rfl
  | @char n w r v hw hn _ ih =>
    obtain ⟨a, l, rfl, ha⟩ := utf8_cons hw
    obtain ⟨h1, h2⟩ := head_utf8 hw r
    rw [List.cons_append, unquote_cons]
    have hs : unquoteStep a (l ++ r) = (a :: l, l.length + 1) := by
      rw [unquoteStep.eq_def, if_neg (fun e => hn (ha e)), h1, h2]; rfl
    rw [hs]
    simp only [Nat.add_sub_cancel, List.drop_left, ih]
  | @bad a r v hb _ ih =>
    have ha : a ≠ 0x5C := by
      rintro rfl
      exact hb 0x5C [0x5C] r (.one (by decide)) rfl
    rw [unquote_cons, unquoteStep.eq_def, if_neg ha, head_noChar hb]
    simp only [Chunk.clean, Chunk.src, List.length_cons, List.length_nil, Nat.zero_add, Nat.sub_self, List.drop_zero, ih]
    rfl
  | @esc c x r v hc _ ih =>
    have := (readsBack_simple ((simpleEscape_iff c x).2 hc)).unq r
    rw [show 0x5C :: c :: r = [0x5C, c] ++ r from rfl, this, ih]
    rfl
  | @uni u w r v n hu hw _ ih =>
    obtain ⟨h1, rfl⟩ := utf8_iff.1 hw
    have hg := (getu4_iff (u ++ r) n).2 ⟨u, r, hu, rfl⟩
    obtain ⟨a, b, c, d, rfl⟩ := unit16_cons hu
    have hg' : hex4 a b c d = some n := by simpa [getu4] using hg
    rw [(readsBack_u hg' (by unfold Scalar at h1; omega)).unq r, ih]
  | @pair u u' w r v p l hu hp hu' hl hw _ ih =>
    obtain ⟨_, rfl⟩ := utf8_iff.1 hw
    have hg := (getu4_iff (u ++ (u' ++ r)) _).2 ⟨u, _, hu, rfl⟩
    have hg' := (getu4_iff (u' ++ r) _).2 ⟨u', _, hu', rfl⟩
    obtain ⟨a, b, c, d, rfl⟩ := unit16_cons hu
    obtain ⟨a', b', c', d', rfl⟩ := unit16_cons hu'
    simp only [List.cons_append, List.nil_append] at hg hg' ⊢
    rw [unquote_cons]
    have hs : unquoteStep 0x5C (0x75 :: a :: b :: c :: d :: 0x5C :: 0x75 :: a' :: b' :: c' :: d' :: r) = (encodeRune (0x10000 + p * 1024 + l), 12) := by
      rw [unquoteStep, if_pos rfl]
      simp only [if_true, hg]
      rw [if_pos (by omega)]
      simp only [List.drop_succ_cons, List.drop_zero, hg']
      rw [if_pos (by omega)]
      rw [show 0xD800 + p - 0xD800 = p by omega, show 0xDC00 + l - 0xDC00 = l by omega, show p * 1024 + l + 0x10000 = 0x10000 + p * 1024 + l by omega]
    rw [hs]
    simp only [Nat.reduceSub, List.drop_succ_cons, List.drop_zero, ih]
  | @half u r v n hu h1 h2 h3 _ ih =>
    have hg := (getu4_iff (u ++ r) _).2 ⟨u, _, hu, rfl⟩
    obtain ⟨a, b, c, d, rfl⟩ := unit16_cons hu
    simp only [List.cons_append, List.nil_append] at hg ⊢
    rw [unquote_cons]
    have hs : unquoteStep 0x5C (0x75 :: a :: b :: c :: d :: r) = (fffd, 6) := by
      rw [unquoteStep, if_pos rfl]
      simp only [if_true, hg]
      rw [if_pos (by omega)]
      simp only [List.drop_succ_cons, List.drop_zero]
      split
      · rename_i m hm
        obtain ⟨u', t, hu', e⟩ := (getu4_iff _ _).1 hm
        rw [if_neg]
        · rfl
        · rintro ⟨g1, g2, g3⟩
          exact h3 ⟨g1, u', m, t, hu', e, g2, by omega⟩
      · rfl
    rw [hs]
    simp only [Nat.reduceSub, List.drop_succ_cons, List.drop_zero, ih]

/-- What follows a part without special bytes. -/
theorem quoted_rest {w t : Str} (h : Quoted (w ++ t)) (hw : ∀ b ∈ w, b ≠ 0x5C) : Quoted t := by
  induction w with
  | nil => exact h
  | cons a w ih =>
    rw [List.cons_append] at h
    generalize hs : w ++ t = s at h
    cases h with
    | plain _ _ _ h => exact ih (hs ▸ h) fun b hb => hw b (by simp [hb])
    | esc => exact absurd rfl (hw _ (by simp))
    | uni => exact absurd rfl (hw _ (by simp))

theorem utf8_bytes {n : Nat} {w : Str} (h : Utf8 n w) (hn : n ≠ 0x5C) : ∀ b ∈ w, b ≠ 0x5C := by
  intro b hb e
  subst e
  have key : ∀ k : Nat, k < 256 → (0x5C : UInt8) = UInt8.ofNat k → k = 0x5C := by
    intro k hk e
    have := congrArg UInt8.toNat e
    rw [toNat_ofNat hk] at this
    exact this.symm
  cases h with
  | one h =>
    simp only [List.mem_cons, List.not_mem_nil, or_false] at hb
    exact hn (key _ (by omega) hb)
  | two =>
    simp only [List.mem_cons, List.not_mem_nil, or_false] at hb
    rcases hb with hb | hb <;> have := key _ (by omega) hb <;> omega
  | three =>
    simp only [List.mem_cons, List.not_mem_nil, or_false] at hb
    rcases hb with hb | hb | hb <;> have := key _ (by omega) hb <;> omega
  | four =>
    simp only [List.mem_cons, List.not_mem_nil, or_false] at hb
    rcases hb with hb | hb | hb | hb <;> have := key _ (by omega) hb <;> omega

/-- Every string says something. -/
theorem says_total {raw : Str} (h : Quoted raw) : ∃ v, Says raw v := by
  have key : ∀ (k : Nat) (raw : Str), raw.length ≤ k → Quoted raw → ∃ v, Says raw v := by
    intro k
    induction k with
    | zero => intro raw hl _; simp at hl; subst hl; exact ⟨_, .nil⟩
    | succ k ih =>
      intro raw hl hq
      cases hq with
      | nil => exact ⟨_, .nil⟩
      | @plain a r h1 h2 h3 hr =>
        by_cases hc : NoChar (a :: r)
        · obtain ⟨v, hv⟩ := ih r (by simp at hl; omega) hr
          exact ⟨_, .bad hc hv⟩
        · obtain ⟨n, w, t, hw, e⟩ : ∃ n w t, Utf8 n w ∧ a :: r = w ++ t := by
            apply Classical.byContradiction
            intro hh
            exact hc fun n w t hw e => hh ⟨n, w, t, hw, e⟩
          have hn : n ≠ 0x5C := by
            rintro rfl
            obtain ⟨_, h4⟩ := utf8_iff.1 hw
            rw [h4] at e
            exact h3 (List.cons.inj e).1
          obtain ⟨b, l, rfl, _⟩ := utf8_cons hw
          have hq : Quoted t := quoted_rest (e ▸ Quoted.plain h1 h2 h3 hr) (utf8_bytes hw hn)
          obtain ⟨v, hv⟩ := ih t (by have := congrArg List.length e; simp at this hl; omega) hq
          rw [e]
          exact ⟨_, .char hw hn hv⟩
      | @esc c r hc hr =>
        obtain ⟨v, hv⟩ := ih r (by simp at hl; omega) hr
        obtain ⟨x, hx⟩ : ∃ x, Names c x := by
          have : lit "\"\\/bfnrt" = [0x22, 0x5C, 0x2F, 0x62, 0x66, 0x6E, 0x72, 0x74] := by decide
          rw [this] at hc
          simp only [List.mem_cons, List.not_mem_nil, or_false] at hc
          rcases hc with rfl | rfl | rfl | rfl | rfl | rfl | rfl | rfl
          · exact ⟨_, .quote⟩
          · exact ⟨_, .backslash⟩
          · exact ⟨_, .slash⟩
          · exact ⟨_, .b⟩
          · exact ⟨_, .f⟩
          · exact ⟨_, .n⟩
          · exact ⟨_, .r⟩
          · exact ⟨_, .t⟩
        exact ⟨_, .esc hx hv⟩
      | @uni a b c d r ha hb hc hd hr =>
        obtain ⟨i, hi⟩ := (hexChar_iff a).1 ha
        obtain ⟨j, hj⟩ := (hexChar_iff b).1 hb
        obtain ⟨p, hp⟩ := (hexChar_iff c).1 hc
        obtain ⟨q, hq⟩ := (hexChar_iff d).1 hd
        have hu := Unit16.mk hi hj hp hq
        have l1 := hexNum_lt hi
        have l2 := hexNum_lt hj
        have l3 := hexNum_lt hp
        have l4 := hexNum_lt hq
        generalize i * 4096 + j * 256 + p * 16 + q = n at hu
        have hn : n < 65536 := by cases hu with | mk x1 x2 x3 x4 => have := hexNum_lt x1; have := hexNum_lt x2; have := hexNum_lt x3; have := hexNum_lt x4; omega
        rw [show 0x5C :: 0x75 :: a :: b :: c :: d :: r = [0x5C, 0x75, a, b, c, d] ++ r from rfl]
        simp only [List.length_cons] at hl
        by_cases hs : 0xD800 ≤ n ∧ n ≤ 0xDFFF
        · by_cases hh : n < 0xDC00 ∧ ∃ u' m t, Unit16 u' m ∧ r = u' ++ t ∧ 0xDC00 ≤ m ∧ m ≤ 0xDFFF
          · obtain ⟨hlt, u', m, t, hu', rfl, hm1, hm2⟩ := hh
            obtain ⟨a', b', c', d', rfl⟩ := unit16_cons hu'
            have ht : Quoted t := by
              cases hr with
              | plain _ _ h => exact absurd rfl h
              | esc hx _ => exact absurd hx (by decide)
              | uni _ _ _ _ h => exact h
            obtain ⟨v, hv⟩ := ih t (by simp at hl; omega) ht
            have e1 : n = 0xD800 + (n - 0xD800) := by omega
            have e2 : m = 0xDC00 + (m - 0xDC00) := by omega
            rw [e1] at hu
            rw [e2] at hu'
            exact ⟨_, .pair hu (by omega) hu' (by omega) (utf8_iff.2 ⟨by unfold Scalar; omega, rfl⟩) hv⟩
          · obtain ⟨v, hv⟩ := ih r (by omega) hr
            exact ⟨_, .half hu hs.1 hs.2 hh hv⟩
        · obtain ⟨v, hv⟩ := ih r (by omega) hr
          exact ⟨_, .uni hu (utf8_iff.2 ⟨by unfold Scalar; omega, rfl⟩) hv⟩
  exact key _ raw (Nat.le_refl _) h

/-- The reader understands a string as it is spelled, and as nothing else. -/
theorem says_iff {raw : Str} (h : Quoted raw) (v : Str) : Says raw v ↔ unquote raw = v := by
  refine ⟨unquote_of_says, ?_⟩
  rintro rfl
  obtain ⟨v, hv⟩ := says_total h
  rwa [unquote_of_says hv]

theorem says_unquote {raw : Str} (h : Quoted raw) : Says raw (unquote raw) := (says_iff h _).2 rfl

/-- A string says one thing only. -/
theorem says_unique {raw v v' : Str} (h : Says raw v) (h' : Says raw v') : v = v' := by
  rw [← unquote_of_says h, unquote_of_says h']

end Json
end Verif
