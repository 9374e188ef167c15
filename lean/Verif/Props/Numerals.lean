import Verif.Props.Uid
/-!
# C100: both text forms of an ID write the same number

An ID is a number of 128 bits. Its hex form writes this number with 32 digits to the base 16, its base32 form writes the number with two
zero bits behind it with 26 digits to the base 32 (RFC 4648, section 6). The specification knows positional notation and the two lists of
digits, nothing else.
-/
set_option autoImplicit false
namespace Verif
open Verif.UID

/-- Positional notation to the base `b`, most significant digit first. -/
def numeral (b : Nat) (ds : List Nat) : Nat := ds.foldl (fun n d => n * b + d) 0

/-- The number that an ID is. -/
def UID.number (u : UID) : Nat := numeral 256 (u.bytes.map UInt8.toNat)

/-- `Writes table s n`: `s` writes the number `n`, with the given digits. -/
def Writes (table s : Str) (n : Nat) : Prop := ∃ ds : List Nat, s.map some = ds.map (fun d => table[d]?) ∧ numeral table.length ds = n

/-- The digits of the hex form. -/
def hexTable : Str := lit "0123456789abcdef"

/-- The digits of the base32 form. -/
def base32Table : Str := lit "ABCDEFGHIJKLMNOPQRSTUVWXYZ234567"

/-! ## Positional notation -/

theorem map_inj_of {α β : Type} {f : α → β} (hf : ∀ a b, f a = f b → a = b) {l l' : List α} (h : l.map f = l'.map f) : l = l' := by
  induction l generalizing l' with
  | nil => cases l' with
    | nil => rfl
    | cons => cases h
  | cons a l ih => cases l' with
    | nil => cases h
    | cons b l' =>
      obtain ⟨h1, h2⟩ := List.cons.inj h
      rw [hf a b h1, ih h2]

theorem numeral_snoc (b : Nat) (ds : List Nat) (d : Nat) : numeral b (ds ++ [d]) = numeral b ds * b + d := by
  simp [numeral]

theorem numeral_inj {b : Nat} {ds es : List Nat} (hl : ds.length = es.length) (hd : ∀ d ∈ ds, d < b) (he : ∀ d ∈ es, d < b)
    (h : numeral b ds = numeral b es) : ds = es := by
  have key : ∀ (n : Nat) (ds es : List Nat), ds.length = n → es.length = n → (∀ d ∈ ds, d < b) → (∀ d ∈ es, d < b) → numeral b ds = numeral b es → ds = es := by
    intro n
    induction n with
    | zero =>
      intro ds es h1 h2 _ _ _
      rw [List.length_eq_zero_iff.1 h1, List.length_eq_zero_iff.1 h2]
    | succ n ih =>
      intro ds es h1 h2 h3 h4 h5
      obtain ⟨x, d, rfl⟩ : ∃ x d, ds = x ++ [d] := ⟨_, _, (List.dropLast_concat_getLast (by rintro rfl; simp at h1)).symm⟩
      obtain ⟨y, e, rfl⟩ : ∃ y e, es = y ++ [e] := ⟨_, _, (List.dropLast_concat_getLast (by rintro rfl; simp at h2)).symm⟩
      have hd := h3 d (by simp)
      have he := h4 e (by simp)
      rw [numeral_snoc, numeral_snoc] at h5
      have e1 : d = e := by
        have := congrArg (· % b) h5
        simp only [Nat.mul_add_mod_self_right] at this
        rwa [Nat.mod_eq_of_lt hd, Nat.mod_eq_of_lt he] at this
      have e2 : numeral b x = numeral b y := by
        subst e1
        exact Nat.eq_of_mul_eq_mul_right (by omega) (Nat.add_right_cancel h5)
      rw [e1, ih x y (by simpa using h1) (by simpa using h2) (fun z hz => h3 z (by simp [hz])) (fun z hz => h4 z (by simp [hz])) e2]
  exact key _ ds es rfl hl.symm hd he h

theorem writes_digits {table s : Str} {ds : List Nat} (h : s.map some = ds.map (fun d => table[d]?)) :
    s.length = ds.length ∧ (∀ d ∈ ds, d < table.length) ∧ ∀ c ∈ s, c ∈ table := by
  refine ⟨by simpa using congrArg List.length h, ?_, ?_⟩
  · intro d hd
    have : table[d]? ∈ s.map some := by rw [h]; exact List.mem_map.2 ⟨d, hd, rfl⟩
    obtain ⟨c, _, hc⟩ := List.mem_map.1 this
    exact (List.getElem?_eq_some_iff.1 hc.symm).1
  · intro c hc
    have : some c ∈ ds.map (fun d => table[d]?) := by rw [← h]; exact List.mem_map.2 ⟨c, hc, rfl⟩
    obtain ⟨d, _, hd⟩ := List.mem_map.1 this
    exact List.mem_of_getElem? hd

/-- A number has one text of each length. -/
theorem writes_inj {table s s' : Str} {n : Nat} (h : Writes table s n) (h' : Writes table s' n) (hl : s.length = s'.length) : s = s' := by
  obtain ⟨ds, h1, h2⟩ := h
  obtain ⟨es, h3, h4⟩ := h'
  obtain ⟨l1, b1, _⟩ := writes_digits h1
  obtain ⟨l2, b2, _⟩ := writes_digits h3
  have := numeral_inj (by omega) b1 b2 (h2.trans h4.symm)
  rw [this, ← h3] at h1
  exact map_inj_of (fun _ _ => Option.some.inj) h1

theorem digits_unique {table : Str} (hn : table.Nodup) {ds es : List Nat} (h : ds.map (fun d => table[d]?) = es.map (fun d => table[d]?))
    (hd : ∀ d ∈ ds, d < table.length) : ds = es := by
  induction ds generalizing es with
  | nil => cases es with
    | nil => rfl
    | cons => cases h
  | cons a ds ih => cases es with
    | nil => cases h
    | cons b es =>
      rw [List.map_cons, List.map_cons] at h
      obtain ⟨h1, h2⟩ := List.cons.inj h
      rw [(List.getElem?_inj (hd a (by simp)) hn).1 h1, ih h2 fun d hm => hd d (by simp [hm])]

/-- A text writes one number. -/
theorem writes_unique {table s : Str} {n n' : Nat} (hn : table.Nodup) (h : Writes table s n) (h' : Writes table s n') : n = n' := by
  obtain ⟨ds, h1, h2⟩ := h
  obtain ⟨es, h3, h4⟩ := h'
  rw [← h2, ← h4, digits_unique hn (h1.symm.trans h3) (writes_digits h1).2.1]

/-- Every text of digits writes a number. -/
theorem writes_total {table s : Str} (h : ∀ c ∈ s, c ∈ table) : ∃ n, Writes table s n := by
  have : ∃ ds : List Nat, s.map some = ds.map (fun d => table[d]?) := by
    induction s with
    | nil => exact ⟨[], rfl⟩
    | cons c s ih =>
      obtain ⟨ds, hd⟩ := ih fun x hx => h x (by simp [hx])
      obtain ⟨i, hi⟩ := List.getElem?_of_mem (h c (by simp))
      exact ⟨i :: ds, by rw [List.map_cons, List.map_cons, hd, hi]⟩
  obtain ⟨ds, hd⟩ := this
  exact ⟨_, ds, hd, rfl⟩

theorem number_inj {u v : UID} (h : u.number = v.number) : u = v := by
  apply UID.ext'
  have := numeral_inj (by simp [u.len, v.len]) (UID.natBytes_lt u) (UID.natBytes_lt v) h
  exact map_inj_of (fun _ _ => UInt8.toNat_inj.1) this

/-! ## Hex -/

/-- The digits of the hex form. -/
def nibbles : Str → List Nat
  | [] => []
  | b :: bs => b.toNat / 16 :: b.toNat % 16 :: nibbles bs

theorem hex_digit_table {n : Nat} (h : n < 16) : some (Hex.digit n) = hexTable[n]? := by
  have : ∀ k : Fin 16, some (Hex.digit k.val) = hexTable[k.val]? := by decide
  exact this ⟨n, h⟩

theorem encode_nibbles (s : Str) : (Hex.encode s).map some = (nibbles s).map (fun d => hexTable[d]?) := by
  induction s with
  | nil => rfl
  | cons b bs ih =>
    have := b.toNat_lt
    rw [Hex.encode, nibbles, List.map_cons, List.map_cons, List.map_cons, List.map_cons, ih, hex_digit_table (by omega), hex_digit_table (by omega)]

theorem fold_nibbles (s : Str) (n : Nat) : (nibbles s).foldl (fun n d => n * 16 + d) n = (s.map UInt8.toNat).foldl (fun n d => n * 256 + d) n := by
  induction s generalizing n with
  | nil => rfl
  | cons b bs ih =>
    simp only [nibbles, List.foldl_cons, List.map_cons]
    rw [ih, show (n * 16 + b.toNat / 16) * 16 + b.toNat % 16 = n * 256 + b.toNat by omega]

/-- **C100.** The hex form writes the number of the ID with 32 digits. -/
theorem C100_hex (u : UID) : u.hex.length = 32 ∧ Writes hexTable u.hex u.number :=
  ⟨C01_hex_length u, nibbles u.bytes, encode_nibbles u.bytes, fold_nibbles u.bytes 0⟩

/-- **C100.** It is the only text of 32 lower-case hex digits for this number. -/
theorem C100_hex_unique {u : UID} {s : Str} (hl : s.length = 32) (h : Writes hexTable s u.number) : s = u.hex :=
  writes_inj h (C100_hex u).2 (by rw [hl, (C100_hex u).1])

/-! ## Base32 -/

theorem base32_alpha_table {n : Nat} (h : n < 32) : some (Base32.alpha n) = base32Table[n]? := by
  have : ∀ k : Fin 32, some (Base32.alpha k.val) = base32Table[k.val]? := by decide
  exact this ⟨n, h⟩

theorem fold_groups {a b c d e : Nat} (n : Nat) (_ : a < 256) (_ : b < 256) (_ : c < 256) (_ : d < 256) (_ : e < 256) :
    (Base32.groups a b c d e).foldl (fun n d => n * 32 + d) n = [a, b, c, d, e].foldl (fun n d => n * 256 + d) n := by
  simp only [Base32.groups, List.foldl_cons, List.foldl_nil]
  omega

theorem number_quintets (u : UID) : numeral 32 (Base32.quintets (u.bytes.map UInt8.toNat)) = u.number * 4 := by
  have hlt := UID.natBytes_lt u
  unfold UID.number
  generalize hx : u.bytes.map UInt8.toNat = x at hlt
  obtain ⟨a0, a1, a2, a3, a4, b0, b1, b2, b3, b4, c0, c1, c2, c3, c4, d, rfl, hq⟩ := quintets16 x (by rw [← hx]; simp [u.len])
  have h : ∀ k : Nat, k ∈ [a0, a1, a2, a3, a4, b0, b1, b2, b3, b4, c0, c1, c2, c3, c4, d] → k < 256 := hlt
  unfold numeral
  rw [hq, List.foldl_append, List.foldl_append, List.foldl_append,
    fold_groups 0 (h _ (by simp)) (h _ (by simp)) (h _ (by simp)) (h _ (by simp)) (h _ (by simp)),
    fold_groups _ (h _ (by simp)) (h _ (by simp)) (h _ (by simp)) (h _ (by simp)) (h _ (by simp)),
    fold_groups _ (h _ (by simp)) (h _ (by simp)) (h _ (by simp)) (h _ (by simp)) (h _ (by simp)),
    show [a0, a1, a2, a3, a4, b0, b1, b2, b3, b4, c0, c1, c2, c3, c4, d] = [a0, a1, a2, a3, a4] ++ ([b0, b1, b2, b3, b4] ++ ([c0, c1, c2, c3, c4] ++ [d])) from rfl,
    List.foldl_append, List.foldl_append, List.foldl_append]
  generalize [c0, c1, c2, c3, c4].foldl _ _ = m
  have hd := h d (by simp)
  simp only [Base32.groups, List.take_succ_cons, List.take_zero, List.foldl_cons, List.foldl_nil]
  omega

/-- **C100.** The base32 form writes the number of the ID, with two zero bits behind it, with 26 digits. -/
theorem C100_base32 (u : UID) : u.base32.length = 26 ∧ Writes base32Table u.base32 (u.number * 4) := by
  refine ⟨C02_base32_length u, Base32.quintets (u.bytes.map UInt8.toNat), ?_, number_quintets u⟩
  unfold UID.base32 Base32.encode
  rw [List.map_map]
  apply List.map_congr_left
  intro q hq
  exact base32_alpha_table (quintets_uid_lt u q hq)

/-- **C100.** It is the only text of 26 base32 digits for this number. -/
theorem C100_base32_unique {u : UID} {s : Str} (hl : s.length = 26) (h : Writes base32Table s (u.number * 4)) : s = u.base32 :=
  writes_inj h (C100_base32 u).2 (by rw [hl, (C100_base32 u).1])

/-- **C100.** The printed form of an ID is its hex form and then its base32 form in parentheses. -/
theorem C100_string (u : UID) (s : Str) : s = u.string ↔
    ∃ a b, s = a ++ lit "(" ++ b ++ lit ")" ∧ a.length = 32 ∧ Writes hexTable a u.number ∧ b.length = 26 ∧ Writes base32Table b (u.number * 4) := by
  constructor
  · rintro rfl
    exact ⟨u.hex, u.base32, rfl, (C100_hex u).1, (C100_hex u).2, (C100_base32 u).1, (C100_base32 u).2⟩
  · rintro ⟨a, b, rfl, h1, h2, h3, h4⟩
    rw [C100_hex_unique h1 h2, C100_base32_unique h3 h4]
    rfl

/-! ## Reading -/

set_option maxRecDepth 10000 in
theorem lower_table (c : UInt8) : Hex.lower c ∈ hexTable ↔ c ∈ hexChars := by
  have : ∀ k : Fin 256, Hex.lower (UInt8.ofNat k.val) ∈ hexTable ↔ UInt8.ofNat k.val ∈ hexChars := by decide
  have h := this ⟨c.toNat, c.toNat_lt⟩
  simpa using h

/-- **C100.** The hex decoder accepts the texts of 32 hex digits of either case and gives the number they write. -/
theorem C100_read_hex (s : Str) (u : UID) : decodeHex s = .ok u ↔ s.length = 32 ∧ Writes hexTable (s.map Hex.lower) u.number := by
  rw [C04_hex_decode_iff]
  constructor
  · rintro ⟨h1, _, h3⟩
    exact ⟨h1, h3 ▸ (C100_hex u).2⟩
  · rintro ⟨h1, h2⟩
    refine ⟨h1, ?_, (C100_hex_unique (by simpa using h1) h2).symm⟩
    intro c hc
    obtain ⟨ds, h3, _⟩ := h2
    exact (lower_table c).1 ((writes_digits h3).2.2 _ (List.mem_map.2 ⟨c, hc, rfl⟩))

theorem writes_snoc {table s : Str} {c : UInt8} {n : Nat} : Writes table (s ++ [c]) n ↔ ∃ m d, Writes table s m ∧ table[d]? = some c ∧ n = m * table.length + d := by
  constructor
  · rintro ⟨ds, h1, h2⟩
    have hl := (writes_digits h1).1
    obtain ⟨x, d, rfl⟩ : ∃ x d, ds = x ++ [d] := ⟨_, _, (List.dropLast_concat_getLast (by rintro rfl; simp at hl)).symm⟩
    rw [List.map_append, List.map_append] at h1
    obtain ⟨h3, h4⟩ := List.append_inj h1 (by simp at hl ⊢; omega)
    exact ⟨_, d, ⟨x, h3, rfl⟩, by simpa using h4.symm, by rw [← h2, numeral_snoc]⟩
  · rintro ⟨m, d, ⟨ds, h1, h2⟩, h3, rfl⟩
    exact ⟨ds ++ [d], by rw [List.map_append, List.map_append, h1]; simp [h3], by rw [numeral_snoc, h2]⟩

set_option maxRecDepth 10000 in
theorem canonLast_table {d : Nat} {c : UInt8} (h : base32Table[d]? = some c) : base32Table[d / 4 * 4]? = some (canonLast c) := by
  have key : ∀ k : Fin 32, base32Table[k.val / 4 * 4]? = (base32Table[k.val]?).map canonLast := by decide
  obtain ⟨hd, _⟩ := List.getElem?_eq_some_iff.1 h
  have := key ⟨d, hd⟩
  rw [h] at this
  exact this

/-- **C100.** The base32 decoder, where it gives an ID, gives the number that the text of 26 digits writes without its last two bits, whatever
these are. -/
theorem C100_read_base32 (s : Str) (u : UID) : decodeBase32 s = .ok u ↔ s.length = 26 ∧ ∃ n, Writes base32Table s n ∧ n / 4 = u.number := by
  have canon : ∀ n, s.length = 26 → Writes base32Table s n → Writes base32Table (s.take 25 ++ [canonLast (s.getD 25 0)]) (n / 4 * 4) := by
    intro n hl hw
    have hs : s = s.take 25 ++ [s.getD 25 0] := by
      have h1 := List.take_append_drop 25 s
      have h2 : s.drop 25 = [s.getD 25 0] := by
        rw [List.drop_eq_getElem_cons (by omega), List.drop_eq_nil_of_le (by omega), List.getD_eq_getElem?_getD, List.getElem?_eq_getElem (by omega)]
        rfl
      rw [h2] at h1
      exact h1.symm
    rw [hs] at hw
    obtain ⟨m, d, h1, h2, h3⟩ := writes_snoc.1 hw
    refine writes_snoc.2 ⟨m, d / 4 * 4, h1, canonLast_table h2, ?_⟩
    have : base32Table.length = 32 := rfl
    rw [this] at h3 ⊢
    omega
  rw [C05_base32_decode_iff]
  constructor
  · rintro ⟨h1, h2, h3⟩
    refine ⟨h1, ?_⟩
    obtain ⟨n, hn⟩ := writes_total (table := base32Table) h2
    refine ⟨n, hn, ?_⟩
    have h4 := canon n h1 hn
    rw [← h3] at h4
    have := writes_unique (by decide) h4 (C100_base32 u).2
    omega
  · rintro ⟨h1, n, h2, h3⟩
    refine ⟨h1, ?_, ?_⟩
    · obtain ⟨ds, h4, _⟩ := h2
      exact (writes_digits h4).2.2
    · have h4 := canon n h1 h2
      rw [h3] at h4
      exact (C100_base32_unique (by simp; omega) h4).symm

/-- The number of the sample ID, and its two texts. -/
example : UID.sample.number = 0x000102030405060708090a0b0c0d0e0f ∧ UID.sample.hex = lit "000102030405060708090a0b0c0d0e0f" ∧
    UID.sample.base32 = lit "AAAQEAYEAUDAOCAJBIFQYDIOB4" := by decide

/-- Four texts are read as the sample ID, and one of another case. -/
example : decodeBase32 (lit "AAAQEAYEAUDAOCAJBIFQYDIOB7") = .ok UID.sample ∧ decodeHex (lit "000102030405060708090A0B0C0D0E0F") = .ok UID.sample := by decide

end Verif
