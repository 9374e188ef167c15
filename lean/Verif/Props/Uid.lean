import Verif.Uid
import Verif.Go.Base32Lemmas
/-!
# C01–C07: 128-bit IDs

The statements use only the public operations of `pkg/utils/uid` (`hex`, `base32`, `string`, the decoders, the
constructors) and literal alphabets.
-/
set_option autoImplicit false
namespace Verif
open Verif.UID

/-- Some ID used in the examples: bytes 0..15. -/
def UID.sample : UID := ⟨[0, 1, 2, 3, 4, 5, 6, 7, 8, 9, 10, 11, 12, 13, 14, 15], rfl⟩

theorem UID.ofSlice_bytes {ε : Type} (u : UID) : (ofSlice u.bytes : Res ε UID) = .ok u := by
  have h := u.len
  unfold ofSlice
  rw [dif_pos (by omega)]
  congr 1
  apply UID.ext'
  simp [List.take_of_length_le (Nat.le_of_eq h)]

/-! ## C01 -/

theorem C01_hex_length (u : UID) : u.hex.length = 32 := by
  simp [UID.hex, Hex.encode_length, u.len]

theorem hexdigit_mem {n : Nat} (h : n < 16) : Hex.digit n ∈ lit "0123456789abcdef" := by
  have : ∀ k : Fin 16, Hex.digit k.val ∈ lit "0123456789abcdef" := by decide
  exact this ⟨n, h⟩

theorem C01_hex_alphabet (u : UID) : ∀ c ∈ u.hex, c ∈ lit "0123456789abcdef" := by
  have : ∀ s : Str, ∀ c ∈ Hex.encode s, c ∈ lit "0123456789abcdef" := by
    intro s
    induction s with
    | nil => simp [Hex.encode]
    | cons b bs ih =>
      intro c hc
      simp only [Hex.encode, List.mem_cons] at hc
      have := b.toNat_lt
      rcases hc with rfl | rfl | hc
      · exact hexdigit_mem (by omega)
      · exact hexdigit_mem (by omega)
      · exact ih c hc
  exact this u.bytes

/-- **C01.** Decoding the hex form of an ID gives the ID back. -/
theorem C01_hex_roundtrip (u : UID) : decodeHex u.hex = .ok u := by
  unfold decodeHex
  rw [if_neg (by simp [C01_hex_length])]
  simp [UID.hex, Hex.decode_encode, ofSlice_bytes]

example : UID.sample.hex = lit "000102030405060708090a0b0c0d0e0f" := by decide

/-! ## C02 -/

theorem quintets16 (x : List Nat) (h : x.length = 16) :
    ∃ a0 a1 a2 a3 a4 b0 b1 b2 b3 b4 c0 c1 c2 c3 c4 d,
      x = [a0, a1, a2, a3, a4, b0, b1, b2, b3, b4, c0, c1, c2, c3, c4, d] ∧
      Base32.quintets x = Base32.groups a0 a1 a2 a3 a4 ++ (Base32.groups b0 b1 b2 b3 b4 ++
        (Base32.groups c0 c1 c2 c3 c4 ++ (Base32.groups d 0 0 0 0).take 2)) := by
  match x, h with
  | [a0, a1, a2, a3, a4, b0, b1, b2, b3, b4, c0, c1, c2, c3, c4, d], _ =>
    exact ⟨a0, a1, a2, a3, a4, b0, b1, b2, b3, b4, c0, c1, c2, c3, c4, d, rfl, rfl⟩

theorem UID.natBytes_lt (u : UID) : ∀ x ∈ u.bytes.map UInt8.toNat, x < 256 := by
  intro x hx
  simp only [List.mem_map] at hx
  obtain ⟨b, _, rfl⟩ := hx
  exact b.toNat_lt

theorem C02_base32_length (u : UID) : u.base32.length = 26 := by
  obtain ⟨a0, a1, a2, a3, a4, b0, b1, b2, b3, b4, c0, c1, c2, c3, c4, d, h, hq⟩ :=
    quintets16 (u.bytes.map UInt8.toNat) (by simp [u.len])
  simp [UID.base32, Base32.encode, hq, Base32.groups]

theorem quintets_uid_lt (u : UID) : ∀ q ∈ Base32.quintets (u.bytes.map UInt8.toNat), q < 32 := by
  obtain ⟨a0, a1, a2, a3, a4, b0, b1, b2, b3, b4, c0, c1, c2, c3, c4, d, h, hq⟩ :=
    quintets16 (u.bytes.map UInt8.toNat) (by simp [u.len])
  have hlt := u.natBytes_lt
  rw [h] at hlt
  simp only [List.mem_cons, List.not_mem_nil, or_false, forall_eq_or_imp, forall_eq] at hlt
  rw [hq]
  intro q hm
  simp only [List.mem_append] at hm
  rcases hm with hm | hm | hm | hm
  · exact Base32.groups_lt (by omega) (by omega) (by omega) (by omega) (by omega) q hm
  · exact Base32.groups_lt (by omega) (by omega) (by omega) (by omega) (by omega) q hm
  · exact Base32.groups_lt (by omega) (by omega) (by omega) (by omega) (by omega) q hm
  · exact Base32.groups_lt (a := d) (b := 0) (c := 0) (d := 0) (e := 0) (by omega) (by omega) (by omega)
      (by omega) (by omega) q (List.mem_of_mem_take hm)

theorem C02_base32_alphabet (u : UID) :
    ∀ c ∈ u.base32, c ∈ lit "ABCDEFGHIJKLMNOPQRSTUVWXYZ234567" := by
  have : ∀ k : Fin 32, Base32.alpha k.val ∈ lit "ABCDEFGHIJKLMNOPQRSTUVWXYZ234567" := by decide
  intro c hc
  simp only [UID.base32, Base32.encode, List.mem_map] at hc
  obtain ⟨q, hq, rfl⟩ := hc
  exact this ⟨q, quintets_uid_lt u q hq⟩

/-- **C02.** Decoding the base32 form of an ID gives the ID back. -/
theorem C02_base32_roundtrip (u : UID) : decodeBase32 u.base32 = .ok u := by
  unfold decodeBase32
  rw [if_neg (by simp [C02_base32_length])]
  have hv : Base32.vals u.base32 = some (Base32.quintets (u.bytes.map UInt8.toNat)) :=
    Base32.vals_map (quintets_uid_lt u)
  have hdec : Base32.decode u.base32 = some u.bytes := by
    unfold Base32.decode
    rw [Base32.stripNewlines_vals hv, C02_base32_length]
    obtain ⟨a0, a1, a2, a3, a4, b0, b1, b2, b3, b4, c0, c1, c2, c3, c4, d, h, hq⟩ :=
      quintets16 (u.bytes.map UInt8.toNat) (by simp [u.len])
    have hlt := u.natBytes_lt
    rw [h] at hlt
    simp only [List.mem_cons, List.not_mem_nil, or_false, forall_eq_or_imp, forall_eq] at hlt
    obtain ⟨l1, l2, l3, l4, l5, l6, l7, l8, l9, l10, l11, l12, l13, l14, l15, l16⟩ := hlt
    have hb : u.base32 = (Base32.groups a0 a1 a2 a3 a4).map Base32.alpha ++
        ((Base32.groups b0 b1 b2 b3 b4).map Base32.alpha ++
        ((Base32.groups c0 c1 c2 c3 c4).map Base32.alpha ++ ((Base32.groups d 0 0 0 0).take 2).map Base32.alpha)) := by
      rw [UID.base32, Base32.encode, hq]; simp only [List.map_append]
    have hz : (0 : Nat) < 256 := by decide
    have hd := Base32.groups_lt l16 hz hz hz hz
    rw [hb, Base32.decodeLoop_full 25 (Base32.vals_map (Base32.groups_lt l1 l2 l3 l4 l5)) rfl,
      Base32.decodeLoop_full 24 (Base32.vals_map (Base32.groups_lt l6 l7 l8 l9 l10)) rfl,
      Base32.decodeLoop_full 23 (Base32.vals_map (Base32.groups_lt l11 l12 l13 l14 l15)) rfl,
      Base32.decodeLoop_short 22 (Base32.vals_map (fun q hm => hd q (List.mem_of_mem_take hm)))
        (by simp [Base32.groups]) (by simp [Base32.groups]),
      Base32.pack_groups l1 l2 l3 l4 l5, Base32.pack_groups l6 l7 l8 l9 l10,
      Base32.pack_groups l11 l12 l13 l14 l15, Base32.pack_two l16]
    have hbytes : u.bytes = (u.bytes.map UInt8.toNat).map UInt8.ofNat := by
      rw [List.map_map]
      have : (UInt8.ofNat ∘ UInt8.toNat) = id := by
        funext b; simp
      rw [this, List.map_id]
    rw [hbytes, h]
    rfl
  simp [hdec, ofSlice_bytes]

example : UID.sample.base32 = lit "AAAQEAYEAUDAOCAJBIFQYDIOB4" := by decide

/-! ## C03 -/

/-- **C03.** The hex form determines the ID. -/
theorem C03_hex_injective {u v : UID} (h : u.hex = v.hex) : u = v := by
  have h1 := C01_hex_roundtrip u
  rw [h, C01_hex_roundtrip v] at h1
  simpa using h1.symm

/-- **C03.** The base32 form determines the ID. -/
theorem C03_base32_injective {u v : UID} (h : u.base32 = v.base32) : u = v := by
  have h1 := C02_base32_roundtrip u
  rw [h, C02_base32_roundtrip v] at h1
  simpa using h1.symm

/-- **C03.** The printed form determines the ID. -/
theorem C03_string_injective {u v : UID} (h : u.string = v.string) : u = v := by
  apply C03_hex_injective
  have h1 := congrArg (List.take 32) h
  simp only [UID.string, List.append_assoc] at h1
  rwa [List.take_left' (C01_hex_length u), List.take_left' (C01_hex_length v)] at h1

/-- A hex form is never a base32 form: directory names and index keys live in disjoint sets. -/
theorem C03_hex_ne_base32 (u v : UID) : u.hex ≠ v.base32 := by
  intro h
  have := congrArg List.length h
  simp [C01_hex_length, C02_base32_length] at this

example : UID.sample.hex ≠ (UID.new 0 0).hex := by decide

/-! ## C04 -/

/-- Specification: the characters a hex text may have. -/
def hexChars : Str := lit "0123456789abcdefABCDEF"

set_option maxRecDepth 10000 in
theorem nibble_isSome_iff (c : UInt8) : (Hex.nibble c).isSome ↔ c ∈ hexChars := by
  have : ∀ k : Fin 256, (Hex.nibble (UInt8.ofNat k.val)).isSome ↔ UInt8.ofNat k.val ∈ hexChars := by decide
  have h := this ⟨c.toNat, c.toNat_lt⟩
  simpa using h

/-- **C04.** `DecodeUID128FromHex` returns an ID exactly on the texts of 32 hex digits of either case, and that ID is
the one whose hex form is the lower-cased text. -/
theorem C04_hex_decode_iff (s : Str) (u : UID) :
    decodeHex s = .ok u ↔ s.length = 32 ∧ (∀ c ∈ s, c ∈ hexChars) ∧ u.hex = s.map Hex.lower := by
  constructor
  · intro h
    unfold decodeHex at h
    split at h
    · simp at h
    · rename_i hl
      split at h
      · simp at h
      · rename_i b hb
        have hlen := Hex.decode_length hb
        have hu : u.bytes = b := by
          unfold ofSlice at h
          rw [dif_pos (by omega)] at h
          simp at h
          rw [← h]
          exact List.take_of_length_le (by omega)
        refine ⟨by omega, fun c hc => (nibble_isSome_iff c).1 (Hex.nibble_of_decode hb c hc), ?_⟩
        rw [UID.hex, hu, Hex.encode_decode hb]
  · rintro ⟨hl, hc, hu⟩
    have hs := Hex.decode_isSome (s := s) (by omega) (fun c h => (nibble_isSome_iff c).2 (hc c h))
    obtain ⟨b, hb⟩ := Option.isSome_iff_exists.1 hs
    have hlen := Hex.decode_length hb
    have h1 := Hex.encode_decode hb
    rw [← hu] at h1
    have : b = u.bytes := by
      have h2 := Hex.decode_encode b
      rw [h1, UID.hex, Hex.decode_encode] at h2
      simpa using h2.symm
    unfold decodeHex
    rw [if_neg (by omega), hb, this]
    exact ofSlice_bytes u

/-- **C04.** On every text, decoding gives an ID or an error; it never panics. -/
theorem C04_hex_decode_total (s : Str) : (∃ u, decodeHex s = .ok u) ∨ (∃ e, decodeHex s = .err e) := by
  unfold decodeHex
  split
  · exact Or.inr ⟨_, rfl⟩
  · split
    · exact Or.inr ⟨_, rfl⟩
    · rename_i hl b hb
      have := Hex.decode_length hb
      refine Or.inl ⟨⟨b.take 16, by simp; omega⟩, ?_⟩
      unfold ofSlice
      rw [dif_pos (by omega)]

example : decodeHex (lit "000102030405060708090A0b0C0d0E0f") = .ok UID.sample := by decide
example : decodeHex (lit "000102030405060708090A0b0C0d0E0g") = .err .corrupt := by decide

/-! ## C05 -/

/-- Specification: the characters a base32 text may have. -/
def base32Chars : Str := lit "ABCDEFGHIJKLMNOPQRSTUVWXYZ234567"

set_option maxRecDepth 10000 in
theorem value_isSome_iff (c : UInt8) : (Base32.value c).isSome ↔ c ∈ base32Chars := by
  have : ∀ k : Fin 256, (Base32.value (UInt8.ofNat k.val)).isSome ↔ UInt8.ofNat k.val ∈ base32Chars := by decide
  have h := this ⟨c.toNat, c.toNat_lt⟩
  simpa using h

theorem vals_isSome_iff (s : Str) : (Base32.vals s).isSome ↔ ∀ c ∈ s, c ∈ base32Chars := by
  induction s with
  | nil => simp [Base32.vals]
  | cons c cs ih =>
    simp only [Base32.vals, List.mem_cons, forall_eq_or_imp, ← value_isSome_iff c, ← ih]
    cases Base32.value c <;> cases Base32.vals cs <;> simp

/-- Decoding 26 characters: what the bytes are when at least 16 come out. -/
theorem base32_decode_26 {s b : Str} (hl : s.length = 26) (hd : Base32.decode s = some b) (hb : 16 ≤ b.length) :
    ∃ q1 q2 q3 x y, Base32.vals s = some (q1 ++ (q2 ++ (q3 ++ [x, y]))) ∧
      q1.length = 8 ∧ q2.length = 8 ∧ q3.length = 8 ∧
      b = (Base32.pack q1 ++ (Base32.pack q2 ++ (Base32.pack q3 ++ Base32.pack [x, y]))).map UInt8.ofNat := by
  unfold Base32.decode at hd
  cases ho : Base32.decodeLoop s.length (Base32.stripNewlines s) with
  | none => simp [ho] at hd
  | some o =>
    simp only [ho, Option.map_some, Option.some.injEq] at hd
    subst hd
    simp only [List.length_map] at hb
    have hbound := Base32.decodeLoop_bound ho
    have hsl : (Base32.stripNewlines s).length ≤ s.length := List.length_filter_le _ _
    have hst : Base32.stripNewlines s = s :=
      (List.filter_sublist : (Base32.stripNewlines s).Sublist s).eq_of_length
        (show (Base32.stripNewlines s).length = s.length by omega)
    rw [hst, hl] at ho
    obtain ⟨x1, q1, r1, o1, hv1, hq1, hs1, hd1, ho1⟩ := Base32.decodeLoop_step (by omega) ho
    have hx1 := Base32.vals_length hv1
    have hr1 : r1.length = 18 := by rw [hs1] at hl; simp only [List.length_append] at hl; omega
    obtain ⟨x2, q2, r2, o2, hv2, hq2, hs2, hd2, ho2⟩ := Base32.decodeLoop_step (by omega) hd1
    have hx2 := Base32.vals_length hv2
    have hr2 : r2.length = 10 := by rw [hs2] at hr1; simp only [List.length_append] at hr1; omega
    have hp1 := (Base32.pack_length_le q1).1
    have hp2 := (Base32.pack_length_le q2).1
    have ho2' : 6 ≤ o2.length := by
      rw [ho1, ho2] at hb; simp only [List.length_append] at hb; omega
    obtain ⟨q3, x, y, hv3, hq3, ho3⟩ := Base32.decodeLoop_ten hr2 hd2 ho2'
    refine ⟨q1, q2, q3, x, y, ?_, hq1, hq2, hq3, ?_⟩
    · rw [hs1, hs2]
      exact Base32.vals_append hv1 (Base32.vals_append hv2 hv3)
    · rw [ho1, ho2, ho3]

theorem map_toNat_ofNat {l : List Nat} (h : ∀ x ∈ l, x < 256) : (l.map UInt8.ofNat).map UInt8.toNat = l := by
  rw [List.map_map]
  conv => rhs; rw [← List.map_id l]
  apply List.map_congr_left
  intro x hx
  simp [Function.comp]
  have := h x hx; omega

/-- Specification: the last character of a 26-character text carries three bits only, so the characters `ABCD`, `EFGH`,
... `4567` are four spellings of the same thing; this is the first of the four. -/
def canonLast (c : UInt8) : UInt8 := base32Chars.getD (base32Chars.idxOf c / 4 * 4) 0

theorem canonLast_alpha {y : Nat} (h : y < 32) : canonLast (Base32.alpha y) = Base32.alpha (y / 4 * 4) := by
  have : ∀ k : Fin 32, canonLast (Base32.alpha k.val) = Base32.alpha (k.val / 4 * 4) := by decide
  exact this ⟨y, h⟩

/-- **C05**, soundness: `DecodeUID128FromBase32` returns an ID only for texts of 26 characters of the alphabet, and that
ID's base32 form agrees with the text except for the unused bits of the last character. -/
theorem C05_base32_decode_sound {s : Str} {u : UID} (h : decodeBase32 s = .ok u) :
    s.length = 26 ∧ (∀ c ∈ s, c ∈ base32Chars) ∧ u.base32 = s.take 25 ++ [canonLast (s.getD 25 0)] := by
  unfold decodeBase32 at h
  split at h
  · simp at h
  · rename_i hl
    have hl : s.length = 26 := by omega
    split at h
    · simp at h
    · rename_i b hb
      unfold ofSlice at h
      split at h
      · rename_i h16
        obtain ⟨q1, q2, q3, x, y, hv, h1, h2, h3, hbb⟩ := base32_decode_26 hl hb h16
        refine ⟨hl, (vals_isSome_iff s).1 (by simp [hv]), ?_⟩
        obtain ⟨hs, hlt⟩ := Base32.vals_spec hv
        simp only [List.mem_append] at hlt
        obtain ⟨a1, a2, a3, a4, a5, l1, l2, l3, l4, l5, p1, g1⟩ :=
          Base32.groups_pack h1 (fun x hx => hlt x (Or.inl hx))
        obtain ⟨b1, b2, b3, b4, b5, m1, m2, m3, m4, m5, p2, g2⟩ :=
          Base32.groups_pack h2 (fun x hx => hlt x (Or.inr (Or.inl hx)))
        obtain ⟨c1, c2, c3, c4, c5, n1, n2, n3, n4, n5, p3, g3⟩ :=
          Base32.groups_pack h3 (fun x hx => hlt x (Or.inr (Or.inr (Or.inl hx))))
        have hx : x < 32 := hlt x (by simp)
        have hy : y < 32 := hlt y (by simp)
        have pxy : Base32.pack [x, y] = [x * 8 + y / 4] := by
          simp [Base32.pack]; omega
        rw [p1, p2, p3, pxy] at hbb
        have hu : u.bytes = b := by
          simp only [Res.ok.injEq] at h
          rw [← h]
          apply List.take_of_length_le
          rw [hbb]; simp
        have hn : u.bytes.map UInt8.toNat = [a1, a2, a3, a4, a5] ++ ([b1, b2, b3, b4, b5] ++
            ([c1, c2, c3, c4, c5] ++ [x * 8 + y / 4])) := by
          rw [hu, hbb]
          apply map_toNat_ofNat
          intro z hz
          simp only [List.mem_append, List.mem_cons, List.not_mem_nil, or_false] at hz
          omega
        have he : u.base32 = (q1 ++ (q2 ++ (q3 ++ [x, y / 4 * 4]))).map Base32.alpha := by
          rw [UID.base32, Base32.encode, hn]
          congr 1
          simp only [List.cons_append, List.nil_append, Base32.quintets, g1, g2, g3]
          congr 3
          simp only [Base32.groups, List.take, List.cons.injEq, and_true]
          omega
        have hlen : ((q1 ++ (q2 ++ q3)).map Base32.alpha).length = 24 := by simp [h1, h2, h3]
        have hs' : s = (q1 ++ (q2 ++ q3)).map Base32.alpha ++ [Base32.alpha x, Base32.alpha y] := by
          rw [hs]; simp
        have he' : u.base32 = (q1 ++ (q2 ++ q3)).map Base32.alpha ++ [Base32.alpha x, Base32.alpha (y / 4 * 4)] := by
          rw [he]; simp
        rw [he', hs']
        generalize (q1 ++ (q2 ++ q3)).map Base32.alpha = pre at hlen
        rw [List.take_append, List.getD_eq_getElem?_getD, List.getElem?_append_right (by omega), hlen,
          List.take_of_length_le (by omega)]
        simp [canonLast_alpha hy]
      · simp at h

/-- **C05**, completeness: every text of 26 characters of the alphabet denotes an ID. -/
theorem C05_base32_decode_complete {s : Str} (hl : s.length = 26) (hc : ∀ c ∈ s, c ∈ base32Chars) :
    ∃ u, decodeBase32 s = .ok u := by
  obtain ⟨v, hv⟩ := Option.isSome_iff_exists.1 ((vals_isSome_iff s).2 hc)
  have hvl := Base32.vals_length hv
  obtain ⟨hs, hlt⟩ := Base32.vals_spec hv
  have hsplit : v = v.take 8 ++ ((v.drop 8).take 8 ++ ((v.drop 16).take 8 ++ v.drop 24)) := by
    have e1 := List.take_append_drop 8 v
    have e2 := List.take_append_drop 8 (v.drop 8)
    have e3 := List.take_append_drop 8 (v.drop 16)
    rw [List.drop_drop] at e2 e3
    rw [e3, e2, e1]
  have hval : ∀ w : List Nat, (∀ x ∈ w, x ∈ v) → Base32.vals (w.map Base32.alpha) = some w :=
    fun w hw => Base32.vals_map fun x hx => hlt x (hw x hx)
  have hdec : Base32.decodeLoop 26 s = some (Base32.pack (v.take 8) ++ (Base32.pack ((v.drop 8).take 8) ++
      (Base32.pack ((v.drop 16).take 8) ++ Base32.pack (v.drop 24)))) := by
    rw [hs]
    conv => lhs; rw [hsplit]
    simp only [List.map_append]
    rw [Base32.decodeLoop_full 25 (hval _ fun x hx => List.mem_of_mem_take hx) (by simp; omega),
      Base32.decodeLoop_full 24 (hval _ fun x hx => List.mem_of_mem_drop (List.mem_of_mem_take hx)) (by simp; omega),
      Base32.decodeLoop_full 23 (hval _ fun x hx => List.mem_of_mem_drop (List.mem_of_mem_take hx)) (by simp; omega),
      Base32.decodeLoop_short 22 (hval _ fun x hx => List.mem_of_mem_drop hx) (by simp; omega) (by simp; omega)]
    rfl
  have p8 : ∀ w : List Nat, w.length = 8 → (Base32.pack w).length = 5 := by
    intro w hw; simp [Base32.pack, hw]
  have p2 : ∀ w : List Nat, w.length = 2 → (Base32.pack w).length = 1 := by
    intro w hw; simp [Base32.pack, hw]
  have hd : ∃ b, Base32.decode s = some b ∧ b.length = 16 := by
    refine ⟨_, by rw [Base32.decode, Base32.stripNewlines_vals hv, hl, hdec]; rfl, ?_⟩
    simp only [List.length_map, List.length_append]
    rw [p8 _ (by simp; omega), p8 _ (by simp; omega), p8 _ (by simp; omega), p2 _ (by simp; omega)]
  obtain ⟨b, hb, hbl⟩ := hd
  refine ⟨⟨b.take 16, by simp; omega⟩, ?_⟩
  unfold decodeBase32 ofSlice
  rw [if_neg (by omega), hb]
  simp only
  rw [dif_pos (by omega)]

/-- **C05**, both directions: exactly which ID, if any, a text denotes. -/
theorem C05_base32_decode_iff (s : Str) (u : UID) :
    decodeBase32 s = .ok u ↔
      s.length = 26 ∧ (∀ c ∈ s, c ∈ base32Chars) ∧ u.base32 = s.take 25 ++ [canonLast (s.getD 25 0)] := by
  constructor
  · exact C05_base32_decode_sound
  · rintro ⟨h1, h2, h3⟩
    obtain ⟨u', hu'⟩ := C05_base32_decode_complete h1 h2
    have := (C05_base32_decode_sound hu').2.2
    rw [← h3] at this
    rw [hu', C03_base32_injective this]

/-- **C05**, the no-panic half holds for every text without a line break and without byte 0xFF. -/
theorem C05_base32_no_panic_partial (s : Str) (hn : (10 : UInt8) ∉ s) (hr : (13 : UInt8) ∉ s) (hf : (0xFF : UInt8) ∉ s) :
    decodeBase32 s ≠ .panic := by
  intro hp
  by_cases hc : ∀ c ∈ s, c ∈ base32Chars
  · by_cases hl : s.length = 26
    · obtain ⟨u, hu⟩ := C05_base32_decode_complete hl hc
      rw [hu] at hp; cases hp
    · unfold decodeBase32 at hp
      rw [if_pos (by omega)] at hp; cases hp
  · apply hc
    unfold decodeBase32 at hp
    split at hp
    · cases hp
    · split at hp
      · cases hp
      · rename_i b hb
        unfold Base32.decode at hb
        have hst : Base32.stripNewlines s = s := by
          unfold Base32.stripNewlines
          rw [List.filter_eq_self]
          intro c hc
          have h1 : c ≠ 10 := by rintro rfl; exact hn hc
          have h2 : c ≠ 13 := by rintro rfl; exact hr hc
          simp [h1, h2]
        rw [hst] at hb
        cases ho : Base32.decodeLoop s.length s with
        | none => simp [ho] at hb
        | some o => exact (vals_isSome_iff s).1 (Base32.decodeLoop_vals (Nat.le_refl _) hf ho)

theorem decodeLoop_some : ∀ {n : Nat} {s : Str} {v : List Nat}, s.length ≤ n → Base32.vals s = some v → ∃ o, Base32.decodeLoop n s = some o
  | 0, s, v, _, _ => ⟨_, rfl⟩
  | n + 1, s, v, hn, hv => by
    have hl := Base32.vals_length hv
    obtain ⟨rfl, hlt⟩ := Base32.vals_spec hv
    by_cases h0 : v.length = 0
    · obtain rfl := List.eq_nil_of_length_eq_zero h0
      exact ⟨_, rfl⟩
    by_cases h8 : v.length < 8
    · exact ⟨_, Base32.decodeLoop_short n hv (by omega) h8⟩
    · have hs : v.map Base32.alpha = (v.take 8).map Base32.alpha ++ (v.drop 8).map Base32.alpha := by rw [← List.map_append, List.take_append_drop]
      have h1 : Base32.vals ((v.take 8).map Base32.alpha) = some (v.take 8) := Base32.vals_map fun q hq => hlt q (List.mem_of_mem_take hq)
      have h2 : Base32.vals ((v.drop 8).map Base32.alpha) = some (v.drop 8) := Base32.vals_map fun q hq => hlt q (List.mem_of_mem_drop hq)
      obtain ⟨o, ho⟩ := decodeLoop_some (n := n) (by simp only [List.length_map, List.length_drop] at hn ⊢; omega) h2
      rw [hs, Base32.decodeLoop_full n h1 (by simp only [List.length_take]; omega), ho]
      exact ⟨_, rfl⟩

/-- **C05 is violated** on exactly these texts, as far as they have no byte 0xFF: 26 bytes, all of them characters of base32 or line
breaks, with at least one line break. No text of any other length makes the decoder panic. -/
theorem C05_violated_iff (s : Str) (hf : (0xFF : UInt8) ∉ s) :
    decodeBase32 s = .panic ↔ s.length = 26 ∧ (∀ c ∈ s, c ∈ base32Chars ∨ c = 10 ∨ c = 13) ∧ ((10 : UInt8) ∈ s ∨ (13 : UInt8) ∈ s) := by
  constructor
  · intro hp
    have hl : s.length = 26 := by
      by_cases hl : s.length = 26
      · exact hl
      · unfold decodeBase32 at hp
        rw [if_pos hl] at hp; cases hp
    refine ⟨hl, fun c hc => ?_, ?_⟩
    · by_cases h : c = 10 ∨ c = 13
      · exact Or.inr h
      · left
        have hm : c ∈ Base32.stripNewlines s := by
          unfold Base32.stripNewlines
          rw [List.mem_filter]
          simp only [not_or] at h
          exact ⟨hc, by simp [h.1, h.2]⟩
        unfold decodeBase32 at hp
        rw [if_neg (by omega)] at hp
        cases hd : Base32.decode s with
        | none => rw [hd] at hp; cases hp
        | some b =>
          unfold Base32.decode at hd
          cases ho : Base32.decodeLoop s.length (Base32.stripNewlines s) with
          | none => rw [ho] at hd; cases hd
          | some o =>
            exact (vals_isSome_iff _).1 (Base32.decodeLoop_vals (List.length_filter_le _ _) (fun h => hf (List.mem_filter.1 h).1) ho) c hm
    · by_cases h1 : (10 : UInt8) ∈ s
      · exact Or.inl h1
      · by_cases h2 : (13 : UInt8) ∈ s
        · exact Or.inr h2
        · exact absurd hp (C05_base32_no_panic_partial s h1 h2 hf)
  · rintro ⟨hl, hc, hn⟩
    have hall : ∀ c ∈ Base32.stripNewlines s, c ∈ base32Chars := by
      intro c h
      unfold Base32.stripNewlines at h
      rw [List.mem_filter] at h
      obtain ⟨h1, h2⟩ := h
      simp only [decide_eq_true_eq] at h2
      rcases hc c h1 with h | h | h
      · exact h
      · exact absurd h h2.1
      · exact absurd h h2.2
    obtain ⟨v, hv⟩ := Option.isSome_iff_exists.1 ((vals_isSome_iff _).2 hall)
    have hle : (Base32.stripNewlines s).length ≤ s.length := List.length_filter_le _ _
    obtain ⟨o, ho⟩ := decodeLoop_some hle hv
    have hlt : (Base32.stripNewlines s).length < 26 := by
      rcases Nat.lt_or_ge (Base32.stripNewlines s).length 26 with h | h
      · exact h
      · have he : Base32.stripNewlines s = s :=
          (List.filter_sublist : (Base32.stripNewlines s).Sublist s).eq_of_length (show (Base32.stripNewlines s).length = s.length by omega)
        rcases hn with hn | hn <;> rw [← he] at hn <;> exact absurd (hall _ hn) (by decide)
    have hb := Base32.decodeLoop_bound ho
    unfold decodeBase32 Base32.decode ofSlice
    rw [if_neg (by omega), ho]
    simp only [Option.map_some, List.length_map]
    rw [dif_neg (by omega)]

/-- **C05** is violated: a 26-byte text that contains a line break makes the decoder panic. -/
theorem C05_violated_newline : decodeBase32 (lit "AAAQEAYEAUDAOCAJBIFQYDIOB\n") = .panic := by decide

/-- **C05** is violated: so does a 26-byte text with bytes 0xFF in the third quantum. -/
theorem C05_violated_ff :
    decodeBase32 (lit "AAAQEAYEAUDAOCAJBI" ++ [0xFF, 0xFF, 0xFF, 0xFF, 0xFF, 0xFF, 65, 65]) = .panic := by decide

example : decodeBase32 (lit "AAAQEAYEAUDAOCAJBIFQYDIOB7") = .ok UID.sample := by decide

/-! ## C06 -/

/-- **C06.** A digest of at least 16 bytes gives the ID made of its first 16 bytes. -/
theorem C06_hash_leading_bytes_partial (d : Str) (h : 16 ≤ d.length) :
    ∃ u, fromHash d = .ok u ∧ u.bytes = d.take 16 := by
  refine ⟨⟨d.take 16, by simp; omega⟩, ?_, rfl⟩
  unfold fromHash ofSlice
  rw [dif_pos h]

/-- **C06** is violated: the documented zero padding of a shorter digest does not happen, the call panics. -/
theorem C06_violated_short (d : Str) (h : d.length < 16) : fromHash d = .panic := by
  unfold fromHash ofSlice
  rw [dif_neg (by omega)]

example : fromHash (List.replicate 20 7) = .ok ⟨List.replicate 16 7, rfl⟩ := by decide

/-! ## C07 -/

/-- Specification: the number whose base-256 digits, least significant first, are the given bytes. -/
def leValue : Str → Nat
  | [] => 0
  | b :: bs => b.toNat + 256 * leValue bs

theorem leValue_leBytes (n v : Nat) (h : v < 256 ^ n) : leValue (leBytes v n) = v := by
  induction n generalizing v with
  | zero => simp at h; subst h; rfl
  | succ n ih =>
    simp only [leBytes, leValue]
    rw [ih _ (by rw [Nat.pow_succ] at h; omega), Hex.toNat_ofNat_lt (by omega)]
    omega

theorem leBytes_leValue (s : Str) : leBytes (leValue s) s.length = s := by
  induction s with
  | nil => rfl
  | cons b bs ih =>
    have := b.toNat_lt
    simp only [leValue, List.length_cons, leBytes]
    rw [show (b.toNat + 256 * leValue bs) / 256 = leValue bs by omega, ih]
    congr 1
    apply Hex.uint8_ext
    rw [Hex.toNat_ofNat_lt (by omega)]; omega

theorem leValue_lt (s : Str) : leValue s < 256 ^ s.length := by
  induction s with
  | nil => simp [leValue]
  | cons b bs ih =>
    have := b.toNat_lt
    simp only [leValue, List.length_cons, Nat.pow_succ]; omega

/-- **C07.** The two draws can be read back from the ID: its first and last eight bytes, as little-endian numbers. -/
theorem C07_draws_recoverable (v0 v1 : UInt64) :
    leValue ((UID.new v0 v1).bytes.take 8) = v0.toNat ∧ leValue ((UID.new v0 v1).bytes.drop 8) = v1.toNat := by
  have h0 := v0.toNat_lt
  have h1 := v1.toNat_lt
  simp only [UID.new]
  rw [List.take_left' (leBytes_length _ _), List.drop_left' (leBytes_length _ _)]
  exact ⟨leValue_leBytes 8 _ (by omega), leValue_leBytes 8 _ (by omega)⟩

/-- **C07.** Different draws give different IDs. -/
theorem C07_new_injective {v0 v1 w0 w1 : UInt64} (h : UID.new v0 v1 = UID.new w0 w1) : v0 = w0 ∧ v1 = w1 := by
  have hv := C07_draws_recoverable v0 v1
  have hw := C07_draws_recoverable w0 w1
  rw [h] at hv
  exact ⟨UInt64.toNat_inj.1 (hv.1.symm.trans hw.1), UInt64.toNat_inj.1 (hv.2.symm.trans hw.2)⟩

/-- **C07.** Every ID comes from some pair of draws. -/
theorem C07_new_surjective (u : UID) : ∃ v0 v1, UID.new v0 v1 = u := by
  have hl := u.len
  have h0 := leValue_lt (u.bytes.take 8)
  have h1 := leValue_lt (u.bytes.drop 8)
  have e0 : (u.bytes.take 8).length = 8 := by simp; omega
  have e1 : (u.bytes.drop 8).length = 8 := by simp; omega
  rw [e0] at h0
  rw [e1] at h1
  refine ⟨UInt64.ofNat (leValue (u.bytes.take 8)), UInt64.ofNat (leValue (u.bytes.drop 8)), ?_⟩
  apply UID.ext'
  simp only [UID.new, UInt64.toNat_ofNat']
  rw [Nat.mod_eq_of_lt (by omega), Nat.mod_eq_of_lt (by omega)]
  have r0 := leBytes_leValue (u.bytes.take 8)
  have r1 := leBytes_leValue (u.bytes.drop 8)
  rw [e0] at r0
  rw [e1] at r1
  rw [r0, r1, List.take_append_drop]

example : (UID.new 0x0706050403020100 0x0f0e0d0c0b0a0908) = UID.sample := by decide

end Verif
