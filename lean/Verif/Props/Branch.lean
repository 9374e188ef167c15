import Verif.Ws.Branch
/-!
# C20: branch names
-/
set_option autoImplicit false
namespace Verif
open BranchInfo

theorem base32_idChar (u : UID) : ∀ c ∈ u.base32, isIDChar c = true := by
  intro c hc
  have := C02_base32_alphabet u c hc
  have key : ∀ c ∈ lit "ABCDEFGHIJKLMNOPQRSTUVWXYZ234567", isIDChar c = true := by decide
  exact key c this

theorem base32_not_global (u : UID) (r : Str) : (u.base32 ++ r).take 7 ≠ lit "global/" := by
  intro h
  have hl := C02_base32_length u
  have h0 : (u.base32 ++ r)[0]? = some 0x67 := by
    have := congrArg (fun l => l[0]?) h
    simpa [List.getElem?_take, lit] using this
  rw [List.getElem?_append_left (by omega)] at h0
  have := base32_idChar u _ (List.mem_of_getElem? h0)
  exact absurd this (by decide)

/-- **C20.** Two branches have the same full name only if they have the same owner and the same name. -/
theorem C20_full_name_injective {b c : BranchInfo} (h : b.fullName = c.fullName) : b = c := by
  obtain ⟨bw, bn⟩ := b
  obtain ⟨cw, cn⟩ := c
  cases bw with
  | none =>
    cases cw with
    | none => simp only [fullName] at h; rw [List.append_cancel_left h]
    | some w =>
      simp only [fullName, List.append_assoc] at h
      exact absurd (by rw [← h]; rfl) (base32_not_global w (lit "/" ++ cn))
  | some v =>
    cases cw with
    | none =>
      simp only [fullName, List.append_assoc] at h
      exact absurd (by rw [h]; rfl) (base32_not_global v (lit "/" ++ bn))
    | some w =>
      simp only [fullName, List.append_assoc] at h
      obtain ⟨h1, h2⟩ := List.append_inj h (by rw [C02_base32_length, C02_base32_length])
      rw [C03_base32_injective h1, List.append_cancel_left h2]

theorem regex_global (n : Str) :
    regexMatch (lit "global/" ++ n) = if (10 : UInt8) ∈ n then none else some (lit "global", n) := rfl

theorem regex_local (w : UID) (n : Str) :
    regexMatch (w.base32 ++ lit "/" ++ n) = if (10 : UInt8) ∈ n then none else some (w.base32, n) := by
  have hl := C02_base32_length w
  unfold regexMatch
  rw [if_neg (by rw [List.append_assoc]; exact base32_not_global w _)]
  have h1 : (w.base32 ++ lit "/" ++ n).take 26 = w.base32 := by
    rw [List.append_assoc, ← hl, List.take_left]
  have h2 : (w.base32 ++ lit "/" ++ n).drop 27 = n := by
    have : (w.base32 ++ lit "/").length = 27 := by rw [List.length_append, hl]; rfl
    rw [← this, List.drop_left]
  have h3 : (w.base32 ++ lit "/" ++ n)[26]? = some 0x2F := by
    rw [List.append_assoc, List.getElem?_append_right (by omega), hl]; rfl
  have h4 : 27 ≤ (w.base32 ++ lit "/" ++ n).length := by simp [hl, lit]; omega
  rw [h1, h2, h3]
  by_cases h : (10 : UInt8) ∈ n
  · rw [if_pos h, if_neg (fun hh => hh.2.2.2 h)]
  · rw [if_neg h, if_pos ⟨h4, by rw [List.all_eq_true]; exact base32_idChar w, rfl, h⟩]

/-- **C20.** Parsing the full name of a branch gives the branch back, for every name without a line feed. -/
theorem C20_parse_full_name_partial (b : BranchInfo) (h : (10 : UInt8) ∉ b.name) : parseFullName b.fullName = .ok b := by
  obtain ⟨bw, bn⟩ := b
  cases bw with
  | none => unfold parseFullName fullName; simp only; rw [regex_global, if_neg h]; simp
  | some w =>
    unfold parseFullName fullName
    simp only
    rw [regex_local, if_neg h]
    have hne : w.base32 ≠ lit "global" := by
      intro he
      have := congrArg List.length he
      rw [C02_base32_length] at this; exact absurd this (by decide)
    simp only [if_neg hne, C02_base32_roundtrip]

/-- **C20, violated.** The full name of a branch whose name contains a line feed is never accepted. -/
theorem C20_violated_newline (b : BranchInfo) (h : (10 : UInt8) ∈ b.name) : parseFullName b.fullName = .err .noMatch := by
  obtain ⟨bw, bn⟩ := b
  cases bw with
  | none => unfold parseFullName fullName; simp only; rw [regex_global, if_pos h]
  | some w => unfold parseFullName fullName; simp only; rw [regex_local, if_pos h]

theorem idChar_plain (c : UInt8) (h : isIDChar c = true) : c ≠ 10 ∧ c ≠ 13 ∧ c ≠ 0xFF := by
  refine ⟨?_, ?_, ?_⟩ <;> rintro rfl <;> exact absurd h (by decide)

theorem regex_cases (s : Str) : regexMatch s = none ∨
    (∃ n, s = lit "global/" ++ n ∧ (10 : UInt8) ∉ n ∧ regexMatch s = some (lit "global", n)) ∨
    (∃ p n, p.length = 26 ∧ (∀ c ∈ p, isIDChar c = true) ∧ s = p ++ lit "/" ++ n ∧ (10 : UInt8) ∉ n ∧
      regexMatch s = some (p, n)) := by
  unfold regexMatch
  by_cases h1 : s.take 7 = lit "global/"
  · rw [if_pos h1]
    by_cases h2 : (10 : UInt8) ∈ s.drop 7
    · rw [if_pos h2]; exact Or.inl rfl
    · rw [if_neg h2]
      exact Or.inr (Or.inl ⟨s.drop 7, by rw [← h1, List.take_append_drop], h2, rfl⟩)
  · rw [if_neg h1]
    by_cases hc : 27 ≤ s.length ∧ (s.take 26).all isIDChar = true ∧ s[26]? = some 0x2F ∧ (10 : UInt8) ∉ s.drop 27
    · rw [if_pos hc]
      refine Or.inr (Or.inr ⟨s.take 26, s.drop 27, by rw [List.length_take]; omega, List.all_eq_true.1 hc.2.1, ?_, hc.2.2.2, rfl⟩)
      have h5 : s.drop 26 = lit "/" ++ s.drop 27 := by
        rw [List.drop_eq_getElem_cons (by omega)]
        have := hc.2.2.1
        rw [List.getElem?_eq_getElem (by omega)] at this
        rw [Option.some.inj this]; rfl
      rw [List.append_assoc, ← h5, List.take_append_drop]
    · rw [if_neg hc]; exact Or.inl rfl

theorem decodeBase32_not_diverge (s : Str) : UID.decodeBase32 s ≠ .diverge := by
  intro hd
  unfold UID.decodeBase32 UID.ofSlice at hd
  split at hd
  · cases hd
  · split at hd
    · cases hd
    · split at hd <;> cases hd

/-- **C20.** Parsing any text returns a branch or an error; it never crashes. -/
theorem C20_parse_total (s : Str) : (∃ b, parseFullName s = .ok b) ∨ (∃ e, parseFullName s = .err e) := by
  unfold parseFullName
  rcases regex_cases s with h | ⟨n, _, _, h⟩ | ⟨p, n, _, hall, _, _, h⟩ <;> rw [h] <;> simp only
  · exact Or.inr ⟨_, rfl⟩
  · exact Or.inl ⟨⟨none, n⟩, by simp only [if_true]⟩
  · split
    · exact Or.inl ⟨_, rfl⟩
    · have hnp := C05_base32_no_panic_partial p (fun hc => (idChar_plain _ (hall _ hc)).1 rfl)
        (fun hc => (idChar_plain _ (hall _ hc)).2.1 rfl) (fun hc => (idChar_plain _ (hall _ hc)).2.2 rfl)
      cases hd : UID.decodeBase32 p with
      | ok w => exact Or.inl ⟨_, rfl⟩
      | err e => exact Or.inr ⟨_, rfl⟩
      | panic => exact absurd hd hnp
      | diverge => exact absurd hd (decodeBase32_not_diverge p)

/-- **C20.** What is parsed is right: the parsed branch has the given full name, except that the 26th character of a
workspace ID need not be the canonical one. -/
theorem C20_parse_sound {s : Str} {b : BranchInfo} (h : parseFullName s = .ok b) :
    s = b.fullName ∨ ∃ w, b.ws = some w ∧ s.length = b.fullName.length ∧ s.take 25 = b.fullName.take 25 ∧
      s.drop 26 = b.fullName.drop 26 := by
  unfold parseFullName at h
  rcases regex_cases s with h1 | ⟨n, rfl, _, h1⟩ | ⟨p, n, hlen, hall, rfl, _, h1⟩ <;> rw [h1] at h <;> simp only at h
  · cases h
  · simp only [if_true, Res.ok.injEq] at h
    subst h
    exact Or.inl rfl
  · split at h
    · rename_i hg
      rw [hg] at hlen; exact absurd hlen (by decide)
    · cases hd : UID.decodeBase32 p with
      | ok w =>
        simp only [hd, Res.ok.injEq] at h
        subst h
        right
        obtain ⟨_, _, h3⟩ := (C05_base32_decode_iff _ _).1 hd
        have hw := C02_base32_length w
        refine ⟨w, rfl, ?_, ?_, ?_⟩
        · simp only [fullName, List.length_append, hw, hlen]
        · simp only [fullName, List.append_assoc]
          rw [List.take_append_of_le_length (by omega), List.take_append_of_le_length (by omega), h3,
            List.take_append_of_le_length (by simp; omega), List.take_take]
          simp
        · simp only [fullName, List.append_assoc]
          conv => rhs; rw [← hw, List.drop_left]
          conv => lhs; rw [← hlen, List.drop_left]
      | err e => simp [hd] at h
      | panic => simp [hd] at h
      | diverge => simp [hd] at h

/-- **C20.** The local name of a branch of this workspace or of a global branch has the branch among its readings; there is
one further reading at most, and the branch of the workspace comes first. -/
theorem C20_local_name (w : UID) (b : BranchInfo) (h : b.ws = some w ∨ b.ws = none) : b ∈ parseLocalName w b.localName := by
  obtain ⟨bw, bn⟩ := b
  rcases h with h | h <;> simp only at h <;> subst h
  · simp [parseLocalName, localName]
  · have h1 : (lit "origin/" ++ bn).take 7 = lit "origin/" := by rfl
    have h2 : (lit "origin/" ++ bn).drop 7 = bn := by rfl
    simp only [parseLocalName, localName, h1, h2, if_true]
    simp

/-- **C20.** Exactly which branches a local name can mean. -/
theorem C20_local_readings (w : UID) (s : Str) (b : BranchInfo) :
    b ∈ parseLocalName w s ↔ (b.ws = some w ∧ b.name = s) ∨ (b.ws = none ∧ s = lit "origin/" ++ b.name) := by
  obtain ⟨bw, bn⟩ := b
  simp only [parseLocalName, List.mem_cons]
  constructor
  · rintro (h | h)
    · cases h; exact Or.inl ⟨rfl, rfl⟩
    · split at h
      · rename_i h7
        simp only [List.mem_cons, List.not_mem_nil, or_false] at h
        cases h
        exact Or.inr ⟨rfl, by rw [← h7, List.take_append_drop]⟩
      · cases h
  · rintro (⟨h1, h2⟩ | ⟨h1, h2⟩)
    · subst h1 h2; exact Or.inl rfl
    · subst h1 h2
      right
      have h1 : (lit "origin/" ++ bn).take 7 = lit "origin/" := by rfl
      have h2 : (lit "origin/" ++ bn).drop 7 = bn := by rfl
      rw [if_pos h1, h2]; simp

example : (⟨some UID.sample, lit "main"⟩ : BranchInfo).fullName = lit "AAAQEAYEAUDAOCAJBIFQYDIOB4/main" ∧
    parseFullName (lit "AAAQEAYEAUDAOCAJBIFQYDIOB4/a/b") = .ok ⟨some UID.sample, lit "a/b"⟩ ∧
    parseFullName (lit "global/main") = .ok ⟨none, lit "main"⟩ ∧
    parseFullName (lit "main") = .err .noMatch ∧
    parseFullName (lit "AAAQEAYEAUDAOCAJBIFQYDIO14/main") = .err (.workspaceID .corrupt) := by decide

/-- The 26th character of the ID is not checked: two texts parse to the same branch. -/
example : parseFullName (lit "AAAQEAYEAUDAOCAJBIFQYDIOB5/main") = .ok ⟨some UID.sample, lit "main"⟩ := by decide

end Verif
