import Verif.Cli.Run
/-!
# Lemmas about parsing the command line
-/
set_option autoImplicit false
namespace Verif
namespace Cli

/-! ## More arguments at the end -/

theorem parseArgs_append {fs : List Flag} {args : List Str} (more : List Str) {q : Option Flag} {p p' : Parsed} (h : parseArgs fs q args p = .ok p') (hd : p'.dash = false) :
    parseArgs fs q (args ++ more) p = parseArgs fs .none more p' := by
  induction args generalizing q p with
  | nil =>
    cases q with
    | none => simp only [parseArgs, Except.ok.injEq] at h; subst h; rfl
    | some f => simp [parseArgs] at h
  | cons s rest ih =>
    cases q with
    | some f =>
      simp only [parseArgs, List.cons_append] at h ⊢
      cases hs : setFlag f s p with
      | error e => rw [hs] at h; simp at h
      | ok p1 => rw [hs] at h; exact ih h
    | none =>
      simp only [parseArgs, List.cons_append] at h ⊢
      cases hs : parseTok fs s p with
      | error e => rw [hs] at h; simp at h
      | ok o =>
        rw [hs] at h
        cases o with
        | none => simp only [Except.ok.injEq] at h; subst h; simp at hd
        | some x => exact ih h

/-- If `--` ended the flags, whatever comes behind is no flag. -/
theorem parseArgs_dash {fs : List Flag} {args : List Str} (more : List Str) {q : Option Flag} {p p' : Parsed} (hp : p.dash = false) (h : parseArgs fs q args p = .ok p')
    (hd : p'.dash = true) : parseArgs fs q (args ++ more) p = .ok { p' with args := p'.args ++ more } := by
  induction args generalizing q p with
  | nil =>
    cases q with
    | none => simp only [parseArgs, Except.ok.injEq] at h; subst h; rw [hp] at hd; cases hd
    | some f => simp [parseArgs] at h
  | cons s rest ih =>
    cases q with
    | some f =>
      simp only [parseArgs, List.cons_append] at h ⊢
      cases hs : setFlag f s p with
      | error e => rw [hs] at h; simp at h
      | ok p1 =>
        rw [hs] at h
        refine ih ?_ h
        unfold setFlag at hs
        split at hs
        · cases hs; exact hp
        · cases hs
    | none =>
      simp only [parseArgs, List.cons_append] at h ⊢
      cases hs : parseTok fs s p with
      | error e => rw [hs] at h; simp at h
      | ok o =>
        rw [hs] at h
        cases o with
        | none => simp only [Except.ok.injEq] at h; subst h; simp
        | some x => exact ih (tok_dash hp hs) h
where
  setFlag_dash {f : Flag} {v : Str} {p p' : Parsed} (hp : p.dash = false) (h : setFlag f v p = .ok p') : p'.dash = false := by
    unfold setFlag at h
    split at h
    · cases h; exact hp
    · cases h
  map_dash {f : Flag} {v : Str} {p : Parsed} {x : Parsed × Option Flag} (hp : p.dash = false) (h : (setFlag f v p).map (·, Option.none) = .ok x) : x.1.dash = false := by
    cases hs : setFlag f v p with
    | error e => rw [hs] at h; simp [Except.map] at h
    | ok p1 => rw [hs] at h; simp only [Except.map, Except.ok.injEq] at h; subst h; exact setFlag_dash hp hs
  short_dash {fs : List Flag} {s : Str} {p : Parsed} {x : Parsed × Option Flag} (hp : p.dash = false) (h : parseShort fs s p = .ok x) : x.1.dash = false := by
    induction s generalizing p with
    | nil => simp only [parseShort, Except.ok.injEq] at h; subst h; exact hp
    | cons c r ih =>
      simp only [parseShort] at h
      cases hf : fs.find? (fun f => f.short ≠ 0 ∧ f.short = c) with
      | none => rw [hf] at h; simp at h
      | some f =>
        rw [hf] at h
        simp only at h
        split at h
        · exact map_dash hp h
        · split at h
          · cases hs : setFlag f (lit "true") p with
            | error e => rw [hs] at h; simp at h
            | ok p1 => rw [hs] at h; exact ih (setFlag_dash hp hs) h
          · split at h
            · exact map_dash hp h
            · simp only [Except.ok.injEq] at h; subst h; exact hp
  long_dash {fs : List Flag} {s : Str} {p : Parsed} {x : Parsed × Option Flag} (hp : p.dash = false) (h : parseLong fs s p = .ok x) : x.1.dash = false := by
    unfold parseLong at h
    split at h
    · simp at h
    · split at h
      · simp at h
      · split at h
        · simp at h
        · split at h
          · exact map_dash hp h
          · split at h
            · exact map_dash hp h
            · simp only [Except.ok.injEq] at h; subst h; exact hp
  tok_dash {fs : List Flag} {s : Str} {p : Parsed} {x : Parsed × Option Flag} (hp : p.dash = false) (h : parseTok fs s p = .ok (some x)) : x.1.dash = false := by
    unfold parseTok at h
    split at h
    · simp at h
    · rename_i name _
      cases hl : parseLong fs name p with
      | error e => rw [hl] at h; simp [Except.map] at h
      | ok y => rw [hl] at h; simp only [Except.map, Except.ok.injEq, Option.some.injEq] at h; subst h; exact long_dash hp hl
    · rename_i c r _ _
      cases hl : parseShort fs (c :: r) p with
      | error e => rw [hl] at h; simp [Except.map] at h
      | ok y => rw [hl] at h; simp only [Except.map, Except.ok.injEq, Option.some.injEq] at h; subst h; exact short_dash hp hl
    · simp only [Except.ok.injEq, Option.some.injEq] at h; subst h; exact hp

/-! ## Flags that were set before -/

/-- The same with more flags set before. -/
def Parsed.pre (l : List (Str × Str)) (p : Parsed) : Parsed := { p with sets := l ++ p.sets }

theorem setFlag_pre (l : List (Str × Str)) (f : Flag) (v : Str) (p : Parsed) : setFlag f v (p.pre l) = (setFlag f v p).map (Parsed.pre l) := by
  unfold setFlag
  split
  · simp [Except.map, Parsed.pre]
  · rfl

theorem setFlag_map_pre (l : List (Str × Str)) (f : Flag) (v : Str) (p : Parsed) :
    (setFlag f v (p.pre l)).map (fun x => (x, Option.none (α := Flag))) = ((setFlag f v p).map (fun x => (x, Option.none (α := Flag)))).map fun x => (x.1.pre l, x.2) := by
  rw [setFlag_pre]
  cases setFlag f v p <;> rfl

theorem parseLong_pre (l : List (Str × Str)) (fs : List Flag) (s : Str) (p : Parsed) :
    parseLong fs s (p.pre l) = (parseLong fs s p).map fun x => (x.1.pre l, x.2) := by
  unfold parseLong
  cases s with
  | nil => rfl
  | cons c r =>
    simp only
    split
    · rfl
    · cases fs.find? (fun f => f.name = (cutEq (c :: r)).1) with
      | none => rfl
      | some f =>
        simp only
        cases (cutEq (c :: r)).2 with
        | some v => exact setFlag_map_pre l f v p
        | none =>
          simp only
          split
          · exact setFlag_map_pre l f _ p
          · rfl

theorem parseShort_pre (l : List (Str × Str)) (fs : List Flag) (s : Str) (p : Parsed) :
    parseShort fs s (p.pre l) = (parseShort fs s p).map fun x => (x.1.pre l, x.2) := by
  induction s generalizing p with
  | nil => rfl
  | cons c r ih =>
    simp only [parseShort]
    cases fs.find? (fun f => f.short ≠ 0 ∧ f.short = c) with
    | none => rfl
    | some f =>
      simp only
      split
      · exact setFlag_map_pre l f _ p
      · split
        · rw [setFlag_pre]
          cases setFlag f (lit "true") p with
          | error e => rfl
          | ok p1 => exact ih p1
        · split
          · exact setFlag_map_pre l f _ p
          · rfl

theorem parseTok_pre (l : List (Str × Str)) (fs : List Flag) (s : Str) (p : Parsed) :
    parseTok fs s (p.pre l) = (parseTok fs s p).map fun o => o.map fun x => (x.1.pre l, x.2) := by
  unfold parseTok
  split
  · rfl
  · rename_i name _
    rw [parseLong_pre]
    cases parseLong fs name p <;> rfl
  · rename_i c r _ _
    rw [parseShort_pre]
    cases parseShort fs (c :: r) p <;> rfl
  · rfl

theorem parseArgs_pre (l : List (Str × Str)) (fs : List Flag) (q : Option Flag) (args : List Str) (p : Parsed) :
    parseArgs fs q args (p.pre l) = (parseArgs fs q args p).map (Parsed.pre l) := by
  induction args generalizing q p with
  | nil => cases q <;> rfl
  | cons s rest ih =>
    cases q with
    | some f =>
      simp only [parseArgs]
      rw [setFlag_pre]
      cases setFlag f s p with
      | error e => rfl
      | ok p1 => exact ih _ p1
    | none =>
      simp only [parseArgs]
      rw [parseTok_pre]
      cases parseTok fs s p with
      | error e => rfl
      | ok o =>
        cases o with
        | none => rfl
        | some x => exact ih _ x.1

/-! ## Finding the subcommand -/

theorem stripFlags_append {fs : List Flag} {args : List Str} (more : List Str) {skip : Bool} {x : Str} {ws : List Str} (h : stripFlags fs skip args = x :: ws) :
    ∃ ws', stripFlags fs skip (args ++ more) = x :: ws' := by
  induction args generalizing skip with
  | nil => simp [stripFlags] at h
  | cons s rest ih =>
    cases skip with
    | true => simp only [stripFlags, List.cons_append] at h ⊢; exact ih h
    | false =>
      simp only [stripFlags, List.cons_append] at h ⊢
      split at h
      · cases h
      · rename_i h1
        rw [if_neg h1]
        split at h
        · rename_i h2
          rw [if_pos h2]
          split at h
          · cases h
          · rename_i h3
            rw [if_neg (by simp at h3 ⊢; omega)]
            exact ih h
        · rename_i h2
          rw [if_neg h2]
          split at h
          · rename_i h3
            rw [if_pos h3]
            cases h
            exact ⟨_, rfl⟩
          · rename_i h3
            rw [if_neg h3]
            exact ih h

theorem minusFirst_append {fs : List Flag} {x : Str} {args : List Str} (more : List Str) {skip : Bool} {r : List Str} (h : minusFirst fs x skip args = some r) :
    minusFirst fs x skip (args ++ more) = some (r ++ more) := by
  induction args generalizing skip r with
  | nil => simp [minusFirst] at h
  | cons s rest ih =>
    cases skip with
    | true =>
      simp only [minusFirst, List.cons_append, Option.map_eq_some_iff] at h ⊢
      obtain ⟨r', h1, rfl⟩ := h
      exact ⟨_, ih h1, rfl⟩
    | false =>
      simp only [minusFirst, List.cons_append] at h ⊢
      split at h
      · cases h
      · rename_i h1
        rw [if_neg h1]
        split at h
        · rename_i h2
          rw [if_pos h2]
          obtain ⟨r', h3, rfl⟩ := Option.map_eq_some_iff.1 h
          rw [ih h3]; rfl
        · rename_i h2
          rw [if_neg h2]
          split at h
          · rename_i h3
            rw [if_pos h3]
            cases h; rfl
          · rename_i h3
            rw [if_neg h3]
            obtain ⟨r', h4, rfl⟩ := Option.map_eq_some_iff.1 h
            rw [ih h4]; rfl

theorem minusFirst_found {fs : List Flag} {args : List Str} {skip : Bool} {x : Str} {ws : List Str} (h : stripFlags fs skip args = x :: ws) :
    ∃ r, minusFirst fs x skip args = some r := by
  induction args generalizing skip with
  | nil => simp [stripFlags] at h
  | cons s rest ih =>
    cases skip with
    | true =>
      simp only [stripFlags, minusFirst] at h ⊢
      obtain ⟨r, hr⟩ := ih h
      exact ⟨_, by rw [hr]; rfl⟩
    | false =>
      simp only [stripFlags, minusFirst] at h ⊢
      split at h
      · cases h
      · rename_i h1
        rw [if_neg h1]
        split at h
        · rename_i h2
          rw [if_pos h2]
          split at h
          · cases h
          · obtain ⟨r, hr⟩ := ih h
            exact ⟨_, by rw [hr]; rfl⟩
        · rename_i h2
          rw [if_neg h2]
          split at h
          · rename_i h3
            cases h
            exact ⟨_, by rw [if_pos ⟨h3.2, rfl⟩]⟩
          · rename_i h3
            split
            · exact ⟨_, rfl⟩
            · obtain ⟨r, hr⟩ := ih h
              exact ⟨_, by rw [hr]; rfl⟩

theorem find_inv {args a : List Str} {c : Sub} (h : find args = some (c, a)) :
    ∃ x ws, stripFlags globalFlags false args = x :: ws ∧ Sub.all.find? (fun c => c.name = x) = some c ∧ minusFirst globalFlags x false args = some a := by
  unfold find at h
  cases hs : stripFlags globalFlags false args with
  | nil => rw [hs] at h; simp at h
  | cons x ws =>
    rw [hs] at h
    simp only at h
    cases hf : Sub.all.find? (fun c => c.name = x) with
    | none => rw [hf] at h; simp at h
    | some c' =>
      rw [hf] at h
      simp only [Option.some.injEq, Prod.mk.injEq] at h
      obtain ⟨r, hr⟩ := minusFirst_found hs
      rw [hr] at h
      obtain ⟨rfl, rfl⟩ := h
      exact ⟨x, ws, rfl, hf, hr⟩

theorem find_of {args a : List Str} {c : Sub} {x : Str} {ws : List Str} (h1 : stripFlags globalFlags false args = x :: ws)
    (h2 : Sub.all.find? (fun c => c.name = x) = some c) (h3 : minusFirst globalFlags x false args = some a) : find args = some (c, a) := by
  unfold find
  rw [h1]
  simp only [h2, h3, Option.getD_some]

theorem find_append {args a : List Str} {c : Sub} (h : find args = some (c, a)) (more : List Str) : find (args ++ more) = some (c, a ++ more) := by
  obtain ⟨x, ws, h1, h2, h3⟩ := find_inv h
  obtain ⟨ws', h4⟩ := stripFlags_append more h1
  exact find_of h4 h2 (minusFirst_append more h3)

/-- A flag and its value in front. -/
theorem find_flag {args a : List Str} {c : Sub} (h : find args = some (c, a)) {t : Str} (v : Str) (ht : takesNext globalFlags t = true) (hd : t ≠ lit "--") :
    find (t :: v :: args) = some (c, t :: v :: a) := by
  obtain ⟨x, ws, h1, h2, h3⟩ := find_inv h
  refine find_of (x := x) (ws := ws) ?_ h2 ?_
  · rw [stripFlags, if_neg hd, if_pos ht, if_neg, stripFlags, h1]
    cases args with
    | nil => simp [stripFlags] at h1
    | cons => simp
  · rw [minusFirst, if_neg hd, if_pos ht, minusFirst, h3]
    rfl

theorem line_inv {args : List Str} {l : Line} (h : line args = .ok l) :
    ∃ a, find args = some (l.sub, a) ∧ parse l.sub.flags a = .ok l.parsed ∧ l.parsed.flag (lit "help") = false ∧ l.sub.argsOk l.parsed.args.length = true := by
  unfold line at h
  cases hf : find args with
  | none => rw [hf] at h; simp at h
  | some x =>
    obtain ⟨c, a⟩ := x
    rw [hf] at h
    simp only at h
    cases hp : parse c.flags a with
    | error e => rw [hp] at h; simp at h
    | ok p =>
      rw [hp] at h
      simp only at h
      split at h
      · cases h
      · rename_i h1
        split at h
        · rename_i h2
          cases h
          exact ⟨a, rfl, hp, by simpa using h1, h2⟩
        · cases h

theorem line_of {args a : List Str} {c : Sub} {p : Parsed} (h1 : find args = some (c, a)) (h2 : parse c.flags a = .ok p) (h3 : p.flag (lit "help") = false)
    (h4 : c.argsOk p.args.length = true) : line args = .ok ⟨c, p⟩ := by
  unfold line
  simp [h1, h2, h3, h4]

/-! ## Numbers -/

theorem digitVal_digit {n : Nat} (h : n < 10) : digitVal (Time.digit n) = some n := by
  have : ∀ n : Fin 10, digitVal (Time.digit n.1) = some n.1 := by decide
  exact this ⟨n, h⟩

theorem digits_append (base : Nat) (s t : Str) (acc : Nat) : digits base (s ++ t) acc = (digits base s acc).bind (digits base t) := by
  induction s generalizing acc with
  | nil => rfl
  | cons c s ih =>
    simp only [digits, List.cons_append]
    split
    · exact ih _
    cases digitVal c with
    | none => rfl
    | some d =>
      simp only
      split
      · exact ih _
      · rfl

theorem digit_no_underscore {n : Nat} (h : n < 10) : Time.digit n ≠ 95 := by
  have : ∀ n : Fin 10, Time.digit n.1 ≠ 95 := by decide
  exact this ⟨n, h⟩

theorem dec_no_underscore (n : Nat) : 95 ∉ Time.dec n := by
  induction n using Nat.strongRecOn with
  | ind n ih =>
    rw [Time.dec]
    split
    · rename_i h
      intro hm
      exact digit_no_underscore h (List.mem_singleton.1 hm).symm
    · intro hm
      rcases List.mem_append.1 hm with hm | hm
      · exact ih (n / 10) (by omega) hm
      · exact digit_no_underscore (Nat.mod_lt n (by decide)) (List.mem_singleton.1 hm).symm

theorem digits_dec (n : Nat) : digits 10 (Time.dec n) 0 = some n := by
  induction n using Nat.strongRecOn with
  | ind n ih =>
    rw [Time.dec]
    split
    · rename_i h
      simp [digits, digitVal_digit h, digit_no_underscore h, h]
    · rename_i h
      rw [digits_append, ih (n / 10) (by omega)]
      have h10 : n % 10 < 10 := Nat.mod_lt _ (by decide)
      simp only [Option.bind_some, digits, digitVal_digit h10, if_neg (digit_no_underscore h10), h10, if_true]
      congr 1
      omega

theorem dec_head (n : Nat) (h : 0 < n) : ∃ k, 0 < k ∧ k < 10 ∧ ∃ r, Time.dec n = Time.digit k :: r := by
  induction n using Nat.strongRecOn with
  | ind n ih =>
    rw [Time.dec]
    split
    · rename_i h1
      exact ⟨n, h, h1, [], rfl⟩
    · rename_i h1
      obtain ⟨k, h2, h3, r, hr⟩ := ih (n / 10) (by omega) (by omega)
      exact ⟨k, h2, h3, r ++ [Time.digit (n % 10)], by rw [hr]; rfl⟩

theorem digit_plain {k : Nat} (h0 : 0 < k) (h : k < 10) : Time.digit k ≠ 48 ∧ Time.digit k ≠ 45 ∧ Time.digit k ≠ 43 := by
  have : ∀ k : Fin 10, 0 < k.1 → Time.digit k.1 ≠ 48 ∧ Time.digit k.1 ≠ 45 ∧ Time.digit k.1 ≠ 43 := by decide
  exact this ⟨k, h⟩ h0

theorem parseUint_plain (bits : Nat) {c : UInt8} {r : Str} (h : c ≠ 48) : parseUint bits (c :: r) =
    (digits 10 (c :: r) 0).bind fun n => if n < 2 ^ bits ∧ (95 ∈ c :: r → underscoreOK (c :: r) = true) then some n else none := by
  unfold parseUint
  split
  · rename_i e; cases e
  · rename_i e; cases e; exact absurd rfl h
  · rename_i e; cases e; exact absurd rfl h
  · rfl

/-- A number in decimal is read back. -/
theorem parseInt_dec {n : Nat} (h : n < 2 ^ 63) : parseInt (Time.dec n) = some (n : Int) := by
  rcases Nat.eq_zero_or_pos n with rfl | h0
  · rw [Time.dec]; decide
  · obtain ⟨k, h1, h2, r, hr⟩ := dec_head n h0
    obtain ⟨e1, e2, e3⟩ := digit_plain h1 h2
    have hu : parseUint 64 (Time.digit k :: r) = some n := by
      rw [parseUint_plain 64 e1, ← hr, digits_dec]
      simp only [Option.bind_some]
      rw [if_pos]
      exact ⟨by omega, fun hm => absurd hm (dec_no_underscore n)⟩
    rw [hr]
    unfold parseInt
    split
    · rename_i e; exact absurd (List.cons.inj e).1 e2
    · rename_i e; exact absurd (List.cons.inj e).1 e3
    · rw [hu]
      simp [h]

/-! ## The last value of a flag -/

theorem last_append (p : Parsed) (l : List (Str × Str)) (n : Str) :
    Parsed.last { p with sets := p.sets ++ l } n = ((l.reverse.find? fun e => e.1 = n).map Prod.snd).or (p.last n) := by
  simp only [Parsed.last, List.reverse_append, List.find?_append]
  cases l.reverse.find? (fun e => e.1 = n) <;> simp

theorem last_pre (p : Parsed) (l : List (Str × Str)) (n : Str) :
    (p.pre l).last n = (p.last n).or ((l.reverse.find? fun e => e.1 = n).map Prod.snd) := by
  simp only [Parsed.last, Parsed.pre, List.reverse_append, List.find?_append]
  cases p.sets.reverse.find? (fun e => e.1 = n) <;> simp

end Cli
end Verif
