import Verif.Cli.Parse
import Verif.Cli.Number
/-!
# What command lines mean (C80, C81)
-/
set_option autoImplicit false
namespace Verif
namespace Cli

/-! ## Specification -/

/-- The letters behind one dash: options that are switched on, and at most one option with a value. `none` or the option whose value is the next argument. -/
inductive Letters (fs : List Flag) : Str → List (Str × Str) → Option Flag → Prop where
  | nil : Letters fs [] [] none
  /-- `-f…` -/
  | on {f : Flag} {r : Str} {s : List (Str × Str)} {q : Option Flag} : f ∈ fs → f.short ≠ 0 → f.kind = .bool → r.head? ≠ some 61 → Letters fs r s q →
      Letters fs (f.short :: r) ((f.name, lit "true") :: s) q
  /-- `-m=TEXT` -/
  | eq {f : Flag} {v : Str} : f ∈ fs → f.short ≠ 0 → v ≠ [] → Fits f.kind v → Letters fs (f.short :: 61 :: v) [(f.name, v)] none
  /-- `-mTEXT`, but `-m=TEXT` is the form above. -/
  | joined {f : Flag} {v : Str} : f ∈ fs → f.short ≠ 0 → f.kind ≠ .bool → v ≠ [] → (v.head? = some 61 → v = lit "=") → Fits f.kind v →
      Letters fs (f.short :: v) [(f.name, v)] none
  /-- `-m`, `TEXT` -/
  | next {f : Flag} : f ∈ fs → f.short ≠ 0 → f.kind ≠ .bool → Letters fs [f.short] [] (some f)

/-- `Written fs ws s a b`: the arguments `ws` give the options `fs` the values `s`, in this order, and `a` are the arguments that are no options. `b`: `--` was among them. -/
inductive Written (fs : List Flag) : List Str → List (Str × Str) → List Str → Bool → Prop where
  | nil : Written fs [] [] [] false
  | word {w : Str} {ws : List Str} {s : List (Str × Str)} {a : List Str} {b : Bool} : w.head? ≠ some 45 ∨ w = lit "-" → Written fs ws s a b → Written fs (w :: ws) s (w :: a) b
  /-- Behind `--` there are no options. -/
  | dashes {ws : List Str} : Written fs (lit "--" :: ws) [] ws true
  /-- `--message TEXT` -/
  | long {f : Flag} {v : Str} {ws : List Str} {s : List (Str × Str)} {a : List Str} {b : Bool} : f ∈ fs → f.kind ≠ .bool → Fits f.kind v → Written fs ws s a b →
      Written fs ((lit "--" ++ f.name) :: v :: ws) ((f.name, v) :: s) a b
  /-- `--message=TEXT` -/
  | longEq {f : Flag} {v : Str} {ws : List Str} {s : List (Str × Str)} {a : List Str} {b : Bool} : f ∈ fs → Fits f.kind v → Written fs ws s a b →
      Written fs ((lit "--" ++ f.name ++ lit "=" ++ v) :: ws) ((f.name, v) :: s) a b
  /-- `--force` -/
  | longOn {f : Flag} {ws : List Str} {s : List (Str × Str)} {a : List Str} {b : Bool} : f ∈ fs → f.kind = .bool → Written fs ws s a b →
      Written fs ((lit "--" ++ f.name) :: ws) ((f.name, lit "true") :: s) a b
  /-- `-fd`, `-mTEXT` -/
  | short {l : Str} {ws : List Str} {s' s : List (Str × Str)} {a : List Str} {b : Bool} : l ≠ [] → Letters fs l s' none → Written fs ws s a b →
      Written fs ((45 :: l) :: ws) (s' ++ s) a b
  /-- `-fm TEXT` -/
  | shortNext {l v : Str} {f : Flag} {ws : List Str} {s' s : List (Str × Str)} {a : List Str} {b : Bool} : Letters fs l s' (some f) → Fits f.kind v → Written fs ws s a b →
      Written fs ((45 :: l) :: v :: ws) (s' ++ (f.name, v) :: s) a b

/-- The option is not among those that were given. -/
def Unset (s : List (Str × Str)) (n : Str) : Prop := ∀ v, (n, v) ∉ s

/-- The value that was given last. -/
def Final (s : List (Str × Str)) (n v : Str) : Prop := ∃ a b, s = a ++ (n, v) :: b ∧ Unset b n

/-- The value of an option with a default. -/
def Value (s : List (Str × Str)) (n dflt v : Str) : Prop := Final s n v ∨ Unset s n ∧ v = dflt

/-- An option without a value is on. -/
def On (s : List (Str × Str)) (n : Str) : Prop := ∃ v, Final s n v ∧ Truth v true

/-- Which branches `branch` lists: `-r` wins over `-a`. -/
inductive Wants (s : List (Str × Str)) : Listing → Prop where
  | remotes : On s (lit "remotes") → Wants s .remotes
  | all : ¬ On s (lit "remotes") → On s (lit "all") → Wants s .all
  | here : ¬ On s (lit "remotes") → ¬ On s (lit "all") → Wants s .here

/-- `Asks s c a o`: the subcommand `c` with the options `s` and the arguments `a` asks for `o`. Nothing else is accepted. -/
inductive Asks (s : List (Str × Str)) : Sub → List Str → Order → Prop where
  /-- `init [-b BRANCH]`: here; the branch is `main` if none is given. -/
  | initHere {b : Str} : Value s (lit "initial-branch") (lit "main") b → Asks s .init [] (.init (lit ".") b)
  /-- `init [-b BRANCH] DIR` -/
  | init {b dir : Str} : Value s (lit "initial-branch") (lit "main") b → Asks s .init [dir] (.init dir b)
  /-- `clone SOURCE`: to here. -/
  | cloneHere {src : Str} : Asks s .clone [src] (.clone src (lit "."))
  /-- `clone SOURCE DIR` -/
  | clone {src dir : Str} : Asks s .clone [src, dir] (.clone src dir)
  /-- `commit [-m MESSAGE]` -/
  | commit {m : Str} : Value s (lit "message") [] m → Asks s .commit [] (.commit m)
  /-- `checkout REF` -/
  | checkout {key : Str} : Asks s .checkout [key] (.checkout key)
  /-- `branch -l`, with whatever else. -/
  | listBranches {a : List Str} {w : Listing} : On s (lit "list") → Wants s w → Asks s .branch a (.listBranches w)
  /-- `branch --show-current`, with whatever else. -/
  | showCurrent {a : List Str} : ¬ On s (lit "list") → On s (lit "show-current") → Asks s .branch a .showCurrent
  /-- `branch -d [-r] NAME...` -/
  | deleteBranches {a : List Str} {r : Bool} : ¬ On s (lit "list") → ¬ On s (lit "show-current") → On s (lit "delete") → (r = true ↔ On s (lit "remotes")) → Asks s .branch a (.deleteBranches a r)
  /-- `branch` -/
  | branches {w : Listing} : ¬ On s (lit "list") → ¬ On s (lit "show-current") → ¬ On s (lit "delete") → Wants s w → Asks s .branch [] (.listBranches w)
  /-- `branch [-f] NAME`: at HEAD. -/
  | branchHead {n : Str} {f : Bool} : ¬ On s (lit "list") → ¬ On s (lit "show-current") → ¬ On s (lit "delete") → (f = true ↔ On s (lit "force")) →
      Asks s .branch [n] (.addBranch n (lit "HEAD") f)
  /-- `branch [-f] NAME REF`, with more arguments that are not looked at. -/
  | branch {n ref : Str} {more : List Str} {f : Bool} : ¬ On s (lit "list") → ¬ On s (lit "show-current") → ¬ On s (lit "delete") → (f = true ↔ On s (lit "force")) →
      Asks s .branch (n :: ref :: more) (.addBranch n ref f)
  /-- `tag -l`, with whatever else. -/
  | listTags {a : List Str} : On s (lit "list") → Asks s .tag a .listTags
  /-- `tag -d NAME...` -/
  | deleteTags {a : List Str} : ¬ On s (lit "list") → On s (lit "delete") → Asks s .tag a (.deleteTags a)
  /-- `tag` -/
  | tags : ¬ On s (lit "list") → ¬ On s (lit "delete") → Asks s .tag [] .listTags
  /-- `tag [-f] NAME`: at HEAD. -/
  | tagHead {n : Str} {f : Bool} : ¬ On s (lit "list") → ¬ On s (lit "delete") → (f = true ↔ On s (lit "force")) → Asks s .tag [n] (.addTag n (lit "HEAD") f)
  /-- `tag [-f] NAME REF`, with more arguments that are not looked at. -/
  | tag {n ref : Str} {more : List Str} {f : Bool} : ¬ On s (lit "list") → ¬ On s (lit "delete") → (f = true ↔ On s (lit "force")) → Asks s .tag (n :: ref :: more) (.addTag n ref f)
  /-- `log`: from HEAD. -/
  | logHead : Asks s .log [] (.log (lit "HEAD"))
  /-- `log REF` -/
  | log {ref : Str} : Asks s .log [ref] (.log ref)

/-! ## Parsing -/

/-- Options whose names and letters can be told apart. -/
structure Clear (fs : List Flag) : Prop where
  name : ∀ f ∈ fs, f.name ≠ [] ∧ f.name.head? ≠ some 45 ∧ (61 : UInt8) ∉ f.name
  one : ∀ f ∈ fs, ∀ g ∈ fs, f.name = g.name → f = g
  letter : ∀ f ∈ fs, ∀ g ∈ fs, f.short ≠ 0 → f.short = g.short → f = g
  sign : ∀ f ∈ fs, f.short ≠ 61 ∧ f.short ≠ 45

theorem clear_flags (c : Sub) : Clear c.flags := by
  refine ⟨?_, ?_, ?_, ?_⟩ <;> cases c <;> decide

theorem cutEq_none {s : Str} (h : (61 : UInt8) ∉ s) : cutEq s = (s, none) := by
  induction s with
  | nil => rfl
  | cons c s ih =>
    rw [List.mem_cons, not_or] at h
    rw [cutEq, if_neg (fun e => h.1 e.symm), ih h.2]

theorem cutEq_some {s v : Str} (h : (61 : UInt8) ∉ s) : cutEq (s ++ 61 :: v) = (s, some v) := by
  induction s with
  | nil => simp [cutEq]
  | cons c s ih =>
    rw [List.mem_cons, not_or] at h
    rw [List.cons_append, cutEq, if_neg (fun e => h.1 e.symm), ih h.2]

theorem cutEq_inv (s : Str) : (s = (cutEq s).1 ∧ (cutEq s).2 = none) ∨ ∃ v, (cutEq s).2 = some v ∧ s = (cutEq s).1 ++ 61 :: v := by
  induction s with
  | nil => exact Or.inl ⟨rfl, rfl⟩
  | cons c s ih =>
    rw [cutEq]
    split
    · rename_i h; exact Or.inr ⟨s, rfl, by rw [h]; rfl⟩
    · rcases ih with ⟨h1, h2⟩ | ⟨v, h1, h2⟩
      · exact Or.inl ⟨by rw [← h1], h2⟩
      · exact Or.inr ⟨v, h1, by rw [List.cons_append, ← h2]⟩

theorem find_name {fs : List Flag} (hc : Clear fs) {f : Flag} (hf : f ∈ fs) : fs.find? (fun g => g.name = f.name) = some f := by
  cases h : fs.find? (fun g => decide (g.name = f.name)) with
  | none => exact absurd (List.find?_eq_none.1 h f hf) (by simp)
  | some g => rw [hc.one g (List.mem_of_find?_eq_some h) f hf (by simpa using List.find?_some h)]

theorem find_letter {fs : List Flag} (hc : Clear fs) {f : Flag} (hf : f ∈ fs) (h0 : f.short ≠ 0) : fs.find? (fun g => g.short ≠ 0 ∧ g.short = f.short) = some f := by
  cases h : fs.find? (fun g => decide (g.short ≠ 0 ∧ g.short = f.short)) with
  | none => exact absurd (List.find?_eq_none.1 h f hf) (by simp [h0])
  | some g =>
    have := List.find?_some h
    simp only [decide_eq_true_eq] at this
    rw [hc.letter g (List.mem_of_find?_eq_some h) f hf this.1 this.2]

theorem setFlag_ok {f : Flag} {v : Str} {p : Parsed} (h : Fits f.kind v) : setFlag f v p = .ok { p with sets := p.sets ++ [(f.name, v)] } := by
  rw [setFlag, if_pos ((accepts_iff _ _).2 h)]

theorem setFlag_inv {f : Flag} {v : Str} {p p' : Parsed} (h : setFlag f v p = .ok p') : Fits f.kind v ∧ p' = { p with sets := p.sets ++ [(f.name, v)] } := by
  unfold setFlag at h
  split at h
  · rename_i ha; exact ⟨(accepts_iff _ _).1 ha, (Except.ok.inj h).symm⟩
  · cases h

theorem accepts_true {f : Flag} (h : f.kind = .bool) : Fits f.kind (lit "true") := by rw [h]; exact .bool (.yes (by decide))

theorem map_ok {ε α β : Type} {x : Except ε α} {f : α → β} {b : β} (h : x.map f = .ok b) : ∃ a, x = .ok a ∧ f a = b := by
  cases x with
  | ok a => exact ⟨a, rfl, Except.ok.inj h⟩
  | error e => cases h

theorem parseShort_of {fs : List Flag} (hc : Clear fs) {l : Str} {s : List (Str × Str)} {q : Option Flag} (h : Letters fs l s q) (p : Parsed) :
    parseShort fs l p = .ok ({ p with sets := p.sets ++ s }, q) := by
  induction h generalizing p with
  | nil => simp [parseShort]
  | @on f r s q hf h0 hb hr _ ih =>
    rw [parseShort, find_letter hc hf h0]
    simp only [hr, and_false, if_false, hb, if_true, setFlag_ok (accepts_true hb), ih, List.append_assoc, List.cons_append, List.nil_append]
  | @eq f v hf h0 hv ha =>
    rw [parseShort, find_letter hc hf h0]
    have : 1 < (61 :: v).length := by cases v with | nil => exact absurd rfl hv | cons => simp
    simp only [this, List.head?_cons, and_self, if_true, List.drop_succ_cons, List.drop_zero, setFlag_ok ha]
    rfl
  | @joined f v hf h0 hb hv he ha =>
    rw [parseShort, find_letter hc hf h0]
    have : ¬ (1 < v.length ∧ v.head? = some 61) := by
      rintro ⟨h1, h2⟩
      rw [he h2] at h1
      exact absurd h1 (by decide)
    simp only [this, if_false, hb, hv, ne_eq, not_false_eq_true, if_true, setFlag_ok ha]
    rfl
  | @next f hf h0 hb =>
    rw [parseShort, find_letter hc hf h0]
    simp [hb]

theorem letters_head {fs : List Flag} {c : UInt8} {r : Str} {s : List (Str × Str)} {q : Option Flag} (h : Letters fs (c :: r) s q) : ∃ f ∈ fs, f.short = c := by
  generalize hl : c :: r = l at h
  cases h with
  | nil => cases hl
  | on hf => exact ⟨_, hf, (List.cons.inj hl).1.symm⟩
  | eq hf => exact ⟨_, hf, (List.cons.inj hl).1.symm⟩
  | joined hf => exact ⟨_, hf, (List.cons.inj hl).1.symm⟩
  | next hf => exact ⟨_, hf, (List.cons.inj hl).1.symm⟩

theorem letters_of {fs : List Flag} (hc : Clear fs) {l : Str} {p p' : Parsed} {q : Option Flag} (h : parseShort fs l p = .ok (p', q)) :
    ∃ s, Letters fs l s q ∧ p' = { p with sets := p.sets ++ s } := by
  induction l generalizing p with
  | nil =>
    rw [parseShort] at h
    cases h
    exact ⟨[], .nil, by simp⟩
  | cons c r ih =>
    rw [parseShort] at h
    cases hf : fs.find? (fun f => decide (f.short ≠ 0 ∧ f.short = c)) with
    | none => rw [hf] at h; cases h
    | some f =>
      rw [hf] at h
      have hm := List.mem_of_find?_eq_some hf
      have hs := List.find?_some hf
      simp only [decide_eq_true_eq] at hs
      obtain ⟨h0, rfl⟩ := hs
      simp only at h
      split at h
      · rename_i hr
        obtain ⟨a, h1, h2⟩ := map_ok h
        obtain ⟨ha, rfl⟩ := setFlag_inv h1
        cases h2
        cases r with
        | nil => cases hr.2
        | cons e v =>
          cases hr.2
          exact ⟨_, .eq hm h0 (fun hv => by subst hv; exact absurd hr.1 (by decide)) ha, rfl⟩
      · rename_i hr
        split at h
        · rename_i hb
          rw [setFlag_ok (accepts_true hb)] at h
          obtain ⟨s, h1, h2⟩ := ih h
          refine ⟨(f.name, lit "true") :: s, .on hm h0 hb ?_ h1, by rw [h2]; simp⟩
          intro he
          cases r with
          | nil => cases he
          | cons e v =>
            cases he
            have : v = [] := by
              cases v with
              | nil => rfl
              | cons => exact absurd ⟨by simp, rfl⟩ hr
            subst this
            obtain ⟨g, hg, hx⟩ := letters_head h1
            exact (hc.sign g hg).1 hx
        · rename_i hb
          split at h
          · rename_i hv
            obtain ⟨a, h1, h2⟩ := map_ok h
            obtain ⟨ha, rfl⟩ := setFlag_inv h1
            cases h2
            refine ⟨_, .joined hm h0 hb hv ?_ ha, rfl⟩
            intro he
            cases r with
            | nil => cases he
            | cons e v =>
              cases he
              cases v with
              | nil => rfl
              | cons => exact absurd ⟨by simp, rfl⟩ hr
          · rename_i hv
            have : r = [] := by simpa using hv
            subst this
            cases h
            exact ⟨[], .next hm h0 hb, by simp⟩

theorem parseLong_next {fs : List Flag} (hc : Clear fs) {f : Flag} (hf : f ∈ fs) (hb : f.kind ≠ .bool) (p : Parsed) : parseLong fs f.name p = .ok (p, some f) := by
  obtain ⟨h1, h2, h3⟩ := hc.name f hf
  unfold parseLong
  cases hn : f.name with
  | nil => exact absurd hn h1
  | cons c r =>
    rw [hn] at h2 h3
    have : ¬ (c = 45 ∨ c = 61) := by
      rintro (rfl | rfl)
      · exact h2 rfl
      · exact h3 (List.mem_cons_self ..)
    simp only [this, if_false]
    rw [cutEq_none h3, ← hn, find_name hc hf]
    simp [hb]

theorem parseLong_on {fs : List Flag} (hc : Clear fs) {f : Flag} (hf : f ∈ fs) (hb : f.kind = .bool) (p : Parsed) :
    parseLong fs f.name p = .ok ({ p with sets := p.sets ++ [(f.name, lit "true")] }, none) := by
  obtain ⟨h1, h2, h3⟩ := hc.name f hf
  unfold parseLong
  cases hn : f.name with
  | nil => exact absurd hn h1
  | cons c r =>
    rw [hn] at h2 h3
    have : ¬ (c = 45 ∨ c = 61) := by
      rintro (rfl | rfl)
      · exact h2 rfl
      · exact h3 (List.mem_cons_self ..)
    simp only [this, if_false]
    rw [cutEq_none h3, ← hn, find_name hc hf]
    simp only [hb, if_true, setFlag_ok (accepts_true hb)]
    rfl

theorem parseLong_eq {fs : List Flag} (hc : Clear fs) {f : Flag} (hf : f ∈ fs) {v : Str} (ha : Fits f.kind v) (p : Parsed) :
    parseLong fs (f.name ++ 61 :: v) p = .ok ({ p with sets := p.sets ++ [(f.name, v)] }, none) := by
  obtain ⟨h1, h2, h3⟩ := hc.name f hf
  have hcut := cutEq_some (v := v) h3
  unfold parseLong
  cases hn : f.name with
  | nil => exact absurd hn h1
  | cons c r =>
    rw [hn] at h2 h3
    have : ¬ (c = 45 ∨ c = 61) := by
      rintro (rfl | rfl)
      · exact h2 rfl
      · exact h3 (List.mem_cons_self ..)
    simp only [List.cons_append, this, if_false]
    rw [hn, List.cons_append] at hcut
    simp only [hcut]
    rw [← hn, find_name hc hf]
    simp only [setFlag_ok ha]
    rfl

theorem parseLong_inv {fs : List Flag} {n : Str} {p p' : Parsed} {q : Option Flag} (h : parseLong fs n p = .ok (p', q)) :
    ∃ f ∈ fs, (n = f.name ∧ f.kind ≠ .bool ∧ p' = p ∧ q = some f) ∨
      (n = f.name ∧ f.kind = .bool ∧ p' = { p with sets := p.sets ++ [(f.name, lit "true")] } ∧ q = none) ∨
      ∃ v, n = f.name ++ 61 :: v ∧ Fits f.kind v ∧ p' = { p with sets := p.sets ++ [(f.name, v)] } ∧ q = none := by
  unfold parseLong at h
  cases n with
  | nil => cases h
  | cons c r =>
    simp only at h
    split at h
    · cases h
    · cases hf : fs.find? (fun f => decide (f.name = (cutEq (c :: r)).1)) with
      | none => rw [hf] at h; cases h
      | some f =>
        rw [hf] at h
        have hm := List.mem_of_find?_eq_some hf
        have hs : f.name = (cutEq (c :: r)).1 := by simpa using List.find?_some hf
        refine ⟨f, hm, ?_⟩
        rcases cutEq_inv (c :: r) with ⟨h1, h2⟩ | ⟨v, h1, h2⟩
        · rw [h2] at h
          simp only at h
          split at h
          · rename_i hb
            obtain ⟨a, e1, e2⟩ := map_ok h
            obtain ⟨_, rfl⟩ := setFlag_inv e1
            cases e2
            exact Or.inr (Or.inl ⟨by rw [hs, ← h1], hb, rfl, rfl⟩)
          · rename_i hb
            cases h
            exact Or.inl ⟨by rw [hs, ← h1], hb, rfl, rfl⟩
        · rw [h1] at h
          obtain ⟨a, e1, e2⟩ := map_ok h
          obtain ⟨ha, rfl⟩ := setFlag_inv e1
          cases e2
          exact Or.inr (Or.inr ⟨v, by rw [hs, ← h2], ha, rfl, rfl⟩)

theorem tok_long {fs : List Flag} {n : Str} (h : n ≠ []) (p : Parsed) : parseTok fs (lit "--" ++ n) p = (parseLong fs n p).map some := by
  cases n with
  | nil => exact absurd rfl h
  | cons c r => rfl

theorem tok_short {fs : List Flag} {c : UInt8} {r : Str} (h : c ≠ 45) (p : Parsed) : parseTok fs (45 :: c :: r) p = (parseShort fs (c :: r) p).map some := by
  unfold parseTok
  split
  · rename_i e; exact absurd (List.cons.inj (List.cons.inj e).2).1 h
  · rename_i e; exact absurd (List.cons.inj (List.cons.inj e).2).1 h
  · rename_i e; cases e; rfl
  · rename_i h1 h2 h3; exact absurd rfl (h3 _ _)

theorem tok_word {fs : List Flag} {w : Str} (h : w.head? ≠ some 45 ∨ w = lit "-") (p : Parsed) : parseTok fs w p = .ok (some ({ p with args := p.args ++ [w] }, none)) := by
  rcases h with h | rfl
  · unfold parseTok
    split
    · exact absurd rfl h
    · exact absurd rfl h
    · exact absurd rfl h
    · rfl
  · rfl

theorem parse_of {fs : List Flag} (hc : Clear fs) {ws : List Str} {s : List (Str × Str)} {a : List Str} {b : Bool} (h : Written fs ws s a b) (p : Parsed) (hp : p.dash = false) :
    parseArgs fs .none ws p = .ok ⟨p.sets ++ s, p.args ++ a, b⟩ := by
  induction h generalizing p with
  | nil => simp [parseArgs, ← hp]
  | word hw _ ih => rw [parseArgs, tok_word hw]; simp only; refine (ih _ (by exact hp)).trans ?_; simp
  | dashes => simp [parseArgs, parseTok, lit]
  | @long f v _ _ _ _ hf hb ha _ ih =>
    rw [parseArgs, tok_long (hc.name f hf).1, parseLong_next hc hf hb]
    simp only [Except.map, parseArgs, setFlag_ok ha]
    refine (ih _ (by exact hp)).trans ?_; simp
  | @longEq f v _ _ _ _ hf ha _ ih =>
    rw [parseArgs, List.append_assoc, List.append_assoc, tok_long (by simp [(hc.name f hf).1]), show lit "=" ++ v = 61 :: v from rfl, parseLong_eq hc hf ha]
    simp only [Except.map]
    refine (ih _ (by exact hp)).trans ?_; simp
  | @longOn f _ _ _ _ hf hb _ ih =>
    rw [parseArgs, tok_long (hc.name f hf).1, parseLong_on hc hf hb]
    simp only [Except.map]
    refine (ih _ (by exact hp)).trans ?_; simp
  | @short l _ _ _ _ _ hl hs _ ih =>
    cases l with
    | nil => exact absurd rfl hl
    | cons c r =>
      obtain ⟨g, hg, hx⟩ := letters_head hs
      rw [parseArgs, tok_short (hx ▸ (hc.sign g hg).2), parseShort_of hc hs]
      simp only [Except.map]
      refine (ih _ (by exact hp)).trans ?_; simp
  | @shortNext l v f _ _ _ _ _ hs ha _ ih =>
    cases l with
    | nil => cases hs
    | cons c r =>
      obtain ⟨g, hg, hx⟩ := letters_head hs
      rw [parseArgs, tok_short (hx ▸ (hc.sign g hg).2), parseShort_of hc hs]
      simp only [Except.map, parseArgs, setFlag_ok ha]
      refine (ih _ (by exact hp)).trans ?_; simp

theorem tok_inv {fs : List Flag} (hc : Clear fs) {w : Str} {p : Parsed} {o : Option (Parsed × Option Flag)} (h : parseTok fs w p = .ok o) :
    (w = lit "--" ∧ o = none) ∨ ((w.head? ≠ some 45 ∨ w = lit "-") ∧ o = some ({ p with args := p.args ++ [w] }, none)) ∨
    (∃ n p' q, w = lit "--" ++ n ∧ n ≠ [] ∧ parseLong fs n p = .ok (p', q) ∧ o = some (p', q)) ∨
    ∃ l s q, w = 45 :: l ∧ l ≠ [] ∧ Letters fs l s q ∧ o = some ({ p with sets := p.sets ++ s }, q) := by
  unfold parseTok at h
  split at h
  · exact Or.inl ⟨rfl, (Except.ok.inj h).symm⟩
  · rename_i n hn
    obtain ⟨⟨p', q⟩, h1, rfl⟩ := map_ok h
    exact Or.inr (Or.inr (Or.inl ⟨n, p', q, rfl, fun e => hn (by rw [e]), h1, rfl⟩))
  · obtain ⟨⟨p', q⟩, h1, rfl⟩ := map_ok h
    obtain ⟨s, h2, rfl⟩ := letters_of hc h1
    exact Or.inr (Or.inr (Or.inr ⟨_, s, q, rfl, by simp, h2, rfl⟩))
  · rename_i h1 h2 h3
    refine Or.inr (Or.inl ⟨?_, (Except.ok.inj h).symm⟩)
    cases w with
    | nil => exact Or.inl (by simp)
    | cons c r =>
      by_cases hcc : c = 45
      · subst hcc
        cases r with
        | nil => exact Or.inr rfl
        | cons e r => exact absurd rfl (h3 _ _)
      · exact Or.inl (by simp [hcc])

theorem written_of {fs : List Flag} (hc : Clear fs) {ws : List Str} {p p' : Parsed} (hp : p.dash = false) (h : parseArgs fs .none ws p = .ok p') :
    ∃ s a, Written fs ws s a p'.dash ∧ p'.sets = p.sets ++ s ∧ p'.args = p.args ++ a := by
  induction hn : ws.length using Nat.strongRecOn generalizing ws p with
  | ind n ih =>
    cases ws with
    | nil =>
      rw [parseArgs] at h
      cases h
      exact ⟨[], [], hp ▸ .nil, by simp, by simp⟩
    | cons w ws =>
      rw [parseArgs] at h
      cases ht : parseTok fs w p with
      | error e => rw [ht] at h; cases h
      | ok o =>
        rw [ht] at h
        have next : ∀ (p1 : Parsed) (f : Flag), p1.dash = false → parseArgs fs (some f) ws p1 = .ok p' →
            ∃ v ws' s a, ws = v :: ws' ∧ Fits f.kind v ∧ Written fs ws' s a p'.dash ∧ p'.sets = p1.sets ++ (f.name, v) :: s ∧ p'.args = p1.args ++ a := by
          intro p1 f h1 h2
          cases ws with
          | nil => rw [parseArgs] at h2; cases h2
          | cons v ws' =>
            rw [parseArgs] at h2
            cases hv : setFlag f v p1 with
            | error e => rw [hv] at h2; cases h2
            | ok p2 =>
              rw [hv] at h2
              obtain ⟨ha, rfl⟩ := setFlag_inv hv
              obtain ⟨s, a, i1, i2, i3⟩ := ih ws'.length (by rw [← hn]; simp; omega) (by exact h1) h2 rfl
              exact ⟨v, ws', s, a, rfl, ha, i1, by rw [i2]; simp, i3⟩
        have same : ∀ (p1 : Parsed), p1.dash = false → parseArgs fs .none ws p1 = .ok p' →
            ∃ s a, Written fs ws s a p'.dash ∧ p'.sets = p1.sets ++ s ∧ p'.args = p1.args ++ a :=
          fun p1 h1 h2 => ih ws.length (by rw [← hn]; simp) h1 h2 rfl
        rcases tok_inv hc ht with ⟨rfl, rfl⟩ | ⟨hw, rfl⟩ | ⟨m, p1, q, rfl, hm, hl, rfl⟩ | ⟨l, s1, q, rfl, hl, hL, rfl⟩
        · cases h
          exact ⟨[], ws, .dashes, by simp, rfl⟩
        · obtain ⟨s, a, i1, i2, i3⟩ := same _ (by exact hp) h
          exact ⟨s, w :: a, .word hw i1, i2, by rw [i3]; simp⟩
        · obtain ⟨f, hf, ⟨rfl, hb, rfl, rfl⟩ | ⟨rfl, hb, rfl, rfl⟩ | ⟨v, rfl, ha, rfl, rfl⟩⟩ := parseLong_inv hl
          · obtain ⟨v, ws', s, a, rfl, ha, i1, i2, i3⟩ := next _ f hp h
            exact ⟨_, a, .long hf hb ha i1, i2, i3⟩
          · obtain ⟨s, a, i1, i2, i3⟩ := same _ (by exact hp) h
            exact ⟨_, a, .longOn hf hb i1, by rw [i2]; simp, i3⟩
          · obtain ⟨s, a, i1, i2, i3⟩ := same _ (by exact hp) h
            refine ⟨(f.name, v) :: s, a, ?_, by rw [i2]; simp, i3⟩
            have := Written.longEq hf ha i1
            rw [List.append_assoc, List.append_assoc] at this
            exact this
        · cases q with
          | none =>
            obtain ⟨s, a, i1, i2, i3⟩ := same _ (by exact hp) h
            exact ⟨s1 ++ s, a, .short hl hL i1, by rw [i2]; simp, i3⟩
          | some f =>
            obtain ⟨v, ws', s, a, rfl, ha, i1, i2, i3⟩ := next _ f (by exact hp) h
            exact ⟨s1 ++ (f.name, v) :: s, a, .shortNext hL ha i1, by rw [i2]; simp, i3⟩

/-- Parsing finds exactly what was written. -/
theorem parse_iff {fs : List Flag} (hc : Clear fs) {ws : List Str} {p : Parsed} : parse fs ws = .ok p ↔ Written fs ws p.sets p.args p.dash := by
  constructor
  · intro h
    obtain ⟨s, a, h1, h2, h3⟩ := written_of hc rfl h
    have h2 : p.sets = s := h2
    have h3 : p.args = a := h3
    rw [h2, h3]
    exact h1
  · intro h
    exact parse_of hc h .none rfl

/-! ## The place of the subcommand -/

theorem clear_global : Clear globalFlags := by refine ⟨?_, ?_, ?_, ?_⟩ <;> decide

theorem find_skip {args a : List Str} {c : Sub} (h : find args = some (c, a)) {t : Str} (ht : takesNext globalFlags t = false) (hd : t ≠ lit "--") (hh : t.head? = some 45) :
    find (t :: args) = some (c, t :: a) := by
  obtain ⟨x, ws, h1, h2, h3⟩ := find_inv h
  refine find_of (x := x) (ws := ws) ?_ h2 ?_
  · rw [stripFlags, if_neg hd, ht]
    simp [hh, h1]
  · rw [minusFirst, if_neg hd, ht]
    simp [hh, h3]

theorem global_kind : ∀ f ∈ globalFlags, f.kind ≠ .bool := by decide

theorem takes_long {f : Flag} (hf : f ∈ globalFlags) : takesNext globalFlags (lit "--" ++ f.name) = true := by
  revert f; decide

theorem takes_eq {f : Flag} (v : Str) : takesNext globalFlags (lit "--" ++ f.name ++ lit "=" ++ v) = false := by
  have : (lit "--" ++ f.name ++ lit "=" ++ v).contains 61 = true := by
    rw [List.contains_iff_mem]; simp [lit]
  show (!(lit "--" ++ f.name ++ lit "=" ++ v).contains 61 && _) = false
  rw [this]; rfl

theorem letters_global {l : Str} {s : List (Str × Str)} {q : Option Flag} (h : Letters globalFlags l s q) (hl : l ≠ []) :
    (q = none ∧ takesNext globalFlags (45 :: l) = false) ∨ ((∃ f, q = some f) ∧ takesNext globalFlags (45 :: l) = true) := by
  cases h with
  | nil => exact absurd rfl hl
  | on hf _ hb => exact absurd hb (global_kind _ hf)
  | @eq f v hf _ hv =>
    refine Or.inl ⟨rfl, ?_⟩
    revert f
    cases v with
    | nil => exact absurd rfl hv
    | cons e v => simp [globalFlags, takesNext]
  | @joined f v hf h0 _ hv =>
    refine Or.inl ⟨rfl, ?_⟩
    revert f
    cases v with
    | nil => exact absurd rfl hv
    | cons e v => simp [globalFlags, takesNext]
  | @next f hf h0 =>
    refine Or.inr ⟨⟨_, rfl⟩, ?_⟩
    revert f
    decide

theorem letters_dash {l : Str} {s : List (Str × Str)} {q : Option Flag} (h : Letters globalFlags l s q) : 45 :: l ≠ lit "--" := by
  intro e
  have e : l = [45] := (List.cons.inj e).2
  rw [e] at h
  obtain ⟨g, hg, hx⟩ := letters_head h
  exact (clear_global.sign g hg).2 hx

/-- Global options may stand in front of the subcommand. -/
theorem find_front {pre rest : List Str} {s : List (Str × Str)} (c : Sub) (h : Written globalFlags pre s [] false) :
    find (pre ++ c.name :: rest) = some (c, pre ++ rest) := by
  generalize ha : ([] : List Str) = a at h
  generalize hb : false = b at h
  induction h with
  | nil => cases c <;> rfl
  | word => cases ha
  | dashes => cases hb
  | @long f v ws s a b hf hk hv hw ih => exact find_flag (ih ha hb) v (takes_long hf) (fun e => (clear_global.name f hf).1 (List.append_right_eq_self.1 e))
  | @longEq f v ws s a b hf hv hw ih => exact find_skip (ih ha hb) (takes_eq v) (fun e => by simp [lit] at e) rfl
  | longOn hf hk => exact absurd hk (global_kind _ hf)
  | @short l ws s' s a b hl hs hw ih =>
    rcases letters_global hs hl with ⟨_, h⟩ | ⟨⟨f, hf⟩, _⟩
    · exact find_skip (ih ha hb) h (letters_dash hs) rfl
    · cases hf
  | @shortNext l v f ws s' s a b hs hv hw ih =>
    have hl : l ≠ [] := fun e => by subst e; cases hs
    rcases letters_global hs hl with ⟨hf, _⟩ | ⟨_, h⟩
    · cases hf
    · exact find_flag (ih ha hb) v h (letters_dash hs)

theorem minusFirst_split {fs : List Flag} {x : Str} {args a : List Str} {skip : Bool} (h : minusFirst fs x skip args = some a) :
    ∃ pre rest, args = pre ++ x :: rest ∧ a = pre ++ rest := by
  induction args generalizing skip a with
  | nil => cases skip <;> cases h
  | cons w ws ih =>
    have more : ∀ b, (minusFirst fs x b ws).map (w :: ·) = some a → ∃ pre rest, w :: ws = pre ++ x :: rest ∧ a = pre ++ rest := by
      intro b hb
      rw [Option.map_eq_some_iff] at hb
      obtain ⟨a', h1, rfl⟩ := hb
      obtain ⟨pre, rest, h2, rfl⟩ := ih h1
      exact ⟨w :: pre, rest, by rw [h2]; rfl, rfl⟩
    cases skip with
    | true => exact more _ h
    | false =>
      rw [minusFirst] at h
      split at h
      · cases h
      · split at h
        · exact more _ h
        · split at h
          · rename_i hx
            cases h
            exact ⟨[], ws, by rw [hx.2]; rfl, rfl⟩
          · exact more _ h

/-! ## What is asked for -/

theorem last_none {p : Parsed} {n : Str} : p.last n = none ↔ Unset p.sets n := by
  unfold Parsed.last Unset
  rw [Option.map_eq_none_iff, List.find?_eq_none]
  constructor
  · intro h v hv
    exact h (n, v) (List.mem_reverse.2 hv) (by simp)
  · rintro h ⟨m, v⟩ hv he
    have : m = n := by simpa using he
    exact h v (this ▸ List.mem_reverse.1 hv)

theorem last_some {p : Parsed} {n v : Str} : p.last n = some v ↔ Final p.sets n v := by
  constructor
  · intro h
    unfold Parsed.last at h
    rw [Option.map_eq_some_iff] at h
    obtain ⟨⟨m, w⟩, h1, rfl⟩ := h
    obtain ⟨hm, a, b, h2, h3⟩ := List.find?_eq_some_iff_append.1 h1
    have hm : m = n := by simpa using hm
    subst hm
    refine ⟨b.reverse, a.reverse, ?_, ?_⟩
    · have := congrArg List.reverse h2
      rw [List.reverse_reverse] at this
      rw [this]; simp
    · intro v hv
      have := h3 _ (List.mem_reverse.1 hv)
      simp at this
  · rintro ⟨a, b, h1, h2⟩
    unfold Parsed.last
    rw [h1, List.reverse_append, List.reverse_cons, List.append_assoc, List.find?_append]
    have : b.reverse.find? (fun e => decide (e.1 = n)) = none := by
      rw [List.find?_eq_none]
      rintro ⟨m, w⟩ hm he
      have : m = n := by simpa using he
      exact h2 w (this ▸ List.mem_reverse.1 hm)
    rw [this]; simp

theorem value_iff {p : Parsed} {n dflt v : Str} : Value p.sets n dflt v ↔ (p.last n).getD dflt = v := by
  unfold Value
  rw [← last_some, ← last_none]
  cases h : p.last n with
  | none => simp [eq_comm]
  | some w => simp

theorem on_iff {p : Parsed} {n : Str} : On p.sets n ↔ p.flag n = true := by
  unfold On Parsed.flag
  simp only [← last_some]
  cases h : p.last n with
  | none => simp
  | some w =>
    simp only [Option.some.injEq, exists_eq_left', Option.bind_some, ← parseBool_iff]
    cases hb : parseBool w with
    | none => simp
    | some b => simp

theorem wants_iff {p : Parsed} {w : Listing} :
    Wants p.sets w ↔ (if p.flag (lit "remotes") then Listing.remotes else if p.flag (lit "all") then .all else .here) = w := by
  constructor
  · intro h
    cases h with
    | remotes h => rw [on_iff] at h; simp [h]
    | all h1 h2 => rw [on_iff] at h1 h2; simp [h1, h2]
    | here h1 h2 => rw [on_iff] at h1 h2; simp [h1, h2]
  · intro h
    split at h
    · rename_i h1; subst h; exact .remotes (on_iff.2 h1)
    · rename_i h1
      split at h
      · rename_i h2; subst h; exact .all (fun x => h1 (on_iff.1 x)) (on_iff.2 h2)
      · rename_i h2; subst h; exact .here (fun x => h1 (on_iff.1 x)) (fun x => h2 (on_iff.1 x))

theorem asks_iff {c : Sub} {p : Parsed} {o : Order} : Asks p.sets c p.args o ↔ c.argsOk p.args.length = true ∧ Line.order ⟨c, p⟩ = o := by
  constructor
  · intro h
    generalize ha : p.args = a at h
    cases h <;> simp_all [Sub.argsOk, Line.order, on_iff, value_iff, wants_iff]
  · rintro ⟨h1, rfl⟩
    generalize ha : p.args = a at h1
    have off : ∀ {n}, ¬ p.flag n = true → ¬ On p.sets n := fun h x => h (on_iff.1 x)
    cases c with
    | init =>
      rcases a with _ | ⟨x, _ | ⟨y, t⟩⟩
      · simp only [Line.order, ha]; exact .initHere (value_iff.2 rfl)
      · simp only [Line.order, ha]; exact .init (value_iff.2 rfl)
      · simp [Sub.argsOk] at h1
    | clone =>
      rcases a with _ | ⟨x, _ | ⟨y, _ | ⟨z, t⟩⟩⟩
      · simp [Sub.argsOk] at h1
      · simp only [Line.order, ha]; exact .cloneHere
      · simp only [Line.order, ha]; exact .clone
      · simp [Sub.argsOk] at h1
    | commit =>
      rcases a with _ | ⟨x, t⟩
      · exact .commit (value_iff.2 rfl)
      · simp [Sub.argsOk] at h1
    | checkout =>
      rcases a with _ | ⟨x, _ | ⟨y, t⟩⟩
      · simp [Sub.argsOk] at h1
      · simp only [Line.order, ha]; exact .checkout
      · simp [Sub.argsOk] at h1
    | branch =>
      simp only [Line.order, ha]
      split
      · rename_i h; exact .listBranches (on_iff.2 h) (wants_iff.2 rfl)
      · rename_i h
        split
        · rename_i h2; exact .showCurrent (off h) (on_iff.2 h2)
        · rename_i h2
          split
          · rename_i h3; exact .deleteBranches (off h) (off h2) (on_iff.2 h3) on_iff.symm
          · rename_i h3
            rcases a with _ | ⟨x, _ | ⟨y, t⟩⟩
            · exact .branches (off h) (off h2) (off h3) (wants_iff.2 rfl)
            · simp only; exact .branchHead (off h) (off h2) (off h3) on_iff.symm
            · simp only; exact .branch (off h) (off h2) (off h3) on_iff.symm
    | tag =>
      simp only [Line.order, ha]
      split
      · rename_i h; exact .listTags (on_iff.2 h)
      · rename_i h
        split
        · rename_i h2; exact .deleteTags (off h) (on_iff.2 h2)
        · rename_i h2
          rcases a with _ | ⟨x, _ | ⟨y, t⟩⟩
          · exact .tags (off h) (off h2)
          · simp only; exact .tagHead (off h) (off h2) on_iff.symm
          · simp only; exact .tag (off h) (off h2) on_iff.symm
    | log =>
      rcases a with _ | ⟨x, _ | ⟨y, t⟩⟩
      · simp only [Line.order, ha]; exact .logHead
      · simp only [Line.order, ha]; exact .log
      · simp [Sub.argsOk] at h1

/-! ## C80 -/

/-- **C80.** With global options in front of the subcommand or behind it, a command line is accepted exactly if it is written by the rules, does not ask for help and has a
meaning; it asks for that. -/
theorem C80_means {pre rest : List Str} {s0 : List (Str × Str)} (c : Sub) (h : Written globalFlags pre s0 [] false) (o : Order) :
    (∃ l, line (pre ++ c.name :: rest) = .ok l ∧ l.order = o) ↔
      ∃ s a b, Written c.flags (pre ++ rest) s a b ∧ ¬ On s (lit "help") ∧ Asks s c a o := by
  constructor
  · rintro ⟨⟨c', p⟩, h1, rfl⟩
    obtain ⟨a, h2, h3, h4, h5⟩ := line_inv h1
    rw [find_front c h] at h2
    cases h2
    refine ⟨_, _, _, (parse_iff (clear_flags _)).1 h3, fun x => ?_, asks_iff.2 ⟨h5, rfl⟩⟩
    have := on_iff.1 x
    rw [h4] at this
    cases this
  · rintro ⟨s, a, b, h1, h2, h3⟩
    obtain ⟨h4, h5⟩ := (asks_iff (p := ⟨s, a, b⟩)).1 h3
    refine ⟨⟨c, ⟨s, a, b⟩⟩, line_of (find_front c h) ((parse_iff (clear_flags c) (p := ⟨s, a, b⟩)).2 h1) ?_ h4, h5⟩
    cases hf : Parsed.flag ⟨s, a, b⟩ (lit "help") with
    | false => rfl
    | true => exact absurd (on_iff.2 hf) h2

/-- **C80.** A command line has at most one meaning. -/
theorem C80_one {c : Sub} {ws : List Str} {s s' : List (Str × Str)} {a a' : List Str} {b b' : Bool} (h : Written c.flags ws s a b) (h' : Written c.flags ws s' a' b') :
    s = s' ∧ a = a' ∧ b = b' ∧ ∀ o o', Asks s c a o → Asks s' c a' o' → o = o' := by
  have h1 := (parse_iff (clear_flags c) (p := ⟨s, a, b⟩)).2 h
  have h2 := (parse_iff (clear_flags c) (p := ⟨s', a', b'⟩)).2 h'
  rw [h1] at h2
  cases h2
  exact ⟨rfl, rfl, rfl, fun o o' i i' => ((asks_iff (p := ⟨s, a, b⟩)).1 i).2.symm.trans ((asks_iff (p := ⟨s, a, b⟩)).1 i').2⟩

/-- **C80.** Global options mean the same in front of the subcommand and behind it. -/
theorem C80_front {pre rest : List Str} {s0 : List (Str × Str)} (c : Sub) (h : Written globalFlags pre s0 [] false) (cwd : Str) :
    asRoot cwd (pre ++ c.name :: rest) = asRoot cwd (c.name :: (pre ++ rest)) := by
  have h2 : find (c.name :: (pre ++ rest)) = some (c, pre ++ rest) := find_front (pre := []) c .nil
  unfold asRoot line
  rw [find_front c h, h2]

/-- **C80.** Every command line that is accepted is a subcommand among words that are written by the rules. -/
theorem C80_only {args : List Str} {l : Line} (h : line args = .ok l) :
    ∃ pre rest s a b, args = pre ++ l.sub.name :: rest ∧ Written l.sub.flags (pre ++ rest) s a b ∧ ¬ On s (lit "help") ∧ Asks s l.sub a l.order := by
  obtain ⟨a, h2, h3, h4, h5⟩ := line_inv h
  obtain ⟨x, ws, _, e2, e3⟩ := find_inv h2
  obtain ⟨pre, rest, rfl, rfl⟩ := minusFirst_split e3
  have hx : l.sub.name = x := by simpa using List.find?_some e2
  refine ⟨pre, rest, _, _, _, by rw [hx], (parse_iff (clear_flags _)).1 h3, fun x => ?_, asks_iff.2 ⟨h5, rfl⟩⟩
  have := on_iff.1 x
  rw [h4] at this
  cases this

/-- The words of the subcommands, as the help lists them. -/
inductive Word : Sub → Str → Prop where
  | init : Word .init (lit "init")
  | clone : Word .clone (lit "clone")
  | commit : Word .commit (lit "commit")
  | checkout : Word .checkout (lit "checkout")
  | branch : Word .branch (lit "branch")
  | tag : Word .tag (lit "tag")
  | log : Word .log (lit "log")

/-- The options of the subcommands, as the help lists them: the long form, the letter (0 if there is none) and what the value is. -/
inductive Listed : Sub → Str → UInt8 → Kind → Prop where
  | help {c : Sub} : Listed c (lit "help") (UInt8.ofNat 'h'.toNat) .bool
  | verbose {c : Sub} : Listed c (lit "verbose") (UInt8.ofNat 'v'.toNat) .uint32
  | chdir {c : Sub} : Listed c (lit "chdir") (UInt8.ofNat 'C'.toNat) .str
  | dataRoot {c : Sub} : Listed c (lit "data-root") 0 .str
  | uid {c : Sub} : Listed c (lit "uid") 0 .int
  | gid {c : Sub} : Listed c (lit "gid") 0 .int
  | initialBranch : Listed .init (lit "initial-branch") (UInt8.ofNat 'b'.toNat) .str
  | message : Listed .commit (lit "message") (UInt8.ofNat 'm'.toNat) .str
  | list {c : Sub} : c = .branch ∨ c = .tag → Listed c (lit "list") (UInt8.ofNat 'l'.toNat) .bool
  | delete {c : Sub} : c = .branch ∨ c = .tag → Listed c (lit "delete") (UInt8.ofNat 'd'.toNat) .bool
  | force {c : Sub} : c = .branch ∨ c = .tag → Listed c (lit "force") (UInt8.ofNat 'f'.toNat) .bool
  | showCurrent : Listed .branch (lit "show-current") 0 .bool
  | remotes : Listed .branch (lit "remotes") (UInt8.ofNat 'r'.toNat) .bool
  | all : Listed .branch (lit "all") (UInt8.ofNat 'a'.toNat) .bool

/-- **C80.** The subcommands are called what the help says. -/
theorem C80_words (c : Sub) (w : Str) : c.name = w ↔ Word c w := by
  constructor
  · rintro rfl; cases c <;> constructor
  · intro h; cases h <;> rfl

/-- **C80.** Each subcommand has just the options that the help lists, with their letters and their kinds of value. -/
theorem C80_options (c : Sub) (f : Flag) : f ∈ c.flags ↔ Listed c f.name f.short f.kind := by
  constructor
  · have glob : ∀ c : Sub, ∀ f ∈ globalFlags ++ [helpFlag], Listed c f.name f.short f.kind := by
      intro c
      simp only [globalFlags, helpFlag, List.cons_append, List.nil_append, List.forall_mem_cons]
      exact ⟨.verbose, .chdir, .dataRoot, .uid, .gid, .help, fun _ h => nomatch h⟩
    have own : ∀ f ∈ c.ownFlags, Listed c f.name f.short f.kind := by
      cases c <;> simp only [Sub.ownFlags, List.forall_mem_cons]
      · exact ⟨.initialBranch, fun _ h => nomatch h⟩
      · exact fun _ h => nomatch h
      · exact ⟨.message, fun _ h => nomatch h⟩
      · exact fun _ h => nomatch h
      · exact ⟨.list (by simp), .showCurrent, .delete (by simp), .remotes, .all, .force (by simp), fun _ h => nomatch h⟩
      · exact ⟨.list (by simp), .delete (by simp), .force (by simp), fun _ h => nomatch h⟩
      · exact fun _ h => nomatch h
    intro h
    rw [Sub.flags, List.append_assoc] at h
    rcases List.mem_append.1 h with h | h
    · exact own f h
    · exact glob c f h
  · obtain ⟨n, s, k⟩ := f
    intro h
    simp only at h
    cases h with
    | list h => rcases h with rfl | rfl <;> decide
    | delete h => rcases h with rfl | rfl <;> decide
    | force h => rcases h with rfl | rfl <;> decide
    | _ => first | decide | (cases c <;> decide)

/-- The global options (`--help` of the program): the data directory, the directory to go to, the verbosity, the owner of new files. -/
structure Means (cwd : Str) (s : List (Str × Str)) (c : Sub) (a : List Str) (j : Job) : Prop where
  help : ¬ On s (lit "help")
  order : Asks s c a j.order
  verbosity : ∃ v n, Value s (lit "verbose") (lit "0") v ∧ Spelt v n ∧ n ≤ 2
  cwd : ∃ v, Value s (lit "chdir") [] v ∧ j.cwd = if v = [] then cwd else Path.abs cwd v
  root : ∃ v, Value s (lit "data-root") (lit "/var/lib/stackcrisp") v ∧ j.root = Path.abs j.cwd v
  uid : ∃ v, Value s (lit "uid") (lit "-1") v ∧ SpeltInt v j.uid
  gid : ∃ v, Value s (lit "gid") (lit "-1") v ∧ SpeltInt v j.gid

/-- The values of the options have been accepted. -/
theorem letters_accepts {fs : List Flag} {l : Str} {s : List (Str × Str)} {q : Option Flag} (h : Letters fs l s q) : ∀ n v, (n, v) ∈ s → ∃ f ∈ fs, f.name = n ∧ Fits f.kind v := by
  induction h with
  | nil => intro n v h; cases h
  | on hf _ hb _ _ ih =>
    intro n v h
    rcases List.mem_cons.1 h with e | h
    · cases e; exact ⟨_, hf, rfl, accepts_true hb⟩
    · exact ih n v h
  | eq hf _ _ ha => intro n v h; cases List.mem_singleton.1 h; exact ⟨_, hf, rfl, ha⟩
  | joined hf _ _ _ _ ha => intro n v h; cases List.mem_singleton.1 h; exact ⟨_, hf, rfl, ha⟩
  | next => intro n v h; cases h

theorem letters_fst {fs : List Flag} {l : Str} {s : List (Str × Str)} {f : Flag} (h : Letters fs l s (some f)) : f ∈ fs := by
  generalize hq : some f = q at h
  induction h with
  | nil => cases hq
  | on _ _ _ _ _ ih => exact ih hq
  | eq => cases hq
  | joined => cases hq
  | next hf => cases hq; exact hf

theorem written_accepts {fs : List Flag} {ws : List Str} {s : List (Str × Str)} {a : List Str} {b : Bool} (h : Written fs ws s a b) :
    ∀ n v, (n, v) ∈ s → ∃ f ∈ fs, f.name = n ∧ Fits f.kind v := by
  have fst : ∀ {f : Flag} {x : Str} {t : List (Str × Str)}, f ∈ fs → Fits f.kind x → (∀ n v, (n, v) ∈ t → ∃ f ∈ fs, f.name = n ∧ Fits f.kind v) →
      ∀ n v, (n, v) ∈ (f.name, x) :: t → ∃ f ∈ fs, f.name = n ∧ Fits f.kind v := by
    intro f x t hf ha ih n v h
    rcases List.mem_cons.1 h with e | h
    · cases e; exact ⟨_, hf, rfl, ha⟩
    · exact ih n v h
  induction h with
  | nil => intro n v h; cases h
  | word _ _ ih => exact ih
  | dashes => intro n v h; cases h
  | long hf _ ha _ ih => exact fst hf ha ih
  | longEq hf ha _ ih => exact fst hf ha ih
  | longOn hf hb _ ih => exact fst hf (accepts_true hb) ih
  | short _ hl _ ih =>
    intro n v h
    rcases List.mem_append.1 h with h | h
    · exact letters_accepts hl n v h
    · exact ih n v h
  | @shortNext l v f _ _ _ _ _ hl ha _ ih =>
    intro n v h
    rcases List.mem_append.1 h with h | h
    · exact letters_accepts hl n v h
    · exact fst (letters_fst hl) ha ih n v h

/-- A value that was given to an option of a kind. -/
theorem final_accepts {c : Sub} {ws : List Str} {s : List (Str × Str)} {a : List Str} {b : Bool} (h : Written c.flags ws s a b) {f : Flag} (hf : f ∈ c.flags) {dflt v : Str}
    (hd : Fits f.kind dflt) (hv : Value s f.name dflt v) : Fits f.kind v := by
  rcases hv with ⟨x, y, rfl, _⟩ | ⟨_, rfl⟩
  · obtain ⟨g, hg, e, ha⟩ := written_accepts h f.name v (by simp)
    exact (clear_flags c).one g hg f hf e ▸ ha
  · exact hd

theorem getD_bind {α : Type} {o : Option Str} {dflt : Str} {g : Str → Option α} {x : α} (hd : g dflt = some x) {y : α} (h : g (o.getD dflt) = some y) : (o.bind g).getD x = y := by
  cases o with
  | none => rw [Option.getD_none, hd] at h; exact Option.some.inj h
  | some v => rw [Option.getD_some] at h; rw [Option.bind_some, h]; rfl

theorem final_number {α : Type} {c : Sub} {ws : List Str} {p : Parsed} (h : Written c.flags ws p.sets p.args p.dash) {f : Flag} (hf : f ∈ c.flags) {g : Str → Option α}
    (hk : ∀ v, f.kind.accepts v = (g v).isSome) {dflt : Str} {x : α} (hd : g dflt = some x) :
    ∃ v, Value p.sets f.name dflt v ∧ g v = some (((p.last f.name).bind g).getD x) := by
  have h1 := final_accepts h hf (dflt := dflt) ((accepts_iff _ _).1 (by rw [hk, hd]; rfl)) (value_iff.2 rfl)
  rw [← accepts_iff, hk, Option.isSome_iff_exists] at h1
  obtain ⟨y, hy⟩ := h1
  exact ⟨_, value_iff.2 rfl, by rw [hy, getD_bind hd hy]⟩

theorem value_one {s : List (Str × Str)} {n dflt v w : Str} (h : Value s n dflt v) (h' : Value s n dflt w) : v = w := by
  have h := value_iff (p := ⟨s, [], false⟩).1 h
  have h' := value_iff (p := ⟨s, [], false⟩).1 h'
  exact h.symm.trans h'

theorem global_mem (c : Sub) {f : Flag} (h : f ∈ globalFlags) : f ∈ c.flags := List.mem_append_left _ (List.mem_append_right _ h)

/-- **C80.** The same with the global options: what a process that runs as root does. -/
theorem C80_job {pre rest : List Str} {s0 : List (Str × Str)} (c : Sub) (h : Written globalFlags pre s0 [] false) (cwd : Str) (j : Job) :
    asRoot cwd (pre ++ c.name :: rest) = .ok j ↔ ∃ s a b, Written c.flags (pre ++ rest) s a b ∧ Means cwd s c a j := by
  have num : ∀ {c : Sub} {p : Parsed}, Written c.flags (pre ++ rest) p.sets p.args p.dash →
      (∃ v, Value p.sets (lit "verbose") (lit "0") v ∧ parseUint 32 v = some (Line.global ⟨c, p⟩).verbosity) ∧
      (∃ v, Value p.sets (lit "uid") (lit "-1") v ∧ parseInt v = some (Line.global ⟨c, p⟩).uid) ∧
      ∃ v, Value p.sets (lit "gid") (lit "-1") v ∧ parseInt v = some (Line.global ⟨c, p⟩).gid := fun {c p} hw =>
    ⟨final_number hw (f := ⟨lit "verbose", 118, .uint32⟩) (global_mem c (by decide)) (g := parseUint 32) (fun _ => rfl) (dflt := lit "0") (x := 0) (by decide),
     final_number hw (f := ⟨lit "uid", 0, .int⟩) (global_mem c (by decide)) (g := parseInt) (fun _ => rfl) (dflt := lit "-1") (x := -1) (by decide),
     final_number hw (f := ⟨lit "gid", 0, .int⟩) (global_mem c (by decide)) (g := parseInt) (fun _ => rfl) (dflt := lit "-1") (x := -1) (by decide)⟩
  constructor
  · intro hj
    unfold asRoot at hj
    cases hl : line (pre ++ c.name :: rest) with
    | error e => rw [hl] at hj; cases hj
    | ok l =>
      rw [hl] at hj
      obtain ⟨c', p⟩ := l
      obtain ⟨a, h2, h3, h4, h5⟩ := line_inv hl
      rw [find_front c h] at h2
      cases h2
      have hw := (parse_iff (clear_flags _)).1 h3
      simp only at hj
      split at hj
      · cases hj
      · rename_i hv
        cases hj
        obtain ⟨⟨v, n1, n2⟩, n3, n4⟩ := num hw
        rw [parseUint_iff] at n2
        simp only [parseInt_iff] at n3 n4
        refine ⟨_, _, _, hw, ⟨fun x => ?_, asks_iff.2 ⟨h5, rfl⟩, ⟨v, _, n1, n2.1, Nat.le_of_not_lt hv⟩, ⟨_, value_iff.2 rfl, rfl⟩, ⟨_, value_iff.2 rfl, rfl⟩, n3, n4⟩⟩
        have := on_iff.1 x
        rw [h4] at this
        cases this
  · rintro ⟨s, a, b, hw, hm⟩
    have hw : Written c.flags (pre ++ rest) (Parsed.mk s a b).sets (Parsed.mk s a b).args (Parsed.mk s a b).dash := hw
    obtain ⟨h4, h5⟩ := (asks_iff (p := ⟨s, a, b⟩)).1 hm.order
    have hl : line (pre ++ c.name :: rest) = .ok ⟨c, ⟨s, a, b⟩⟩ := by
      refine line_of (find_front c h) ((parse_iff (clear_flags c) (p := ⟨s, a, b⟩)).2 hw) ?_ h4
      cases hf : Parsed.flag ⟨s, a, b⟩ (lit "help") with
      | false => rfl
      | true => exact absurd (on_iff.2 hf) hm.help
    obtain ⟨⟨v1, n1, n2⟩, ⟨v2, n3, n4⟩, v3, n5, n6⟩ := num hw
    obtain ⟨v, n, m1, m2, m3⟩ := hm.verbosity
    have m2 := (parseUint_iff 32 v n).2 ⟨m2, by omega⟩
    rw [value_one m1 n1, n2] at m2
    have hverb : ¬ 2 < (Line.global ⟨c, ⟨s, a, b⟩⟩).verbosity := by have := Option.some.inj m2; omega
    unfold asRoot
    rw [hl]
    simp only [hverb, if_false, Except.ok.injEq]
    obtain ⟨v, k1, k2⟩ := hm.cwd
    have k1 := value_iff (p := ⟨s, a, b⟩).1 k1
    obtain ⟨r, k3, k4⟩ := hm.root
    have k3 := value_iff (p := ⟨s, a, b⟩).1 k3
    obtain ⟨u, k5, k6⟩ := hm.uid
    rw [value_one k5 n3, ← parseInt_iff, n4] at k6
    obtain ⟨w, k7, k8⟩ := hm.gid
    rw [value_one k7 n5, ← parseInt_iff, n6] at k8
    have hcwd : goTo cwd (Line.global ⟨c, ⟨s, a, b⟩⟩).chdir = j.cwd := by rw [k2, ← k1]; rfl
    obtain ⟨jr, ju, jg, jc, jo⟩ := j
    simp only [Line.job, Job.mk.injEq]
    refine ⟨?_, Option.some.inj k6, Option.some.inj k8, hcwd, h5⟩
    have k4 : jr = Path.abs jc r := k4
    have hcwd : goTo cwd (Line.global ⟨c, ⟨s, a, b⟩⟩).chdir = jc := hcwd
    rw [hcwd, k4, ← k3]
    rfl

/-! ## Examples -/

/-- `-C/srv branch -fl --remotes=false` lists the branches of the workspace at `/srv`. -/
example (cwd : Str) : ∃ j, asRoot cwd [lit "-C/srv", lit "branch", lit "-fl", lit "--remotes=false"] = .ok j ∧ j.order = .listBranches .here ∧ j.cwd = Path.abs cwd (lit "/srv") :=
  ⟨_, rfl, rfl, rfl⟩

/-- `C80_means` and `C80_job`: the words of that line. -/
example : Written globalFlags [lit "-C/srv"] [(lit "chdir", lit "/srv")] [] false ∧
    Written (Sub.flags .branch) ([lit "-C/srv"] ++ [lit "-fl", lit "--remotes=false"])
      [(lit "chdir", lit "/srv"), (lit "force", lit "true"), (lit "list", lit "true"), (lit "remotes", lit "false")] [] false :=
  ⟨(parse_iff clear_global (p := ⟨[(lit "chdir", lit "/srv")], [], false⟩)).1 rfl,
   (parse_iff (clear_flags .branch) (p := ⟨[(lit "chdir", lit "/srv"), (lit "force", lit "true"), (lit "list", lit "true"), (lit "remotes", lit "false")], [], false⟩)).1 rfl⟩

/-- `commit now` is refused: it has no meaning. -/
example (s : List (Str × Str)) (o : Order) : ¬ Asks s .commit [lit "now"] o := by intro h; cases h

end Cli
end Verif
