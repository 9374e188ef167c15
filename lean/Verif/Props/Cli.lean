import Verif.Cli.Parse
import Verif.World.Reads
/-!
# The command line (C64, C65, C66, C67, C68)
-/
set_option autoImplicit false
namespace Verif
namespace Cli

/-! ## C64: running as a user -/

theorem tok_uid (c : Sub) (p : Parsed) : parseTok c.flags (lit "--uid") p = .ok (some (p, some ⟨lit "uid", 0, .int⟩)) := by cases c <;> rfl
theorem tok_gid (c : Sub) (p : Parsed) : parseTok c.flags (lit "--gid") p = .ok (some (p, some ⟨lit "gid", 0, .int⟩)) := by cases c <;> rfl

theorem parse_extra (c : Sub) {uid gid : Nat} (hu : uid < 2 ^ 63) (hg : gid < 2 ^ 63) (p : Parsed) :
    parseArgs c.flags .none (extraArgs uid gid) p = .ok { p with sets := p.sets ++ [(lit "uid", Time.dec uid), (lit "gid", Time.dec gid)] } := by
  simp only [extraArgs, parseArgs, tok_uid, tok_gid, setFlag, Kind.accepts, parseInt_dec hu, parseInt_dec hg, Option.isSome_some, if_true,
    List.append_assoc, List.cons_append, List.nil_append]

theorem last_extra (p : Parsed) (u g : Str) {n : Str} (h1 : n ≠ lit "uid") (h2 : n ≠ lit "gid") :
    Parsed.last { p with sets := p.sets ++ [(lit "uid", u), (lit "gid", g)] } n = p.last n := by
  rw [last_append]
  simp [Ne.symm h1, Ne.symm h2]

theorem flag_extra (p : Parsed) (u g : Str) {n : Str} (h1 : n ≠ lit "uid") (h2 : n ≠ lit "gid") :
    Parsed.flag { p with sets := p.sets ++ [(lit "uid", u), (lit "gid", g)] } n = p.flag n := by
  simp only [Parsed.flag, last_extra p u g h1 h2]

theorem line_extra {args : List Str} {l : Line} (h : line args = .ok l) (hd : l.parsed.dash = false) {uid gid : Nat} (hu : uid < 2 ^ 63) (hg : gid < 2 ^ 63) :
    line (args ++ extraArgs uid gid) = .ok ⟨l.sub, { l.parsed with sets := l.parsed.sets ++ [(lit "uid", Time.dec uid), (lit "gid", Time.dec gid)] }⟩ := by
  obtain ⟨a, h1, h2, h3, h4⟩ := line_inv h
  refine line_of (find_append h1 _) ?_ ?_ h4
  · rw [parse, parseArgs_append _ h2 hd, parse_extra l.sub hu hg]
  · rw [flag_extra _ _ _ (by decide) (by decide)]; exact h3

theorem order_extra (l : Line) (u g : Str) :
    Line.order ⟨l.sub, { l.parsed with sets := l.parsed.sets ++ [(lit "uid", u), (lit "gid", g)] }⟩ = l.order := by
  obtain ⟨c, p⟩ := l
  simp only [Line.order, last_extra p u g (n := lit "initial-branch") (by decide) (by decide), last_extra p u g (n := lit "message") (by decide) (by decide),
    flag_extra p u g (n := lit "remotes") (by decide) (by decide), flag_extra p u g (n := lit "all") (by decide) (by decide),
    flag_extra p u g (n := lit "list") (by decide) (by decide), flag_extra p u g (n := lit "show-current") (by decide) (by decide),
    flag_extra p u g (n := lit "delete") (by decide) (by decide), flag_extra p u g (n := lit "force") (by decide) (by decide)]

theorem global_extra (l : Line) {uid gid : Nat} (hu : uid < 2 ^ 63) (hg : gid < 2 ^ 63) :
    Line.global ⟨l.sub, { l.parsed with sets := l.parsed.sets ++ [(lit "uid", Time.dec uid), (lit "gid", Time.dec gid)] }⟩ =
      { l.global with uid := uid, gid := gid } := by
  obtain ⟨c, p⟩ := l
  have e1 : Parsed.last { p with sets := p.sets ++ [(lit "uid", Time.dec uid), (lit "gid", Time.dec gid)] } (lit "uid") = some (Time.dec uid) := by
    rw [last_append]
    rfl
  have e2 : Parsed.last { p with sets := p.sets ++ [(lit "uid", Time.dec uid), (lit "gid", Time.dec gid)] } (lit "gid") = some (Time.dec gid) := by
    rw [last_append]
    rfl
  simp only [Line.global, last_extra p _ _ (n := lit "verbose") (by decide) (by decide), last_extra p _ _ (n := lit "chdir") (by decide) (by decide),
    last_extra p _ _ (n := lit "data-root") (by decide) (by decide), e1, e2, Option.bind_some, parseInt_dec hu, parseInt_dec hg, Option.getD_some]

/-- **C64, part.** A user's command does what the same command does as root, in the same directory, except that new files belong to the user who ran it; it is refused exactly
when it is refused as root. Missing: command lines with a `--` that ends the flags (see the theorems below). -/
theorem C64_same_partial {uid gid : Nat} (h0 : uid ≠ 0) (hu : uid < 2 ^ 63) (hg : gid < 2 ^ 63) (cwd : Str) (args : List Str)
    (h : ∀ l, line args = .ok l → l.sub ≠ .log ∧ l.parsed.dash = false) :
    asUser uid gid cwd args = (asRoot cwd args).map fun j => { j with uid := uid, gid := gid } := by
  unfold asUser asRoot
  cases hl : line args with
  | error e => rfl
  | ok l =>
    obtain ⟨h1, h2⟩ := h l hl
    simp only
    have hr : l.sub.asRoot = true := by
      cases hs : l.sub with
      | log => exact absurd hs h1
      | _ => rfl
    split
    · rfl
    · rename_i hv
      rw [if_pos ⟨hr, h0⟩, line_extra hl h2 hu hg]
      simp only [global_extra l hu hg, if_neg hv, Except.map]
      simp only [Line.job, global_extra l hu hg, order_extra]

/-- **C64.** A process of root, and every `log`, does not switch. -/
theorem C64_root {uid gid : Nat} (cwd : Str) (args : List Str) (h : uid = 0 ∨ ∀ l, line args = .ok l → l.sub = .log) : asUser uid gid cwd args = asRoot cwd args := by
  unfold asUser asRoot
  cases hl : line args with
  | error e => rfl
  | ok l =>
    simp only
    split
    · rfl
    · rw [if_neg]
      rintro ⟨h1, h2⟩
      rcases h with h | h
      · exact h2 h
      · rw [h l hl] at h1; cases h1

theorem line_dash {args : List Str} {l : Line} (h : line args = .ok l) (hd : l.parsed.dash = true) (more : List Str) :
    ∃ a, find (args ++ more) = some (l.sub, a ++ more) ∧ parse l.sub.flags (a ++ more) = .ok { l.parsed with args := l.parsed.args ++ more } := by
  obtain ⟨a, h1, h2, _, _⟩ := line_inv h
  exact ⟨a, find_append h1 _, parseArgs_dash more rfl h2 hd⟩

/-- **C64 does not hold.** If the user's command line ends the flags with `--`, then `init`, `clone`, `commit` and `checkout` are refused although root may run them:
the four words that the program adds count as arguments. -/
theorem C64_violated_refused {uid gid : Nat} (h0 : uid ≠ 0) (cwd : Str) {args : List Str} {l : Line} (h : line args = .ok l) (hd : l.parsed.dash = true)
    (hs : l.sub = .init ∨ l.sub = .clone ∨ l.sub = .commit ∨ l.sub = .checkout) (hv : l.global.verbosity ≤ 2) :
    asUser uid gid cwd args = .error .args ∧ asRoot cwd args = .ok (l.job cwd) := by
  obtain ⟨a, h1, h2⟩ := line_dash h hd (extraArgs uid gid)
  obtain ⟨_, _, _, h3, _⟩ := line_inv h
  have hv' : ¬ 2 < l.global.verbosity := by omega
  have hr : l.sub.asRoot = true := by rcases hs with e | e | e | e <;> rw [e] <;> rfl
  have hn : l.sub.argsOk (l.parsed.args ++ extraArgs uid gid).length = false := by
    rw [List.length_append]
    have : (extraArgs uid gid).length = 4 := rfl
    rw [this]
    rcases hs with e | e | e | e <;> rw [e] <;> simp [Sub.argsOk] <;> omega
  have hh : Parsed.flag { l.parsed with args := l.parsed.args ++ extraArgs uid gid } (lit "help") = false := h3
  constructor
  · unfold asUser
    rw [h]
    simp only
    rw [if_neg hv', if_pos ⟨hr, h0⟩]
    unfold asRoot line
    rw [h1]
    simp only
    rw [h2]
    simp only
    rw [hh, hn]
    rfl
  · unfold asRoot
    rw [h]
    simp only
    rw [if_neg hv']

/-- **C64 does not hold.** With `--` in the command line of `branch` or `tag`, the process that runs as root takes the four words for names and does not learn who the user is. -/
theorem C64_violated_names {uid gid : Nat} (h0 : uid ≠ 0) (cwd : Str) {args : List Str} {l : Line} (h : line args = .ok l) (hd : l.parsed.dash = true)
    (hs : l.sub = .branch ∨ l.sub = .tag) (hv : l.global.verbosity ≤ 2) :
    asUser uid gid cwd args =
      .ok { l.job cwd with order := Line.order ⟨l.sub, { l.parsed with args := l.parsed.args ++ [lit "--uid", Time.dec uid, lit "--gid", Time.dec gid] }⟩ } := by
  obtain ⟨a, h1, h2⟩ := line_dash h hd (extraArgs uid gid)
  obtain ⟨_, _, _, h3, _⟩ := line_inv h
  have hv' : ¬ 2 < l.global.verbosity := by omega
  have hr : l.sub.asRoot = true := by rcases hs with e | e <;> rw [e] <;> rfl
  have hn : ∀ n, l.sub.argsOk n = true := by rcases hs with e | e <;> rw [e] <;> intro n <;> rfl
  have hh : Parsed.flag { l.parsed with args := l.parsed.args ++ extraArgs uid gid } (lit "help") = false := h3
  unfold asUser
  rw [h]
  simp only
  rw [if_neg hv', if_pos ⟨hr, h0⟩]
  unfold asRoot line
  simp only [h1, h2, hh, hn]
  simp only [if_true, Bool.false_eq_true, if_false]
  have hg : (Line.global ⟨l.sub, { l.parsed with args := l.parsed.args ++ extraArgs uid gid }⟩) = l.global := rfl
  rw [hg, if_neg hv']
  rfl

/-- **C64 does not hold.** `branch -- name`, which as root makes the branch from `HEAD`, makes it from `--uid` when a user runs it, so that it fails unless there is a tag or branch
with this name. -/
theorem C64_violated_branch {uid gid : Nat} (h0 : uid ≠ 0) (cwd name : Str) :
    ∃ j k, asRoot cwd [lit "branch", lit "--", name] = .ok j ∧ j.order = .addBranch name (lit "HEAD") false ∧
      asUser uid gid cwd [lit "branch", lit "--", name] = .ok k ∧ k.order = .addBranch name (lit "--uid") false ∧ k.uid = -1 := by
  have hl : line [lit "branch", lit "--", name] = .ok ⟨.branch, ⟨[], [name], true⟩⟩ := rfl
  refine ⟨Line.job ⟨.branch, ⟨[], [name], true⟩⟩ cwd, _, ?_, rfl, C64_violated_names h0 cwd hl rfl (Or.inl rfl) (Nat.zero_le _), rfl, rfl⟩
  unfold asRoot
  rw [hl]
  rfl

/-- **C64 does not hold.** `tag -d -- name`, run by a user, deletes the tag and goes on with `--uid`. -/
theorem C64_violated_untag {uid gid : Nat} (h0 : uid ≠ 0) (cwd name : Str) :
    ∃ k, asUser uid gid cwd [lit "tag", lit "-d", lit "--", name] = .ok k ∧ k.order = .deleteTags [name, lit "--uid", Time.dec uid, lit "--gid", Time.dec gid] := by
  have hl : line [lit "tag", lit "-d", lit "--", name] = .ok ⟨.tag, ⟨[(lit "delete", lit "true")], [name], true⟩⟩ := rfl
  exact ⟨_, C64_violated_names h0 cwd hl rfl (Or.inr rfl) (Nat.zero_le _), rfl⟩

/-- The hypotheses of `C64_same_partial` are met: a user commits in another directory. -/
example : asUser 1000 100 (lit "/home") [lit "-C", lit "w", lit "commit", lit "-m", lit "x"] =
    .ok ⟨lit "/var/lib/stackcrisp", 1000, 100, lit "/home/w", .commit (lit "x")⟩ := by
  have hl : line [lit "-C", lit "w", lit "commit", lit "-m", lit "x"] = .ok ⟨.commit, ⟨[(lit "chdir", lit "w"), (lit "message", lit "x")], [], false⟩⟩ := rfl
  rw [C64_same_partial (by decide) (by decide) (by decide) _ _ (fun l h => by rw [hl] at h; cases h; exact ⟨by decide, rfl⟩)]
  unfold asRoot
  rw [hl]
  rfl

/-- `checkout -- main` of a user is refused. -/
example : asUser 1000 100 (lit "/home") [lit "checkout", lit "--", lit "main"] = .error .args :=
  (C64_violated_refused (l := ⟨.checkout, ⟨[], [lit "main"], true⟩⟩) (by decide) _ rfl rfl (Or.inr (Or.inr (Or.inr rfl))) (by decide)).1

/-! ## C66: messages -/

/-- Texts as separate paragraphs. -/
def paragraphs : List Str → Str
  | [] => []
  | [m] => m
  | m :: ms => m ++ lit "\n\n" ++ paragraphs ms

/-- The values that a flag was given, in order. -/
def Parsed.values (p : Parsed) (name : Str) : List Str := (p.sets.filter fun e => e.1 = name).map Prod.snd

theorem last_values (p : Parsed) (name : Str) : p.last name = (p.values name).getLast? := by
  unfold Parsed.last Parsed.values
  generalize p.sets = l
  rw [← List.head?_reverse, ← List.map_reverse, ← List.filter_reverse]
  generalize l.reverse = l
  induction l with
  | nil => rfl
  | cons e l ih =>
    by_cases h : e.1 = name
    · rw [List.find?_cons_of_pos (by simpa using h), List.filter_cons_of_pos (by simpa using h)]; rfl
    · rw [List.find?_cons_of_neg (by simpa using h), List.filter_cons_of_neg (by simpa using h)]; exact ih

/-- **C66, part.** The message of a commit is the one that `-m` gave, or empty if there is none. Missing: several `-m`, which the help text says are put together as paragraphs. -/
theorem C66_message_partial {l : Line} (hs : l.sub = .commit) (h : (l.parsed.values (lit "message")).length ≤ 1) :
    l.order = .commit (paragraphs (l.parsed.values (lit "message"))) := by
  unfold Line.order
  simp only [hs, last_values]
  cases hv : l.parsed.values (lit "message") with
  | nil => rfl
  | cons m ms =>
    cases ms with
    | nil => rfl
    | cons => rw [hv] at h; simp at h

theorem paragraphs_longer (m : Str) {ms : List Str} (h : ms ≠ []) : (ms.getLast h).length ≤ (paragraphs ms).length ∧
    (ms.getLast h).length < (paragraphs (m :: ms)).length := by
  induction ms generalizing m with
  | nil => exact absurd rfl h
  | cons x ms ih =>
    cases ms with
    | nil =>
      have : (lit "\n\n").length = 2 := by decide
      simp [paragraphs, this]; omega
    | cons y ms =>
      obtain ⟨h1, h2⟩ := ih x (by simp)
      have e : (x :: y :: ms).getLast h = (y :: ms).getLast (by simp) := List.getLast_cons (by simp)
      rw [e]
      refine ⟨Nat.le_of_lt h2, ?_⟩
      have : (paragraphs (m :: x :: y :: ms)).length = m.length + 2 + (paragraphs (x :: y :: ms)).length := by
        have h2 : (lit "\n\n").length = 2 := by decide
        rw [paragraphs, List.length_append, List.length_append, h2]
        simp
      omega

/-- **C66 does not hold.** With two or more `-m` only the last counts: the message is not what the help text says. -/
theorem C66_violated {l : Line} (hs : l.sub = .commit) (h : 2 ≤ (l.parsed.values (lit "message")).length) :
    ∃ m, (l.parsed.values (lit "message")).getLast? = some m ∧ l.order = .commit m ∧ m ≠ paragraphs (l.parsed.values (lit "message")) := by
  cases hv : l.parsed.values (lit "message") with
  | nil => rw [hv] at h; simp at h
  | cons a ms =>
    cases ms with
    | nil => rw [hv] at h; simp at h
    | cons b ms =>
      have hl := List.getLast?_eq_some_getLast (l := a :: b :: ms) (by simp)
      refine ⟨_, hl, ?_, ?_⟩
      · unfold Line.order
        simp only [hs, last_values, hv, hl, Option.getD_some]
      · intro e
        obtain ⟨_, h2⟩ := paragraphs_longer a (ms := b :: ms) (by simp)
        have e' : (a :: b :: ms).getLast (by simp) = (b :: ms).getLast (by simp) := List.getLast_cons (by simp)
        rw [← e, e'] at h2
        exact Nat.lt_irrefl _ h2

theorem tok_m (p : Parsed) : parseTok (Sub.flags .commit) (lit "-m") p = .ok (some (p, some ⟨lit "message", 109, .str⟩)) := rfl

theorem parse_messages (ms : List Str) (p : Parsed) :
    parseArgs (Sub.flags .commit) .none (ms.flatMap fun m => [lit "-m", m]) p = .ok { p with sets := p.sets ++ ms.map fun m => (lit "message", m) } := by
  induction ms generalizing p with
  | nil => simp [parseArgs]
  | cons m ms ih =>
    simp only [List.flatMap_cons, List.cons_append, List.nil_append, parseArgs, tok_m, setFlag, Kind.accepts, if_true]
    rw [ih]
    simp

/-- The command line `commit -m m1 -m m2 …` gives exactly these values. -/
theorem C66_line (ms : List Str) : ∃ l, line (lit "commit" :: ms.flatMap fun m => [lit "-m", m]) = .ok l ∧ l.sub = .commit ∧ l.parsed.values (lit "message") = ms := by
  refine ⟨⟨.commit, ⟨ms.map fun m => (lit "message", m), [], false⟩⟩, ?_, rfl, ?_⟩
  · refine line_of (a := ms.flatMap fun m => [lit "-m", m]) ?_ ?_ ?_ rfl
    · exact find_of (x := lit "commit") (ws := stripFlags globalFlags false (ms.flatMap fun m => [lit "-m", m])) rfl rfl rfl
    · rw [parse, parse_messages]; rfl
    · simp only [Parsed.flag, last_values, Parsed.values, List.filter_map]
      have : (List.filter ((fun e : Str × Str => decide (e.1 = lit "help")) ∘ fun m => (lit "message", m)) ms) = [] := by
        rw [List.filter_eq_nil_iff]
        intro m _
        exact (by decide : ¬ decide (lit "message" = lit "help") = true)
      rw [this]
      rfl
  · simp only [Parsed.values, List.filter_map]
    have : (List.filter ((fun e : Str × Str => decide (e.1 = lit "message")) ∘ fun m => (lit "message", m)) ms) = ms := by
      rw [List.filter_eq_self]
      intro m _
      simp [Function.comp]
    rw [this, List.map_map]
    exact List.map_id _

/-- Both cases exist. -/
example : ∃ l, line (lit "commit" :: [lit "a"].flatMap fun m => [lit "-m", m]) = .ok l ∧ l.order = .commit (lit "a") := by
  obtain ⟨l, h1, h2, h3⟩ := C66_line [lit "a"]
  exact ⟨l, h1, by rw [C66_message_partial h2 (by rw [h3]; decide), h3]; rfl⟩

example : ∃ l, line (lit "commit" :: [lit "a", lit "b"].flatMap fun m => [lit "-m", m]) = .ok l ∧ l.order ≠ .commit (lit "a\n\nb") := by
  obtain ⟨l, h1, h2, h3⟩ := C66_line [lit "a", lit "b"]
  obtain ⟨m, _, e2, e3⟩ := C66_violated h2 (by rw [h3]; decide)
  refine ⟨l, h1, ?_⟩
  rw [e2]
  intro e
  cases e
  rw [h3] at e3
  exact e3 rfl

/-! ## C67: the working directory -/

theorem find_flag_none {args : List Str} (h : find args = none) {t : Str} (v : Str) (ht : takesNext globalFlags t = true) (hd : t ≠ lit "--") : find (t :: v :: args) = none := by
  unfold find at h ⊢
  rw [stripFlags, if_neg hd, if_pos ht, stripFlags]
  cases args with
  | nil => rfl
  | cons s rest =>
    rw [if_neg (by simp)]
    cases hs : stripFlags globalFlags false (s :: rest) with
    | nil => rfl
    | cons x ws =>
      rw [hs] at h
      simp only at h ⊢
      cases hf : Sub.all.find? (fun c => c.name = x) with
      | none => rfl
      | some c => rw [hf] at h; simp at h

/-- A global flag with its value in front of a command line. -/
theorem line_flag {t v : Str} {f : Flag} (ht : takesNext globalFlags t = true) (hd : t ≠ lit "--") (hp : ∀ (c : Sub) (p : Parsed), parseTok c.flags t p = .ok (some (p, some f)))
    (hv : f.kind.accepts v = true) (hn : f.name ≠ lit "help") (args : List Str) :
    line (t :: v :: args) = (line args).map fun l => ⟨l.sub, l.parsed.pre [(f.name, v)]⟩ := by
  unfold line
  cases hf : find args with
  | none => rw [find_flag_none hf v ht hd]; rfl
  | some x =>
    obtain ⟨c, a⟩ := x
    rw [find_flag hf v ht hd]
    simp only
    have hpar : parse c.flags (t :: v :: a) = (parse c.flags a).map (Parsed.pre [(f.name, v)]) := by
      unfold parse
      rw [← parseArgs_pre]
      simp only [parseArgs, hp, setFlag, hv, if_true]
      rfl
    rw [hpar]
    cases hq : parse c.flags a with
    | error e => rfl
    | ok p =>
      simp only [Except.map]
      have hh : (p.pre [(f.name, v)]).flag (lit "help") = p.flag (lit "help") := by
        simp only [Parsed.flag, last_pre]
        simp [hn]
      rw [hh]
      have ha : (p.pre [(f.name, v)]).args = p.args := rfl
      rw [ha]
      split
      · rfl
      · split <;> rfl

theorem order_pre (l : Line) {n : Str} (v : Str) (h : n ∈ [lit "chdir", lit "data-root", lit "verbose", lit "uid", lit "gid"]) : Line.order ⟨l.sub, l.parsed.pre [(n, v)]⟩ = l.order := by
  obtain ⟨c, p⟩ := l
  have hl : ∀ m : Str, m ≠ n → (p.pre [(n, v)]).last m = p.last m := by
    intro m hm
    rw [last_pre]
    simp [Ne.symm hm]
  have hfl : ∀ m : Str, m ≠ n → (p.pre [(n, v)]).flag m = p.flag m := fun m hm => by simp only [Parsed.flag, hl m hm]
  have ne : ∀ m : Str, m ∈ [lit "initial-branch", lit "message", lit "remotes", lit "all", lit "list", lit "show-current", lit "delete", lit "force"] → m ≠ n := by
    intro m hm e
    subst e
    exact (by decide : ∀ m ∈ [lit "initial-branch", lit "message", lit "remotes", lit "all", lit "list", lit "show-current", lit "delete", lit "force"],
      m ∉ [lit "chdir", lit "data-root", lit "verbose", lit "uid", lit "gid"]) m hm h
  have ha : (p.pre [(n, v)]).args = p.args := rfl
  simp only [Line.order, ha, hl (lit "initial-branch") (ne _ (by decide)), hl (lit "message") (ne _ (by decide)), hfl (lit "remotes") (ne _ (by decide)),
    hfl (lit "all") (ne _ (by decide)), hfl (lit "list") (ne _ (by decide)), hfl (lit "show-current") (ne _ (by decide)), hfl (lit "delete") (ne _ (by decide)),
    hfl (lit "force") (ne _ (by decide))]

theorem tok_C (c : Sub) (p : Parsed) : parseTok c.flags (lit "-C") p = .ok (some (p, some ⟨lit "chdir", 67, .str⟩)) := by cases c <;> rfl

theorem global_chdir (l : Line) (dir : Str) (h : l.parsed.last (lit "chdir") = none) : Line.global ⟨l.sub, l.parsed.pre [(lit "chdir", dir)]⟩ = { l.global with chdir := dir } := by
  obtain ⟨c, p⟩ := l
  have hl : ∀ m : Str, m ≠ lit "chdir" → (p.pre [(lit "chdir", dir)]).last m = p.last m := by
    intro m hm
    rw [last_pre]
    simp [Ne.symm hm]
  have hc : (p.pre [(lit "chdir", dir)]).last (lit "chdir") = some dir := by
    rw [last_pre, show p.last (lit "chdir") = none from h]
    rfl
  simp only [Line.global, hl (lit "verbose") (by decide), hl (lit "data-root") (by decide), hl (lit "uid") (by decide), hl (lit "gid") (by decide), hc, Option.getD_some]

/-- **C67.** `-C dir` in front of a command does exactly what the command does when it is run in `dir`: also a relative data directory is taken from there. -/
theorem C67_chdir_root (cwd dir : Str) (hdir : dir ≠ []) (args : List Str) (h : ∀ l, line args = .ok l → l.parsed.last (lit "chdir") = none) :
    asRoot cwd (lit "-C" :: dir :: args) = asRoot (Path.abs cwd dir) args := by
  unfold asRoot
  rw [line_flag (f := ⟨lit "chdir", 67, .str⟩) rfl (by decide) tok_C rfl (by decide)]
  cases hl : line args with
  | error e => rfl
  | ok l =>
    have hc := h l hl
    simp only [Except.map, global_chdir l dir hc]
    split
    · rfl
    · congr 1
      have h0 : l.global.chdir = [] := by simp [Line.global, hc]
      unfold Line.job
      rw [global_chdir l dir hc, order_pre l dir (by decide)]
      simp [goTo, hdir, h0]

/-- **C67.** The same for a user. -/
theorem C67_chdir_user (uid gid : Nat) (hu : uid < 2 ^ 63) (hg : gid < 2 ^ 63) (cwd dir : Str) (hdir : dir ≠ []) (args : List Str)
    (h : ∀ l, line args = .ok l → l.parsed.last (lit "chdir") = none) :
    asUser uid gid cwd (lit "-C" :: dir :: args) = asUser uid gid (Path.abs cwd dir) args := by
  have hx : ∀ l, line args = .ok l → asRoot cwd (lit "-C" :: dir :: args ++ extraArgs uid gid) = asRoot (Path.abs cwd dir) (args ++ extraArgs uid gid) := by
    intro l hl
    refine C67_chdir_root cwd dir hdir (args ++ extraArgs uid gid) fun l' hl' => ?_
    cases hd : l.parsed.dash with
    | false =>
      rw [line_extra hl hd hu hg] at hl'
      cases hl'
      rw [last_extra _ _ _ (by decide) (by decide)]
      exact h l hl
    | true =>
      obtain ⟨a, h1, h2⟩ := line_dash hl hd (extraArgs uid gid)
      obtain ⟨b, h3, h4, _⟩ := line_inv hl'
      rw [h1] at h3
      simp only [Option.some.injEq, Prod.mk.injEq] at h3
      rw [← h3.1, ← h3.2, h2] at h4
      simp only [Except.ok.injEq] at h4
      rw [← h4]
      exact h l hl
  unfold asUser
  rw [line_flag (f := ⟨lit "chdir", 67, .str⟩) rfl (by decide) tok_C rfl (by decide)]
  cases hl : line args with
  | error e => rfl
  | ok l =>
    have hc := h l hl
    simp only [Except.map, global_chdir l dir hc]
    split
    · rfl
    · split
      · exact hx l hl
      · congr 1
        have h0 : l.global.chdir = [] := by simp [Line.global, hc]
        unfold Line.job
        rw [global_chdir l dir hc, order_pre l dir (by decide)]
        simp [goTo, hdir, h0]

/-- A relative directory and a relative data directory. -/
example : asRoot (lit "/home") [lit "-C", lit "w", lit "--data-root", lit "../data", lit "checkout", lit "main"] =
    .ok ⟨lit "/home/data", -1, -1, lit "/home/w", .checkout (lit "main")⟩ := by
  rw [C67_chdir_root _ _ (by decide) _ (fun l h => by
    have hl : line [lit "--data-root", lit "../data", lit "checkout", lit "main"] = .ok ⟨.checkout, ⟨[(lit "data-root", lit "../data")], [lit "main"], false⟩⟩ := rfl
    rw [hl] at h; cases h; rfl)]
  rfl

/-! ## C68: reading changes nothing -/

/-- The orders that only show something. -/
def Order.Reads : Order → Prop
  | .listBranches _ | .showCurrent | .listTags | .log _ => True
  | _ => False

theorem reads_command {o : Order} (h : o.Reads) (E : Env) (cwd date : Str) : OnlyReads ((o.command cwd date).prog E) := by
  have hc : o.command cwd date = .look cwd := by cases o <;> first | rfl | exact absurd h id
  rw [hc]
  exact onlyReads_bind (onlyReads_getWorkspace E cwd _) fun _ => .ret _

/-- **C68.** A command line that lists branches or tags or shows the current branch or the log changes nothing, whatever goes wrong and whenever it is killed. -/
theorem C68_reading {o : Order} (h : o.Reads) {E : Env} {f : Faults} {cwd date : Str} {d d' : Disk} :
    (∀ r, Exec E f ((o.command cwd date).prog E) d r d' → d' = d) ∧ (Stops E f ((o.command cwd date).prog E) d d' → d' = d) :=
  ⟨fun _ he => onlyReads_exec (reads_command h E cwd date) he, fun he => onlyReads_stops (reads_command h E cwd date) he⟩

/-- **C68.** Which command lines only show something: every `log`; `branch` and `tag` with `--list`, whatever other options there are; `branch --show-current`; and `branch` and
`tag` without names unless they are told to delete. -/
theorem C68_which (l : Line) : l.order.Reads ↔
    l.sub = .log ∨
    (l.sub = .branch ∧ (l.parsed.flag (lit "list") = true ∨ l.parsed.flag (lit "show-current") = true ∨ l.parsed.args = [] ∧ l.parsed.flag (lit "delete") = false)) ∨
    (l.sub = .tag ∧ (l.parsed.flag (lit "list") = true ∨ l.parsed.args = [] ∧ l.parsed.flag (lit "delete") = false)) := by
  unfold Line.order
  cases hs : l.sub <;> simp only [Order.Reads, reduceCtorEq, false_and, true_and, or_false, false_or, iff_self, or_true, true_or]
  · cases l.parsed.flag (lit "list") <;> cases l.parsed.flag (lit "show-current") <;> cases l.parsed.flag (lit "delete") <;> cases l.parsed.args <;> simp
  · cases l.parsed.flag (lit "list") <;> cases l.parsed.flag (lit "delete") <;> cases l.parsed.args <;> simp

/-- `branch -l -d main` only lists. -/
example (E : Env) (f : Faults) (cwd date : Str) (d d' : Disk) : ∃ l, line [lit "branch", lit "-ld", lit "main"] = .ok l ∧ ∀ r, Exec E f ((l.order.command cwd date).prog E) d r d' → d' = d := by
  refine ⟨⟨.branch, ⟨[(lit "list", lit "true"), (lit "delete", lit "true")], [lit "main"], false⟩⟩, rfl, (C68_reading ((C68_which _).2 ?_)).1⟩
  exact Or.inr (Or.inl ⟨rfl, Or.inl (by decide)⟩)

/-! ## C65: the current branch -/

/-- **C65, part.** On a branch, `branch --show-current` prints its name. Missing: that nothing is printed when there is no current branch. -/
theorem C65_on_branch_partial (w : OpenWs) (out : Str) : w.ws.branch ≠ [] → (Shows w .showCurrent out ↔ out = w.ws.branch ++ lit "\n") := by
  intro _
  simp only [Shows, printLines, BranchInfo.localName, List.map_cons, List.map_nil, List.flatten_cons, List.flatten_nil, List.append_nil]
  exact Iff.rfl

/-- **C65 does not hold.** Without a current branch it prints an empty line, although the help text says that nothing is printed. -/
theorem C65_violated (w : OpenWs) (out : Str) : w.ws.branch = [] → (Shows w .showCurrent out ↔ out = lit "\n") := by
  intro h
  simp only [Shows, printLines, BranchInfo.localName, List.map_cons, List.map_nil, List.flatten_cons, List.flatten_nil, List.append_nil, h, List.nil_append]
  exact Iff.rfl

end Cli
end Verif
