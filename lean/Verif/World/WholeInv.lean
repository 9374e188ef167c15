import Verif.World.Whole
import Verif.World.PoolRec
import Verif.World.SeqIo
import Verif.Json.Extra
/-!
# The trees on the disk, whatever runs

All trees that can be read agree about who the parent of a node is. The invariant carries a table of these parents.
-/
set_option autoImplicit false
namespace Verif
open M TS Json

/-! ## Steps that mix two texts -/

/-- A failing write into a file into which another command has written since the program emptied it. What is left starts
with a piece of one text and goes on with a piece of another. -/
def MixesAt (d : Disk) : Ev → Prop
  | ⟨.writeTree n _, x⟩ => x = false ∧ ∃ old, d.space n = some (some old) ∧ old ≠ []
  | ⟨.writeInfo n _, x⟩ => x = false ∧ ∃ old, d.info n = some old ∧ old ≠ []
  | _ => False

/-- Some command makes such a write in this step. -/
def Sys.Mixes (w w' : World) : Prop :=
  ∃ i p q e, w.procs i = some p ∧ w'.procs i = some q ∧ q.tr = e :: p.tr ∧ MixesAt w.disk e

/-- Executions without such steps. -/
inductive Sys.Tidy (E : Env) (f : Faults) : World → World → Prop where
  | refl (w : World) : Sys.Tidy E f w w
  | step {w w1 w2 : World} : Sys.Tidy E f w w1 → Sys.Next E f w1 w2 → ¬ Sys.Mixes w1 w2 → Sys.Tidy E f w w2

theorem Sys.Tidy.steps {E : Env} {f : Faults} {w w' : World} (h : Sys.Tidy E f w w') : Sys.Steps E f w w' := by
  induction h with
  | refl => exact .refl _
  | step _ hn _ ih => exact .step ih hn

theorem Sys.Tidy.trans {E : Env} {f : Faults} {a b c : World} (h : Sys.Tidy E f a b) (h' : Sys.Tidy E f b c) : Sys.Tidy E f a c := by
  induction h' with
  | refl => exact h
  | step _ hn hm ih => exact .step ih hn hm

/-! ## The table of parents -/

/-- The parent of each node that was ever saved; `some none` for a root. -/
abbrev Parents := UID → Option (Option UID)

def Parents.Le (par par' : Parents) : Prop := ∀ u q, par u = some q → par' u = some q

/-- The tree agrees with the table. -/
def Fits (par : Parents) (a : ATree) : Prop := ∀ u n, a.node u = some n → par u = some n.parent

section
variable {E : Env} {par par' : Parents}

theorem fits_le (hl : par.Le par') {a : ATree} (h : Fits par a) : Fits par' a := fun u n hn => hl _ _ (h u n hn)

/-- What `tree.json` may contain. -/
def Filed (E : Env) (par : Parents) (b : Str) : Prop :=
  b = [] ∨ ∃ (T : TS) (full : Str), Reach T ∧ SavesAs E.sh T full ∧ Fits par T.abs ∧ (b <+: full ∨ full <+: b)

/-- What a record may contain. -/
def Noted (E : Env) (par : Parents) (b : Str) : Prop :=
  b = [] ∨ ∃ (r : WsRec) (p : UID), par r.head = some (some p) ∧ (b <+: r.bytes E ∨ r.bytes E <+: b)

theorem filed_le (hl : par.Le par') {b : Str} (h : Filed E par b) : Filed E par' b := by
  rcases h with h | ⟨T, full, h1, h2, h3, h4⟩
  · exact Or.inl h
  · exact Or.inr ⟨T, full, h1, h2, fits_le hl h3, h4⟩

theorem noted_le (hl : par.Le par') {b : Str} (h : Noted E par b) : Noted E par' b := by
  rcases h with h | ⟨r, p, h1, h2⟩
  · exact Or.inl h
  · exact Or.inr ⟨r, p, hl _ _ h1, h2⟩

theorem prefix_around {b p full : Str} (hp : p <+: b) (h : b <+: full ∨ full <+: b) : p <+: full ∨ full <+: p := by
  rcases h with h | h
  · exact Or.inl (hp.trans h)
  · rcases Nat.le_total p.length full.length with hl | hl
    · exact Or.inl (List.prefix_of_prefix_length_le hp h hl)
    · exact Or.inr (List.prefix_of_prefix_length_le h hp hl)

theorem filed_prefix {b p : Str} (hp : p <+: b) (h : Filed E par b) : Filed E par p := by
  rcases h with rfl | ⟨T, full, h1, h2, h3, h4⟩
  · exact Or.inl (List.prefix_nil.1 hp)
  · exact Or.inr ⟨T, full, h1, h2, h3, prefix_around hp h4⟩

theorem load_empty : spaceLoad (.ok []) = .err .unmarshal := by rfl

/-- Such a file loads as a tree that fits the table, or is refused. -/
theorem filed_load {b : Str} (h : Filed E par b) :
    (∃ e, spaceLoad (.ok b) = .err e) ∨ ∃ s, spaceLoad (.ok b) = .ok s ∧ Reach s ∧ Fits par s.abs := by
  rcases h with rfl | ⟨T, full, h1, h2, h3, h4⟩
  · exact Or.inl ⟨_, load_empty⟩
  · rcases load_around_total h2 h4 with he | he
    · rw [he]
      by_cases hS : T.abs.Shallow
      · obtain ⟨s, g1, g2, g3⟩ := (load_saved h1 h2).1 hS
        refine Or.inr ⟨s, g1, g2, fun u n hn => ?_⟩
        cases hT : T.abs.node u with
        | none => rw [g3.gone u hT] at hn; cases hn
        | some m =>
          obtain ⟨n', e1, e2, _⟩ := g3.node u m hT
          rw [hn] at e1; cases e1
          rw [e2]; exact h3 u m hT
      · exact Or.inl ⟨_, (load_saved h1 h2).2 hS⟩
    · exact Or.inl he

theorem noted_read {b : Str} (h : Noted E par b) {j : WsInfo} (hj : unmarshalInfo b = some j) :
    ∃ (r : WsRec) (p : UID), j.id = r.ws.base32 ∧ j.spaceID = r.space.base32 ∧ j.head = r.head.hex ∧ par r.head = some (some p) := by
  rcases h with rfl | ⟨r, p, h1, h2⟩
  · have : unmarshalInfo [] = none := by rfl
    rw [this] at hj; cases hj
  · have := unmarshalInfo_around h2 hj
    rw [C17_info_roundtrip] at this
    cases this
    refine ⟨r, p, ?_, ?_, ?_, h1⟩
    · simp only [WsRec.info, sanitize_base32]
    · simp only [WsRec.info, sanitize_base32]
    · simp only [WsRec.info, sanitize_hex]

end

/-- The list is the history of a node according to the table. -/
inductive Line (par : Parents) : UID → List UID → Prop where
  | root {u : UID} : par u = some none → Line par u [u]
  | step {u p : UID} {l : List UID} : par u = some (some p) → Line par p l → Line par u (u :: l)

theorem line_le {par par' : Parents} (hl : par.Le par') {u : UID} {l : List UID} (h : Line par u l) : Line par' u l := by
  induction h with
  | root h => exact .root (hl _ _ h)
  | step h _ ih => exact .step (hl _ _ h) ih

theorem line_path {par : Parents} {a : ATree} (hf : Fits par a) {u : UID} {l : List UID} (h : a.Path u l) : Line par u l := by
  induction h with
  | root h1 h2 => exact .root (by rw [hf _ _ h1, h2])
  | step h1 h2 _ ih => exact .step (by rw [hf _ _ h1, h2]) ih

theorem line_unique {par : Parents} {u : UID} {l l' : List UID} (h : Line par u l) (h' : Line par u l') : l = l' := by
  induction h generalizing l' with
  | root h => cases h' with
    | root => rfl
    | step h1 _ => rw [h] at h1; cases h1
  | step h _ ih => cases h' with
    | root h1 => rw [h] at h1; cases h1
    | step h1 h2 => rw [h] at h1; cases h1; rw [ih h2]

/-! ## The invariant -/

/-- What is left of a command after these calls. -/
inductive Left (E : Env) (c : Command) : Trace → Prog (Res CErr Out) → Prop where
  | start : Left E c [] (c.prog E)
  | call {tr : Trace} {cmd : Cmd} {k : cmd.Ans → Prog (Res CErr Out)} (x : cmd.Ans) : Left E c tr (.op cmd k) → Left E c (⟨cmd, x⟩ :: tr) (k x)

structure Tame (E : Env) (par : Parents) (w : World) : Prop where
  inv : Inv E w
  safe : ∀ i p, w.procs i = some p → ∃ c : Command, Left E c p.tr p.prog ∧ twp (Ans E) (Saves E) p.prog (Sane c.Trips fun _ _ => True) p.tr
  layers : ∀ u q, par u = some q → w.disk.HasDiff u
  space : ∀ n b, w.disk.space n = some (some b) → Filed E par b
  info : ∀ n b, w.disk.info n = some b → Noted E par b
  dumped : ∀ i p s b, w.procs i = some p → (⟨.dump s, b⟩ : Ev) ∈ p.tr → Reach s ∧ SavesAs E.sh s b ∧ Fits par s.abs
  treeRead : ∀ i p n r s, w.procs i = some p → (⟨.readTree n, r⟩ : Ev) ∈ p.tr → spaceLoad r = .ok s → Reach s ∧ Fits par s.abs
  infoRead : ∀ i p n b j, w.procs i = some p → (⟨.readInfo n, .ok b⟩ : Ev) ∈ p.tr → unmarshalInfo b = some j →
    ∃ u q, j.head = UID.hex u ∧ par u = some (some q)
  free : ∀ i p u, w.procs i = some p → Made p.tr u → Undumped p.tr → par u = none
  mounted : ∀ n m, w.disk.mnt n = some m → ∃ p, par m.upper = some (some p) ∧ Line par p m.lowers

section
variable {E : Env} {par : Parents}

theorem eff_space {e : Ev} {d d' : Disk} (h : Effect e d d') (n : Str) :
    d'.space n = d.space n ∨ (d'.space n = some none) ∨ (e = ⟨.truncTree n, true⟩ ∧ d'.space n = some (some [])) ∨
    ∃ b p old, ∃ x : Bool, e = ⟨.writeTree n b, x⟩ ∧ d.space n = some (some old) ∧ p <+: b ∧ (x = true → p = b) ∧
      d'.space n = some (some (overwrite p old)) := by
  cases h with
  | @mkSpace n' _ _ =>
    by_cases hx : n = n'
    · subst hx; exact Or.inr (Or.inl (by simp [Disk.setSpace]))
    · exact Or.inl (by simp only [Disk.setSpace, upd_ne _ _ hx])
  | @truncTree n' _ _ =>
    by_cases hx : n = n'
    · subst hx; exact Or.inr (Or.inr (Or.inl ⟨rfl, by simp [Disk.setSpace]⟩))
    · exact Or.inl (by simp only [Disk.setSpace, upd_ne _ _ hx])
  | @writeTree n' b p old x _ h0 h1 h2 =>
    by_cases hx : n = n'
    · subst hx; exact Or.inr (Or.inr (Or.inr ⟨b, p, old, x, rfl, h0, h1, h2, by simp [Disk.setSpace]⟩))
    · exact Or.inl (by simp only [Disk.setSpace, upd_ne _ _ hx])
  | @upper n m _ _ c hm => exact Or.inl (by rw [(put_rest d _ c).1])
  | @wipe n m _ c w hm => exact Or.inl (by simp only [Disk.setMdir]; rw [(put_rest d _ c).1])
  | _ => exact Or.inl rfl

theorem overwrite_prefix (p old : Str) : p <+: overwrite p old := ⟨_, rfl⟩

theorem knows_par {w : World} (h : Tame E par w) {i : Nat} {p : Proc} (hp : w.procs i = some p) {u : UID} {q : Option UID} (hk : Knows p.tr u q) :
    par u = some q := by
  obtain ⟨n, r, s, nd, h1, h2, h3, h4⟩ := hk
  rw [← h4]; exact (h.treeRead i p n r s hp h1 h2).2 u nd h3

/-- The table after a call: a tree that is marshalled brings its new nodes. -/
theorem tame_table {w : World} (h : Tame E par w) {i : Nat} {p : Proc} (hp : w.procs i = some p) {c : Cmd} (hg : Saves E p.tr c) :
    ∃ par' : Parents, par.Le par' ∧ (∀ u q, par' u = some q → w.disk.HasDiff u) ∧ (∀ s, c = .dump s → Reach s ∧ Fits par' s.abs) ∧
      (∀ j q u, j ≠ i → w.procs j = some q → Made q.tr u → Undumped q.tr → par' u = none) ∧ ((∀ s, c ≠ .dump s) → par' = par) := by
  by_cases hc : ∃ s, c = .dump s
  · obtain ⟨s, rfl⟩ := hc
    obtain ⟨hr, hs⟩ := hg
    refine ⟨fun u => match s.abs.node u with | some nd => some nd.parent | none => par u, ?_, ?_, ?_, ?_, fun hx => absurd rfl (hx s)⟩
    · intro u q hu
      simp only
      cases hn : s.abs.node u with
      | none => exact hu
      | some nd =>
        rcases hs.1 u nd hn with hk | ⟨h1, h2, h3⟩
        · rw [knows_par h hp hk] at hu; exact hu
        · rw [h.free i p u hp h1 h3] at hu; cases hu
    · intro u q hu
      simp only at hu
      cases hn : s.abs.node u with
      | none => rw [hn] at hu; exact h.layers u q hu
      | some nd =>
        rcases hs.1 u nd hn with hk | ⟨h1, h2, h3⟩
        · exact h.layers u _ (knows_par h hp hk)
        · exact h.inv.based i p u hp h2
    · intro s' e
      cases e
      exact ⟨hr, fun u n hn => by simp only [hn]⟩
    · intro j q u hj hq hm hu
      simp only
      cases hn : s.abs.node u with
      | none => exact h.free j q u hq hm hu
      | some nd =>
        rcases hs.1 u nd hn with hk | ⟨h1, h2, h3⟩
        · have := knows_par h hp hk
          rw [h.free j q u hq hm hu] at this; cases this
        · exact absurd (h.inv.excl j i q p u hq hp hm h1) hj
  · exact ⟨par, fun _ _ h => h, h.layers, fun s e => absurd ⟨s, e⟩ hc, fun j q u _ hq hm hu => h.free j q u hq hm hu, fun _ => rfl⟩

/-- The answers are as assumed. -/
theorem tame_ans {f : Faults} {w : World} (h : Tame E par w) {i : Nat} {p : Proc} (hp : w.procs i = some p) {c : Cmd} {x : c.Ans} {d' : Disk} {o : Nat}
    (hs : Step (E.as o) f c w.disk x d') : Ans E p.tr c x := by
  cases c with
  | dump s => exact fun hr => (dump_saves hr hs).1
  | readTree n =>
    have key : ∀ b, Filed E par b → (∃ e, spaceLoad (.ok b) = .err e) ∨ ∃ s, spaceLoad (.ok b) = .ok s ∧ Reach s ∧
        ∀ m b i u nd, (⟨.readInfo m, .ok b⟩ : Ev) ∈ p.tr → unmarshalInfo b = some i → i.head = UID.hex u → s.abs.node u = some nd → nd.parent ≠ none := by
      intro b hb
      rcases filed_load hb with he | ⟨s, h1, h2, h3⟩
      · exact Or.inl he
      · refine Or.inr ⟨s, h1, h2, fun m b j u nd hm hj hu hn => ?_⟩
        obtain ⟨v, q, e1, e2⟩ := h.infoRead i p m b j hp hm hj
        rw [e1] at hu
        have := C03_hex_injective hu
        subst this
        have h4 := h3 v nd hn
        rw [e2] at h4
        simp only [Option.some.injEq] at h4
        rw [← h4]; simp
    obtain ⟨rfl, hs⟩ := hs
    cases x with
    | ok b => exact key b (h.space n b hs)
    | notExist => exact Or.inl ⟨_, rfl⟩
    | failed b =>
      obtain ⟨_, full, h1, h2⟩ := hs
      exact key b (filed_prefix h2 (h.space n full h1))
  | readInfo n =>
    intro b j e hj
    subst e
    obtain ⟨rfl, hs⟩ := hs
    obtain ⟨r, q, e1, e2, e3, _⟩ := noted_read (h.info n b hs) hj
    exact ⟨r, e1, e2, e3⟩
  | mkdirLayer u =>
    intro hx
    subst hx
    rcases hs with ⟨_, h1, _⟩ | ⟨h1, _⟩
    · refine ⟨fun q hk => ?_, fun hm => h.inv.made i p u hp hm h1⟩
      obtain ⟨c, hc⟩ := h.layers u q (knows_par h hp hk)
      rw [h1] at hc; cases hc
    · cases h1
  | _ => trivial

theorem tame_run {f : Faults} {w : World} {i : Nat} {p : Proc} {c : Cmd} {k : c.Ans → Prog (Res CErr Out)} {x : c.Ans}
    {d' : Disk} {o : Nat} (h : Tame E par w) (hp : w.procs i = some p) (hk : p.prog = .op c k) (hs : Step (E.as o) f c w.disk x d') (hmix : ¬ MixesAt w.disk ⟨c, x⟩) :
    ∃ par', par.Le par' ∧ Tame E par' ⟨d', upd w.procs i (some ⟨p.start, ⟨c, x⟩ :: p.tr, k x⟩)⟩ := by
  have he := step_effect hs
  obtain ⟨cmd, hleft, htwp⟩ := h.safe i p hp
  rw [hk] at hleft htwp
  obtain ⟨hg, hnext⟩ := htwp
  obtain ⟨par', hle, hlay, hdump, hfree, hsame⟩ := tame_table h hp hg
  refine ⟨par', hle, ?_⟩
  have hproc : ∀ {j q}, upd w.procs i (some ⟨p.start, ⟨c, x⟩ :: p.tr, k x⟩) j = some q →
      (j = i ∧ q = ⟨p.start, ⟨c, x⟩ :: p.tr, k x⟩) ∨ (j ≠ i ∧ w.procs j = some q) := by
    intro j q hq
    by_cases hj : j = i
    · subst hj; simp only [upd_self, Option.some.injEq] at hq; exact Or.inl ⟨rfl, hq.symm⟩
    · rw [upd_ne _ _ hj] at hq; exact Or.inr ⟨hj, hq⟩
  have hread : ∀ b, Filed E par b → ∀ s, spaceLoad (.ok b) = .ok s → Reach s ∧ Fits par' s.abs := by
    intro b hb s hl
    rcases filed_load hb with ⟨e, he⟩ | ⟨s', h1, h2, h3⟩
    · rw [hl] at he; cases he
    · rw [hl] at h1; cases h1; exact ⟨h2, fits_le hle h3⟩
  constructor
  · exact inv_run h.inv hp hk hs
  · intro j q hq
    rcases hproc hq with ⟨_, rfl⟩ | ⟨_, hq⟩
    · exact ⟨cmd, .call x hleft, hnext x (tame_ans h hp hs)⟩
    · exact h.safe j q hq
  · exact fun u q hu => eff_hasDiff he (hlay u q hu)
  · intro n b hb
    simp only at hb
    rcases eff_space he n with h1 | h1 | ⟨_, h1⟩ | ⟨b', p', old, y, h1, h2, h3, h4, h5⟩
    · exact filed_le hle (h.space n b (by rw [← h1]; exact hb))
    · rw [hb] at h1; cases h1
    · rw [hb] at h1; cases h1; exact Or.inl rfl
    · rw [hb] at h5
      simp only [Option.some.injEq] at h5
      subst h5
      cases h1
      obtain ⟨_, s, hd⟩ := hg
      obtain ⟨d1, d2, d3⟩ := h.dumped i p s b' hp hd
      refine Or.inr ⟨s, b', d1, d2, fits_le hle d3, ?_⟩
      cases y with
      | true => rw [h4 rfl]; exact Or.inr (overwrite_prefix _ _)
      | false =>
        have : old = [] := Classical.byContradiction fun hne => hmix ⟨rfl, old, h2, hne⟩
        subst this
        rw [overwrite_nil]; exact Or.inl h3
  · intro n b hb
    simp only at hb
    rcases eff_info he n with h1 | ⟨_, h1⟩ | ⟨_, h1⟩ | ⟨b', p', old, y, h1, h2, h3, h4, h5⟩
    · exact noted_le hle (h.info n b (by rw [← h1]; exact hb))
    · rw [hb] at h1; cases h1
    · rw [hb] at h1; cases h1; exact Or.inl rfl
    · rw [hb] at h5
      simp only [Option.some.injEq] at h5
      subst h5
      cases h1
      obtain ⟨_, r, s, b1, q, e1, hd, n1, hn1, hn2⟩ := hg
      obtain ⟨d1, d2, d3⟩ := h.dumped i p s b1 hp hd
      have := hle _ _ (d3 _ _ hn1)
      rw [hn2] at this
      refine Or.inr ⟨r, q, this, ?_⟩
      rw [← e1]
      cases y with
      | true => rw [h4 rfl]; exact Or.inr (overwrite_prefix _ _)
      | false =>
        have : old = [] := Classical.byContradiction fun hne => hmix ⟨rfl, old, h2, hne⟩
        subst this
        rw [overwrite_nil]; exact Or.inl h3
  · intro j q s b hq hb
    have old : ∀ j q, w.procs j = some q → (⟨.dump s, b⟩ : Ev) ∈ q.tr → Reach s ∧ SavesAs E.sh s b ∧ Fits par' s.abs := fun j q hq hb =>
      ⟨(h.dumped j q s b hq hb).1, (h.dumped j q s b hq hb).2.1, fits_le hle (h.dumped j q s b hq hb).2.2⟩
    rcases hproc hq with ⟨_, rfl⟩ | ⟨_, hq⟩
    · rcases List.mem_cons.1 hb with e | e
      · cases e
        obtain ⟨d1, d2⟩ := hdump s rfl
        exact ⟨d1, (dump_saves d1 hs).1, d2⟩
      · exact old i p hp e
    · exact old j q hq hb
  · intro j q n r s hq hb hl
    have old : ∀ j q, w.procs j = some q → (⟨.readTree n, r⟩ : Ev) ∈ q.tr → Reach s ∧ Fits par' s.abs := fun j q hq hb =>
      ⟨(h.treeRead j q n r s hq hb hl).1, fits_le hle (h.treeRead j q n r s hq hb hl).2⟩
    rcases hproc hq with ⟨_, rfl⟩ | ⟨_, hq⟩
    · rcases List.mem_cons.1 hb with e | e
      · cases e
        obtain ⟨rfl, hs⟩ := hs
        cases r with
        | ok b => exact hread b (h.space n b hs) s hl
        | notExist => cases hl
        | failed b =>
          obtain ⟨_, full, h1, h2⟩ := hs
          exact hread b (filed_prefix h2 (h.space n full h1)) s hl
      · exact old i p hp e
    · exact old j q hq hb
  · intro j q n b y hq hb hy
    have old : ∀ j q, w.procs j = some q → (⟨.readInfo n, .ok b⟩ : Ev) ∈ q.tr → ∃ u q, y.head = UID.hex u ∧ par' u = some (some q) := by
      intro j q hq hb
      obtain ⟨u, v, e1, e2⟩ := h.infoRead j q n b y hq hb hy
      exact ⟨u, v, e1, hle _ _ e2⟩
    rcases hproc hq with ⟨_, rfl⟩ | ⟨_, hq⟩
    · rcases List.mem_cons.1 hb with e | e
      · cases e
        obtain ⟨rfl, hs⟩ := hs
        obtain ⟨r, v, _, _, e3, e4⟩ := noted_read (h.info n b hs) hy
        exact ⟨r.head, v, e3, hle _ _ e4⟩
      · exact old i p hp e
    · exact old j q hq hb
  · intro j q u hq hm hu
    rcases hproc hq with ⟨_, rfl⟩ | ⟨hj, hq⟩
    · have hnd : ∀ s, c ≠ .dump s := by
        intro s e
        subst e
        exact hu s x List.mem_cons_self
      rw [hsame hnd]
      rcases made_cons.1 hm with e | e
      · cases e
        rcases hs with ⟨_, h1, _⟩ | ⟨h1, _⟩
        · cases hx : par u with
          | none => rfl
          | some v =>
            obtain ⟨c, hc⟩ := h.layers u v hx
            rw [h1] at hc; cases hc
        · cases h1
      · exact h.free i p u hp e fun s b hb => hu s b (List.mem_cons_of_mem _ hb)
    · exact hfree j q u hj hq hm hu
  · intro n m hm
    rcases eff_mnt he hm with h1 | ⟨h1, _⟩
    · obtain ⟨q, e1, e2⟩ := h.mounted n m h1
      exact ⟨q, hle _ _ e1, line_le hle e2⟩
    · cases h1
      obtain ⟨s, b, q, e1, ⟨nd, e2, e3⟩, e4⟩ := hg
      obtain ⟨_, _, d3⟩ := h.dumped i p s b hp e1
      have d4 := fits_le hle d3
      exact ⟨q, by rw [d4 _ _ e2, e3], line_path d4 e4⟩

theorem tame_sub {w : World} {procs : Nat → Option Proc} (h : Tame E par w) (hi : Inv E ⟨w.disk, procs⟩)
    (hs : ∀ i p, procs i = some p → w.procs i = some p ∨ ∃ c : Command, p.tr = [] ∧ p.prog = c.prog E) : Tame E par ⟨w.disk, procs⟩ := by
  constructor
  · exact hi
  · intro i p hp
    rcases hs i p hp with h1 | ⟨c, h1, h2⟩
    · exact h.safe i p h1
    · rw [h1, h2]; exact ⟨c, .start, command_saves E c⟩
  · exact h.layers
  · exact h.space
  · exact h.info
  · intro i p s b hp hb
    rcases hs i p hp with h1 | ⟨c, h1, h2⟩
    · exact h.dumped i p s b h1 hb
    · rw [h1] at hb; cases hb
  · intro i p n r s hp hb
    rcases hs i p hp with h1 | ⟨c, h1, h2⟩
    · exact h.treeRead i p n r s h1 hb
    · rw [h1] at hb; cases hb
  · intro i p n b j hp hb
    rcases hs i p hp with h1 | ⟨c, h1, h2⟩
    · exact h.infoRead i p n b j h1 hb
    · rw [h1] at hb; cases hb
  · intro i p u hp hb
    rcases hs i p hp with h1 | ⟨c, h1, h2⟩
    · exact h.free i p u h1 hb
    · rw [h1] at hb; cases hb
  · exact h.mounted

theorem outside_rest {d d' : Disk} (h : Outside d d') : d'.space = d.space ∧ d'.info = d.info := by
  cases h with
  | write c hm => exact ⟨(put_rest d _ c).1, (put_rest d _ c).2.2.1⟩
  | _ => exact ⟨rfl, rfl⟩

theorem tame_next {f : Faults} {w w' : World} (h : Tame E par w) (hn : Sys.Next E f w w') (hm : ¬ Sys.Mixes w w') :
    ∃ par', par.Le par' ∧ Tame E par' w' := by
  have hi := inv_next h.inv hn
  cases hn with
  | start i c hi0 =>
    refine ⟨par, fun _ _ h => h, tame_sub h hi fun j p hp => ?_⟩
    by_cases hj : j = i
    · subst hj; simp only [upd_self, Option.some.injEq] at hp; subst hp; exact Or.inr ⟨c, rfl, rfl⟩
    · rw [upd_ne _ _ hj] at hp; exact Or.inl hp
  | @run i p c k x d' _ hp hk hs =>
    exact tame_run h hp hk hs fun hx => hm ⟨i, p, _, _, hp, upd_self _ _ _, rfl, hx⟩
  | kill i =>
    refine ⟨par, fun _ _ h => h, tame_sub h hi fun j p hp => ?_⟩
    by_cases hj : j = i
    · subst hj; simp at hp
    · rw [upd_ne _ _ hj] at hp; exact Or.inl hp
  | @outside d' ho =>
    refine ⟨par, fun _ _ h => h, hi, h.safe, ?_, ?_, ?_, h.dumped, h.treeRead, h.infoRead, h.free, ?_⟩
    · intro u q hu
      rcases outside_effect ho with he | ⟨n, he⟩
      · exact eff_hasDiff he (h.layers u q hu)
      · exact eff_hasDiff he (h.layers u q hu)
    · intro n b hb
      exact h.space n b (by rw [← (outside_rest ho).1]; exact hb)
    · intro n b hb
      exact h.info n b (by rw [← (outside_rest ho).2]; exact hb)
    · intro n m hm
      rcases outside_effect ho with he | ⟨k, he⟩
      · rcases eff_mnt he hm with h1 | ⟨h1, _⟩
        · exact h.mounted n m h1
        · cases h1
      · rcases eff_mnt he hm with h1 | ⟨h1, _⟩
        · exact h.mounted n m h1
        · cases h1

theorem tame_tidy {f : Faults} {w w' : World} (h : Tame E par w) (hs : Sys.Tidy E f w w') : ∃ par', par.Le par' ∧ Tame E par' w' := by
  induction hs with
  | refl => exact ⟨par, fun _ _ h => h, h⟩
  | step _ hn hm ih =>
    obtain ⟨p1, h1, h2⟩ := ih
    obtain ⟨p2, h3, h4⟩ := tame_next h2 hn hm
    exact ⟨p2, fun u q hu => h3 u q (h1 u q hu), h4⟩

end

/-- Nothing runs and nothing of the store exists yet, as before the first command. -/
structure Bare (w : World) : Prop where
  idle : ∀ i, w.procs i = none
  mnt : ∀ n, w.disk.mnt n = none
  space : ∀ n, w.disk.space n = none
  info : ∀ n, w.disk.info n = none

theorem tame_bare {E : Env} {w : World} (h : Bare w) : Tame E (fun _ => none) w := by
  have hn : ∀ {i p}, w.procs i = some p → False := by
    intro i p hp
    rw [h.idle i] at hp; cases hp
  refine ⟨inv_idle ⟨h.idle, ?_, ?_⟩, fun _ _ hp => (hn hp).elim, nofun, ?_, ?_, fun _ _ _ _ hp => (hn hp).elim,
    fun _ _ _ _ _ hp => (hn hp).elim, fun _ _ _ _ _ hp => (hn hp).elim, fun _ _ _ hp => (hn hp).elim, ?_⟩
  · intro n m hm; rw [h.mnt n] at hm; cases hm
  · intro n n' m m' hm; rw [h.mnt n] at hm; cases hm
  · intro n b hb; rw [h.space n] at hb; cases hb
  · intro n b hb; rw [h.info n] at hb; cases hb
  · intro n m hm; rw [h.mnt n] at hm; cases hm

end Verif
