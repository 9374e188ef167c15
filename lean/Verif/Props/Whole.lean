import Verif.World.WholeInv
/-!
# Whole histories with any number of commands at once

The store starts empty. From then on any commands run at the same time in any order, are killed, meet failing calls, reboots
and repeated IDs. The only steps left out are those of `Sys.Mixes`: a write that fails half-way into a file that another
command has filled since it was emptied. `C71_no_failing_writes` and `C71_apart` say when there are none.
-/
set_option autoImplicit false
namespace Verif
open M TS Json

section
variable {E : Env} {f : Faults}

/-- **C71.** Whatever has happened, a tree that can be loaded is a tree: it has one root from which every node descends,
its tags and branches name nodes, and the layers of all its nodes exist. -/
theorem C71_tree_whole {w0 w : World} (h0 : Bare w0) (hs : Sys.Tidy E f w0 w) {n b : Str} (hb : w.disk.space n = some (some b)) {s : TS}
    (hl : spaceLoad (.ok b) = .ok s) : s.abs.Rooted ∧ Stored w.disk s.abs := by
  obtain ⟨par, _, h⟩ := tame_tidy (tame_bare h0) hs
  rcases filed_load (h.space n b hb) with ⟨e, he⟩ | ⟨s', h1, h2, h3⟩
  · rw [hl] at he; cases he
  · rw [hl] at h1; cases h1
    exact ⟨reach_rooted h2, fun u hu => by obtain ⟨nd, hn⟩ := hu; exact h.layers u _ (h3 u nd hn)⟩

/-- **C71.** Reading what is there never crashes or hangs, also if reading fails half-way. -/
theorem C71_load_total {w0 w : World} (h0 : Bare w0) (hs : Sys.Tidy E f w0 w) {n b p : Str} (hb : w.disk.space n = some (some b)) (hp : p <+: b) :
    (∃ s, spaceLoad (.ok p) = .ok s) ∨ ∃ e, spaceLoad (.ok p) = .err e := by
  obtain ⟨par, _, h⟩ := tame_tidy (tame_bare h0) hs
  rcases filed_load (filed_prefix hp (h.space n b hb)) with he | ⟨s', h1, _⟩
  · exact Or.inr he
  · exact Or.inl ⟨s', h1⟩

/-- **C71.** A record that can be read names a working layer that exists. -/
theorem C71_record_whole {w0 w : World} (h0 : Bare w0) (hs : Sys.Tidy E f w0 w) {n b : Str} (hb : w.disk.info n = some b) {j : WsInfo}
    (hj : unmarshalInfo b = some j) : ∃ u, j.head = UID.hex u ∧ w.disk.HasDiff u := by
  obtain ⟨par, _, h⟩ := tame_tidy (tame_bare h0) hs
  obtain ⟨r, p, _, _, e3, e4⟩ := noted_read (h.info n b hb) hj
  exact ⟨r.head, e3, h.layers _ _ e4⟩

/-- Two moments of one history, and what fits the table at the first fits it at the second. -/
theorem tame_twice {w0 w1 w2 : World} (h0 : Bare w0) (h1 : Sys.Tidy E f w0 w1) (h2 : Sys.Tidy E f w1 w2) :
    ∃ par par', Parents.Le par par' ∧ Tame E par w1 ∧ Tame E par' w2 := by
  obtain ⟨par, _, t1⟩ := tame_tidy (tame_bare h0) h1
  obtain ⟨par', hle, t2⟩ := tame_tidy t1 h2
  exact ⟨par, par', hle, t1, t2⟩

theorem tame_loads {par : Parents} {w : World} (h : Tame E par w) {n b : Str} (hb : w.disk.space n = some (some b)) {s : TS}
    (hl : spaceLoad (.ok b) = .ok s) : Reach s ∧ Fits par s.abs := by
  rcases filed_load (h.space n b hb) with ⟨e, he⟩ | ⟨s', h1, h2⟩
  · rw [hl] at he; cases he
  · rw [hl] at h1; cases h1; exact h2

/-- **C72.** The history of a commit never changes: any two trees that can be loaded, in any spaces and at any two moments,
give a commit that is in both the same chain of ancestors. -/
theorem C72_ancestry {w0 w1 w2 : World} (h0 : Bare w0) (h1 : Sys.Tidy E f w0 w1) (h2 : Sys.Tidy E f w1 w2) {n1 n2 b1 b2 : Str}
    (hb1 : w1.disk.space n1 = some (some b1)) (hb2 : w2.disk.space n2 = some (some b2)) {s1 s2 : TS} (hl1 : spaceLoad (.ok b1) = .ok s1)
    (hl2 : spaceLoad (.ok b2) = .ok s2) {u : UID} (hu1 : s1.abs.Has u) (hu2 : s2.abs.Has u) (l : List UID) : s1.abs.Path u l ↔ s2.abs.Path u l := by
  obtain ⟨par, par', hle, t1, t2⟩ := tame_twice h0 h1 h2
  obtain ⟨r1, f1⟩ := tame_loads t1 hb1 hl1
  obtain ⟨r2, f2⟩ := tame_loads t2 hb2 hl2
  obtain ⟨l1, p1⟩ := (reach_rooted r1).path u hu1
  obtain ⟨l2, p2⟩ := (reach_rooted r2).path u hu2
  have e := line_unique (line_path (fits_le hle f1) p1) (line_path f2 p2)
  subst e
  exact ⟨fun h => Ws.path_unique p1 h ▸ p2, fun h => Ws.path_unique p2 h ▸ p1⟩

/-- **C72.** In particular they give it the same parent. -/
theorem C72_parent {w0 w1 w2 : World} (h0 : Bare w0) (h1 : Sys.Tidy E f w0 w1) (h2 : Sys.Tidy E f w1 w2) {n1 n2 b1 b2 : Str}
    (hb1 : w1.disk.space n1 = some (some b1)) (hb2 : w2.disk.space n2 = some (some b2)) {s1 s2 : TS} (hl1 : spaceLoad (.ok b1) = .ok s1)
    (hl2 : spaceLoad (.ok b2) = .ok s2) {u : UID} {nd1 nd2 : ANode} (hu1 : s1.abs.node u = some nd1) (hu2 : s2.abs.node u = some nd2) :
    nd1.parent = nd2.parent := by
  obtain ⟨par, par', hle, t1, t2⟩ := tame_twice h0 h1 h2
  have e1 := fits_le hle (tame_loads t1 hb1 hl1).2 u nd1 hu1
  rw [(tame_loads t2 hb2 hl2).2 u nd2 hu2] at e1
  exact (Option.some.inj e1).symm

/-- **C73.** No command ever hangs. -/
theorem C73_no_hang {w0 w : World} (h0 : Bare w0) (hs : Sys.Tidy E f w0 w) {i : Nat} {p : Proc} (hp : w.procs i = some p) :
    p.prog ≠ .ret .diverge := by
  obtain ⟨par, _, h⟩ := tame_tidy (tame_bare h0) hs
  obtain ⟨c, _, h2⟩ := h.safe i p hp
  intro e
  rw [e] at h2
  exact h2

/-- **C73.** A command crashes only if it was given a key, or went through a link, with the bytes of which this is known. -/
theorem C73_crash {w0 w : World} (h0 : Bare w0) (hs : Sys.Tidy E f w0 w) {i : Nat} {p : Proc} (hp : w.procs i = some p)
    (he : p.prog = .ret .panic) : ∃ c : Command, Left E c p.tr p.prog ∧ c.Trips p.tr := by
  obtain ⟨par, _, h⟩ := tame_tidy (tame_bare h0) hs
  obtain ⟨c, h1, h2⟩ := h.safe i p hp
  rw [he] at h2
  exact ⟨c, h1, h2⟩

/-- **C74.** What is mounted is the history: the lower layers of a mount are the ancestors of the upper layer, nearest first,
in every tree that can be loaded then or later and contains the upper layer. -/
theorem C74_mount_history {w0 w1 w2 : World} (h0 : Bare w0) (h1 : Sys.Tidy E f w0 w1) (h2 : Sys.Tidy E f w1 w2) {k : Str} {m : Mnt}
    (hm : w1.disk.mnt k = some m) {n b : Str} (hb : w2.disk.space n = some (some b)) {s : TS} (hl : spaceLoad (.ok b) = .ok s)
    (hu : s.abs.Has m.upper) : s.abs.Path m.upper (m.upper :: m.lowers) := by
  obtain ⟨par, par', hle, t1, t2⟩ := tame_twice h0 h1 h2
  obtain ⟨r2, f2⟩ := tame_loads t2 hb hl
  obtain ⟨p, e1, e2⟩ := t1.mounted k m hm
  obtain ⟨l, hp⟩ := (reach_rooted r2).path _ hu
  have := line_unique (.step (hle _ _ e1) (line_le hle e2)) (line_path f2 hp)
  rw [this]; exact hp

/-- **C74.** The same for a tree loaded before. -/
theorem C74_mount_history_before {w0 w1 w2 : World} (h0 : Bare w0) (h1 : Sys.Tidy E f w0 w1) (h2 : Sys.Tidy E f w1 w2) {k : Str} {m : Mnt}
    (hm : w2.disk.mnt k = some m) {n b : Str} (hb : w1.disk.space n = some (some b)) {s : TS} (hl : spaceLoad (.ok b) = .ok s)
    (hu : s.abs.Has m.upper) : s.abs.Path m.upper (m.upper :: m.lowers) := by
  obtain ⟨par, par', hle, t1, t2⟩ := tame_twice h0 h1 h2
  obtain ⟨r1, f1⟩ := tame_loads t1 hb hl
  obtain ⟨p, e1, e2⟩ := t2.mounted k m hm
  obtain ⟨l, hp⟩ := (reach_rooted r1).path _ hu
  have := line_unique (.step e1 e2) (line_path (fits_le hle f1) hp)
  rw [this]; exact hp

/-- **C74.** Two mounts of the same working layer, at any two moments, show the same history below it. -/
theorem C74_mounts_agree {w0 w1 w2 : World} (h0 : Bare w0) (h1 : Sys.Tidy E f w0 w1) (h2 : Sys.Tidy E f w1 w2) {k1 k2 : Str} {m1 m2 : Mnt}
    (hm1 : w1.disk.mnt k1 = some m1) (hm2 : w2.disk.mnt k2 = some m2) (he : m1.upper = m2.upper) : m1.lowers = m2.lowers := by
  obtain ⟨par, par', hle, t1, t2⟩ := tame_twice h0 h1 h2
  obtain ⟨p, e1, e2⟩ := t1.mounted k1 m1 hm1
  obtain ⟨q, e3, e4⟩ := t2.mounted k2 m2 hm2
  have := hle _ _ e1
  rw [he, e3] at this
  cases this
  exact line_unique (line_le hle e2) e4

/-! ## When nothing is mixed -/

/-- If no call fails by chance, nothing is mixed: every execution is covered. -/
theorem C71_no_failing_writes (hio : f.io = false) {w w' : World} (hs : Sys.Steps E f w w') : Sys.Tidy E f w w' := by
  induction hs with
  | refl => exact .refl _
  | @step w1 w2 _ hn ih =>
    refine .step ih hn ?_
    rintro ⟨i, p, q, e, hp, hq, htr, hmx⟩
    have hself : ∀ r : Proc, w1.procs i = some r → r.tr = e :: p.tr → False := by
      intro r hr ht
      rw [hp] at hr; cases hr
      have := congrArg List.length ht
      simp at this
    cases hn with
    | start j c hj =>
      by_cases hi : i = j
      · subst hi; rw [hj] at hp; cases hp
      · simp only [upd_ne _ _ hi] at hq; exact hself q hq htr
    | @run j p' c k x d' _ hp' hk hst =>
      by_cases hi : i = j
      · subst hi
        rw [hp] at hp'; cases hp'
        simp only [upd_self, Option.some.injEq] at hq
        subst hq
        simp only [List.cons.injEq, and_true] at htr
        subst htr
        cases c with
        | writeTree n b =>
          obtain ⟨rfl, old, ho, _⟩ := hmx
          simp only [Step, ho] at hst
          rcases hst with ⟨h1, _⟩ | ⟨_, h1, _⟩
          · cases h1
          · rw [hio] at h1; cases h1
        | writeInfo n b =>
          obtain ⟨rfl, old, ho, _⟩ := hmx
          simp only [Step, ho] at hst
          rcases hst with ⟨h1, _⟩ | ⟨_, h1, _⟩
          · cases h1
          · rw [hio] at h1; cases h1
        | _ => exact hmx
      · simp only [upd_ne _ _ hi] at hq; exact hself q hq htr
    | kill j =>
      by_cases hi : i = j
      · subst hi; simp at hq
      · simp only [upd_ne _ _ hi] at hq; exact hself q hq htr
    | outside ho => exact hself q hq htr

/-- The program has just emptied the tree file `n`, or the record `n`. -/
def Emptied (tr : Trace) (n : Str) : Prop := ∃ tl, tr = ⟨.truncTree n, true⟩ :: tl
def EmptiedInfo (tr : Trace) (n : Str) : Prop := ∃ tl, tr = ⟨.truncInfo n, true⟩ :: tl

/-- No two commands are writing the same file. -/
def World.Apart (w : World) : Prop :=
  ∀ i j p q, i ≠ j → w.procs i = some p → w.procs j = some q → ∀ n,
    ¬ (Emptied p.tr n ∧ Emptied q.tr n) ∧ ¬ (EmptiedInfo p.tr n ∧ EmptiedInfo q.tr n)

/-- Executions in which no two commands are ever writing the same file. -/
inductive Sys.Apart (E : Env) (f : Faults) : World → World → Prop where
  | refl (w : World) : w.Apart → Sys.Apart E f w w
  | step {w w1 w2 : World} : Sys.Apart E f w w1 → Sys.Next E f w1 w2 → w2.Apart → Sys.Apart E f w w2

theorem apart_end {w w' : World} (h : Sys.Apart E f w w') : w'.Apart := by
  cases h with
  | refl h => exact h
  | step _ _ h => exact h

/-- A file that has just been emptied is empty. -/
def World.Waits (w : World) : Prop :=
  ∀ i p n, w.procs i = some p → (Emptied p.tr n → ∀ old, w.disk.space n = some (some old) → old = []) ∧
    (EmptiedInfo p.tr n → ∀ old, w.disk.info n = some old → old = [])

theorem waits_next {par : Parents} {w1 w2 : World} (ht : Tame E par w1) (ha : w1.Apart) (hw : w1.Waits) (hn : Sys.Next E f w1 w2) :
    ¬ Sys.Mixes w1 w2 ∧ w2.Waits := by
  have hself : ∀ {i : Nat} {p q r : Proc} {e : Ev}, w1.procs i = some p → w1.procs i = some r → r.tr = e :: p.tr → False := by
    intro i p q r e hp hr h
    rw [hp] at hr; cases hr
    have := congrArg List.length h
    simp at this
  cases hn with
  | start j c hj =>
    refine ⟨?_, ?_⟩
    · rintro ⟨i, p, q, e, hp, hq, htr, _⟩
      by_cases hi : i = j
      · subst hi; rw [hj] at hp; cases hp
      · simp only [upd_ne _ _ hi] at hq; exact hself (q := q) hp hq htr
    · intro i p n hp
      by_cases hi : i = j
      · subst hi
        simp only [upd_self, Option.some.injEq] at hp
        subst hp
        exact ⟨fun ⟨_, hx⟩ => (nomatch hx), fun ⟨_, hx⟩ => (nomatch hx)⟩
      · simp only [upd_ne _ _ hi] at hp; exact hw i p n hp
  | @run j p' c k x d' _ hp' hk hst =>
    have he := step_effect hst
    obtain ⟨cmd, _, h2⟩ := ht.safe j p' hp'
    rw [hk] at h2
    have hg := h2.1
    refine ⟨?_, ?_⟩
    · rintro ⟨i, p, q, e, hp, hq, htr, hmx⟩
      by_cases hi : i = j
      · subst hi
        rw [hp'] at hp; cases hp
        simp only [upd_self, Option.some.injEq] at hq
        subst hq
        simp only [List.cons.injEq, and_true] at htr
        subst htr
        cases c with
        | writeTree n b =>
          obtain ⟨_, old, ho, hne⟩ := hmx
          exact hne ((hw i _ n hp').1 hg.1 old ho)
        | writeInfo n b =>
          obtain ⟨_, old, ho, hne⟩ := hmx
          exact hne ((hw i _ n hp').2 hg.1 old ho)
        | _ => exact hmx
      · simp only [upd_ne _ _ hi] at hq; exact hself (q := q) hp hq htr
    · intro i p n hp
      by_cases hi : i = j
      · subst hi
        simp only [upd_self, Option.some.injEq] at hp
        subst hp
        refine ⟨?_, ?_⟩
        · rintro ⟨tl, h⟩ old ho
          cases h
          rcases hst with ⟨_, _, rfl⟩ | ⟨h, _⟩
          · simp only [Disk.setSpace, upd_self, Option.some.injEq] at ho; exact ho.symm
          · cases h
        · rintro ⟨tl, h⟩ old ho
          cases h
          rcases hst with ⟨_, _, rfl⟩ | ⟨h, _⟩
          · simp only [Disk.setInfo, upd_self, Option.some.injEq] at ho; exact ho.symm
          · cases h
      · simp only [upd_ne _ _ hi] at hp
        refine ⟨fun hx old ho => ?_, fun hx old ho => ?_⟩
        · simp only at ho
          rcases eff_space he n with h1 | h1 | ⟨_, h1⟩ | ⟨b', q', o', y, h1, _⟩
          · exact (hw i p n hp).1 hx old (by rw [← h1]; exact ho)
          · rw [ho] at h1; cases h1
          · rw [ho] at h1; cases h1; rfl
          · cases h1
            exact absurd ⟨hx, hg.1⟩ (ha i j p p' hi hp hp' n).1
        · simp only at ho
          rcases eff_info he n with h1 | ⟨_, h1⟩ | ⟨_, h1⟩ | ⟨b', q', o', y, h1, _⟩
          · exact (hw i p n hp).2 hx old (by rw [← h1]; exact ho)
          · rw [ho] at h1; cases h1
          · rw [ho] at h1; cases h1; rfl
          · cases h1
            exact absurd ⟨hx, hg.1⟩ (ha i j p p' hi hp hp' n).2
  | kill j =>
    refine ⟨?_, ?_⟩
    · rintro ⟨i, p, q, e, hp, hq, htr, _⟩
      by_cases hi : i = j
      · subst hi; simp at hq
      · simp only [upd_ne _ _ hi] at hq; exact hself (q := q) hp hq htr
    · intro i p n hp
      by_cases hi : i = j
      · subst hi; simp at hp
      · simp only [upd_ne _ _ hi] at hp; exact hw i p n hp
  | @outside d' ho =>
    refine ⟨?_, ?_⟩
    · rintro ⟨i, p, q, e, hp, hq, htr, _⟩
      exact hself (q := q) hp hq htr
    · intro i p n hp
      refine ⟨fun hx old h => (hw i p n hp).1 hx old ?_, fun hx old h => (hw i p n hp).2 hx old ?_⟩
      · rw [← (outside_rest ho).1]; exact h
      · rw [← (outside_rest ho).2]; exact h

/-- If no two commands ever write the same file at the same time, nothing is mixed, whatever fails or is killed. -/
theorem C71_apart {w0 w : World} (h0 : Bare w0) (hs : Sys.Apart E f w0 w) : Sys.Tidy E f w0 w := by
  suffices h : Sys.Tidy E f w0 w ∧ w.Waits from h.1
  induction hs with
  | refl _ => exact ⟨.refl _, fun i p n hp => by rw [h0.idle i] at hp; cases hp⟩
  | step hs hn _ ih =>
    obtain ⟨h1, h2⟩ := ih
    obtain ⟨par, _, ht⟩ := tame_tidy (tame_bare h0) h1
    obtain ⟨h3, h4⟩ := waits_next ht (apart_end hs) h2 hn
    exact ⟨.step h1 hn h3, h4⟩

/-- At most one command runs. -/
def World.Single (w : World) : Prop := ∀ i j p q, w.procs i = some p → w.procs j = some q → i = j

theorem single_apart {w : World} (h : w.Single) : w.Apart := fun i j p q hij hp hq => absurd (h i j p q hp hq) hij

end
end Verif
