import Verif.Misc.Prepare
/-!
# C47: preparing the data directory
-/
set_option autoImplicit false
namespace Verif
namespace Prep

/-- The directory is there, or it was made: nothing else changes. -/
def Made (fs fs' : Fs) : Prop := ∀ d, fs' d = fs d ∨ (fs d = .missing ∧ fs' d = .dir)

theorem Made.refl (fs : Fs) : Made fs fs := fun _ => Or.inl rfl

theorem Made.trans {a b c : Fs} (h1 : Made a b) (h2 : Made b c) : Made a c := by
  intro d
  rcases h1 d with h1 | ⟨h1, h1'⟩ <;> rcases h2 d with h2 | ⟨h2, h2'⟩
  · exact Or.inl (h2.trans h1)
  · exact Or.inr ⟨h1 ▸ h2, h2'⟩
  · exact Or.inr ⟨h1, h2.trans h1'⟩
  · exact Or.inr ⟨h1, h2'⟩

theorem Made.dir {a b : Fs} (h : Made a b) {d : Dir} (hd : a d = .dir) : b d = .dir := by
  rcases h d with h | ⟨h, _⟩
  · exact h.trans hd
  · rw [hd] at h; cases h

theorem made_put {fs : Fs} {d : Dir} (h : fs d = .missing) : Made fs (fs.put d) := by
  intro x
  by_cases hx : x = d
  · exact Or.inr ⟨hx ▸ h, by simp [Fs.put, hx]⟩
  · exact Or.inl (by simp [Fs.put, hx])

theorem made_race (t : Trouble) (fs : Fs) (d : Dir) : Made fs (race t fs d) := by
  simp only [race]
  split
  · rename_i h
    simp only [Bool.and_eq_true, beq_iff_eq] at h
    exact made_put h.2
  · exact .refl fs

theorem mkdir_made (t : Trouble) (fs : Fs) (d : Dir) : Made fs (mkdir t fs d).2 ∧ ((mkdir t fs d).1 = false → (mkdir t fs d).2 d = .dir) := by
  simp only [mkdir]
  cases h : fs d with
  | missing =>
    simp only
    split
    · exact ⟨.refl fs, by simp⟩
    · exact ⟨made_put h, fun _ => by simp [Fs.put]⟩
  | dir => exact ⟨.refl fs, by simp⟩
  | other => exact ⟨.refl fs, by simp⟩

theorem mkdirAll_made (t : Trouble) (fs : Fs) (d : Dir) : Made fs (mkdirAll t fs d).2 ∧ ((mkdirAll t fs d).1 = false → (mkdirAll t fs d).2 d = .dir) := by
  simp only [mkdirAll]
  cases h : fs d with
  | missing =>
    simp only
    split
    · exact ⟨.refl fs, by simp⟩
    · exact ⟨made_put h, fun _ => by simp [Fs.put]⟩
  | dir => exact ⟨.refl fs, fun _ => h⟩
  | other => exact ⟨.refl fs, by simp⟩

theorem ensure_made {mk : Trouble → Fs → Dir → Bool × Fs}
    (hmk : ∀ t fs d, Made fs (mk t fs d).2 ∧ ((mk t fs d).1 = false → (mk t fs d).2 d = .dir)) (t : Trouble) (fs : Fs) (d : Dir) :
    Made fs (ensure mk t fs d).2 ∧ ((ensure mk t fs d).1 = false → (ensure mk t fs d).2 d = .dir) := by
  simp only [ensure]
  split
  · rename_i h
    simp only [isDir, Bool.and_eq_true, beq_iff_eq] at h
    exact ⟨.refl fs, fun _ => h.1⟩
  · exact ⟨(made_race t fs d).trans (hmk t _ d).1, (hmk t _ d).2⟩

/-- **C47.** Whatever is there before, whatever goes wrong and whoever else makes directories meanwhile: when a new manager is
prepared without an error, all four directories exist and the layer manager can be used. -/
theorem C47_ready {t : Trouble} {fs fs' : Fs} {m : Mgr} (h : prepare t new fs = (none, m, fs')) :
    (∀ d, fs' d = .dir) ∧ m.layerManager = true := by
  simp only [prepare, new, doPrepare] at h
  have h1 := ensure_made mkdirAll_made t fs .root
  generalize hr1 : ensure mkdirAll t fs .root = r1 at h h1
  obtain ⟨e1, fs1⟩ := r1
  cases e1 with
  | true => simp at h
  | false =>
    have h2 := ensure_made mkdir_made t fs1 .layers
    generalize hr2 : ensure mkdir t fs1 .layers = r2 at h h2
    obtain ⟨e2, fs2⟩ := r2
    cases e2 with
    | true => simp [hr2] at h
    | false =>
      have h3 := ensure_made mkdir_made t fs2 .spaces
      generalize hr3 : ensure mkdir t fs2 .spaces = r3 at h h3
      obtain ⟨e3, fs3⟩ := r3
      cases e3 with
      | true => simp [hr2, hr3] at h
      | false =>
        have h4 := ensure_made mkdir_made t fs3 .mounts
        generalize hr4 : ensure mkdir t fs3 .mounts = r4 at h h4
        obtain ⟨e4, fs4⟩ := r4
        cases e4 with
        | true => simp [hr2, hr3, hr4] at h
        | false =>
          simp [hr2, hr3, hr4] at h
          obtain ⟨rfl, rfl⟩ := h
          refine ⟨fun d => ?_, rfl⟩
          cases d with
          | root => exact (h2.1.trans (h3.1.trans h4.1)).dir (h1.2 rfl)
          | layers => exact (h3.1.trans h4.1).dir (h2.2 rfl)
          | spaces => exact h4.1.dir (h3.2 rfl)
          | mounts => exact h4.2 rfl

/-- **C47.** `Prepare` touches nothing that exists, and makes nothing but missing directories, whether it fails or not. -/
theorem C47_only_makes (t : Trouble) (m : Mgr) (fs : Fs) : Made fs (prepare t m fs).2.2 := by
  simp only [prepare]
  split
  · exact .refl fs
  · simp only [doPrepare]
    have h1 := (ensure_made mkdirAll_made t fs .root).1
    generalize ensure mkdirAll t fs .root = r1 at h1
    have h2 := (ensure_made mkdir_made t r1.2 .layers).1
    generalize ensure mkdir t r1.2 .layers = r2 at h2
    have h3 := (ensure_made mkdir_made t r2.2 .spaces).1
    generalize ensure mkdir t r2.2 .spaces = r3 at h3
    have h4 := (ensure_made mkdir_made t r3.2 .mounts).1
    generalize ensure mkdir t r3.2 .mounts = r4 at h4
    split
    · exact h1
    · split
      · exact h1.trans h2
      · split
        · exact h1.trans (h2.trans h3)
        · split <;> exact h1.trans (h2.trans (h3.trans h4))

theorem ensure_calm {mk : Trouble → Fs → Dir → Bool × Fs} (hmk : mk = mkdir ∨ mk = mkdirAll) (fs : Fs) (d : Dir) :
    ((ensure mk calm fs d).1 = true ↔ fs d = .other) ∧ ∀ x, x ≠ d → (ensure mk calm fs d).2 x = fs x := by
  rcases hmk with rfl | rfl <;> cases h : fs d <;> simp [ensure, isDir, race, calm, mkdir, mkdirAll, h] <;> intro x hx <;> simp [Fs.put, hx]

/-- **C47.** If nothing goes wrong by itself, then a new manager can be prepared unless something that is no directory is in the way. -/
theorem C47_succeeds (fs : Fs) : (prepare calm new fs).1 = none ↔ ∀ d, fs d ≠ .other := by
  simp only [prepare, new, doPrepare]
  obtain ⟨a1, b1⟩ := ensure_calm (Or.inr rfl) fs .root
  generalize ensure mkdirAll calm fs .root = r1 at a1 b1
  obtain ⟨a2, b2⟩ := ensure_calm (Or.inl rfl) r1.2 .layers
  generalize ensure mkdir calm r1.2 .layers = r2 at a2 b2
  obtain ⟨a3, b3⟩ := ensure_calm (Or.inl rfl) r2.2 .spaces
  generalize ensure mkdir calm r2.2 .spaces = r3 at a3 b3
  obtain ⟨a4, b4⟩ := ensure_calm (Or.inl rfl) r3.2 .mounts
  generalize ensure mkdir calm r3.2 .mounts = r4 at a4 b4
  rw [b1 _ (by decide)] at a2
  rw [b2 _ (by decide), b1 _ (by decide)] at a3
  rw [b3 _ (by decide), b2 _ (by decide), b1 _ (by decide)] at a4
  constructor
  · intro h d
    by_cases h1 : r1.1 = true
    · simp [h1] at h
    by_cases h2 : r2.1 = true
    · simp [h1, h2] at h
    by_cases h3 : r3.1 = true
    · simp [h1, h2, h3] at h
    by_cases h4 : r4.1 = true
    · simp [h1, h2, h3, h4] at h
    cases d with
    | root => exact fun hd => h1 (a1.2 hd)
    | layers => exact fun hd => h2 (a2.2 hd)
    | spaces => exact fun hd => h3 (a3.2 hd)
    | mounts => exact fun hd => h4 (a4.2 hd)
  · intro h
    have h1 : r1.1 = false := Bool.eq_false_iff.2 fun hx => h _ (a1.1 hx)
    have h2 : r2.1 = false := Bool.eq_false_iff.2 fun hx => h _ (a2.1 hx)
    have h3 : r3.1 = false := Bool.eq_false_iff.2 fun hx => h _ (a3.1 hx)
    have h4 : r4.1 = false := Bool.eq_false_iff.2 fun hx => h _ (a4.1 hx)
    simp [h1, h2, h3, h4]

/-- **C47.** A second process finds everything prepared: it succeeds and changes nothing, even if `mkdir` would not work any more. -/
theorem C47_idempotent {t : Trouble} {fs : Fs} (h : ∀ d, fs d = .dir) (hb : ∀ d, t.blind d = false) :
    prepare t new fs = (none, ⟨true, true⟩, fs) := by
  have he : ∀ (mk : Trouble → Fs → Dir → Bool × Fs) (d : Dir), ensure mk t fs d = (false, fs) := by
    intro mk d
    simp [ensure, isDir, h, hb]
  simp [prepare, new, doPrepare, he]

/-- Calls one after the other on the same manager. -/
def calls (ts : List Trouble) (m : Mgr) (fs : Fs) : Mgr × Fs := ts.foldl (fun s t => (prepare t s.1 s.2).2) (m, fs)

/-- **C47.** After the first call further calls of the same manager do nothing, however many there are. -/
theorem C47_once (t : Trouble) (ts : List Trouble) (m : Mgr) (fs : Fs) :
    calls ts (prepare t m fs).2.1 (prepare t m fs).2.2 = (prepare t m fs).2 ∧
    ∀ t' : Trouble, (prepare t' (calls ts (prepare t m fs).2.1 (prepare t m fs).2.2).1 (calls ts (prepare t m fs).2.1 (prepare t m fs).2.2).2).1 = none := by
  have hon : (prepare t m fs).2.1.once = true := by
    simp only [prepare]
    split
    · assumption
    · rfl
  have hc : calls ts (prepare t m fs).2.1 (prepare t m fs).2.2 = (prepare t m fs).2 := by
    generalize (prepare t m fs).2 = s at hon
    obtain ⟨m', fs'⟩ := s
    simp only [calls] at hon ⊢
    induction ts with
    | nil => rfl
    | cons t' ts ih => simp only [List.foldl_cons, prepare, hon, if_true]; exact ih
  refine ⟨hc, fun t' => ?_⟩
  rw [hc]
  generalize (prepare t m fs).2 = s at hon
  simp only [prepare, hon, if_true]

/-- **C47 is violated on retry.** Whenever the first call fails, the second returns no error, and leaves things as they are: not all
four directories exist unless others made them, and if it was the data root or the layer directory that failed then there is no layer
manager. -/
theorem C47_violated_retry {t t' : Trouble} {fs : Fs} {d : Dir} (h : (prepare t new fs).1 = some d) :
    (prepare t' (prepare t new fs).2.1 (prepare t new fs).2.2).1 = none ∧
    (prepare t' (prepare t new fs).2.1 (prepare t new fs).2.2).2 = (prepare t new fs).2 ∧
    (d = .root ∨ d = .layers → (prepare t new fs).2.1.layerManager = false) := by
  have hon : (prepare t new fs).2.1.once = true := by simp [prepare, new]
  refine ⟨by simp only [prepare] at hon ⊢; simp [hon], by simp only [prepare] at hon ⊢; simp [hon], ?_⟩
  intro hd
  simp only [prepare, new, doPrepare] at h ⊢
  generalize ensure mkdirAll t fs .root = r1 at h ⊢
  generalize ensure mkdir t r1.2 .layers = r2 at h ⊢
  generalize ensure mkdir t r2.2 .spaces = r3 at h ⊢
  generalize ensure mkdir t r3.2 .mounts = r4 at h ⊢
  cases h1 : r1.1 with
  | true => simp
  | false =>
    cases h2 : r2.1 with
    | true => simp
    | false =>
      exfalso
      cases h3 : r3.1 with
      | true => simp [h1, h2, h3] at h; subst h; simp at hd
      | false => cases h4 : r4.1 <;> simp [h1, h2, h3, h4] at h; subst h; simp at hd

/-- The same, seen by the user: two calls on an empty disk that is full for a while. The second reports success, and nothing is there. -/
theorem C47_violated_nothing_there : ∃ t, (prepare t new (fun _ => .missing)).1 = some .root ∧
    (prepare calm (prepare t new (fun _ => .missing)).2.1 (prepare t new (fun _ => .missing)).2.2).1 = none ∧
    ∀ d, (prepare calm (prepare t new (fun _ => .missing)).2.1 (prepare t new (fun _ => .missing)).2.2).2.2 d = .missing :=
  ⟨⟨fun _ => false, fun _ => true, fun _ => false⟩, by decide, by decide, by intro d; cases d <;> decide⟩

/-- Two commands that start at the same time on a new machine: one of them fails, although nothing is wrong. -/
theorem C47_race : ∃ t, (∀ d, t.blind d = false ∧ t.broken d = false) ∧ (prepare t new (fun d => if d = .root then .dir else .missing)).1 = some .spaces :=
  ⟨⟨fun _ => false, fun _ => false, fun d => d == .spaces⟩, by simp, by decide⟩

/-- Cases that meet the hypotheses: a first preparation on an empty disk, one with a full disk after two directories. -/
example : ∃ m fs', prepare calm new (fun _ => .missing) = (none, m, fs') := ⟨_, _, rfl⟩
example : (prepare ⟨fun _ => false, fun d => d == .layers, fun _ => false⟩ new (fun _ => .missing)).1 = some .layers := by decide
example : (prepare calm new (fun d => if d = .mounts then .other else .missing)).1 = some .mounts := by decide

end Prep
end Verif
