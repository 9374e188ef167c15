import Verif.World.Settle
import Verif.Props.WholePast
import Verif.Props.Branches
/-!
# Going on from disks that any history left

`Legacy` disks stay `Legacy` disks: when commands follow one another, when commands run at the same time and do not write the
same file at the same moment, and when commands are killed.
-/
set_option autoImplicit false
namespace Verif
open M TS Json

section
variable {E : Env} {f f' : Faults} {par : Parents}

/-! ## Stopping everything -/

theorem busy_next {w w' : World} (h : Sys.Next E f w w') (hb : ∃ N, ∀ i, N ≤ i → w.procs i = none) : ∃ N, ∀ i, N ≤ i → w'.procs i = none := by
  obtain ⟨N, hN⟩ := hb
  have key : ∀ (j : Nat) (x : Option Proc), ∃ N, ∀ i, N ≤ i → upd w.procs j x i = none := fun j x =>
    ⟨max N (j + 1), fun i hi => by rw [upd_ne _ _ (by omega)]; exact hN i (by omega)⟩
  cases h with
  | start i c hi => exact key _ _
  | run _ _ _ => exact key _ _
  | kill i => exact key _ _
  | outside _ => exact ⟨N, hN⟩

theorem busy_tidy {w w' : World} (h0 : ∀ i, w.procs i = none) (h : Sys.Tidy E f w w') : ∃ N, ∀ i, N ≤ i → w'.procs i = none := by
  induction h with
  | refl => exact ⟨0, fun i _ => h0 i⟩
  | step _ hn _ ih => exact busy_next hn ih

theorem kill_unmixed (w : World) (j : Nat) : ¬ Sys.Mixes w ⟨w.disk, upd w.procs j none⟩ := by
  rintro ⟨i, p, q, e, hp, hq, htr, _⟩
  by_cases hi : i = j
  · subst hi; simp at hq
  · simp only [upd_ne _ _ hi] at hq
    rw [hp] at hq; cases hq
    have := congrArg List.length htr
    simp at this

/-- All commands can be killed. -/
theorem tidy_halt {w w' : World} (h0 : ∀ i, w.procs i = none) (h : Sys.Tidy E f w w') : Sys.Tidy E f w ⟨w'.disk, fun _ => none⟩ := by
  obtain ⟨N, hN⟩ := busy_tidy h0 h
  have key : ∀ k, Sys.Tidy E f w ⟨w'.disk, fun i => if i < k then none else w'.procs i⟩ := by
    intro k
    induction k with
    | zero => simpa using h
    | succ k ih =>
      have hn := Sys.Tidy.step ih (.kill (E := E) (f := f) (w := ⟨w'.disk, fun i => if i < k then none else w'.procs i⟩) k) (kill_unmixed _ _)
      have e : upd (fun i => if i < k then none else w'.procs i) k none = fun i => if i < k + 1 then none else w'.procs i := by
        funext i
        by_cases hi : i = k
        · subst hi; simp
        · rw [upd_ne _ _ hi]
          by_cases hk : i < k
          · rw [if_pos hk, if_pos (by omega)]
          · rw [if_neg hk, if_neg (by omega)]
      rw [e] at hn; exact hn
  have e : (fun i => if i < N then none else w'.procs i) = fun _ => none := by
    funext i
    by_cases hi : i < N
    · rw [if_pos hi]
    · rw [if_neg hi]; exact hN i (by omega)
  have := key N
  rwa [e] at this

theorem next_mono (hf : f.Le f') {w w' : World} (h : Sys.Next E f w w') : Sys.Next E f' w w' := by
  cases h with
  | start i c hi => exact .start i c hi
  | run hp hk hs => exact .run hp hk (step_mono hf hs)
  | kill i => exact .kill i
  | outside ho => exact .outside ho

theorem tidy_mono (hf : f.Le f') {w w' : World} (h : Sys.Tidy E f w w') : Sys.Tidy E f' w w' := by
  induction h with
  | refl => exact .refl _
  | step _ hn hm ih => exact .step ih (next_mono hf hn) hm

/-- Everything goes wrong that does in `f` or in `f'`. -/
def Faults.sup (f f' : Faults) : Faults := ⟨f.io || f'.io, f.busy || f'.busy, f.rep || f'.rep⟩

theorem le_sup_left : f.Le (f.sup f') := ⟨fun h => by simp [Faults.sup, h], fun h => by simp [Faults.sup, h], fun h => by simp [Faults.sup, h]⟩
theorem le_sup_right : f'.Le (f.sup f') := ⟨fun h => by simp [Faults.sup, h], fun h => by simp [Faults.sup, h], fun h => by simp [Faults.sup, h]⟩

theorem legacy_idle {d : Disk} (h : Legacy E d) : ∃ (f : Faults) (w0 : World), f.rep = false ∧ (∀ i, w0.procs i = none) ∧ Untouched w0.disk ∧
    Sys.Tidy E f w0 ⟨d, fun _ => none⟩ := by
  obtain ⟨f, w0, w, hf, hi, h0, ht, rfl, _⟩ := h
  exact ⟨f, w0, hf, hi, h0, tidy_halt hi ht⟩

/-- **C77.** Whatever ran before and whatever runs from here on, at the same time, failing or killed: if nothing is mixed and the
disk is orderly in the end, it is again a disk from which the theorems about commands start. -/
theorem C77_tidy {d : Disk} (hd : Legacy E d) (hf : f.rep = false) {w : World} (h : Sys.Tidy E f ⟨d, fun _ => none⟩ w) (ho : Orderly w.disk) : Legacy E w.disk := by
  obtain ⟨f0, w0, hf0, hi, h0, ht⟩ := legacy_idle hd
  exact ⟨f0.sup f, w0, w, by simp [Faults.sup, hf0, hf], hi, h0, (tidy_mono le_sup_left ht).trans (tidy_mono le_sup_right h), rfl, ho⟩

/-! ## Commands that do not write the same file at the same moment -/

/-- A tree file can be read, or no beginning of it can be. -/
def AllOrNothing (b : Str) : Prop := (∃ s, spaceLoad (.ok b) = .ok s) ∨ ∀ q, q <+: b → ∃ e, spaceLoad (.ok q) = .err e

theorem allOrNothing_nil : AllOrNothing [] := Or.inr fun q hq => by
  rw [List.prefix_nil.1 hq]; exact ⟨_, load_empty⟩

theorem allOrNothing_prefix {T : TS} {full b : Str} (hr : Reach T) (hs : SavesAs E.sh T full) (hb : b <+: full) : AllOrNothing b := by
  obtain ⟨t, ht⟩ := hb
  have torn : ∀ {p t : Str}, p ++ t = full → t ≠ [] → ∃ e, spaceLoad (.ok p) = .err e := fun h1 h2 => ⟨_, C18_torn_detected hs h1 h2⟩
  have below : ∀ q, q <+: b → (q = full) ∨ ∃ e, spaceLoad (.ok q) = .err e := by
    rintro q ⟨t', rfl⟩
    rw [List.append_assoc] at ht
    by_cases h0 : t' ++ t = []
    · rw [h0, List.append_nil] at ht; exact Or.inl ht
    · exact Or.inr (torn ht h0)
  by_cases hS : T.abs.Shallow
  · obtain ⟨s', h1, _⟩ := (load_saved hr hs).1 hS
    by_cases h0 : t = []
    · subst h0
      rw [List.append_nil] at ht
      subst ht; exact Or.inl ⟨s', h1⟩
    · right
      rintro q ⟨t', rfl⟩
      rw [List.append_assoc] at ht
      exact torn ht (by simp [h0])
  · right
    intro q hq
    rcases below q hq with rfl | h
    · exact ⟨_, (load_saved hr hs).2 hS⟩
    · exact h

theorem files_next {w1 w2 : World} (ht : Tame E par w1) (hw : w1.Waits) (hn : Sys.Next E f w1 w2)
    (h : ∀ n b, w1.disk.space n = some (some b) → AllOrNothing b) : ∀ n b, w2.disk.space n = some (some b) → AllOrNothing b := by
  cases hn with
  | start j c hj => exact h
  | kill j => exact h
  | outside ho => intro n b hb; exact h n b (by rw [← (outside_rest ho).1]; exact hb)
  | @run i p c k x d' o hp hk hs =>
    intro n b hb
    simp only at hb
    have he := step_effect hs
    obtain ⟨cmd, _, htwp⟩ := ht.safe i p hp
    rw [hk] at htwp
    obtain ⟨hg, _⟩ := htwp
    rcases eff_space he n with h1 | h1 | ⟨_, h1⟩ | ⟨b', p', old, y, h1, h2, h3, h4, h5⟩
    · exact h n b (by rw [← h1]; exact hb)
    · rw [hb] at h1; cases h1
    · rw [hb] at h1; cases h1; exact allOrNothing_nil
    · rw [hb] at h5
      simp only [Option.some.injEq] at h5
      subst h5
      cases h1
      obtain ⟨hem, s, hd⟩ := hg
      obtain ⟨d1, d2, _⟩ := ht.dumped i p s b' hp hd
      have : old = [] := (hw i p n hp).1 hem old h2
      subst this
      rw [overwrite_nil]; exact allOrNothing_prefix d1 d2 h3

/-- From a `Legacy` disk on: nothing is mixed, and every tree file can be read or no beginning of it can be. -/
theorem apart_legacy {d : Disk} (hd : Legacy E d) (hf : f.rep = false) {w : World} (h : Sys.Apart E f ⟨d, fun _ => none⟩ w) :
    Sys.Tidy E f ⟨d, fun _ => none⟩ w ∧ ∀ n b, w.disk.space n = some (some b) → AllOrNothing b := by
  obtain ⟨f0, w0, hf0, hi, h0, ht⟩ := legacy_idle hd
  obtain ⟨hb, _⟩ := bare_of_untouched hi h0
  suffices hx : Sys.Tidy E f ⟨d, fun _ => none⟩ w ∧ w.Waits ∧ ∀ n b, w.disk.space n = some (some b) → AllOrNothing b from ⟨hx.1, hx.2.2⟩
  induction h with
  | refl _ =>
    obtain ⟨_, _, _, _, _, _, _, _, ho⟩ := hd
    exact ⟨.refl _, fun i p n hp => (nomatch hp), ho.tree⟩
  | step hs hn _ ih =>
    obtain ⟨h1, h2, h3⟩ := ih
    obtain ⟨par, _, t⟩ := tame_tidy (tame_bare hb) ((tidy_mono (f' := f0.sup f) le_sup_left ht).trans (tidy_mono le_sup_right h1))
    obtain ⟨h4, h5⟩ := waits_next t (apart_end hs) h2 hn
    exact ⟨.step h1 hn h4, h5, files_next t h2 hn h3⟩

/-- **C77.** Commands run at the same time, fail and are killed, but no two write the same file at the same moment. Then the one
kind of remains that can be in the way is a record whose mount directory is gone. Without such records the theorems about
commands hold from there on. -/
theorem C77_apart {d : Disk} (hd : Legacy E d) (hf : f.rep = false) {w : World} (h : Sys.Apart E f ⟨d, fun _ => none⟩ w)
    (hm : ∀ n b i, w.disk.info n = some b → unmarshalInfo b = some i → w.disk.mdir n ≠ none) : Legacy E w.disk := by
  obtain ⟨h1, h2⟩ := apart_legacy hd hf h
  exact C77_tidy hd hf h1 ⟨hm, h2⟩

theorem apart_stops {i : Nat} {q : Prog (Res CErr Out)} {d d' : Disk} (h : Stops E f q d d') : ∀ {p : Proc}, p.prog = q →
    ∃ p', Sys.Apart E f ⟨d, upd (fun _ => none) i (some p)⟩ ⟨d', upd (fun _ => none) i (some p')⟩ := by
  have hsi : ∀ (d : Disk) (p : Proc), World.Single ⟨d, upd (fun _ => none) i (some p)⟩ := by
    intro d p a b x y ha hb
    simp only [upd] at ha hb
    split at ha <;> split at hb <;> simp_all
  induction h with
  | here q d => intro p _; exact ⟨p, .refl _ (single_apart (hsi _ _))⟩
  | @op c k d d1 d2 x hs _ ih =>
    intro p hp
    obtain ⟨p', h'⟩ := ih (p := ⟨p.start, ⟨c, x⟩ :: p.tr, k x⟩) rfl
    have hn : Sys.Next E f ⟨d, upd (fun _ => none) i (some p)⟩ ⟨d1, upd (upd (fun _ => none) i (some p)) i (some ⟨p.start, ⟨c, x⟩ :: p.tr, k x⟩)⟩ :=
      .run (o := E.owner) (by simp) hp hs
    rw [upd_upd] at hn
    exact ⟨p', (Sys.Apart.step (.refl _ (single_apart (hsi _ _))) hn (single_apart (hsi _ _))).trans h'⟩

/-- **C77.** A command is killed at any moment. -/
theorem C77_killed {d d' : Disk} (hd : Legacy E d) (hf : f.rep = false) {c : Command} (h : Stops E f (c.prog E) d d')
    (hm : ∀ n b i, d'.info n = some b → unmarshalInfo b = some i → d'.mdir n ≠ none) : Legacy E d' := by
  obtain ⟨p', h'⟩ := apart_stops (i := 0) h (p := ⟨d, [], c.prog E⟩) rfl
  refine C77_apart (w := ⟨d', _⟩) hd hf (Sys.Apart.trans (.step (.refl _ (single_apart (single_none _))) (.start 0 c rfl) (apart_start h')) h') hm
where
  apart_start {w w' : World} (h : Sys.Apart E f w w') : w.Apart := by
    induction h with
    | refl h => exact h
    | step _ _ _ ih => exact ih

theorem reachable_legacy {d : Disk} (h : Legacy E d) : Reachable E d := ⟨Faults.none, d, rfl, h, .refl⟩

/-- **C77.** Commands follow one another. -/
theorem C77_past {d d' : Disk} (hd : Legacy E d) (hf : f.rep = false) (hio : f.io = false) (h : Past E f d d') : Legacy E d' := by
  obtain ⟨⟨g, hg⟩, _⟩ := legacy_sound hd
  obtain ⟨g', hg', _⟩ := steady_past hio hg h
  refine C77_apart (w := ⟨d', _⟩) hd hf (apart_past h) fun n b i hb hi => ?_
  rcases hg'.info n b hb with e | ⟨r, _, hr⟩
  · rw [hi] at e; cases e
  · exact hr.mdir

/-- **C77.** After a killed command: a workspace that opens can be committed under the usual condition, with the usual effect. -/
theorem C77_commit {d d1 d2 : Disk} (hd : Legacy E d) (hf : f.rep = false) {c : Command} (h : Stops E f (c.prog E) d d1)
    (hm : ∀ n b i, d1.info n = some b → unmarshalInfo b = some i → d1.mdir n ≠ none) {cwd : Str} (hout : E.Outside (Path.abs cwd (lit "."))) {w : OpenWs}
    (hg : Gets E d1 cwd (lit ".") w) {u p : UID} (hh : w.ws.HeadAt w.tree u p) (hmay : MayCommit w u) {ls : List UID} (hls : w.tree.abs.Path u ls)
    (hfit : E.Fits ls.length) (hlink : ∃ n m c, d1.user w.ws.path = .link (E.mountPath n) ∧ d1.mdir n = some m ∧ m.merged = some c)
    {ci : CommitInfo} {r : Res CErr (OpenWs × OpenWs)} (he : Exec E Faults.none (commitCmd E cwd ci) d1 r d2) :
    (∃ x, r = .ok x) ∧ ∃ w2 u2, Gets E d2 cwd (lit ".") w2 ∧ SameWs w w2 ∧ w2.ws.HeadAt w2.tree u2 u ∧ CommitEffect w.tree.abs w.ws u u2 ci w2.tree.abs := by
  have hr := reachable_legacy (C77_killed hd hf h hm)
  obtain ⟨x, rfl⟩ := (C28_accepted_iff hr hout hg hh hls hfit hlink he).2 hmay
  exact ⟨⟨x, rfl⟩, C27_commit_effect hr hout hg hh he⟩

/-- **C60.** Whatever runs at the same time, fails or is killed: every branch of every tree that can be loaded is named after an ID that
was drawn, and none is global. -/
theorem C60_concurrent {w0 w : World} (hi : ∀ i, w0.procs i = none) (h0 : Untouched w0.disk) (hf : f.rep = false) (ht : Sys.Tidy E f w0 w) {n b : Str} {s : TS}
    (hb : w.disk.space n = some (some b)) (hs : spaceLoad (.ok b) = .ok s) :
    (∀ x v, s.abs.branch x = some v → ∃ i y, i ∈ w.disk.used ∧ x = UID.base32 i ++ lit "/" ++ y) ∧ ∀ name, s.abs.branch (lit "global/" ++ name) = none := by
  obtain ⟨hb0, htr⟩ := bare_of_untouched hi h0
  obtain ⟨par, _, _, h3⟩ := fair_tidy hf (fair_bare hb0) (tame_bare hb0) (tied_bare (E := E) hb0 htr) ht
  have ho := h3.space n b b s hb (List.prefix_refl _) hs
  refine ⟨ho, fun name => ?_⟩
  cases h : s.abs.branch (lit "global/" ++ name) with
  | none => rfl
  | some v =>
    obtain ⟨i, x, _, h2⟩ := ho _ v h
    exact absurd h2.symm own_ne_global

end
end Verif
