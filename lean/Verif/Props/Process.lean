import Verif.World.Process
import Verif.Props.LinesWorld
import Verif.Props.MoreExamples
/-!
# What the exit status of a command says (C84)

Status 0 means that the command has succeeded. Status 1 does not mean that nothing happens any more, if the command was interrupted: the process that does the work goes on, or is
killed in the middle of it, depending on how `sudo` starts it.
-/
set_option autoImplicit false
namespace Verif
namespace Sudo
open M TS Json

section
variable {E : Env} {f : Faults} {direct : Bool} {α : Type}

/-- `q` is what is left of `p` after some calls. -/
inductive Runs (E : Env) (f : Faults) : Prog (Res CErr α) → Disk → Prog (Res CErr α) → Disk → Prop where
  | refl (p : Prog (Res CErr α)) (d : Disk) : Runs E f p d p d
  | tail {p : Prog (Res CErr α)} {d d1 d2 : Disk} {c : Cmd} {k : c.Ans → Prog (Res CErr α)} {x : c.Ans} : Runs E f p d (.op c k) d1 → Verif.Step E f c d1 x d2 → Runs E f p d (k x) d2

theorem runs_exec {p q : Prog (Res CErr α)} {d d1 d2 : Disk} {r : Res CErr α} (h : Runs E f p d q d1) (he : Exec E f q d1 r d2) : Exec E f p d r d2 := by
  induction h with
  | refl => exact he
  | tail _ hs ih => exact ih (.op hs he)

theorem runs_stops {p q : Prog (Res CErr α)} {d d1 d2 : Disk} (h : Runs E f p d q d1) (he : Stops E f q d1 d2) : Stops E f p d d2 := by
  induction h with
  | refl => exact he
  | tail _ hs ih => exact ih (.op hs he)

/-- What is always true. -/
structure Inv (E : Env) (f : Faults) (p : Prog (Res CErr α)) (d : Disk) (s : St α) : Prop where
  running : ∀ q, s.child = .running q → Runs E f p d q s.disk
  ended : ∀ n, s.child = .ended n → Stops E f p d s.disk ∧ (n = 0 ∨ s.hit = false → ∃ r, Exec E f p d r s.disk ∧ code r = some n)
  sudo : ∀ n, s.sudo = some n → n = 0 ∨ s.hit = false → s.child = .ended n
  parent : ∀ n, s.parent = some n → ∃ m, s.sudo = some m ∧ (n = 0 ∨ n = 1) ∧ (n = 0 → m = 0) ∧ (s.hit = false → m = 0 → n = 0)

theorem code_zero {r : Res CErr α} : code r = some 0 ↔ ∃ a, r = .ok a := by
  cases r <;> simp [code]

theorem inv_step {p : Prog (Res CErr α)} {d : Disk} {s t : St α} (h : Inv E f p d s) (hs : Step E f direct s t) : Inv E f p d t := by
  cases hs with
  | call hc hx =>
    refine ⟨fun q hq => ?_, fun n hn => (nomatch hn), fun n h1 h2 => ?_, h.parent⟩
    · cases hq; exact .tail (h.running _ hc) hx
    · have := h.sudo n h1 h2; rw [hc] at this; cases this
  | finish hc hx =>
    refine ⟨fun q hq => (nomatch hq), fun n hn => ?_, fun n h1 h2 => ?_, h.parent⟩
    · cases hn
      have he := runs_exec (h.running _ hc) (.ret _ _)
      exact ⟨exec_stops he, fun _ => ⟨_, he, hx⟩⟩
    · have := h.sudo n h1 h2; rw [hc] at this; cases this
  | interrupt hp =>
    refine ⟨h.running, fun n hn => ⟨(h.ended n hn).1, fun h2 => ?_⟩, fun n h1 h2 => ?_, fun n hn => ?_⟩
    · rcases h2 with h2 | h2
      · exact (h.ended n hn).2 (Or.inl h2)
      · cases h2
    · rcases h2 with h2 | h2
      · exact h.sudo n h1 (Or.inl h2)
      · cases h2
    · have : s.parent = some n := hn
      rw [hp] at this; cases this
  | second hh hc =>
    refine ⟨fun q hq => (nomatch hq), fun n hn => ?_, fun n h1 h2 => ?_, h.parent⟩
    · cases hn
      refine ⟨runs_stops (h.running _ hc) (.here _ _), fun h2 => ?_⟩
      rcases h2 with h2 | h2
      · cases h2
      · have : s.hit = false := h2
        rw [hh] at this; cases this
    · have := h.sudo n h1 h2; rw [hc] at this; cases this
  | relay h1 h2 =>
    refine ⟨h.running, h.ended, fun n hn _ => ?_, fun n hn => ?_⟩
    · cases hn; exact h2
    · obtain ⟨m, h3, _⟩ := h.parent n hn
      rw [h1] at h3; cases h3
  | kill hh hp hsu _ =>
    refine ⟨h.running, h.ended, fun n hn h2 => ?_, fun n hn => ?_⟩
    · cases hn
      rcases h2 with h2 | h2
      · cases h2
      · have : s.hit = false := h2
        rw [hh] at this; cases this
    · have : s.parent = some n := hn
      rw [hp] at this; cases this
  | killBoth hh hp hsu _ hc =>
    refine ⟨fun q hq => (nomatch hq), fun n hn => ?_, fun n hn h2 => ?_, fun n hn => ?_⟩
    · cases hn
      refine ⟨runs_stops (h.running _ hc) (.here _ _), fun h2 => ?_⟩
      rcases h2 with h2 | h2
      · cases h2
      · have : s.hit = false := h2
        rw [hh] at this; cases this
    · cases hn; rfl
    · have : s.parent = some n := hn
      rw [hp] at this; cases this
  | reap hp hsu =>
    rename_i m
    refine ⟨h.running, h.ended, h.sudo, fun n hn => ?_⟩
    cases hn
    refine ⟨m, hsu, ?_⟩
    split <;> simp_all
  | late hp hsu hh =>
    rename_i m
    refine ⟨h.running, h.ended, h.sudo, fun n hn => ?_⟩
    cases hn
    exact ⟨m, hsu, Or.inr rfl, nofun, fun h2 => by
      have : s.hit = false := h2
      rw [hh] at this; cases this⟩

theorem inv_steps {p : Prog (Res CErr α)} {d : Disk} {s : St α} (h : Steps E f direct (start p d) s) : Inv E f p d s := by
  generalize hs : start p d = s0 at h
  induction h with
  | refl =>
    subst hs
    exact ⟨fun q hq => by cases hq; exact .refl _ _, fun n hn => (nomatch hn), fun n hn => (nomatch hn), fun n hn => (nomatch hn)⟩
  | tail _ h2 ih => exact inv_step ih h2

/-- **C84.** If a user's command exits with 0, the command has run to its end and succeeded, whatever signals came; and the disk is as it left it. -/
theorem C84_zero {p : Prog (Res CErr α)} {d : Disk} {s : St α} (h : Steps E f direct (start p d) s) (hs : s.parent = some 0) : ∃ a, Exec E f p d (.ok a) s.disk := by
  have hi := inv_steps h
  obtain ⟨m, h1, _, h2, _⟩ := hi.parent 0 hs
  obtain rfl := h2 rfl
  obtain ⟨r, h3, h4⟩ := (hi.ended 0 (hi.sudo 0 h1 (Or.inl rfl))).2 (Or.inl rfl)
  obtain ⟨a, rfl⟩ := code_zero.1 h4
  exact ⟨a, h3⟩

/-- **C84.** Without signals the status is 0 or 1, the command has ended, and the status is 0 exactly if it succeeded. -/
theorem C84_status {p : Prog (Res CErr α)} {d : Disk} {s : St α} (h : Steps E f direct (start p d) s) (hh : s.hit = false) {n : Nat} (hs : s.parent = some n) :
    (n = 0 ∨ n = 1) ∧ ∃ r, Exec E f p d r s.disk ∧ (n = 0 ↔ ∃ a, r = .ok a) := by
  have hi := inv_steps h
  obtain ⟨m, h1, h2, h3, h4⟩ := hi.parent n hs
  obtain ⟨r, h5, h6⟩ := (hi.ended m (hi.sudo m h1 (Or.inr hh))).2 (Or.inr hh)
  refine ⟨h2, r, h5, ?_⟩
  rw [← code_zero, h6, Option.some.injEq]
  exact ⟨h3, h4 hh⟩

/-- **C84.** Whatever happens, the disk is always one that a kill of the command could have left, so that what is said of killed commands holds (C41, C77). -/
theorem C84_stops {p : Prog (Res CErr α)} {d : Disk} {s : St α} (h : Steps E f direct (start p d) s) : Stops E f p d s.disk := by
  have hi := inv_steps h
  cases hc : s.child with
  | running q => exact runs_stops (hi.running q hc) (.here _ _)
  | ended n => exact (hi.ended n hc).1

theorem steps_trans {s t u : St α} (h : Steps E f direct s t) (h' : Steps E f direct t u) : Steps E f direct s u := by
  induction h' with
  | refl => exact h
  | tail _ h2 ih => exact .tail ih h2

theorem steps_exec {p : Prog (Res CErr α)} {d d' : Disk} {r : Res CErr α} (he : Exec E f p d r d') (s : St α) (hc : s.child = .running p) (hd : s.disk = d) :
    Steps E f direct s { s with child := .running (.ret r), disk := d' } := by
  induction he generalizing s with
  | ret a d => subst hd; rw [← hc]; exact .refl _
  | op hx _ ih =>
    subst hd
    exact steps_trans (.tail (.refl _) (.call hc hx)) (ih _ rfl rfl)

/-- The ordinary case: whatever the command returns, the parent can exit with the status that says so. -/
theorem steps_end {p : Prog (Res CErr α)} {d d' : Disk} {r : Res CErr α} (he : Exec E f p d r d') {n : Nat} (hn : code r = some n) :
    ∃ s : St α, Steps E f direct (start p d) s ∧ s.parent = some (if n = 0 then 0 else 1) ∧ s.hit = false ∧ s.disk = d' :=
  ⟨⟨.ended n, d', some n, some (if n = 0 then 0 else 1), false⟩,
    .tail (.tail (.tail (steps_exec he (start p d) rfl rfl) (.finish (n := n) rfl hn)) (.relay rfl rfl)) (.reap (n := n) rfl rfl), rfl, rfl, rfl⟩

/-- **C84 does not hold for failures.** Where `sudo` waits for the program: interrupted at once, the user's command exits with 1 before anything has been done, and after that
the command does all of its work. -/
theorem C84_violated_interrupt {p : Prog (Res CErr α)} {d d' : Disk} {a : α} (he : Exec E f p d (.ok a) d') :
    ∃ s s' : St α, Steps E f false (start p d) s ∧ s.parent = some 1 ∧ s.disk = d ∧ Steps E f false s s' ∧ s'.child = .ended 0 ∧ s'.disk = d' := by
  refine ⟨⟨.running p, d, some 137, some 1, true⟩, ⟨.ended 0, d', some 137, some 1, true⟩, ?_, rfl, rfl, ?_, rfl, rfl⟩
  · exact .tail (.tail (.tail (.refl _) (.interrupt rfl)) (.kill rfl rfl rfl rfl)) (.late (n := 137) rfl rfl rfl)
  · exact .tail (steps_exec he _ rfl rfl) (.finish rfl rfl)

/-- **C84 does not hold for failures.** Where `sudo` has replaced itself by the program, an interrupt kills the command at any point of its work. -/
theorem C84_violated_killed {p : Prog (Res CErr α)} {d d' : Disk} (h : Stops E f p d d') :
    ∃ s : St α, Steps E f true (start p d) s ∧ s.parent = some 1 ∧ s.child = .ended 137 ∧ s.disk = d' := by
  have key : ∀ s : St α, s.child = .running p → s.disk = d → ∃ q, Steps E f true s { s with child := .running q, disk := d' } := by
    induction h with
    | here p d => exact fun s hc hd => ⟨p, by subst hd; rw [← hc]; exact .refl _⟩
    | op hx _ ih =>
      intro s hc hd
      subst hd
      obtain ⟨q, hq⟩ := ih { s with child := .running _, disk := _ } rfl rfl
      exact ⟨q, steps_trans (.tail (.refl _) (.call hc hx)) hq⟩
  obtain ⟨q, hq⟩ := key (start p d) rfl rfl
  exact ⟨⟨.ended 137, d', some 137, some 1, true⟩, .tail (.tail (.tail hq (.interrupt rfl)) (.killBoth rfl rfl rfl rfl rfl)) (.late (n := 137) rfl rfl rfl), rfl, rfl, rfl⟩

/-- **C84.** A user's command that exits with 0 has done what was asked for (`asUser` says what a command line asks for). -/
theorem C84_done {j : Cli.Job} {d : Disk} (hd : Reachable E d) {date : Str} (hout : ∀ p ∈ j.order.dirs, E.Outside (Path.abs j.cwd p)) (hc : j.order.Clean) {s : St Out}
    (h : Steps E f direct (start ((j.order.command j.cwd date).prog E) d) s) (hs : s.parent = some 0) : Cli.Done E date d j.cwd s.disk j.order := by
  obtain ⟨a, he⟩ := C84_zero h hs
  exact Cli.C81_done hd hout hc he

end

/-! ## Concrete cases -/
open Story

/-- `C84_zero`, `C84_status`, `C84_violated_interrupt`, `C84_violated_killed`: `init` of `/w` on an empty data directory: it can exit with 0, and it can exit with 1 and make the workspace afterwards. -/
example : ∃ d', (∃ s, Steps E0 Faults.none false (start (initCmd E0 (Path.abs cw (lit ".")) (lit "main")) disk0) s ∧ s.parent = some 0 ∧ s.hit = false ∧ s.disk = d') ∧
    (∃ s s', Steps E0 Faults.none false (start (initCmd E0 (Path.abs cw (lit ".")) (lit "main")) disk0) s ∧ s.parent = some 1 ∧ s.disk = disk0 ∧ Steps E0 Faults.none false s s' ∧ s'.disk = d') ∧
    (∃ s, Steps E0 Faults.none true (start (initCmd E0 (Path.abs cw (lit ".")) (lit "main")) disk0) s ∧ s.parent = some 1 ∧ s.disk = d') ∧ ∃ w, Gets E0 d' cw (lit ".") w := by
  have hd : Reachable E0 disk0 := reachable_untouched (f := Faults.none) rfl untouched0 .refl
  obtain ⟨r, d', he⟩ := exec_total (E := E0) (f := Faults.none) (initCmd_draws E0 (Path.abs cw (lit ".")) (lit "main")) disk0 (by decide)
  obtain ⟨w', rfl⟩ := C55_accepted hd (off_of_outside outw) (by unfold FreeFor; trivial) (Or.inl rfl) (fits (by simp)) he
  obtain ⟨w, _, _, h1, _⟩ := C55_init hd outw he
  obtain ⟨s, s', a1, a2, a3, a4, _, a6⟩ := C84_violated_interrupt he
  obtain ⟨t, b1, b2, _, b4⟩ := C84_violated_killed (exec_stops he)
  exact ⟨d', steps_end he (n := 0) rfl, ⟨s, s', a1, a2, a3, a4, a6⟩, ⟨t, b1, b2, b4⟩, w, h1⟩

end Sudo
end Verif
