import Verif.World.Trace
/-!
# Any number of commands at once

A world is a disk and running commands. In each step one command makes its next call, a command starts or is killed, or
somebody writes into a mounted workspace, changes their own paths, or unmounts something (as a reboot does).
-/
set_option autoImplicit false
namespace Verif
open M TS Json

/-! ## What a call can change -/

/-- The possible changes of the disk, sorted by the field that changes. -/
inductive Effect : Ev → Disk → Disk → Prop where
  | same (e : Ev) (d : Disk) : Effect e d d
  | rand (u : UID) (d : Disk) : Effect ⟨.rand, u⟩ d { d with used := u :: d.used }
  | mkSpace {n : Str} {d : Disk} : d.space n = none → Effect ⟨.mkdirSpace n, true⟩ d (d.setSpace n (some none))
  | mkLayer {u : UID} {d : Disk} : d.layer u = none → Effect ⟨.mkdirLayer u, true⟩ d (d.setLayer u (some none))
  | mkDiff {u : UID} {d : Disk} : d.layer u = some none → Effect ⟨.mkdirDiff u, true⟩ d (d.setLayer u (some (some .empty)))
  | mkMount {n : Str} {d : Disk} : d.mdir n = none → Effect ⟨.mkdirMount n, true⟩ d (d.setMdir n (some ⟨none, false⟩))
  | mdir {n : Str} {d : Disk} {m m' : MDir} (e : Ev) : d.mdir n = some m → Effect e d (d.setMdir n (some m'))
  | mount {n : Str} {u : UID} {ls : List UID} {d : Disk} : d.mdir n ≠ none → (∀ v ∈ u :: ls, d.HasDiff v) →
      Effect ⟨.mountOverlay n u ls, true⟩ d (d.setMnt n (some ⟨u, ls⟩))
  | upper {n : Str} {m : Mnt} {d : Disk} (e : Ev) (c : Content) : d.mnt n = some m → Effect e d (d.put m.upper c)
  | wipe {n : Str} {m : Mnt} {d : Disk} (c : Content) (w : Bool) : d.mnt n = some m →
      Effect ⟨.removeAllMount n, false⟩ d ((d.put m.upper c).setMdir n ((d.mdir n).map fun x => { x with work := w }))
  | rmMount {n : Str} {d : Disk} : d.mnt n = none → Effect ⟨.removeAllMount n, true⟩ d (d.setMdir n none)
  | user {d : Disk} (e : Ev) (us : Str → UEnt) : Effect e d { d with user := us }
  | reboot {d : Disk} (e : Ev) : Effect e d { d with mnt := fun _ => none }
  | umount {n : Str} {d : Disk} : d.mnt n ≠ none → Effect ⟨.umount n, true⟩ d (d.setMnt n none)
  | rmInfo {n : Str} {d : Disk} : Effect ⟨.removeInfo n, .ok⟩ d (d.setInfo n none)
  | truncInfo {n : Str} {d : Disk} : Effect ⟨.truncInfo n, true⟩ d (d.setInfo n (some []))
  | writeInfo {n b p old : Str} {x : Bool} {d : Disk} : d.info n = some old → p <+: b → (x = true → p = b) →
      Effect ⟨.writeInfo n b, x⟩ d (d.setInfo n (some (overwrite p old)))
  | truncTree {n : Str} {d : Disk} : d.space n ≠ none → Effect ⟨.truncTree n, true⟩ d (d.setSpace n (some (some [])))
  | writeTree {n b p old : Str} {x : Bool} {d : Disk} : d.space n = some (some old) → p <+: b → (x = true → p = b) →
      Effect ⟨.writeTree n b, x⟩ d (d.setSpace n (some (some (overwrite p old))))

theorem does_effect {f : Faults} {P : Prop} {d1 d d' : Disk} {x : Bool} {e : Ev} (h : Does f P d1 d x d')
    (he : x = true → P → Effect e d d1) : Effect e d d' := by
  rcases h with ⟨h1, h2, rfl⟩ | ⟨_, _, rfl⟩
  · exact he h1 h2
  · exact .same _ _

theorem meddles_effect {E : Env} {p : Str} {d d' : Disk} {e : Ev} (h : Meddles E p d d') : Effect e d d' := by
  rcases h with rfl | ⟨n, m, c, _, hm, rfl⟩
  · exact .same _ _
  · exact .upper _ c hm

theorem step_effect {E : Env} {f : Faults} {c : Cmd} {d d' : Disk} {x : c.Ans} (h : Step E f c d x d') : Effect ⟨c, x⟩ d d' := by
  cases c with
  | rand => obtain ⟨_, rfl⟩ := h; exact .rand x d
  | mkdirSpace n => exact does_effect h fun hx hp => by subst hx; exact .mkSpace hp
  | mkdirLayer u => exact does_effect h fun hx hp => by subst hx; exact .mkLayer hp
  | isDirDiff u => obtain ⟨rfl, _⟩ := h; exact .same _ _
  | mkdirDiff u => exact does_effect h fun hx hp => by subst hx; exact .mkDiff hp
  | isDirLayer u => obtain ⟨rfl, _⟩ := h; exact .same _ _
  | mkdirMount n => exact does_effect h fun hx hp => by subst hx; exact .mkMount hp
  | isDirMerged n => obtain ⟨rfl, _⟩ := h; exact .same _ _
  | mkdirMerged n =>
    rcases h with ⟨_, m, hm, _, rfl⟩ | ⟨_, rfl, _⟩ | ⟨_, rfl, _⟩
    · exact .mdir _ hm
    · exact .same _ _
    · exact .same _ _
  | isDirWork n => obtain ⟨rfl, _⟩ := h; exact .same _ _
  | mkdirWork n =>
    rcases h with ⟨_, m, hm, _, rfl⟩ | ⟨_, rfl, _⟩ | ⟨_, rfl, _⟩
    · exact .mdir _ hm
    · exact .same _ _
    · exact .same _ _
  | mountOverlay n u ls =>
    refine does_effect h fun hx hp => ?_
    subst hx
    obtain ⟨⟨m, c, hm, _⟩, hd, _⟩ := hp
    exact .mount (by rw [hm]; simp) hd
  | chownMerged n =>
    simp only [Step] at h
    split at h
    · rename_i m hm
      exact does_effect h fun hx hp => .upper _ _ hm
    · split at h
      · rename_i c w hm
        exact does_effect h fun hx hp => .mdir _ hm
      · obtain ⟨_, rfl⟩ := h; exact .same _ _
  | sys k => exact does_effect h fun _ _ => .same _ _
  | exists_ p => obtain ⟨rfl, _⟩ := h; exact .same _ _
  | isEmptyDir p => obtain ⟨rfl, _⟩ := h; exact .same _ _
  | isSymlink p => obtain ⟨rfl, _⟩ := h; exact .same _ _
  | readlink p => obtain ⟨rfl, _⟩ := h; exact .same _ _
  | remove p =>
    rcases h with ⟨_, h⟩ | ⟨_, h⟩
    · exact does_effect h fun _ _ => .user _ _
    · exact meddles_effect h
  | symlink t p =>
    rcases h with ⟨_, h⟩ | ⟨_, h⟩
    · exact does_effect h fun _ _ => .user _ _
    · exact meddles_effect h
  | lchown p =>
    rcases h with ⟨_, h⟩ | ⟨_, h⟩
    · exact does_effect h fun _ _ => .same _ _
    · exact meddles_effect h
  | umount n =>
    rcases h with ⟨rfl, hm, rfl⟩ | ⟨_, rfl, _⟩
    · exact .umount hm
    · exact .same _ _
  | removeAllMount n =>
    simp only [Step] at h
    split at h
    · rename_i hn
      rcases h with ⟨rfl, rfl⟩ | ⟨_, _, m, m', hm, rfl⟩
      · exact .rmMount hn
      · exact .mdir _ hm
    · rename_i m hm
      obtain ⟨rfl, c, w, _, rfl⟩ := h
      exact .wipe c w hm
  | removeInfo n =>
    rcases h with ⟨rfl, _, rfl⟩ | ⟨_, _, rfl⟩ | ⟨_, _, rfl⟩
    · exact .rmInfo
    · exact .same _ _
    · exact .same _ _
  | readInfo n => obtain ⟨rfl, _⟩ := h; exact .same _ _
  | truncInfo n => exact does_effect h fun hx _ => by subst hx; exact .truncInfo
  | writeInfo n b =>
    simp only [Step] at h
    split at h
    · obtain ⟨rfl, _⟩ := h; exact .same _ _
    · rename_i old ho
      rcases h with ⟨rfl, rfl⟩ | ⟨rfl, _, p, hp, rfl⟩
      · exact .writeInfo ho (List.prefix_refl b) fun _ => rfl
      · exact .writeInfo ho hp (by simp)
  | readTree n => obtain ⟨rfl, _⟩ := h; exact .same _ _
  | truncTree n => exact does_effect h fun hx hp => by subst hx; exact .truncTree hp
  | writeTree n b =>
    simp only [Step] at h
    split at h
    · rename_i old ho
      rcases h with ⟨rfl, rfl⟩ | ⟨rfl, _, p, hp, rfl⟩
      · exact .writeTree ho (List.prefix_refl b) fun _ => rfl
      · exact .writeTree ho hp (by simp)
    · obtain ⟨rfl, _⟩ := h; exact .same _ _
  | dump s => obtain ⟨rfl, _⟩ := h; exact .same _ _

/-- A fresh ID is fresh unless the generator may repeat. -/
theorem step_rand {E : Env} {f : Faults} {d d' : Disk} {u : UID} (h : Step E f .rand d u d') : u ∉ d.used ∨ f.rep = true := h.1

/-! ## The system -/

/-- What a command returns. -/
inductive Out where
  | made (w : OpenWs)
  | moved (w w' : OpenWs)
  | edited (s : TS)
  | read (w : OpenWs)

/-- The commands. `look` stands for `log` and the listings of `branch` and `tag`, which only open the workspace. -/
inductive Command where
  | init (path branch : Str)
  | clone (cwd source target : Str)
  | commit (cwd : Str) (ci : CommitInfo)
  | checkout (cwd key : Str)
  | edit (cwd : Str) (es : List Edit)
  | look (cwd : Str)

/-- The program of a command. -/
def Command.prog (E : Env) : Command → M Out
  | .init path branch => do return .made (← initCmd E path branch)
  | .clone cwd source target => do return .made (← cloneCmd E cwd source target)
  | .commit cwd ci => do let x ← commitCmd E cwd ci; return .moved x.1 x.2
  | .checkout cwd key => do let x ← checkoutCmd E cwd key; return .moved x.1 x.2
  | .edit cwd es => do return .edited (← editCmd E cwd es)
  | .look cwd => do return .read (← getWorkspace E cwd (lit "."))

/-- A running command: the disk when it started and its calls so far (both only for reasoning), and what is left to do. -/
structure Proc where
  start : Disk
  tr : Trace
  prog : Prog (Res CErr Out)

/-- The disk and the running commands by process number. -/
structure World where
  disk : Disk
  procs : Nat → Option Proc

/-- Changes of the disk that no command makes. -/
inductive Outside : Disk → Disk → Prop where
  /-- Somebody writes into a mounted workspace: the upper layer changes. -/
  | write {d : Disk} {n : Str} {m : Mnt} (c : Content) : d.mnt n = some m → Outside d (d.put m.upper c)
  /-- The user changes paths of their own. -/
  | touch {d : Disk} (us : Str → UEnt) : Outside d { d with user := us }
  /-- A mount goes away by hand. -/
  | unplug {d : Disk} (n : Str) : Outside d (d.setMnt n none)
  /-- All mounts go away: the machine is started again. (Commands that run then are killed by `Sys.Next.kill`.) -/
  | reboot {d : Disk} : Outside d { d with mnt := fun _ => none }
  /-- Somebody writes into a `merged` directory on which nothing is mounted. -/
  | stray {d : Disk} {n : Str} {m : MDir} (c : Content) : d.mnt n = none → d.mdir n = some m →
      Outside d (d.setMdir n (some { m with merged := some c }))

/-- One step of the system. Each command may be that of any user. -/
inductive Sys.Next (E : Env) (f : Faults) : World → World → Prop where
  | start {w : World} (i : Nat) (c : Command) : w.procs i = none →
      Sys.Next E f w ⟨w.disk, upd w.procs i (some ⟨w.disk, [], c.prog E⟩)⟩
  | run {w : World} {i : Nat} {p : Proc} {c : Cmd} {k : c.Ans → Prog (Res CErr Out)} {x : c.Ans} {d' : Disk} {o : Nat} :
      w.procs i = some p → p.prog = .op c k → Step (E.as o) f c w.disk x d' →
      Sys.Next E f w ⟨d', upd w.procs i (some ⟨p.start, ⟨c, x⟩ :: p.tr, k x⟩)⟩
  | kill {w : World} (i : Nat) : Sys.Next E f w ⟨w.disk, upd w.procs i none⟩
  | outside {w : World} {d' : Disk} : Outside w.disk d' → Sys.Next E f w ⟨d', w.procs⟩

/-- Any number of steps. -/
inductive Sys.Steps (E : Env) (f : Faults) : World → World → Prop where
  | refl (w : World) : Sys.Steps E f w w
  | step {w w1 w2 : World} : Sys.Steps E f w w1 → Sys.Next E f w1 w2 → Sys.Steps E f w w2

theorem Sys.Steps.trans {E : Env} {f : Faults} {a b c : World} (h : Sys.Steps E f a b) (h' : Sys.Steps E f b c) : Sys.Steps E f a c := by
  induction h' with
  | refl => exact h
  | step _ hn ih => exact .step ih hn

/-- What is required of what a command returns and the calls it made. -/
def OutOk (tr : Trace) : Out → Prop
  | .moved w _ => Moved tr w
  | _ => True

theorem command_guard (E : Env) (c : Command) : tok AnyAns (Guard E) (c.prog E) (fun o tr => OutOk tr o) [] := by
  cases c with
  | init path branch => exact tok_bind (tok_mono (initCmd_guard path branch) fun _ _ _ => tok_pure trivial)
  | clone cwd source target => exact tok_bind (tok_mono (cloneCmd_guard cwd source target) fun _ _ _ => tok_pure trivial)
  | commit cwd ci => exact tok_bind (tok_mono (commitCmd_guard cwd ci) fun _ _ h => tok_pure h)
  | checkout cwd key => exact tok_bind (tok_mono (checkoutCmd_guard cwd key) fun _ _ h => tok_pure h)
  | edit cwd es => exact tok_bind (tok_mono (editCmd_guard cwd es) fun _ _ _ => tok_pure trivial)
  | look cwd => exact tok_bind (tok_mono (getWorkspace_guard cwd _ []) fun _ _ _ => tok_pure trivial)

end Verif
