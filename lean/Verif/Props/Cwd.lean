import Verif.World.Cwd
import Verif.Props.Inside
import Verif.Props.Between
/-!
# C104: commands find back to their working directory
-/
set_option autoImplicit false
namespace Verif
open M TS Json

section
variable {E : Env} {f : Faults} {pwd : Option Str}

/-! ## The directory of a new mount is named by its ID -/

theorem createMount_dir {s : TS} {u : UID} {x : TS × MountObj × Ref} {d d' : Disk} (h : Exec E f (createMount s u) d (.ok x) d') : x.2.1.dir = x.2.1.id.base32 := by
  unfold createMount at h
  obtain ⟨m, d1, _, h⟩ := exec_ok_inv h
  obtain ⟨b, d2, _, h⟩ := exec_ok_inv h
  obtain ⟨_, d3, _, h⟩ := exec_ok_inv h
  unfold spaceCreateMount at h
  obtain ⟨y, d4, _, h⟩ := exec_ok_inv h
  obtain ⟨l, d5, _, h⟩ := exec_ok_inv h
  split at h
  · cases h; rfl
  · cases h

theorem commitP_dir {w w' : OpenWs} {ci : CommitInfo} {d d' : Disk} (h : Exec E f (commitP E w ci) d (.ok w') d') :
    w'.mount.dir = w'.mount.id.base32 ∧ w'.ws.path = w.ws.path := by
  unfold commitP at h
  split at h
  · cases h
  split at h
  · cases h
  obtain ⟨x, d1, h1, h⟩ := exec_ok_inv h
  obtain ⟨s3, d2, _, h⟩ := exec_ok_inv h
  rw [saveAll_same h]
  exact ⟨createMount_dir h1, rfl⟩

theorem checkoutP_dir {w w' : OpenWs} {key : Str} {d d' : Disk} (h : Exec E f (checkoutP E w key) d (.ok w') d') :
    w'.mount.dir = w'.mount.id.base32 ∧ w'.ws.path = w.ws.path := by
  unfold checkoutP at h
  obtain ⟨x, d0, _, h⟩ := exec_ok_inv h
  split at h
  · cases h
  split at h
  · cases h
  obtain ⟨x, d1, h1, h⟩ := exec_ok_inv h
  rw [saveAll_same h]
  exact ⟨createMount_dir h1, rfl⟩

theorem cloneP_dir {w w' : OpenWs} {target : Str} {d d' : Disk} (h : Exec E f (cloneP E w target) d (.ok w') d') :
    w'.mount.dir = w'.mount.id.base32 ∧ w'.ws.path = target := by
  unfold cloneP at h
  obtain ⟨_, d0, _, h⟩ := exec_ok_inv h
  obtain ⟨x, d1, h1, h⟩ := exec_ok_inv h
  obtain ⟨wid, d2, _, h⟩ := exec_ok_inv h
  rw [saveAll_same h]
  exact ⟨createMount_dir h1, rfl⟩

theorem setBranch_path_at {s s' : TS} {w w' : Ws} {b : Str} (h : Ws.setBranch s w b = .ok (s', w')) : w'.path = w.path := by
  unfold Ws.setBranch at h
  split at h
  · cases h
  split at h
  · cases h
  generalize s.addBranch _ _ = q at h
  cases q <;> cases h
  rfl

theorem createWorkspace_dir {w : OpenWs} {path branch : Str} {d d' : Disk} (h : Exec E f (createWorkspace E path branch) d (.ok w) d') :
    w.mount.dir = w.mount.id.base32 ∧ w.ws.path = path := by
  unfold createWorkspace at h
  obtain ⟨y, d0, _, h⟩ := exec_ok_inv h
  dsimp only at h
  split at h
  · cases h
  obtain ⟨x, d1, h1, h⟩ := exec_ok_inv h
  obtain ⟨wid, d2, _, h⟩ := exec_ok_inv h
  obtain ⟨z, d3, h3, h⟩ := exec_ok_inv h
  rw [saveAll_same h]
  refine ⟨createMount_dir h1, ?_⟩
  generalize hz : Ws.setBranch x.1 ⟨wid, path, x.2.2, []⟩ branch = q at h3
  cases q with
  | ok a => cases h3; exact setBranch_path_at hz
  | _ => cases h3

/-! ## The commands -/

/-- A step that does not look where it is, before the rest. -/
theorem at_first {α β : Type} {x : M α} {k : α → M β} {A : Str → Prop} (hx : Calms A x) {s s' : Proc1} {d d' : Disk} {r : Res CErr β} (h : ExecAt E pwd (M.bind x k) s d r s' d') :
    (∃ a d1, Exec E Faults.none x d (.ok a) d1 ∧ ExecAt E pwd (k a) s d1 r s' d') ∨ (Exec E Faults.none (M.bind x k) d r d' ∧ ∀ b, r ≠ .ok b) := by
  obtain ⟨q, s1, d1, h1, h2⟩ := execAt_bind h
  obtain ⟨rfl, h3⟩ := execAt_calm hx h1
  cases q with
  | ok a => exact Or.inl ⟨a, d1, h3, h2⟩
  | _ => cases h2; exact Or.inr ⟨exec_trans h3 (.ret _ _), nofun⟩

theorem at_first_run {α β : Type} {x : M α} {k : α → M β} {A : Str → Prop} (hA : ∀ p, ∀ i : UID, A p → p ≠ E.mountPath i.base32) (hx : Calms A x) {s : Proc1} {d d' : Disk}
    {r : Res CErr β} (h : Exec E Faults.none (M.bind x k) d r d')
    (hk : ∀ a d1, Exec E Faults.none x d (.ok a) d1 → Exec E Faults.none (k a) d1 r d' → ∃ s', ExecAt E pwd (k a) s d1 r s' d') :
    ∃ s', ExecAt E pwd (M.bind x k) s d r s' d' := by
  obtain ⟨q, d1, h1, h2⟩ := exec_bind h
  have g1 := execAt_of_calm (pwd := pwd) (s := s) hA hx h1
  cases q with
  | ok a => obtain ⟨s', h3⟩ := hk a d1 h1 h2; exact ⟨s', execAt_trans g1 h3⟩
  | _ => cases h2; exact ⟨_, execAt_trans g1 (.ret _ _ _)⟩

/-- Removing a mount works if nothing goes wrong. -/
theorem removeMount_goes {m : MountObj} (hm : m.dir = m.id.base32) (d : Disk) : Exec E Faults.none (removeMount m) d (.ok ()) (removed m.id.base32 d) := by
  have hsys : ∀ (k : Sys) (d : Disk), Step E Faults.none (.sys k) d true d := fun _ _ => Or.inl ⟨rfl, trivial, rfl⟩
  unfold removeMount
  refine .op (hsys _ d) (.op (hsys _ d) ?_)
  obtain ⟨a, ha⟩ : ∃ a, Step E Faults.none (.umount m.dir) d a (d.setMnt m.id.base32 none) := by
    rw [hm]
    by_cases e : d.mnt m.id.base32 = none
    · refine ⟨false, Or.inr ⟨rfl, ?_, Or.inl e⟩⟩
      simp only [Disk.setMnt]
      rw [upd_id e]
    · exact ⟨true, Or.inl ⟨rfl, e, rfl⟩⟩
  refine .op ha ?_
  refine .op (c := .removeAllMount m.id.base32) (d1 := (d.setMnt m.id.base32 none).setMdir m.id.base32 none) (x := true) ?_ ?_
  · simp only [Step, Disk.setMnt, upd_self]
    exact Or.inl ⟨trivial, trivial⟩
  by_cases e : d.info m.id.base32 = none
  · refine .op (c := .removeInfo m.id.base32) (d1 := removed m.id.base32 d) (x := .notExist) (Or.inr (Or.inl ⟨rfl, e, ?_⟩)) (.op (hsys _ _) (.ret _ _))
    simp only [removed, Disk.setInfo, Disk.setMdir, Disk.setMnt]
    rw [upd_id e]
  · exact .op (c := .removeInfo m.id.base32) (d1 := removed m.id.base32 d) (x := .ok) (Or.inl ⟨rfl, e, rfl⟩) (.op (hsys _ _) (.ret _ _))

/-- What a command that replaces the mount of the workspace at `P` leaves when it succeeds: the path is a link to another mount. -/
def Moves (E : Env) (cmd : M (OpenWs × OpenWs)) (d : Disk) (P : Str) (old : UID) : Prop :=
  ∀ x d', Exec E Faults.none cmd d (.ok x) d' → ∃ i : UID, ∃ m c, d'.user P = .link (E.mountPath i.base32) ∧ i ≠ old ∧ d'.mdir i.base32 = some m ∧ m.merged = some c

/-- The runs of `commit` and `checkout` by a process that knows its working directory. -/
theorem replace_at {y : OpenWs → M OpenWs} (hy : ∀ w, Calms (fun _ => False) (y w)) (hdir : ∀ {w w' : OpenWs} {d d' : Disk},
      Exec E Faults.none (y w) d (.ok w') d' → w'.mount.dir = w'.mount.id.base32 ∧ w'.ws.path = w.ws.path)
    {P : Str} (hP : Path.abs P (lit ".") = P) (habs : Path.isAbs P = true) {d : Disk} {w : OpenWs} {u p : UID} (ho : Opens E d P (lit ".") w u p)
    (hmv : Moves E (replaceCmd E (getWorkspace E P (lit ".")) y) d P w.mount.id) {s : Proc1} (hp : pwd = some P) (h0 : P ≠ lit "/") (hl : Leads E d P s.cwd) :
    (∀ r s' d', ExecAt E pwd (replaceCmd E (getWorkspace E P (lit ".")) y) s d r s' d' → Exec E Faults.none (replaceCmd E (getWorkspace E P (lit ".")) y) d r d' ∧
      ∀ x, r = .ok x → ∀ i : UID, d'.user P = .link (E.mountPath i.base32) → s'.cwd = .mount i) ∧
    (∀ r d', Exec E Faults.none (replaceCmd E (getWorkspace E P (lit ".")) y) d r d' → ∃ s', ExecAt E pwd (replaceCmd E (getWorkspace E P (lit ".")) y) s d r s' d') := by
  have hoff : E.Off P := by have := off_of_outside ho.out; rwa [hP] at this
  have hmd : w.mount.dir = w.mount.id.base32 := by rw [ho.mount]
  have hA : ∀ q, ∀ i : UID, q = P → q ≠ E.mountPath i.base32 := fun q i e => by rw [e]; exact off_ne hoff i
  have hg : Calms (fun q => q = P) (getWorkspace E P (lit ".")) := getWorkspace_calms _ _ _ hP
  -- the disk after `Expand`, if the removal follows
  have after : ∀ {w' : OpenWs} {d2 d3 : Disk}, Exec E Faults.none (y w) d (.ok w') d2 → Exec E Faults.none (expand E w') d2 (.ok ()) d3 →
      ∃ i : UID, ∃ m c, d3.user P = .link (E.mountPath i.base32) ∧ i.base32 ≠ w.mount.id.base32 ∧ d3.mdir i.base32 = some m ∧ m.merged = some c := by
    intro w' d2 d3 h2 h3
    have hrun : Exec E Faults.none (replaceCmd E (getWorkspace E P (lit ".")) y) d (.ok (w, w')) (removed w.mount.id.base32 d3) :=
      exec_ok (gets_of_opens ho) (exec_ok h2 (exec_ok h3 (exec_ok (removeMount_goes hmd d3) (.ret _ _))))
    obtain ⟨i, m, c, h4, h5, h6, h7⟩ := hmv _ _ hrun
    have hne : i.base32 ≠ w.mount.id.base32 := fun e => h5 (base32_inj e)
    refine ⟨i, m, c, h4, hne, ?_, h7⟩
    simpa only [removed, Disk.setInfo, Disk.setMdir, Disk.setMnt, upd_ne _ _ hne] using h6
  have hmono : ∀ {w' : OpenWs} {d2 : Disk}, Exec E Faults.none (y w) d (.ok w') d2 → Leads E d2 P s.cwd := fun h => leads_sees (exec_sees (hy w) h) hl
  constructor
  · intro r s' d' h
    rcases at_first hg h with ⟨wa, d1, h1, k1⟩ | ⟨h1, h2⟩
    rotate_left
    · exact ⟨h1, fun x e => absurd e (h2 x)⟩
    obtain ⟨rfl, rfl⟩ := wpm_exec_ok (getWorkspace_wp ho) h1
    rcases at_first (hy wa) k1 with ⟨w', d2, h2, h⟩ | ⟨h2, h3⟩
    rotate_left
    · exact ⟨exec_ok h1 h2, fun x e => absurd e (h3 x)⟩
    obtain ⟨e1, e2⟩ := hdir h2
    obtain ⟨q, s3, d3, h3, h⟩ := execAt_bind h
    obtain ⟨h3', hl3⟩ := expand_at e1 (by rw [e2, ho.path, hP]; exact hoff) (Or.inl ⟨P, hp, habs, hmono h2, rfl⟩) (hmono h2) h3
    cases q with
    | ok a =>
      obtain ⟨i, m, c, g1, g2, g3, g4⟩ := after h2 h3'
      obtain ⟨q, s4, d4, h4, h⟩ := execAt_bind h
      obtain ⟨h4', hc4⟩ := removeMount_at hmd (Or.inl ⟨P, hp, habs, hl3 rfl, rfl⟩) (hl3 rfl) hoff h0 g1 g2 g3 g4 h4
      obtain ⟨rfl, rfl⟩ : q = .ok () ∧ d4 = removed wa.mount.id.base32 d3 := by
        have := wpm_exec (removeMount_wp hmd) h4'
        cases q with
        | ok a => exact ⟨rfl, this⟩
        | err e => obtain ⟨_, _, h | h⟩ := this
                   · cases h
                   · cases h.1
        | panic => exact this.elim
        | diverge => exact this.elim
      cases h
      refine ⟨exec_ok h1 (exec_ok h2 (exec_ok h3' (exec_ok h4' (.ret _ _)))), fun x _ j hj => ?_⟩
      rw [hc4]
      have : E.mountPath i.base32 = E.mountPath j.base32 := UEnt.link.inj (g1.symm.trans hj)
      rw [base32_inj (mountPath_inj this)]
    | _ =>
      cases h
      refine ⟨exec_ok h1 (exec_ok h2 ?_), fun x e => nomatch e⟩
      exact exec_trans (p := expand E w') h3' (.ret _ _)
  · intro r d' h
    refine at_first_run hA hg h fun wa d1 h1 k1 => ?_
    obtain ⟨rfl, rfl⟩ := wpm_exec_ok (getWorkspace_wp ho) h1
    refine at_first_run (x := y wa) (k := fun w' => expand E w' >>= fun _ => removeMount wa.mount >>= fun _ => Pure.pure (wa, w')) (A := fun _ => False)
      (fun _ _ h => h.elim) (hy wa) k1 fun w' d2 h2 h => ?_
    obtain ⟨e1, e2⟩ := hdir h2
    obtain ⟨q, d3, h3, h⟩ := exec_bind h
    obtain ⟨s3, k3⟩ := expand_run e1 (by rw [e2, ho.path, hP]; exact hoff) (Or.inl ⟨P, hp, habs, hmono h2, rfl⟩) (hmono h2) h3
    cases q with
    | ok a =>
      obtain ⟨i, m, c, g1, g2, g3, g4⟩ := after h2 h3
      obtain ⟨_, hl3⟩ := expand_at e1 (by rw [e2, ho.path, hP]; exact hoff) (Or.inl ⟨P, hp, habs, hmono h2, rfl⟩) (hmono h2) k3
      obtain ⟨q, d4, h4, h⟩ := exec_bind h
      obtain ⟨rfl, rfl⟩ : q = .ok () ∧ d4 = removed wa.mount.id.base32 d3 := by
        have := wpm_exec (removeMount_wp hmd) h4
        cases q with
        | ok a => exact ⟨rfl, this⟩
        | err e => obtain ⟨_, _, h | h⟩ := this
                   · cases h
                   · cases h.1
        | panic => exact this.elim
        | diverge => exact this.elim
      cases h
      exact ⟨_, execAt_trans k3 (execAt_trans (removeMount_run_at hmd (Or.inl ⟨P, hp, habs, hl3 rfl, rfl⟩) (hl3 rfl) hoff h0 g1 g2 g3 g4) (.ret _ _ _))⟩
    | _ => cases h; exact ⟨_, execAt_trans k3 (.ret _ _ _)⟩

/-- The environment of a process that went to its working directory with `-C`, or that was started by a shell: `$PWD` is a clean
absolute path to the working directory. -/
structure Knowing (E : Env) (d : Disk) (pwd : Option Str) (l : Place) (P : Str) : Prop where
  pwd : pwd = some P
  clean : Path.abs P (lit ".") = P
  leads : Leads E d P l

theorem knowing_isAbs {d : Disk} {l : Place} {P : Str} (h : Knowing E d pwd l P) : Path.isAbs P = true := by
  have := h.clean
  unfold Path.abs at this
  rw [← this]
  split <;> rfl

theorem abs_dot (cwd p : Str) : Path.abs (Path.abs cwd p) (lit ".") = Path.abs cwd p := by
  have key : ∀ q, Path.abs (Path.clean q) (lit ".") = Path.clean q := by
    intro q
    have e : Path.abs (Path.clean q) (lit ".") = Path.clean (Path.clean q ++ Path.slash :: lit ".") := by
      unfold Path.abs; rw [if_neg (by decide)]
    have h : Path.comps (Path.clean q ++ Path.slash :: lit ".") = Path.comps q := by
      rw [Path.comps_append, Path.comps_clean]
      have : ∀ st, (Path.split (lit ".")).foldl Path.push st = st := fun st => by
        rw [show Path.split (lit ".") = [lit "."] by decide, List.foldl_cons, List.foldl_nil]
        unfold Path.push; rw [if_pos (Or.inr rfl)]
      rw [this, List.reverse_reverse]
    rw [e]
    unfold Path.clean at h ⊢
    rw [h]
  have : ∃ q, Path.abs cwd p = Path.clean q := by
    unfold Path.abs; split
    · exact ⟨_, rfl⟩
    · exact ⟨_, rfl⟩
  obtain ⟨q, hq⟩ := this
  rw [hq]; exact key q

/-- **C104.** After `-C path` the process is in the directory that path leads to, and the commands work on exactly the path that was
given, taken from the directory where the process was: `os.Getwd` answers that path, also where a link leads to the directory. -/
theorem C104_chdir {d : Disk} {path : Str} {pwd pwd' : Option Str} {l l' : Place} (h : ChangesDir E d path pwd l pwd' l') :
    ∃ cwd, Getwd E d pwd l cwd ∧ Knowing E d pwd' l' (Path.abs cwd path) ∧ ∀ a, Getwd E d pwd' l' a ↔ a = Path.abs cwd path := by
  obtain ⟨cwd, h1, h2, h3⟩ := h
  have hk : Knowing E d pwd' l' (Path.abs cwd path) := ⟨h3, abs_dot cwd path, h2⟩
  exact ⟨cwd, h1, hk, fun a => getwd_pwd h3 (knowing_isAbs hk) h2⟩

theorem gets_at {d : Disk} (hd : Reachable E d) {P : Str} (hP : Path.abs P (lit ".") = P) (hout : E.Outside P) {w : OpenWs} (hg : Gets E d P (lit ".") w) :
    ∃ g u p T, Steady E d g ∧ Found E d g P (lit ".") w u p T := by
  obtain ⟨g, hs⟩ := steady_reachable hd
  obtain ⟨u, p, T, hF⟩ := found_of_gets hs (by rw [hP]; exact hout) hg
  exact ⟨g, u, p, T, hs, hF⟩

theorem not_root {d : Disk} {P : Str} {i : UID} (h : Leads E d P (.mount i)) : P ≠ lit "/" := by
  rintro rfl
  generalize hq : lit "/" = q at h
  cases h with
  | mount _ _ => exact mountPath_ne_root i hq.symm
  | link h1 => exact h1 hq.symm

/-- **C104.** `commit` by a process inside its workspace that knows its working directory: the runs are those in which asking for the
working directory, leaving it and coming back just succeed, and after a successful one the process is in the new mount of the
workspace. -/
theorem C104_commit_partial {d : Disk} (hd : Reachable E d) {P : Str} (hout : E.Outside P) {w : OpenWs} (hg : Gets E d P (lit ".") w) {s : Proc1}
    (hk : Knowing E d pwd (.mount w.mount.id) P) (hs : s.cwd = .mount w.mount.id) (ci : CommitInfo) :
    (∀ r d', (∃ s', ExecAt E pwd (commitCmd E P ci) s d r s' d') ↔ Exec E Faults.none (commitCmd E P ci) d r d') ∧
    (∀ x s' d', ExecAt E pwd (commitCmd E P ci) s d (.ok x) s' d' → ∃ w2 : OpenWs, Gets E d' P (lit ".") w2 ∧ w2.ws.id = w.ws.id ∧
      s'.cwd = .mount w2.mount.id ∧ w2.mount.id ≠ w.mount.id) := by
  obtain ⟨g, u, p, T, hS, hF⟩ := gets_at hd hk.clean hout hg
  have hpath : w.ws.path = P := by rw [hF.opens.path, hk.clean]
  have aft : ∀ x d', Exec E Faults.none (commitCmd E P ci) d (.ok x) d' → ∃ w2 : OpenWs, Gets E d' P (lit ".") w2 ∧ w2.ws.id = w.ws.id ∧
      w2.mount.id ≠ w.mount.id ∧ d'.user P = .link (E.mountPath w2.mount.id.base32) ∧ d'.mdir w2.mount.id.base32 = some ⟨some .empty, true⟩ := by
    intro x d' h
    obtain ⟨_, _, u', ls, g', w2, _, _, _, _, h1, h2, _, _, _, _, h3, _⟩ := after_commit hS hF h
    refine ⟨w2, gets_of_opens h1, h2, fun e => ?_, by rw [← hpath]; exact h3.link, h3.mdir⟩
    have := (h3.gone _ rfl).2.2
    rw [← e, h3.mdir] at this; cases this
  have hmv : Moves E (commitCmd E P ci) d P w.mount.id := by
    intro x d' h
    obtain ⟨w2, _, _, h3, h4, h5⟩ := aft x d' h
    exact ⟨w2.mount.id, _, _, h4, h3, h5, rfl⟩
  have key := replace_at (pwd := pwd) (s := s) (fun w => commitP_calms (A := fun _ => False) E w ci) commitP_dir hk.clean (knowing_isAbs hk) hF.opens hmv hk.pwd
    (not_root hk.leads) (by rw [hs]; exact hk.leads)
  refine ⟨fun r d' => ⟨fun ⟨s', h⟩ => (key.1 r s' d' h).1, fun h => key.2 r d' h⟩, fun x s' d' h => ?_⟩
  obtain ⟨w2, h1, h2, h3, h4, _⟩ := aft x d' (key.1 _ _ _ h).1
  exact ⟨w2, h1, h2, (key.1 _ _ _ h).2 x rfl _ h4, h3⟩

/-- **C104.** `checkout`. -/
theorem C104_checkout_partial {d : Disk} (hd : Reachable E d) {P : Str} (hout : E.Outside P) {w : OpenWs} (hg : Gets E d P (lit ".") w) {s : Proc1}
    (hk : Knowing E d pwd (.mount w.mount.id) P) (hs : s.cwd = .mount w.mount.id) (key : Str) :
    (∀ r d', (∃ s', ExecAt E pwd (checkoutCmd E P key) s d r s' d') ↔ Exec E Faults.none (checkoutCmd E P key) d r d') ∧
    (∀ x s' d', ExecAt E pwd (checkoutCmd E P key) s d (.ok x) s' d' → ∃ w2 : OpenWs, Gets E d' P (lit ".") w2 ∧ w2.ws.id = w.ws.id ∧
      s'.cwd = .mount w2.mount.id ∧ w2.mount.id ≠ w.mount.id) := by
  obtain ⟨g, u, p, T, hS, hF⟩ := gets_at hd hk.clean hout hg
  have hpath : w.ws.path = P := by rw [hF.opens.path, hk.clean]
  have aft : ∀ x d', Exec E Faults.none (checkoutCmd E P key) d (.ok x) d' → ∃ w2 : OpenWs, Gets E d' P (lit ".") w2 ∧ w2.ws.id = w.ws.id ∧
      w2.mount.id ≠ w.mount.id ∧ d'.user P = .link (E.mountPath w2.mount.id.base32) ∧ d'.mdir w2.mount.id.base32 = some ⟨some .empty, true⟩ := by
    intro x d' h
    obtain ⟨_, v, kt, u', ls, g', w2, _, _, _, _, _, h1, h2, _, _, _, _, h3⟩ := after_checkout hS hF h
    refine ⟨w2, gets_of_opens h1, h2, fun e => ?_, by rw [← hpath]; exact h3.link, h3.mdir⟩
    have := (h3.gone _ rfl).2.2
    rw [← e, h3.mdir] at this; cases this
  have hmv : Moves E (checkoutCmd E P key) d P w.mount.id := by
    intro x d' h
    obtain ⟨w2, _, _, h3, h4, h5⟩ := aft x d' h
    exact ⟨w2.mount.id, _, _, h4, h3, h5, rfl⟩
  have key2 := replace_at (pwd := pwd) (s := s) (fun w => checkoutP_calms (A := fun _ => False) E w key) checkoutP_dir hk.clean (knowing_isAbs hk) hF.opens hmv hk.pwd
    (not_root hk.leads) (by rw [hs]; exact hk.leads)
  refine ⟨fun r d' => ⟨fun ⟨s', h⟩ => (key2.1 r s' d' h).1, fun h => key2.2 r d' h⟩, fun x s' d' h => ?_⟩
  obtain ⟨w2, h1, h2, h3, h4, _⟩ := aft x d' (key2.1 _ _ _ h).1
  exact ⟨w2, h1, h2, (key2.1 _ _ _ h).2 x rfl _ h4, h3⟩

/-! ## `init` and `clone` -/

theorem createWorkspace_calms {A : Str → Prop} (E : Env) (path branch : Str) : Calms A (createWorkspace E path branch) := by
  unfold createWorkspace createSpace spaceInitP
  refine calms_bind (calms_bind (calms_ask trivial) fun i => calms_must trivial (calms_bind (calms_bind layerCreate_calms fun u => calms_lift) fun s => calms_pure)) fun x => ?_
  dsimp only
  split
  · exact calms_ret
  · exact calms_bind (createMount_calms _ _) fun x => calms_bind (calms_ask trivial) fun wid => calms_bind calms_lift fun y => saveAll_calms E _

theorem cloneP_calms {A : Str → Prop} (E : Env) (w : OpenWs) (target : Str) : Calms A (cloneP E w target) := by
  unfold cloneP
  exact calms_bind calms_lift fun p => calms_bind (createMount_calms _ _) fun x => calms_bind (calms_ask trivial) fun wid => saveAll_calms E _

/-- Creating a workspace and linking to it. -/
theorem newWorkspace_at {y : M OpenWs} (hy : Calms (fun _ => False) y) {target : Str} (hdir : ∀ {w' : OpenWs} {d d' : Disk}, Exec E Faults.none y d (.ok w') d' →
      w'.mount.dir = w'.mount.id.base32 ∧ w'.ws.path = target) (hoff : E.Off target) {P : Str} {d : Disk} {s : Proc1} (hw : Getwd E d pwd s.cwd P) (hl : Leads E d P s.cwd) :
    (∀ r d', (∃ s', ExecAt E pwd (y >>= fun w' => expand E w' >>= fun _ => Pure.pure w' : M OpenWs) s d r s' d') ↔
      Exec E Faults.none (y >>= fun w' => expand E w' >>= fun _ => Pure.pure w' : M OpenWs) d r d') ∧
    (∀ x s' d', ExecAt E pwd (y >>= fun w' => expand E w' >>= fun _ => Pure.pure w' : M OpenWs) s d (.ok x) s' d' → Leads E d' P s'.cwd) := by
  have fwd : ∀ r s' d', ExecAt E pwd (y >>= fun w' => expand E w' >>= fun _ => Pure.pure w' : M OpenWs) s d r s' d' →
      Exec E Faults.none (y >>= fun w' => expand E w' >>= fun _ => Pure.pure w' : M OpenWs) d r d' ∧ ∀ x, r = .ok x → Leads E d' P s'.cwd := by
    intro r s' d' h
    rcases at_first hy h with ⟨w', d1, h1, h⟩ | ⟨h1, h2⟩
    rotate_left
    · exact ⟨h1, fun x e => absurd e (h2 x)⟩
    obtain ⟨e1, e2⟩ := hdir h1
    obtain ⟨q, s2, d2, h2, h⟩ := execAt_bind h
    obtain ⟨h2', hl'⟩ := expand_at e1 (by rw [e2]; exact hoff) (getwd_sees (exec_sees hy h1) hl hw) (leads_sees (exec_sees hy h1) hl) h2
    cases q with
    | ok a => cases h; exact ⟨exec_ok h1 (exec_ok h2' (.ret _ _)), fun _ _ => hl' rfl⟩
    | _ =>
      cases h
      refine ⟨exec_ok h1 ?_, fun x e => nomatch e⟩
      exact exec_trans (p := expand E w') h2' (.ret _ _)
  refine ⟨fun r d' => ⟨fun ⟨s', h⟩ => (fwd r s' d' h).1, fun h => ?_⟩, fun x s' d' h => (fwd _ s' d' h).2 x rfl⟩
  refine at_first_run (x := y) (k := fun w' => expand E w' >>= fun _ => Pure.pure w') (A := fun _ => False) (fun _ _ h => h.elim) hy h fun w' d1 h1 h => ?_
  obtain ⟨e1, e2⟩ := hdir h1
  obtain ⟨q, d2, h2, h⟩ := exec_bind h
  obtain ⟨s2, k2⟩ := expand_run e1 (by rw [e2]; exact hoff) (getwd_sees (exec_sees hy h1) hl hw) (leads_sees (exec_sees hy h1) hl) h2
  cases q with
  | ok a => cases h; exact ⟨_, execAt_trans k2 (.ret _ _ _)⟩
  | _ => cases h; exact ⟨_, execAt_trans k2 (.ret _ _ _)⟩

/-- **C104.** `clone` by any process, whatever `PWD` says, whose working directory is still there: the same runs, and after a successful one
the process is where its path leads. -/
theorem C104_clone {d : Disk} {P : Str} {s : Proc1} (hw : Getwd E d pwd s.cwd P) (hl : Leads E d P s.cwd) {source target : Str} (hsrc : E.Outside (Path.abs P source))
    (hout : E.Outside target) :
    (∀ r d', (∃ s', ExecAt E pwd (cloneCmd E P source target) s d r s' d') ↔ Exec E Faults.none (cloneCmd E P source target) d r d') ∧
    (∀ x s' d', ExecAt E pwd (cloneCmd E P source target) s d (.ok x) s' d' → Leads E d' P s'.cwd) := by
  have hA : ∀ q, ∀ i : UID, q = Path.abs P source → q ≠ E.mountPath i.base32 := fun q i e => by rw [e]; exact off_ne (off_of_outside hsrc) i
  have hg : Calms (fun q => q = Path.abs P source) (getWorkspace E P source) := getWorkspace_calms _ _ _ rfl
  have tail : ∀ (w : OpenWs) (d1 : Disk), Exec E Faults.none (getWorkspace E P source) d (.ok w) d1 → _ := fun w d1 h1 =>
    newWorkspace_at (E := E) (pwd := pwd) (cloneP_calms E w target) cloneP_dir (off_of_outside hout) (s := s) (d := d1) (getwd_sees (exec_sees hg h1) hl hw) (leads_sees (exec_sees hg h1) hl)
  have fwd : ∀ r s' d', ExecAt E pwd (cloneCmd E P source target) s d r s' d' → Exec E Faults.none (cloneCmd E P source target) d r d' ∧ ∀ x, r = .ok x → Leads E d' P s'.cwd := by
    intro r s' d' h
    rcases at_first hg h with ⟨w, d1, h1, h⟩ | ⟨h1, h2⟩
    · exact ⟨exec_ok h1 (((tail w d1 h1).1 r d').1 ⟨s', h⟩), fun x e => (tail w d1 h1).2 x s' d' (e ▸ h)⟩
    · exact ⟨h1, fun x e => absurd e (h2 x)⟩
  refine ⟨fun r d' => ⟨fun ⟨s', h⟩ => (fwd r s' d' h).1, fun h => ?_⟩, fun x s' d' h => (fwd _ s' d' h).2 x rfl⟩
  exact at_first_run hA hg h fun w d1 h1 h => ((tail w d1 h1).1 r d').2 h

/-- **C104.** `init` by any such process, also if it makes the working directory itself the workspace. -/
theorem C104_init {d : Disk} {P : Str} {s : Proc1} (hw : Getwd E d pwd s.cwd P) (hl : Leads E d P s.cwd) {path branch : Str} (hout : E.Outside path) :
    (∀ r d', (∃ s', ExecAt E pwd (initCmd E path branch) s d r s' d') ↔ Exec E Faults.none (initCmd E path branch) d r d') ∧
    (∀ x s' d', ExecAt E pwd (initCmd E path branch) s d (.ok x) s' d' → Leads E d' P s'.cwd) := by
  have hoff := off_of_outside hout
  have hrest := newWorkspace_at (E := E) (pwd := pwd) (createWorkspace_calms E path branch) createWorkspace_dir hoff (s := s) (d := d) hw hl
  have hex : ∀ {s' : Proc1} {d1 : Disk} {b : Bool}, StepAt E pwd (.exists_ path) s d b s' d1 ↔ s' = s ∧ Step E Faults.none (.exists_ path) d b d1 := by
    intro s' d1 b
    constructor
    · rintro ⟨h1, h2, _⟩; exact ⟨h1, h2⟩
    · rintro ⟨h1, h2⟩; exact ⟨h1, h2, fun i e => absurd e (off_ne hoff i)⟩
  have hem : ∀ {s' : Proc1} {d1 : Disk} {b : Bool}, StepAt E pwd (.isEmptyDir path) s d b s' d1 ↔ s' = s ∧ Step E Faults.none (.isEmptyDir path) d b d1 := Iff.rfl
  have hsame : ∀ {d1 : Disk} {b : Bool}, Step E Faults.none (.exists_ path) d b d1 → d1 = d := by
    intro d1 b h
    exact h.1
  have hsame2 : ∀ {d1 : Disk} {b : Bool}, Step E Faults.none (.isEmptyDir path) d b d1 → d1 = d := by
    intro d1 b h
    exact h.1
  have fwd : ∀ r s' d', ExecAt E pwd (initCmd E path branch) s d r s' d' → Exec E Faults.none (initCmd E path branch) d r d' ∧ ∀ x, r = .ok x → Leads E d' P s'.cwd := by
    intro r s' d' h
    unfold initCmd at h ⊢
    cases h with | @op _ _ _ s1 _ _ d1 _ b _ h1 h =>
    obtain ⟨e1, g1⟩ := hex.1 h1
    subst e1
    obtain rfl := (hsame g1).symm
    cases b with
    | false =>
      refine ⟨.op g1 ((hrest.1 r d').1 ⟨s', h⟩), fun x e => hrest.2 x s' d' (e ▸ h)⟩
    | true =>
      cases h with | @op _ _ _ s2 _ _ d2 _ b2 _ h2 h =>
      obtain ⟨e2, g2⟩ := hem.1 h2
      subst e2
      obtain rfl := (hsame2 g2).symm
      cases b2 with
      | false => cases h; exact ⟨.op g1 (.op g2 (.ret _ _)), fun x e => nomatch e⟩
      | true => exact ⟨.op g1 (.op g2 ((hrest.1 r d').1 ⟨s', h⟩)), fun x e => hrest.2 x s' d' (e ▸ h)⟩
  refine ⟨fun r d' => ⟨fun ⟨s', h⟩ => (fwd r s' d' h).1, fun h => ?_⟩, fun x s' d' h => (fwd _ s' d' h).2 x rfl⟩
  unfold initCmd at h ⊢
  cases h with | @op _ _ _ d1 _ b _ h1 h =>
  obtain rfl := (hsame h1).symm
  cases b with
  | false =>
    obtain ⟨s', h⟩ := (hrest.1 r d').2 h
    exact ⟨s', .op (hex.2 ⟨rfl, h1⟩) h⟩
  | true =>
    cases h with | @op _ _ _ d2 _ b2 _ h2 h =>
    obtain rfl := (hsame2 h2).symm
    cases b2 with
    | false => cases h; exact ⟨_, .op (hex.2 ⟨rfl, h1⟩) (.op (hem.2 ⟨rfl, h2⟩) (.ret _ _ _))⟩
    | true =>
      obtain ⟨s', h⟩ := (hrest.1 r d').2 h
      exact ⟨s', .op (hex.2 ⟨rfl, h1⟩) (.op (hem.2 ⟨rfl, h2⟩) h)⟩

end
end Verif
