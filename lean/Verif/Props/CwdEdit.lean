import Verif.Props.BelowEdit
import Verif.Props.CwdExamples
/-!
# Branches, tags and clones by a process that does not know the path of its workspace (C104)
-/
set_option autoImplicit false
namespace Verif
open M TS Json

section
variable {α : Type} {E : Env} {pwd : Option Str}

theorem leads_mountPath_only {d : Disk} {i : UID} {q : Str} {l : Place} (h : Leads E d q l) (e : q = E.mountPath i.base32) : l = .mount i := by
  cases h with
  | top => exact absurd e.symm (mountPath_ne_root i)
  | dir _ h _ => exact absurd e (off_ne h i)
  | mount _ _ => rw [base32_inj (mountPath_inj e)]
  | link _ h _ _ => exact absurd e (off_ne h i)

/-- **C104.** `branch` and `tag` inside a workspace, by a process that knows the path of the workspace or only the mount point, whatever `PWD` says: the runs are those of the command at the path
of the workspace, and the process stays where it is. -/
theorem C104_edit {d : Disk} (hd : Reachable E d) {P : Str} (hP : Path.abs P (lit ".") = P) (hout : E.Outside P) {w : OpenWs} (hg : Gets E d P (lit ".") w) {s : Proc1}
    {cwd : Str} (hcwd : cwd = P ∨ cwd = E.mountPath w.mount.id.base32) (es : List Edit) (r : Res CErr TS) (s' : Proc1) (d' : Disk) :
    ExecAt E pwd (editCmd E cwd es) s d r s' d' ↔ s' = s ∧ Exec E Faults.none (editCmd E P es) d r d' := by
  rcases hcwd with rfl | rfl
  · have hc : Calms (fun q => q = Path.abs cwd (lit ".")) (editCmd E cwd es) := calms_bind (getWorkspace_calms _ _ _ rfl) fun w => edit_away _ _ _ _
    have hA : ∀ q, ∀ i : UID, q = Path.abs cwd (lit ".") → q ≠ E.mountPath i.base32 := fun q i e => by rw [e, hP]; exact off_ne (off_of_outside hout) i
    exact ⟨fun h => execAt_calm hc h, fun ⟨e, h⟩ => by rw [e]; exact execAt_of_calm hA hc h⟩
  · obtain ⟨g, hS⟩ := steady_reachable hd
    obtain ⟨u, p, hh⟩ := gets_head hd (by rw [hP]; exact hout) hg
    obtain ⟨T, hF⟩ := gets_found hS (by rw [hP]; exact hout) hg hh
    have ho := hF.opens
    obtain ⟨o1, o2⟩ := getWorkspace_lost (pwd := pwd) ho (s := s)
    have hsame : editAll w.spaceDir (w.byMount E).ws es w.tree = editAll w.spaceDir w.ws es w.tree := editAll_path _ _ _ _ _
    constructor
    · intro h
      obtain ⟨a, s1, d1, h1, h2⟩ := execAt_bind h
      obtain ⟨rfl, rfl, rfl⟩ := o1 _ _ _ h1
      have h2 : ExecAt E pwd (α := Res CErr TS) (editAll w.spaceDir (w.byMount E).ws es w.tree) s1 d1 r s' d' := h2
      rw [hsame] at h2
      obtain ⟨rfl, h3⟩ := execAt_calm (A := fun _ => False) (edit_away _ _ _ _) h2
      exact ⟨rfl, exec_trans hg h3⟩
    · rintro ⟨rfl, h⟩
      obtain ⟨a, d1, h1, h2⟩ := exec_bind h
      have hq := wpm_exec (getWorkspace_wp (f := Faults.none) ho) h1
      cases a with
      | err e => exact absurd hq.2.2 (by simp [Faults.none])
      | panic => exact hq.elim
      | diverge => exact hq.elim
      | ok w' =>
        obtain ⟨rfl, rfl⟩ := hq
        refine execAt_trans o2 ?_
        show ExecAt E pwd (α := Res CErr TS) (editAll w'.spaceDir (w'.byMount E).ws es w'.tree) s' d1 r s' d'
        rw [hsame]
        exact execAt_of_calm (A := fun _ => False) (fun _ _ h => h.elim) (edit_away _ _ _ _) h2

/-- **C104.** `clone .` inside a workspace, by a process that knows only the mount point: the runs are those of the command at the path of the workspace, and after a successful one the process is in the mount
that it was in. -/
theorem C104_clone_lost {d : Disk} (hd : Reachable E d) {P : Str} (hP : Path.abs P (lit ".") = P) (hout : E.Outside P) {w : OpenWs} (hg : Gets E d P (lit ".") w) {s : Proc1}
    (hs : s.cwd = .mount w.mount.id) (hmd : ∃ m c, d.mdir w.mount.id.base32 = some m ∧ m.merged = some c) (hw : Getwd E d pwd s.cwd (E.mountPath w.mount.id.base32))
    {target : Str} (ht : E.Outside target) :
    (∀ r d', (∃ s', ExecAt E pwd (cloneCmd E (E.mountPath w.mount.id.base32) (lit ".") target) s d r s' d') ↔ Exec E Faults.none (cloneCmd E P (lit ".") target) d r d') ∧
    (∀ x s' d', ExecAt E pwd (cloneCmd E (E.mountPath w.mount.id.base32) (lit ".") target) s d (.ok x) s' d' → s'.cwd = .mount w.mount.id) := by
  obtain ⟨g, hS⟩ := steady_reachable hd
  obtain ⟨u, p, hh⟩ := gets_head hd (by rw [hP]; exact hout) hg
  obtain ⟨T, hF⟩ := gets_found hS (by rw [hP]; exact hout) hg hh
  have ho := hF.opens
  obtain ⟨o1, o2⟩ := getWorkspace_lost (pwd := pwd) ho (s := s)
  obtain ⟨m, c, hm, hc⟩ := hmd
  have hl : Leads E d (E.mountPath w.mount.id.base32) s.cwd := by rw [hs]; exact .mount hm hc
  obtain ⟨n1, n2⟩ := newWorkspace_at (E := E) (pwd := pwd) (cloneP_calms E w target) cloneP_dir (off_of_outside ht) (s := s) (d := d) hw hl
  have fwd : ∀ r s' d', ExecAt E pwd (cloneCmd E (E.mountPath w.mount.id.base32) (lit ".") target) s d r s' d' →
      ExecAt E pwd (cloneP E w target >>= fun w' => expand E w' >>= fun _ => Pure.pure w' : M OpenWs) s d r s' d' := by
    intro r s' d' h
    obtain ⟨a, s1, d1, h1, h2⟩ := execAt_bind h
    obtain ⟨rfl, rfl, rfl⟩ := o1 _ _ _ h1
    exact h2
  refine ⟨fun r d' => ⟨fun ⟨s', h⟩ => exec_trans hg ((n1 r d').1 ⟨s', fwd _ _ _ h⟩), fun h => ?_⟩, fun x s' d' h => ?_⟩
  · obtain ⟨a, d1, h1, h2⟩ := exec_bind h
    have hq := wpm_exec (getWorkspace_wp (f := Faults.none) ho) h1
    cases a with
    | err e => exact absurd hq.2.2 (by simp [Faults.none])
    | panic => exact hq.elim
    | diverge => exact hq.elim
    | ok w' =>
      obtain ⟨rfl, rfl⟩ := hq
      obtain ⟨s', h3⟩ := (n1 r d').2 h2
      exact ⟨s', execAt_trans o2 h3⟩
  · exact leads_mountPath_only (n2 x s' d' (fwd _ _ _ h)) rfl

end

open Story
namespace Story

/-- `C104_edit`: `tag v1 HEAD` by a process in the mount without `PWD`. -/
example : ∃ d d' w s, Gets E0 d cw (lit ".") w ∧
    ExecAt E0 none (editCmd E0 (E0.mountPath w.mount.id.base32) [.addTag (lit "v1") (lit "HEAD") false]) ⟨.mount w.mount.id, []⟩ d (.ok s) ⟨.mount w.mount.id, []⟩ d' := by
  obtain ⟨d, w, u, root, d', s, hB, he⟩ := tagged
  exact ⟨d, d', w, s, hB.live.gets, (C104_edit hB.live.past.reachable (P := cw) (by decide) outw' hB.live.gets (Or.inr rfl) _ _ _ _).2 ⟨rfl, he⟩⟩

/-- `C104_clone_lost`: `clone . /v` by a process in the mount without `PWD`. -/
example : ∃ d d' w s', Gets E0 d cw (lit ".") w ∧
    (∃ x, ExecAt E0 none (cloneCmd E0 (E0.mountPath w.mount.id.base32) (lit ".") cv) ⟨.mount w.mount.id, []⟩ d (.ok x) s' d') ∧ s'.cwd = .mount w.mount.id := by
  obtain ⟨d, w, u, root, d', w', u', d3, w1, w2, u2, hB, hS, hT⟩ := third
  obtain ⟨r, he⟩ := hT.run
  obtain ⟨h1, h2⟩ := C104_clone_lost (pwd := none) hS.live.past.reachable (P := cw) (by decide) outw' hS.live.gets (s := ⟨.mount w'.mount.id, []⟩) rfl ⟨_, _, hS.live.mdir, rfl⟩
    (getwd_lost fun _ h => (nomatch h)) outv'
  obtain ⟨s', h3⟩ := (h1 _ _).2 he
  exact ⟨d', d3, w', s', hS.live.gets, ⟨_, h3⟩, h2 _ _ _ h3⟩

end Story
end Verif
