import Verif.Props.CwdLost
import Verif.Props.FrozenExamples
/-!
# The working directory: examples
-/
set_option autoImplicit false
namespace Verif
open M TS Json Story
namespace Story

theorem outw' : E0.Outside cw := by have := outw; rwa [absw] at this
theorem outv' : E0.Outside cv := by have := outv; rwa [absv] at this

theorem Begun.leads {d : Disk} {w : OpenWs} {u root : UID} (h : Begun d w u root) : Leads E0 d cw (.mount w.mount.id) := by
  have := h.live.link
  rw [absw] at this
  exact .link (by decide) (off_of_outside outw') this (.mount h.live.mdir rfl)

/-- The environment of a command that was started with `-C w` in `/`. -/
theorem Begun.changes {d : Disk} {w : OpenWs} {u root : UID} (h : Begun d w u root) :
    ChangesDir E0 d (lit "w") none (.dir (lit "/")) (some cw) (.mount w.mount.id) :=
  ⟨lit "/", Or.inr ⟨fun _ h => (nomatch h), rfl⟩, h.leads, rfl⟩

theorem Begun.knowing {d : Disk} {w : OpenWs} {u root : UID} (h : Begun d w u root) : Knowing E0 d (some cw) (.mount w.mount.id) cw :=
  ⟨rfl, by decide, h.leads⟩

/-- `C104_chdir`: the commands work on `/w`, not on the mount point that it leads to. -/
example : ∃ d w, Gets E0 d cw (lit ".") w ∧ ChangesDir E0 d (lit "w") none (.dir (lit "/")) (some cw) (.mount w.mount.id) ∧
    (∀ a, Getwd E0 d (some cw) (.mount w.mount.id) a ↔ a = cw) ∧ cw ≠ E0.mountPath w.mount.id.base32 := by
  obtain ⟨d, w, u, root, hB⟩ := begun
  obtain ⟨c, h1, _, h3⟩ := C104_chdir hB.changes
  obtain rfl : c = lit "/" := by
    rcases h1 with ⟨_, h, _⟩ | ⟨_, h⟩
    · cases h
    · exact h
  exact ⟨d, w, hB.live.gets, hB.changes, h3, off_ne (off_of_outside outw') _⟩

/-- `C104_commit_partial`: the run of the commit in `/w` ends in its new mount. -/
example : ∃ d d' w w2 s', Gets E0 d cw (lit ".") w ∧ (∃ x, ExecAt E0 (some cw) (commitCmd E0 cw ci) ⟨.mount w.mount.id, []⟩ d (.ok x) s' d') ∧
    Gets E0 d' cw (lit ".") w2 ∧ s'.cwd = .mount w2.mount.id ∧ w2.mount.id ≠ w.mount.id := by
  obtain ⟨d, w, u, root, d', w', u', hB, hS⟩ := second
  obtain ⟨r, he⟩ := hS.run
  obtain ⟨h1, h2⟩ := C104_commit_partial hB.live.past.reachable outw' hB.live.gets (s := ⟨.mount w.mount.id, []⟩) hB.knowing rfl ci
  obtain ⟨s', h3⟩ := (h1 _ _).2 he
  obtain ⟨w2, h4, _, h5, h6⟩ := h2 _ _ _ h3
  exact ⟨d, d', w, w2, s', hB.live.gets, ⟨_, h3⟩, h4, h5, h6⟩

/-- `C104_checkout_partial`. -/
example : ∃ d d' w w2 s', Gets E0 d cw (lit ".") w ∧ (∃ x, ExecAt E0 (some cw) (checkoutCmd E0 cw (lit "HEAD")) ⟨.mount w.mount.id, []⟩ d (.ok x) s' d') ∧
    Gets E0 d' cw (lit ".") w2 ∧ s'.cwd = .mount w2.mount.id ∧ w2.mount.id ≠ w.mount.id := by
  obtain ⟨d, w, u, root, hB⟩ := begun
  have := hB.used
  obtain ⟨d', r, w', u', he, _⟩ := live_checkout neat plainHEAD hB.live (kt := .commit) .head hB.live.path (fits (by simp)) (by omega)
  obtain ⟨h1, h2⟩ := C104_checkout_partial hB.live.past.reachable outw' hB.live.gets (s := ⟨.mount w.mount.id, []⟩) hB.knowing rfl (lit "HEAD")
  obtain ⟨s', h3⟩ := (h1 _ _).2 he
  obtain ⟨w2, h4, _, h5, h6⟩ := h2 _ _ _ h3
  exact ⟨d, d', w, w2, s', hB.live.gets, ⟨_, h3⟩, h4, h5, h6⟩

/-- `C104_clone`: cloning `.` from inside `/w`. -/
example : ∃ d d' w s', Gets E0 d cw (lit ".") w ∧ (∃ x, ExecAt E0 (some cw) (cloneCmd E0 cw (lit ".") cv) ⟨.mount w.mount.id, []⟩ d (.ok x) s' d') ∧ Leads E0 d' cw s'.cwd := by
  obtain ⟨d, w, u, root, d', w', u', d3, w1, w2, u2, hB, hS, hT⟩ := third
  obtain ⟨r, he⟩ := hT.run
  have hl := hS.live.link
  rw [absw] at hl
  have hk : Knowing E0 d' (some cw) (.mount w'.mount.id) cw := ⟨rfl, by decide, .link (by decide) (off_of_outside outw') hl (.mount hS.live.mdir rfl)⟩
  obtain ⟨h1, h2⟩ := C104_clone (s := ⟨.mount w'.mount.id, []⟩) (Or.inl ⟨_, rfl, by decide, hk.leads, rfl⟩) hk.leads outw outv'
  obtain ⟨s', h3⟩ := (h1 _ _).2 he
  exact ⟨d', d3, w', s', hS.live.gets, ⟨_, h3⟩, h2 _ _ _ h3⟩

/-- `C104_init`: in `/`. -/
example : ∃ d' s', (∃ x, ExecAt E0 (some (lit "/")) (initCmd E0 cw (lit "main")) ⟨.dir (lit "/"), []⟩ disk0 (.ok x) s' d') ∧ Leads E0 d' (lit "/") s'.cwd := by
  obtain ⟨d1, r, w, u, root, he, _⟩ := live_init (E := E0) (d := disk0) ⟨disk0, untouched0, .refl⟩ (cwd := cw) (branch := lit "main")
    outw rfl (fits (by decide)) (by decide)
  obtain ⟨h1, h2⟩ := C104_init (E := E0) (pwd := some (lit "/")) (d := disk0) (s := ⟨.dir (lit "/"), []⟩) (P := lit "/") (Or.inl ⟨_, rfl, by decide, .top, rfl⟩) .top (branch := lit "main") outw'
  rw [absw] at he
  obtain ⟨s', h3⟩ := (h1 _ _).2 he
  exact ⟨d1, s', ⟨_, h3⟩, h2 _ _ _ h3⟩

/-- `C104_init` without `PWD`. -/
example : ∃ d' s', (∃ x, ExecAt E0 none (initCmd E0 cw (lit "main")) ⟨.dir (lit "/"), []⟩ disk0 (.ok x) s' d') ∧ Leads E0 d' (lit "/") s'.cwd := by
  obtain ⟨d1, r, w, u, root, he, _⟩ := live_init (E := E0) (d := disk0) ⟨disk0, untouched0, .refl⟩ (cwd := cw) (branch := lit "main")
    outw rfl (fits (by decide)) (by decide)
  obtain ⟨h1, h2⟩ := C104_init (E := E0) (pwd := none) (d := disk0) (s := ⟨.dir (lit "/"), []⟩) (P := lit "/") (Or.inr ⟨fun _ h => (nomatch h), rfl⟩) .top (branch := lit "main") outw'
  rw [absw] at he
  obtain ⟨s', h3⟩ := (h1 _ _).2 he
  exact ⟨d1, s', ⟨_, h3⟩, h2 _ _ _ h3⟩

/-- `C104_violated_commit`: the first commit without `PWD`. The command fails; the commit is in the history. -/
example : ∃ d d' w w1 u s', Gets E0 d cw (lit ".") w ∧
    ExecAt E0 none (commitCmd E0 (E0.mountPath w.mount.id.base32) ci) ⟨.mount w.mount.id, []⟩ d (.err .clearPath) s' d' ∧
    Gets E0 d' cw (lit ".") w1 ∧ w1.mount = w.mount ∧ ∃ u' , ComesBack (w.tree.abs.commit w.ws.onBranch u u' ci.date ci.message) w1.tree.abs := by
  obtain ⟨d, w, u, root, hB⟩ := begun
  have := hB.used
  have hl := hB.live.link
  rw [absw] at hl
  obtain ⟨h1, h2⟩ := C104_violated_commit (pwd := none) hB.live.past.reachable (P := cw) (by decide) outw' hB.live.gets hB.live.opens.head hB.live.full (fits (by simp)) hB.may hB.live.mounted
    (s := ⟨.mount w.mount.id, []⟩) rfl ⟨_, _, hl, hB.live.mdir, rfl⟩ rfl (getwd_lost fun _ h => (nomatch h)) ci
  obtain ⟨r, s', d', he⟩ := h1 (by omega)
  obtain ⟨rfl, w1, u', _, h3, h4⟩ := h2 _ _ _ he
  exact ⟨d, d', w, w1, u, s', hB.live.gets, he, h3.1, h3.2.2.1, u', h4⟩

/-- `C104_violated_commit`: the same with `PWD` set to the mount point, as after `-C "$(realpath w)"`. -/
example : ∃ (d d' : Disk) (w : OpenWs) (s' : Proc1) (pwd : Str), ChangesDir E0 d (E0.mountPath w.mount.id.base32) none (.dir (lit "/")) (some pwd) (.mount w.mount.id) ∧
    ExecAt E0 (some pwd) (commitCmd E0 pwd ci) ⟨.mount w.mount.id, []⟩ d (.err .clearPath) s' d' := by
  obtain ⟨d, w, u, root, hB⟩ := begun
  have := hB.used
  have hl := hB.live.link
  rw [absw] at hl
  have hroot : Getwd E0 d none (.dir (lit "/")) (lit "/") := Or.inr ⟨fun _ h => (nomatch h), rfl⟩
  have habs : Path.abs (lit "/") (E0.mountPath w.mount.id.base32) = E0.mountPath w.mount.id.base32 := mountPath_abs _ _
  have hch : ChangesDir E0 d (E0.mountPath w.mount.id.base32) none (.dir (lit "/")) (some (E0.mountPath w.mount.id.base32)) (.mount w.mount.id) :=
    ⟨_, hroot, by rw [habs]; exact .mount hB.live.mdir rfl, by rw [habs]⟩
  obtain ⟨h1, h2⟩ := C104_violated_commit (pwd := some (E0.mountPath w.mount.id.base32)) hB.live.past.reachable (P := cw) (by decide) outw' hB.live.gets hB.live.opens.head hB.live.full (fits (by simp)) hB.may hB.live.mounted
    (s := ⟨.mount w.mount.id, []⟩) rfl ⟨_, _, hl, hB.live.mdir, rfl⟩ rfl (getwd_realpath hroot habs hch) ci
  obtain ⟨r, s', d', he⟩ := h1 (by omega)
  obtain ⟨rfl, _⟩ := h2 _ _ _ he
  exact ⟨d, d', w, s', _, hch, he⟩

/-- `C104_violated_checkout`: `checkout HEAD` without `PWD`. -/
example : ∃ (d d' : Disk) (w w1 : OpenWs) (s' : Proc1), Gets E0 d cw (lit ".") w ∧
    ExecAt E0 none (checkoutCmd E0 (E0.mountPath w.mount.id.base32) (lit "HEAD")) ⟨.mount w.mount.id, []⟩ d (.err .clearPath) s' d' ∧
    Gets E0 d' cw (lit ".") w1 ∧ w1.mount = w.mount := by
  obtain ⟨d, w, u, root, hB⟩ := begun
  have := hB.used
  have hl := hB.live.link
  rw [absw] at hl
  obtain ⟨h1, h2⟩ := C104_violated_checkout (pwd := none) hB.live.past.reachable (P := cw) (by decide) outw' hB.live.gets hB.live.opens.head plainHEAD (kt := .commit) .head
    hB.live.path (fits (by simp)) hB.live.mounted (s := ⟨.mount w.mount.id, []⟩) rfl ⟨_, _, hl, hB.live.mdir, rfl⟩ rfl (getwd_lost fun _ h => (nomatch h))
  obtain ⟨r, s', d', he⟩ := h1 (by omega)
  obtain ⟨rfl, w1, u', _, h3, h4⟩ := h2 _ _ _ he
  exact ⟨d, d', w, w1, s', hB.live.gets, he, h3.1, h3.2.2.1⟩

end Story
end Verif
