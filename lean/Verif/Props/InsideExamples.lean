import Verif.Props.Inside
import Verif.Props.FrozenExamples
/-!
# Working inside: examples
-/
set_option autoImplicit false
namespace Verif
open M TS Json Story
namespace Story

/-- `C88_violated_commit`, `C88_violated_commit_runs`: `commit` in a shell that stands in `/w`. The file `f` is lost. -/
example : ∃ (d d' : Disk) (w w2 : OpenWs), Reachable E0 d ∧ Gets E0 d cw (lit ".") w ∧ d.lists w [lit "f"] = some (.file (lit "x")) ∧
    ExecIn E0 (· = w.mount.id.base32) (commitCmd E0 cw ci) d (.err .removeData) d' ∧ LeftBehind d d' w.mount.id.base32 ∧
    Gets E0 d' cw (lit ".") w2 ∧ d'.lists w2 [lit "f"] = none := by
  obtain ⟨d, w, u, root, hB⟩ := begun
  have := hB.used
  obtain ⟨d', he⟩ := C88_violated_commit_runs (inside := (· = w.mount.id.base32)) hB.live.past.reachable outw hB.live.gets hB.live.mounted hB.live.opens.head hB.may
    hB.live.full (fits (by simp)) hB.live.clearable (by omega) rfl ci
  obtain ⟨_, h2, w2, u2, h3, _, _, _, _, h8, _⟩ := C88_violated_commit (inside := (· = w.mount.id.base32)) hB.live.past.reachable outw hB.live.gets hB.live.mounted hB.live.opens.head hB.may
    hB.live.full (fits (by simp)) hB.live.clearable rfl ci he
  exact ⟨d, d', w, w2, hB.live.past.reachable, hB.live.gets, hB.shows, he, h2, h3, by rw [h8]⟩

/-- `C88_commit_partial`: the same `commit` with `-C /w` from elsewhere. The file `f` is kept. -/
example : ∃ (d d' : Disk) (w w2 : OpenWs) (r : Res CErr (OpenWs × OpenWs)), Reachable E0 d ∧ Gets E0 d cw (lit ".") w ∧
    ExecIn E0 (fun _ => False) (commitCmd E0 cw ci) d r d' ∧ (∃ x, r = .ok x) ∧ Gets E0 d' cw (lit ".") w2 ∧ d'.lists w2 [lit "f"] = some (.file (lit "x")) := by
  obtain ⟨d, w, u, root, d', w', u', hB, hS⟩ := second
  obtain ⟨r, he⟩ := hS.run
  have hi := execIn_free (inside := fun _ => False) (fun _ h => h) he
  obtain ⟨h1, w2, u2, h2, _, _, _, _, h7, _⟩ := C88_commit_partial hB.live.past.reachable outw hB.live.gets hB.live.mounted hB.live.opens.head hB.may
    hB.live.full (fits (by simp)) hB.live.clearable (fun h => h) ci hi
  exact ⟨d, d', w, w2, _, hB.live.past.reachable, hB.live.gets, hi, h1, h2, by rw [h7]; exact hB.shows⟩

/-- `C88_violated_checkout`, `C88_violated_checkout_runs`: `checkout HEAD` in a shell that stands in `/w`. -/
example : ∃ (d d' : Disk) (w w2 : OpenWs), Reachable E0 d ∧ Gets E0 d cw (lit ".") w ∧
    ExecIn E0 (· = w.mount.id.base32) (checkoutCmd E0 cw (lit "HEAD")) d (.err .removeData) d' ∧ LeftBehind d d' w.mount.id.base32 ∧
    Gets E0 d' cw (lit ".") w2 ∧ w2.mount.id ≠ w.mount.id := by
  obtain ⟨d, w, u, root, hB⟩ := begun
  have := hB.used
  obtain ⟨d', he⟩ := C88_violated_checkout_runs (inside := (· = w.mount.id.base32)) hB.live.past.reachable plainHEAD outw hB.live.gets hB.live.mounted hB.live.opens.head
    (kt := .commit) .head hB.live.path (fits (by simp)) hB.live.clearable (by omega) rfl
  obtain ⟨_, h2, w2, u2, h3, _, _, h6, _⟩ := C88_violated_checkout (inside := (· = w.mount.id.base32)) hB.live.past.reachable plainHEAD outw hB.live.gets hB.live.mounted hB.live.opens.head
    (kt := .commit) .head hB.live.path (fits (by simp)) hB.live.clearable rfl he
  exact ⟨d, d', w, w2, hB.live.past.reachable, hB.live.gets, he, h2, h3, h6⟩

/-- `C88_checkout_partial`: the same `checkout` from elsewhere succeeds. -/
example : ∃ (d d' : Disk) (w : OpenWs) (r : Res CErr (OpenWs × OpenWs)), Reachable E0 d ∧ Gets E0 d cw (lit ".") w ∧
    ExecIn E0 (fun _ => False) (checkoutCmd E0 cw (lit "HEAD")) d r d' ∧ ∃ x, r = .ok x := by
  obtain ⟨d, w, u, root, hB⟩ := begun
  have := hB.used
  obtain ⟨d', r, w', u', he, _⟩ := live_checkout neat plainHEAD hB.live (kt := .commit) .head hB.live.path (fits (by simp)) (by omega)
  have hi := execIn_free (inside := fun _ => False) (fun _ h => h) he
  have h := (C88_checkout_partial hB.live.past.reachable plainHEAD outw hB.live.gets hB.live.opens.head (fun v kt ls h1 h2 => by
    obtain ⟨e, _⟩ := Ws.resolves_unique h1 .head
    rw [e] at h2
    rw [Ws.path_unique h2 hB.live.path]; exact fits (by simp)) hB.live.clearable (fun h => h) hi).1 root .commit .head _ hB.live.path
  exact ⟨d, d', w, _, hB.live.past.reachable, hB.live.gets, hi, h.1⟩

/-- `C88_commit_refused`: the clone of `/w` at `/v` has no commit of its own to follow, whoever is inside. -/
example : ∃ (d : Disk) (w : OpenWs) (u : UID), Reachable E0 d ∧ Gets E0 d cv (lit ".") w ∧ ¬ MayCommit w u ∧
    ∀ r d', ExecIn E0 (fun _ => True) (commitCmd E0 cv ci) d r d' → (∃ e, r = .err e) ∧ d'.mnt = d.mnt := by
  obtain ⟨d0, w0, u0, root, d, w, u, d3, w1, w2, u2, hB, hS, hT⟩ := third
  obtain ⟨r, he⟩ := hT.run
  obtain ⟨w2', u2', p2, h1, h2, h3⟩ := C29_violated_on_branch hS.live.past.reachable outw hS.live.gets (by rw [hS.same.2.1, hB.branch]; decide) outv rfl rfl he
  exact ⟨d3, w2', u2', hT.live2.past.reachable, h1, h3, fun r d' he' =>
    let h := C88_commit_refused hT.live2.past.reachable outv h1 h2 h3 he'
    ⟨h.1, h.2.2.1⟩⟩

end Story
end Verif
