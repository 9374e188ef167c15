import Verif.Props.Tidy
import Verif.Props.MoreExamples
/-!
# Concrete cases for C82, C83 and for which `init` succeeds

The same story as in `Examples.lean`: `/w` is a workspace with a first commit, `/v` is its clone.
-/
set_option autoImplicit false
namespace Verif
open M TS Json Story

namespace Story

/-- `/w`, and any entry at `/x`. -/
theorem withEntry (e : UEnt) : ∃ d w u root, Live E0 d cw w u root [root] ∧ d.used.length ≤ 5 ∧ d.user (Path.abs (lit "/x") (lit ".")) = e := by
  obtain ⟨d, w, u, root, hB⟩ := begun
  exact ⟨{ d with user := upd d.user (Path.abs (lit "/x") (lit ".")) e }, w, u, root, live_files hB.live (upd_ne _ _ (by decide)), hB.used, by simp [upd]⟩

/-- `C82_no_workspace_partial`: nothing is done in a directory that is no workspace. -/
example : ∃ d, Reachable E0 d ∧ PlainLink d (lit "/x") (lit ".") ∧ (∀ w, ¬ Gets E0 d (lit "/x") (lit ".") w) ∧
    ∃ e, Exec E0 Faults.none (commitCmd E0 (lit "/x") ci) d (.err e) d := by
  obtain ⟨d, w, u, root, hL, hus, hf⟩ := withEntry .dir
  have hpk : PlainLink d (lit "/x") (lit ".") := fun t ht => by rw [hf] at ht; cases ht
  have hno : ∀ w, ¬ Gets E0 d (lit "/x") (lit ".") w := by
    intro w hg
    obtain ⟨g, hs⟩ := steady_reachable hL.past.reachable
    obtain ⟨_, _, _, hF⟩ := found_of_gets hs outx hg
    obtain ⟨t, h1, _⟩ := hF.opens.link
    rw [hf] at h1; cases h1
  obtain ⟨r, d', he⟩ := exec_total (E := E0) (f := Faults.none) (commitCmd_draws E0 (lit "/x") ci) d (by omega)
  obtain ⟨⟨_, he1⟩, rfl⟩ := (C82_no_workspace_partial hL.past.reachable outx hno).1 _ _ he
  obtain ⟨e, rfl⟩ := he1 hpk
  exact ⟨_, hL.past.reachable, hpk, hno, e, he⟩

/-- `C82_violated_commit`: the first commit in the clone `/v` fails and leaves a layer. -/
example : ∃ d d' v e, Reachable E0 d ∧ Exec E0 Faults.none (commitCmd E0 cv ci) d (.err e) d' ∧ d.layer v = none ∧ d'.layer v ≠ none := by
  obtain ⟨d0, w0, u0, root, d, w, u, d3, w1, w2, u2, hB, hS, hT⟩ := third
  obtain ⟨r, he⟩ := hT.run
  obtain ⟨w2', u2', p2, h1, h2, h3⟩ := C29_violated_on_branch hS.live.past.reachable outw hS.live.gets (by rw [hS.same.2.1, hB.branch]; decide) outv rfl rfl he
  have := hT.used
  obtain ⟨r', d', he'⟩ := exec_total (E := E0) (f := Faults.none) (commitCmd_draws E0 cv ci) d3 (by omega)
  obtain ⟨⟨e, rfl⟩, ⟨v, h4, h5⟩, _⟩ := C82_violated_commit hT.live2.past.reachable outv h1 h2 h3 he'
  exact ⟨d3, d', v, e, hT.live2.past.reachable, he', h4, by rw [h5, upd_self]; simp⟩

/-- `C82_violated_clone`: `/x` is a directory with something in it, or the directory above is missing. -/
example (e : UEnt) (h : e = .dir ∨ e = .noParent) : ∃ d d' w s v err, Reachable E0 d ∧ Gets E0 d cw (lit ".") w ∧
    Exec E0 Faults.none (cloneCmd E0 cw (lit ".") (Path.abs (lit "/x") (lit "."))) d (.err err) d' ∧ ¬ w.tree.abs.Has v ∧ d'.loads w.spaceDir = .ok s ∧ s.abs.Has v := by
  obtain ⟨d, w, u, root, hL, hus, hf⟩ := withEntry e
  obtain ⟨r, d', he⟩ := exec_total (E := E0) (f := Faults.none) (cloneCmd_draws E0 cw (lit ".") (Path.abs (lit "/x") (lit "."))) d (by omega)
  obtain ⟨⟨err, rfl⟩, v, n, i, s, _, _, _, _, _, _, h1, h2, h3⟩ := C82_violated_clone hL.past.reachable outw (off_of_outside outx) hL.gets hL.opens.head hL.path (fits (by simp))
    (by rw [hf]; exact h.imp_right Or.inl) he
  exact ⟨d, d', w, s, v, err, hL.past.reachable, hL.gets, he, h1, h2, h3⟩

/-- After the commit in `/w`, a copy of the old link is at `/x`. -/
theorem withStale : ∃ d w u p root, Live E0 d cw w u p [p, root] ∧ d.used.length ≤ 7 ∧ Stale E0 d (Path.abs (lit "/x") (lit ".")) := by
  obtain ⟨d, w, u, root, d', w', u', hB, hS⟩ := Story.second
  obtain ⟨r, he⟩ := hS.run
  obtain ⟨g, hs⟩ := steady_reachable hB.live.past.reachable
  obtain ⟨_, _, u1, ls, d1, _, _, _, hP, rfl⟩ := wpm_exec (commitCmd_wp hB.live.opens (by rw [hB.live.mdir]; simp)) he
  obtain ⟨id, h1, h2⟩ := hs.tracked.mdir w.mount.id.base32 (by rw [hB.live.mdir]; simp)
  refine ⟨{ removed w.mount.id.base32 d1 with user := upd (removed w.mount.id.base32 d1).user (Path.abs (lit "/x") (lit ".")) (.link (E0.mountPath w.mount.id.base32)) }, w', u', u, root,
    live_files hS.live (upd_ne _ _ (by decide)), hS.used, id, hP.used _ h1, by rw [← h2]; simp [upd], ?_⟩
  rintro ⟨m, c, h3, _⟩
  rw [← h2] at h3
  simp [removed, Disk.setInfo, Disk.setMdir, Disk.setMnt] at h3

/-- `C82_violated_clone`, `C82_violated_init`: on the link that leads nowhere. -/
example : ∃ d d' d'' v n e1 e2, Reachable E0 d ∧ Exec E0 Faults.none (cloneCmd E0 cw (lit ".") (Path.abs (lit "/x") (lit "."))) d (.err e1) d' ∧ d.layer v = none ∧ d'.layer v ≠ none ∧
    Exec E0 Faults.none (initCmd E0 (Path.abs (lit "/x") (lit ".")) (lit "main")) d (.err e2) d'' ∧ d.space n = none ∧ d''.space n ≠ none := by
  obtain ⟨d, w, u, p, root, hL, hus, hf⟩ := withStale
  obtain ⟨r, d', he⟩ := exec_total (E := E0) (f := Faults.none) (cloneCmd_draws E0 cw (lit ".") (Path.abs (lit "/x") (lit "."))) d (by omega)
  obtain ⟨⟨err, rfl⟩, v, n, i, s, a1, a2, _⟩ := C82_violated_clone hL.past.reachable outw (off_of_outside outx) hL.gets hL.opens.head hL.path (fits (by simp)) (Or.inr (Or.inr hf)) he
  obtain ⟨r, d'', he'⟩ := exec_total (E := E0) (f := Faults.none) (initCmd_draws E0 (Path.abs (lit "/x") (lit ".")) (lit "main")) d (by omega)
  obtain ⟨⟨err, rfl⟩, dir, b, _, _, _, _, h1, h2, _⟩ := C82_violated_init hL.past.reachable (off_of_outside outx) (Or.inr hf) he'
  exact ⟨d, d', d'', v, dir, _, _, hL.past.reachable, he, a1, a2, he', h1, by rw [h2]; simp⟩

/-- `C82_violated_init`, `C55_accepted_iff`: the directory above `/x` is missing. -/
example : ∃ d d' dir err, Reachable E0 d ∧ Exec E0 Faults.none (initCmd E0 (Path.abs (lit "/x") (lit ".")) (lit "main")) d (.err err) d' ∧ d.space dir = none ∧ d'.space dir ≠ none ∧
    ¬ FreePath E0 d (Path.abs (lit "/x") (lit ".")) := by
  obtain ⟨d, w, u, root, hL, hus, hf⟩ := withEntry .noParent
  obtain ⟨r, d', he⟩ := exec_total (E := E0) (f := Faults.none) (initCmd_draws E0 (Path.abs (lit "/x") (lit ".")) (lit "main")) d (by omega)
  obtain ⟨⟨err, rfl⟩, dir, b, _, _, _, _, h1, h2, _⟩ := C82_violated_init hL.past.reachable (off_of_outside outx) (Or.inl hf) he
  refine ⟨d, d', dir, err, hL.past.reachable, he, h1, by rw [h2]; simp, fun h => ?_⟩
  obtain ⟨w, hw⟩ := (C55_accepted_iff hL.past.reachable (off_of_outside outx) (fun t ht => by rw [hf] at ht; cases ht) he).2 ⟨h, fits (by simp)⟩
  cases hw

/-- `C45_violated_init`: a file at `/x`. -/
example : ∃ d d' w, Reachable E0 d ∧ d.user (Path.abs (lit "/x") (lit ".")) = .file ∧
    Exec E0 Faults.all (initCmd E0 (Path.abs (lit "/x") (lit ".")) (lit "main")) d (.ok w) d' ∧ d'.user (Path.abs (lit "/x") (lit ".")) ≠ .file := by
  obtain ⟨d, w, u, root, hL, hus, hf⟩ := withEntry .file
  obtain ⟨w', d', he, h⟩ := C45_violated_init (f := Faults.all) (branch := lit "main") hL.past.reachable (by omega) (off_of_outside outx) hf (fits (by simp)) rfl
  exact ⟨d, d', w', hL.past.reachable, hf, he, by rw [h]; simp⟩

/-- `C82_init_partial`: a directory with something in it stays, and nothing is made. -/
example : ∃ d e, Reachable E0 d ∧ d.user (Path.abs (lit "/x") (lit ".")) = .dir ∧ Exec E0 Faults.none (initCmd E0 (Path.abs (lit "/x") (lit ".")) (lit "main")) d (.err e) d := by
  obtain ⟨d, w, u, root, hL, hus, hf⟩ := withEntry .dir
  obtain ⟨r, d', he⟩ := exec_total (E := E0) (f := Faults.none) (initCmd_draws E0 (Path.abs (lit "/x") (lit ".")) (lit "main")) d (by omega)
  obtain ⟨⟨e, rfl⟩, rfl⟩ := C82_init_partial (off_of_outside outx) rfl (Or.inr hf) he
  exact ⟨_, e, hL.past.reachable, hf, he⟩

/-- `C82_edit_partial`: a second branch `main` without force. -/
example : ∃ d e, Reachable E0 d ∧ Exec E0 Faults.none (editCmd E0 cw [.addBranch (lit "main") (lit "HEAD") false]) d (.err e) d := by
  obtain ⟨d, w, u, root, hB⟩ := begun
  have := hB.used
  obtain ⟨r, d', he⟩ := exec_total (E := E0) (f := Faults.none) (editCmd_draws E0 cw [.addBranch (lit "main") (lit "HEAD") false]) d (by omega)
  rcases C57_edit_partial hB.live.past.reachable outw (hB.live.plain neat) (es := [.addBranch (lit "main") (lit "HEAD") false]) (by intro e he; simp at he; subst he; exact plainHEAD) he with ⟨s, rfl⟩ | ⟨e, rfl⟩
  · obtain ⟨a, ha⟩ := (C24_accepted_iff hB.live.past.reachable outw hB.live.gets hB.live.opens.head rfl (e := .addBranch (lit "main") (lit "HEAD") false) plainHEAD he).1 ⟨s, rfl⟩
    cases ha with
    | addBranch _ h =>
      rcases h with h | h
      · rw [(hB.new.branches _ root).2 ⟨rfl, rfl⟩] at h; cases h
      · cases h
  · obtain rfl := C82_edit_partial hB.live.past.reachable rfl outw hB.live.gets hB.live.opens.head (e := .addBranch (lit "main") (lit "HEAD") false) he
    exact ⟨_, e, hB.live.past.reachable, he⟩

/-- `C82_checkout_partial`: `nothing` names nothing. -/
example : ∃ d e, Reachable E0 d ∧ Exec E0 Faults.none (checkoutCmd E0 cw (lit "nothing")) d (.err e) d := by
  obtain ⟨d, w, u, root, hB⟩ := begun
  have := hB.used
  have hk : PlainKey (lit "nothing") := by unfold PlainKey; decide
  have hno := hB.unresolved (key := lit "nothing") (by decide) (by decide) (by decide)
    (fun v hv => by rcases hv with ⟨h, _⟩ | ⟨h, _⟩ <;> exact absurd h (by decide)) (by
      cases h : w.tree.abs.branch (lit "nothing") with
      | none => rfl
      | some v =>
        have h1 := congrArg List.length ((hB.new.branches _ _).1 h).1
        simp only [List.length_append, C02_base32_length] at h1
        exact absurd h1 (by decide)) (by decide)
  obtain ⟨r, d', he⟩ := exec_total (E := E0) (f := Faults.none) (checkoutCmd_draws E0 cw (lit "nothing")) d (by omega)
  obtain ⟨⟨_, he1⟩, rfl⟩ := C82_checkout_partial hB.live.past.reachable outw hB.live.gets hB.live.opens.head hno he
  obtain ⟨e, rfl⟩ := he1 hk
  exact ⟨_, e, hB.live.past.reachable, he⟩

/-- `C83_tidy`, `C83_layers`: after `init`. -/
example : ∃ d v, SmoothPast E0 Faults.none disk0 d ∧ Tidy d ∧ d.layer v ≠ none := by
  obtain ⟨d1, r1, w, u, root, he1, hL1, _⟩ := live_init (E := E0) (d := disk0) ⟨disk0, untouched0, .refl⟩ (cwd := cw) (branch := lit "main")
    outw rfl (fits (by decide)) (by decide)
  have hp : SmoothPast E0 Faults.none disk0 d1 := .step (o := 0) (a := .init _ _) .refl (off_of_outside outw) (.init he1)
  obtain ⟨_, _, h2⟩ := gets_reads outw hL1.gets
  obtain ⟨_, n, hn, _⟩ := hL1.opens.head
  exact ⟨d1, u, hp, C83_tidy rfl untouched0 hp, (C83_layers rfl untouched0 hp u).2 ⟨_, _, h2, n, hn⟩⟩

/-- `C83_refused`: the first commit in the clone `/v`. -/
example : ∃ d d' e, Reachable E0 d ∧ Exec E0 Faults.none (commitCmd E0 cv ci) d (.err e) d' ∧ ¬ Tidy d' := by
  obtain ⟨d0, w0, u0, root, d, w, u, d3, w1, w2, u2, hB, hS, hT⟩ := third
  obtain ⟨r, he⟩ := hT.run
  obtain ⟨w2', u2', p2, h1, h2, h3⟩ := C29_violated_on_branch hS.live.past.reachable outw hS.live.gets (by rw [hS.same.2.1, hB.branch]; decide) outv rfl rfl he
  have := hT.used
  obtain ⟨r', d', he'⟩ := exec_total (E := E0) (f := Faults.none) (commitCmd_draws E0 cv ci) d3 (by omega)
  obtain ⟨⟨e, rfl⟩, _⟩ := C82_violated_commit hT.live2.past.reachable outv h1 h2 h3 he'
  exact ⟨d3, d', e, hT.live2.past.reachable, he', C83_refused hT.live2.past.reachable outv h1 h2 h3 he'⟩

end Story
end Verif
