import Verif.Props.Started
import Verif.Props.Examples
/-!
# Concrete cases for `Verif.Props.Between` and `Verif.Props.Started`
-/
set_option autoImplicit false
namespace Verif
open M TS Json Story

/-- `C85_violated_commit`, `C85_commit_partial`: the commit `first` in `/w`, killed when there is nothing at `/w`. Putting the link back brings the workspace on the new
layer, unless the history cannot be read. -/
example : ∃ d d1 w u, Calmly E0 d ∧ Gets E0 d cw (lit ".") w ∧ Stops E0 Faults.none (commitCmd E0 cw ci) d d1 ∧ (∀ w1, ¬ Gets E0 d1 cw (lit ".") w1) ∧
    ((∃ e, d1.loads w.spaceDir = .err e) ∨ ∃ w1 u', GoesOn E0 Faults.none d d1 cw w w1 u' u) := by
  obtain ⟨d, w, u, root, d', w', u', hB, hS⟩ := Story.second
  obtain ⟨r, he⟩ := hS.run
  obtain ⟨d1, h1, h2, h3⟩ := C85_violated_commit hB.live.past.reachable outw hB.live.gets hB.live.opens.head he
  refine ⟨d, d1, w, u, hB.live.past, hB.live.gets, h1, h3, ?_⟩
  rcases C85_commit_partial hB.live.past.reachable outw hB.live.gets hB.live.opens.head h1 with h | h | ⟨w1, _, _, h, _⟩ | ⟨w1, u1, _, h, _⟩
  · exact Or.inl h
  · exact absurd h.1 (h3 _)
  · exact absurd h.1 (h3 _)
  · exact Or.inr ⟨w1, u1, h⟩

/-- `C85_commit_partial` where the commit runs to its end: the path leads to the new layer. -/
example : ∃ d d' w u, Calmly E0 d ∧ Gets E0 d cw (lit ".") w ∧ Stops E0 Faults.none (commitCmd E0 cw ci) d d' ∧ ∃ w1 u', Gets E0 d' cw (lit ".") w1 ∧ w1.ws.HeadAt w1.tree u' u ∧ u' ≠ u := by
  obtain ⟨d, w, u, root, d', w', u', hB, hS⟩ := Story.second
  obtain ⟨r, he⟩ := hS.run
  refine ⟨d, d', w, u, hB.live.past, hB.live.gets, exec_stops he, w', u', hS.live.gets, hS.live.opens.head, ?_⟩
  rintro rfl
  obtain ⟨_, n, hn, _⟩ := hB.live.opens.head
  exact hS.effect.fresh ⟨n, hn⟩

/-- `C85_violated_checkout`, `C85_checkout_partial`: HEAD is checked out in the clone `/v`. -/
example : ∃ d d1 w, Calmly E0 d ∧ Gets E0 d cv (lit ".") w ∧ Stops E0 Faults.none (checkoutCmd E0 cv (lit "HEAD")) d d1 ∧ (∀ w1, ¬ Gets E0 d1 cv (lit ".") w1) ∧
    ((∃ e, d1.loads w.spaceDir = .err e) ∨ ∃ w1 u' v, GoesOn E0 Faults.none d d1 cv w w1 u' v) := by
  obtain ⟨_, _, _, root, _, _, _, d, w1, w2, u2, d4, w1', w2', u2', _, _, hT, hX⟩ := fourth
  obtain ⟨r, he⟩ := hX.run
  obtain ⟨d1, h1, h2, h3⟩ := C85_violated_checkout hT.live2.past.reachable outv hT.live2.gets hT.live2.opens.head he
  refine ⟨d, d1, w2, hT.live2.past, hT.live2.gets, h1, h3, ?_⟩
  rcases C85_checkout_partial hT.live2.past.reachable outv hT.live2.gets hT.live2.opens.head h1 with h | h | ⟨v, _, _, ⟨w1, _, _, h, _⟩ | ⟨w1, u1, _, h, _⟩⟩
  · exact Or.inl h
  · exact absurd h.1 (h3 _)
  · exact absurd h.1 (h3 _)
  · exact Or.inr ⟨w1, u1, v, h⟩

/-- `C86_init`: `init` at `/w` on an empty store, at its end and at its start. -/
example : ∃ d', Stops E0 Faults.none (initCmd E0 (Path.abs cw (lit ".")) (lit "main")) disk0 d' ∧ d'.user (Path.abs cw (lit ".")) ≠ disk0.user (Path.abs cw (lit ".")) ∧
    ∃ w1 u' root, Complete E0 disk0 d' cw (lit ".") w1 u' root ∧ w1.ws.branch = lit "main" := by
  obtain ⟨d1, r, w, u, root, he, hL, _⟩ := live_init (E := E0) (d := disk0) ⟨disk0, untouched0, .refl⟩ (cwd := cw) (branch := lit "main")
    outw rfl (fits (by decide)) (by decide)
  have hne : d1.user (Path.abs cw (lit ".")) ≠ disk0.user (Path.abs cw (lit ".")) := by rw [hL.link]; exact nofun
  refine ⟨d1, exec_stops he, hne, ?_⟩
  rcases (C86_init outw (exec_stops he)).2.2 with h | ⟨w1, u', root, h1, _, _, h2, _⟩
  · exact absurd h hne
  · exact ⟨w1, u', root, h1, by rw [h2, main_clean]⟩

/-- `C86_clone`: the clone at `/v`, at its end. -/
example : ∃ d d' w, Calmly E0 d ∧ Gets E0 d cw (lit ".") w ∧ Stops E0 Faults.none (cloneCmd E0 cw (lit ".") (Path.abs cv (lit "."))) d d' ∧
    ∃ w1 u' p, Complete E0 d d' cv (lit ".") w1 u' p ∧ w1.spaceID = w.spaceID := by
  obtain ⟨_, _, _, root, d, w, u, d3, w1, w2, u2, _, hS, hT⟩ := third
  obtain ⟨r, he⟩ := hT.run
  refine ⟨d, d3, w, hS.live.past, hS.live.gets, exec_stops he, ?_⟩
  rcases (C86_clone hS.live.past.reachable outw hS.live.gets hS.live.opens.head outv (exec_stops he)).2.2 with h | ⟨w1, u', _, h1, h2, _⟩
  · rw [hT.live2.link, hS.free _ vw] at h; cases h
  · exact ⟨w1, u', _, h1, h2⟩

end Verif
