import Verif.Props.MoreExamples
import Verif.Props.RoundTrip
/-!
# Concrete cases for `Verif.Props.RoundTrip`
-/
set_option autoImplicit false
namespace Verif
open M TS Json Story
namespace Story

/-- No ID is written like this. -/
theorem no_spell {k : Str} (h1 : k.length ≠ 32) (h2 : k.length ≠ 26) : ∀ x, ¬ Spells k x := by
  rintro x (⟨h, _⟩ | ⟨h, _⟩)
  · exact h1 h
  · exact h2 h

/-- `C116_once`, `C116_any_way`, `C116_there_and_back`: in `/w`, `checkout HEAD`, which leaves the branch, and `checkout main`. The working layer with `f` is kept. -/
example : ∃ d d1 d2 w w1 w2 u u2 root x y, Calmly E0 d ∧ Gets E0 d cw (lit ".") w ∧ d.lists w [lit "f"] = some (.file (lit "x")) ∧
    Exec E0 Faults.none (checkoutCmd E0 cw (lit "HEAD")) d (.ok x) d1 ∧ Gets E0 d1 cw (lit ".") w1 ∧ w1.ws.branch = [] ∧
    Exec E0 Faults.none (checkoutCmd E0 cw (lit "main")) d1 (.ok y) d2 ∧ Gets E0 d2 cw (lit ".") w2 ∧ w2.ws.branch = lit "main" ∧ w2.ws.HeadAt w2.tree u2 root ∧
    d2.lists w2 = files ([root].map d.content) ∧ d2.layer u = d.layer u := by
  obtain ⟨d, w, u, root, hB⟩ := begun
  have hu := hB.used
  have hr := hB.live.past.reachable
  obtain ⟨d1, r1, _, _, he1, hL, hu1, _⟩ := live_checkout neat plainHEAD hB.live .head hB.live.path (fits (by simp)) (by omega)
  obtain ⟨r, d2, he2⟩ := exec_total (E := E0) (f := Faults.none) (checkoutCmd_draws E0 cw (lit "main")) d1 (by omega)
  obtain ⟨w1, u1, k1⟩ := C116_once hr outw hB.live.gets hB.live.opens.head .head hB.live.path he1
  have hsp := no_spell (k := lit "main") (by decide) (by decide)
  have hown : w.tree.abs.branch (w.ws.id.base32 ++ lit "/" ++ lit "main") = some root := (hB.new.branches _ _).2 ⟨rfl, rfl⟩
  have hR : Ws.Resolves w.tree.abs w.ws.id root (lit "main") root .branch := by
    refine .own (by decide) (fun x hx => absurd hx (hsp x)) ?_ ?_ hown
    · cases h : w.tree.abs.tag (lit "main") with
      | none => rfl
      | some v => exact absurd ((hB.new.tags _ _).1 h).1 (by decide)
    · cases h : w.tree.abs.branch (lit "main") with
      | none => rfl
      | some v =>
        have := congrArg List.length ((hB.new.branches _ _).1 h).1
        simp only [List.length_append] at this
        have h5 : (lit "/").length = 1 := rfl
        omega
  have hb := hB.branch
  rw [← hb] at hR hown hsp he2
  obtain ⟨⟨y, rfl⟩, w2, u2, k, ⟨_, s2, _⟩, _, k3⟩ := C116_there_and_back hr (f := Faults.none) rfl outw hB.live.gets hB.live.opens.head (by rw [hb]; unfold PlainKey; decide) hsp
    (by rw [hb]; decide) hR hown hB.live.path (fits (by simp)) he1 he2
  rw [hb] at he2
  exact ⟨d, d1, d2, w, w1, w2, u, u2, root, r1, y, hB.live.past, hB.live.gets, hB.shows, he1, k1.gets, k1.branch.trans (by decide), he2, k.gets, s2.trans hb, k.head, k.files, k3⟩

end Story
end Verif
