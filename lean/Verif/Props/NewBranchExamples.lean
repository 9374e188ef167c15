import Verif.Props.RoundTripExamples
import Verif.Props.NewBranch
/-!
# Concrete cases for `Verif.Props.NewBranch`
-/
set_option autoImplicit false
namespace Verif
open M TS Json Story
namespace Story

theorem begun_link {d : Disk} {w : OpenWs} {u root : UID} (h : Begun d w u root) :
    ∃ n m c, d.user w.ws.path = .link (E0.mountPath n) ∧ d.mdir n = some m ∧ m.merged = some c :=
  ⟨_, _, _, by rw [h.live.opens.path]; exact h.live.link, h.live.mdir, rfl⟩

/-- `C118_new_branch`: `branch dev HEAD`, `checkout dev`, `commit` in `/w`. The branch `main` stays. -/
example : ∃ d w d1 d2 d3 x1 x2 x3 w3 u2 root, Calmly E0 d ∧ Gets E0 d cw (lit ".") w ∧ w.ws.branch = lit "main" ∧
    Exec E0 Faults.none (editCmd E0 cw [.addBranch (lit "dev") (lit "HEAD") false]) d (.ok x1) d1 ∧ Exec E0 Faults.none (checkoutCmd E0 cw (lit "dev")) d1 (.ok x2) d2 ∧
    Exec E0 Faults.none (commitCmd E0 cw ci) d2 (.ok x3) d3 ∧ Gets E0 d3 cw (lit ".") w3 ∧ w3.ws.branch = lit "dev" ∧
    w3.tree.abs.branch (w.ws.id.base32 ++ lit "/" ++ lit "dev") = some u2 ∧ w3.tree.abs.branch (w.ws.id.base32 ++ lit "/" ++ lit "main") = some root := by
  obtain ⟨d, w, u, root, hB⟩ := begun
  have hu := hB.used
  obtain ⟨r1, d1, he1⟩ := exec_total (E := E0) (f := Faults.none) (editCmd_draws E0 cw [.addBranch (lit "dev") (lit "HEAD") false]) d (by omega)
  have u1 := stops_used (editCmd_draws E0 cw _) (exec_stops he1)
  obtain ⟨r2, d2, he2⟩ := exec_total (E := E0) (f := Faults.none) (checkoutCmd_draws E0 cw (lit "dev")) d1 (by omega)
  have u2 := stops_used (checkoutCmd_draws E0 cw _) (exec_stops he2)
  obtain ⟨r3, d3, he3⟩ := exec_total (E := E0) (f := Faults.none) (commitCmd_draws E0 cw ci) d2 (by omega)
  have hne : ∀ b : Str, b ≠ w.ws.id.base32 ++ lit "/" ++ lit "main" → w.tree.abs.branch b = none := fun b hb => by
    cases h : w.tree.abs.branch b with
    | none => rfl
    | some v => exact absurd ((hB.new.branches _ _).1 h).1 hb
  have hdev : w.ws.id.base32 ++ lit "/" ++ lit "dev" ≠ w.ws.id.base32 ++ lit "/" ++ lit "main" := fun h => absurd (List.append_cancel_left h) (by decide)
  have hN : BareName w.tree.abs (lit "dev") := ⟨by unfold PlainKey; decide, valid_ascii (by decide), by decide, by decide, no_spell (by decide) (by decide), hne _ fun h => by
    have := congrArg List.length h
    simp only [List.length_append, show (lit "/").length = 1 from rfl, show (lit "dev").length = 3 from rfl, show (lit "main").length = 4 from rfl] at this
    omega⟩
  obtain ⟨⟨x1, rfl⟩, ⟨x2, rfl⟩, ⟨x3, rfl⟩, w2, y2, w3, y3, _, k2, _, k4, _, _, _, _, k9, k10, _, _, k13, k14, _⟩ :=
    C118_new_branch hB.live.past.reachable outw hB.live.gets hB.live.opens.head (begun_link hB) hN (by
      cases h : w.tree.abs.tag (lit "dev") with
      | none => rfl
      | some v => exact absurd ((hB.new.tags _ _).1 h).1 (by decide)) (hne _ hdev) plainHEAD .head hB.live.path (fits (by simp)) (fits (by simp)) he1 he2 he3
  exact ⟨d, w, d1, d2, d3, x1, x2, x3, w3, y2, root, hB.live.past, hB.live.gets, hB.branch, he1, he2, he3, k9, k10.2.1.trans k4, k13,
    (k14 _ hdev.symm).trans ((hB.new.branches _ _).2 ⟨rfl, rfl⟩)⟩

/-- `C118_tag`: `tag v1 HEAD`, `checkout v1` in `/w`. -/
example : ∃ d w d1 d2 x1 x2 w2 u2 root, Calmly E0 d ∧ Gets E0 d cw (lit ".") w ∧
    Exec E0 Faults.none (editCmd E0 cw [.addTag (lit "v1") (lit "HEAD") false]) d (.ok x1) d1 ∧ Exec E0 Faults.none (checkoutCmd E0 cw (lit "v1")) d1 (.ok x2) d2 ∧
    Gets E0 d2 cw (lit ".") w2 ∧ w2.ws.branch = [] ∧ w2.ws.HeadAt w2.tree u2 root ∧ d2.lists w2 = files ([root].map d.content) := by
  obtain ⟨d, w, u, root, hB⟩ := begun
  have hu := hB.used
  obtain ⟨r1, d1, he1⟩ := exec_total (E := E0) (f := Faults.none) (editCmd_draws E0 cw [.addTag (lit "v1") (lit "HEAD") false]) d (by omega)
  have u1 := stops_used (editCmd_draws E0 cw _) (exec_stops he1)
  obtain ⟨r2, d2, he2⟩ := exec_total (E := E0) (f := Faults.none) (checkoutCmd_draws E0 cw (lit "v1")) d1 (by omega)
  obtain ⟨⟨x1, rfl⟩, ⟨x2, rfl⟩, w2, u2, k1, _, _, k4, k5, _, k7, _⟩ :=
    C118_tag hB.live.past.reachable outw hB.live.gets hB.live.opens.head (begun_link hB) (name := lit "v1") (by unfold PlainKey; decide) (valid_ascii (by decide)) (by decide)
      (fun x hx => absurd hx (no_spell (k := lit "v1") (by decide) (by decide) x)) (by
      cases h : w.tree.abs.tag (lit "v1") with
      | none => rfl
      | some v => exact absurd ((hB.new.tags _ _).1 h).1 (by decide)) plainHEAD .head hB.live.path (fits (by simp)) he1 he2
  exact ⟨d, w, d1, d2, x1, x2, w2, u2, root, hB.live.past, hB.live.gets, he1, he2, k1, k4, k5, k7⟩

end Story
end Verif
