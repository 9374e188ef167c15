import Verif.Props.Limit
import Verif.Props.MovedExamples
/-!
# Examples for C112
-/
set_option autoImplicit false
namespace Verif
open M TS Json Story
namespace Story

/-- The default data directory. -/
def EV : Env := E0.at (lit "/var/lib/stackcrisp")

theorem outV : EV.Outside (Path.abs cw (lit ".")) := by
  intro rest h
  have h1 : Path.comps (Path.abs cw (lit ".")) = [lit "w"] := by decide
  have h2 : Path.comps EV.root = [lit "var", lit "lib", lit "stackcrisp"] := by decide
  rw [h1, h2] at h
  exact absurd (List.cons.inj h).1 (by decide)

theorem fitsV {n : Nat} : EV.Fits n ↔ n ≤ 65 := by
  have : ((Path.comps EV.root).map fun a => a.length + 1).sum = 19 := by decide
  unfold Env.Fits
  rw [this]; omega

/-- A new workspace. -/
theorem newV : ∃ d w u root r, Exec EV Faults.none (initCmd EV (Path.abs cw (lit ".")) (lit "main")) disk0 (.ok r) d ∧ Committable EV d cw w u [root] ∧
    d.Mounted w ∧ d.used.length ≤ 5 := by
  obtain ⟨d, r, w, u, root, he, hL, hu, hbr, hN, _⟩ := live_init (E := EV) ⟨disk0, untouched0, .refl⟩ (branch := lit "main") outV rfl (fitsV.2 (by omega)) (by decide)
  refine ⟨d, w, u, root, r, he, ⟨hL.past.reachable, outV, hL.gets, ⟨root, hL.opens.head⟩, hL.full, ?_, hL.clearable⟩, hL.mounted, hu⟩
  obtain ⟨_, n, hn, hpp⟩ := hL.opens.head
  refine Or.inr ⟨root, ?_, .step hn hpp (.refl hN.first)⟩
  rw [hbr]
  exact (hN.branches _ _).2 ⟨rfl, rfl⟩

/-- `C112_next_iff`, `C112_possible_iff`, `C112_new`, `C112_violated_full`, `C112_violated_left`, `C112_violated_always`, `C112_violated_written`: `/w` is a new workspace. There are 64 commits in
it; the next one fails, and so do all that follow, but the workspace still opens. -/
example : ∃ d d1 d2 r e w2, Exec EV Faults.none (initCmd EV (Path.abs cw (lit ".")) (lit "main")) disk0 (.ok r) d ∧ CommitsIn EV Faults.none cw 64 d d1 ∧
    Exec EV Faults.none (commitCmd EV cw ci) d1 (.err e) d2 ∧ Gets EV d2 cw (lit ".") w2 ∧ (∀ ci x d3, ¬ Exec EV Faults.none (commitCmd EV cw ci) d2 (.ok x) d3) ∧
    ∃ d3 v n, w2.tree.abs.node v = some n ∧ n.anno (lit "commit-message") = some (lit "first") ∧ Happens EV Faults.none (.write w2.mount.id.base32 one) d2 d3 ∧ d3.content v = one := by
  obtain ⟨d, w, u, root, r, he, hC, hm, hu⟩ := newV
  obtain ⟨d1, h1⟩ := (C112_possible_iff (n := 63) hC (by omega)).2 (fitsV.2 (by simp))
  obtain ⟨w1, u1, ls1, _, hC1, hlen, hmo⟩ := committable_all (f := Faults.none) rfl hC h1
  obtain ⟨p1, hh1⟩ := hC1.head
  have hlen' : (u1 :: ls1).length = 66 := by simp [hlen]
  have hno : ¬ EV.Fits (u1 :: ls1).length := by rw [fitsV, hlen']; omega
  have hused : ∃ r d2, Exec EV Faults.none (commitCmd EV cw ci) d1 r d2 :=
    exec_total (commitCmd_draws EV cw ci) d1 (by have := commitsIn_used h1; omega)
  obtain ⟨r2, d2, he2⟩ := hused
  obtain ⟨e, rfl⟩ := C112_violated_full hC1.reach outV hC1.gets hh1 hC1.path hno he2
  obtain ⟨w2, m, d3, k1, _, ⟨n, k3, k4⟩, _, _, k5, _, k6⟩ := C112_violated_written hC1.reach (f := Faults.none) rfl rfl outV hC1.gets (hmo hm) hh1 hC1.may hC1.path hno (by omega) he2 one
  have := (C112_violated_always hC1.reach (f := Faults.none) rfl outV hC1.gets hh1 hC1.path hno (by omega) (.commit .none he2)).2
  exact ⟨d, d1, d2, r, e, w2, he, h1, he2, k1, this, d3, u1, n, k3, by rw [k4]; decide, k5, k6⟩

/-- `C112_violated_lost`: after the commit that failed, its files cannot be checked out. -/
example : ∃ d2 w2 v, Reachable EV d2 ∧ Gets EV d2 cw (lit ".") w2 ∧ w2.tree.abs.Has v ∧ (∃ n, w2.tree.abs.node v = some n ∧ n.anno (lit "commit-message") = some (lit "first")) ∧
    ∀ x d3, ¬ Exec EV Faults.none (checkoutCmd EV cw v.hex) d2 (.ok x) d3 := by
  obtain ⟨d, w, u, root, r, he, hC, hm, hu⟩ := newV
  obtain ⟨d1, h1⟩ := (C112_possible_iff (n := 63) hC (by omega)).2 (fitsV.2 (by simp))
  obtain ⟨w1, u1, ls1, _, hC1, hlen, hmo⟩ := committable_all (f := Faults.none) rfl hC h1
  obtain ⟨p1, hh1⟩ := hC1.head
  have hlen' : (u1 :: ls1).length = 66 := by simp [hlen]
  have hno : ¬ EV.Fits (u1 :: ls1).length := by rw [fitsV, hlen']; omega
  obtain ⟨r2, d2, he2⟩ := exec_total (E := EV) (f := Faults.none) (commitCmd_draws EV cw ci) d1 (by have := commitsIn_used h1; omega)
  obtain ⟨w2, k1, _, _, k4, k5, _, _, _, k9⟩ := C112_violated_left hC1.reach rfl outV hC1.gets hh1 hC1.path hno (by omega) he2
  obtain ⟨_, k10⟩ := k9 hC1.may
  obtain ⟨u', hE⟩ := k10 rfl
  obtain ⟨_, n', _, e1, _, _, _, e2, _⟩ := hE.commit
  have hr2 := reachable_next hC1.reach (f := Faults.none) rfl (a := .commit cw ci) outV (.commit he2)
  refine ⟨d2, w2, u1, hr2, k1, ⟨n', e1⟩, ⟨n', e1, by rw [e2]; decide⟩, fun x d3 => ?_⟩
  exact (C112_violated_lost hr2 outV k1 k5 hno (f2 := Faults.none) rfl .refl outV k1 rfl k4 (.id (hex_ne_head u1) (hex_spells u1) ⟨n', e1⟩) x).2

end Story
end Verif
