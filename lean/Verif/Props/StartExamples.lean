import Verif.Props.HandOverExamples
import Verif.Props.Start
/-!
# Concrete cases for `Verif.Props.Start`
-/
set_option autoImplicit false
namespace Verif
open M TS Json Story
namespace Story

/-- `C121_start`, `C121_id`: `init /w`, the file `f` is written and committed; `checkout ID` with the ID of the first layer. -/
example : ∃ d1 d2 d3 w v x y root v3, Exec E0 Faults.none (initCmd E0 (Path.abs cw (lit ".")) (lit "main")) disk0 (.ok x) d1 ∧ Gets E0 d1 cw (lit ".") w ∧ w.tree.abs.root = some root ∧
    Past E0 Faults.none d1 d2 ∧ Gets E0 d2 cw (lit ".") v ∧ Exec E0 Faults.none (checkoutCmd E0 cw (UID.hex root)) d2 (.ok y) d3 ∧ Gets E0 d3 cw (lit ".") v3 ∧ ∀ l, d3.lists v3 l = none := by
  obtain ⟨d1, x, w, u, root, he, hL, hus, hb, hN, hfr, hhd⟩ := live_init (E := E0) (d := disk0) ⟨disk0, untouched0, .refl⟩ (cwd := cw) (branch := lit "main") outw rfl (fits (by decide)) (by decide)
  have hus : d1.used.length ≤ 5 := hus
  obtain ⟨hL2, hu2, hc2⟩ := live_write hL one
  have hul : (d1.put u one).used.length = d1.used.length := by rw [hu2]
  have hmay : MayCommit w u := by
    refine Or.inr ⟨root, ?_, .step hN.work rfl (.refl hN.first)⟩
    rw [hb]
    exact (hN.branches _ _).2 ⟨rfl, rfl⟩
  obtain ⟨d2, z, v, u1, he1, hLv, hus1, hs1, _⟩ := live_commit neat hL2 hmay (fits (by simp)) (by omega) ci
  have hp : Past E0 Faults.none d1 d2 := .step (a := .commit cw ci) (.step (o := 0) (a := .write w.mount.id.base32 one) .refl trivial (.write (m := ⟨u, [root]⟩) hL.mnt)) outw (.commit he1)
  obtain ⟨r, d3, he2⟩ := exec_total (E := E0) (f := Faults.none) (checkoutCmd_draws E0 cw (UID.hex root)) d2 (by omega)
  obtain ⟨⟨y, rfl⟩, v3, u3, g3, _, _, _, hl⟩ := C121_id (f := Faults.none) (Calmly.reachable ⟨disk0, untouched0, .refl⟩) outw he hL.gets hN.start rfl hp outw hLv.gets hs1.2.2
    ⟨_, _, _, by rw [hLv.opens.path]; exact hLv.link, hLv.mdir, rfl⟩ (fits (by decide)) he2
  exact ⟨d1, d2, d3, w, v, x, y, root, v3, he, hL.gets, hN.start, hp, hLv.gets, he2, g3, hl⟩

/-- `C121_name`: the same with `checkout ROOT`. -/
example : ∃ d1 d2 d3 w v x y root v3, Exec E0 Faults.none (initCmd E0 (Path.abs cw (lit ".")) (lit "main")) disk0 (.ok x) d1 ∧ Gets E0 d1 cw (lit ".") w ∧ w.tree.abs.root = some root ∧
    PastOf E0 Faults.none Act.SparesRoot d1 d2 ∧ Gets E0 d2 cw (lit ".") v ∧ Exec E0 Faults.none (checkoutCmd E0 cw (lit "ROOT")) d2 (.ok y) d3 ∧ Gets E0 d3 cw (lit ".") v3 ∧
    ∀ l, d3.lists v3 l = none := by
  obtain ⟨d1, x, w, u, root, he, hL, hus, hb, hN, hfr, hhd⟩ := live_init (E := E0) (d := disk0) ⟨disk0, untouched0, .refl⟩ (cwd := cw) (branch := lit "main") outw rfl (fits (by decide)) (by decide)
  have hus : d1.used.length ≤ 5 := hus
  obtain ⟨hL2, hu2, hc2⟩ := live_write hL one
  have hul : (d1.put u one).used.length = d1.used.length := by rw [hu2]
  have hmay : MayCommit w u := by
    refine Or.inr ⟨root, ?_, .step hN.work rfl (.refl hN.first)⟩
    rw [hb]
    exact (hN.branches _ _).2 ⟨rfl, rfl⟩
  obtain ⟨d2, z, v, u1, he1, hLv, hus1, hs1, _⟩ := live_commit neat hL2 hmay (fits (by simp)) (by omega) ci
  have hp : PastOf E0 Faults.none Act.SparesRoot d1 d2 :=
    .step (a := .commit cw ci) (.step (o := 0) (a := .write w.mount.id.base32 one) .refl trivial trivial (.write (m := ⟨u, [root]⟩) hL.mnt)) trivial outw (.commit he1)
  obtain ⟨r, d3, he2⟩ := exec_total (E := E0) (f := Faults.none) (checkoutCmd_draws E0 cw (lit "ROOT")) d2 (by omega)
  obtain ⟨⟨y, rfl⟩, v3, u3, g3, _, _, _, hl⟩ := C121_name untouched0 .refl outw he hL.gets hN.start hp outw hLv.gets hs1.2.2
    ⟨_, _, _, by rw [hLv.opens.path]; exact hLv.link, hLv.mdir, rfl⟩ (fits (by decide)) he2
  exact ⟨d1, d2, d3, w, v, x, y, root, v3, he, hL.gets, hN.start, hp, hLv.gets, he2, g3, hl⟩

end Story
end Verif
