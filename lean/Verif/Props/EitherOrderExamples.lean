import Verif.Props.AgainDeleteExamples
import Verif.Props.EitherOrder
/-!
# Concrete cases for `Verif.Props.EitherOrder`
-/
set_option autoImplicit false
namespace Verif
open M TS Json Story
namespace Story

theorem unrelated_ab (i j : UID) : Unrelated i (.addTag (lit "a") (lit "HEAD") true) j (.addTag (lit "b") (lit "HEAD") true) := by
  refine ⟨fun h => ?_, ?_, ?_⟩
  · exact absurd (NameSlot.tag.inj h) (by decide)
  · rintro (h | h | h | ⟨n, _, h⟩)
    · exact absurd (NameSlot.tag.inj h) (by decide)
    all_goals cases h
  · rintro (h | h | h | ⟨n, _, h⟩)
    · exact absurd (NameSlot.tag.inj h) (by decide)
    all_goals cases h

/-- `C117_either_order`: `tag -f a HEAD` in `/w` and `tag -f b HEAD` in its clone `/v`. Both are accepted, first or second. -/
example : ∃ d w v d1 d2 d3 d4 s1 s2 s3 s4 wa wb, Reachable E0 d ∧ Gets E0 d cw (lit ".") w ∧ Gets E0 d cv (lit ".") v ∧ v.spaceID = w.spaceID ∧
    Exec E0 Faults.none (editCmd E0 cw [.addTag (lit "a") (lit "HEAD") true]) d (.ok s1) d1 ∧ Exec E0 Faults.none (editCmd E0 cv [.addTag (lit "b") (lit "HEAD") true]) d1 (.ok s2) d2 ∧
    Exec E0 Faults.none (editCmd E0 cv [.addTag (lit "b") (lit "HEAD") true]) d (.ok s3) d3 ∧ Exec E0 Faults.none (editCmd E0 cw [.addTag (lit "a") (lit "HEAD") true]) d3 (.ok s4) d4 ∧
    Gets E0 d2 cw (lit ".") wa ∧ Gets E0 d4 cw (lit ".") wb ∧ wb.tree.abs = wa.tree.abs := by
  obtain ⟨_, _, p, root, _, _, u, d, w, v, u2, _, _, hT⟩ := third
  have hu := hT.used
  let e : Edit := .addTag (lit "a") (lit "HEAD") true
  let e' : Edit := .addTag (lit "b") (lit "HEAD") true
  have h8 : e.Utf8 := valid_ascii (s := lit "a") (by decide)
  have h8' : e'.Utf8 := valid_ascii (s := lit "b") (by decide)
  have hd := hT.live1.past.reachable
  obtain ⟨r1, d1, he1⟩ := exec_total (E := E0) (f := Faults.none) (editCmd_draws E0 cw [e]) d (by omega)
  obtain ⟨r3, d3, he3⟩ := exec_total (E := E0) (f := Faults.none) (editCmd_draws E0 cv [e']) d (by omega)
  have u1 := stops_used (editCmd_draws E0 cw [e]) (exec_stops he1)
  have u3 := stops_used (editCmd_draws E0 cv [e']) (exec_stops he3)
  obtain ⟨r2, d2, he2⟩ := exec_total (E := E0) (f := Faults.none) (editCmd_draws E0 cv [e']) d1 (by omega)
  obtain ⟨r4, d4, he4⟩ := exec_total (E := E0) (f := Faults.none) (editCmd_draws E0 cw [e]) d3 (by omega)
  obtain ⟨s1, rfl⟩ := (C24_accepted_iff hd outw hT.live1.gets hT.live1.opens.head rfl (e := e) plainHEAD he1).2 ⟨_, .addTag .head (Or.inr rfl)⟩
  obtain ⟨s3, rfl⟩ := (C24_accepted_iff hd outv hT.live2.gets hT.live2.opens.head rfl (e := e') plainHEAD he3).2 ⟨_, .addTag .head (Or.inr rfl)⟩
  obtain ⟨k1, k2, _, _, wa, va, wb, vb, g1, _, g2, _, _, _, _, _, _, _, _, _, heq, _⟩ := C117_either_order hd outw outv hT.live1.gets hT.live2.gets hT.space.symm hT.live1.opens.head
    hT.live2.opens.head (e := e) (e' := e') plainHEAD h8 plainHEAD h8' (unrelated_ab _ _) he1 he2 he3 he4
  obtain ⟨s4, rfl⟩ := k1.1 ⟨_, rfl⟩
  obtain ⟨s2, rfl⟩ := k2.2 ⟨_, rfl⟩
  exact ⟨d, w, v, d1, d2, d3, d4, s1, s2, s3, s4, wa, wb, hd, hT.live1.gets, hT.live2.gets, hT.space.symm, he1, he2, he3, he4, g1, g2, heq⟩

end Story
end Verif
