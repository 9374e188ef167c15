import Verif.Props.AgainDelete
import Verif.Props.TwiceExamples
/-!
# Concrete cases for `Verif.Props.AgainDelete`
-/
set_option autoImplicit false
namespace Verif
open M TS Json Story
namespace Story

/-- `C113_violated_delete`: `tag v1 HEAD`, `tag v2 HEAD` in `/w`; `tag -d v1 v2` is killed, and repeated. -/
example : ∃ d w d1 w1 x d2, Reachable E0 d ∧ Gets E0 d cw (lit ".") w ∧ w.tree.abs.tag (lit "v1") ≠ none ∧ w.tree.abs.tag (lit "v2") ≠ none ∧
    Stops E0 Faults.none (editCmd E0 cw [.deleteTag (lit "v1"), .deleteTag (lit "v2")]) d d1 ∧ Gets E0 d1 cw (lit ".") w1 ∧
    w1.tree.abs.tag (lit "v1") = none ∧ w1.tree.abs.tag (lit "v2") ≠ none ∧
    Exec E0 Faults.none (editCmd E0 cw [.deleteTag (lit "v1"), .deleteTag (lit "v2")]) d1 (.err x) d2 ∧ d2 = d1 := by
  obtain ⟨d, w, u, root, hB⟩ := begun
  have hu := hB.used
  let e1 : Edit := .addTag (lit "v1") (lit "HEAD") true
  let e2 : Edit := .addTag (lit "v2") (lit "HEAD") true
  obtain ⟨r, da, he⟩ := exec_total (E := E0) (f := Faults.none) (editCmd_draws E0 cw [e1]) d (by omega)
  obtain ⟨s, rfl⟩ := (C24_accepted_iff hB.live.past.reachable outw hB.live.gets hB.live.opens.head rfl (e := e1) plainHEAD he).2 ⟨_, .addTag .head (Or.inr rfl)⟩
  obtain ⟨wa, _, _, ga, _, ha, _, _, ta, _⟩ := C59_tag hB.live.past.reachable outw hB.live.gets hB.live.opens.head (valid_ascii (s := lit "v1") (by decide)) he
  have hra : Reachable E0 da := reachable_next hB.live.past.reachable rfl (a := .edit cw [e1]) outw (.edit he)
  have hua : da.used = d.used := by
    obtain ⟨g, hs⟩ := steady_reachable hB.live.past.reachable
    obtain ⟨T, hF⟩ := gets_found hs outw hB.live.gets hB.live.opens.head
    obtain ⟨_, _, _, b, _, rfl, _⟩ := after_edit hs (List.cons_ne_nil _ _) hF he
    rfl
  obtain ⟨r, db, he2⟩ := exec_total (E := E0) (f := Faults.none) (editCmd_draws E0 cw [e2]) da (by rw [hua]; omega)
  obtain ⟨s2, rfl⟩ := (C24_accepted_iff hra outw ga ha rfl (e := e2) plainHEAD he2).2 ⟨_, .addTag .head (Or.inr rfl)⟩
  obtain ⟨wb, _, _, gb, _, hb, _, _, tb, tr, _⟩ := C59_tag hra outw ga ha (valid_ascii (s := lit "v2") (by decide)) he2
  have hrb : Reachable E0 db := reachable_next hra rfl (a := .edit cw [e2]) outw (.edit he2)
  have hub : db.used = da.used := by
    obtain ⟨g, hs⟩ := steady_reachable hra
    obtain ⟨T, hF⟩ := gets_found hs outw ga ha
    obtain ⟨_, _, _, b, _, rfl, _⟩ := after_edit hs (List.cons_ne_nil _ _) hF he2
    rfl
  have t1 : wb.tree.abs.tag (lit "v1") ≠ none := by rw [tr _ (by decide), ta]; exact Option.some_ne_none _
  have t2 : wb.tree.abs.tag (lit "v2") ≠ none := by rw [tb]; exact Option.some_ne_none _
  obtain ⟨d1, w1, hst, g1, _, n1, k1, hrep⟩ := C113_violated_delete hrb outw gb (by rw [hub, hua]; omega) t1 [lit "v2"]
  obtain ⟨r, d2, hx⟩ := exec_total (E := E0) (f := Faults.none) (editCmd_draws E0 cw [.deleteTag (lit "v1"), .deleteTag (lit "v2")]) d1 (by
    have := stops_used (editCmd_draws E0 cw ([lit "v1", lit "v2"].map .deleteTag)) hst
    rw [hub, hua] at this
    omega)
  obtain ⟨⟨x, rfl⟩, rfl⟩ := hrep _ _ hx
  exact ⟨db, wb, d2, w1, x, d2, hrb, gb, t1, t2, hst, g1, n1, by rw [k1 _ (by decide)]; exact t2, hx, rfl⟩

end Story
end Verif
