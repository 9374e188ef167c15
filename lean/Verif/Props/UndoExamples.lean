import Verif.Props.MoreExamples
import Verif.Props.Undo
/-!
# Concrete cases for `Verif.Props.Undo`
-/
set_option autoImplicit false
namespace Verif
open M TS Json Story
namespace Story

theorem edit_used {d d1 : Disk} {w : OpenWs} {u p : UID} {ls : List UID} (hL : Live E0 d cw w u p ls) {e : Edit} {s : TS} (he : Exec E0 Faults.none (editCmd E0 cw [e]) d (.ok s) d1) :
    d1.used = d.used := by
  obtain ⟨g, hs⟩ := steady_reachable hL.past.reachable
  obtain ⟨T, hF⟩ := gets_found hs outw hL.gets hL.opens.head
  obtain ⟨_, _, _, b, _, rfl, _⟩ := after_edit hs (List.cons_ne_nil _ _) hF he
  rfl

/-- `C115_tag_deleted`: `tag v1 HEAD` and `tag -d v1` in `/w`. -/
example : ∃ d w d1 d2 s s2 w2, Calmly E0 d ∧ Gets E0 d cw (lit ".") w ∧ Exec E0 Faults.none (editCmd E0 cw [.addTag (lit "v1") (lit "HEAD") false]) d (.ok s) d1 ∧
    Exec E0 Faults.none (editCmd E0 cw [.deleteTag (lit "v1")]) d1 (.ok s2) d2 ∧ Gets E0 d2 cw (lit ".") w2 ∧ w2.tree.abs = w.tree.abs := by
  obtain ⟨d, w, u, root, d1, s, hB, he⟩ := tagged
  have hu := hB.used
  have hno : w.tree.abs.tag (lit "v1") = none := by
    cases h : w.tree.abs.tag (lit "v1") with
    | none => rfl
    | some v => exact absurd ((hB.new.tags _ _).1 h).1 (by decide)
  obtain ⟨r, d2, he2⟩ := exec_total (E := E0) (f := Faults.none) (editCmd_draws E0 cw [.deleteTag (lit "v1")]) d1 (by rw [edit_used hB.live he]; omega)
  obtain ⟨⟨s2, rfl⟩, w2, g2, _, _, k, _⟩ := C115_tag_deleted hB.live.past.reachable (f := Faults.none) rfl outw hB.live.gets hB.live.opens.head (valid_ascii (by decide)) hno he he2
  exact ⟨d, w, d1, d2, s, s2, w2, hB.live.past, hB.live.gets, he, he2, g2, k⟩

/-- `C115_tag_restored`: `tag -d ROOT` in `/w`, and `tag ROOT` with the ID of the first layer. -/
example : ∃ d w d1 d2 s s2 w2 root, Calmly E0 d ∧ Gets E0 d cw (lit ".") w ∧ Exec E0 Faults.none (editCmd E0 cw [.deleteTag (lit "ROOT")]) d (.ok s) d1 ∧
    Exec E0 Faults.none (editCmd E0 cw [.addTag (lit "ROOT") (UID.hex root) false]) d1 (.ok s2) d2 ∧ Gets E0 d2 cw (lit ".") w2 ∧ w2.tree.abs = w.tree.abs := by
  obtain ⟨d, w, u, root, hB⟩ := begun
  have hu := hB.used
  have hv : w.tree.abs.tag (lit "ROOT") = some root := (hB.new.tags _ _).2 ⟨rfl, rfl⟩
  obtain ⟨r, d1, he⟩ := exec_total (E := E0) (f := Faults.none) (editCmd_draws E0 cw [.deleteTag (lit "ROOT")]) d (by omega)
  obtain ⟨s, rfl⟩ := (C24_accepted_iff hB.live.past.reachable outw hB.live.gets hB.live.opens.head rfl (e := .deleteTag (lit "ROOT")) trivial he).2 ⟨_, .deleteTag (by rw [hv]; exact nofun)⟩
  obtain ⟨r2, d2, he2⟩ := exec_total (E := E0) (f := Faults.none) (editCmd_draws E0 cw [.addTag (lit "ROOT") root.hex false]) d1 (by rw [edit_used hB.live he]; omega)
  obtain ⟨⟨s2, rfl⟩, w2, g2, _, _, k, _⟩ := C115_tag_restored hB.live.past.reachable (f := Faults.none) rfl outw hB.live.gets hB.live.opens.head hv he he2
  exact ⟨d, w, d1, d2, s, s2, w2, root, hB.live.past, hB.live.gets, he, he2, g2, k⟩

/-- `C115_branch_deleted`: `branch x HEAD` and `branch -d x` in `/w`; `C115_branch_restored`: then, from where the branch is there, `branch -d x` and `branch x` with the ID. -/
example : ∃ d w d1 d2 d3 s s2 s3 w1 w2 w3 root, Calmly E0 d ∧ Gets E0 d cw (lit ".") w ∧ Exec E0 Faults.none (editCmd E0 cw [.addBranch (lit "x") (lit "HEAD") false]) d (.ok s) d1 ∧
    Gets E0 d1 cw (lit ".") w1 ∧ Exec E0 Faults.none (editCmd E0 cw [.deleteBranch (lit "x") false]) d1 (.ok s2) d2 ∧ Gets E0 d2 cw (lit ".") w2 ∧ w2.tree.abs = w.tree.abs ∧
    Exec E0 Faults.none (editCmd E0 cw [.addBranch (lit "x") (UID.hex root) false]) d2 (.ok s3) d3 ∧ Gets E0 d3 cw (lit ".") w3 ∧ w3.tree.abs = w1.tree.abs := by
  obtain ⟨d, w, u, root, hB⟩ := begun
  have hu := hB.used
  have hr := hB.live.past.reachable
  have hbr : w.ws.branch ≠ lit "x" := by rw [hB.branch]; decide
  have hno : w.tree.abs.branch (w.ws.id.base32 ++ lit "/" ++ lit "x") = none := by
    cases h : w.tree.abs.branch (w.ws.id.base32 ++ lit "/" ++ lit "x") with
    | none => rfl
    | some v => exact absurd (List.append_cancel_left ((hB.new.branches _ _).1 h).1) (by decide)
  have h8 : validUtf8 (lit "x") := valid_ascii (by decide)
  obtain ⟨r, d1, he⟩ := exec_total (E := E0) (f := Faults.none) (editCmd_draws E0 cw [.addBranch (lit "x") (lit "HEAD") false]) d (by omega)
  have hE : Edits w.tree.abs w.ws root (.addBranch (lit "x") (lit "HEAD") false) _ := .addBranch .head (Or.inl hno)
  obtain ⟨s, rfl⟩ := (C24_accepted_iff hr outw hB.live.gets hB.live.opens.head rfl (e := .addBranch (lit "x") (lit "HEAD") false) plainHEAD he).2 ⟨_, hE⟩
  obtain ⟨w1, g1, k1, k2, k3, _⟩ := edit_effect hr outw hB.live.gets hB.live.opens.head (e := .addBranch (lit "x") (lit "HEAD") false) h8 he
  have hr1 : Reachable E0 d1 := reachable_next hr rfl (a := .edit cw [.addBranch (lit "x") (lit "HEAD") false]) outw (.edit he)
  obtain ⟨r2, d2, he2⟩ := exec_total (E := E0) (f := Faults.none) (editCmd_draws E0 cw [.deleteBranch (lit "x") false]) d1 (by rw [edit_used hB.live he]; omega)
  obtain ⟨⟨s2, rfl⟩, w2, g2, _, _, k4, _⟩ := C115_branch_deleted hr (f := Faults.none) rfl outw hB.live.gets hB.live.opens.head h8 hno (Ne.symm hbr) he he2
  have hu2 : d2.used = d1.used := by
    obtain ⟨g, hs⟩ := steady_reachable hr1
    obtain ⟨T, hF⟩ := gets_found hs outw g1 k2
    obtain ⟨_, _, _, b, _, rfl, _⟩ := after_edit hs (List.cons_ne_nil _ _) hF he2
    rfl
  obtain ⟨r3, d3, he3⟩ := exec_total (E := E0) (f := Faults.none) (editCmd_draws E0 cw [.addBranch (lit "x") root.hex false]) d2 (by rw [hu2, edit_used hB.live he]; omega)
  have hv : w1.tree.abs.branch (w1.ws.id.base32 ++ lit "/" ++ lit "x") = some root := by
    rw [k1.1, edits_unique hE k3]
    simp only [ATree.setBranch, upd_self]
  obtain ⟨⟨s3, rfl⟩, w3, g3, _, _, k5, _⟩ := C115_branch_restored hr1 (f := Faults.none) rfl outw g1 k2 hv he2 he3
  exact ⟨d, w, d1, d2, d3, s, s2, s3, w1, w2, w3, root, hB.live.past, hB.live.gets, he, g1, he2, g2, k4, he3, g3, k5⟩

end Story
end Verif
