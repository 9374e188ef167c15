import Verif.Props.AgainExamples
import Verif.Props.Twice
/-!
# Concrete cases for `Verif.Props.Twice`
-/
set_option autoImplicit false
namespace Verif
open M TS Json Story
namespace Story

/-- `C114_refused`: `tag v1 HEAD` twice in `/w`. -/
example : ∃ d w d1 s x, Calmly E0 d ∧ Gets E0 d cw (lit ".") w ∧ Exec E0 Faults.none (editCmd E0 cw [.addTag (lit "v1") (lit "HEAD") false]) d (.ok s) d1 ∧
    Exec E0 Faults.none (editCmd E0 cw [.addTag (lit "v1") (lit "HEAD") false]) d1 (.err x) d1 := by
  obtain ⟨d, w, u, root, d1, s, hB, he⟩ := tagged
  have hu := hB.used
  have hd1 : d1.used = d.used := by
    obtain ⟨g, hs⟩ := steady_reachable hB.live.past.reachable
    obtain ⟨T, hF⟩ := gets_found hs outw hB.live.gets hB.live.opens.head
    obtain ⟨_, _, _, b, _, rfl, _⟩ := after_edit hs (List.cons_ne_nil _ _) hF he
    rfl
  obtain ⟨r, d2, he2⟩ := exec_total (E := E0) (f := Faults.none) (editCmd_draws E0 cw [.addTag (lit "v1") (lit "HEAD") false]) d1 (by rw [hd1]; omega)
  obtain ⟨⟨x, rfl⟩, rfl⟩ := C114_refused hB.live.past.reachable (f := Faults.none) rfl outw hB.live.gets (e := .addTag (lit "v1") (lit "HEAD") false) (valid_ascii (by decide))
    (by simp [Edit.Forced]) he he2
  exact ⟨d, w, d2, s, x, hB.live.past, hB.live.gets, he, he2⟩

/-- `C114_forced`, `C113_forced_repeated`: `branch -f x HEAD` twice in `/w`, and once after it was killed at its end. -/
example : ∃ d w d1 d2 s s2 w1 w2 root, Calmly E0 d ∧ Gets E0 d cw (lit ".") w ∧ Exec E0 Faults.none (editCmd E0 cw [.addBranch (lit "x") (lit "HEAD") true]) d (.ok s) d1 ∧
    Exec E0 Faults.none (editCmd E0 cw [.addBranch (lit "x") (lit "HEAD") true]) d1 (.ok s2) d2 ∧ Gets E0 d1 cw (lit ".") w1 ∧ Gets E0 d2 cw (lit ".") w2 ∧
    w1.tree.abs = w.tree.abs.setBranch (w.ws.id.base32 ++ lit "/" ++ lit "x") root ∧ w2.tree.abs = w1.tree.abs := by
  obtain ⟨d, w, u, root, hB⟩ := begun
  have hu := hB.used
  let e : Edit := .addBranch (lit "x") (lit "HEAD") true
  have h8 : e.Utf8 := valid_ascii (s := lit "x") (by decide)
  have hpl : e.Plain := plainHEAD
  have hE : Edits w.tree.abs w.ws root e (w.tree.abs.setBranch (w.ws.id.base32 ++ lit "/" ++ lit "x") root) := .addBranch .head (Or.inr rfl)
  obtain ⟨r, d1, he⟩ := exec_total (E := E0) (f := Faults.none) (editCmd_draws E0 cw [e]) d (by omega)
  obtain ⟨s, rfl⟩ := (C24_accepted_iff hB.live.past.reachable outw hB.live.gets hB.live.opens.head rfl hpl he).2 ⟨_, hE⟩
  have hd1 : d1.used = d.used := by
    obtain ⟨g, hs⟩ := steady_reachable hB.live.past.reachable
    obtain ⟨T, hF⟩ := gets_found hs outw hB.live.gets hB.live.opens.head
    obtain ⟨_, _, _, b, _, rfl, _⟩ := after_edit hs (List.cons_ne_nil _ _) hF he
    rfl
  obtain ⟨r2, d2, he2⟩ := exec_total (E := E0) (f := Faults.none) (editCmd_draws E0 cw [e]) d1 (by rw [hd1]; omega)
  obtain ⟨⟨s2, rfl⟩, w1, w2, g1, g2, _, k, _⟩ := C114_forced hB.live.past.reachable (f := Faults.none) rfl outw hB.live.gets h8 rfl he he2
  obtain ⟨_, w3, g3, _, _, k3⟩ := C113_forced_repeated hB.live.past.legacy (f := Faults.none) rfl outw hB.live.gets hB.live.opens.head hpl h8 rfl hE (exec_stops he) g1 he2
  have hr1 : Reachable E0 d1 := reachable_next hB.live.past.reachable rfl (a := .edit cw [e]) outw (.edit he)
  have hr2 : Reachable E0 d2 := reachable_next hr1 rfl (a := .edit cw [e]) outw (.edit he2)
  obtain rfl := gets_unique hr2 outw g2 g3
  exact ⟨d, w, d1, d2, s, s2, w1, w2, root, hB.live.past, hB.live.gets, he, he2, g1, g2, k.symm.trans k3, k⟩

end Story
end Verif
