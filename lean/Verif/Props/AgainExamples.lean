import Verif.Props.AgainEdit
import Verif.Props.AgainNew
import Verif.Props.MoreExamples
import Verif.Props.LaterExamples
/-!
# Concrete cases for `Verif.Props.Again`
-/
set_option autoImplicit false
namespace Verif
open M TS Json Story
namespace Story

theorem kept_mounts {d : Disk} (h : Reachable E0 d) : ∀ n b i, d.info n = some b → unmarshalInfo b = some i → d.mdir n ≠ none := by
  obtain ⟨g, hg⟩ := steady_reachable h
  intro n b i hb hi
  rcases hg.info n b hb with e | ⟨r, _, hr⟩
  · rw [hi] at e; cases e
  · exact hr.mdir

/-- `C113_repeated`, `C113_violated_gone`, where the first attempt counts: the commit `first` in `/w` has done everything, and is repeated. -/
example : ∃ d d1 d2 w w2 u root u2 q x, Gets E0 d cw (lit ".") w ∧ Stops E0 Faults.none (commitCmd E0 cw ci) d d1 ∧ Exec E0 Faults.none (commitCmd E0 cw ci) d1 (.ok x) d2 ∧
    Gets E0 d2 cw (lit ".") w2 ∧ w2.ws.HeadAt w2.tree u2 q ∧ TwiceEffect w.tree.abs w.ws u root q ci ci w2.tree.abs ∧ d2.lists w2 = d.lists w ∧
    ∃ dg, Stops E0 Faults.none (commitCmd E0 cw ci) d dg ∧ ∀ ci' r' d2, Exec E0 Faults.none (commitCmd E0 cw ci') dg r' d2 → (∀ x, r' ≠ .ok x) ∧ d2 = dg := by
  obtain ⟨d, w, u, root, d1, w1, u1, hB, hS⟩ := Story.second
  have hu := hB.used
  obtain ⟨r0, he0⟩ := hS.run
  have hused := exec_used (commitCmd_draws E0 cw ci) he0
  obtain ⟨r, d2, he⟩ := exec_total (E := E0) (f := Faults.none) (commitCmd_draws E0 cw ci) d1 (by omega)
  obtain ⟨h1, w2, u2, q, k1, _, k3, _, k5, k6⟩ := C113_repeated hB.live.past.legacy (f := Faults.none) rfl outw hB.live.gets hB.live.opens.head hB.may hB.live.full (fits (by simp))
    (exec_stops he0) (kept_mounts hS.live.past.reachable) (s := w1.tree) (by
      obtain ⟨w', _, a1, a2, _⟩ := C27_commit_effect hB.live.past.reachable outw hB.live.gets hB.live.opens.head he0
      obtain rfl := gets_unique hS.live.past.reachable outw a1 hS.live.gets
      have h1 := (gets_reads outw a1).2.2
      rw [hB.live.opens.dir, ← a2.2.2, ← hS.live.opens.dir]; exact h1) hS.live.gets hS.live.clearable he
  obtain ⟨x, rfl⟩ := h1
  exact ⟨d, d1, d2, w, w2, u, root, u2, q, x, hB.live.gets, exec_stops he0, he, k1, k3, k5, k6 hB.live.mounted rfl rfl,
    C113_violated_gone hB.live.past.reachable outw hB.live.gets hB.live.opens.head he0⟩

/-- `C113_repeated`, where the repetition makes the commit, and `C113_violated_extra`: the first commit of `/w` is killed after its history has been saved. -/
example : ∃ d d1 d2 w w2 u u1 u2 x, Gets E0 d cw (lit ".") w ∧ Stops E0 Faults.none (commitCmd E0 cw ci) d d1 ∧ Exec E0 Faults.none (commitCmd E0 cw ci) d1 (.ok x) d2 ∧
    Gets E0 d2 cw (lit ".") w2 ∧ w2.ws.HeadAt w2.tree u2 u ∧ u2 ≠ u1 ∧ w2.tree.abs.node u1 = some ⟨some u, fun _ => none, fun _ => none⟩ := by
  obtain ⟨d, w, u, root, hB⟩ := begun
  have hu := hB.used
  obtain ⟨d1, u1, h1, _, ⟨r, d2, he⟩, h3⟩ := C113_violated_extra hB.live.past.legacy outw hB.live.gets hB.live.mounted hB.live.opens.head hB.may
    hB.live.full (fits (by simp)) hB.live.clearable (by omega) ci
  obtain ⟨⟨x, rfl⟩, w2, u2, k1, k2, k3, k4⟩ := h3 r d2 he
  exact ⟨d, d1, d2, w, w2, u, u1, u2, x, hB.live.gets, h1, he, k1, k2, k3, k4⟩

/-- `C113_checkout_repeated`: `checkout HEAD` in `/w`, killed at its end, and repeated. -/
example : ∃ d d1 d2 w w2 u2 root x, Gets E0 d cw (lit ".") w ∧ Stops E0 Faults.none (checkoutCmd E0 cw (lit "HEAD")) d d1 ∧
    Exec E0 Faults.none (checkoutCmd E0 cw (lit "HEAD")) d1 (.ok x) d2 ∧ Gets E0 d2 cw (lit ".") w2 ∧ w2.ws.HeadAt w2.tree u2 root ∧ d2.lists w2 = files ([root].map d.content) := by
  obtain ⟨d, w, u, root, hB⟩ := begun
  have hu := hB.used
  obtain ⟨d1, r1, w1, u1, he1, hL, hu1, _, hsp, _⟩ := live_checkout neat plainHEAD hB.live .head hB.live.path (fits (by simp)) (by omega)
  obtain ⟨r, d2, he⟩ := exec_total (E := E0) (f := Faults.none) (checkoutCmd_draws E0 cw (lit "HEAD")) d1 (by omega)
  obtain ⟨⟨x, rfl⟩, w2, u2, k1, _, _, _, k5, _, _, k8, _⟩ := C113_checkout_repeated hB.live.past.legacy (f := Faults.none) rfl plainHEAD outw hB.live.gets hB.live.opens.head
    (fun v hv => by rcases hv with ⟨h, _⟩ | ⟨h, _⟩ <;> exact absurd h (by decide)) .head hB.live.path (fits (by simp)) (exec_stops he1) (kept_mounts hL.past.reachable) (s := w1.tree)
    (by rw [hB.live.opens.dir, ← hsp, ← hL.opens.dir]; exact (gets_reads outw hL.gets).2.2) hL.gets hL.clearable he
  exact ⟨d, d1, d2, w, w2, u2, root, x, hB.live.gets, exec_stops he1, he, k1, k5, k8 rfl rfl⟩

/-- `C113_init_repeated`, `C113_clone_repeated`: an `init` at `/v` and a clone of `/w` to `/v` that are killed at once, and repeated. -/
example : ∃ d w, Gets E0 d cw (lit ".") w ∧ Stops E0 Faults.none (initCmd E0 (Path.abs cv (lit ".")) (lit "main")) d d ∧
    Stops E0 Faults.none (cloneCmd E0 cw (lit ".") (Path.abs cv (lit "."))) d d ∧
    (∃ r d2 w2, Exec E0 Faults.none (initCmd E0 (Path.abs cv (lit ".")) (lit "main")) d (.ok r) d2 ∧ Gets E0 d2 cv (lit ".") w2) ∧
    ∃ r d2 w2, Exec E0 Faults.none (cloneCmd E0 cw (lit ".") (Path.abs cv (lit "."))) d (.ok r) d2 ∧ Gets E0 d2 cv (lit ".") w2 ∧ w2.spaceID = w.spaceID := by
  obtain ⟨d, w, u, root, hB⟩ := begun
  have hu := hB.used
  have hno := hB.free _ vw
  have s1 : Stops E0 Faults.none (initCmd E0 (Path.abs cv (lit ".")) (lit "main")) d d := .here _ _
  have s2 : Stops E0 Faults.none (cloneCmd E0 cw (lit ".") (Path.abs cv (lit "."))) d d := .here _ _
  have hm := kept_mounts hB.live.past.reachable
  have hcl := gap_closed outv hno
  refine ⟨d, w, hB.live.gets, s1, s2, ?_, ?_⟩
  · obtain ⟨r, d2, he⟩ := exec_total (E := E0) (f := Faults.none) (initCmd_draws E0 (Path.abs cv (lit ".")) (lit "main")) d (by omega)
    rcases C113_init_repeated hB.live.past.legacy (f := Faults.none) rfl outv (Or.inl hno) (fits (by decide)) s1 hm with ⟨w1, _, _, h, _⟩ | h
    · exact absurd h (hcl w1)
    · obtain ⟨⟨x, rfl⟩, w2, _, _, k, _⟩ := h r d2 he
      exact ⟨x, d2, w2, he, k⟩
  · obtain ⟨r, d2, he⟩ := exec_total (E := E0) (f := Faults.none) (cloneCmd_draws E0 cw (lit ".") (Path.abs cv (lit "."))) d (by omega)
    rcases (C113_clone_repeated hB.live.past.legacy (f := Faults.none) rfl outw hB.live.gets hB.live.opens.head outv (Ne.symm vw) (Or.inl hno) hB.live.path (fits (by simp)) s2 hm hB.live.gets).2 with ⟨w1, _, h, _⟩ | h
    · exact absurd h (hcl w1)
    · obtain ⟨⟨x, rfl⟩, w2, _, k, _, k2, _⟩ := h r d2 he
      exact ⟨x, d2, w2, he, k, k2⟩

/-- `C113_edit_repeated`: `tag v1 HEAD` in `/w`, killed at its start and repeated, and killed at its end. -/
example : ∃ d d' w w1 w2 root x d2, Gets E0 d cw (lit ".") w ∧ Stops E0 Faults.none (editCmd E0 cw [.addTag (lit "v1") (lit "HEAD") false]) d d ∧
    Exec E0 Faults.none (editCmd E0 cw [.addTag (lit "v1") (lit "HEAD") false]) d (.ok x) d2 ∧ Gets E0 d2 cw (lit ".") w2 ∧ w2.tree.abs = w.tree.abs.setTag (lit "v1") root ∧
    Stops E0 Faults.none (editCmd E0 cw [.addTag (lit "v1") (lit "HEAD") false]) d d' ∧ Gets E0 d' cw (lit ".") w1 ∧ w1.tree.abs = w.tree.abs.setTag (lit "v1") root := by
  obtain ⟨d, w, u, root, d', s, hB, he⟩ := tagged
  have hno : w.tree.abs.tag (lit "v1") = none := by
    cases h : w.tree.abs.tag (lit "v1") with
    | none => rfl
    | some v => exact absurd ((hB.new.tags _ _).1 h).1 (by decide)
  have hE : Edits w.tree.abs w.ws root (.addTag (lit "v1") (lit "HEAD") false) (w.tree.abs.setTag (lit "v1") root) := .addTag .head (Or.inl hno)
  have s1 : Stops E0 Faults.none (editCmd E0 cw [.addTag (lit "v1") (lit "HEAD") false]) d d := .here _ _
  have h8 : (Edit.addTag (lit "v1") (lit "HEAD") false).Utf8 := valid_ascii (by decide)
  obtain ⟨w1, g1, _, _, k1, _⟩ := edit_effect hB.live.past.reachable outw hB.live.gets hB.live.opens.head h8 he
  obtain ⟨_, _, _, hx⟩ := C113_edit_repeated hB.live.past.legacy (f := Faults.none) rfl outw hB.live.gets hB.live.opens.head (e := .addTag (lit "v1") (lit "HEAD") false) plainHEAD h8 hE s1 hB.live.gets
  rcases hx with hx | ⟨_, hx⟩
  · have : (w.tree.abs.setTag (lit "v1") root).tag (lit "v1") = some root := by simp only [ATree.setTag, upd_self]
    rw [← hx, hno] at this; cases this
  · obtain ⟨⟨x, _⟩, w2, g2, _, _, k2, _⟩ := hx _ _ he
    exact ⟨d, d', w, w1, w2, root, s, d', hB.live.gets, s1, he, g2, k2, exec_stops he, g1, edits_unique hE k1⟩

end Story
end Verif
