import Verif.Props.AgainEdit
import Verif.Props.Frames
import Verif.World.Total
/-!
# Repeating `tag -d` with several names (C113)

`tag -d a b` saves the history after each name. Killed in between, it cannot be repeated: the first name is not there any more, the command is refused, and the other names stay.
-/
set_option autoImplicit false
namespace Verif
open M TS Json

section
variable {E : Env} {f : Faults}

/-- A list of changes can be killed after the first. -/
theorem edit_first_stops {d d1 : Disk} {cwd : Str} {e : Edit} {es : List Edit} {s : TS} (he : Exec E f (editCmd E cwd [e]) d (.ok s) d1) :
    Stops E f (editCmd E cwd (e :: es)) d d1 := by
  unfold editCmd at he ⊢
  obtain ⟨w, d2, h1, h2⟩ := exec_ok_inv he
  refine stops_trans h1 ?_
  unfold editAll at h2 ⊢
  obtain ⟨s1, d3, h3, h4⟩ := exec_ok_inv h2
  refine stops_trans h3 ?_
  obtain ⟨_, d4, h5, h6⟩ := exec_ok_inv h4
  refine stops_trans h5 ?_
  unfold editAll at h6
  cases h6
  exact .here _ _

/-- If the first change of a list is not allowed, the list is refused and nothing changes. -/
theorem edit_first_refused {d d2 : Disk} (hd : Reachable E d) (hio : f.io = false) {cwd : Str} (hout : E.Outside (Path.abs cwd (lit "."))) {w : OpenWs}
    (hg : Gets E d cwd (lit ".") w) {u p : UID} (hh : w.ws.HeadAt w.tree u p) {e : Edit} {es : List Edit} (hpl : ∀ x ∈ e :: es, x.Plain)
    (hno : ∀ c, ¬ Edits w.tree.abs w.ws p e c) {r : Res CErr TS} (he : Exec E f (editCmd E cwd (e :: es)) d r d2) : (∃ x, r = .err x) ∧ d2 = d := by
  obtain ⟨g, hs⟩ := steady_reachable hd
  obtain ⟨T, hF⟩ := gets_found hs hout hg hh
  have hw := wpm_exec (editCmd_wp (f := f) hF.opens hpl) he
  cases r with
  | ok s =>
    obtain ⟨_, h, _⟩ := hw
    cases h with
    | cons h1 _ => exact absurd h1 (hno _)
  | err x =>
    refine ⟨⟨x, rfl⟩, ?_⟩
    rcases hw with ⟨es1, e1, b, hpre, hE, _, h | ⟨h, _⟩, _⟩ | ⟨_, h⟩
    · exact h.2
    · cases es1 with
      | nil => exact absurd rfl h
      | cons y t =>
        obtain ⟨t', ht⟩ := hpre
        simp only [List.cons_append, List.cons.injEq] at ht
        rw [ht.1] at hE
        cases hE with
        | cons h1 _ => exact absurd h1 (hno _)
    · rw [hio] at h; cases h
  | panic => exact hw.elim
  | diverge => exact hw.elim

/-- **C113 does not hold** for `tag -d` with several names. It can be killed so that every repetition is refused, and only the first tag is gone. -/
theorem C113_violated_delete {d : Disk} (hd : Reachable E d) {cwd : Str} (hout : E.Outside (Path.abs cwd (lit "."))) {w : OpenWs} (hg : Gets E d cwd (lit ".") w)
    (hused : d.used.length < 2 ^ 128) {t : Str} (ht : w.tree.abs.tag t ≠ none) (ts : List Str) :
    ∃ d1 w1, Stops E Faults.none (editCmd E cwd ((t :: ts).map .deleteTag)) d d1 ∧ Gets E d1 cwd (lit ".") w1 ∧ SameWs w w1 ∧ w1.tree.abs.tag t = none ∧
      (∀ x, x ≠ t → w1.tree.abs.tag x = w.tree.abs.tag x) ∧
      ∀ r d2, Exec E Faults.none (editCmd E cwd ((t :: ts).map .deleteTag)) d1 r d2 → (∃ e, r = .err e) ∧ d2 = d1 := by
  obtain ⟨g, hs⟩ := steady_reachable hd
  obtain ⟨u, p, T, hF⟩ := found_of_gets hs hout hg
  have hh := hF.opens.head
  obtain ⟨r, d1, he⟩ := exec_total (E := E) (f := Faults.none) (editCmd_draws E cwd [.deleteTag t]) d (by omega)
  obtain ⟨s, rfl⟩ := (C24_accepted_iff hd hout hg hh rfl (e := .deleteTag t) trivial he).2 ⟨_, .deleteTag ht⟩
  obtain ⟨w1, a1, a2, a3, a4, _⟩ := edit_effect hd hout hg hh (e := .deleteTag t) trivial he
  have hr1 : Reachable E d1 := reachable_next hd rfl (a := .edit cwd [.deleteTag t]) hout (.edit he)
  have htr := edits_unique (.deleteTag ht) a4
  have hgone : w1.tree.abs.tag t = none := by rw [htr]; simp only [ATree.delTag, upd_self]
  refine ⟨d1, w1, edit_first_stops he, a1, a2, hgone, fun x hx => ?_, fun r d2 he2 => ?_⟩
  · rw [htr]; simp only [ATree.delTag]; exact upd_ne _ _ hx
  · refine edit_first_refused hr1 rfl hout a1 a3 (e := .deleteTag t) (es := ts.map .deleteTag) (fun x hx => ?_) (fun c hc => ?_) he2
    · have : x ∈ (t :: ts).map Edit.deleteTag := hx
      obtain ⟨y, _, rfl⟩ := List.mem_map.1 this
      exact trivial
    · cases hc with
      | deleteTag h => exact h hgone

/-- **C113 does not hold** for `branch -d` with several names either. -/
theorem C113_violated_delete_branches {d : Disk} (hd : Reachable E d) {cwd : Str} (hout : E.Outside (Path.abs cwd (lit "."))) {w : OpenWs} (hg : Gets E d cwd (lit ".") w)
    (hused : d.used.length < 2 ^ 128) {b : Str} (hb : w.tree.abs.branch (w.ws.id.base32 ++ lit "/" ++ b) ≠ none) (hcur : b ≠ w.ws.branch) (bs : List Str) :
    ∃ d1 w1, Stops E Faults.none (editCmd E cwd ((b :: bs).map (.deleteBranch · false))) d d1 ∧ Gets E d1 cwd (lit ".") w1 ∧ SameWs w w1 ∧
      w1.tree.abs.branch (w.ws.id.base32 ++ lit "/" ++ b) = none ∧ (∀ x, x ≠ w.ws.id.base32 ++ lit "/" ++ b → w1.tree.abs.branch x = w.tree.abs.branch x) ∧
      ∀ r d2, Exec E Faults.none (editCmd E cwd ((b :: bs).map (.deleteBranch · false))) d1 r d2 → (∃ e, r = .err e) ∧ d2 = d1 := by
  obtain ⟨g, hs⟩ := steady_reachable hd
  obtain ⟨u, p, T, hF⟩ := found_of_gets hs hout hg
  have hh := hF.opens.head
  obtain ⟨r, d1, he⟩ := exec_total (E := E) (f := Faults.none) (editCmd_draws E cwd [.deleteBranch b false]) d (by omega)
  obtain ⟨s, rfl⟩ := (C24_accepted_iff hd hout hg hh rfl (e := .deleteBranch b false) trivial he).2 ⟨_, .deleteOwn hcur hb⟩
  obtain ⟨w1, a1, a2, a3, a4, _⟩ := edit_effect hd hout hg hh (e := .deleteBranch b false) trivial he
  have hr1 : Reachable E d1 := reachable_next hd rfl (a := .edit cwd [.deleteBranch b false]) hout (.edit he)
  have htr := edits_unique (.deleteOwn hcur hb) a4
  have hgone : w1.tree.abs.branch (w.ws.id.base32 ++ lit "/" ++ b) = none := by rw [htr]; simp only [ATree.delBranch, upd_self]
  refine ⟨d1, w1, edit_first_stops he, a1, a2, hgone, fun x hx => ?_, fun r d2 he2 => ?_⟩
  · rw [htr]; simp only [ATree.delBranch]; exact upd_ne _ _ hx
  · refine edit_first_refused hr1 rfl hout a1 a3 (e := .deleteBranch b false) (es := bs.map (.deleteBranch · false)) (fun x hx => ?_) (fun c hc => ?_) he2
    · have : x ∈ (b :: bs).map (Edit.deleteBranch · false) := hx
      obtain ⟨y, _, rfl⟩ := List.mem_map.1 this
      exact trivial
    · cases hc with
      | deleteOwn _ h => exact h (by rw [a2.1]; exact hgone)

end
end Verif
