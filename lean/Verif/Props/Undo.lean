import Verif.Props.Twice
import Verif.Props.LogWorld
/-!
# Taking back a change of a branch or a tag (C115)

A branch or tag that is made and deleted leaves the history as it was, and one that is deleted can be made again: the commit is still there, and its ID still names it.
-/
set_option autoImplicit false
namespace Verif
open M TS Json

theorem upd_back {α : Type} {f : Str → Option α} {k : Str} {x : Option α} : upd (upd f k x) k (f k) = f := by
  funext y
  by_cases hy : y = k
  · subst hy; rw [upd_self]
  · rw [upd_ne _ _ hy, upd_ne _ _ hy]

section
variable {E : Env} {f : Faults}

/-- A change and a second one that takes it back. -/
theorem taken_back {d d1 d2 : Disk} (hd : Reachable E d) (hf : f.io = false) {cwd : Str} (hout : E.Outside (Path.abs cwd (lit "."))) {w : OpenWs}
    (hg : Gets E d cwd (lit ".") w) {u p : UID} (hh : w.ws.HeadAt w.tree u p) {e e' : Edit} (hu : e.Utf8) (hu' : e'.Utf8) (hp' : e'.Plain)
    (hback : ∀ b, Edits w.tree.abs w.ws p e b → Edits b w.ws p e' w.tree.abs) {s : TS} (he : Exec E f (editCmd E cwd [e]) d (.ok s) d1)
    {r : Res CErr TS} (he2 : Exec E Faults.none (editCmd E cwd [e']) d1 r d2) :
    (∃ s2, r = .ok s2) ∧ ∃ w2, Gets E d2 cwd (lit ".") w2 ∧ SameWs w w2 ∧ w2.ws.HeadAt w2.tree u p ∧ w2.tree.abs = w.tree.abs ∧ OnlySpace w.spaceDir d d2 := by
  have hr1 : Reachable E d1 := reachable_next hd hf (a := .edit cwd [e]) hout (.edit he)
  obtain ⟨w1, a1, a2, a3, a4, a5⟩ := edit_effect hd hout hg hh hu he
  have hE := C113_edit_repeated.edits_ws a2 (hback _ a4)
  obtain ⟨s2, rfl⟩ := (C24_accepted_iff hr1 hout a1 a3 rfl hp' he2).2 ⟨_, hE⟩
  obtain ⟨w2, b1, b2, b3, b4, b5⟩ := edit_effect hr1 hout a1 a3 hu' he2
  have hdir : w1.spaceDir = w.spaceDir := by rw [C114_forced.gets_dir hr1 hout a1, C114_forced.gets_dir hd hout hg, a2.2.2]
  rw [hdir] at b5
  obtain ⟨l1, l2, l3, l4, l5, l6⟩ := a5
  obtain ⟨m1, m2, m3, m4, m5, m6⟩ := b5
  exact ⟨⟨s2, rfl⟩, w2, b1, ⟨b2.1.trans a2.1, b2.2.1.trans a2.2.1, b2.2.2.trans a2.2.2⟩, b3, edits_unique hE b4,
    m1.trans l1, m2.trans l2, m3.trans l3, m4.trans l4, m5.trans l5, fun m hm => (m6 m hm).trans (l6 m hm)⟩

variable {d d1 d2 : Disk} {cwd : Str} {w : OpenWs}

/-- **C115.** A tag that there was not, made and deleted: the history is as before. -/
theorem C115_tag_deleted (hd : Reachable E d) (hf : f.io = false) (hout : E.Outside (Path.abs cwd (lit "."))) (hg : Gets E d cwd (lit ".") w)
    {u p : UID} (hh : w.ws.HeadAt w.tree u p) {name ref : Str} {force : Bool} (hu : validUtf8 name) (hno : w.tree.abs.tag name = none) {s : TS}
    (he : Exec E f (editCmd E cwd [.addTag name ref force]) d (.ok s) d1) {r : Res CErr TS} (he2 : Exec E Faults.none (editCmd E cwd [.deleteTag name]) d1 r d2) :
    (∃ s2, r = .ok s2) ∧ ∃ w2, Gets E d2 cwd (lit ".") w2 ∧ SameWs w w2 ∧ w2.ws.HeadAt w2.tree u p ∧ w2.tree.abs = w.tree.abs ∧ OnlySpace w.spaceDir d d2 := by
  refine taken_back hd hf hout hg hh (e := .addTag name ref force) (e' := .deleteTag name) hu trivial trivial (fun b hb => ?_) he he2
  cases hb
  have := Edits.deleteTag (w := w.ws) (p := p) (name := name) (a := w.tree.abs.setTag name ‹UID›) (by simp only [ATree.setTag, upd_self]; exact nofun)
  simp only [ATree.setTag, ATree.delTag, ← hno, upd_back] at this ⊢
  exact this

/-- **C115.** A branch of the workspace that there was not, and that it is not on, made and deleted: the history is as before. -/
theorem C115_branch_deleted (hd : Reachable E d) (hf : f.io = false) (hout : E.Outside (Path.abs cwd (lit "."))) (hg : Gets E d cwd (lit ".") w)
    {u p : UID} (hh : w.ws.HeadAt w.tree u p) {name ref : Str} {force : Bool} (hu : validUtf8 name) (hno : w.tree.abs.branch (w.ws.id.base32 ++ lit "/" ++ name) = none)
    (hcur : name ≠ w.ws.branch) {s : TS} (he : Exec E f (editCmd E cwd [.addBranch name ref force]) d (.ok s) d1) {r : Res CErr TS}
    (he2 : Exec E Faults.none (editCmd E cwd [.deleteBranch name false]) d1 r d2) :
    (∃ s2, r = .ok s2) ∧ ∃ w2, Gets E d2 cwd (lit ".") w2 ∧ SameWs w w2 ∧ w2.ws.HeadAt w2.tree u p ∧ w2.tree.abs = w.tree.abs ∧ OnlySpace w.spaceDir d d2 := by
  refine taken_back hd hf hout hg hh (e := .addBranch name ref force) (e' := .deleteBranch name false) hu trivial trivial (fun b hb => ?_) he he2
  cases hb
  have := Edits.deleteOwn (w := w.ws) (p := p) (name := name) (a := w.tree.abs.setBranch (w.ws.id.base32 ++ lit "/" ++ name) ‹UID›) hcur
    (by simp only [ATree.setBranch, upd_self]; exact nofun)
  simp only [ATree.setBranch, ATree.delBranch, ← hno, upd_back] at this ⊢
  exact this

/-- **C115.** A tag that is deleted and made again at the ID of its commit: the history is as before. -/
theorem C115_tag_restored (hd : Reachable E d) (hf : f.io = false) (hout : E.Outside (Path.abs cwd (lit "."))) (hg : Gets E d cwd (lit ".") w)
    {u p : UID} (hh : w.ws.HeadAt w.tree u p) {name : Str} {v : UID} (hv : w.tree.abs.tag name = some v) {s : TS}
    (he : Exec E f (editCmd E cwd [.deleteTag name]) d (.ok s) d1) {r : Res CErr TS} (he2 : Exec E Faults.none (editCmd E cwd [.addTag name v.hex false]) d1 r d2) :
    (∃ s2, r = .ok s2) ∧ ∃ w2, Gets E d2 cwd (lit ".") w2 ∧ SameWs w w2 ∧ w2.ws.HeadAt w2.tree u p ∧ w2.tree.abs = w.tree.abs ∧ OnlySpace w.spaceDir d d2 := by
  obtain ⟨g, hs⟩ := steady_reachable hd
  obtain ⟨T, hF⟩ := gets_found hs hout hg hh
  refine taken_back hd hf hout hg hh (e := .deleteTag name) (e' := .addTag name v.hex false) trivial ((found_utf8 hF).tag _ _ hv) (hex_plain v) (fun b hb => ?_) he he2
  cases hb
  have := Edits.addTag (w := w.ws) (p := p) (name := name) (a := w.tree.abs.delTag name) (force := false) (.id (hex_ne_head v) (hex_spells v) ((reach_rooted (opens_reach hF.opens)).tag _ _ hv))
    (Or.inl (by simp only [ATree.delTag, upd_self]))
  simp only [ATree.setTag, ATree.delTag, ← hv, upd_back] at this ⊢
  exact this

/-- **C115.** A branch of the workspace that is deleted and made again at the ID of its commit: the history is as before. -/
theorem C115_branch_restored (hd : Reachable E d) (hf : f.io = false) (hout : E.Outside (Path.abs cwd (lit "."))) (hg : Gets E d cwd (lit ".") w)
    {u p : UID} (hh : w.ws.HeadAt w.tree u p) {name : Str} {v : UID} (hv : w.tree.abs.branch (w.ws.id.base32 ++ lit "/" ++ name) = some v) {s : TS}
    (he : Exec E f (editCmd E cwd [.deleteBranch name false]) d (.ok s) d1) {r : Res CErr TS} (he2 : Exec E Faults.none (editCmd E cwd [.addBranch name v.hex false]) d1 r d2) :
    (∃ s2, r = .ok s2) ∧ ∃ w2, Gets E d2 cwd (lit ".") w2 ∧ SameWs w w2 ∧ w2.ws.HeadAt w2.tree u p ∧ w2.tree.abs = w.tree.abs ∧ OnlySpace w.spaceDir d d2 := by
  obtain ⟨g, hs⟩ := steady_reachable hd
  obtain ⟨T, hF⟩ := gets_found hs hout hg hh
  refine taken_back hd hf hout hg hh (e := .deleteBranch name false) (e' := .addBranch name v.hex false) trivial ?_ (hex_plain v) (fun b hb => ?_) he he2
  · have := (found_utf8 hF).branch _ _ hv
    rw [valid_iff_sanitize, sanitize_own] at this
    exact valid_iff_sanitize.2 (List.append_cancel_left this)
  cases hb
  have := Edits.addBranch (w := w.ws) (p := p) (name := name) (a := w.tree.abs.delBranch (w.ws.id.base32 ++ lit "/" ++ name)) (force := false)
    (.id (hex_ne_head v) (hex_spells v) ((reach_rooted (opens_reach hF.opens)).branch _ _ hv)) (Or.inl (by simp only [ATree.delBranch, upd_self]))
  simp only [ATree.setBranch, ATree.delBranch, ← hv, upd_back] at this ⊢
  exact this

end
end Verif
