import Verif.Props.LinkOwner
import Verif.Props.Owner
/-!
# Examples for C111
-/
set_option autoImplicit false
namespace Verif
open M TS Json Story
namespace Story

/-- `C111_commit`, `C111_checkout`, `C111_violated_killed`, `C111_no_other`: the link `/w` belongs to the user 7. The user 9 commits there, and it is theirs; the link `/v` of the user 7 is not. Had the commit been
killed in the middle, `/w` would be root's. Then the user 7 checks HEAD out in `/v`. -/
example : ∃ (d d1 d2 d3 : Disk) (o o1 o2 o3 : LinkOwners), o (Path.abs cw (lit ".")) = some 7 ∧ o (Path.abs cv (lit ".")) = some 7 ∧
    (∃ r, ExecBy (α := Res CErr _) (E0.as 9) Faults.none (commitCmd (E0.as 9) cw ci) d o (.ok r) d1 o1) ∧
    o1 (Path.abs cw (lit ".")) = some 9 ∧ o1 (Path.abs cv (lit ".")) = some 7 ∧
    StopsBy (α := Res CErr _) (E0.as 9) Faults.none (commitCmd (E0.as 9) cw ci) d o d2 o2 ∧ o2 (Path.abs cw (lit ".")) = some 0 ∧ o2 (Path.abs cv (lit ".")) = some 7 ∧
    (∃ r, ExecBy (α := Res CErr _) (E0.as 7) Faults.none (checkoutCmd (E0.as 7) cv (lit "HEAD")) d o (.ok r) d3 o3) ∧ o3 (Path.abs cv (lit ".")) = some 7 := by
  obtain ⟨d, w, u, root, d', w', u', d3, w1, w2, u2, hB, hS, hT⟩ := third
  have h8 := live_as (o := 9) hT.live1
  have h7 := live_as (o := 7) hT.live2
  have hu := hT.used
  obtain ⟨d4, r, _, _, he, _⟩ := live_commit (E := E0.as 9) neat h8 hT.may (fits (by simp)) (by omega) ci
  obtain ⟨d5, r5, w5, u5, he5, _⟩ := live_checkout (E := E0.as 7) neat plainHEAD h7 (v := u) (kt := .commit) .head h7.path (fits (by simp)) (by omega)
  obtain ⟨o1, h1⟩ := execBy_of_exec he (fun _ => some 7)
  obtain ⟨o5, h5⟩ := execBy_of_exec he5 (fun _ => some 7)
  have hne : Path.abs cv (lit ".") ≠ Path.abs cw (lit ".") := by decide
  obtain ⟨d6, o6, k1, k2, k3⟩ := C111_violated_killed (E := E0.as 9) outw h1
  have k4 := (C111_no_other (.commit cw ci) (Or.inr k1)).1 _ hne
  refine ⟨d3, d4, d6, d5, fun _ => some 7, o1, o6, o5, rfl, rfl, ⟨r, h1⟩, ?_, ?_, k1, k3, k4, ⟨r5, h5⟩, ?_⟩
  · rw [C111_commit h1, upd_self]
  · rw [C111_commit h1, upd_ne _ _ hne]
  · rw [C111_checkout h5, upd_self]

/-- `C111_init`, `C111_clone`: the user 9 makes a workspace at `/x`, or clones `/w` of the user 7 to `/x`; `/x` is theirs, `/w` is not. -/
example : ∃ (d d1 d2 : Disk) (o1 o2 : LinkOwners),
    (∃ r, ExecBy (α := Res CErr _) (E0.as 9) Faults.none (initCmd (E0.as 9) (Path.abs (lit "/x") (lit ".")) (lit "main")) d (fun _ => some 7) (.ok r) d1 o1) ∧ o1 (Path.abs (lit "/x") (lit ".")) = some 9 ∧
    (∃ r, ExecBy (α := Res CErr _) (E0.as 9) Faults.none (cloneCmd (E0.as 9) cw (lit ".") (Path.abs (lit "/x") (lit "."))) d (fun _ => some 7) (.ok r) d2 o2) ∧
    o2 (Path.abs (lit "/x") (lit ".")) = some 9 ∧ o2 (Path.abs cw (lit ".")) = some 7 := by
  obtain ⟨d, w, u, root, d', w', u', d3, w1, w2, u2, hB, hS, hT⟩ := third
  have h8 := live_as (o := 9) hT.live1
  have := hT.used
  obtain ⟨d4, r, _, _, he, _⟩ := live_clone (E := E0.as 9) neat h8 outx (hT.free _ (by decide) (by decide)) (fits (by simp)) (by omega)
  obtain ⟨d5, r', _, _, _, he', _⟩ := live_init (E := E0.as 9) (d := d3) h8.past (cwd := lit "/x") (branch := lit "main") outx (hT.free _ (by decide) (by decide)) (fits (by decide)) (by omega)
  obtain ⟨o1, h1⟩ := execBy_of_exec he' (fun _ => some 7)
  obtain ⟨o2, h2⟩ := execBy_of_exec he (fun _ => some 7)
  refine ⟨d3, d5, d4, o1, o2, ⟨r', h1⟩, ?_, ⟨r, h2⟩, ?_, ?_⟩
  · rw [C111_init h1, upd_self]
  · rw [C111_clone h2, upd_self]
  · rw [C111_clone h2, upd_ne _ _ (by decide)]

/-- `C111_edit`: a tag in `/w`. -/
example : ∃ (d d' : Disk) (s : TS) (o' : LinkOwners), ExecBy (α := Res CErr _) E0 Faults.none (editCmd E0 cw [.addTag (lit "v1") (lit "HEAD") false]) d (fun _ => some 7) (.ok s) d' o' ∧
    o' (Path.abs cw (lit ".")) = some 7 := by
  obtain ⟨d, w, u, root, d', s, hB, he⟩ := tagged
  obtain ⟨o', h⟩ := execBy_of_exec he (fun _ => some 7)
  exact ⟨d, d', s, o', h, by rw [C111_edit h]⟩

end Story
end Verif
