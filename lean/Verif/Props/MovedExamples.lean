import Verif.Props.Moved
import Verif.Props.TwoRootsExamples
/-!
# Examples for C109
-/
set_option autoImplicit false
namespace Verif
open M TS Json Story
namespace Story

theorem fitsE {n : Nat} (h : n ≤ 90) : (E0.at (lit "/e")).Fits n := by
  have : ((Path.comps (E0.at (lit "/e")).root).map fun a => a.length + 1).sum = 2 := by decide
  unfold Env.Fits
  rw [this]; omega

/-- `C109_violated_refused`: `/d` is now `/e`, and `/w` is as it was. -/
example : ∃ (d : Disk) (w : OpenWs), Reachable E0 d ∧ (E0.at (lit "/e")).Away E0 ∧ Gets E0 d cw (lit ".") w ∧
    (∀ t, d.user (Path.abs cw (lit ".")) = .link t → Path.isAbs t = true) ∧ ∀ w', ¬ Gets (E0.at (lit "/e")) (d.moved d.user) cw (lit ".") w' := by
  obtain ⟨d, w, u, root, hB⟩ := begun
  have habs : ∀ t, d.user (Path.abs cw (lit ".")) = .link t → Path.isAbs t = true := by
    intro t ht
    rw [hB.live.link] at ht
    cases ht; rfl
  have haw : (E0.at (lit "/e")).Away E0 := away_symm (E1 := E0) (E2 := E0.at (lit "/e")) awayE
  refine ⟨d, w, hB.live.past.reachable, haw, hB.live.gets, habs, fun w' hg => ?_⟩
  have h := (C109_violated_refused (r := lit "/e") (d' := d.moved d.user) (f := Faults.none) hB.live.past.reachable haw (outE (c := lit "w") _ (by decide) (by decide)) outw
    hB.live.gets habs).1 _ (fun w => Pure.pure w) (.ok w') (exec_ok hg (.ret _ _))
  obtain ⟨⟨e, he⟩, _⟩ := h
  cases he

/-- The paths after the move: `/w` leads to the mount at its new place. -/
def relink (w : OpenWs) : Str → UEnt := upd (fun _ => .none) (Path.abs cw (lit ".")) (.link ((E0.at (lit "/e")).mountPath w.mount.id.base32))

/-- `C109_relinked`, `C109_work`, `C109_commits`, `C109_commit`, `C109_commit_accepted_iff`: `/w` shows `f`, which is not committed. `/d` is moved to `/e`, the link is
made again, and `/w` is the same workspace. A checkout of its working layer shows `f`; so does a commit. -/
example : ∃ (d d3 d4 : Disk) (w w3 w4 : OpenWs) (u : UID), Reachable E0 d ∧ Gets E0 d cw (lit ".") w ∧ d.lists w [lit "f"] = some (.file (lit "x")) ∧
    Gets (E0.at (lit "/e")) (d.moved (relink w)) cw (lit ".") w ∧
    (∃ x, Exec (E0.at (lit "/e")) Faults.none (checkoutCmd (E0.at (lit "/e")) cw u.hex) (d.moved (relink w)) (.ok x) d3) ∧
    Gets (E0.at (lit "/e")) d3 cw (lit ".") w3 ∧ d3.lists w3 [lit "f"] = some (.file (lit "x")) ∧
    (∃ x, Exec (E0.at (lit "/e")) Faults.none (commitCmd (E0.at (lit "/e")) cw ⟨[], lit "m"⟩) (d.moved (relink w)) (.ok x) d4) ∧
    Gets (E0.at (lit "/e")) d4 cw (lit ".") w4 ∧ d4.lists w4 [lit "f"] = some (.file (lit "x")) := by
  obtain ⟨d, w, u, root, hB⟩ := begun
  have hu := hB.used
  have hr := hB.live.past.reachable
  have oute : (E0.at (lit "/e")).Outside (Path.abs cw (lit ".")) := outE (c := lit "w") _ (by decide) (by decide)
  have hl : relink w (Path.abs cw (lit ".")) = .link ((E0.at (lit "/e")).mountPath w.mount.id.base32) := upd_self _ _ _
  have hg := (C109_relinked (r := lit "/e") hr outw oute hB.live.gets (us := relink w) hl).2 rfl
  have hlink : ∃ n m c, (d.moved (relink w)).user w.ws.path = .link ((E0.at (lit "/e")).mountPath n) ∧ (d.moved (relink w)).mdir n = some m ∧ m.merged = some c :=
    ⟨_, _, _, by rw [hB.live.opens.path]; exact hl, hB.live.mdir, rfl⟩
  obtain ⟨r3, d3, he3⟩ := exec_total (E := E0.at (lit "/e")) (f := Faults.none) (checkoutCmd_draws (E0.at (lit "/e")) cw u.hex) (d.moved (relink w)) (by simp only; omega)
  obtain ⟨⟨x, rfl⟩, w3, u3, h1, _, _, h4⟩ := C109_work (r := lit "/e") hr outw hB.live.gets hB.live.mounted hB.live.opens.head (us := relink w) (f2 := Faults.none) rfl .refl oute hg rfl
    (fun ls hls => by rw [Ws.path_unique hls hB.live.full]; exact fitsE (by simp)) hlink he3
  obtain ⟨r4, d4, he4⟩ := exec_total (E := E0.at (lit "/e")) (f := Faults.none) (commitCmd_draws (E0.at (lit "/e")) cw ⟨[], lit "m"⟩) (d.moved (relink w)) (by simp only; omega)
  obtain ⟨y, rfl⟩ := (C109_commit_accepted_iff (r := lit "/e") hr outw oute hB.live.gets hB.live.opens.head hl ⟨_, _, hB.live.mdir, rfl⟩ hB.live.full he4).2
    ⟨hB.may, fitsE (by simp)⟩
  obtain ⟨w4, u4, k1, _, _, _, _, k6⟩ := C109_commit (r := lit "/e") hr outw oute hB.live.gets hB.live.mounted hB.live.opens.head hl he4
  exact ⟨d, d3, d4, w, w3, w4, u, hr, hB.live.gets, hB.shows, hg, ⟨x, he3⟩, h1, by rw [h4]; exact hB.shows, ⟨y, he4⟩, k1, by rw [k6]; exact hB.shows⟩

/-- A long path: ten directories, each with a name of 200 letters. -/
def far : Str := joinRoot (lit "/") (List.replicate 10 (List.replicate 200 0x61))

theorem far_comps : Path.comps far = List.replicate 10 (List.replicate 200 0x61) := by
  have h : Path.comps (lit "/") = [] := by decide
  unfold far joinRoot
  rw [h, List.nil_append]
  refine Path.comps_render fun c hc => ?_
  obtain rfl := List.eq_of_mem_replicate hc
  refine ⟨by decide, by decide, by decide, fun hx => ?_⟩
  exact absurd (List.eq_of_mem_replicate hx) (by decide)

/-- `C109_violated_long`: `/w` is mounted. `/d` is moved to the long path, the link is made again, and `/w` is the same workspace, but not even its last commit, which is its
first, can be checked out. -/
example : ∃ (d : Disk) (w : OpenWs) (u root : UID) (us : Str → UEnt), Reachable E0 d ∧ Gets E0 d cw (lit ".") w ∧ d.Mounted w ∧ w.ws.HeadAt w.tree u root ∧
    Gets (E0.at far) (d.moved us) cw (lit ".") w ∧ ∀ x d3, ¬ Exec (E0.at far) Faults.none (checkoutCmd (E0.at far) cw root.hex) (d.moved us) (.ok x) d3 := by
  obtain ⟨d, w, u, root, hB⟩ := begun
  have hr := hB.live.past.reachable
  have outf : (E0.at far).Outside (Path.abs cw (lit ".")) := by
    intro rest e
    have h : Path.comps (Path.abs cw (lit ".")) = [lit "w"] := by decide
    rw [h, show (E0.at far).root = far from rfl, far_comps] at e
    have := congrArg List.length e
    simp at this
  have hno : ¬ (E0.at far).Fits [root].length := by
    unfold Env.Fits
    rw [show (E0.at far).root = far from rfl, far_comps, List.map_replicate, List.length_replicate, List.length_singleton]
    decide
  have hl : upd (fun _ => UEnt.none) (Path.abs cw (lit ".")) (.link ((E0.at far).mountPath w.mount.id.base32)) (Path.abs cw (lit ".")) =
    .link ((E0.at far).mountPath w.mount.id.base32) := upd_self _ _ _
  have hg := (C109_relinked (r := far) hr outw outf hB.live.gets hl).2 rfl
  exact ⟨d, w, u, root, _, hr, hB.live.gets, hB.live.mounted, hB.live.opens.head, hg, fun x d3 =>
    (C109_violated_long (r := far) (f := Faults.none) hr outw hB.live.gets hB.live.path hno (f2 := Faults.none) rfl .refl outf hg rfl x).2⟩

end Story
end Verif
