import Verif.Props.Elsewhere
import Verif.Props.Examples
/-!
# Examples for C94
-/
set_option autoImplicit false
namespace Verif
open M TS Json Story
namespace Story

/-- `C94_init`, `C94_moved`, `C94_commit`, `C94_same`: a workspace is made at `/w` and moved to `/v`; a commit can be made there. Nothing opens at `/w`. -/
example : ∃ d w d2 w2 d3 r, Reachable E0 d ∧ Gets E0 d cw (lit ".") w ∧ (∃ t, d.user (Path.abs cw (lit ".")) = .link t ∧ Path.isAbs t = true ∧ d2.user (Path.abs cv (lit ".")) = .link t) ∧
    d2.user (Path.abs cw (lit ".")) = .none ∧ Reachable E0 d2 ∧ Gets E0 d2 cv (lit ".") w2 ∧ d2.lists w2 [lit "f"] = some (.file (lit "x")) ∧
    Exec E0 Faults.none (commitCmd E0 cv ci) d2 (.ok r) d3 ∧ (∃ w3, Gets E0 d3 cv (lit ".") w3 ∧ SameWs w2 w3) ∧ (∀ w', ¬ Gets E0 d2 cw (lit ".") w') := by
  obtain ⟨d, w, u, root, hB⟩ := begun
  have hL := hB.live
  let us : Str → UEnt := upd (upd d.user (Path.abs cw (lit ".")) .none) (Path.abs cv (lit ".")) (.link (E0.mountPath w.mount.id.base32))
  have hus : us (Path.abs cw (lit ".")) = .none := by simp only [us, upd_ne _ _ (Ne.symm vw), upd_self]
  have hv : us (Path.abs cv (lit ".")) = .link (E0.mountPath w.mount.id.base32) := upd_self _ _ _
  obtain ⟨h1, h2, h3, h4⟩ := C94_moved hL.past.reachable outw outv hL.gets hL.link rfl (us := us) (upd_self _ _ _)
  have hC : Calmly E0 { d with user := us } := by
    obtain ⟨d0, h0, hp⟩ := hL.past
    exact ⟨d0, h0, .step (o := E0.owner) hp (a := .files us) trivial .files⟩
  have hL2 : Live E0 { d with user := us } cv (w.moveTo (Path.abs cv (lit "."))) u root [root] :=
    ⟨hC, opens_elsewhere hL.opens hL.link rfl outv (upd_self _ _ _), hL.mnt, hv, hL.mdir, hL.path⟩
  have hm : MayCommit (w.moveTo (Path.abs cv (lit "."))) u := hB.may
  have hused : ({ d with user := us } : Disk).used.length ≤ 5 := hB.used
  obtain ⟨d3, r, w3, u3, he, hL3, _, hsame, _⟩ := live_commit neat hL2 hm (fits (by simp)) (by omega) ci
  exact ⟨d, w, { d with user := us }, _, d3, r, hL.past.reachable, hL.gets, ⟨_, hL.link, rfl, hv⟩, hus, h1, h2, by rw [h3]; exact hB.shows, he,
    ⟨w3, hL3.gets, hsame⟩, h4 hus⟩

/-- `C94_same`, `C94_violated_two_links`: with a second link `/v` to the workspace at `/w` the commit at `/w` succeeds. -/
example : ∃ d w w1 d' r, Reachable E0 d ∧ Gets E0 d cw (lit ".") w ∧ Gets E0 d cv (lit ".") w1 ∧ w1.mount.id = w.mount.id ∧
    (∃ t, d.user (Path.abs cw (lit ".")) = .link t ∧ Path.isAbs t = true ∧ d.user (Path.abs cv (lit ".")) = .link t) ∧
    Exec E0 Faults.none (commitCmd E0 cw ci) d (.ok r) d' ∧ ∀ w', ¬ Gets E0 d' cv (lit ".") w' := by
  obtain ⟨d, w, u, root, hB⟩ := begun
  have hL := hB.live
  let us : Str → UEnt := upd d.user (Path.abs cv (lit ".")) (.link (E0.mountPath w.mount.id.base32))
  have hus : us (Path.abs cw (lit ".")) = .link (E0.mountPath w.mount.id.base32) := by simp only [us, upd_ne _ _ (Ne.symm vw)]; exact hL.link
  have hv : us (Path.abs cv (lit ".")) = .link (E0.mountPath w.mount.id.base32) := upd_self _ _ _
  obtain ⟨h1, h2, h3, h4⟩ := C94_moved hL.past.reachable outw outv hL.gets hL.link rfl (us := us) (upd_self _ _ _)
  have hC : Calmly E0 { d with user := us } := by
    obtain ⟨d0, h0, hp⟩ := hL.past
    exact ⟨d0, h0, .step (o := E0.owner) hp (a := .files us) trivial .files⟩
  have ho : Opens E0 { d with user := us } cw (lit ".") (w.moveTo (Path.abs cw (lit "."))) u root := opens_elsewhere hL.opens hL.link rfl outw hus
  have hL2 : Live E0 { d with user := us } cw (w.moveTo (Path.abs cw (lit "."))) u root [root] := ⟨hC, ho, hL.mnt, hus, hL.mdir, hL.path⟩
  have hm : MayCommit (w.moveTo (Path.abs cw (lit "."))) u := hB.may
  have hused : ({ d with user := us } : Disk).used.length ≤ 5 := hB.used
  obtain ⟨d3, r, w3, u3, he, hL3, _, hsame, _⟩ := live_commit neat hL2 hm (fits (by simp)) (by omega) ci
  exact ⟨{ d with user := us }, _, _, d3, r, h1, hL2.gets, h2, rfl, ⟨_, hus, rfl, hv⟩, he, C94_violated_two_links h1 outw outv vw hL2.gets h2 rfl he⟩

/-- `C94_clone`, `C94_checkout`: the hypotheses can be met. -/
example : ∃ d w d1 r1 d2 r2, Reachable E0 d ∧ Gets E0 d cw (lit ".") w ∧ Exec E0 Faults.none (cloneCmd E0 cw (lit ".") (Path.abs cv (lit "."))) d (.ok r1) d1 ∧
    PlainKey (lit "HEAD") ∧ Exec E0 Faults.none (checkoutCmd E0 cw (lit "HEAD")) d (.ok r2) d2 := by
  obtain ⟨d, w, u, root, hB⟩ := begun
  have hu := hB.used
  obtain ⟨d1, r1, _, _, he1, _⟩ := live_clone neat hB.live outv (hB.free _ vw) (fits (by simp)) (by omega)
  obtain ⟨d2, r2, _, _, he2, _⟩ := live_checkout neat plainHEAD hB.live .head hB.live.path (fits (by simp)) (by omega)
  exact ⟨d, w, d1, r1, d2, r2, hB.live.past.reachable, hB.live.gets, he1, plainHEAD, he2⟩

end Story
end Verif
