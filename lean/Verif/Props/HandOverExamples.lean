import Verif.Props.NewBranchExamples
import Verif.Props.HandOver
/-!
# Concrete cases for `Verif.Props.HandOver`
-/
set_option autoImplicit false
namespace Verif
open M TS Json Story
namespace Story

/-- `C120_tag`, `C120_hand_over`: `/w` with the file `f` is cloned to `/v`. Then `commit` and `tag v1 HEAD` in `/w`, `checkout v1` in `/v`: `/v` shows `f`. -/
example : ∃ d w d1 d2 d3 x s y v3, Calmly E0 d ∧ Gets E0 d cw (lit ".") w ∧ Exec E0 Faults.none (commitCmd E0 cw ci) d (.ok x) d1 ∧
    Exec E0 Faults.none (editCmd E0 cw [.addTag (lit "v1") (lit "HEAD") false]) d1 (.ok s) d2 ∧ Exec E0 Faults.none (checkoutCmd E0 cv (lit "v1")) d2 (.ok y) d3 ∧
    Gets E0 d3 cv (lit ".") v3 ∧ d3.lists v3 = d.lists w := by
  obtain ⟨d0, w0, u, root, hB⟩ := begun
  have hu0 := hB.used
  obtain ⟨d, r, v, u2, he0, hLv, hus, hsp, hbr, hfr, w, hL, hsame, hid, hne, hmay⟩ := live_clone neat hB.live outv (hB.free _ vw) (fits (by simp)) (by omega)
  have hd := hL.past.reachable
  obtain ⟨d1, x, w1, u1, he, hL1, hus1, _, _, hC, _, _, hoth⟩ := live_commit neat hL (hmay hB.may) (fits (by simp)) (by omega) ci
  obtain ⟨v1, hLv1, hsv, _⟩ := hoth cv v u2 root [root] hLv (Ne.symm hne) vw
  obtain ⟨r1, d2, he1⟩ := exec_total (E := E0) (f := Faults.none) (editCmd_draws E0 cw [.addTag (lit "v1") (lit "HEAD") false]) d1 (by omega)
  have k2 := stops_used (editCmd_draws E0 cw _) (exec_stops he1)
  obtain ⟨r2, d3, he2⟩ := exec_total (E := E0) (f := Faults.none) (checkoutCmd_draws E0 cv (lit "v1")) d2 (by omega)
  have hbase : ¬ Head E0 d root := by
    obtain ⟨g, hs⟩ := steady_reachable hB.live.past.reachable
    obtain ⟨g', _, hG⟩ := steady_past (f := Faults.none) rfl hs (.step (a := .clone cw (lit ".") (Path.abs cv (lit "."))) .refl ⟨outw, off_of_outside outv⟩ (.clone he0))
    exact fun h => hB.base (hG.heads root h (hB.live.opens.stored root ⟨_, hB.new.first⟩))
  obtain ⟨⟨s, rfl⟩, ⟨y, rfl⟩, v3, u3, g3, _, _, _, hlist⟩ := C120_hand_over hd outw outv hL.gets hL.mounted hL.opens.head (fun z hz => by
      have hp := hL.path
      cases hz with
      | refl _ => exact hbase
      | step h1 h2 _ =>
        cases hp with
        | root h3 h4 => rw [h1] at h3; cases h3; rw [h2] at h4; cases h4
        | step h3 h4 h5 => cases h5)
    he hLv1.gets (hsv.2.2.trans (hsp.trans hsame.2.2.symm)) ⟨_, _, _, by rw [hLv1.opens.path]; exact hLv1.link, hLv1.mdir, rfl⟩ (name := lit "v1") (by unfold PlainKey; decide)
    (valid_ascii (by decide)) (by decide) (no_spell (by decide) (by decide)) (third_tags he0 hB hL hsame.2.2) hL.full (fits (by simp)) he1 he2
  exact ⟨d, w, d1, d2, d3, x, s, y, v3, hL.past, hL.gets, he, he1, he2, g3, hlist⟩
where
  third_tags {d0 d : Disk} {w0 w w' : OpenWs} {u root : UID} (he : Exec E0 Faults.none (cloneCmd E0 cw (lit ".") (Path.abs cv (lit "."))) d0 (.ok w') d) (hB : Begun d0 w0 u root)
      (hL : Live E0 d cw w u root [root]) (hsp : w.spaceID = w0.spaceID) : w.tree.abs.tag (lit "v1") = none := by
    obtain ⟨g, hs⟩ := steady_reachable hB.live.past.reachable
    obtain ⟨T, hF⟩ := gets_found hs outw hB.live.gets hB.live.opens.head
    obtain ⟨u', ls', g', w', hs', hG, hK, hP, ho, _, hs2, hbr, hnew, htree, hfr⟩ := after_clone hs hF outv he
    have t2 : w.tree = w'.tree := loads_same hL.opens.out ho.out hL.gets (gets_of_opens ho) (by rw [hL.opens.dir, ho.dir, hsp, hs2])
    rw [t2, htree]
    cases h : w0.tree.abs.tag (lit "v1") with
    | none => simp only [ATree.add, h]
    | some v => exact absurd ((hB.new.tags _ _).1 h).1 (by decide)

/-- `C120_id`: a commit in `/w`, which is then cloned to `/v`; `checkout ID` in `/v`. -/
example : ∃ d w u d1 d2 d3 x y v3, Calmly E0 d ∧ Gets E0 d cw (lit ".") w ∧ Exec E0 Faults.none (commitCmd E0 cw ci) d (.ok x) d1 ∧ Past E0 Faults.none d1 d2 ∧
    Exec E0 Faults.none (checkoutCmd E0 cv (UID.hex u)) d2 (.ok y) d3 ∧ Gets E0 d3 cv (lit ".") v3 ∧ d3.lists v3 = d.lists w ∧ d3.lists v3 [lit "f"] = some (.file (lit "x")) := by
  obtain ⟨d, w, u, root, hB⟩ := begun
  have hu0 := hB.used
  have hd := hB.live.past.reachable
  obtain ⟨d1, x, w1, u1, he, hL1, hus1, hs1, hb1, hC, hm1, hfr1, hoth⟩ := live_commit neat hB.live hB.may (fits (by simp)) (by omega) ci
  obtain ⟨d2, r, v, u2, he0, hLv, hus, hsp, _⟩ := live_clone neat hL1 outv ((hfr1 _ vw).trans (hB.free _ vw)) (fits (by simp)) (by omega)
  obtain ⟨r2, d3, he2⟩ := exec_total (E := E0) (f := Faults.none) (checkoutCmd_draws E0 cv (UID.hex u)) d2 (by omega)
  obtain ⟨⟨y, rfl⟩, v3, u3, g3, _, _, hlist⟩ := C120_id hd outw outv hB.live.gets hB.live.mounted hB.live.opens.head (fun z hz => by
      cases hz with
      | refl _ => exact hB.base
      | step h1 h2 _ => rw [hB.new.first] at h1; cases h1; cases h2)
    he (f := Faults.none) rfl (.step (a := .clone cw (lit ".") (Path.abs cv (lit "."))) .refl ⟨outw, off_of_outside outv⟩ (.clone he0)) hLv.gets (hsp.trans hs1.2.2)
    ⟨_, _, _, by rw [hLv.opens.path]; exact hLv.link, hLv.mdir, rfl⟩ hB.live.full (fits (by simp)) he2
  exact ⟨d, w, u, d1, d2, d3, x, y, v3, hB.live.past, hB.live.gets, he, .step (a := .clone cw (lit ".") (Path.abs cv (lit "."))) .refl ⟨outw, off_of_outside outv⟩ (.clone he0),
    he2, g3, hlist, by rw [hlist]; exact hB.shows⟩

end Story
end Verif
