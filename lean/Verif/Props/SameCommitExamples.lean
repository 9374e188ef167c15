import Verif.Props.StartExamples
import Verif.Props.SameCommit
import Verif.Props.InnerExamples
/-!
# Concrete cases for `Verif.Props.SameCommit`
-/
set_option autoImplicit false
namespace Verif
open M TS Json Story
namespace Story

theorem anc_mem_path {a : ATree} {z x : UID} (h : a.Anc z x) : ∀ {l : List UID}, a.Path x l → z ∈ l := by
  induction h with
  | refl _ => intro l hl; cases hl <;> simp
  | step h1 h2 _ ih =>
    intro l hl
    cases hl with
    | root h3 h4 => rw [h1] at h3; cases h3; rw [h2] at h4; cases h4
    | step h3 h4 h5 =>
      rw [h1] at h3; cases h3
      rw [h2] at h4; cases h4
      exact List.mem_cons_of_mem _ (ih h5)

/-- `C122_same`: `/w` has been committed and cloned to `/v`. `checkout ID` in `/w`, something is written there, `checkout HEAD` in `/v`. -/
example : ∃ d d1 d2 d3 w1 v3 x u y y2, Calmly E0 d ∧ Exec E0 Faults.none (checkoutCmd E0 cw (UID.hex x)) d (.ok y) d1 ∧ d2 = d1.put u .empty ∧ d1.HasDiff u ∧ Past E0 Faults.none d1 d2 ∧
    Exec E0 Faults.none (checkoutCmd E0 cv (lit "HEAD")) d2 (.ok y2) d3 ∧ Gets E0 d1 cw (lit ".") w1 ∧ Gets E0 d3 cv (lit ".") v3 ∧ d3.lists v3 = d1.lists w1 := by
  obtain ⟨d0, w0, u0, root, d', w', u', d, w1, v, u2, hB, hS, hT⟩ := third
  have hus := hT.used
  have hnot : ∀ z ∈ [u0, root], ¬ Head E0 d z := by
    obtain ⟨r, he⟩ := hS.run
    obtain ⟨r2, he2⟩ := hT.run
    obtain ⟨g, hs⟩ := steady_reachable hB.live.past.reachable
    obtain ⟨T, hF⟩ := gets_found hs outw hB.live.gets hB.live.opens.head
    obtain ⟨_, _, _, _, g1, _, s1, k1, _, _, _, _, _, _, _, _, _, h11⟩ := after_commit hs hF he
    obtain ⟨g2, s2, k2⟩ := steady_past (f := Faults.none) rfl s1 (.step (a := .clone cw (lit ".") (Path.abs cv (lit "."))) .refl ⟨outw, off_of_outside outv⟩ (.clone he2))
    have hst := path_stored hF.opens hB.live.full
    intro z hz h
    have h1 := k2.heads z h (k1.diff z (hst z hz))
    rcases List.mem_cons.1 hz with rfl | hz
    · exact h11 h1
    · obtain rfl := List.mem_singleton.1 hz
      exact hB.base (k1.heads z h1 (hst z (by simp)))
  have hR : Ws.Resolves w1.tree.abs w1.ws.id u0 (UID.hex u0) u0 .commit := .id (hex_ne_head u0) (hex_spells u0) (by
    have := hT.live1.path
    cases this with
    | step h _ _ => exact ⟨_, h⟩)
  obtain ⟨d1, y, w4, u4, he, hL4, hus4, _, _, _, _, hoth⟩ := live_checkout neat (hex_plain u0) hT.live1 hR hT.live1.path (fits (by simp)) (by omega)
  obtain ⟨v1, hLv, hsv, _⟩ := hoth cv v u2 u0 [u0, root] hT.live2 (Ne.symm hT.mount) vw
  obtain ⟨hL5, hu5, _⟩ := live_write hL4 .empty
  have hul : (d1.put u4 .empty).used.length = d1.used.length := by rw [hu5]
  have hLv5 := live_beside hLv hL5.past
  obtain ⟨d3, y2, v3, u3, he3, hL3, _⟩ := live_checkout neat plainHEAD hLv5 .head hLv5.path (fits (by simp)) (by omega)
  have hp : Past E0 Faults.none d1 (d1.put u4 .empty) := .step (o := 0) (a := .write w4.mount.id.base32 .empty) .refl trivial (.write (m := ⟨u4, [u0, root]⟩) hL4.mnt)
  obtain ⟨wa, ua, vb, ub, g1, _, _, g2, _, _, _, _, hl⟩ := C122_same (f := Faults.none) hT.live1.past.reachable outw outv hT.live1.gets hT.live1.opens.head hR (fun z hz => hnot z (anc_mem_path hz hT.live1.path))
    he rfl hp hLv5.gets (hsv.2.2.trans hT.space.symm) hLv5.opens.head .head he3
  exact ⟨d, d1, _, d3, wa, vb, u0, u4, y, y2, hT.live1.past, he, rfl, hL4.opens.stored _ (by obtain ⟨_, n, hn, _⟩ := hL4.opens.head; exact ⟨n, hn⟩), hp, he3, g1, g2, hl⟩

/-- `C122_clone`: the same beginning, then `clone /v /x`. -/
example : ∃ d d1 d2 d3 w1 v3 x u y t, Calmly E0 d ∧ Exec E0 Faults.none (checkoutCmd E0 cw (UID.hex x)) d (.ok y) d1 ∧ d2 = d1.put u .empty ∧ Past E0 Faults.none d1 d2 ∧
    Exec E0 Faults.none (cloneCmd E0 cv (lit ".") (Path.abs (lit "/x") (lit "."))) d2 (.ok t) d3 ∧ Gets E0 d1 cw (lit ".") w1 ∧ Gets E0 d3 (lit "/x") (lit ".") v3 ∧ d3.lists v3 = d1.lists w1 := by
  obtain ⟨d0, w0, u0, root, d', w', u', d, w1, v, u2, hB, hS, hT⟩ := third
  have hus := hT.used
  have hnot : ∀ z ∈ [u0, root], ¬ Head E0 d z := by
    obtain ⟨r, he⟩ := hS.run
    obtain ⟨r2, he2⟩ := hT.run
    obtain ⟨g, hs⟩ := steady_reachable hB.live.past.reachable
    obtain ⟨T, hF⟩ := gets_found hs outw hB.live.gets hB.live.opens.head
    obtain ⟨_, _, _, _, g1, _, s1, k1, _, _, _, _, _, _, _, _, _, h11⟩ := after_commit hs hF he
    obtain ⟨g2, s2, k2⟩ := steady_past (f := Faults.none) rfl s1 (.step (a := .clone cw (lit ".") (Path.abs cv (lit "."))) .refl ⟨outw, off_of_outside outv⟩ (.clone he2))
    have hst := path_stored hF.opens hB.live.full
    intro z hz h
    have h1 := k2.heads z h (k1.diff z (hst z hz))
    rcases List.mem_cons.1 hz with rfl | hz
    · exact h11 h1
    · obtain rfl := List.mem_singleton.1 hz
      exact hB.base (k1.heads z h1 (hst z (by simp)))
  have hR : Ws.Resolves w1.tree.abs w1.ws.id u0 (UID.hex u0) u0 .commit := .id (hex_ne_head u0) (hex_spells u0) (by
    have := hT.live1.path
    cases this with
    | step h _ _ => exact ⟨_, h⟩)
  obtain ⟨d1, y, w4, u4, he, hL4, hus4, _, _, _, hfr, hoth⟩ := live_checkout neat (hex_plain u0) hT.live1 hR hT.live1.path (fits (by simp)) (by omega)
  obtain ⟨v1, hLv, hsv, _⟩ := hoth cv v u2 u0 [u0, root] hT.live2 (Ne.symm hT.mount) vw
  obtain ⟨hL5, hu5, _⟩ := live_write hL4 .empty
  have hul : (d1.put u4 .empty).used.length = d1.used.length := by rw [hu5]
  have hLv5 := live_beside hLv hL5.past
  have hus5 : (d1.put u4 .empty).user = d1.user := by unfold Disk.put; split <;> rfl
  have hfx : (d1.put u4 .empty).user (Path.abs (lit "/x") (lit ".")) = .none := by
    rw [hus5, hfr _ (by decide)]; exact hT.free _ (by decide) (by decide)
  obtain ⟨d3, t, v3, u3, he3, _⟩ := live_clone neat hLv5 outx hfx (fits (by simp)) (by omega)
  have hp : Past E0 Faults.none d1 (d1.put u4 .empty) := .step (o := 0) (a := .write w4.mount.id.base32 .empty) .refl trivial (.write (m := ⟨u4, [u0, root]⟩) hL4.mnt)
  obtain ⟨wa, ua, vb, ub, g1, _, _, g2, _, _, _, _, hl⟩ := C122_clone (f := Faults.none) hT.live1.past.reachable outw outv outx hT.live1.gets hT.live1.opens.head hR (fun z hz => hnot z (anc_mem_path hz hT.live1.path))
    he rfl hp hLv5.gets (hsv.2.2.trans hT.space.symm) hLv5.opens.head he3
  exact ⟨d, d1, _, d3, wa, vb, u0, u4, y, t, hT.live1.past, he, rfl, hp, he3, g1, g2, hl⟩

end Story
end Verif
