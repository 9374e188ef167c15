import Verif.Props.Aside
import Verif.Props.Examples
/-!
# Examples for C92
-/
set_option autoImplicit false
namespace Verif
open M TS Json Story
namespace Story

/-- `C92_layer_stays`, `C92_set_aside`: `/w` shows `f`, which is not committed, checks out HEAD and then the ID of its old layer. It
shows `f` again. -/
example : ∃ (d0 d1 d3 : Disk) (w w1 w3 : OpenWs) (u root u3 : UID), Reachable E0 d0 ∧ Gets E0 d0 cw (lit ".") w ∧ d0.lists w [lit "f"] = some (.file (lit "x")) ∧
    (∃ r, Exec E0 Faults.none (checkoutCmd E0 cw (lit "HEAD")) d0 (.ok r) d1) ∧ Gets E0 d1 cw (lit ".") w1 ∧ (∃ u1, w1.ws.HeadAt w1.tree u1 root ∧ u1 ≠ u) ∧
    d1.layer u = d0.layer u ∧ (∃ r, Exec E0 Faults.none (checkoutCmd E0 cw u.hex) d1 (.ok r) d3) ∧ Gets E0 d3 cw (lit ".") w3 ∧ w3.ws.HeadAt w3.tree u3 u ∧
    d3.lists w3 [lit "f"] = some (.file (lit "x")) := by
  obtain ⟨d0, w, u, root, hB⟩ := begun
  have hu := hB.used
  have hk : PlainKey (lit "HEAD") := by unfold PlainKey; decide
  obtain ⟨d1, r, w1, u1, he, hL, hus, _, hsp, _⟩ := live_checkout neat hk hB.live .head hB.live.path (fits (by simp)) (by omega)
  have hx : u1 ≠ u := by
    rintro rfl
    obtain ⟨g, hs⟩ := steady_reachable hB.live.past.reachable
    obtain ⟨T, hF⟩ := gets_found hs outw hB.live.gets hB.live.opens.head
    obtain ⟨_, _, _, u2, ls, g1, w2, _, s1, _, _, _, b4, _, _, _, b8, _, h10⟩ := after_checkout hs hF he
    obtain rfl := gets_unique hL.past.reachable outw hL.gets (gets_of_opens b4)
    obtain ⟨rfl, _⟩ := headAt_unique (wf_of_reach (opens_reach b4)) b4.head hL.opens.head
    exact b8 (by obtain ⟨_, n, hn, _⟩ := hB.live.opens.head; exact ⟨n, hn⟩)
  obtain ⟨g, hs⟩ := steady_reachable hB.live.past.reachable
  obtain ⟨T, hF⟩ := gets_found hs outw hB.live.gets hB.live.opens.head
  have hfull1 : w1.tree.abs.Path u [u, root] := by
    obtain ⟨_, _, _, u2, ls, g1, w2, _, s1, _, _, _, b4, _, _, _, b8, b9, h10⟩ := after_checkout hs hF he
    obtain rfl := gets_unique hL.past.reachable outw hL.gets (gets_of_opens b4)
    rw [b9]
    exact extends_path (extends_add (S := fun _ => True) b8) hB.live.full
  obtain ⟨r3, d3, he3⟩ := exec_total (E := E0) (f := Faults.none) (checkoutCmd_draws E0 cw u.hex) d1 (by omega)
  obtain ⟨⟨x, rfl⟩, w3, u3, h1, h2, _, h4⟩ := C92_set_aside hB.live.past.reachable outw hB.live.gets hB.live.mounted hB.live.opens.head hB.baseFree he
    (f2 := Faults.none) rfl .refl outw hL.gets hsp (fun ls hls => by rw [Ws.path_unique hls hfull1]; exact fits (by simp)) hL.clearable he3
  exact ⟨d0, d1, d3, w, w1, w3, u, root, u3, hB.live.past.reachable, hB.live.gets, hB.shows, ⟨r, he⟩, hL.gets, ⟨u1, hL.opens.head, hx⟩,
    C92_layer_stays (f := Faults.none) hB.live.past.reachable outw hB.live.gets hB.live.opens.head he (.refl _), ⟨x, he3⟩, h1, h2, by rw [h4]; exact hB.shows⟩

/-- `C92_restart`: the same after a restart. -/
example : ∃ (d0 d3 : Disk) (w w3 : OpenWs) (u : UID), Reachable E0 d0 ∧ Gets E0 d0 cw (lit ".") w ∧ d0.lists w [lit "f"] = some (.file (lit "x")) ∧
    (∃ r, Exec E0 Faults.none (checkoutCmd E0 cw u.hex) { d0 with mnt := fun _ => none } (.ok r) d3) ∧ Gets E0 d3 cw (lit ".") w3 ∧
    d3.lists w3 [lit "f"] = some (.file (lit "x")) := by
  obtain ⟨d0, w, u, root, hB⟩ := begun
  have hu := hB.used
  have ho := hB.live.opens
  have hg : Gets E0 { d0 with mnt := fun _ => none } cw (lit ".") w :=
    gets_of_opens (u := u) (p := root) ⟨ho.out, ho.link, ho.path, ho.info, ho.mount, ho.dir, ho.tree, ho.head, ho.stored⟩
  obtain ⟨r3, d3, he3⟩ := exec_total (E := E0) (f := Faults.none) (checkoutCmd_draws E0 cw u.hex) { d0 with mnt := fun _ => none } (by simp only; omega)
  obtain ⟨⟨x, rfl⟩, w3, u3, h1, h2, _, h4⟩ := C92_restart hB.live.past.reachable outw hB.live.gets hB.live.mounted hB.live.opens.head
    (f2 := Faults.none) rfl .refl outw hg rfl (fun ls hls => by rw [Ws.path_unique hls hB.live.full]; exact fits (by simp)) hB.live.clearable he3
  exact ⟨d0, d3, w, w3, u, hB.live.past.reachable, hB.live.gets, hB.shows, ⟨x, he3⟩, h1, by rw [h4]; exact hB.shows⟩

/-- `C92_violated_checkout`: `f` is committed in `/w` and then deleted. `checkout HEAD` brings it back without a word. -/
example : ∃ (d d' : Disk) (w w2 : OpenWs), Reachable E0 d ∧ Gets E0 d cw (lit ".") w ∧ d.lists w [lit "f"] = none ∧
    (∃ r, Exec E0 Faults.none (checkoutCmd E0 cw (lit "HEAD")) d (.ok r) d') ∧ Gets E0 d' cw (lit ".") w2 ∧ d'.lists w2 [lit "f"] = some (.file (lit "x")) := by
  obtain ⟨d0, w0, u0, root, d1, w, u, hB, hS⟩ := second
  have hu := hS.used
  obtain ⟨r, he⟩ := hS.run
  obtain ⟨w', k1, _, _, ls, k4, k5⟩ := C27_commit_keeps_files hB.live.past.reachable outw hB.live.gets hB.live.mounted hB.live.opens.head he
  obtain rfl := gets_unique hS.live.past.reachable outw k1 hS.live.gets
  obtain rfl := Ws.path_unique k4 hS.live.path
  obtain ⟨hL, hus, hc⟩ := live_write hS.live Content.hide
  have hf : files ([u0, root].map (d1.put u Content.hide).content) = d0.lists w0 := by
    rw [← k5]
    congr 1
    refine List.map_congr_left fun x hx => ?_
    rcases put_layer d1 u x Content.hide with h | ⟨rfl, _, _⟩
    · simp only [Disk.content, h]
    · exfalso
      have h1 := anc_shorter (path_mem_anc hS.live.path x hx) hS.live.full hS.live.path
      simp at h1
  have hnone : (d1.put u Content.hide).lists w' [lit "f"] = none := by
    rw [lists_mounted hL.mnt, List.map_cons, hc]
    rfl
  have hdirty : (d1.put u Content.hide).lists w' ≠ files ([u0, root].map (d1.put u Content.hide).content) := by
    intro e
    rw [hf] at e
    have := congrFun e [lit "f"]
    rw [hnone, hB.shows] at this
    cases this
  obtain ⟨⟨r2, d2, he2⟩, h⟩ := C92_violated_checkout hL.past.reachable outw hL.gets hL.opens.head hL.path (fits (by simp)) hL.clearable (by rw [hus]; omega) hdirty
  obtain ⟨x, w2, u2, rfl, a1, _, _, _, a5, _⟩ := h _ _ he2
  exact ⟨_, d2, w', w2, hL.past.reachable, hL.gets, hnone, ⟨x, he2⟩, a1, by rw [a5, hf]; exact hB.shows⟩

end Story
end Verif
