import Verif.Props.Frozen
import Verif.Props.MoreExamples
/-!
# Concrete cases for `Verif.Props.Frozen`
-/
set_option autoImplicit false
namespace Verif
open M TS Json

namespace Story

theorem Begun.baseFree {d : Disk} {w : OpenWs} {u root : UID} (hB : Begun d w u root) : ∀ v, w.tree.abs.Anc v root → ¬ Head E0 d v := by
  intro v hv
  cases hv with
  | refl _ => exact hB.base
  | step h1 h2 _ => rw [hB.new.first] at h1; cases h1; cases h2

/-- `C32_commit_layer`, `C32_commit_frozen`: the file `f` stays in the commit `first`, here while somebody empties the workspace and a
second commit runs. -/
example : ∃ (d : Disk) (w : OpenWs) (u root : UID) (d' : Disk) (W : World), Reachable E0 d ∧ Gets E0 d cw (lit ".") w ∧ d.Mounted w ∧ w.ws.HeadAt w.tree u root ∧
    (∀ v, w.tree.abs.Anc v root → ¬ Head E0 d v) ∧ (∃ r, Exec E0 Faults.none (commitCmd E0 cw ci) d (.ok r) d') ∧
    Sys.Steps E0 ⟨true, true, true⟩ ⟨d', fun _ => none⟩ W ∧ W.procs 0 ≠ none ∧ W.disk.layer u = d.layer u ∧
    files ([u, root].map W.disk.content) [lit "f"] = some (.file (lit "x")) := by
  obtain ⟨d, w, u, root, d', w', u', hB, hS⟩ := second
  obtain ⟨r, he⟩ := hS.run
  have hst : Sys.Steps E0 ⟨true, true, true⟩ ⟨d', fun _ => none⟩
      ⟨d'.put u' Content.empty, upd (fun _ => none) 0 (some ⟨d'.put u' Content.empty, [], (Command.commit cw ci).prog E0⟩)⟩ :=
    .step (.step (.refl _) (.outside (.write (m := ⟨u', [u, root]⟩) Content.empty hS.live.mnt))) (.start 0 (.commit cw ci) rfl)
  refine ⟨d, w, u, root, d', _, hB.live.past.reachable, hB.live.gets, hB.live.mounted, hB.live.opens.head, hB.baseFree, ⟨r, he⟩, hst, by simp, ?_, ?_⟩
  · exact C32_commit_layer hB.live.past.reachable outw hB.live.gets hB.live.opens.head he hst
  · have := C32_commit_frozen hB.live.past.reachable outw hB.live.gets hB.live.mounted hB.live.opens.head hB.baseFree he hst hB.live.full
    rw [this]; exact hB.shows

/-- `C32_violated_commit`: the first commit of `/w` while somebody works in it. The file `f` is lost. -/
example : ∃ (d d' : Disk) (w w2 : OpenWs), Reachable E0 d ∧ Gets E0 d cw (lit ".") w ∧ d.lists w [lit "f"] = some (.file (lit "x")) ∧
    Exec E0 ⟨false, true, false⟩ (commitCmd E0 cw ci) d (.err .removeData) d' ∧ Gets E0 d' cw (lit ".") w2 ∧ d'.lists w2 [lit "f"] = none := by
  obtain ⟨d, w, u, root, hB⟩ := begun
  have := hB.used
  obtain ⟨d', w2, u2, h1, h2, _, _, _, _, h6, _⟩ := C32_violated_commit (f := ⟨false, true, false⟩) hB.live.past.reachable outw hB.live.gets hB.live.mounted hB.live.opens.head hB.may
    hB.live.full (fits (by simp)) hB.live.clearable (by omega) ci rfl
  exact ⟨d, d', w, w2, hB.live.past.reachable, hB.live.gets, hB.shows, h1, h2, by rw [h6]⟩

/-- `C35_isolated_partial`: `/w` and its clone `/v`. -/
example : ∃ (d : Disk) (w1 w2 : OpenWs) (u1 : UID), Reachable E0 d ∧ Gets E0 d cw (lit ".") w1 ∧ Gets E0 d cv (lit ".") w2 ∧ w1.spaceID = w2.spaceID ∧
    d.Mounted w1 ∧ d.Mounted w2 ∧ (∃ m, d.mnt w1.mount.id.base32 = some m ∧ m.upper = u1) ∧ ∀ c, (d.put u1 c).lists w2 = d.lists w2 := by
  obtain ⟨d0, w0, u0, root, d, w, u, d3, w1, w2, u2, hB, hS, hT⟩ := third
  refine ⟨d3, w1, w2, u, hT.live1.past.reachable, hT.live1.gets, hT.live2.gets, hT.space, hT.live1.mounted, hT.live2.mounted, ⟨_, hT.live1.mnt, rfl⟩, fun c => ?_⟩
  refine C35_isolated_partial hT.live1.past.reachable outw outv hT.live1.gets hT.live2.gets hT.live1.mounted hT.live2.mounted hT.mount hT.live1.opens.head hT.live2.opens.head ?_ c
  intro ha
  have t : w1.tree = w2.tree := loads_same outw outv hT.live1.gets hT.live2.gets (by rw [hT.live1.opens.dir, hT.live2.opens.dir, hT.space])
  have := anc_shorter ha (by rw [← t]; exact hT.live1.full) hT.live2.path
  simp at this

/-- `C35_steady_partial`: `/w` while a command starts elsewhere. -/
example : ∃ (d : Disk) (w : OpenWs) (u root : UID) (W : World), Reachable E0 d ∧ Gets E0 d cw (lit ".") w ∧ (∀ v, w.tree.abs.Anc v root → ¬ Head E0 d v) ∧
    Sys.Steps E0 ⟨true, true, true⟩ ⟨d, fun _ => none⟩ W ∧ W.procs 0 ≠ none ∧ W.disk.mnt w.mount.id.base32 = d.mnt w.mount.id.base32 ∧
    W.disk.layer u = d.layer u ∧ W.disk.lists w [lit "f"] = some (.file (lit "x")) := by
  obtain ⟨d, w, u, root, hB⟩ := begun
  have hst : Sys.Steps E0 ⟨true, true, true⟩ ⟨d, fun _ => none⟩ ⟨d, upd (fun _ => none) 0 (some ⟨d, [], (Command.init (lit "/y") (lit "main")).prog E0⟩)⟩ :=
    .step (.refl _) (.start 0 (.init (lit "/y") (lit "main")) rfl)
  refine ⟨d, w, u, root, _, hB.live.past.reachable, hB.live.gets, hB.baseFree, hst, by simp, rfl, rfl, ?_⟩
  rw [C35_steady_partial hB.live.past.reachable outw hB.live.gets hB.live.mounted hB.live.opens.head hB.baseFree hst rfl rfl]
  exact hB.shows

/-- `C35_violated_checkout`: `/v` checks out the working layer of `/w`. -/
example : ∃ (d d' : Disk) (w1 w2 w1' w2' : OpenWs) (u1 : UID), Reachable E0 d ∧ Gets E0 d cw (lit ".") w1 ∧ Gets E0 d cv (lit ".") w2 ∧
    (∃ r, Exec E0 Faults.none (checkoutCmd E0 cv u1.hex) d (.ok r) d') ∧ Gets E0 d' cw (lit ".") w1' ∧ Gets E0 d' cv (lit ".") w2' ∧
    (∃ m, d'.mnt w1'.mount.id.base32 = some m ∧ m.upper = u1) ∧
    (d'.put u1 (oneFile (lit "g") (lit "y"))).lists w2' [lit "g"] = some (.file (lit "y")) := by
  obtain ⟨d0, w0, u0, root, d, w, u, d3, w1, w2, u2, hB, hS, hT⟩ := third
  have := hT.used
  have t : w1.tree = w2.tree := loads_same outw outv hT.live1.gets hT.live2.gets (by rw [hT.live1.opens.dir, hT.live2.opens.dir, hT.space])
  have hp : w2.tree.abs.Path u [u, u0, root] := by rw [← t]; exact hT.live1.full
  have hR : Ws.Resolves w2.tree.abs w2.ws.id u0 u.hex u .commit := .id (hex_ne_head u) (hex_spells u) (by cases hp with | step h _ _ => exact ⟨_, h⟩)
  obtain ⟨d', r, _, _, he, _⟩ := live_checkout neat (hex_plain u) hT.live2 hR hp (fits (by simp)) (by omega)
  obtain ⟨w1', w2', h1, _, h3, _, _, h6, _, h8⟩ := C35_violated_checkout hT.live1.past.reachable outw outv hT.live1.gets hT.live2.gets hT.live1.mounted hT.mount
    (Ne.symm vw) hT.live1.opens.head hT.live2.opens.head hR he
  exact ⟨d3, d', w1, w2, w1', w2', u, hT.live1.past.reachable, hT.live1.gets, hT.live2.gets, ⟨r, he⟩, h1, h3, h6, (h8 _ _).2⟩

/-- `C36_reachable`: `/w` and `/v` are both mounted, so their layers differ. -/
example : ∃ (d : Disk) (w1 w2 : OpenWs) (u1 u2 : UID), Reachable E0 d ∧ (∃ ls, d.mnt w1.mount.id.base32 = some ⟨u1, ls⟩) ∧
    (∃ ls, d.mnt w2.mount.id.base32 = some ⟨u2, ls⟩) ∧ w1.mount.id ≠ w2.mount.id ∧ u1 ≠ u2 := by
  obtain ⟨d0, w0, u0, root, d, w, u, d3, w1, w2, u2, hB, hS, hT⟩ := third
  refine ⟨d3, w1, w2, u, u2, hT.live1.past.reachable, ⟨_, hT.live1.mnt⟩, ⟨_, hT.live2.mnt⟩, hT.mount, fun e => hT.mount ?_⟩
  exact base32_inj (C36_reachable (f := Faults.none) hT.live1.past.reachable (.refl _) hT.live1.mnt hT.live2.mnt e)

end Story
end Verif
