import Verif.Props.Below
import Verif.Props.CwdExamples
/-!
# Commands below the top of a workspace: examples
-/
set_option autoImplicit false
namespace Verif
open M TS Json Story
namespace Story

/-- A directory `sub` with nothing in it. -/
def withDir : Content := fun p => if p = [] then some (.dir false .new) else if p = [lit "sub"] then some (.dir true .new) else none
/-- A directory `sub` with the file `f`. -/
def withFull : Content := fun p => if p = [] then some (.dir false .new) else if p = [lit "sub"] then some (.dir true .new) else
  if p = [lit "f", lit "sub"] then some (.file (lit "x")) else none

theorem sub_plain : ∀ c ∈ [lit "sub"], Path.Plain c := by
  intro c hc
  rw [List.mem_singleton] at hc
  subst hc
  exact ⟨by decide, by decide, by decide, by decide⟩

/-- `C106_refused_partial`: in `/w/sub`. -/
example : ∃ d w, Gets E0 d cw (lit ".") w ∧ ∀ d' r, Exec E0 Faults.none (commitCmd E0 (lit "/w/sub") ci) d r d' → r = .err .path ∧ d' = d := by
  obtain ⟨d, w, u, root, hB⟩ := begun
  refine ⟨d, w, hB.live.gets, fun d' r h => (C106_refused_partial ?_ ?_).1 ci r h⟩
  · intro rest h
    have hc : Path.comps (Path.abs (lit "/w/sub") (lit ".")) = [lit "w", lit "sub"] := by decide
    have hr : Path.comps E0.root = [lit "d"] := by decide
    rw [hc, hr] at h
    exact absurd h (by simp; intro h; exact absurd h (by decide))
  · intro t
    rw [hB.free _ (by decide)]
    nofun

/-- `C106_violated_commit`: in the empty directory `sub`, known by its real path. The command succeeds, and the workspace is gone. -/
example : ∃ d d' w r, Gets E0 d cw (lit ".") w ∧ ExecBelow E0 (commitCmd E0 (E0.belowPath w.mount.id [lit "sub"]) ci) d (.ok r) d' ∧ ∀ w1, ¬ Gets E0 d' cw (lit ".") w1 := by
  obtain ⟨d0, w, u, root, hB⟩ := begun
  obtain ⟨hL, hus, hc⟩ := live_write hB.live withDir
  have hl := hL.link
  rw [absw] at hl
  have := hB.used
  have hs : ∀ r, (d0.put u withDir).shows w.mount.id.base32 r = view [withDir, (d0.put u withDir).content root] r := fun r => by
    simp only [Disk.shows, hL.mnt, List.map_cons, hc, List.map_nil]
  obtain ⟨b1, b2⟩ := below_path (E := E0) (i := w.mount.id) (xs := [lit "sub"]) (by simp) sub_plain
  have hemp : ∀ x, (d0.put u withDir).shows w.mount.id.base32 (x :: [lit "sub"].reverse) = none := by
    intro x
    rw [hs]
    simp [view, stack, merge, topEnt, withDir]
  obtain ⟨h1, h2⟩ := C106_violated_commit hL.past.reachable (P := cw) (by decide) outw' hL.gets hL.opens.head hL.path (fits (by simp)) hB.may hL.mounted
    ⟨_, _, hl, hL.mdir, rfl⟩ b2 b1 ⟨.new, by rw [hs]; simp [view, stack, topEnt, withDir]⟩ ci
  obtain ⟨r, d', he⟩ := h1 (by rw [hus]; omega) (Or.inr ⟨_, rfl⟩)
  obtain ⟨⟨x, rfl⟩, h3, _⟩ := (h2 _ _ he).2 hemp
  exact ⟨_, d', w, x, hL.gets, he, h3.2.1⟩

/-- `C106_violated_commit`: in the directory `sub` with a file in it. The command fails, and the commit is in the history. -/
example : ∃ d d' w w1, Gets E0 d cw (lit ".") w ∧ ExecBelow E0 (commitCmd E0 (E0.belowPath w.mount.id [lit "sub"]) ci) d (.err .clearPath) d' ∧ Gets E0 d' cw (lit ".") w1 ∧
    w1.mount = w.mount := by
  obtain ⟨d0, w, u, root, hB⟩ := begun
  obtain ⟨hL, hus, hc⟩ := live_write hB.live withFull
  have hl := hL.link
  rw [absw] at hl
  have := hB.used
  have hs : ∀ r, (d0.put u withFull).shows w.mount.id.base32 r = view [withFull, (d0.put u withFull).content root] r := fun r => by
    simp only [Disk.shows, hL.mnt, List.map_cons, hc, List.map_nil]
  obtain ⟨b1, b2⟩ := below_path (E := E0) (i := w.mount.id) (xs := [lit "sub"]) (by simp) sub_plain
  have hfull : ∃ x, (d0.put u withFull).shows w.mount.id.base32 (x :: [lit "sub"].reverse) ≠ none := by
    refine ⟨lit "f", ?_⟩
    rw [hs]
    simp [view, stack, merge, topEnt, withFull]
  obtain ⟨h1, h2⟩ := C106_violated_commit hL.past.reachable (P := cw) (by decide) outw' hL.gets hL.opens.head hL.path (fits (by simp)) hB.may hL.mounted
    ⟨_, _, hl, hL.mdir, rfl⟩ b2 b1 ⟨.new, by rw [hs]; simp [view, stack, topEnt, withFull]⟩ ci
  obtain ⟨r, d', he⟩ := h1 (by rw [hus]; omega) (Or.inl hfull)
  obtain ⟨rfl, w1, u', _, h3, h4⟩ := (h2 _ _ he).1 hfull
  exact ⟨_, d', w, w1, hL.gets, he, h3.1, h3.2.2.1⟩

/-- `C106_violated_checkout`: `checkout HEAD` in the empty directory. -/
example : ∃ d d' w r, Gets E0 d cw (lit ".") w ∧ ExecBelow E0 (checkoutCmd E0 (E0.belowPath w.mount.id [lit "sub"]) (lit "HEAD")) d (.ok r) d' ∧ ∀ w1, ¬ Gets E0 d' cw (lit ".") w1 := by
  obtain ⟨d0, w, u, root, hB⟩ := begun
  obtain ⟨hL, hus, hc⟩ := live_write hB.live withDir
  have hl := hL.link
  rw [absw] at hl
  have := hB.used
  have hs : ∀ r, (d0.put u withDir).shows w.mount.id.base32 r = view [withDir, (d0.put u withDir).content root] r := fun r => by
    simp only [Disk.shows, hL.mnt, List.map_cons, hc, List.map_nil]
  obtain ⟨b1, b2⟩ := below_path (E := E0) (i := w.mount.id) (xs := [lit "sub"]) (by simp) sub_plain
  have hemp : ∀ x, (d0.put u withDir).shows w.mount.id.base32 (x :: [lit "sub"].reverse) = none := by
    intro x
    rw [hs]
    simp [view, stack, merge, topEnt, withDir]
  obtain ⟨h1, h2⟩ := C106_violated_checkout hL.past.reachable (P := cw) (by decide) outw' hL.gets hL.opens.head hL.path plainHEAD (kt := .commit) .head hL.path (fits (by simp)) hL.mounted
    ⟨_, _, hl, hL.mdir, rfl⟩ b2 b1 ⟨.new, by rw [hs]; simp [view, stack, topEnt, withDir]⟩
  obtain ⟨r, d', he⟩ := h1 (by rw [hus]; omega) (Or.inr ⟨_, rfl⟩)
  obtain ⟨⟨x, rfl⟩, h3, _⟩ := (h2 _ _ he).2 hemp
  exact ⟨_, d', w, x, hL.gets, he, h3.2.1⟩

end Story
end Verif
