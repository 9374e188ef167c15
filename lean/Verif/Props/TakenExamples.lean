import Verif.Props.Taken
import Verif.Props.MoreExamples
/-!
# Concrete cases for C87
-/
set_option autoImplicit false
namespace Verif
open M TS Json Story

namespace Story

theorem only_link {d : Disk} {m : UID} (h : ∀ p, p ≠ Path.abs cw (lit ".") → d.user p = .none) : OnlyLink E0 d (Path.abs cw (lit ".")) m := by
  intro cwd p t hp ht
  rw [h _ hp] at ht
  cases ht

/-- `C87_init_partial`: `init` in `/w`, where there is a file. -/
example : ∃ d w, Reachable E0 d ∧ Gets E0 d cw (lit ".") w ∧ ∀ r d', Exec E0 Faults.none (initCmd E0 (Path.abs cw (lit ".")) (lit "main")) d r d' → r = .err .notEmpty ∧ d' = d := by
  obtain ⟨d, w, u, root, hB⟩ := begun
  have hx : d.shows w.mount.id.base32 [lit "f"] ≠ none := by
    have := hB.shows
    rw [Disk.lists, if_neg (by simp)] at this
    rw [this]; simp
  exact ⟨d, w, hB.live.past.reachable, hB.live.gets, (C87_init_partial (off_of_outside outw) rfl hB.live.link ⟨_, _, hB.live.mdir, rfl⟩ hx).2⟩

/-- `C87_violated_clone`: the workspace `/w` is cloned to its own path; the file is out of reach. -/
example : ∃ d d' a w, Reachable E0 d ∧ Gets E0 d cw (lit ".") w ∧ d.lists w [lit "f"] = some (.file (lit "x")) ∧
    Exec E0 Faults.none (cloneCmd E0 cw (lit ".") (Path.abs cw (lit "."))) d (.ok a) d' ∧ Unlinked E0 d' w.mount.id := by
  obtain ⟨d, w, u, root, hB⟩ := begun
  have := hB.used
  obtain ⟨r, d', he⟩ := exec_total (E := E0) (f := Faults.none) (cloneCmd_draws E0 cw (lit ".") (Path.abs cw (lit "."))) d (by omega)
  obtain ⟨⟨a, rfl⟩, _, h, _⟩ := C87_violated_clone hB.live.past.reachable outw outw hB.live.gets hB.live.opens.head hB.live.path (fits (by simp)) hB.live.gets hB.live.link
    ⟨_, _, hB.live.mdir, rfl⟩ (only_link hB.free) he
  exact ⟨d, d', a, w, hB.live.past.reachable, hB.live.gets, hB.shows, he, h⟩

/-- `C87_violated_init`: `init` twice. -/
example : ∃ d d' a w, Reachable E0 d ∧ Gets E0 d cw (lit ".") w ∧ Exec E0 Faults.none (initCmd E0 (Path.abs cw (lit ".")) (lit "main")) d (.ok a) d' ∧ Unlinked E0 d' w.mount.id := by
  obtain ⟨d, r, w, u, root, he, hL, hus, hb, hN, hfr, hhd⟩ := live_init (E := E0) (d := disk0) ⟨disk0, untouched0, .refl⟩ (cwd := cw) (branch := lit "main")
    outw rfl (fits (by decide)) (by decide)
  obtain ⟨w1, _, _, hg, _, _, _, _, hx, _⟩ := C55_init (E := E0) (Calmly.reachable (E := E0) ⟨disk0, untouched0, .refl⟩) outw he
  have := gets_unique hL.past.reachable outw hg hL.gets
  subst this
  have : d.used.length ≤ 5 := hus
  obtain ⟨r', d', he'⟩ := exec_total (E := E0) (f := Faults.none) (initCmd_draws E0 (Path.abs cw (lit ".")) (lit "main")) d (by omega)
  obtain ⟨⟨a, rfl⟩, _, h, _⟩ := C87_violated_init hL.past.reachable outw hL.gets hL.link ⟨_, _, hL.mdir, rfl⟩ (fun x => by
    have := hx [x]
    rwa [Disk.lists, if_neg (by simp)] at this) (fits (by simp)) (only_link hfr) he'
  exact ⟨d, d', a, _, hL.past.reachable, hL.gets, he', h⟩

end Story
end Verif
