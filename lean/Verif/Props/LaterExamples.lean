import Verif.Props.Killed
import Verif.Props.Later
import Verif.Props.MoreExamples
/-!
# Concrete cases for `Verif.Props.Killed` and `Verif.Props.Later`
-/
set_option autoImplicit false
namespace Verif
open M TS Json

theorem Calmly.legacy {E : Env} {d : Disk} (h : Calmly E d) : Legacy E d := by
  obtain ⟨d0, h0, hp⟩ := h
  exact C77_past (legacy_untouched h0) rfl rfl hp

namespace Story

/-- `C32_violated_killed`, `C77_killed`, `C77_commit`: the first commit of `/w` is killed after the tree has been saved. The file `g` that
is put into `/w` then is in the commit `first`. The commit that follows succeeds. -/
example : ∃ (d d1 : Disk) (w w1 : OpenWs) (u u1 root : UID), Gets E0 d cw (lit ".") w ∧ Stops E0 Faults.none (commitCmd E0 cw ci) d d1 ∧
    Gets E0 d1 cw (lit ".") w1 ∧ w1.ws.HeadAt w1.tree u root ∧ CommitEffect w.tree.abs w.ws u u1 ci w1.tree.abs ∧
    files ([u, root].map (d1.put u (oneFile (lit "g") (lit "y"))).content) [lit "g"] = some (.file (lit "y")) ∧ Legacy E0 d1 ∧
    (∃ r d2, Exec E0 Faults.none (commitCmd E0 cw ci) d1 r d2) ∧
    ∀ r d2, Exec E0 Faults.none (commitCmd E0 cw ci) d1 r d2 → ∃ x, r = .ok x := by
  obtain ⟨d, w, u, root, hB⟩ := begun
  have hu := hB.used
  obtain ⟨d1, w1, u1, h1, h2, h3, h4, h5, h6, ⟨m, hm, hmu⟩, h8, h8', h9⟩ := C32_violated_killed hB.live.past.reachable outw hB.live.gets hB.live.mounted hB.live.opens.head hB.may
    hB.live.full (fits (by simp)) hB.live.clearable (by omega) ci
  have hst : Stops E0 Faults.none ((Command.commit cw ci).prog E0) d d1 := stops_bind h1
  obtain ⟨⟨g, hg⟩, _⟩ := legacy_sound hB.live.past.legacy
  have hrec : ∀ n b i, d1.info n = some b → unmarshalInfo b = some i → d1.mdir n ≠ none := by
    intro n b i hb hi
    rw [(h8 n).1] at hb
    rcases hg.info n b hb with e | ⟨r, _, hr⟩
    · rw [hi] at e; cases e
    · rw [(h8 n).2 hr.mdir]; exact hr.mdir
  have hL := C77_killed hB.live.past.legacy rfl hst hrec
  have hused : d1.used.length ≤ d.used.length + 2 := stops_used (commitCmd_draws E0 cw ci) h1
  obtain ⟨r, d2, he⟩ := exec_total (E := E0) (f := Faults.none) (commitCmd_draws E0 cw ci) d1 (by omega)
  have hpath : w1.ws.path = w.ws.path := by
    obtain ⟨_, _, _, hF⟩ := found_of_gets (legacy_sound hL).1.choose_spec outw h2
    rw [hF.opens.path, hB.live.opens.path]
  have hlink : ∃ n m c, d1.user w1.ws.path = .link (E0.mountPath n) ∧ d1.mdir n = some m ∧ m.merged = some c := by
    obtain ⟨n, m, c, e1, e2, e3⟩ := hB.live.clearable
    exact ⟨n, m, c, by rw [h8', hpath]; exact e1, by rw [(h8 n).2 (by rw [e2]; simp)]; exact e2, e3⟩
  exact ⟨d, d1, w, w1, u, u1, root, hB.live.gets, h1, h2, h5, h4, h9 _ _, hL, ⟨r, d2, he⟩, fun r d2 he =>
    (C77_commit hB.live.past.legacy rfl hst hrec outw h2 h5 h6 (effect_path h4 hB.live.full) (fits (by simp)) hlink he).1⟩

/-- `C77_tidy`, `C77_apart`, `C77_past`: after the first commit a second one and an `init` have begun and have not come far. -/
example : ∃ (d : Disk) (w : OpenWs) (W : World), Legacy E0 d ∧ Gets E0 d cw (lit ".") w ∧ Sys.Apart E0 ⟨true, true, false⟩ ⟨d, fun _ => none⟩ W ∧
    W.procs 0 ≠ none ∧ W.procs 1 ≠ none ∧ Legacy E0 W.disk ∧ Reachable E0 W.disk := by
  obtain ⟨_, _, _, _, d, w, u', hB, hS⟩ := second
  have hL := hS.live.past.legacy
  have ha : ∀ (d : Disk) (ps : Nat → Option Proc), (∀ i p, ps i = some p → p.tr = []) → World.Apart ⟨d, ps⟩ := by
    intro d ps hps i j p q _ hp _ n
    constructor
    · rintro ⟨⟨tl, h⟩, _⟩; rw [hps i p hp] at h; cases h
    · rintro ⟨⟨tl, h⟩, _⟩; rw [hps i p hp] at h; cases h
  have hst : Sys.Apart E0 ⟨true, true, false⟩ ⟨d, fun _ => none⟩
      ⟨d, upd (upd (fun _ => none) 0 (some ⟨d, [], (Command.commit cw ci).prog E0⟩)) 1 (some ⟨d, [], (Command.init (lit "/y") (lit "main")).prog E0⟩)⟩ := by
    refine .step (.step (.refl _ (ha _ _ (fun _ _ h => nomatch h))) (.start 0 (.commit cw ci) rfl) (ha _ _ fun i p h => ?_)) (.start 1 (.init (lit "/y") (lit "main")) rfl) (ha _ _ fun i p h => ?_)
    · simp only [upd] at h
      split at h <;> cases h; rfl
    · simp only [upd] at h
      split at h
      · cases h; rfl
      · split at h <;> cases h; rfl
  obtain ⟨⟨g, hg⟩, _⟩ := legacy_sound hL
  have hr : ∀ n b i, d.info n = some b → unmarshalInfo b = some i → d.mdir n ≠ none := by
    intro n b i hb hi
    rcases hg.info n b hb with e | ⟨r, _, hr⟩
    · rw [hi] at e; cases e
    · exact hr.mdir
  have hz := C77_apart hL rfl hst hr
  exact ⟨d, w, _, hL, hS.live.gets, hst, by simp [upd], by simp, hz, reachable_legacy hz⟩

end Story
end Verif
