import Verif.Props.Clash
import Verif.Props.MoreExamples
/-!
# Cases of the theorems about lost histories
-/
set_option autoImplicit false
namespace Verif
open M TS Json
namespace Story

/-- A successful change was one that the workspace carries out. -/
theorem edit_applied {E : Env} {f : Faults} {d d1 : Disk} {cwd : Str} {w : OpenWs} {u p : UID} (ho : Opens E d cwd (lit ".") w u p) {e : Edit} {s : TS}
    (he : Exec E f (editCmd E cwd [e]) d (.ok s) d1) : ∃ s', e.apply w.tree w.ws = .ok s' := by
  unfold editCmd at he
  obtain ⟨w0, d3, h1, h2⟩ := exec_ok_inv he
  obtain ⟨rfl, rfl⟩ := wpm_exec_ok (getWorkspace_wp ho) h1
  simp only [editAll] at h2
  obtain ⟨s', d4, h3, h4⟩ := exec_ok_inv h2
  exact ⟨s', exec_lift_inv h3⟩

/-- Any new tag can be put on HEAD. -/
theorem taggable {d : Disk} {w : OpenWs} {u root : UID} (hB : Begun d w u root) (name : Str) (hname : name ≠ lit "ROOT") :
    ∃ s d', Exec E0 Faults.none (editCmd E0 cw [.addTag name (lit "HEAD") false]) d (.ok s) d' := by
  have := hB.used
  obtain ⟨r, d', he⟩ := exec_total (E := E0) (f := Faults.none) (editCmd_draws E0 cw [.addTag name (lit "HEAD") false]) d (by omega)
  have hno : w.tree.abs.tag name = none := by
    cases h : w.tree.abs.tag name with
    | none => rfl
    | some v => exact absurd ((hB.new.tags _ _).1 h).1 hname
  obtain ⟨s, rfl⟩ := (C24_accepted_iff hB.live.past.reachable outw hB.live.gets hB.live.opens.head rfl (e := .addTag name (lit "HEAD") false) plainHEAD he).2
    ⟨_, .addTag (v := root) (k := .commit) .head (Or.inl hno)⟩
  exact ⟨s, d', he⟩

/-- `C43_violated_tags` (and with it `C43_violated_clash`): `stackcrisp tag v1` and `stackcrisp tag v1.0` in two terminals. -/
example : ∃ d w W, Calmly E0 d ∧ Gets E0 d cw (lit ".") w ∧ Sys.Steps E0 Faults.none ⟨d, fun _ => none⟩ W ∧ Succeeded W 0 ∧ Succeeded W 1 ∧
    ∀ w', ¬ Gets E0 W.disk cw (lit ".") w' := by
  obtain ⟨d, w, u, root, hB⟩ := begun
  obtain ⟨_, _, he1⟩ := taggable hB (lit "v1") (by decide)
  obtain ⟨_, _, he2⟩ := taggable hB (lit "v1.0") (by decide)
  obtain ⟨s1, h1⟩ := edit_applied hB.live.opens he1
  obtain ⟨s2, h2⟩ := edit_applied hB.live.opens he2
  obtain ⟨W, a1, a2, a3, a4, _⟩ := C43_violated_tags hB.live.past.reachable outw outw hB.live.gets hB.live.gets rfl h1 h2 (by decide)
  exact ⟨d, w, W, hB.live.past, hB.live.gets, a1, a2, a3, a4 _ _ _ outw hB.live.gets rfl⟩

/-- `C41_violated_forever`, `C78_torn`, `C78_untouched`: `stackcrisp tag v1` is killed right after it has opened the file. -/
example : ∃ d w d2, Calmly E0 d ∧ Gets E0 d cw (lit ".") w ∧ Stops E0 Faults.none (editCmd E0 cw [.addTag (lit "v1") (lit "HEAD") false]) d d2 ∧
    (∀ (f : Faults) (W : World), Sys.Steps E0 f ⟨d2, fun _ => none⟩ W → W.disk.space w.spaceDir = some (some [])) ∧ (∀ s, d2.loads w.spaceDir ≠ .ok s) := by
  obtain ⟨d, w, u, root, hB⟩ := begun
  obtain ⟨_, _, he1⟩ := taggable hB (lit "v1") (by decide)
  have hst := truncated_stop hB.live.past.reachable outw hB.live.gets he1
  have hsp : (d.setSpace w.spaceDir (some (some []))).space w.spaceDir = some (some []) := upd_self _ _ _
  obtain ⟨D, hD⟩ := dumps_exists (wf_of_reach (opens_reach hB.live.opens))
  refine ⟨d, w, _, hB.live.past, hB.live.gets, hst, fun f W h => ?_, fun s => ?_⟩
  · refine (C78_torn (W := ⟨_, fun _ => none⟩) (fun _ => rfl) (T := w.tree) ⟨D, hD, rfl⟩ (List.nil_append _) ?_ hsp h).1
    obtain ⟨t, ht⟩ := emit_brace E0.sh (dumpFieldsJ D)
    rw [marshalDump, ht]; simp
  · unfold Disk.loads
    rw [hsp]
    show Res.err _ ≠ _
    simp

end Story
end Verif
