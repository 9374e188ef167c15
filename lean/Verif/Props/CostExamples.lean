import Verif.Props.Cost
import Verif.Props.Examples
/-!
# Examples for C93
-/
set_option autoImplicit false
namespace Verif
open M TS Json Story
namespace Story

/-- `C93_layers`, `C93_mounts`, `C93_spaces`, `C93_layers_stay`, `C93_init`, `C93_commit`: the bounds are reached. An `init` and, while its process has not ended, a `commit`: three layers. -/
example : ∃ (c1 c2 : Command) (W : World), Sys.Logged E0 Faults.none ⟨disk0, fun _ => none⟩ [c2, c1] W ∧ ([c2, c1].map Command.layers).sum = 3 ∧ ([c2, c1].map Command.mounts).sum = 2 ∧
    ([c2, c1].map Command.spaces).sum = 1 ∧ (∀ i, (⟨disk0, fun _ => none⟩ : World).procs i = none) ∧
    ∃ x y z, x ≠ y ∧ y ≠ z ∧ x ≠ z ∧ (∀ u ∈ [x, y, z], disk0.layer u = none ∧ W.disk.layer u ≠ none) := by
  obtain ⟨d1, r, w, u, root, he, hL, hus, hb, hN, hfr, hhd⟩ := live_init (E := E0) (d := disk0) ⟨disk0, untouched0, .refl⟩ (cwd := cw) (branch := lit "main")
    outw rfl (fits (by decide)) (by decide)
  rw [main_clean] at hb hN
  have hf : MayCommit w u := by
    refine Or.inr ⟨root, ?_, .step hN.work rfl (.refl hN.first)⟩
    rw [hb]
    exact (hN.branches _ _).2 ⟨rfl, rfl⟩
  have hus0 : d1.used.length ≤ 5 := hus
  obtain ⟨d2, r2, w2, u2, he2, hL2, _⟩ := live_commit neat hL hf (fits (by simp)) (by omega) ci
  obtain ⟨⟨x, y, hxy, hx, hy, hl1⟩, _, _⟩ := C93_init (f := Faults.none) (E := E0) (d := disk0) (cwd := cw) (path := lit ".") (Calmly.reachable ⟨disk0, untouched0, .refl⟩) outw he
  obtain ⟨⟨z, hz, hl2⟩, _⟩ := C93_commit hL.past.reachable outw hL.gets he2
  have e1 : Exec E0 Faults.none ((Command.init (Path.abs cw (lit ".")) (lit "main")).prog E0) disk0 (.ok (.made r)) d1 := exec_ok he (.ret _ _)
  have e2 : Exec E0 Faults.none ((Command.commit cw ci).prog E0) d1 (.ok (.moved r2.1 r2.2)) d2 := exec_ok he2 (.ret _ _)
  obtain ⟨p1, k1, _, k3⟩ := logged_exec (w0 := ⟨disk0, fun _ => none⟩) (i := 0) e1 (upd_self _ _ _) (Sys.Logged.start 0 _ (.refl _) rfl)
  obtain ⟨p2, k4, _, _⟩ := logged_exec (w0 := ⟨disk0, fun _ => none⟩) (i := 1) e2 (upd_self _ _ _)
    (Sys.Logged.start 1 _ k1 (by simp only [k3 1 (by decide)]; rfl))
  have hzx : z ≠ x := by rintro rfl; rw [hl1, upd_ne _ _ hxy, upd_self] at hz; cases hz
  have hzy : z ≠ y := by rintro rfl; rw [hl1, upd_self] at hz; cases hz
  refine ⟨_, _, _, k4, rfl, rfl, rfl, fun _ => rfl, x, y, z, hxy, Ne.symm hzy, Ne.symm hzx, fun v hv => ?_⟩
  simp only [List.mem_cons, List.not_mem_nil, or_false] at hv
  rcases hv with rfl | rfl | rfl
  · exact ⟨hx, by simp only [hl2, hl1, upd_ne _ _ (Ne.symm hzx), upd_ne _ _ hxy, upd_self]; simp⟩
  · exact ⟨hy, by simp only [hl2, hl1, upd_ne _ _ (Ne.symm hzy), upd_self]; simp⟩
  · rw [hl1, upd_ne _ _ hzy, upd_ne _ _ hzx] at hz
    exact ⟨hz, by simp only [hl2, upd_self]; simp⟩

/-- `C93_checkout`, `C93_clone`: both succeed in `/w`. -/
example : ∃ (d d1 d2 : Disk) (w r2 : OpenWs) (r : OpenWs × OpenWs), Reachable E0 d ∧ Gets E0 d cw (lit ".") w ∧ Exec E0 Faults.none (checkoutCmd E0 cw (lit "HEAD")) d (.ok r) d1 ∧
    Swapped E0.owner d d1 ∧ Exec E0 Faults.none (cloneCmd E0 cw (lit ".") (Path.abs cv (lit "."))) d (.ok r2) d2 ∧ OneMore E0.owner d d2 := by
  obtain ⟨d, w, u, root, hB⟩ := begun
  have hu := hB.used
  have hk : PlainKey (lit "HEAD") := by unfold PlainKey; decide
  obtain ⟨d1, r, w1, u1, he, _⟩ := live_checkout neat hk hB.live .head hB.live.path (fits (by simp)) (by omega)
  obtain ⟨d2, r2, w2, u2, he2, _⟩ := live_clone neat hB.live outv (hB.free _ (by decide)) (fits (by simp)) (by omega)
  exact ⟨d, d1, d2, w, r2, r, hB.live.past.reachable, hB.live.gets, he, C93_checkout hB.live.past.reachable outw hB.live.gets he, he2,
    C93_clone hB.live.past.reachable outw outv hB.live.gets he2⟩

end Story
end Verif
