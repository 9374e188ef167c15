import Verif.Props.TwoRoots
import Verif.Props.Examples
/-!
# Examples for C108
-/
set_option autoImplicit false
namespace Verif
open M TS Json Story
namespace Story

/-- A second data directory, `/e`. -/
def Ee : Env := ⟨lit "/e", true, 0⟩

theorem awayE : E0.Away Ee := by
  intro rest rest' h
  have h1 : Path.comps E0.root = [lit "d"] := by decide
  have h2 : Path.comps Ee.root = [lit "e"] := by decide
  rw [h1, h2] at h
  exact absurd (List.cons.inj h).1 (by decide)

theorem outE {c : Str} (p : Str) (h : Path.comps p = [c]) (hc : c ≠ lit "e") : Ee.Outside p := by
  intro rest e
  have h2 : Path.comps Ee.root = [lit "e"] := by decide
  rw [h, h2] at e
  exact hc (List.cons.inj e).1

/-- `/v` is a workspace of `/e` that shows no files, `/w` is one of `/d`. -/
structure TwoWs (d1 d2 : Disk) (w1 w2 : OpenWs) : Prop where
  same : d1.user = d2.user
  one : ∃ u root, Live E0 d1 cw w1 u root [root] ∧ MayCommit w1 u
  two : ∃ u root, Live Ee d2 cv w2 u root [root]
  used : d1.used.length ≤ 5
  empty : ∀ x, d2.lists w2 [x] = none

theorem twoWs : ∃ d1 d2 w1 w2, TwoWs d1 d2 w1 w2 := by
  have hfit : Ee.Fits 1 := by
    have : ((Path.comps Ee.root).map fun a => a.length + 1).sum = 2 := by decide
    unfold Env.Fits
    rw [this]; omega
  obtain ⟨d2, r2, w2, u2, root2, he2, hL2, hus2, _, _, hfr2, _⟩ := live_init (E := Ee) (d := disk0) ⟨disk0, untouched0, .refl⟩ (cwd := cv) (branch := lit "main")
    (outE (c := lit "v") _ (by decide) (by decide)) rfl hfit (by decide)
  have hC : Calmly E0 { disk0 with user := d2.user } := ⟨disk0, untouched0, .step (o := 0) .refl (a := .files d2.user) trivial .files⟩
  obtain ⟨d1, r1, w1, u1, root1, he1, hL1, hus1, hb1, hN1, hfr1, _⟩ := live_init (E := E0) hC (cwd := cw) (branch := lit "main") outw
    (hfr2 _ (Ne.symm vw)) (fits (by decide)) (by show 0 + 5 < 2 ^ 128; decide)
  have hl : d1.user (Path.abs cv (lit ".")) = .link (Ee.mountPath w2.mount.id.base32) := (hfr1 _ vw).trans hL2.link
  have hmay : MayCommit w1 u1 := by
    refine Or.inr ⟨root1, ?_, .step hN1.work rfl (.refl hN1.first)⟩
    rw [hb1]
    exact (hN1.branches _ _).2 ⟨rfl, rfl⟩
  have hempty : ∀ x, d2.lists w2 [x] = none := by
    obtain ⟨w, _, _, hg, _, _, _, _, hno, _⟩ := C55_init (cwd := cv) (path := lit ".") (reachable_untouched (E := Ee) (f := Faults.none) rfl untouched0 .refl) (outE (c := lit "v") _ (by decide) (by decide)) he2
    obtain rfl := gets_unique hL2.past.reachable hL2.opens.out hg hL2.gets
    exact fun x => hno [x]
  refine ⟨d1, { d2 with user := d1.user }, w1, w2, rfl, ⟨u1, root1, hL1, hmay⟩, ⟨u2, root2, ?_⟩, hus1, hempty⟩
  obtain ⟨d0, h0, hp⟩ := hL2.past
  have ho := hL2.opens
  exact ⟨⟨d0, h0, .step (o := 0) hp (a := .files d1.user) trivial .files⟩,
    ⟨ho.out, ⟨_, hl, by obtain ⟨t, a, b⟩ := ho.link; rw [hL2.link] at a; cases a; exact b⟩, ho.path, ho.info, ho.mount, ho.dir, ho.tree, ho.head, ho.stored⟩, hL2.mnt, hl, hL2.mdir, hL2.path⟩

theorem foreignE {d1 d2 : Disk} {w1 w2 : OpenWs} (h : TwoWs d1 d2 w1 w2) : Foreign E0 d1 (Path.abs cv (lit ".")) := by
  obtain ⟨_, _, hL⟩ := h.two
  refine ⟨_, by rw [h.same]; exact hL.link, fun n e => ?_⟩
  have h1 : Path.comps E0.root = [lit "d"] := by decide
  have h2 : Path.comps Ee.root = [lit "e"] := by decide
  unfold Env.mountPath joinRoot at e
  rw [h1, h2] at e
  simp only [List.cons_append, List.nil_append, Path.join] at e
  exact absurd (List.cons.inj (List.cons.inj e).2).1 (by decide)

/-- `C108_spelling`: two ways to write `/d`. -/
example : dataRootOf (lit "/x") (lit "../d/./") = dataRootOf (lit "/d/a") (lit "..") ∧ dataRootOf (lit "/x") (lit "d") ≠ dataRootOf (lit "/") (lit "d") := by decide

/-- `C108_refused`: there are runs of `commit` in `/v` with the data directory `/d`. -/
example : ∃ d1 d2 w1 w2 r d1', TwoWs d1 d2 w1 w2 ∧ Reachable Ee d2 ∧ E0.Away Ee ∧ E0.Outside (Path.abs cv (lit ".")) ∧ Ee.Outside (Path.abs cv (lit ".")) ∧
    Gets Ee d2 cv (lit ".") w2 ∧ (∀ t, d2.user (Path.abs cv (lit ".")) = .link t → Path.isAbs t = true) ∧ Exec E0 Faults.none (commitCmd E0 cv ci) d1 r d1' := by
  obtain ⟨d1, d2, w1, w2, h⟩ := twoWs
  obtain ⟨_, _, hL⟩ := h.two
  have := h.used
  obtain ⟨r, d', he⟩ := exec_total (E := E0) (f := Faults.none) (commitCmd_draws E0 cv ci) d1 (by omega)
  exact ⟨d1, d2, w1, w2, r, d', h, hL.past.reachable, awayE, outv, outE (c := lit "v") _ (by decide) (by decide), hL.gets, fun t ht => by rw [hL.link] at ht; cases ht; rfl, he⟩

/-- `C108_undisturbed`, `C108_past`: a commit in `/w` with the data directory `/d`, and what it leaves of `/v`. -/
example : ∃ d1 d2 w1 w2 r d1', TwoWs d1 d2 w1 w2 ∧ Exec E0 Faults.none (commitCmd E0 cw ci) d1 (.ok r) d1' ∧ ¬ (Act.commit cw ci).Takes (Path.abs cv (lit ".")) ∧
    Both E0 Ee Faults.none d1 d2 d1' { d2 with user := d1'.user } ∧ Gets Ee { d2 with user := d1'.user } cv (lit ".") w2 := by
  obtain ⟨d1, d2, w1, w2, h⟩ := twoWs
  obtain ⟨_, _, hL1, hmay⟩ := h.one
  obtain ⟨_, _, hL⟩ := h.two
  have hu := h.used
  obtain ⟨d1', r, _, _, he, _⟩ := live_commit neat hL1 hmay (fits (by simp)) (by omega) ci
  have ht : ¬ (Act.commit cw ci).Takes (Path.abs cv (lit ".")) := fun h => h
  have hh : Happens (E0.as 0) Faults.none (.commit cw ci) d1 d1' := .commit he
  exact ⟨d1, d2, w1, w2, r, d1', h, he, ht, .one (x := .commit cw ci) (o := 0) .refl outw hh,
    (C108_undisturbed hL1.past.reachable hL.past.reachable h.same awayE (a := .commit cw ci) (o := 0) outw hh outv hL.opens.out ht hL.gets
      fun t ht => by rw [hL.link] at ht; cases ht; rfl).2.1⟩

/-- `C108_violated_taken`, `C108_violated_lost`: the workspace at `/v` is lost by `init` and by `clone` with the other data directory. -/
example : ∃ d1 d2 w1 w2, TwoWs d1 d2 w1 w2 ∧
    (∃ r d1', Exec E0 Faults.none (initCmd E0 (Path.abs cv (lit ".")) (lit "main")) d1 (.ok r) d1' ∧ ∀ w', ¬ Gets Ee { d2 with user := d1'.user } cv (lit ".") w') ∧
    ∃ r d1', Exec E0 Faults.none (cloneCmd E0 cw (lit ".") (Path.abs cv (lit "."))) d1 (.ok r) d1' ∧ ∀ w', ¬ Gets Ee { d2 with user := d1'.user } cv (lit ".") w' := by
  obtain ⟨d1, d2, w1, w2, h⟩ := twoWs
  obtain ⟨_, _, hL1, hmay⟩ := h.one
  obtain ⟨_, _, hL⟩ := h.two
  have hu := h.used
  obtain ⟨k1, k2⟩ := C108_violated_lost hL1.past.reachable hL.past.reachable h.same awayE outv (outE (c := lit "v") _ (by decide) (by decide)) hL.gets
    (by unfold Disk.Mounted; rw [hL.mnt]; exact nofun) (foreignE h) (by omega)
  refine ⟨d1, d2, w1, w2, h, k1 _ (fits (by decide)) h.empty, k2 cw (lit ".") w1 outw (Ne.symm vw) hL1.gets fun u p ls hh hp => ?_⟩
  obtain ⟨rfl, rfl⟩ := headAt_unique (wf_of_reach (opens_reach hL1.opens)) hh hL1.opens.head
  obtain rfl := Ws.path_unique hp hL1.path
  exact fits (by simp)

end Story
end Verif
