import Verif.Props.Again
import Verif.Props.Started
/-!
# Repeating an `init` or a `clone` that was cut short (C113)
-/
set_option autoImplicit false
namespace Verif
open M TS Json

section
variable {E : Env} {f : Faults}

/-- **C113.** An `init` on a free path is killed at any moment, or any call of it fails. If no record has lost its mount then, the new workspace is there and opens, or
repeating the `init` succeeds on a system that works and gives a new workspace. -/
theorem C113_init_repeated {d d1 : Disk} (hd : Legacy E d) (hf : f.rep = false) {cwd path branch : Str} (hout : E.Outside (Path.abs cwd path))
    (hfree : d.user (Path.abs cwd path) = .none ∨ d.user (Path.abs cwd path) = .emptyDir) (hfit : E.Fits 1) (h : Stops E f (initCmd E (Path.abs cwd path) branch) d d1)
    (hm : ∀ n b i, d1.info n = some b → unmarshalInfo b = some i → d1.mdir n ≠ none) :
    (∃ w1 u1 root, Gets E d1 cwd path w1 ∧ d1.Mounted w1 ∧ w1.ws.branch = sanitize branch ∧ NewHistory w1.tree.abs w1.ws.id root u1 (sanitize branch)) ∨
    ∀ r d2, Exec E Faults.none (initCmd E (Path.abs cwd path) branch) d1 r d2 → (∃ x, r = .ok x) ∧
      ∃ w2 u2 root, Gets E d2 cwd path w2 ∧ d2.Mounted w2 ∧ w2.ws.branch = sanitize branch ∧ NewHistory w2.tree.abs w2.ws.id root u2 (sanitize branch) ∧ ∀ p, d2.lists w2 p = none := by
  have hst : Stops E f ((Command.init (Path.abs cwd path) branch).prog E) d d1 := stops_bind h
  have hr1 := reachable_legacy (C77_killed hd hf hst hm)
  have again : d1.user (Path.abs cwd path) = .none ∨ d1.user (Path.abs cwd path) = .emptyDir →
      ∀ r d2, Exec E Faults.none (initCmd E (Path.abs cwd path) branch) d1 r d2 → (∃ x, r = .ok x) ∧
        ∃ w2 u2 root, Gets E d2 cwd path w2 ∧ d2.Mounted w2 ∧ w2.ws.branch = sanitize branch ∧ NewHistory w2.tree.abs w2.ws.id root u2 (sanitize branch) ∧ ∀ p, d2.lists w2 p = none := by
    intro hu r d2 he
    obtain ⟨x, rfl⟩ := C55_accepted hr1 (off_of_outside hout) (by rcases hu with e | e <;> simp only [FreeFor, e]) (hu.imp_right Or.inl) hfit he
    obtain ⟨w, root, u, a1, _, a3, a4, a5, a6, _⟩ := C55_init hr1 hout he
    exact ⟨⟨x, rfl⟩, w, u, root, a1, a5, a3, a4, a6⟩
  rcases (C86_init hout h).2.2 with h1 | ⟨w1, u1, root, ⟨h1 | ⟨h1, _⟩, _, _, ls, _, h3, _⟩, _, _, h4, h5⟩
  · exact Or.inr (again (by rw [h1]; exact hfree))
  · exact Or.inl ⟨w1, u1, root, h1, by rw [Disk.Mounted, h3]; simp, h4, h5⟩
  · exact Or.inr (again (Or.inl h1))

theorem headAt_get {s : TS} (h : Reach s) {w : Ws} {u p v : UID} (hh : w.HeadAt s u p) (hv : s.get v = some w.head) : v = u := by
  obtain ⟨o, h1, h2⟩ := (wf_of_reach h).idx _ _ hv
  obtain ⟨o', h3, h4⟩ := (wf_of_reach h).idx _ _ hh.1
  rw [h1] at h3; cases h3
  exact C03_hex_injective (h2.symm.trans h4)

/-- **C113.** A `clone` to a free path is killed at any moment, or any call of it fails. If the source opens then and no record has lost its mount, the new workspace is
there, on the last commit of the source, or repeating the `clone` succeeds on a system that works and gives such a workspace, with the files of that commit. -/
theorem C113_clone_repeated {d d1 : Disk} (hd : Legacy E d) (hf : f.rep = false) {cwd source cwd2 path2 : Str} (hout : E.Outside (Path.abs cwd source)) {w : OpenWs}
    (hg : Gets E d cwd source w) {u p : UID} (hh : w.ws.HeadAt w.tree u p) (hout2 : E.Outside (Path.abs cwd2 path2)) (hne : Path.abs cwd source ≠ Path.abs cwd2 path2)
    (hfree : d.user (Path.abs cwd2 path2) = .none ∨ d.user (Path.abs cwd2 path2) = .emptyDir) {ls : List UID} (hls : w.tree.abs.Path p ls) (hfit : E.Fits ls.length)
    (h : Stops E f (cloneCmd E cwd source (Path.abs cwd2 path2)) d d1)
    (hm : ∀ n b i, d1.info n = some b → unmarshalInfo b = some i → d1.mdir n ≠ none) {w1 : OpenWs} (hg1 : Gets E d1 cwd source w1) :
    w1.ws.HeadAt w1.tree u p ∧ ((∃ w2 u2, Gets E d1 cwd2 path2 w2 ∧ w2.ws.HeadAt w2.tree u2 p ∧ w2.spaceID = w.spaceID ∧ d1.Mounted w2) ∨
    ∀ r d2, Exec E Faults.none (cloneCmd E cwd source (Path.abs cwd2 path2)) d1 r d2 → (∃ x, r = .ok x) ∧
      ∃ w2 u2, Gets E d2 cwd2 path2 w2 ∧ w2.ws.HeadAt w2.tree u2 p ∧ w2.spaceID = w.spaceID ∧ d2.Mounted w2 ∧ d2.lists w2 = files (ls.map d.content)) := by
  have hr := reachable_legacy hd
  have hst : Stops E f ((Command.clone cwd source (Path.abs cwd2 path2)).prog E) d d1 := stops_bind h
  have hr1 := reachable_legacy (C77_killed hd hf hst hm)
  obtain ⟨g, hs⟩ := steady_reachable hr
  obtain ⟨T, hF⟩ := gets_found hs hout hg hh
  obtain ⟨g1, hs1⟩ := steady_reachable hr1
  obtain ⟨u1, p1, T1, hF1⟩ := found_of_gets hs1 hout hg1
  have hM := wp_stops (cloneCmd_wp (f := f) hF.opens (off_of_outside hout2)) (mid_litter (litter_refl d)) h
  -- the source is what it was
  obtain ⟨a1, ⟨raw, i, a2, a3, a4, x, a5, a6⟩, a7⟩ := gets_reads hout hg
  obtain ⟨b1, ⟨raw1, i1, b2, b3, b4, x1, b5, b6⟩, b7⟩ := gets_reads hout hg1
  have hid : w1.mount.id = w.mount.id := by
    rw [hM.user _ hne] at b1
    rw [a1] at b1; exact (Res.ok.inj b1).symm
  rw [hid, (hM.mounts _ hF.mdir (fun x => x)).2.1, a2] at b2
  obtain rfl := Option.some.inj b2
  rw [a3] at b3
  obtain rfl := Option.some.inj b3
  rw [a5] at b5
  obtain rfl := Res.ok.inj b5
  have hdir : w1.spaceDir = w.spaceDir := b4.symm.trans a4
  have hsid : w1.spaceID = w.spaceID := base32_inj (by rw [← hF1.opens.dir, ← hF.opens.dir, hdir])
  obtain rfl := headAt_get (opens_reach hF.opens) hh a6
  obtain rfl := headAt_get (opens_reach hF1.opens) hF1.opens.head b6
  have hn : d.space w.spaceDir ≠ none := by
    obtain ⟨_, b, _, _, e, _⟩ := hF.opens.tree
    rw [e]; simp
  have htree : Below w1.tree.abs x p ∧ w1.tree.abs.Path p ls := by
    rw [hdir] at b7
    rcases C41_clone hr (off_of_outside hout2) hout hg hh h hn with e | ⟨_, e⟩ | ⟨_, u', s', k1, k2, k3⟩
    · rw [e, a7] at b7
      rw [← Res.ok.inj b7]
      exact ⟨hh.2, hls⟩
    · rw [e] at b7; cases b7
    · rw [k2] at b7
      rw [← Res.ok.inj b7]
      have := path_back k3 (extends_path (extends_add (S := fun _ => True) k1) hls)
      refine ⟨?_, this⟩
      obtain ⟨n, e1, e2⟩ := hh.2
      obtain ⟨n', e3, e4, _⟩ := k3.node x n ((upd_ne _ _ (by rintro rfl; exact k1 ⟨n, e1⟩)).trans e1)
      exact ⟨n', e3, e4.trans e2⟩
  have hh1 : w1.ws.HeadAt w1.tree x p := ⟨b6, htree.1⟩
  refine ⟨hh1, ?_⟩
  have again : d1.user (Path.abs cwd2 path2) = .none ∨ d1.user (Path.abs cwd2 path2) = .emptyDir →
      ∀ r d2, Exec E Faults.none (cloneCmd E cwd source (Path.abs cwd2 path2)) d1 r d2 → (∃ x, r = .ok x) ∧
        ∃ w2 u2, Gets E d2 cwd2 path2 w2 ∧ w2.ws.HeadAt w2.tree u2 p ∧ w2.spaceID = w.spaceID ∧ d2.Mounted w2 ∧ d2.lists w2 = files (ls.map d.content) := by
    intro hu r d2 he
    obtain ⟨y, rfl⟩ := (C62_clone_accepted_iff hr1 hout (off_of_outside hout2) hg1 hh1 htree.2 (fun t ht => by rcases hu with e | e <;> rw [e] at ht <;> cases ht) he).2
      ⟨hfit, (by rcases hu with e | e <;> rw [e] <;> simp), (by rcases hu with e | e <;> rw [e] <;> simp), fun ⟨_, _, e', _⟩ => by rcases hu with e | e <;> rw [e] at e' <;> cases e'⟩
    obtain ⟨w2, u2, c1, c2, c3, c4, ⟨ls', c5, c6⟩, _⟩ := C34_clone hr1 hout hg1 hh1 hout2 he
    refine ⟨⟨y, rfl⟩, w2, u2, c1, c2, c3.trans hsid, c4, ?_⟩
    rw [c6, Ws.path_unique c5 htree.2]
    congr 1
    refine List.map_congr_left fun z hz => ?_
    obtain ⟨c, hc⟩ := hF.opens.stored z (path_has hls z hz)
    simp only [Disk.content, (C86_clone hr hout hg hh hout2 h).2.1 z (by rw [hc]; simp)]
  rcases (C86_clone hr hout hg hh hout2 h).2.2 with h1 | ⟨w2, u2, _, ⟨h1 | ⟨h1, _⟩, h2, _, _, _, h3, _⟩, h4, _⟩
  · exact Or.inr (again (by rw [h1]; exact hfree))
  · exact Or.inl ⟨w2, u2, h1, h2, h4, by rw [Disk.Mounted, h3]; simp⟩
  · exact Or.inr (again (Or.inl h1))

end
end Verif
