import Verif.Props.Frozen
import Verif.Props.Safety
/-!
# A commit that is killed half way (C32)

`commit` saves the tree before it writes the new record. A command that is killed in between leaves a history in which the
commit exists, and a workspace that still works in it.
-/
set_option autoImplicit false
namespace Verif
open M TS Json

section
variable {E : Env} {f : Faults}

/-- What was there before a commit stays where it is. -/
theorem effect_path {a a' : ATree} {w : Ws} {u u2 : UID} {ci : CommitInfo} (h : CommitEffect a w u u2 ci a') {v : UID} {ls : List UID} (hp : a.Path v ls) :
    a'.Path v ls := by
  have key : ∀ v n, a.node v = some n → ∃ n', a'.node v = some n' ∧ n'.parent = n.parent := by
    intro v n hn
    obtain ⟨m, m', e1, e2, e3, _⟩ := h.commit
    by_cases h1 : v = u
    · subst h1; rw [hn] at e1; cases e1; exact ⟨m', e2, e3⟩
    · by_cases h2 : v = u2
      · subst h2; exact absurd ⟨n, hn⟩ h.fresh
      · exact ⟨n, by rw [h.others v h1 h2]; exact hn, rfl⟩
  induction hp with
  | root h1 h2 =>
    obtain ⟨n', e1, e2⟩ := key _ _ h1
    exact .root e1 (by rw [e2]; exact h2)
  | step h1 h2 _ ih =>
    obtain ⟨n', e1, e2⟩ := key _ _ h1
    exact .step e1 (by rw [e2]; exact h2) ih

/-- **Violation.** Every commit that would succeed can be killed so that the history has the commit - with its date and message,
and with the branch of the workspace on it - while the workspace still has the layer of the commit as its working layer: it
opens as before, every file put into it changes what the commit contains, and it can be committed again with another date and
message. No call fails for that. -/
theorem C32_violated_killed {d : Disk} (hd : Reachable E d) {cwd : Str} (hout : E.Outside (Path.abs cwd (lit "."))) {w : OpenWs}
    (hg : Gets E d cwd (lit ".") w) (hm : d.Mounted w) {u p : UID} (hh : w.ws.HeadAt w.tree u p) (hmay : MayCommit w u)
    {ls : List UID} (hls : w.tree.abs.Path u ls) (hfit : E.Fits ls.length)
    (hlink : ∃ n m c, d.user w.ws.path = .link (E.mountPath n) ∧ d.mdir n = some m ∧ m.merged = some c)
    (hused : d.used.length + 2 < 2 ^ 128) (ci : CommitInfo) :
    ∃ d1 w1 u1, Stops E Faults.none (commitCmd E cwd ci) d d1 ∧ Gets E d1 cwd (lit ".") w1 ∧ SameWs w w1 ∧
      CommitEffect w.tree.abs w.ws u u1 ci w1.tree.abs ∧ w1.ws.HeadAt w1.tree u p ∧ MayCommit w1 u ∧
      (∃ m, d1.mnt w1.mount.id.base32 = some m ∧ m.upper = u) ∧ (∀ n, d1.info n = d.info n ∧ (d.mdir n ≠ none → d1.mdir n = d.mdir n)) ∧ d1.user = d.user ∧
      ∀ x data, files (ls.map (d1.put u (oneFile x data)).content) [x] = some (.file data) := by
  obtain ⟨g, hs⟩ := steady_reachable hd
  obtain ⟨T, hF⟩ := gets_found hs hout hg hh
  obtain ⟨r, dz, he0⟩ := exec_total (E := E) (f := Faults.none) (commitCmd_draws E cwd ci) d hused
  obtain ⟨r, rfl⟩ := (C28_accepted_iff hd hout hg hh hls hfit hlink he0).2 hmay
  obtain ⟨wa, da, ha, h1⟩ := exec_ok_inv he0
  obtain ⟨rfl, rfl⟩ := wpm_exec_ok (getWorkspace_wp hF.opens) ha
  obtain ⟨w', db, hcp, h2⟩ := exec_ok_inv h1
  have ho := hF.opens
  have hr := opens_reach ho
  -- the parts of the commit
  obtain ⟨s1, g1, g2, g3, ⟨o, g4, g5⟩, g6⟩ := setToNode_spec hr ho.head.1 ci
  have hA : ∀ x, s1.abs.Has x ↔ wa.tree.abs.Has x := fun x => by rw [g6, note_has, note_has]
  have hst : Stored da s1.abs := fun x hx => ho.stored x ((hA x).1 hx)
  have hu : s1.abs.Has u := (abs_has_iff_get (wf_of_reach g2) u).2 ⟨_, g3⟩
  have hcpe : commitP E wa ci = M.bind (createMount s1 o.id) fun q => M.bind (moveBranch q.1 (Ws.branchInfo wa.ws) q.2.2) fun s3 =>
      M.bind (spaceSave wa.spaceDir s3) fun _ => M.bind
        (saveInfo E { wa with tree := s3, mount := q.2.1, ws := ⟨wa.ws.id, wa.ws.path, q.2.2, (Ws.branchInfo wa.ws).localName⟩ }) fun _ =>
        M.pure { wa with tree := s3, mount := q.2.1, ws := ⟨wa.ws.id, wa.ws.path, q.2.2, (Ws.branchInfo wa.ws).localName⟩ } := by
    unfold commitP
    simp only [g1, g4]
    rfl
  rw [hcpe, g5] at hcp
  obtain ⟨⟨s2, mo, rr⟩, d1, hcm, h3⟩ := exec_ok_inv hcp
  obtain ⟨u1, ls', hN⟩ := wpm_exec_ok (createMount_wp g2 hu hst) hcm
  simp only at hN h3
  obtain ⟨s3, d2, hmb, h4⟩ := exec_ok_inv h3
  have hnode : s2.abs.node u1 = some ⟨some u, fun _ => none, fun _ => none⟩ := by rw [hN.abs]; simp [ATree.add]
  have hhead : (⟨wa.ws.id, wa.ws.path, rr, wa.ws.branch⟩ : Ws).HeadAt s2 u1 u := ⟨hN.head, _, hnode, rfl⟩
  obtain ⟨rfl, _, hr3, _, ha3⟩ := wpm_exec_ok (moveBranch_wp (E := E) (f := Faults.none) (I := fun _ => True) hN.reach hhead) hmb
  obtain ⟨⟨⟩, d3, hss, _⟩ := exec_ok_inv h4
  have hsp : d2.space wa.spaceDir ≠ none := by
    rw [hN.space]
    obtain ⟨_, b, _, _, hb, _⟩ := ho.tree
    rw [hb]; simp
  obtain ⟨b, hb, rfl⟩ := wpm_exec_ok (spaceSave_wp hr3 hsp) hss
  have habs : s3.abs = wa.tree.abs.commit wa.ws.onBranch u u1 ci.date ci.message := by
    rw [ha3, hN.abs, g6]; rfl
  have hnew : ¬ wa.tree.abs.Has u1 := fun h => hN.newNode ((hA _).2 h)
  have hu0 : wa.tree.abs.Has u := (hA u).1 hu
  have hune : u ≠ u1 := by rintro rfl; exact hnew hu0
  -- the tree that is read back
  have hP : wa.tree.abs.Path u ls' := by
    have := hN.path
    rwa [g6, note_path, note_path] at this
  obtain rfl := Ws.path_unique hP hls
  have hSh : s3.abs.Shallow := by
    rw [habs]
    exact shallow_commit hr (comesBack_shallow hF.back hF.shallow) hnew hP (fits_small hfit)
  obtain ⟨s', k1, k2, k3⟩ := (load_saved hr3 hb).1 hSh
  have hu8 := comesBack_is_utf8 hF.back
  have hbr : ∀ x, wa.ws.onBranch = some x → validUtf8 x := fun x hx => by
    obtain ⟨hd, hb, _⟩ := follows_iff.2 hmay x hx
    exact hu8.branch x hd hb
  have htr : s'.abs = wa.tree.abs.commit wa.ws.onBranch u u1 (sanitize ci.date) (sanitize ci.message) := by
    rw [comesBack_named k3 (by rw [habs]; exact named_commit (utf8_named hu8) hbr), habs, tidy_commit, tidy_utf8 hu8]
  have hE := commitEffect (w := wa.ws) (ci := ci) hu0 hnew
  rw [← htr] at hE
  obtain ⟨n, n', e1, e2, e3, _⟩ := hE.commit
  obtain ⟨r1, hr1⟩ := (abs_has_iff_get (wf_of_reach k2) u).1 ⟨n', e2⟩
  let w1 : OpenWs := { wa with tree := s', ws := ⟨wa.ws.id, wa.ws.path, r1, wa.ws.branch⟩ }
  have hw1 : w1.ws.HeadAt w1.tree u p := by
    obtain ⟨_, m, hn, hp⟩ := hh
    rw [e1] at hn; cases hn
    exact ⟨hr1, n', e2, by rw [e3]; exact hp⟩
  have hL := hN.litter
  have hO : Opens E (d2.setSpace wa.spaceDir (some (some b))) cwd (lit ".") w1 u p := by
    refine ⟨ho.out, ?_, ho.path, ?_, ho.mount, ho.dir, ⟨s3, b, hr3, reads_saved hr3 hb, upd_self _ _ _, k1⟩, hw1, fun v hv => ?_⟩
    · show ∃ t, d2.user _ = _ ∧ _
      rw [hL.user]; exact ho.link
    · show ∃ i, d2.info _ = _ ∧ _
      rw [hL.info]; exact ho.info
    · show ∃ c, d2.layer v = _
      rw [hN.layer]
      by_cases hvu : v = u1
      · subst hvu; exact ⟨_, upd_self _ _ _⟩
      · rw [upd_ne _ _ hvu]
        refine ho.stored v ?_
        have : s'.abs.Has v := hv
        rw [htr] at this
        exact (commit_has this).resolve_left hvu
  obtain ⟨m, hmm⟩ : ∃ m, da.mnt wa.mount.id.base32 = some m := Option.ne_none_iff_exists'.1 hm
  obtain ⟨hup, _⟩ := mnt_of_found hs hF hmm
  refine ⟨d2.setSpace wa.spaceDir (some (some b)), w1, u1, ?_, gets_of_opens hO, ⟨rfl, rfl, rfl⟩, hE, hw1, ?_, ⟨m, ?_, hup⟩, fun n => ⟨?_, fun hn => ?_⟩, hL.user, fun x data => ?_⟩
  · refine stops_trans ha ?_
    refine stops_bind (x := commitP E wa ci) ?_
    rw [hcpe, g5]
    exact stops_trans hcm (stops_trans hmb (stops_trans hss (.here _ _)))
  · by_cases hb0 : wa.ws.branch = []
    · exact Or.inl hb0
    · exact Or.inr ⟨u, hE.moved hb0, .refl e2⟩
  · show d2.mnt _ = _
    rw [hL.mnt]; exact hmm
  · show d2.info n = _
    rw [hL.info]
  · show d2.mdir n = _
    rw [hN.mdir, upd_ne]
    rintro rfl; exact hn hN.newMdir
  · obtain ⟨c, hc⟩ := hO.stored u ⟨n', e2⟩
    have hput : ((d2.setSpace wa.spaceDir (some (some b))).put u (oneFile x data)).content u = oneFile x data := by
      rw [Disk.content, Disk.put, hc]
      simp [Disk.setLayer]
    obtain ⟨l, rfl⟩ : ∃ l, ls' = u :: l := by cases hP <;> exact ⟨_, rfl⟩
    rw [List.map_cons, hput]
    simp [files, view, stack, topEnt, oneFile]

end
end Verif
