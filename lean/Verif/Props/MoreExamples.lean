import Verif.Props.Examples
import Verif.Props.LogWorld
import Verif.Props.Overlap
import Verif.Props.Safety
import Verif.Props.Edits
import Verif.Props.Moves
/-!
# Concrete cases, continued

The history of `Verif.Props.Examples` meets the hypotheses of the theorems about the log, about files and histories that stay, about
overlapping commands, crashes and edits.
-/
set_option autoImplicit false
namespace Verif
open M TS Json

/-! ## The log of a tree in memory -/

namespace Ws

/-- `C50_history`, `C49_log_panics_iff`: nothing in this tree is dated, so its log panics. -/
example : ∀ out, sampleWs.Logs (fun _ => none) (fun _ => []) sampleWsTree (lit "main") out → out = .panic := by
  have hR := ((C26_search sampleWsTree_wf sampleWs_head (ref := lit "main") (by unfold PlainKey; decide)).1 (sampleIDs 1) .branch).1 (by decide)
  have h1 : (sampleWsTree.abs.node (sampleIDs 1)).map (fun n => dateOf (fun _ => none) n.anno) = some none := by decide
  have h2 : sampleWsTree.abs.root ≠ some (sampleIDs 1) := by decide
  cases h : sampleWsTree.abs.node (sampleIDs 1) with
  | none => rw [h] at h1; cases h1
  | some n =>
    rw [h] at h1
    have hun : Undated (fun _ => none) sampleWsTree.abs (sampleIDs 1) (sampleIDs 1) := ⟨.refl h, h2, n, h, Option.some.inj h1⟩
    intro out ho
    rcases (C49_log_panics_iff sampleWsTree_wf (rooted_of_wf sampleWsTree_wf) sampleWsTree_proper sampleWs_head (by unfold PlainKey; decide) hR).2 out ho with h3 | h3
    · exact h3.2
    · exact absurd ⟨_, hun⟩ h3.1

/-- `C49_log_unknown`. -/
example : sampleWs.Logs (fun _ => none) (fun _ => []) sampleWsTree (lit "nope") (.err .revisionNotFound) :=
  (C49_log_unknown sampleWsTree_wf sampleWs_head (by unfold PlainKey; decide)
    ((C26_search sampleWsTree_wf sampleWs_head (by unfold PlainKey; decide)).2.1 (by decide))).2 rfl

/-- `C63_marks_partial`: the commit that `main` points to. -/
example : ∃ c : Commit, sampleWs.CommitOf (fun _ => none) sampleWsTree 1 c ∧ c.marks sampleWs = [.head (lit "main")] := by
  refine ⟨_, ⟨_, [⟨⟨some UID.sample, lit "dev"⟩, 2⟩, ⟨⟨some UID.sample, lit "main"⟩, 1⟩, ⟨⟨none, lit "main"⟩, 2⟩], _, rfl,
    ⟨sampleWsTree.tree.branches.entries, List.Perm.refl _, by decide, by decide⟩, List.Perm.refl _, rfl⟩, by decide⟩

/-- The commit that `dev`, the global `main` and the tag `v1` point to. -/
example : ∃ c : Commit, sampleWs.CommitOf (fun _ => none) sampleWsTree 2 c ∧ c.marks sampleWs = [.tag (lit "v1"), .own (lit "dev"), .remote (lit "origin/main")] := by
  refine ⟨_, ⟨_, [⟨⟨some UID.sample, lit "dev"⟩, 2⟩, ⟨⟨some UID.sample, lit "main"⟩, 1⟩, ⟨⟨none, lit "main"⟩, 2⟩], _, rfl,
    ⟨sampleWsTree.tree.branches.entries, List.Perm.refl _, by decide, by decide⟩, List.Perm.refl _, rfl⟩, by decide⟩

end Ws

namespace Story

/-! ## C49, C50: the log of the history -/

def noon : Time := ⟨2024, 1, 2, 3, 4, 5, 0⟩
theorem noon_valid : noon.Valid := ⟨by decide, by decide, ⟨by decide, 31, .long (by decide), by decide⟩, by decide, by decide, by decide, by decide⟩
theorem noon_date : ci.date = noon.format := by decide
theorem first_valid : validUtf8 ci.message := valid_ascii (by decide)

/-- `C50_commit_partial`: the commit `first` is the first and only entry of the log. -/
example : ∃ (d' : Disk) (w2 : OpenWs) (l : List Ref) (cs : List Commit) (c : Commit), Gets E0 d' cw (lit ".") w2 ∧ w2.ws.history w2.tree (lit "HEAD") = .ok l ∧
    w2.ws.CommitsOf (fun _ => none) w2.tree l cs ∧ c ∈ cs ∧ c.message = lit "first" ∧ c.date = some noon := by
  obtain ⟨d, w, u, root, d', w', u', hB, hS⟩ := second
  obtain ⟨r, he⟩ := hS.run
  obtain ⟨w2, l, h1, _, h3, ⟨cs, h4⟩, h5⟩ := C50_commit_partial (lenient := fun _ => none) hB.live.past.reachable outw hB.live.gets hB.live.opens.head noon_valid noon_date first_valid he
  obtain ⟨c, rest, rfl, h6, h7, h8⟩ := h5 cs h4
  exact ⟨d', w2, l, _, c, h1, h3, h4, by simp, h8, h7.trans (by decide)⟩

/-- `C50_stays`: also after the clone, and seen from the clone. -/
example : ∃ (d : Disk) (v : OpenWs) (l : List Ref) (cs : List Commit) (c : Commit), Gets E0 d cv (lit ".") v ∧ v.ws.history v.tree (lit "HEAD") = .ok l ∧
    v.ws.CommitsOf (fun _ => none) v.tree l cs ∧ c ∈ cs ∧ c.message = lit "first" ∧ c.date = some noon := by
  obtain ⟨d, w, u, root, d', w', u', d3, w1, w2, u2, hB, hS, hT⟩ := third
  obtain ⟨r, he⟩ := hS.run
  obtain ⟨r3, he3⟩ := hT.run
  have hp : Past E0 Faults.none d' d3 := .step (a := .clone cw (lit ".") (Path.abs cv (lit "."))) .refl ⟨outw, off_of_outside outv⟩ (.clone he3)
  obtain ⟨l, ids, h1, h2, ⟨cs, h3⟩, h4⟩ := Ws.C50_history (lenient := fun _ => none) (wf_of_reach (gets_reach hT.live2.past.reachable outv hT.live2.gets))
    (C21_reachable_names hT.live2.past.reachable outv hT.live2.gets) hT.live2.opens.head head_plain (v := u) (k := .commit) .head
  obtain ⟨h5, h6⟩ := h4 cs h3
  have hids : ids = [u, root] := Ws.path_unique h2 hT.live2.path
  rw [hids] at h5
  obtain ⟨c, hc, hcu⟩ : ∃ c ∈ cs, c.id = u := by
    cases cs with
    | nil => cases h5
    | cons c rest => exact ⟨c, by simp, (List.cons.inj h5).1⟩
  obtain ⟨h7, _, h8⟩ := C50_stays hB.live.past.reachable hS.live.past.reachable outw hB.live.gets hB.live.opens.head noon_valid noon_date he rfl hp outv hT.live2.gets
    (hT.space.symm.trans (hT.same.2.2.trans hS.same.2.2)) h1 head_plain h3 hc hcu
  exact ⟨d3, w2, l, cs, c, hT.live2.gets, h1, h3, hc, h8 first_valid, h7.trans (by decide)⟩

/-- `C49_violated_working_layer`: after the commit, the log of the new working layer panics. -/
example : ∃ (d' : Disk) (w2 : OpenWs) (u2 : UID), Reachable E0 d' ∧ Gets E0 d' cw (lit ".") w2 ∧ w2.ws.Logs (fun _ => none) (fun _ => []) w2.tree u2.hex .panic := by
  obtain ⟨d, w, u, root, d', w', u', hB, hS⟩ := second
  obtain ⟨r, he⟩ := hS.run
  obtain ⟨w2, u2, h1, _, h3⟩ := C49_violated_working_layer (lenient := fun _ => none) (ansic := fun _ => []) hB.live.past.reachable outw hB.live.gets hB.live.opens.head he
  exact ⟨d', w2, u2, hS.live.past.reachable, h1, (h3 _).2 rfl⟩

/-- `C49_violated_after_checkout`: after a checkout of the working layer by its ID, the plain log panics. -/
example : ∃ (d' : Disk) (w2 : OpenWs), Reachable E0 d' ∧ Gets E0 d' cw (lit ".") w2 ∧ w2.ws.Logs (fun _ => none) (fun _ => []) w2.tree (lit "HEAD") .panic := by
  obtain ⟨d, w, u, root, hB⟩ := begun
  have := hB.used
  have hR : Ws.Resolves w.tree.abs w.ws.id root u.hex u .commit := .id (hex_ne_head u) (hex_spells u) ⟨_, hB.new.work⟩
  obtain ⟨d', r, w', u', he, hL, _⟩ := live_checkout neat (hex_plain u) hB.live hR hB.live.full (fits (by simp)) (by omega)
  obtain ⟨w2, h1, h2⟩ := C49_violated_after_checkout (lenient := fun _ => none) (ansic := fun _ => []) hB.live.past.reachable outw hB.live.gets hB.live.opens.head hR
    ⟨.refl hB.new.work, by rw [hB.new.start]; exact fun h => hB.new.ne (Option.some.inj h).symm, _, hB.new.work, rfl⟩ he
  exact ⟨d', w2, hL.past.reachable, h1, (h2 _).2 rfl⟩

/-- `C49_log_partial`, `C50_output`: the history in which `first` is committed, as intended. -/
example : ∃ (d : Disk) (w : OpenWs) (u : UID) (text : Str), PastIf E0 Faults.none Intended disk0 d ∧ Gets E0 d cw (lit ".") w ∧
    w.ws.Logs (fun _ => none) (fun _ => []) w.tree (lit "HEAD") (.ok text) ∧ Ws.LogEntry (fun _ => none) (fun _ => []) w.tree.abs u text := by
  obtain ⟨d1, r1, w, u, root, he1, hL1, hus1, hb, hN, _⟩ := live_init (E := E0) (d := disk0) ⟨disk0, untouched0, .refl⟩ (cwd := cw) (branch := lit "main")
    outw rfl (fits (by decide)) (by decide)
  rw [main_clean] at hb hN
  have : disk0.used.length = 0 := rfl
  obtain ⟨d2, r2, w2, u2, he2, hL2, _⟩ := live_commit neat hL1 (Or.inr ⟨root, by rw [hb]; exact (hN.branches _ _).2 ⟨rfl, rfl⟩, .step hN.work rfl (.refl hN.first)⟩)
    (fits (by simp)) (by omega) ci
  have hp : PastIf E0 Faults.none Intended disk0 d2 :=
    .step (a := .commit cw ci) (.step (a := .init _ _) .refl trivial (off_of_outside outw) (.init he1)) ⟨noon, noon_valid, noon_date⟩ outw (.commit he2)
  obtain ⟨⟨out, h1⟩, h2⟩ := C49_log_partial (lenient := fun _ => none) (ansic := fun _ => []) untouched0 rfl hp outw hL2.gets hL2.opens.head head_plain (v := u) (k := .commit) .head
    (fun _ _ _ v _ _ hv _ => by rcases hv with ⟨h, _⟩ | ⟨h, _⟩ <;> exact absurd h (by decide))
  obtain ⟨text, rfl⟩ := h2 out h1
  obtain ⟨ids, parts, k1, k2, k3, k4⟩ := Ws.C50_output (wf_of_reach (gets_reach hL2.past.reachable outw hL2.gets)) (C21_reachable_names hL2.past.reachable outw hL2.gets) hL2.opens.head
    head_plain (v := u) (k := .commit) .head h1
  obtain rfl := Ws.path_unique k1 hL2.path
  obtain ⟨x, rfl⟩ : ∃ x, parts = [x] := List.length_eq_one_iff.1 k2
  refine ⟨d2, w2, u, text, hp, hL2.gets, h1, ?_⟩
  have := k4 (u, x) (by simp)
  rw [k3]
  simpa using this

/-! ## C31, C33, C34, C56, C60: checkouts, clones and other workspaces -/

theorem third_past {d : Disk} {w : OpenWs} {u u' root : UID} {d' d3 : Disk} {w' w1 w2 : OpenWs} {u2 : UID} (hS : Second d w u d' w' u' root)
    (hT : Third d' w' u' u root d3 w1 w2 u2) : Past E0 Faults.none d' d3 := by
  obtain ⟨r, he⟩ := hT.run
  exact .step (a := .clone cw (lit ".") (Path.abs cv (lit "."))) .refl ⟨outw, off_of_outside outv⟩ (.clone he)

/-- `C33_checkout_restores`: the commit `first` of `/w` is checked out in the clone, which then shows the file `f`. -/
example : ∃ d4 w2, Reachable E0 d4 ∧ Gets E0 d4 cv (lit ".") w2 ∧ d4.lists w2 [lit "f"] = some (.file (lit "x")) := by
  obtain ⟨d, w, u, root, d', w', u', d3, w1, w2, u2, d4, w1', w2', u2', hB, hS, hT, hF⟩ := fourth
  obtain ⟨r, he⟩ := hS.run
  obtain ⟨r4, he4⟩ := hF.run
  obtain ⟨w5, u5, h1, _, _, h4⟩ := C33_checkout_restores hB.live.past.reachable outw hB.live.gets hB.live.mounted hB.live.opens.head
    (fun v hv => by
      cases hv with
      | refl _ => exact hB.base
      | step h1 h2 _ => rw [hB.new.first] at h1; cases h1; cases h2)
    he rfl (third_past hS hT) outv hT.live2.gets (hT.space.symm.trans (hT.same.2.2.trans hS.same.2.2)) hT.live2.opens.head (kt := .commit) .head he4
  exact ⟨d4, w5, hF.live2.past.reachable, h1, by rw [h4]; exact hB.shows⟩

/-- `C34_clone`, `C45_clone_partial`: the clone of `/w` at `/v` shows the files of the commit. -/
example : ∃ d3 w2, Reachable E0 d3 ∧ Gets E0 d3 cv (lit ".") w2 ∧ d3.Mounted w2 := by
  obtain ⟨d, w, u, root, d', w', u', d3, w1, w2, u2, hB, hS, hT⟩ := third
  obtain ⟨r, he⟩ := hT.run
  obtain ⟨w5, u5, h1, _, _, h4, _⟩ := C34_clone hS.live.past.reachable outw hS.live.gets hS.live.opens.head outv he
  exact ⟨d3, w5, hT.live2.past.reachable, h1, h4⟩

/-- `C31_append_only`: the root is the same node after the clone. -/
example : ∃ d' d3 w' w2 root n, Past E0 Faults.none d' d3 ∧ Gets E0 d' cw (lit ".") w' ∧ Gets E0 d3 cv (lit ".") w2 ∧ w'.tree.abs.node root = some n ∧
    ∃ n', w2.tree.abs.node root = some n' ∧ n'.parent = n.parent := by
  obtain ⟨d, w, u, root, d', w', u', d3, w1, w2, u2, hB, hS, hT⟩ := third
  obtain ⟨n, hn⟩ : ∃ n, w'.tree.abs.node root = some n := by
    cases hS.live.path with
    | step _ _ h => cases h with
      | root h1 _ => exact ⟨_, h1⟩
      | step h1 _ _ => exact ⟨_, h1⟩
  obtain ⟨n', h1, h2, _⟩ := C31_append_only hS.live.past.reachable rfl (third_past hS hT) outw outv hS.live.gets hT.live2.gets
    (hT.space.symm.trans hT.same.2.2) hn
  exact ⟨d', d3, w', w2, root, n, third_past hS hT, hS.live.gets, hT.live2.gets, hn, n', h1, h2⟩

theorem Begun.low {d : Disk} {w : OpenWs} {u root : UID} (hB : Begun d w u root) : w.tree.abs.Low := by
  have h1 : ∀ ls, w.tree.abs.Path root ls → ls.length ≤ 1 := by
    intro ls h
    cases h with
    | root _ _ => simp
    | step h1 h2 _ => rw [hB.new.first] at h1; cases h1; cases h2
  have h2 : ∀ ls, w.tree.abs.Path u ls → ls.length ≤ 2 := by
    intro ls h
    cases h with
    | root _ _ => simp
    | step e1 e2 e3 =>
      rw [hB.new.work] at e1; cases e1; cases e2
      have := h1 _ e3
      simp only [List.length_cons]; omega
  intro v ls h
  have hv : w.tree.abs.Has v := by cases h with
    | root h _ => exact ⟨_, h⟩
    | step h _ _ => exact ⟨_, h⟩
  rcases (hB.new.only v).1 hv with rfl | rfl
  · have := h1 _ h; omega
  · have := h2 _ h; omega

/-- `C56_others`: a clone of `/w` leaves `/w` usable. -/
example : ∃ d d' w w2, Calmly E0 d ∧ Gets E0 d cw (lit ".") w ∧ (∃ r, Exec E0 Faults.none (cloneCmd E0 cw (lit ".") (Path.abs cv (lit "."))) d (.ok r) d') ∧
    Gets E0 d' cw (lit ".") w2 ∧ SameWs w w2 := by
  obtain ⟨d, w, u, root, hB⟩ := begun
  have := hB.used
  obtain ⟨d', r, w', u', he, _⟩ := live_clone neat hB.live outv (hB.free _ vw) (fits (by simp)) (by omega)
  obtain ⟨w5, h1, h2, _⟩ := C56_others hB.live.past.reachable rfl (act := .clone cw (lit ".") (Path.abs cv (lit "."))) ⟨outw, off_of_outside outv⟩ (.clone he)
    outw hB.live.gets hB.live.opens.head hB.low vw
  exact ⟨d, d', w, w5, hB.live.past, hB.live.gets, ⟨r, he⟩, h1, h2⟩

/-! ## C43: both workspaces commit -/

/-- `C43_violated_overlap` on the two workspaces. -/
example : ∃ W, (∃ d, Calmly E0 d ∧ Sys.Steps E0 Faults.none ⟨d, fun _ => none⟩ W) ∧ Succeeded W 0 ∧ Succeeded W 1 ∧ ∀ w, ¬ Gets E0 W.disk cv (lit ".") w := by
  obtain ⟨d, w, u, root, d', w', u', d3, w1, w2, u2, d4, w1', w2', u2', hB, hS, hT, hF⟩ := fourth
  have := hF.used
  obtain ⟨W, h1, h2, h3, h4, _⟩ := C43_violated_overlap hF.live1.past.reachable (by omega) outw outv hF.live1.gets hF.live2.gets hF.space hF.mount
    hF.live1.opens.head hF.live2.opens.head hF.may1 hF.may2 hF.live1.full hF.live2.full (fits (by simp)) (fits (by simp))
    (by rw [hF.live1.opens.path]; exact hF.live1.link) ⟨_, _, hF.live1.mdir, rfl⟩ (by rw [hF.live2.opens.path]; exact hF.live2.link) ⟨_, _, hF.live2.mdir, rfl⟩ ci ci
  exact ⟨W, ⟨d4, hF.live1.past, h1⟩, h2, h3, h4⟩

/-- `C43_sequential`: one after the other, both commits are kept. -/
example : ∃ d d1 d2 r1 r2, Calmly E0 d ∧ Exec E0 Faults.none (commitCmd E0 cw ci) d (.ok r1) d1 ∧ Exec E0 Faults.none (commitCmd E0 cv ci) d1 (.ok r2) d2 ∧
    ∃ w1 w2, Gets E0 d2 cw (lit ".") w1 ∧ Gets E0 d2 cv (lit ".") w2 ∧ w1.tree = w2.tree := by
  obtain ⟨d, w, u, root, d', w', u', d3, w1, w2, u2, d4, w1', w2', u2', hB, hS, hT, hF⟩ := fourth
  have := hF.used
  obtain ⟨d5, r5, w5, u5, he5, hL5, hus5, _, _, _, _, _, hoth⟩ := live_commit neat hF.live1 hF.may1 (fits (by simp)) (by omega) ci
  obtain ⟨w6, hL6, _, _, hmay6⟩ := hoth cv w2' u2' u [u, root] hF.live2 (Ne.symm hF.mount) vw
  obtain ⟨d7, r7, w7, u7, he7, _⟩ := live_commit neat hL6 (hmay6 hF.detached) (fits (by simp)) (by omega) ci
  obtain ⟨x1, x2, _, _, _, _, h1, h2, _, _, _, _, h3, _⟩ := C43_sequential hF.live1.past.reachable outw outv hF.live1.gets hF.live2.gets hF.space hF.mount (Ne.symm vw)
    hF.live1.opens.head hF.live2.opens.head he5 he7
  exact ⟨d4, d5, d7, r5, r7, hF.live1.past, he5, he7, x1, x2, h1, h2, h3⟩

/-! ## C24, C46, C57, C59: branches and tags -/

/-- `C24_accepted_iff`, `C59_tag`, `C41_edit`, `C57_edit_partial`: the tag `v1` is put on HEAD. -/
theorem tagged : ∃ d w u root d' s, Begun d w u root ∧ Exec E0 Faults.none (editCmd E0 cw [.addTag (lit "v1") (lit "HEAD") false]) d (.ok s) d' := by
  obtain ⟨d, w, u, root, hB⟩ := begun
  have := hB.used
  obtain ⟨r, d', he⟩ := exec_total (E := E0) (f := Faults.none) (editCmd_draws E0 cw [.addTag (lit "v1") (lit "HEAD") false]) d (by omega)
  have hno : w.tree.abs.tag (lit "v1") = none := by
    cases h : w.tree.abs.tag (lit "v1") with
    | none => rfl
    | some v => exact absurd ((hB.new.tags _ _).1 h).1 (by decide)
  obtain ⟨s, rfl⟩ := (C24_accepted_iff hB.live.past.reachable outw hB.live.gets hB.live.opens.head rfl (e := .addTag (lit "v1") (lit "HEAD") false) plainHEAD he).2
    ⟨_, .addTag (v := root) (k := .commit) .head (Or.inl hno)⟩
  exact ⟨d, w, u, root, d', s, hB, he⟩

example : ∃ d' w2, Gets E0 d' cw (lit ".") w2 ∧ w2.tree.abs.tag (lit "v1") = w2.tree.abs.root := by
  obtain ⟨d, w, u, root, d', s, hB, he⟩ := tagged
  obtain ⟨w2, v, k, h1, _, _, h4, _, h6, _, _, _, h10, _⟩ := C59_tag hB.live.past.reachable outw hB.live.gets hB.live.opens.head (valid_ascii (by decide)) he
  obtain ⟨rfl, _⟩ := Ws.resolves_unique h4 .head
  exact ⟨d', w2, h1, by rw [h6, h10, hB.new.start]⟩

/-- `C46_violated_delete`, `C59_untag`: after `tag -d ROOT`, ROOT names nothing. -/
example : ∃ d d' w2, Calmly E0 d ∧ (∃ s, Exec E0 Faults.none (editCmd E0 cw [.deleteTag (lit "ROOT")]) d (.ok s) d') ∧ Gets E0 d' cw (lit ".") w2 ∧
    ∀ p v k, w2.ws.HeadAt w2.tree p v → ¬ ∃ x, Ws.Resolves w2.tree.abs w2.ws.id v (lit "ROOT") x k := by
  obtain ⟨d, w, u, root, hB⟩ := begun
  have := hB.used
  obtain ⟨r, d', he⟩ := exec_total (E := E0) (f := Faults.none) (editCmd_draws E0 cw [.deleteTag (lit "ROOT")]) d (by omega)
  obtain ⟨s, rfl⟩ := (C24_accepted_iff hB.live.past.reachable outw hB.live.gets hB.live.opens.head rfl (e := .deleteTag (lit "ROOT")) trivial he).2
    ⟨_, .deleteTag (by rw [(hB.new.tags (lit "ROOT") root).2 ⟨rfl, rfl⟩]; simp)⟩
  have hnb : w.tree.abs.branch (w.ws.id.base32 ++ lit "/" ++ lit "ROOT") = none := by
    cases h : w.tree.abs.branch (w.ws.id.base32 ++ lit "/" ++ lit "ROOT") with
    | none => rfl
    | some v => exact absurd (List.append_cancel_left ((hB.new.branches _ _).1 h).1) (by decide)
  obtain ⟨w2, h1, _, h3, h4⟩ := C46_violated_delete hB.live.past.reachable outw hB.live.gets hB.live.opens.head hnb he
  refine ⟨d, d', w2, hB.live.past, ⟨s, he⟩, h1, fun p v k hh => ?_⟩
  have hd' : Reachable E0 d' := reachable_next hB.live.past.reachable rfl (a := .edit cw [.deleteTag (lit "ROOT")])
    outw (.edit he)
  obtain ⟨_, rfl⟩ := headAt_unique (wf_of_reach (gets_reach hd' outw h1)) h3 hh
  rintro ⟨x, hx⟩
  exact h4 x k hx

/-- `C24_refused`: a second branch `main` without force. -/
example : ∃ d e, Calmly E0 d ∧ Exec E0 Faults.none (editCmd E0 cw [.addBranch (lit "main") (lit "HEAD") false]) d (.err e) d := by
  obtain ⟨d, w, u, root, hB⟩ := begun
  have := hB.used
  obtain ⟨r, d', he⟩ := exec_total (E := E0) (f := Faults.none) (editCmd_draws E0 cw [.addBranch (lit "main") (lit "HEAD") false]) d (by omega)
  rcases C57_edit_partial hB.live.past.reachable outw (hB.live.plain neat) (es := [.addBranch (lit "main") (lit "HEAD") false]) (by intro e he; simp at he; subst he; exact plainHEAD) he with ⟨s, rfl⟩ | ⟨e, rfl⟩
  · obtain ⟨a, ha⟩ := (C24_accepted_iff hB.live.past.reachable outw hB.live.gets hB.live.opens.head rfl (e := .addBranch (lit "main") (lit "HEAD") false) plainHEAD he).1 ⟨s, rfl⟩
    cases ha with
    | addBranch _ h =>
      rcases h with h | h
      · rw [(hB.new.branches _ root).2 ⟨rfl, rfl⟩] at h; cases h
      · cases h
  · have := C24_refused hB.live.past.reachable outw rfl (e := .addBranch (lit "main") (lit "HEAD") false) he
    subst this
    exact ⟨d', e, hB.live.past, he⟩

/-! ## C41, C42, C45, C54, C58: crashes, failures and restarts -/

/-- `C41_violated_truncated`: killed at the wrong moment, `tag v1` makes the workspace unusable. -/
example : ∃ d2, (∃ d, Calmly E0 d ∧ (∃ w, Gets E0 d cw (lit ".") w) ∧ Stops E0 Faults.none (editCmd E0 cw [.addTag (lit "v1") (lit "HEAD") false]) d d2) ∧
    ∀ w2, ¬ Gets E0 d2 cw (lit ".") w2 := by
  obtain ⟨d, w, u, root, d', s, hB, he⟩ := tagged
  obtain ⟨d2, h1, h2⟩ := C41_violated_truncated hB.live.past.reachable outw hB.live.gets he
  exact ⟨d2, ⟨d, hB.live.past, ⟨w, hB.live.gets⟩, h1⟩, h2 cw (lit ".") w outw hB.live.gets rfl⟩

/-- `C41_commit`, `C41_content`: the commit `first`, stopped at its end. -/
example : ∃ d d' w, Calmly E0 d ∧ Gets E0 d cw (lit ".") w ∧ Stops E0 Faults.none (commitCmd E0 cw ci) d d' ∧ d.space w.spaceDir ≠ none ∧
    d'.loads w.spaceDir ≠ d.loads w.spaceDir := by
  obtain ⟨d, w, u, root, d', w', u', hB, hS⟩ := second
  obtain ⟨r, he⟩ := hS.run
  obtain ⟨_, _, h1⟩ := gets_reads outw hB.live.gets
  obtain ⟨_, _, h2⟩ := gets_reads outw hS.live.gets
  have hdir : w'.spaceDir = w.spaceDir := by rw [hB.live.opens.dir, hS.live.opens.dir, hS.same.2.2]
  refine ⟨d, d', w, hB.live.past, hB.live.gets, exec_stops he, ?_, ?_⟩
  · obtain ⟨_, b, _, _, h, _⟩ := hB.live.opens.tree
    rw [h]; simp
  · rw [h1, ← hdir, h2]
    intro e
    have hn := hS.effect.next
    rw [Res.ok.inj e] at hn
    exact hS.effect.fresh ⟨_, hn⟩

/-- A file of the user changes nothing else. -/
theorem live_files {E : Env} {d : Disk} {cwd : Str} {w : OpenWs} {u p : UID} {ls : List UID} (h : Live E d cwd w u p ls) {us : Str → UEnt}
    (hus : us (Path.abs cwd (lit ".")) = d.user (Path.abs cwd (lit "."))) : Live E { d with user := us } cwd w u p ls := by
  obtain ⟨d0, h0, hp⟩ := h.past
  have ho := h.opens
  obtain ⟨t, h1, h2⟩ := ho.link
  exact ⟨⟨d0, h0, .step (o := 0) (a := .files us) hp trivial .files⟩,
    ⟨ho.out, ⟨t, hus.trans h1, h2⟩, ho.path, ho.info, ho.mount, ho.dir, ho.tree, ho.head, ho.stored⟩, h.mnt, hus.trans h.link, h.mdir, h.path⟩

/-- `/w`, and a file at `/x`. -/
theorem withFile : ∃ d w u root, Live E0 d cw w u root [root] ∧ d.used.length ≤ 5 ∧ d.user (Path.abs (lit "/x") (lit ".")) = .file := by
  obtain ⟨d, w, u, root, hB⟩ := begun
  exact ⟨{ d with user := upd d.user (Path.abs (lit "/x") (lit ".")) .file }, w, u, root, live_files hB.live (upd_ne _ _ (by decide)), hB.used, by simp [upd]⟩

/-- `C45_violated_clone`: a clone onto a file replaces the file. -/
example : ∃ d d' w', Calmly E0 d ∧ d.user (Path.abs (lit "/x") (lit ".")) = .file ∧
    Exec E0 Faults.none (cloneCmd E0 cw (lit ".") (Path.abs (lit "/x") (lit "."))) d (.ok w') d' ∧
    d'.user (Path.abs (lit "/x") (lit ".")) = .link (E0.mountPath w'.mount.id.base32) := by
  obtain ⟨d, w, u, root, hL, hus, hf⟩ := withFile
  obtain ⟨⟨w', d', he⟩, h⟩ := C45_violated_clone hL.past.reachable (by omega) outw (off_of_outside outx) hL.gets hL.opens.head hL.path (fits (by simp)) hf
  obtain ⟨w5, h5, h6⟩ := h _ _ he
  cases h5
  exact ⟨d, d', w', hL.past, hf, he, h6⟩

/-- `C42_init`, `C45_init`, `C57_init`: init on a file is refused at once. -/
example : ∃ d, Calmly E0 d ∧ Exec E0 Faults.none (initCmd E0 (Path.abs (lit "/x") (lit ".")) (lit "main")) d (.err .notEmpty) d ∧ CErr.notEmpty.early = true := by
  obtain ⟨d, w, u, root, hL, hus, hf⟩ := withFile
  refine ⟨d, hL.past, ?_, rfl⟩
  refine Exec.op (x := true) ⟨rfl, Or.inl (by unfold Exists; rw [hf])⟩ ?_
  refine Exec.op (x := false) ⟨rfl, Or.inl (by unfold EmptyDir; rw [hf])⟩ ?_
  exact Exec.ret _ _

/-- `C54_removed`, `C54_frame`: the mount of `/w` is removed. -/
example : ∃ d d' w, Calmly E0 d ∧ d.Mounted w ∧ Exec E0 Faults.none (removeMount w.mount) d (.ok ()) d' ∧ d'.mnt w.mount.dir = none := by
  obtain ⟨d, w, u, root, hB⟩ := begun
  have := hB.used
  obtain ⟨r, d', he⟩ := exec_total (E := E0) (f := Faults.none) (removeMount_draws w.mount) d (by omega)
  obtain ⟨rfl, _, h, _⟩ := C54_removed (by rw [hB.live.opens.mount]) rfl rfl he
  exact ⟨d, d', w, hB.live.past, hB.live.mounted, he, h⟩

/-- `C58_violated_reboot`: after a restart the file `g` is put into `/w`; the next commit succeeds and has `f` but not `g`. -/
def two : Content := fun p => if p = [] then some (.dir false .new) else if p = [lit "g"] then some (.file (lit "y")) else none

example : ∃ d d2 d3 r w w3, Calmly E0 d ∧ Gets E0 d2 cw (lit ".") w ∧ Happens E0 Faults.none (.write w.mount.id.base32 two) { d with mnt := fun _ => none } d2 ∧
    d2.lists w [lit "g"] = some (.file (lit "y")) ∧ Exec E0 Faults.none (commitCmd E0 cw ci) d2 (.ok r) d3 ∧ Gets E0 d3 cw (lit ".") w3 ∧
    d3.lists w3 [lit "f"] = some (.file (lit "x")) ∧ d3.lists w3 = d.lists w := by
  obtain ⟨d, w, u, root, hB⟩ := begun
  have := hB.used
  obtain ⟨d2, h1, h2, h3, ⟨r, d3, h4⟩, h5⟩ := C58_violated_reboot hB.live.past.reachable outw hB.live.gets hB.live.mounted hB.live.opens.head hB.may hB.live.full (fits (by simp))
    (by rw [hB.live.opens.path]; exact hB.live.link) hB.live.mdir (by omega) two ci
  obtain ⟨x, w3, u3, rfl, h6, _, _, _, h9, _⟩ := h5 r d3 h4
  exact ⟨d, d2, d3, x, w, w3, hB.live.past, h2, h1, by rw [h3]; rfl, h4, h6, by rw [h9]; exact hB.shows, h9⟩

/-! ## C55, C57, C60 -/

/-- `C60_no_global_branch`, `C21_reachable_names`: nothing is listed by `branch -r` in `/w`. -/
example : ∃ d w, Reachable E0 d ∧ Gets E0 d cw (lit ".") w ∧ ∀ out, Ws.RemoteBranches w.tree out → out = [] := by
  obtain ⟨d, w, u, root, hB⟩ := begun
  exact ⟨d, w, hB.live.past.reachable, hB.live.gets, fun _ h => C60_no_remote_branches hB.live.past.reachable outw hB.live.gets h⟩

/-- `C55_accepted`, `C55_init`: on a disk on which nothing was ever done. -/
example : ∃ d' w', Exec E0 Faults.none (initCmd E0 (Path.abs cw (lit ".")) (lit "main")) disk0 (.ok w') d' ∧ ∃ w, Gets E0 d' cw (lit ".") w ∧ w.ws.branch = lit "main" := by
  have hd : Reachable E0 disk0 := reachable_untouched (f := Faults.none) rfl untouched0 .refl
  obtain ⟨r, d', he⟩ := exec_total (E := E0) (f := Faults.none) (initCmd_draws E0 (Path.abs cw (lit ".")) (lit "main")) disk0 (by decide)
  obtain ⟨w', rfl⟩ := C55_accepted hd (off_of_outside outw) (by unfold FreeFor; trivial) (Or.inl rfl) (fits (by simp)) he
  obtain ⟨w, _, _, h1, _, h3, _⟩ := C55_init hd outw he
  exact ⟨d', w', he, w, h1, h3.trans main_clean⟩

/-- `C46_root_partial`: the new workspace. -/
example : ∃ (d : Disk) (w : OpenWs) (r : UID), PastOf E0 Faults.none Act.SparesRoot disk0 d ∧ Gets E0 d cw (lit ".") w ∧ w.tree.abs.root = some r := by
  obtain ⟨d1, r1, w, u, root, he1, hL1, _⟩ := live_init (E := E0) (d := disk0) ⟨disk0, untouched0, .refl⟩ (cwd := cw) (branch := lit "main")
    outw rfl (fits (by decide)) (by decide)
  have hp : PastOf E0 Faults.none Act.SparesRoot disk0 d1 := .step (a := .init _ _) .refl trivial (off_of_outside outw) (.init he1)
  obtain ⟨r, h1, _⟩ := C46_root_partial untouched0 rfl hp outw hL1.gets hL1.opens.head
  exact ⟨d1, w, r, hp, hL1.gets, h1⟩

end Story
end Verif
