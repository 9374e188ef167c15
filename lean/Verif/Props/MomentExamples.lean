import Verif.Props.MomentMixed
import Verif.Props.MoreExamples
/-!
# Concrete cases for C103

A listing in `/w` reads the link and the record, then the commit `first` runs, then the listing reads the history; the same in the clone `/v` with `checkout HEAD`; and
the listing beside the commit and a new tag, where it shows what was never there.
-/
set_option autoImplicit false
namespace Verif
open M TS Json Story

namespace Story

/-- A listing (`true`) and another command (`false`). -/
def watched (cwd : Str) (c : Command) : Bool → Command
  | true => .look cwd
  | false => c

/-- The other command runs between the reading of the record and the reading of the history. -/
theorem across {d d1 : Disk} {c : Command} {o : Out} (hc : Exec E0 Faults.none (c.prog E0) d (.ok o) d1) (hd : Reachable E0 d) (hd1 : Reachable E0 d1) {cwd : Str}
    (hout : E0.Outside (Path.abs cwd (lit "."))) {w w1 : OpenWs} (hg : Gets E0 d cwd (lit ".") w) (hg1 : Gets E0 d1 cwd (lit ".") w1) (hsp : w1.spaceID = w.spaceID)
    (hkeep : ∀ h, w.tree.abs.Has h → w1.tree.abs.Has h) :
    ∃ r ms, Alongside (fun _ : Bool => E0.as 0) (fun _ => Faults.none) (fun i => (watched cwd c i).prog (E0.as 0)) d ms
      (fun | true => .ret (.ok (.read { w with tree := w1.tree, ws := { w.ws with head := r } })) | false => .ret (.ok o)) d1 := by
  obtain ⟨q, h, hrun, hget, hend⟩ := look_split hout hg
  obtain ⟨_, _, tb1, hO1, hT1⟩ := gets_three hout hg1
  have hdir : w1.spaceDir = w.spaceDir := by
    obtain ⟨_, hs⟩ := steady_reachable hd
    obtain ⟨_, _, _, hF⟩ := found_of_gets hs hout hg
    obtain ⟨_, hs1⟩ := steady_reachable hd1
    obtain ⟨_, _, _, hF1⟩ := found_of_gets hs1 hout hg1
    rw [hF.opens.dir, hF1.opens.dir, hsp]
  have hhas : w1.tree.abs.Has h := hkeep h ((abs_has_iff_get (wf_of_reach (gets_reach hd hout hg)) h).2 ⟨_, hget⟩)
  obtain ⟨r, hr⟩ := (abs_has_iff_get (wf_of_reach (gets_reach hd1 hout hg1)) h).1 hhas
  have hlook := hend d1 tb1 w1.tree r (by rw [← hdir]; exact hT1.space) hO1.tree hr
  have s0 : Alongside (fun _ : Bool => E0.as 0) (fun _ => Faults.none) (fun i => (watched cwd c i).prog (E0.as 0)) d [d] (fun i => (watched cwd c i).prog (E0.as 0)) d := .refl
  obtain ⟨m1, s1, _⟩ := alongside_runs (E := E0) (F := fun _ => E0.as 0) (f := fun _ => Faults.none) (i := true) (p := (Command.look cwd).prog E0) rfl rfl s0 (by rfl) hrun
  obtain ⟨m2, s2, _⟩ := alongside_runs (E := E0) (F := fun _ => E0.as 0) (f := fun _ => Faults.none) (i := false) (p := c.prog E0) rfl rfl s1 (by rfl) (ran_exec hc)
  obtain ⟨m3, s3, _⟩ := alongside_runs (E := E0) (F := fun _ => E0.as 0) (f := fun _ => Faults.none) (i := true) (p := q) rfl rfl s2 (by rfl) (ran_exec hlook)
  refine ⟨r, m3 ++ (m2 ++ (m1 ++ [d])), ?_⟩
  refine Eq.mp (congrArg (fun qs => Alongside _ _ _ d _ qs d1) (funext fun i => ?_)) s3
  match i with
  | true => rfl
  | false => rfl

theorem watched_look {cwd : Str} {c : Command} : ∀ j, j ≠ false → ∃ x, watched cwd c j = .look x
  | true, _ => ⟨cwd, rfl⟩
  | false, h => absurd rfl h

/-- A listing beside the commit `first`. -/
theorem seen_commit : ∃ d w u root, ∃ r : OpenWs × OpenWs, ∃ ms d1, ∃ w1 : OpenWs, ∃ x, Begun d w u root ∧ w1.tree.abs.Has x ∧ ¬ w.tree.abs.Has x ∧ w1.mount = w.mount ∧ w1.spaceDir = w.spaceDir ∧
    Alongside (fun _ : Bool => E0.as 0) (fun _ => Faults.none) (fun i => (watched cw (.commit cw ci) i).prog (E0.as 0)) d ms
      (fun | true => .ret (.ok (.read w1)) | false => .ret (.ok (.moved r.1 r.2))) d1 := by
  obtain ⟨d, w, u, root, d', w', u', hB, hS⟩ := second
  obtain ⟨r, he⟩ := hS.run
  have hd := hB.live.past.reachable
  obtain ⟨_, hs⟩ := steady_reachable hd
  obtain ⟨T, hF⟩ := gets_found hs outw hB.live.gets hB.live.opens.head
  obtain ⟨_, _, u2, ls, g', w1, _, _, _, _, ho1, _, hsp1, _, hnew, htree1, _⟩ := after_commit hs hF he
  have hn : w1.tree.abs.Has u2 := by obtain ⟨_, n, hn, _⟩ := ho1.head; exact ⟨n, hn⟩
  obtain ⟨x, ms, hA⟩ := across (c := .commit cw ci) (exec_ok he (.ret _ _)) hd hS.live.past.reachable outw hB.live.gets (gets_of_opens ho1) hsp1 (fun h hh => by
    rw [htree1]; exact extends_has (extends_commit (S := fun _ => True) trivial hnew) hh)
  exact ⟨d, w, u, root, r, ms, d', { w with tree := w1.tree, ws := { w.ws with head := x } }, u2, hB, hn, hnew, rfl, rfl, hA⟩

/-- A listing beside `checkout HEAD`. -/
theorem seen_checkout : ∃ d w u root, ∃ r : OpenWs × OpenWs, ∃ ms d1, ∃ w1 : OpenWs, ∃ x, Begun d w u root ∧ w1.tree.abs.Has x ∧ ¬ w.tree.abs.Has x ∧ w1.ws.branch = lit "main" ∧
    Alongside (fun _ : Bool => E0.as 0) (fun _ => Faults.none) (fun i => (watched cw (.checkout cw (lit "HEAD")) i).prog (E0.as 0)) d ms
      (fun | true => .ret (.ok (.read w1)) | false => .ret (.ok (.moved r.1 r.2))) d1 := by
  obtain ⟨d, w, u, root, hB⟩ := begun
  have := hB.used
  obtain ⟨d', r, w', u', he, hL, _⟩ := live_checkout neat plainHEAD hB.live (v := root) (kt := .commit) .head hB.live.path (fits (by simp)) (by omega)
  have hd := hB.live.past.reachable
  obtain ⟨_, hs⟩ := steady_reachable hd
  obtain ⟨T, hF⟩ := gets_found hs outw hB.live.gets hB.live.opens.head
  obtain ⟨_, _, _, u2, ls, g', w1, _, _, _, _, _, ho1, _, hsp1, _, hnew, htree1, _⟩ := after_checkout hs hF he
  have hn : w1.tree.abs.Has u2 := by obtain ⟨_, n, hn, _⟩ := ho1.head; exact ⟨n, hn⟩
  obtain ⟨x, ms, hA⟩ := across (c := .checkout cw (lit "HEAD")) (exec_ok he (.ret _ _)) hd hL.past.reachable outw hB.live.gets (gets_of_opens ho1) hsp1 (fun h hh => by
    rw [htree1]; exact add_has.2 (Or.inr hh))
  exact ⟨d, w, u, root, r, ms, d', { w with tree := w1.tree, ws := { w.ws with head := x } }, u2, hB, hn, hnew, hB.branch, hA⟩

/-- `C103_one_moment_partial`, `C103_commit_partial`, `C103_files_partial`: the listing that the commit overtakes shows the commit's history with the old working layer. -/
example : ∃ d w u root, ∃ w1 : OpenWs, ∃ u', Begun d w u root ∧ ComesBack (w.tree.abs.commit w.ws.onBranch u u' ci.date ci.message) w1.tree.abs ∧ w1.ws.HeadAt w1.tree u root ∧
    w1.mount = w.mount ∧ (∃ l, Stops E0 Faults.none ((Command.commit cw ci).prog E0) d l ∧ Gets E0 l cw (lit ".") w1) := by
  obtain ⟨d, w, u, root, r, ms, d1, w1, x, hB, hx, hnx, hm, hdir, hA⟩ := seen_commit
  have hd := hB.live.past.reachable
  obtain ⟨w2, l, ho, _, hl, hst⟩ := C103_one_moment_partial (E := E0) (own := fun _ : Bool => 0) (i0 := false) (i := true) watched_look (by decide) rfl outw rfl .refl rfl hA rfl
  cases ho
  obtain ⟨w2, ho, h⟩ := C103_commit_partial (E := E0) (own := fun _ : Bool => 0) (i0 := false) (i := true) watched_look (by decide) rfl rfl rfl outw rfl hd hB.live.gets
    hB.live.opens.head .refl rfl hA rfl
  cases ho
  rcases h with rfl | ⟨u', _, h2, _, h4 | h4⟩
  · exact absurd hx hnx
  · exact ⟨d, w, u, root, w1, u', hB, h2, h4.1, hm, l, hst, hl⟩
  · exact absurd (by rw [hm]) h4.2

/-- `C103_checkout_partial`: the listing that `checkout HEAD` overtakes shows the new layer in the history and the workspace still on `main`. -/
example : ∃ d w u root, ∃ w1 : OpenWs, ∃ u', Begun d w u root ∧ ComesBack (w.tree.abs.add (some root) u' (fun _ => none) (fun _ => none)) w1.tree.abs ∧ w1.ws.HeadAt w1.tree u root ∧
    w1.ws.branch = lit "main" := by
  obtain ⟨d, w, u, root, r, ms, d1, w1, x, hB, hx, hnx, hb, hA⟩ := seen_checkout
  have hd := hB.live.past.reachable
  obtain ⟨w2, ho, h⟩ := C103_checkout_partial (E := E0) (own := fun _ : Bool => 0) (i0 := false) (i := true) watched_look (by decide) rfl rfl rfl outw rfl hd hB.live.gets
    hB.live.opens.head .refl rfl hA rfl
  cases ho
  rcases h with rfl | ⟨v, kt, u', hR, _, h2, _, _, h4 | h4⟩
  · exact absurd hx hnx
  · obtain ⟨rfl, _⟩ := Ws.resolves_unique hR .head
    exact ⟨d, w, u, _, w1, u', hB, h2, h4.1, hb⟩
  · obtain ⟨rfl, rfl⟩ := Ws.resolves_unique hR .head
    rw [hb] at h4
    exact absurd h4.2 (by decide)

/-- `C103_files_partial`: the tree file that the listing shows was not there when it started. -/
example : ∃ d : Disk, ∃ ms : List Disk, ∃ w v b tb, OpensWith E0 cw (lit ".") v b tb w ∧ (∃ l ∈ ms, l.user (Path.abs cw (lit ".")) = .link v) ∧
    (∃ l ∈ ms, l.info w.mount.id.base32 = some b) ∧ (∃ l ∈ ms, l.space w.spaceDir = some (some tb)) ∧ d.space w.spaceDir ≠ some (some tb) := by
  obtain ⟨d, w, u, root, r, ms, d1, w1, x, hB, hx, hnx, hm, hdir, hA⟩ := seen_commit
  obtain ⟨w2, v, b, tb, ho, h1, h2, h3, h4⟩ := C103_files_partial (E := E0) (own := fun _ : Bool => 0) (i := true) rfl outw rfl rfl hA rfl
  cases ho
  refine ⟨d, ms, w1, v, b, tb, h1, h2, h3, h4, fun e => ?_⟩
  obtain ⟨_, _, tb', k1, k2⟩ := gets_three outw hB.live.gets
  have hs := k2.space
  rw [← hdir, e] at hs
  cases hs
  have := Res.ok.inj (h1.tree.symm.trans k1.tree)
  rw [this] at hx
  exact hnx hx

/-- `C103_violated`: the listing beside the commit `first` and `tag v1`. -/
example : ∃ d w u root, ∃ w' : OpenWs, ∃ ms d2 s r, Begun d w u root ∧
    Alongside (fun _ : Fin 3 => E0) (fun _ => Faults.none) (fun i => (trio cw ci (lit "v1") (lit "HEAD") i).prog E0) d ms
      (fun | 0 => .ret (.ok (.read w')) | 1 => .ret (.ok r) | 2 => .ret (.ok (.edited s))) d2 ∧
      w'.mount = w.mount ∧ w'.tree.abs.tag (lit "v1") ≠ none ∧ ∀ l ∈ ms, ¬ Gets E0 l cw (lit ".") w' := by
  obtain ⟨d, w, u, root, d1, w1, u1, hB, hS⟩ := second
  obtain ⟨r, he⟩ := hS.run
  have := hS.used
  have hd1 := hS.live.past.reachable
  obtain ⟨x, d2, ht⟩ := exec_total (E := E0) (f := Faults.none) (editCmd_draws E0 cw [.addTag (lit "v1") (lit "HEAD") false]) d1 (by omega)
  have hno : w1.tree.abs.tag (lit "v1") = none := by
    rw [hS.effect.tags]
    cases h : w.tree.abs.tag (lit "v1") with
    | none => rfl
    | some v => exact absurd ((hB.new.tags _ _).1 h).1 (by decide)
  obtain ⟨s, rfl⟩ := (C24_accepted_iff hd1 outw hS.live.gets hS.live.opens.head rfl (e := .addTag (lit "v1") (lit "HEAD") false) plainHEAD ht).2
    ⟨_, .addTag (v := u) (k := .commit) .head (Or.inl hno)⟩
  obtain ⟨w', ms, h1, h2, h3, h4⟩ := C103_violated hB.live.past.reachable outw hB.live.gets hB.live.opens.head he (valid_ascii (by decide)) ht
  exact ⟨d, w, u, root, w', ms, d2, s, _, hB, h1, h2, h3, h4⟩

end Story
end Verif
