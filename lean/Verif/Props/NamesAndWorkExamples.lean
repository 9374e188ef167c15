import Verif.Props.EitherOrderExamples
import Verif.Props.NamesAndWork
import Verif.Props.Layout
/-!
# Concrete cases for `Verif.Props.NamesAndWork`
-/
set_option autoImplicit false
namespace Verif
open M TS Json Story
namespace Story

/-- In the history of `third` the clone is a workspace of its own, its working layer is its own, and it has no branch `main`. -/
theorem third_apart {d w u root d' w' u' d3 w1 w2 u2} (hB : Begun d w u root) (hS : Second d w u d' w' u' root) (hT : Third d' w' u' u root d3 w1 w2 u2) :
    w2.ws.id ≠ w1.ws.id ∧ u2 ≠ u' ∧ ¬ MayCommit w2 u2 := by
  have hr := hS.live.past.reachable
  have hr3 := hT.live1.past.reachable
  obtain ⟨x, he⟩ := hT.run
  have hb : w'.ws.branch = lit "main" := hS.same.2.1.trans hB.branch
  obtain ⟨g, hs⟩ := steady_reachable hr
  obtain ⟨T, hF⟩ := gets_found hs outw hS.live.gets hS.live.opens.head
  obtain ⟨y, ls, g', wz, h1, h2, h2', h3, h4, h5, h6, h7, h8, h9, h10⟩ := after_clone hs hF outv he
  obtain rfl := gets_unique hr3 outv hT.live2.gets (gets_of_opens h4)
  obtain ⟨rfl, _⟩ := headAt_unique (wf_of_reach (opens_reach h4)) h4.head hT.live2.opens.head
  obtain ⟨wz, uz, pz, k1, k2, k3⟩ := C29_violated_on_branch hr (f := Faults.none) outw hS.live.gets (by rw [hb]; decide) outv rfl rfl he
  obtain rfl := gets_unique hr3 outv hT.live2.gets k1
  obtain ⟨rfl, _⟩ := headAt_unique (wf_of_reach (opens_reach h4)) h4.head k2
  have hm := hS.effect.moved (by rw [hB.branch]; decide)
  rw [← hS.same.1] at hm
  obtain ⟨i, z, hi, e⟩ := gets_owned hr outw hS.live.gets _ _ hm
  obtain ⟨rfl, _⟩ := own_inj e
  refine ⟨fun e => h5 ⟨rfl, rfl, hs.tracked⟩ (by rw [e, hT.same.1]; exact hi), fun e => h8 ?_, k3⟩
  rw [e]
  obtain ⟨_, n, hn, _⟩ := hS.live.opens.head
  exact ⟨n, hn⟩

/-- `C119_others`, `C119_same`: `tag -f a HEAD` in `/w`: it still accepts commits, and its clone `/v` still does not. -/
example : ∃ d w v d1 s w1 v1 u u2, Reachable E0 d ∧ Gets E0 d cw (lit ".") w ∧ Gets E0 d cv (lit ".") v ∧ v.spaceID = w.spaceID ∧
    Exec E0 Faults.none (editCmd E0 cw [.addTag (lit "a") (lit "HEAD") true]) d (.ok s) d1 ∧ Gets E0 d1 cw (lit ".") w1 ∧ Gets E0 d1 cv (lit ".") v1 ∧ MayCommit w1 u ∧ ¬ MayCommit v1 u2 := by
  obtain ⟨_, _, p, root, _, _, u, d, w, v, u2, hB, hS, hT⟩ := third
  have hu := hT.used
  obtain ⟨hid, _, hno⟩ := third_apart hB hS hT
  let e : Edit := .addTag (lit "a") (lit "HEAD") true
  have h8 : e.Utf8 := valid_ascii (s := lit "a") (by decide)
  have hd := hT.live1.past.reachable
  obtain ⟨r1, d1, he1⟩ := exec_total (E := E0) (f := Faults.none) (editCmd_draws E0 cw [e]) d (by omega)
  obtain ⟨s1, rfl⟩ := (C24_accepted_iff hd outw hT.live1.gets hT.live1.opens.head rfl (e := e) plainHEAD he1).2 ⟨_, .addTag .head (Or.inr rfl)⟩
  obtain ⟨w1, g1, _, _, k1⟩ := C119_same hd outw hT.live1.gets hT.live1.opens.head (e := e) plainHEAD h8 (fun h => h) he1
  obtain ⟨v1, g2, _, _, k2⟩ := C119_others hd outw outv hT.live1.gets hT.live2.gets hT.space.symm hid hT.live1.opens.head hT.live2.opens.head (e := e) plainHEAD h8 he1
  exact ⟨d, w, v, d1, s1, w1, v1, u, u2, hd, hT.live1.gets, hT.live2.gets, hT.space.symm, he1, g1, g2, k1.2 hT.may, fun h => hno (k2.1 h)⟩

/-- `C119_repair`: the clone `/v` is on a branch that does not exist (C29); `branch -f main HEAD` there, and it accepts a commit. -/
example : ∃ d v u d1 s d2 x, Reachable E0 d ∧ Gets E0 d cv (lit ".") v ∧ v.ws.branch = lit "main" ∧ ¬ MayCommit v u ∧
    Exec E0 Faults.none (editCmd E0 cv [.addBranch (lit "main") (lit "HEAD") true]) d (.ok s) d1 ∧ Exec E0 Faults.none (commitCmd E0 cv ci) d1 (.ok x) d2 := by
  obtain ⟨_, _, p, root, _, _, u, d, w, v, u2, hB, hS, hT⟩ := third
  have hu := hT.used
  obtain ⟨_, _, hno⟩ := third_apart hB hS hT
  have hb := hT.branch
  have hd := hT.live2.past.reachable
  obtain ⟨r1, d1, he1⟩ := exec_total (E := E0) (f := Faults.none) (editCmd_draws E0 cv [.addBranch (lit "main") (lit "HEAD") true]) d (by omega)
  have u1 := stops_used (editCmd_draws E0 cv _) (exec_stops he1)
  obtain ⟨r2, d2, he2⟩ := exec_total (E := E0) (f := Faults.none) (commitCmd_draws E0 cv ci) d1 (by omega)
  rw [← hb] at he1
  obtain ⟨⟨s, rfl⟩, ⟨x, rfl⟩, _⟩ := C119_repair hd outv hT.live2.gets hT.live2.opens.head (by rw [hb]; decide) (by rw [hb]; exact valid_ascii (by decide))
    ⟨_, _, _, by rw [hT.live2.opens.path]; exact hT.live2.link, hT.live2.mdir, rfl⟩ hT.live2.full (fits (by simp)) he1 he2
  rw [hb] at he1
  exact ⟨d, v, u2, d1, s, d2, x, hd, hT.live2.gets, hb, hno, he1, he2⟩

/-- `C119_violated`, `C119_current`: in `/w`, which is on `main` and accepts commits, `main` is moved to the working layer of the clone `/v` by its ID. No commit is accepted then. -/
example : ∃ d w u u2 d1 s, Reachable E0 d ∧ Gets E0 d cw (lit ".") w ∧ w.ws.branch = lit "main" ∧ MayCommit w u ∧
    Exec E0 Faults.none (editCmd E0 cw [.addBranch (lit "main") (UID.hex u2) true]) d (.ok s) d1 ∧
    ∀ f ci r2 d2, Exec E0 f (commitCmd E0 cw ci) d1 r2 d2 → ∃ e, r2 = .err e := by
  obtain ⟨_, _, p, root, _, _, u, d, w, v, u2, hB, hS, hT⟩ := third
  have hu := hT.used
  obtain ⟨_, hne, _⟩ := third_apart hB hS hT
  have hd := hT.live1.past.reachable
  have hb : w.ws.branch = lit "main" := hT.same.2.1.trans (hS.same.2.1.trans hB.branch)
  have htree : v.tree = w.tree := tree_of_dir hT.live1.opens hT.live2.opens (by rw [hT.live1.opens.dir, hT.live2.opens.dir, hT.space])
  have hp2 := hT.live2.full
  rw [htree] at hp2
  have hhas : w.tree.abs.Has u2 := path_has hp2 u2 (by simp)
  obtain ⟨r1, d1, he1⟩ := exec_total (E := E0) (f := Faults.none) (editCmd_draws E0 cw [.addBranch (lit "main") (UID.hex u2) true]) d (by omega)
  rw [← hb] at he1
  obtain ⟨⟨s, rfl⟩, k⟩ := C119_violated hd outw hT.live1.gets hT.live1.opens.head (by rw [hb]; decide) (by rw [hb]; exact valid_ascii (by decide)) (hex_plain u2)
    (.id (hex_ne_head u2) (hex_spells u2) hhas) (fun h => hne ((anc_path h hp2 hT.live1.full).2 rfl)) he1
  rw [hb] at he1
  exact ⟨d, w, u, u2, d1, s, hd, hT.live1.gets, hb, hT.may, he1, k⟩

end Story
end Verif
