import Verif.Props.NewBranch
import Verif.Props.EitherOrder
import Verif.Props.Moves
/-!
# Handing work over by a tag (C120)

What is committed in one workspace and tagged there can be had in any other workspace of the space.
-/
set_option autoImplicit false
namespace Verif
open M TS Json

/-- A path stays one where all nodes keep their parents. -/
theorem path_parents {a b : ATree} (h : ∀ x n, a.node x = some n → ∃ n', b.node x = some n' ∧ n'.parent = n.parent) {x : UID} {l : List UID} (hp : a.Path x l) : b.Path x l := by
  induction hp with
  | root h1 h2 =>
    obtain ⟨n', e1, e2⟩ := h _ _ h1
    exact .root e1 (e2.trans h2)
  | step h1 h2 _ ih =>
    obtain ⟨n', e1, e2⟩ := h _ _ h1
    exact .step e1 (e2.trans h2) ih

section
variable {E : Env} {d d1 d2 d3 : Disk} {cwd cwd2 : Str} {w v : OpenWs} {u p u' q : UID}

/-- **C120.** `tag NAME REF` in one workspace and `checkout NAME` in another one of the space, both on a working system: both succeed, and the other workspace shows the commit that
REF meant in the first. -/
theorem C120_tag (hd : Reachable E d) (hout : E.Outside (Path.abs cwd (lit "."))) (hout2 : E.Outside (Path.abs cwd2 (lit "."))) (hg : Gets E d cwd (lit ".") w)
    (hg2 : Gets E d cwd2 (lit ".") v) (hsp : v.spaceID = w.spaceID) (hh : w.ws.HeadAt w.tree u p) (hh2 : v.ws.HeadAt v.tree u' q)
    (hlink : ∃ n m c, d.user v.ws.path = .link (E.mountPath n) ∧ d.mdir n = some m ∧ m.merged = some c) {name ref : Str} (hpl : PlainKey name) (h8 : validUtf8 name)
    (hhd : name ≠ lit "HEAD") (hid : ∀ x, Spells name x → ¬ w.tree.abs.Has x) (htag : w.tree.abs.tag name = none) (href : PlainKey ref) {x : UID} {k : KeyType}
    (hR : Ws.Resolves w.tree.abs w.ws.id p ref x k) {ls : List UID} (hls : w.tree.abs.Path x ls) (hfit : E.Fits ls.length)
    {r1 : Res CErr TS} (he1 : Exec E Faults.none (editCmd E cwd [.addTag name ref false]) d r1 d1)
    {r2 : Res CErr (OpenWs × OpenWs)} (he2 : Exec E Faults.none (checkoutCmd E cwd2 name) d1 r2 d2) :
    (∃ s, r1 = .ok s) ∧ (∃ y, r2 = .ok y) ∧ ∃ v1, Gets E d1 cwd2 (lit ".") v1 ∧ SameWs v v1 ∧ v1.ws.HeadAt v1.tree u' q ∧ Ws.Resolves v1.tree.abs v1.ws.id q name x .tag ∧
      ∃ v2 y2, Gets E d2 cwd2 (lit ".") v2 ∧ v2.ws.id = v.ws.id ∧ v2.spaceID = v.spaceID ∧ v2.ws.branch = [] ∧ v2.ws.HeadAt v2.tree y2 x ∧ d2.Mounted v2 ∧
        d2.lists v2 = files (ls.map d.content) ∧ ∀ z, w.tree.abs.Has z → d2.layer z = d.layer z := by
  have hE : Edits w.tree.abs w.ws p (.addTag name ref false) (w.tree.abs.setTag name x) := .addTag hR (Or.inl htag)
  obtain ⟨t0, hr1, k1, o, w1, v1, a1, a2, a3, a4, a5, a6, a7, a8⟩ := asked_step hd hout hout2 hg hg2 hsp hh hh2 (e := .addTag name ref false) href h8 he1
  have hE1 : w1.tree.abs = w.tree.abs.setTag name x := a8.elim (fun h => edits_unique hE h) fun h => absurd hE (h.1 _)
  have hv1 : v1.tree.abs = w.tree.abs.setTag name x := by rw [a7]; exact hE1
  have hR1 : Ws.Resolves v1.tree.abs v1.ws.id q name x .tag := by
    rw [hv1]
    exact .tag hhd (fun y hy h => hid y hy h) (by simp only [ATree.setTag, upd_self])
  have hls1 : v1.tree.abs.Path x ls := by rw [hv1]; exact path_nodes (a := w.tree.abs) (b := w.tree.abs.setTag name x) rfl hls
  obtain ⟨o1, o2, _, _, o5, _⟩ := o
  obtain ⟨g, hs⟩ := steady_reachable hd
  obtain ⟨T, hF⟩ := gets_found hs hout2 hg2 hh2
  obtain ⟨g1, hs1⟩ := steady_reachable hr1
  obtain ⟨T1, hF1⟩ := gets_found hs1 hout2 a2 a6
  obtain ⟨y, rfl⟩ := (C61_checkout_accepted_iff hr1 hpl hout2 a2 a6 (fun v2 kt2 ls2 a b => by
      obtain ⟨rfl, _⟩ := Ws.resolves_unique a hR1
      rw [Ws.path_unique b hls1]; exact hfit)
    (by rw [hF1.opens.path, ← hF.opens.path, o5, o2]; exact hlink) he2).2 ⟨x, .tag, hR1⟩
  obtain ⟨v2, y2, K⟩ := C116_once hr1 hout2 a2 a6 hR1 hls1 he2
  refine ⟨k1.2 ⟨_, hE⟩, ⟨y, rfl⟩, v1, a2, a4, a6, hR1, v2, y2, K.gets, K.id.trans a4.1, K.space.trans a4.2.2, K.branch.trans (show sanitize [] = [] by decide), K.head, K.mounted, ?_, fun z hz => ?_⟩
  · rw [K.files]
    congr 1
    exact List.map_congr_left fun z _ => by simp only [Disk.content, o1]
  · rw [K.layer z (by rw [hv1]; exact hz), o1]

/-- **C120.** Work is handed over: `commit` and `tag NAME HEAD` in one workspace, `checkout NAME` in another one of the space. If the commit succeeds, so do the others, and the other
workspace shows exactly the files that the first one showed. As in C33, no layer under the commit is the working layer of a workspace. -/
theorem C120_hand_over (hd : Reachable E d) (hout : E.Outside (Path.abs cwd (lit "."))) (hout2 : E.Outside (Path.abs cwd2 (lit "."))) (hg : Gets E d cwd (lit ".") w) (hm : d.Mounted w)
    (hh : w.ws.HeadAt w.tree u p) (hbase : ∀ x, w.tree.abs.Anc x p → ¬ Head E d x) {ci : CommitInfo} {y : OpenWs × OpenWs} (he : Exec E Faults.none (commitCmd E cwd ci) d (.ok y) d1)
    (hg2 : Gets E d1 cwd2 (lit ".") v) (hsp : v.spaceID = w.spaceID) (hlink : ∃ n m c, d1.user v.ws.path = .link (E.mountPath n) ∧ d1.mdir n = some m ∧ m.merged = some c)
    {name : Str} (hpl : PlainKey name) (h8 : validUtf8 name) (hhd : name ≠ lit "HEAD") (hid : ∀ x, ¬ Spells name x) (htag : w.tree.abs.tag name = none)
    {ls : List UID} (hls : w.tree.abs.Path u ls) (hfit : E.Fits ls.length)
    {r1 : Res CErr TS} (he1 : Exec E Faults.none (editCmd E cwd [.addTag name (lit "HEAD") false]) d1 r1 d2)
    {r2 : Res CErr (OpenWs × OpenWs)} (he2 : Exec E Faults.none (checkoutCmd E cwd2 name) d2 r2 d3) :
    (∃ s, r1 = .ok s) ∧ (∃ z, r2 = .ok z) ∧ ∃ v3 u3, Gets E d3 cwd2 (lit ".") v3 ∧ v3.ws.id = v.ws.id ∧ v3.ws.HeadAt v3.tree u3 u ∧ d3.Mounted v3 ∧ d3.lists v3 = d.lists w := by
  have hr1 : Reachable E d1 := reachable_next hd rfl (a := .commit cwd ci) hout (.commit he)
  obtain ⟨w1, u1, g1, sw, hh1, hC⟩ := C27_commit_effect hd hout hg hh he
  obtain ⟨g, hs⟩ := steady_reachable hr1
  obtain ⟨u', q, T, hF⟩ := found_of_gets hs hout2 hg2
  have hpar : ∀ x n, w.tree.abs.node x = some n → ∃ n', w1.tree.abs.node x = some n' ∧ n'.parent = n.parent := fun x n hx => by
    by_cases e : x = u
    · subst e
      obtain ⟨m, m', e1, e2, e3, _⟩ := hC.commit
      rw [hx] at e1; cases e1
      exact ⟨m', e2, e3⟩
    · exact ⟨n, (hC.others x e fun e2 => hC.fresh (e2 ▸ ⟨n, hx⟩)).trans hx, rfl⟩
  have hls1 := path_parents hpar hls
  obtain ⟨k1, ⟨z, rfl⟩, v2, b1, b2, b3, b4, v3, u3, c1, c2, c3, c4, c5, c6, c7, c8⟩ := C120_tag hr1 hout hout2 g1 hg2 (hsp.trans sw.2.2.symm) hh1 hF.opens.head hlink hpl h8 hhd
    (fun x hx => absurd hx (hid x)) (by rw [hC.tags]; exact htag) (by unfold PlainKey; decide) .head hls1 hfit he1 he2
  obtain ⟨s, rfl⟩ := k1
  have hp : Past E Faults.none d1 d2 := .step (a := .edit cwd [.addTag name (lit "HEAD") false]) .refl hout (.edit he1)
  obtain ⟨w4, u4, e1, e2, e3, e4⟩ := C33_checkout_restores hd hout hg hm hh hbase he (f2 := Faults.none) rfl hp hout2 b1 (b2.2.2.trans hsp) b3 b4 he2
  have hr2 : Reachable E d2 := reachable_next hr1 rfl (a := .edit cwd [.addTag name (lit "HEAD") false]) hout (.edit he1)
  have hr3 : Reachable E d3 := reachable_next hr2 rfl (a := .checkout cwd2 name) hout2 (.checkout he2)
  obtain rfl := gets_unique hr3 hout2 c1 e1
  exact ⟨⟨s, rfl⟩, ⟨z, rfl⟩, v3, u3, c1, c2, c5, e3, e4⟩

/-- **C120.** No name is needed, and there is no hurry: after a commit in one workspace, and after whatever else happens while no call fails, `checkout ID` with the ID of the commit
succeeds in every workspace of the space and shows exactly the files that the first one showed before the commit. -/
theorem C120_id {f : Faults} (hd : Reachable E d) (hout : E.Outside (Path.abs cwd (lit "."))) (hout2 : E.Outside (Path.abs cwd2 (lit "."))) (hg : Gets E d cwd (lit ".") w) (hm : d.Mounted w)
    (hh : w.ws.HeadAt w.tree u p) (hbase : ∀ x, w.tree.abs.Anc x p → ¬ Head E d x) {ci : CommitInfo} {y : OpenWs × OpenWs} (he : Exec E Faults.none (commitCmd E cwd ci) d (.ok y) d1)
    (hio : f.io = false) (hp : Past E f d1 d2) (hg2 : Gets E d2 cwd2 (lit ".") v) (hsp : v.spaceID = w.spaceID)
    (hlink : ∃ n m c, d2.user v.ws.path = .link (E.mountPath n) ∧ d2.mdir n = some m ∧ m.merged = some c)
    {ls : List UID} (hls : w.tree.abs.Path u ls) (hfit : E.Fits ls.length) {r : Res CErr (OpenWs × OpenWs)} (he2 : Exec E Faults.none (checkoutCmd E cwd2 u.hex) d2 r d3) :
    (∃ z, r = .ok z) ∧ ∃ v3 u3, Gets E d3 cwd2 (lit ".") v3 ∧ v3.ws.HeadAt v3.tree u3 u ∧ d3.Mounted v3 ∧ d3.lists v3 = d.lists w := by
  have hr1 : Reachable E d1 := reachable_next hd rfl (a := .commit cwd ci) hout (.commit he)
  obtain ⟨w1, _, g1, sw, _, _⟩ := C27_commit_effect hd hout hg hh he
  obtain ⟨g, hs⟩ := steady_reachable hr1
  obtain ⟨g', hs', _⟩ := steady_past hio hs hp
  obtain ⟨u', q, T, hF⟩ := found_of_gets hs' hout2 hg2
  have hp1 : Past E Faults.none d d1 := .step (a := .commit cwd ci) .refl hout (.commit he)
  have hpar : ∀ x n, w.tree.abs.node x = some n → ∃ n', v.tree.abs.node x = some n' ∧ n'.parent = n.parent := fun x n hx => by
    obtain ⟨n1, a1, a2, _⟩ := C31_append_only hd rfl hp1 hout hout hg g1 sw.2.2 hx
    obtain ⟨n2, b1, b2, _⟩ := C31_append_only hr1 hio hp hout hout2 g1 hg2 (hsp.trans sw.2.2.symm) a1
    exact ⟨n2, b1, b2.trans a2⟩
  have hres : Ws.Resolves v.tree.abs v.ws.id q u.hex u .commit := by
    obtain ⟨_, n, hn, _⟩ := hh
    obtain ⟨n', a1, _⟩ := hpar _ _ hn
    exact .id (hex_ne_head u) (hex_spells u) ⟨n', a1⟩
  have hr2 : Reachable E d2 := by
    obtain ⟨f0, d0, h1, h2, h3⟩ := hr1
    exact ⟨f0.join f, d0, by simp [Faults.join, h1, hio], h2, past_trans (past_mono (le_join_left f0 f) h3) (past_mono (le_join_right f0 f) hp)⟩
  obtain ⟨z, rfl⟩ := (C61_checkout_accepted_iff hr2 (hex_plain u) hout2 hg2 hF.opens.head (fun v2 kt2 ls2 a b => by
      obtain ⟨rfl, _⟩ := Ws.resolves_unique a hres
      rw [Ws.path_unique b (path_parents hpar hls)]; exact hfit) hlink he2).2 ⟨u, _, hres⟩
  exact ⟨⟨z, rfl⟩, C33_checkout_restores hd hout hg hm hh hbase he hio hp hout2 hg2 hsp hF.opens.head hres he2⟩

end
end Verif
