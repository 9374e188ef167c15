import Verif.Props.RoundTrip
import Verif.Props.Edits
/-!
# Working on a new branch, and going to a tag (C118)
-/
set_option autoImplicit false
namespace Verif
open M TS Json

/-- A word that can only be meant as the name of a tag, or of a branch of the workspace. -/
structure BareName (a : ATree) (name : Str) : Prop where
  plain : PlainKey name
  utf8 : validUtf8 name
  some : name ≠ []
  head : name ≠ lit "HEAD"
  noId : ∀ x, ¬ Spells name x
  /-- It is not the full name of a branch. -/
  full : a.branch name = none

section
variable {E : Env} {d d1 d2 d3 : Disk} {cwd : Str} {w : OpenWs} {u p : UID}

/-- **C118.** `branch NAME REF` with a new name, `checkout NAME`, `commit`: all three succeed. After the checkout the workspace shows the commit that REF meant and is on the new
branch; after the commit the new branch points to the commit, whose parent is that of REF, and every other branch and every tag is where it was before. -/
theorem C118_new_branch (hd : Reachable E d) (hout : E.Outside (Path.abs cwd (lit "."))) (hg : Gets E d cwd (lit ".") w) (hh : w.ws.HeadAt w.tree u p)
    (hlink : ∃ n m c, d.user w.ws.path = .link (E.mountPath n) ∧ d.mdir n = some m ∧ m.merged = some c) {name ref : Str} (hN : BareName w.tree.abs name)
    (htag : w.tree.abs.tag name = none) (hnew : w.tree.abs.branch (w.ws.id.base32 ++ lit "/" ++ name) = none) (href : PlainKey ref) {v : UID} {k : KeyType}
    (hR : Ws.Resolves w.tree.abs w.ws.id p ref v k) {ls : List UID} (hls : w.tree.abs.Path v ls) (hfit : E.Fits ls.length) (hfit' : E.Fits (ls.length + 1)) {ci : CommitInfo}
    {r1 : Res CErr TS} (he1 : Exec E Faults.none (editCmd E cwd [.addBranch name ref false]) d r1 d1)
    {r2 : Res CErr (OpenWs × OpenWs)} (he2 : Exec E Faults.none (checkoutCmd E cwd name) d1 r2 d2)
    {r3 : Res CErr (OpenWs × OpenWs)} (he3 : Exec E Faults.none (commitCmd E cwd ci) d2 r3 d3) :
    (∃ x, r1 = .ok x) ∧ (∃ x, r2 = .ok x) ∧ (∃ x, r3 = .ok x) ∧
    ∃ w2 u2 w3 u3, Gets E d2 cwd (lit ".") w2 ∧ w2.ws.id = w.ws.id ∧ w2.spaceID = w.spaceID ∧ w2.ws.branch = name ∧ w2.ws.HeadAt w2.tree u2 v ∧ d2.Mounted w2 ∧
      d2.lists w2 = files (ls.map d.content) ∧ (∀ x, w.tree.abs.Has x → d2.layer x = d.layer x) ∧
      Gets E d3 cwd (lit ".") w3 ∧ SameWs w2 w3 ∧ w3.ws.HeadAt w3.tree u3 u2 ∧ (∃ n, w3.tree.abs.node u2 = some n ∧ n.parent = some v) ∧
      w3.tree.abs.branch (w.ws.id.base32 ++ lit "/" ++ name) = some u2 ∧ (∀ b, b ≠ w.ws.id.base32 ++ lit "/" ++ name → w3.tree.abs.branch b = w.tree.abs.branch b) ∧
      w3.tree.abs.tag = w.tree.abs.tag := by
  obtain ⟨s1, rfl⟩ := (C24_accepted_iff hd hout hg hh rfl (e := .addBranch name ref false) href he1).2 ⟨_, .addBranch hR (Or.inl hnew)⟩
  have hr1 : Reachable E d1 := reachable_next hd rfl (a := .edit cwd [.addBranch name ref false]) hout (.edit he1)
  obtain ⟨w1, v', k', g1, sw1, hh1, hR', _, hb1, hbs1, ht1, hn1, _, ho⟩ := C59_branch hd hout hg hh hN.utf8 he1
  obtain ⟨rfl, _⟩ := Ws.resolves_unique hR' hR
  obtain ⟨g, hs⟩ := steady_reachable hd
  obtain ⟨T, hF⟩ := gets_found hs hout hg hh
  obtain ⟨gg, hs1⟩ := steady_reachable hr1
  obtain ⟨T1, hF1⟩ := gets_found hs1 hout g1 hh1
  have longer : name ≠ w.ws.id.base32 ++ lit "/" ++ name := fun e => by
    have := congrArg List.length e
    simp only [List.length_append, show (lit "/").length = 1 from rfl] at this
    omega
  have hR1 : Ws.Resolves w1.tree.abs w1.ws.id p name v' .branch :=
    .own hN.head (fun x hx => absurd hx (hN.noId x)) (by rw [ht1]; exact htag) (by rw [hbs1 _ longer]; exact hN.full) (by rw [sw1.1]; exact hb1)
  have hhas : ∀ x, w1.tree.abs.Has x ↔ w.tree.abs.Has x := fun x => by simp only [ATree.Has, hn1]
  have hls1 : w1.tree.abs.Path v' ls := path_nodes hn1 hls
  obtain ⟨o1, o2, _, _, o5, _⟩ := ho
  obtain ⟨x2, rfl⟩ := (C61_checkout_accepted_iff hr1 hN.plain hout g1 hh1 (fun v2 kt2 ls2 a b => by
      obtain ⟨rfl, _⟩ := Ws.resolves_unique a hR1
      rw [Ws.path_unique b hls1]; exact hfit)
    (by rw [hF1.opens.path, ← hF.opens.path, o5, o2]; exact hlink) he2).2 ⟨v', .branch, hR1⟩
  obtain ⟨_, v2, kt2, u2, ls2, g', w2, b1, b2, _, _, b3, b4, b5, b6, b7, b8, b9, b10⟩ := after_checkout hs1 hF1 he2
  obtain ⟨rfl, rfl⟩ := Ws.resolves_unique b1 hR1
  obtain rfl := Ws.path_unique b3 hls1
  have hr2 : Reachable E d2 := reachable_next hr1 rfl (a := .checkout cwd name) hout (.checkout he2)
  obtain ⟨w2', u2', K⟩ := C116_once hr1 hout g1 hh1 hR1 hls1 he2
  have g2 : Gets E d2 cwd (lit ".") w2 := gets_of_opens b4
  obtain rfl := gets_unique hr2 hout K.gets g2
  have hbr : w2'.ws.branch = name := by rw [K.branch]; exact valid_iff_sanitize.1 hN.utf8
  have hid : w2'.ws.id = w.ws.id := K.id.trans sw1.1
  have hv : w2'.tree.abs.Has v2 := ⟨_, K.node v2 _ (path_has hls1 v2 (by cases hls1 <;> simp)).choose_spec⟩
  obtain ⟨_, n2, hn2, hp2⟩ := id b4.head
  have hmay : MayCommit w2' u2 := Or.inr ⟨v2, by rw [hbr, hid, K.branches]; exact hb1, .step hn2 hp2 (.refl hv.choose_spec)⟩
  have hls2 : w2'.tree.abs.Path u2 (u2 :: ls2) := .step hn2 hp2 (by rw [b9]; exact extends_path (extends_add (S := fun _ => True) b8) hls1)
  obtain ⟨x3, rfl⟩ := (C28_accepted_iff hr2 hout g2 b4.head hls2 hfit' ⟨_, _, _, by rw [b4.path, ← hF1.opens.path]; exact b10.link, b10.mdir, rfl⟩ he3).2 hmay
  obtain ⟨w3, u3, c1, c2, c3, c4⟩ := C27_commit_effect hr2 hout g2 b4.head he3
  have hm := c4.moved (by rw [hbr]; exact hN.some)
  have hbs := c4.branches
  rw [hbr, hid] at hm hbs
  obtain ⟨n, n', e1, e2, e3, _⟩ := c4.commit
  rw [hn2] at e1
  cases e1
  refine ⟨⟨_, rfl⟩, ⟨_, rfl⟩, ⟨_, rfl⟩, w2', u2, w3, u3, g2, hid, K.space.trans sw1.2.2, hbr, b4.head, K.mounted, ?_, fun x hx => ?_, c1, c2, c3, ⟨n', e2, e3.trans hp2⟩, hm, fun b hb => ?_, ?_⟩
  · rw [K.files]
    congr 1
    exact List.map_congr_left fun z _ => by simp only [Disk.content, o1]
  · rw [K.layer x ((hhas x).2 hx), o1]
  · rw [hbs b (Or.inr hb), K.branches, hbs1 b hb]
  · rw [c4.tags, K.tags, ht1]

/-- **C118.** `tag NAME REF` with a new name and `checkout NAME`: both succeed, the workspace shows the commit that REF meant, and is on no branch. -/
theorem C118_tag (hd : Reachable E d) (hout : E.Outside (Path.abs cwd (lit "."))) (hg : Gets E d cwd (lit ".") w) (hh : w.ws.HeadAt w.tree u p)
    (hlink : ∃ n m c, d.user w.ws.path = .link (E.mountPath n) ∧ d.mdir n = some m ∧ m.merged = some c) {name ref : Str} (hpl : PlainKey name) (h8 : validUtf8 name)
    (hhd : name ≠ lit "HEAD") (hid : ∀ x, Spells name x → ¬ w.tree.abs.Has x)
    (htag : w.tree.abs.tag name = none) (href : PlainKey ref) {v : UID} {k : KeyType} (hR : Ws.Resolves w.tree.abs w.ws.id p ref v k) {ls : List UID}
    (hls : w.tree.abs.Path v ls) (hfit : E.Fits ls.length) {r1 : Res CErr TS} (he1 : Exec E Faults.none (editCmd E cwd [.addTag name ref false]) d r1 d1)
    {r2 : Res CErr (OpenWs × OpenWs)} (he2 : Exec E Faults.none (checkoutCmd E cwd name) d1 r2 d2) :
    (∃ x, r1 = .ok x) ∧ (∃ x, r2 = .ok x) ∧
    ∃ w2 u2, Gets E d2 cwd (lit ".") w2 ∧ w2.ws.id = w.ws.id ∧ w2.spaceID = w.spaceID ∧ w2.ws.branch = [] ∧ w2.ws.HeadAt w2.tree u2 v ∧ d2.Mounted w2 ∧
      d2.lists w2 = files (ls.map d.content) ∧ (∀ x, w.tree.abs.Has x → d2.layer x = d.layer x) ∧ w2.tree.abs.branch = w.tree.abs.branch ∧
      w2.tree.abs.tag name = some v ∧ ∀ t, t ≠ name → w2.tree.abs.tag t = w.tree.abs.tag t := by
  obtain ⟨s1, rfl⟩ := (C24_accepted_iff hd hout hg hh rfl (e := .addTag name ref false) href he1).2 ⟨_, .addTag hR (Or.inl htag)⟩
  have hr1 : Reachable E d1 := reachable_next hd rfl (a := .edit cwd [.addTag name ref false]) hout (.edit he1)
  obtain ⟨w1, v', k', g1, sw1, hh1, hR', _, hb1, hbs1, ht1, hn1, _, ho⟩ := C59_tag hd hout hg hh h8 he1
  obtain ⟨rfl, _⟩ := Ws.resolves_unique hR' hR
  obtain ⟨g, hs⟩ := steady_reachable hd
  obtain ⟨T, hF⟩ := gets_found hs hout hg hh
  obtain ⟨gg, hs1⟩ := steady_reachable hr1
  obtain ⟨T1, hF1⟩ := gets_found hs1 hout g1 hh1
  have hhas : ∀ x, w1.tree.abs.Has x ↔ w.tree.abs.Has x := fun x => by simp only [ATree.Has, hn1]
  have hR1 : Ws.Resolves w1.tree.abs w1.ws.id p name v' .tag := .tag hhd (fun x hx h => hid x hx ((hhas x).1 h)) hb1
  have hls1 : w1.tree.abs.Path v' ls := path_nodes hn1 hls
  obtain ⟨o1, o2, _, _, o5, _⟩ := ho
  obtain ⟨x2, rfl⟩ := (C61_checkout_accepted_iff hr1 hpl hout g1 hh1 (fun v2 kt2 ls2 a b => by
      obtain ⟨rfl, _⟩ := Ws.resolves_unique a hR1
      rw [Ws.path_unique b hls1]; exact hfit)
    (by rw [hF1.opens.path, ← hF.opens.path, o5, o2]; exact hlink) he2).2 ⟨v', .tag, hR1⟩
  obtain ⟨w2, u2, K⟩ := C116_once hr1 hout g1 hh1 hR1 hls1 he2
  refine ⟨⟨_, rfl⟩, ⟨_, rfl⟩, w2, u2, K.gets, K.id.trans sw1.1, K.space.trans sw1.2.2, K.branch.trans (show sanitize [] = [] by decide), K.head, K.mounted, ?_, fun x hx => ?_, ?_, ?_, fun t ht => ?_⟩
  · rw [K.files]
    congr 1
    exact List.map_congr_left fun z _ => by simp only [Disk.content, o1]
  · rw [K.layer x ((hhas x).2 hx), o1]
  · rw [K.branches, ht1]
  · rw [K.tags]; exact hb1
  · rw [K.tags, hbs1 t ht]

end
end Verif
