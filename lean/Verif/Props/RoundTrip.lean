import Verif.Props.Again
import Verif.Props.Branches
/-!
# Where a checkout leads does not depend on the way (C116)

After any checkout, a checkout of something else leads where it would have led at once; so going to another commit and back to the branch shows the last commit of the branch,
and the workspace is on the branch again. What was not committed stays in its layer.
-/
set_option autoImplicit false
namespace Verif
open M TS Json

/-- In `d'` there is a workspace on the commit `v`, with the layers `ls`, as a checkout of `key` from `w` gives it: the same workspace, on the branch that the key asks for, with
the files of the commit and the history of `w` and new working layers. -/
structure At (E : Env) (d d' : Disk) (cwd : Str) (w : OpenWs) (key : Str) (kt : KeyType) (v : UID) (ls : List UID) (w2 : OpenWs) (u2 : UID) : Prop where
  gets : Gets E d' cwd (lit ".") w2
  id : w2.ws.id = w.ws.id
  space : w2.spaceID = w.spaceID
  branch : w2.ws.branch = sanitize (branchAfter key kt)
  head : w2.ws.HeadAt w2.tree u2 v
  mounted : d'.Mounted w2
  files : d'.lists w2 = files (ls.map d.content)
  node : ∀ x n, w.tree.abs.node x = some n → w2.tree.abs.node x = some n
  branches : w2.tree.abs.branch = w.tree.abs.branch
  tags : w2.tree.abs.tag = w.tree.abs.tag
  /-- No layer changes. -/
  layer : ∀ x, w.tree.abs.Has x → d'.layer x = d.layer x

section
variable {E : Env} {f : Faults} {d d1 d2 : Disk} {cwd : Str} {w : OpenWs} {u p : UID}

/-- **C116.** What a checkout that succeeds gives. -/
theorem C116_once (hd : Reachable E d) (hout : E.Outside (Path.abs cwd (lit "."))) (hg : Gets E d cwd (lit ".") w) (hh : w.ws.HeadAt w.tree u p) {key : Str} {v : UID} {kt : KeyType}
    (hR : Ws.Resolves w.tree.abs w.ws.id p key v kt) {ls : List UID} (hls : w.tree.abs.Path v ls) {x : OpenWs × OpenWs} (he : Exec E f (checkoutCmd E cwd key) d (.ok x) d1) :
    ∃ w1 u1, At E d d1 cwd w key kt v ls w1 u1 := by
  obtain ⟨g, hs⟩ := steady_reachable hd
  obtain ⟨T, hF⟩ := gets_found hs hout hg hh
  obtain ⟨_, v', kt', u1, ls', g', w1, b1, b2, _, _, b3, b4, b5, b6, b7, b8, b9, b10⟩ := after_checkout hs hF he
  obtain ⟨rfl, rfl⟩ := Ws.resolves_unique b1 hR
  obtain rfl := Ws.path_unique b3 hls
  have hne : ∀ x, w.tree.abs.Has x → x ≠ u1 := by rintro x hx rfl; exact b8 hx
  exact ⟨w1, u1, gets_of_opens b4, b5, b6, b7, b4.head, by rw [Disk.Mounted, b10.mnt]; simp, lists_fresh b10 (path_stored hF.opens b3),
    fun x n hx => by rw [b9]; exact (upd_ne _ _ (hne x ⟨n, hx⟩)).trans hx, by rw [b9]; rfl, by rw [b9]; rfl, fun x hx => by rw [b10.layer, upd_ne _ _ (hne x hx)]⟩

/-- **C116.** After a checkout of any key `B`, a checkout of `A` succeeds if the mount options fit, and gives what it would have given before: the same commit and branch, and the
same files. `A` is not HEAD, which means another commit after the first checkout, and not the ID of a layer that is not there. -/
theorem C116_any_way (hd : Reachable E d) (hf : f.io = false) (hout : E.Outside (Path.abs cwd (lit "."))) (hg : Gets E d cwd (lit ".") w) (hh : w.ws.HeadAt w.tree u p)
    {A B : Str} (hA : A ≠ lit "HEAD") (hpl : PlainKey A) (hk : ∀ x, Spells A x → w.tree.abs.Has x) {v : UID} {kt : KeyType} (hR : Ws.Resolves w.tree.abs w.ws.id p A v kt)
    {ls : List UID} (hls : w.tree.abs.Path v ls) (hfit : E.Fits ls.length) {x : OpenWs × OpenWs} (he1 : Exec E f (checkoutCmd E cwd B) d (.ok x) d1)
    {r : Res CErr (OpenWs × OpenWs)} (he2 : Exec E Faults.none (checkoutCmd E cwd A) d1 r d2) :
    (∃ y, r = .ok y) ∧ ∃ w2 u2, At E d d2 cwd w A kt v ls w2 u2 := by
  obtain ⟨g, hs⟩ := steady_reachable hd
  obtain ⟨T, hF⟩ := gets_found hs hout hg hh
  obtain ⟨_, v', kt', u1, ls', g', w1, b1, b2, _, _, b3, b4, b5, b6, b7, b8, b9, b10⟩ := after_checkout hs hF he1
  have hr1 : Reachable E d1 := reachable_next hd hf (a := .checkout cwd B) hout (.checkout he1)
  have hne : ∀ x, w.tree.abs.Has x → x ≠ u1 := by rintro x hx rfl; exact b8 hx
  have hR1 : Ws.Resolves w1.tree.abs w1.ws.id v' A v kt := by
    rw [b9, b5]
    have := add_resolves (q := some v') hR (Or.inl rfl) hk b8
    cases this with
    | head => exact absurd rfl hA
    | id h1 h2 h3 => exact .id h1 h2 h3
    | tag h1 h2 h3 => exact .tag h1 h2 h3
    | full h1 h2 h3 h4 => exact .full h1 h2 h3 h4
    | own h1 h2 h3 h4 h5 => exact .own h1 h2 h3 h4 h5
    | global h1 h2 h3 h4 h5 h6 h7 => exact .global h1 h2 h3 h4 h5 h6 h7
  have hls1 : w1.tree.abs.Path v ls := by rw [b9]; exact extends_path (extends_add (S := fun _ => True) b8) hls
  have hg1 : Gets E d1 cwd (lit ".") w1 := gets_of_opens b4
  obtain ⟨y, rfl⟩ := (C61_checkout_accepted_iff hr1 hpl hout hg1 b4.head (fun v2 kt2 ls2 a b => by
      obtain ⟨rfl, _⟩ := Ws.resolves_unique a hR1
      rw [Ws.path_unique b hls1]; exact hfit)
    ⟨_, _, _, by rw [b4.path, ← hF.opens.path]; exact b10.link, b10.mdir, rfl⟩ he2).2 ⟨v, kt, hR1⟩
  obtain ⟨w2, u2, k⟩ := C116_once hr1 hout hg1 b4.head hR1 hls1 he2
  refine ⟨⟨y, rfl⟩, w2, u2, k.gets, k.id.trans b5, k.space.trans b6, k.branch, k.head, k.mounted, ?_, fun x n hx => k.node x n ?_, ?_, ?_, fun x hx => ?_⟩
  · rw [k.files]
    congr 1
    refine List.map_congr_left fun z hz => ?_
    simp only [Disk.content, b10.layer, upd_ne _ _ (hne z (path_has hls z hz))]
  · rw [b9]; exact (upd_ne _ _ (hne x ⟨n, hx⟩)).trans hx
  · rw [k.branches, b9]; rfl
  · rw [k.tags, b9]; rfl
  · rw [k.layer x (by rw [b9]; exact add_has.2 (Or.inr hx)), b10.layer, upd_ne _ _ (hne x hx)]

/-- **C116.** There and back: after a checkout of any key, checking out the branch that the workspace was on, by its name, brings back the last commit of the branch with its files,
and the workspace is on the branch. The layer with what was not committed is as it was. -/
theorem C116_there_and_back (hd : Reachable E d) (hf : f.io = false) (hout : E.Outside (Path.abs cwd (lit "."))) (hg : Gets E d cwd (lit ".") w) (hh : w.ws.HeadAt w.tree u p)
    {B : Str} (hpl : PlainKey w.ws.branch) (hk : ∀ x, ¬ Spells w.ws.branch x) (hb : w.ws.branch ≠ []) {v : UID}
    (hR : Ws.Resolves w.tree.abs w.ws.id p w.ws.branch v .branch) (hown : w.tree.abs.branch (w.ws.id.base32 ++ lit "/" ++ w.ws.branch) = some v)
    {ls : List UID} (hls : w.tree.abs.Path v ls) (hfit : E.Fits ls.length) {x : OpenWs × OpenWs} (he1 : Exec E f (checkoutCmd E cwd B) d (.ok x) d1)
    {r : Res CErr (OpenWs × OpenWs)} (he2 : Exec E Faults.none (checkoutCmd E cwd w.ws.branch) d1 r d2) :
    (∃ y, r = .ok y) ∧ ∃ w2 u2, At E d d2 cwd w w.ws.branch .branch v ls w2 u2 ∧ SameWs w w2 ∧ MayCommit w2 u2 ∧ d2.layer u = d.layer u := by
  have hA : w.ws.branch ≠ lit "HEAD" := fun e => by
    rw [e] at hR
    cases hR <;> exact absurd rfl ‹lit "HEAD" ≠ lit "HEAD"›
  obtain ⟨h1, w2, u2, k⟩ := C116_any_way hd hf hout hg hh hA hpl (fun x hx => absurd hx (hk x)) hR hls hfit he1 he2
  obtain ⟨g, hs⟩ := steady_reachable hd
  obtain ⟨T, hF⟩ := gets_found hs hout hg hh
  have hbr : w2.ws.branch = w.ws.branch := by
    rw [k.branch]
    have hu8 := (found_utf8 hF).branch _ _ hown
    rw [valid_iff_sanitize, sanitize_own] at hu8
    exact List.append_cancel_left hu8
  have hhas : w.tree.abs.Has u := by obtain ⟨_, n, hn, _⟩ := hh; exact ⟨n, hn⟩
  refine ⟨h1, w2, u2, k, ⟨k.id, hbr, k.space⟩, Or.inr ⟨v, ?_, ?_⟩, k.layer u hhas⟩
  · rw [k.branches, k.id, hbr]; exact hown
  · obtain ⟨_, n, hn, hp⟩ := k.head
    obtain ⟨nv, hnv⟩ := path_has hls v (by cases hls <;> simp)
    exact .step hn hp (.refl (k.node v nv hnv))

end
end Verif
