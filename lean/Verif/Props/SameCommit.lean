import Verif.Props.Start
/-!
# The same commit everywhere (C122)

A commit shows the same files in every workspace of the space and at any time.
-/
set_option autoImplicit false
namespace Verif
open M TS Json

section
variable {E : Env} {f : Faults} {d d1 d2 d3 : Disk} {cwd cwd2 : Str} {w v : OpenWs} {u p u' q x : UID}

/-- **C122.** A reference is checked out in one workspace, and later, after whatever else happened while no call failed, a reference that means the same commit in another (or the same) workspace of
the space. Then the second shows exactly the files that the first showed after its checkout. The commit and those under it are not the working layer of a workspace. -/
theorem C122_same (hd : Reachable E d) (hout : E.Outside (Path.abs cwd (lit "."))) (hout2 : E.Outside (Path.abs cwd2 (lit "."))) (hg : Gets E d cwd (lit ".") w) (hh : w.ws.HeadAt w.tree u p)
    {key key2 : Str} {kt kt2 : KeyType} (hR : Ws.Resolves w.tree.abs w.ws.id p key x kt) (hx : ∀ z, w.tree.abs.Anc z x → ¬ Head E d z)
    {y : OpenWs × OpenWs} (he : Exec E Faults.none (checkoutCmd E cwd key) d (.ok y) d1) (hio : f.io = false) (hp : Past E f d1 d2) (hg2 : Gets E d2 cwd2 (lit ".") v)
    (hsp : v.spaceID = w.spaceID) (hh2 : v.ws.HeadAt v.tree u' q) (hR2 : Ws.Resolves v.tree.abs v.ws.id q key2 x kt2)
    {y2 : OpenWs × OpenWs} (he2 : Exec E Faults.none (checkoutCmd E cwd2 key2) d2 (.ok y2) d3) :
    ∃ w1 u1 v3 u3, Gets E d1 cwd (lit ".") w1 ∧ w1.ws.id = w.ws.id ∧ w1.ws.HeadAt w1.tree u1 x ∧ Gets E d3 cwd2 (lit ".") v3 ∧ v3.ws.id = v.ws.id ∧ v3.ws.HeadAt v3.tree u3 x ∧
      d1.Mounted w1 ∧ d3.Mounted v3 ∧ d3.lists v3 = d1.lists w1 := by
  have hr1 : Reachable E d1 := reachable_next hd (f := Faults.none) rfl (a := .checkout cwd key) hout (.checkout he)
  obtain ⟨g, hs⟩ := steady_reachable hd
  obtain ⟨T, hF⟩ := gets_found hs hout hg hh
  obtain ⟨_, _, _, _, ls, _, _, b1, _, _, _, b3, _⟩ := after_checkout hs hF he
  obtain ⟨rfl, rfl⟩ := Ws.resolves_unique b1 hR
  obtain ⟨w1, u1, K⟩ := C116_once hd hout hg hh hR b3 he
  have hp1 : Past E Faults.none d d1 := .step (a := .checkout cwd key) .refl hout (.checkout he)
  obtain ⟨g1, hs1, hG1⟩ := steady_past (f := Faults.none) rfl hs hp1
  obtain ⟨g2, hs2, hG2⟩ := steady_past hio hs1 hp
  have hr2 : Reachable E d2 := by
    obtain ⟨f0, d0, h1, h2, h3⟩ := hr1
    exact ⟨f0.join f, d0, by simp [Faults.join, h1, hio], h2, past_trans (past_mono (le_join_left f0 f) h3) (past_mono (le_join_right f0 f) hp)⟩
  have hpar : ∀ z n, w.tree.abs.node z = some n → ∃ n', v.tree.abs.node z = some n' ∧ n'.parent = n.parent := fun z n hz => by
    obtain ⟨n1, a1, a2, _⟩ := C31_append_only hd (f := Faults.none) rfl hp1 hout hout hg K.gets K.space hz
    obtain ⟨n2, c1, c2, _⟩ := C31_append_only hr1 hio hp hout hout2 K.gets hg2 (hsp.trans K.space.symm) a1
    exact ⟨n2, c1, c2.trans a2⟩
  obtain ⟨v3, u3, K2⟩ := C116_once hr2 hout2 hg2 hh2 hR2 (path_parents hpar b3) he2
  refine ⟨w1, u1, v3, u3, K.gets, K.id, K.head, K2.gets, K2.id, K2.head, K.mounted, K2.mounted, ?_⟩
  rw [K.files, K2.files]
  congr 1
  refine List.map_congr_left fun z hz => ?_
  have h1 := path_stored hF.opens b3 z hz
  have h2 := hx z (path_mem_anc b3 z hz)
  simp only [Disk.content, hG2.layer z (hG1.diff z h1) (fun h => h2 (hG1.heads z h h1)), hG1.layer z h1 h2]

/-- **C122.** The same of a clone: it shows exactly what a checkout of the last commit of its source showed at any earlier time in any workspace of the space. -/
theorem C122_clone (hd : Reachable E d) (hout : E.Outside (Path.abs cwd (lit "."))) {src to : Str} (hout2 : E.Outside (Path.abs cwd2 src)) (hout3 : E.Outside (Path.abs to (lit ".")))
    (hg : Gets E d cwd (lit ".") w) (hh : w.ws.HeadAt w.tree u p) {key : Str} {kt : KeyType} (hR : Ws.Resolves w.tree.abs w.ws.id p key x kt)
    (hx : ∀ z, w.tree.abs.Anc z x → ¬ Head E d z) {y : OpenWs × OpenWs} (he : Exec E Faults.none (checkoutCmd E cwd key) d (.ok y) d1) (hio : f.io = false) (hp : Past E f d1 d2)
    (hg2 : Gets E d2 cwd2 src v) (hsp : v.spaceID = w.spaceID) (hh2 : v.ws.HeadAt v.tree u' x)
    {t : OpenWs} (he2 : Exec E Faults.none (cloneCmd E cwd2 src (Path.abs to (lit "."))) d2 (.ok t) d3) :
    ∃ w1 u1 v3 u3, Gets E d1 cwd (lit ".") w1 ∧ w1.ws.id = w.ws.id ∧ w1.ws.HeadAt w1.tree u1 x ∧ Gets E d3 to (lit ".") v3 ∧ v3.spaceID = v.spaceID ∧ v3.ws.HeadAt v3.tree u3 x ∧
      d1.Mounted w1 ∧ d3.Mounted v3 ∧ d3.lists v3 = d1.lists w1 := by
  have hr1 : Reachable E d1 := reachable_next hd (f := Faults.none) rfl (a := .checkout cwd key) hout (.checkout he)
  obtain ⟨g, hs⟩ := steady_reachable hd
  obtain ⟨T, hF⟩ := gets_found hs hout hg hh
  obtain ⟨_, _, _, _, ls, _, _, b1, _, _, _, b3, _⟩ := after_checkout hs hF he
  obtain ⟨rfl, rfl⟩ := Ws.resolves_unique b1 hR
  obtain ⟨w1, u1, K⟩ := C116_once hd hout hg hh hR b3 he
  have hp1 : Past E Faults.none d d1 := .step (a := .checkout cwd key) .refl hout (.checkout he)
  obtain ⟨g1, hs1, hG1⟩ := steady_past (f := Faults.none) rfl hs hp1
  obtain ⟨g2, hs2, hG2⟩ := steady_past hio hs1 hp
  have hr2 : Reachable E d2 := by
    obtain ⟨f0, d0, h1, h2, h3⟩ := hr1
    exact ⟨f0.join f, d0, by simp [Faults.join, h1, hio], h2, past_trans (past_mono (le_join_left f0 f) h3) (past_mono (le_join_right f0 f) hp)⟩
  have hpar : ∀ z n, w.tree.abs.node z = some n → ∃ n', v.tree.abs.node z = some n' ∧ n'.parent = n.parent := fun z n hz => by
    obtain ⟨n1, a1, a2, _⟩ := C31_append_only hd (f := Faults.none) rfl hp1 hout hout hg K.gets K.space hz
    obtain ⟨n2, c1, c2, _⟩ := C31_append_only hr1 hio hp hout hout2 K.gets hg2 (hsp.trans K.space.symm) a1
    exact ⟨n2, c1, c2.trans a2⟩
  obtain ⟨v3, u3, k1, k2, k3, k4, ⟨ls', k5, k6⟩, _⟩ := C34_clone (cwd2 := to) (path2 := lit ".") hr2 hout2 hg2 hh2 hout3 he2
  obtain rfl := Ws.path_unique k5 (path_parents hpar b3)
  refine ⟨w1, u1, v3, u3, K.gets, K.id, K.head, k1, k3, k2, K.mounted, k4, ?_⟩
  rw [K.files, k6]
  congr 1
  refine List.map_congr_left fun z hz => ?_
  have h1 := path_stored hF.opens b3 z hz
  have h2 := hx z (path_mem_anc b3 z hz)
  simp only [Disk.content, hG2.layer z (hG1.diff z h1) (fun h => h2 (hG1.heads z h h1)), hG1.layer z h1 h2]

end
end Verif
