import Verif.Props.InnerInit
import Verif.Props.InnerExamples
import Verif.Props.Serial
/-!
# A workspace inside another workspace: branches, tags and clones, examples
-/
set_option autoImplicit false
namespace Verif
open M TS Json Story
namespace Story

/-- `C107_edit_same`, `C107_edit`, `C107_edit_accepted_iff`, `C107_edit_runs`: the branch `in` is made at HEAD in `/w/v`. Both workspaces are of one space, so the outer one sees it too. -/
example : ∃ d d' W W2 w w2 s v, Nested E0 lk0 d cw W cwv [lit "v"] w ∧
    ExecVia (α := Res CErr TS) E0 lk0 cwv W.mount.id.base32 [lit "v"] (editCmd E0 cwv [.addBranch (lit "in") (lit "HEAD") true]) d (.ok s) d' ∧ Reachable E0 d' ∧
    Nested E0 lk0 d' cw W2 cwv [lit "v"] w2 ∧ w2.mount.id = w.mount.id ∧ w2.tree.abs.branch (w.ws.id.base32 ++ lit "/" ++ lit "in") = some v ∧ d'.lists w2 = d.lists w := by
  obtain ⟨d, W, U, Q, root, w, u, h⟩ := moved
  have := h.used
  have hd := h.live.past.reachable
  obtain ⟨r, d', he⟩ := C107_edit_runs hd h.nested lk0_all (by omega) [.addBranch (lit "in") (lit "HEAD") true]
  obtain ⟨s, rfl⟩ := (C107_edit_accepted_iff hd h.nested h.head (e := .addBranch (lit "in") (lit "HEAD") true) plainHEAD he).2 ⟨_, .addBranch (v := Q) (k := .commit) .head (Or.inr rfl)⟩
  obtain ⟨W2, w2, k1, _, _, _, k5, k6, _, _, _, _, _, k12, _⟩ := C107_edit hd h.nested h.head (by simp) (fun e he => by rw [List.mem_singleton.1 he]; exact valid_ascii (by decide)) he
  refine ⟨d, d', W, W2, w, w2, s, Q, h.nested, he, (C107_edit_same hd h.nested he).1, k1, k5, ?_, k12 (by rw [Disk.Mounted, h.mnt]; simp) h.apart⟩
  generalize w2.tree.abs = a2 at k6
  cases k6 with
  | cons e1 e2 =>
    cases e2
    cases e1 with
    | addBranch hR _ =>
      obtain ⟨rfl, _⟩ := Ws.resolves_unique hR .head
      exact upd_self _ _ _

/-- `/w/f`. -/
def cwf : Str := lit "/w/f"

theorem outwf : E0.Outside cwf := by
  intro rest h
  have h1 : Path.comps cwf = [lit "w", lit "f"] := by decide
  have h2 : Path.comps E0.root = [lit "d"] := by decide
  rw [h1, h2] at h
  exact absurd (List.cons.inj h).1 (by decide)

/-- `C107_clone_into`, `C107_clone_self`, `C107_clone_accepted_iff`, `C107_clone_runs`: after `init /w`, `clone . f` in `/w`, where `f` is a file. -/
example : ∃ d d' W W2 w2 r, Within E0 d cw W cwf [lit "f"] ∧
    ExecVia (α := Res CErr OpenWs) E0 lk0 cwf W.mount.id.base32 [lit "f"] (cloneCmd E0 cw (lit ".") cwf) d (.ok r) d' ∧ Reachable E0 d' ∧
    Nested E0 lk0 d' cw W2 cwf [lit "f"] w2 ∧ w2.spaceID = W2.spaceID ∧ ∃ root, d'.lists w2 = files [d.content root] := by
  obtain ⟨d, W, u, root, hB⟩ := begun
  have := hB.used
  have hd := hB.live.past.reachable
  have habs : Path.abs cw (lit ".") = cw := by decide
  have hW : Within E0 d cw W cwf [lit "f"] := ⟨habs, by decide, by rw [← habs]; exact outw, outwf, by decide, by simp, hB.live.gets, hB.live.mounted⟩
  obtain ⟨r, d', he⟩ := C107_clone_runs (cwd := cw) (src := lit ".") hd hW outw (by decide) hB.live.gets lk0_all (by omega)
  have hen : d.entryAt lk0 W.mount.id.base32 [lit "f"].reverse = .file := by
    have h := hB.shows
    rw [Disk.lists, if_neg (by simp)] at h
    rw [show [lit "f"].reverse = [lit "f"] from rfl]
    simp only [Disk.entryAt, h]
    rfl
  obtain ⟨x, rfl⟩ := (C107_clone_accepted_iff hd hW outw (by decide) hB.live.gets hB.live.opens.head hB.live.path (by rw [hen]; nofun) he).2 ⟨fits (by simp), by rw [hen]; simp, by rw [hen]; simp⟩
  obtain ⟨k0, W2, w2, u2, ls, k1, k2, _, _, _, _, _, k8, _, _, k11, _, k13⟩ := C107_clone_into hd hW outw (by decide) hB.live.gets hB.live.opens.head he
  obtain rfl := Ws.path_unique k11 hB.live.path
  exact ⟨d, d', W, W2, w2, x, hW, he, k0, k1, k8.trans k2.2.2.symm, root, k13 (C107_clone_self hd hW hB.live.opens.head hB.live.path)⟩

/-- `C107_clone_from`, `C107_clone_from_runs`, `C107_clone_from_accepted_iff`: in `/w/v`, `clone . /v`. The link at `/v`, left over from before the workspace was moved, is replaced by the clone. -/
example : ∃ d d' W W2 w w2 w3 r Q root, Nested E0 lk0 d cw W cwv [lit "v"] w ∧
    ExecVia (α := Res CErr OpenWs) E0 lk0 cwv W.mount.id.base32 [lit "v"] (cloneCmd E0 cwv (lit ".") cv) d (.ok r) d' ∧ Reachable E0 d' ∧
    Nested E0 lk0 d' cw W2 cwv [lit "v"] w2 ∧ d'.lists w2 = d.lists w ∧ Gets E0 d' cv (lit ".") w3 ∧ w3.ws.id ∉ d.used ∧ d'.lists w3 = files [d.content Q, d.content root] := by
  obtain ⟨d, W, U, Q, root, w, u, h⟩ := moved
  have := h.used
  have hd := h.live.past.reachable
  have habs : Path.abs cv (lit ".") = cv := by decide
  have hout : E0.Outside cv := by rw [← habs]; exact outv
  have hne : cv ≠ cwv := by decide
  obtain ⟨w0, h1, h2⟩ := h.old
  have hlink := h1.link
  rw [habs] at hlink
  obtain ⟨g, hs⟩ := steady_reachable hd
  obtain ⟨_, _, _, hF0⟩ := found_of_gets hs outv h1.gets
  have hp : w.tree.abs.Path Q [Q, root] := by
    cases h.path with
    | step hn hp hr =>
      obtain ⟨_, n, hn', hp'⟩ := h.head
      rw [hn, Option.some.injEq] at hn'
      subst hn'
      rw [hp, Option.some.injEq] at hp'
      subst hp'
      exact hr
  obtain ⟨r, d', he⟩ := C107_clone_from_runs hd h.nested hne hout lk0_all (by omega)
  obtain ⟨x, rfl⟩ := (C107_clone_from_accepted_iff hd h.nested hne hout h.head hp (fun t ht => ⟨_, used_mount hs hF0, by rw [hlink] at ht; cases ht; rfl⟩) he).2
    ⟨fits (by simp), by rw [hlink]; simp, by rw [hlink]; simp, fun ⟨id, _, e, hno⟩ => hno (by
      rw [hlink] at e
      injection e with e
      rw [← mountPath_inj e]
      exact ⟨_, _, h1.mdir, rfl⟩)⟩
  obtain ⟨k0, W2, w2, k1, _, k3, _, _, _, k7, _, w3, u3, ls, k9, k10, _, _, _, k14, _, k16⟩ := C107_clone_from hd h.nested habs hout (by
    intro ys e
    have h1 : Path.comps cv = [lit "v"] := by decide
    have h2 : Path.comps cw = [lit "w"] := by decide
    rw [h1, h2] at e
    exact absurd (List.cons.inj e).1 (by decide)) h.head he
  obtain rfl := Ws.path_unique k14 hp
  refine ⟨d, d', W, W2, w, w2, w3, x, Q, root, h.nested, he, k0, k1, k7 (by rw [Disk.Mounted, h.mnt]; simp) h.apart, k9, k10, k16 fun M hM hmem => ?_⟩
  rw [h.live.mnt, Option.some.injEq] at hM
  subst hM
  have := anc_shorter (path_mem_anc h.live.path U hmem) h.live.full h.live.path
  simp at this

/-- `C107_init_into`, `C107_init_accepted_iff`, `C107_init_runs`: `init /w`, then `init f` in `/w`, where there is nothing yet. -/
example : ∃ d d' W W2 w2 r, Within E0 d cw W cwf [lit "f"] ∧
    ExecVia (α := Res CErr OpenWs) E0 lk0 cwf W.mount.id.base32 [lit "f"] (initCmd E0 cwf (lit "main")) d (.ok r) d' ∧ Reachable E0 d' ∧
    Nested E0 lk0 d' cw W2 cwf [lit "f"] w2 ∧ w2.spaceDir ≠ W.spaceDir ∧ w2.ws.branch = lit "main" := by
  obtain ⟨d, r, w, u, root, he0, hL, hus, hb, hN, _⟩ := live_init (E := E0) (d := disk0) ⟨disk0, untouched0, .refl⟩ (cwd := cw) (branch := lit "main") outw rfl (fits (by decide)) (by decide)
  have hd := hL.past.reachable
  have habs : Path.abs cw (lit ".") = cw := by decide
  have hW : Within E0 d cw w cwf [lit "f"] := ⟨habs, by decide, by rw [← habs]; exact outw, outwf, by decide, by simp, hL.gets, hL.mounted⟩
  have hen : d.entryAt lk0 w.mount.id.base32 [lit "f"] = .none := by
    obtain ⟨w', _, _, k1, _, _, _, _, k2, _⟩ := C55_init (d := disk0) (Calmly.reachable ⟨disk0, untouched0, .refl⟩) outw he0
    obtain rfl := gets_unique hd outw k1 hL.gets
    have h := k2 [lit "f"]
    rw [Disk.lists, if_neg (by simp)] at h
    simp only [Disk.entryAt, h]
    exact if_pos (Or.inl rfl)
  obtain ⟨r, d', he⟩ := C107_init_runs (branch := lit "main") hd hW (fun k hk => by rw [hen] at hk; cases hk) lk0_all (by have : d.used.length ≤ 5 := hus; omega)
  obtain ⟨x, rfl⟩ := (C107_init_accepted_iff (xs := [lit "f"]) hd hW (fun k hk => by rw [show [lit "f"].reverse = [lit "f"] from rfl, hen] at hk; cases hk)
    (fun t ht => by rw [show [lit "f"].reverse = [lit "f"] from rfl, hen] at ht; cases ht) he).2
    ⟨Or.inl (by rw [show [lit "f"].reverse = [lit "f"] from rfl, hen]), fits (by decide)⟩
  obtain ⟨k0, W2, w2, _, _, k1, _, _, _, _, _, _, k8, k9, _⟩ := C107_init_into (xs := [lit "f"]) hd hW
    (fun k hk => by rw [show [lit "f"].reverse = [lit "f"] from rfl, hen] at hk; cases hk) he
  refine ⟨d, d', w, W2, w2, x, hW, he, k0, k1, fun e => ?_, by rw [k9]; exact main_clean⟩
  obtain ⟨T, b, _, _, h, _⟩ := hL.opens.tree
  rw [e, h] at k8
  cases k8

/-- `C107_init_into`, `C107_init_accepted_iff`, `C107_init_runs` at a link: `init /w`, `clone /w /v`, the link of `/v` is moved to `/w/v`, and then `init v` in `/w`. The clone shows no files
yet, so the path is free. -/
example : ∃ d d' W w W2 w2 r, Nested E0 lk0 d cw W cwv [lit "v"] w ∧
    ExecVia (α := Res CErr OpenWs) E0 lk0 cwv W.mount.id.base32 [lit "v"] (initCmd E0 cwv (lit "main")) d (.ok r) d' ∧ Reachable E0 d' ∧
    Nested E0 lk0 d' cw W2 cwv [lit "v"] w2 ∧ w2.spaceDir ≠ W.spaceDir := by
  obtain ⟨d, r, w, u, root, he0, hL, hus, hb, hN, hfr, _⟩ := live_init (E := E0) (d := disk0) ⟨disk0, untouched0, .refl⟩ (cwd := cw) (branch := lit "main") outw rfl (fits (by decide)) (by decide)
  have hus : d.used.length ≤ 5 := hus
  have hd := hL.past.reachable
  have habs : Path.abs cw (lit ".") = cw := by decide
  have hroot : d.content root = .empty := by
    obtain ⟨w', root', u', k1, k2, _, _, _, _, _, _, _, e1, e2, e3⟩ := C55_init (d := disk0) (Calmly.reachable ⟨disk0, untouched0, .refl⟩) outw he0
    obtain rfl := gets_unique hd outw k1 hL.gets
    obtain ⟨rfl, rfl⟩ := headAt_unique (wf_of_reach (opens_reach hL.opens)) hL.opens.head k2
    have hne : root ≠ u := by
      rintro rfl
      have := Ws.path_unique hL.full hL.path
      simp at this
    simp only [Disk.content, e3, upd_ne _ _ hne, upd_self]
    rfl
  obtain ⟨d3, r3, v, u2, he3, hLv, hus3, hsp, hbr, hfr3, w1, hL1, hsame, hid, hne, hmay⟩ := live_clone neat hL outv (hfr _ vw) (fits (by simp)) (by omega)
  obtain ⟨w', h1, h2, h3, h4, h5, h6, h7, h8, h9⟩ := inside hL1 hLv hne
  have hshow : ∀ x, (d3.put u (withLink v.mount.id)).shows w'.mount.id.base32 [x] = none := by
    intro x
    have hu2 : u2 ≠ u := by
      rintro rfl
      exact hne (base32_inj (C36_reachable hL1.past.reachable (E := E0) (f := Faults.none) (.refl _) hL1.mnt hLv.mnt rfl))
    have hr : root ≠ u := by
      rintro rfl
      have := Ws.path_unique hL.full hL.path
      simp at this
    obtain ⟨w2, u3, k1, k2, _, _, ⟨ls, k4, k5⟩, _⟩ := C34_clone (cwd2 := cv) (path2 := lit ".") hd outw hL.gets hL.opens.head outv he3
    obtain rfl := gets_unique hLv.past.reachable outv k1 hLv.gets
    obtain rfl := Ws.path_unique k4 hL.path
    have e := congrFun k5 [x]
    rw [lists_mounted hLv.mnt] at e
    simp only [Disk.shows, h7, List.map_cons, List.map_nil, put_content_ne hu2, put_content_ne hr]
    simp only [files, if_neg (List.cons_ne_nil x []), List.map_cons, List.map_nil] at e
    rw [e, hroot]
    rfl
  obtain ⟨hx1, _, _⟩ := put_eqs d3 u (withLink v.mount.id)
  generalize d3.put u (withLink v.mount.id) = D at *
  have hr := h1.past.reachable
  have hul : D.used.length = d3.used.length := by rw [hx1]
  have hen : D.entryAt lk0 w1.mount.id.base32 [lit "v"] = .link (E0.mountPath w'.mount.id.base32) := entry_of_lists (by simp) h8 rfl
  have hW : Within E0 D cw w1 cwv [lit "v"] := ⟨h2.absP, h2.absp, h2.outP, h2.outp, h2.path, h2.proper, h2.outer, h2.mounted⟩
  have hfar : FarLink E0 lk0 D w1 [lit "v"] := fun k hk m hm mk hmk => by
    rw [hen, UEnt.link.injEq] at hk
    obtain rfl := mountPath_inj hk
    rw [h7, Option.some.injEq] at hmk
    rw [h1.mnt, Option.some.injEq] at hm
    subst hm hmk
    refine ⟨fun e => hne (base32_inj (C36_reachable hr (E := E0) (f := Faults.none) (.refl _) h1.mnt h9.mnt e)), fun e => ?_⟩
    have := anc_shorter (path_mem_anc h1.path u e) h1.full h1.path
    simp at this
  obtain ⟨r, d', he⟩ := C107_init_runs (branch := lit "main") hr hW hfar lk0_all (by omega)
  obtain ⟨x, rfl⟩ := (C107_init_accepted_iff (xs := [lit "v"]) hr hW hfar (fun t ht => by
      obtain ⟨g, hs⟩ := steady_reachable hr
      obtain ⟨id, i1, i2⟩ := hs.tracked.mnt w'.mount.id.base32 (by rw [h7]; simp)
      rw [show [lit "v"].reverse = [lit "v"] from rfl, hen] at ht
      exact ⟨id, i1, by cases ht; rw [i2]⟩) he).2
    ⟨Or.inr (Or.inr ⟨_, hen, ⟨_, _, by rw [h3]; exact h9.mdir, rfl⟩, hshow⟩), fits (by decide)⟩
  obtain ⟨k0, W2, w2, _, _, k1, _, _, _, _, _, _, k8, k9, _⟩ := C107_init_into (xs := [lit "v"]) hr hW hfar he
  refine ⟨D, d', w1, w', W2, w2, x, h2, he, k0, k1, fun e => ?_⟩
  obtain ⟨T, b, _, _, h, _⟩ := h1.opens.tree
  rw [e, h] at k8
  cases k8

end Story
end Verif
