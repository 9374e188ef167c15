import Verif.Props.Inner
import Verif.Props.Examples
/-!
# A workspace inside another workspace: examples

The clone at `/v` of the history in `Examples` is moved to `/w/v`.
-/
set_option autoImplicit false
namespace Verif
open M TS Json Story
namespace Story

/-- A file whose first byte is `1` is a symbolic link; its text is the rest. -/
def lk0 : Str → Option Str
  | 1 :: t => some t
  | _ => none

/-- The link at `v` to the mount `i`. -/
def withLink (i : UID) : Content := fun p => if p = [] then some (.dir false .new) else if p = [lit "v"] then some (.file (1 :: E0.mountPath i.base32)) else none

/-- `/w/v`. -/
def cwv : Str := lit "/w/v"

theorem outwv : E0.Outside cwv := by
  intro rest h
  have h1 : Path.comps cwv = [lit "w", lit "v"] := by decide
  have h2 : Path.comps E0.root = [lit "d"] := by decide
  rw [h1, h2] at h
  exact absurd (List.cons.inj h).1 (by decide)

theorem live_beside {d : Disk} {cwd : Str} {w : OpenWs} {u p : UID} {ls : List UID} (h : Live E0 d cwd w u p ls) {v : UID} {c : Content} (hp : Calmly E0 (d.put v c)) :
    Live E0 (d.put v c) cwd w u p ls := by
  obtain ⟨x1, x2, x3⟩ := put_eqs d v c
  have hq : (d.put v c).user = d.user ∧ (d.put v c).mnt = d.mnt ∧ (d.put v c).mdir = d.mdir := by
    unfold Disk.put; split <;> exact ⟨rfl, rfl, rfl⟩
  exact ⟨hp, opens_same h.opens (by rw [hq.1]) x3 x2 (fun _ h => put_hasDiff h), by rw [hq.2.1]; exact h.mnt, by rw [hq.1]; exact h.link, by rw [hq.2.2]; exact h.mdir, h.path⟩

/-- What the story gives after the link has been written. -/
theorem inside {d : Disk} {W w : OpenWs} {U Q u pu : UID} {LS ls : List UID} (hL1 : Live E0 d cw W U Q LS) (hL2 : Live E0 d cv w u pu ls) (hm : W.mount.id ≠ w.mount.id) :
    ∃ w', Live E0 (d.put U (withLink w.mount.id)) cw W U Q LS ∧ Nested E0 lk0 (d.put U (withLink w.mount.id)) cw W cwv [lit "v"] w' ∧ w'.mount.id = w.mount.id ∧
      w'.ws.branch = w.ws.branch ∧ w'.ws.HeadAt w'.tree u pu ∧ w'.tree.abs.Path u (u :: ls) ∧ (d.put U (withLink w.mount.id)).mnt w'.mount.id.base32 = some ⟨u, ls⟩ ∧
      (d.put U (withLink w.mount.id)).lists W [lit "v"] = some (.file (1 :: E0.mountPath w'.mount.id.base32)) ∧ Live E0 (d.put U (withLink w.mount.id)) cv w u pu ls := by
  obtain ⟨hL, hus, hc⟩ := live_write hL1 (withLink w.mount.id)
  obtain ⟨x1, x2, x3⟩ := put_eqs d U (withLink w.mount.id)
  have hst : d.HasDiff U := hL1.opens.stored U (by obtain ⟨_, n, hn, _⟩ := hL1.opens.head; exact ⟨n, hn⟩)
  have hput : d.put U (withLink w.mount.id) = d.setLayer U (some (some (withLink w.mount.id))) := by
    obtain ⟨c', hc'⟩ := hst
    simp only [Disk.put, hc']
  have hmd : (d.put U (withLink w.mount.id)).mdir = d.mdir := by rw [hput]; rfl
  have hmn : (d.put U (withLink w.mount.id)).mnt = d.mnt := by rw [hput]; rfl
  have hur : (d.put U (withLink w.mount.id)).user = d.user := by rw [hput]; rfl
  have hdf : ∀ v, d.HasDiff v → (d.put U (withLink w.mount.id)).HasDiff v := fun v h => put_hasDiff h
  have hLo := live_beside hL2 hL.past
  generalize hD : d.put U (withLink w.mount.id) = D at *
  have hsh : D.shows W.mount.id.base32 [lit "v"] = some (.file (1 :: E0.mountPath w.mount.id.base32)) := by
    simp only [Disk.shows, hL.mnt, List.map_cons, hc]
    simp [view, stack, topEnt, withLink]
  have hen : D.entryAt lk0 W.mount.id.base32 [lit "v"] = .link (E0.mountPath w.mount.id.base32) := by
    simp only [Disk.entryAt, hsh, lk0]
  obtain ⟨g, hs⟩ := steady_reachable hL.past.reachable
  have hse := seen_steady (lk := lk0) hs cwv W.mount.id.base32 [lit "v"]
  have ho : Opens E0 (D.seen lk0 cwv W.mount.id.base32 [lit "v"]) cv (lit ".") w u pu :=
    opens_same hL2.opens (by rw [← hur]; exact upd_ne D.user (D.entryAt lk0 W.mount.id.base32 [lit "v"]) (a := cwv) (x := Path.abs cv (lit ".")) (by decide)) x3 x2 hdf
  obtain ⟨r, r1, r2, r3, r4, r5, r6⟩ := rec_of_opens hse ho
  obtain ⟨T, hF⟩ := gets_found hse hL2.opens.out (gets_of_opens ho) ho.head
  have habs : Path.abs cwv (lit ".") = cwv := by decide
  have hlink : (D.seen lk0 cwv W.mount.id.base32 [lit "v"]).user (Path.abs cwv (lit ".")) = .link (E0.mountPath w.mount.id.base32) := by
    rw [habs, ← hen]; exact upd_self D.user cwv _
  obtain ⟨w', q, o, e1, e2, e3, e4, e5, e6⟩ := reopen (r := r) hse (cwd := cwv) (path := lit ".") (by rw [habs]; exact outwv)
    ⟨_, hlink, by rw [r4]; exact leads_mountPath _ _ _⟩ (by rw [r4]; exact r1) (by rw [r3, ← ho.dir]; exact hF.tree) hF.shallow
    (by rw [r5]; obtain ⟨n, hn, _⟩ := found_below hF; exact ⟨n, hn⟩)
  rw [r5] at o
  have hmt : D.mnt w'.mount.id.base32 = some ⟨u, ls⟩ := by rw [e3, r4, hmn]; exact hL2.mnt
  obtain ⟨T', hF'⟩ := gets_found hse (by rw [habs]; exact outwv) (gets_of_opens o) o.head
  obtain ⟨_, hp'⟩ := mnt_of_found hse hF' hmt
  obtain rfl : q = pu := by
    obtain ⟨n, a1, a2⟩ := e6
    obtain ⟨n', b1, b2⟩ := found_below hF
    rw [r5] at a1
    rw [a1, Option.some.injEq] at b1
    subst b1
    rw [a2, Option.some.injEq] at b2
    exact b2
  refine ⟨w', hL, ⟨by decide, habs, by rw [← show Path.abs cw (lit ".") = cw by decide]; exact outw, outwv, by decide, by simp, hL.gets, hL.mounted, gets_of_opens o, ?_⟩, e3.trans r4,
    e4.trans r6, o.head, ?_, hmt, by rw [Disk.lists, if_neg (by simp), hsh, e3, r4], hLo⟩
  · rw [e3, r4]; exact Ne.symm hm
  · obtain ⟨_, n, hn, hpp⟩ := o.head
    exact .step hn hpp hp'

/-- The clone, checked out at HEAD, is in `/w/v`. Both workspaces may commit. -/
structure Moved (d : Disk) (W : OpenWs) (U Q root : UID) (w : OpenWs) (u : UID) : Prop where
  live : Live E0 d cw W U Q [Q, root]
  nested : Nested E0 lk0 d cw W cwv [lit "v"] w
  head : w.ws.HeadAt w.tree u Q
  path : w.tree.abs.Path u [u, Q, root]
  mnt : d.mnt w.mount.id.base32 = some ⟨u, [Q, root]⟩
  shows : d.lists W [lit "v"] = some (.file (1 :: E0.mountPath w.mount.id.base32))
  old : ∃ w0, Live E0 d cv w0 u Q [Q, root] ∧ w0.mount.id = w.mount.id
  mayW : MayCommit W U
  detached : w.ws.branch = []
  used : d.used.length ≤ 14

theorem moved : ∃ d W U Q root w u, Moved d W U Q root w u := by
  obtain ⟨d0, w0, u0, root, d, w, u, d3, w1, w2, u2, d4, w1', w2', u2', hB, hS, hT, hF⟩ := fourth
  obtain ⟨w', h1, h2, h3, h4, h5, h6, h7, h8, h9⟩ := inside hF.live1 hF.live2 hF.mount
  exact ⟨_, _, _, _, _, w', _, h1, h2, h5, h6, h7, h8, ⟨_, h9, h3.symm⟩, hF.may1, h4.trans hF.detached, by rw [(put_eqs _ _ _).1]; exact hF.used⟩

theorem linked {d : Disk} {W w w0 : OpenWs} {u Q : UID} {ls : List UID} (h : d.lists W [lit "v"] = some (.file (1 :: E0.mountPath w.mount.id.base32))) (hL : Live E0 d cv w0 u Q ls)
    (hm : w0.mount.id = w.mount.id) : ∃ n m c, d.entryAt lk0 W.mount.id.base32 [lit "v"] = .link (E0.mountPath n) ∧ d.mdir n = some m ∧ m.merged = some c :=
  ⟨_, _, _, entry_of_lists (by simp) h rfl, by rw [← hm]; exact hL.mdir, rfl⟩

theorem Moved.link {d : Disk} {W w : OpenWs} {U Q root u : UID} (h : Moved d W U Q root w u) :
    ∃ n m c, d.entryAt lk0 W.mount.id.base32 [lit "v"] = .link (E0.mountPath n) ∧ d.mdir n = some m ∧ m.merged = some c := by
  obtain ⟨w0, h1, h2⟩ := h.old
  exact linked h.shows h1 h2

theorem lk0_all (t : Str) : ∃ data, lk0 data = some t := ⟨1 :: t, rfl⟩

theorem Moved.apart {d : Disk} {W w : OpenWs} {U Q root u : UID} (h : Moved d W U Q root w u) : Apart d W w := by
  intro M m hM hm
  rw [h.live.mnt, Option.some.injEq] at hM
  rw [h.mnt, Option.some.injEq] at hm
  subst hM
  subst hm
  intro hmem
  have := anc_shorter (path_mem_anc h.live.path U hmem) h.live.full h.live.path
  simp at this

/-- `C107_same`, `C107_commit`, `C107_commit_accepted_iff`, `C107_runs`: a commit in `/w/v`. -/
example : ∃ d d' W W2 w w2 r, Nested E0 lk0 d cw W cwv [lit "v"] w ∧ ExecVia (α := Res CErr (OpenWs × OpenWs)) E0 lk0 cwv W.mount.id.base32 [lit "v"] (commitCmd E0 cwv ci) d (.ok r) d' ∧
    Nested E0 lk0 d' cw W2 cwv [lit "v"] w2 ∧ w2.mount.id ≠ w.mount.id ∧ d'.lists w2 = d.lists w ∧ Reachable E0 d' := by
  obtain ⟨d, W, U, Q, root, w, u, h⟩ := moved
  have := h.used
  have hd := h.live.past.reachable
  obtain ⟨r, d', he⟩ := C107_runs hd h.nested lk0_all (by omega) (Or.inl ⟨ci, rfl⟩)
  obtain ⟨x, rfl⟩ := (C107_commit_accepted_iff hd h.nested h.head h.path (fits (by simp)) h.link he).2 (Or.inl h.detached)
  obtain ⟨W2, w2, u2, hB, _, _, _, hl⟩ := C107_commit hd h.nested h.head he
  obtain ⟨k1, k2⟩ := hl (by rw [Disk.Mounted, h.mnt]; simp) h.apart
  refine ⟨d, d', W, W2, w, w2, x, h.nested, he, hB.nested, fun e => k1 (by rw [e]; exact hB.gone.2), k2, (C107_same hd h.nested (Or.inl ⟨ci, rfl⟩) he).1⟩

/-- `C107_checkout`, `C107_checkout_accepted_iff`: and a checkout of HEAD. -/
example : ∃ d d' W W2 w w2 r, Nested E0 lk0 d cw W cwv [lit "v"] w ∧ ExecVia (α := Res CErr (OpenWs × OpenWs)) E0 lk0 cwv W.mount.id.base32 [lit "v"] (checkoutCmd E0 cwv (lit "HEAD")) d (.ok r) d' ∧
    Nested E0 lk0 d' cw W2 cwv [lit "v"] w2 ∧ w2.mount.id ≠ w.mount.id := by
  obtain ⟨d, W, U, Q, root, w, u, h⟩ := moved
  have := h.used
  have hd := h.live.past.reachable
  obtain ⟨r, d', he⟩ := C107_runs hd h.nested lk0_all (by omega) (Or.inr ⟨lit "HEAD", plainHEAD, rfl⟩)
  have hQ : w.tree.abs.Path Q [Q, root] := by
    cases h.path with
    | step h1 h2 h3 =>
      obtain ⟨_, n, hn, hp⟩ := h.head
      rw [hn, Option.some.injEq] at h1
      subst h1
      rw [hp, Option.some.injEq] at h2
      subst h2
      exact h3
  obtain ⟨x, rfl⟩ := (C107_checkout_accepted_iff hd h.nested h.head plainHEAD (fun v kt ls hR hp => by
    obtain ⟨rfl, _⟩ := Ws.resolves_unique hR .head
    obtain rfl := Ws.path_unique hp hQ
    exact fits (by simp)) h.link he).2 ⟨_, _, .head⟩
  obtain ⟨W2, w2, _, _, _, ls, hR, hB, _, _, _, _, hp, hl⟩ := C107_checkout hd h.nested h.head plainHEAD he
  obtain ⟨rfl, _⟩ := Ws.resolves_unique hR .head
  obtain rfl := Ws.path_unique hp hQ
  obtain ⟨k1, k2⟩ := hl fun M hM => h.apart M _ hM h.mnt
  exact ⟨d, d', W, W2, w, w2, x, h.nested, he, hB.nested, fun e => k1 (by rw [e]; exact hB.gone.2)⟩

/-- `C107_outer_commit`, `C107_outer_checkout_partial`: a commit in `/w`, and a checkout of that commit. The workspace in `/w/v` stays. -/
example : ∃ d d1 d2 W W1 W2 w w1 w2 r1 r2, Nested E0 lk0 d cw W cwv [lit "v"] w ∧ Exec E0 Faults.none (commitCmd E0 cw ci) d (.ok r1) d1 ∧ Nested E0 lk0 d1 cw W1 cwv [lit "v"] w1 ∧
    Exec E0 Faults.none (checkoutCmd E0 cw (lit "HEAD")) d1 (.ok r2) d2 ∧ Nested E0 lk0 d2 cw W2 cwv [lit "v"] w2 ∧ w2.mount.id = w.mount.id := by
  obtain ⟨d, W, U, Q, root, w, u, h⟩ := moved
  have := h.used
  have hd := h.live.past.reachable
  obtain ⟨d1, r1, W1, U1, he, hL1, hu1, hsame, _⟩ := live_commit neat h.live h.mayW (fits (by simp)) (by omega) ci
  obtain ⟨W1', w1, n1, _, _, s3, _⟩ := C107_outer_commit hd h.nested he
  obtain rfl := gets_one outw n1.outer hL1.gets
  obtain ⟨W1, k1, _, k3, ls, k4, k5⟩ := C27_commit_keeps_files hd outw h.live.gets h.live.mounted h.live.opens.head he
  obtain rfl := gets_one outw k1 hL1.gets
  obtain rfl := Ws.path_unique k4 hL1.path
  obtain ⟨d2, r2, W2, U2, he2, _⟩ := live_checkout neat plainHEAD hL1 (kt := .commit) .head hL1.path (fits (by simp)) (by omega)
  obtain ⟨W2, w2, n2, _, _, t3, _⟩ := C107_outer_checkout_partial hL1.past.reachable n1 hL1.opens.head .head hL1.path (by rw [k5, k3]) he2
  exact ⟨d, d1, d2, W, _, W2, w, w1, w2, r1, r2, h.nested, he, n1, he2, n2, t3.trans s3⟩

/-- `C107_violated_checkout`: HEAD of `/w` has no `v`. After a checkout of it the workspace in `/w/v` is there, but not by that path. -/
example : ∃ d d' W W2 w r, Nested E0 lk0 d cw W cwv [lit "v"] w ∧ Exec E0 Faults.none (checkoutCmd E0 cw (lit "HEAD")) d (.ok r) d' ∧ Gets E0 d' cw (lit ".") W2 ∧
    (∀ w2, Gets E0 (d'.seen lk0 cwv W2.mount.id.base32 [lit "v"]) cwv (lit ".") w2 → w2.mount.id ≠ w.mount.id) ∧ d'.mnt w.mount.id.base32 ≠ none := by
  obtain ⟨d0, w0, u0, root, d, w, u, d3, w1, w2, u2, d4, w1', w2', u2', hB, hS, hT, hF⟩ := fourth
  have := hF.used
  obtain ⟨hL, hus, hc⟩ := live_write hF.live1 Content.hide
  obtain ⟨d5, r5, W, U, he5, hL5, hu5, _, _, _, _, _, hoth⟩ := live_commit neat hL hF.may1 (fits (by simp)) (by rw [hus]; omega) ci
  rw [hus] at hu5
  obtain ⟨wv, hLv, _, hm, _⟩ := hoth cv w2' u2' u0 _ (live_beside hF.live2 hL.past) (Ne.symm hF.mount) vw
  obtain ⟨W', k1, _, k3, ls, k4, k5⟩ := C27_commit_keeps_files hL.past.reachable outw hL.gets hL.mounted hL.opens.head he5
  obtain rfl := gets_one outw k1 hL5.gets
  obtain rfl := Ws.path_unique k4 hL5.path
  have hne : W'.mount.id ≠ wv.mount.id := by
    intro e
    have h1 := hL5.mnt
    rw [e, hLv.mnt, Option.some.injEq] at h1
    cases h1
  obtain ⟨w', l1, l2, l3, l4, l5, l6, l7, l8⟩ := inside hL5 hLv hne
  obtain ⟨d6, r6, W6, U6, he6, _⟩ := live_checkout neat plainHEAD l1 (kt := .commit) .head l1.path (fits (by simp)) (by rw [(put_eqs _ _ _).1]; omega)
  have hU : ∀ v ∈ [u, u0, root], v ≠ U := by
    rintro v hv rfl
    have := anc_shorter (path_mem_anc hL5.path v hv) hL5.full hL5.path
    simp at this
  obtain ⟨W7, a1, _, _, a4, _, a6⟩ := C107_violated_checkout l1.past.reachable l2 l1.opens.head .head l1.path (fun data t hd => by
    exfalso
    rw [List.map_congr_left (fun v hv => put_content_ne (hU v hv) _), k5, lists_mounted hL.mnt] at hd
    rw [List.map_cons, hc, files, if_neg (by simp)] at hd
    rw [show ([lit "v"] : List Str).reverse = [lit "v"] from rfl, view_hide] at hd
    cases hd) he6
  exact ⟨_, d6, _, W7, w', r6, l2, he6, a1, a4, by rw [a6, l7]; simp⟩

/-- `C107_violated_stale`: a commit in `/w`, a commit in `/w/v`, and a checkout of the first of them in `/w`. -/
example : ∃ d d1 d2 d3 W W1 w W3 r1 r2 r3, Nested E0 lk0 d cw W cwv [lit "v"] w ∧ Exec E0 Faults.none (commitCmd E0 cw ci) d (.ok r1) d1 ∧
    ExecVia (α := Res CErr (OpenWs × OpenWs)) E0 lk0 cwv W1 [lit "v"] (commitCmd E0 cwv ci) d1 (.ok r2) d2 ∧ Exec E0 Faults.none (checkoutCmd E0 cw (lit "HEAD")) d2 (.ok r3) d3 ∧
    Gets E0 d3 cw (lit ".") W3 ∧ ∀ w3, ¬ Gets E0 (d3.seen lk0 cwv W3.mount.id.base32 [lit "v"]) cwv (lit ".") w3 := by
  obtain ⟨d, W, U, Q, root, w, u, h⟩ := moved
  have := h.used
  have hd := h.live.past.reachable
  obtain ⟨d1, r1, W1, U1, he, hL1, hu1, hsame, _, _, _, _, hoth⟩ := live_commit neat h.live h.mayW (fits (by simp)) (by omega) ci
  obtain ⟨W1', w1, n1, _, s2, s3, s4, s5, _⟩ := C107_outer_commit hd h.nested he
  obtain rfl := gets_one outw n1.outer hL1.gets
  have hd1 := hL1.past.reachable
  obtain ⟨g1, hs1⟩ := steady_reachable hd1
  obtain ⟨a, b, T, hf1⟩ := found_of_gets (seen_steady (lk := lk0) hs1 cwv W1'.mount.id.base32 [lit "v"]) (by rw [n1.absp]; exact n1.outp) n1.inner
  obtain ⟨e1, e2⟩ := mnt_of_found (seen_steady (lk := lk0) hs1 cwv W1'.mount.id.base32 [lit "v"]) hf1 (s4.trans h.mnt)
  obtain rfl : u = a := e1
  have hfull : w1.tree.abs.Path u [u, Q, root] := by
    obtain ⟨_, n, hn, hpp⟩ := hf1.opens.head
    exact .step hn hpp e2
  obtain ⟨r2, d2, he2⟩ := C107_runs hd1 n1 lk0_all (by omega) (Or.inl ⟨ci, rfl⟩)
  have hlink : ∃ n m c, d1.entryAt lk0 W1'.mount.id.base32 [lit "v"] = .link (E0.mountPath n) ∧ d1.mdir n = some m ∧ m.merged = some c := by
    obtain ⟨w0, o1, o2⟩ := h.old
    obtain ⟨w0', o3, _, o4, _⟩ := hoth cv w0 _ _ _ o1 (by rw [o2]; exact h.nested.other) vw
    exact linked (w := w) (by rw [s5]; exact h.shows) o3 (o4.trans o2)
  obtain ⟨x2, rfl⟩ := (C107_commit_accepted_iff hd1 n1 hf1.opens.head hfull (fits (by simp)) hlink he2).2 (Or.inl (s2.2.1.trans h.detached))
  obtain ⟨W2, w2, u2, B, _⟩ := C107_commit hd1 n1 hf1.opens.head he2
  obtain ⟨hd2, e2', he2', hu2, _⟩ := C107_same hd1 n1 (Or.inl ⟨ci, rfl⟩) he2
  have hu2' := exec_used (commitCmd_draws E0 cwv ci) he2'
  have hh2 := B.head _ _ hL1.opens.head
  have hp2 : W2.ws.path = cw := by
    obtain ⟨g2, hs2⟩ := steady_reachable hd2
    obtain ⟨_, _, _, hF⟩ := found_of_gets hs2 outw B.nested.outer
    exact hF.opens.path
  obtain ⟨r3, d3, he3⟩ := exec_total (E := E0) (f := Faults.none) (checkoutCmd_draws E0 cw (lit "HEAD")) d2 (by rw [hu2]; have : (d1.seen lk0 cwv W1'.mount.id.base32 [lit "v"].reverse).used = d1.used := rfl; rw [this] at hu2'; omega)
  obtain ⟨x3, rfl⟩ := (C61_checkout_accepted_iff hd2 plainHEAD outw B.nested.outer hh2 (fun v kt ls hR hp => by
    obtain ⟨rfl, _⟩ := Ws.resolves_unique hR .head
    obtain rfl := Ws.path_unique hp (B.history _ _ hL1.path)
    exact fits (by simp)) ⟨_, _, _, by rw [hp2, B.user _ (by decide)]; exact hL1.link, by rw [B.mdir]; exact hL1.mdir, rfl⟩ he3).2 ⟨_, _, .head⟩
  obtain ⟨W3, c1, _, _, c4⟩ := C107_violated_stale hd h.nested h.live.opens.head he hL1.gets he2 B.nested.outer hh2 .head he3
  exact ⟨d, d1, d2, d3, W, _, w, W3, r1, x2, x3, h.nested, he, he2, he3, c1, c4⟩

end Story
end Verif
