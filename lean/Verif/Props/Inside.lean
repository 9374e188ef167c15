import Verif.World.Inside
import Verif.Props.Frozen
import Verif.Props.Live
/-!
# Committing and checking out while somebody works inside the workspace (C88)

Nothing goes wrong but that a mount cannot be unmounted while a process is in it (`Verif.World.Inside`).
-/
set_option autoImplicit false
namespace Verif
open M TS Json

section
variable {E : Env} {inside : Str → Prop}

/-- The workspace at the path is the old mount still: mounted, recorded, and everything in it deleted. -/
structure LeftBehind (d d' : Disk) (n : Str) : Prop where
  mounted : d'.mnt n = d.mnt n ∧ d.mnt n ≠ none
  record : d'.info n = d.info n
  dir : d'.mdir n ≠ none
  blank : ∀ x p, d'.shows n (x :: p) = none

/-- A command that would do its work, while somebody is in the mount: it comes to the removal of the mount and fails there. -/
theorem replace_fails {y : OpenWs → M OpenWs} (hy : ∀ w, Leaves (y w)) {d d' : Disk} {cwd : Str} {w : OpenWs} {u p : UID} (ho : Opens E d cwd (lit ".") w u p)
    (hm : d.Mounted w) (hacc : ∀ r d', Exec E Faults.none (replaceCmd E (getWorkspace E cwd (lit ".")) y) d r d' → ∃ x, r = .ok x)
    (hin : inside w.mount.id.base32) {r : Res CErr (OpenWs × OpenWs)} (h : ExecIn E inside (replaceCmd E (getWorkspace E cwd (lit ".")) y) d r d') :
    r = .err .removeData := by
  rcases replace_in (getWorkspace_leaves E cwd (lit ".")) hy h with ⟨wa, w', d1, d2, d3, q, h1, h2, h3, h4, rfl⟩ | ⟨h1, h2⟩
  · obtain ⟨rfl, rfl⟩ := wpm_exec_ok (getWorkspace_wp ho) h1
    have hm3 := exec_mounts (expand_leaves E w') h3 (exec_mounts (hy wa) h2 hm)
    rw [(removeMount_wipes (by rw [ho.mount]) hin hm3 h4).1]
    rfl
  · obtain ⟨x, hx⟩ := hacc _ _ h1
    exact absurd hx (h2 x)

/-- There is such a run. -/
theorem replace_failing {y : OpenWs → M OpenWs} (hy : ∀ w, Leaves (y w)) {d d0 : Disk} {cwd : Str} {w : OpenWs} {u p : UID} (ho : Opens E d cwd (lit ".") w u p)
    (hm : d.Mounted w) {x : OpenWs × OpenWs} (h : Exec E Faults.none (replaceCmd E (getWorkspace E cwd (lit ".")) y) d (.ok x) d0)
    (hin : inside w.mount.id.base32) : ∃ d', ExecIn E inside (replaceCmd E (getWorkspace E cwd (lit ".")) y) d (.err .removeData) d' := by
  obtain ⟨wa, d1, h1, h'⟩ := exec_ok_inv h
  obtain ⟨rfl, rfl⟩ := wpm_exec_ok (getWorkspace_wp ho) h1
  obtain ⟨w', d2, h2, h3'⟩ := exec_ok_inv h'
  obtain ⟨⟨⟩, d3, h3, _⟩ := exec_ok_inv h3'
  have hm3 := exec_mounts (expand_leaves E w') h3 (exec_mounts (hy wa) h2 hm)
  obtain ⟨d', h4⟩ := removeMount_wiping (E := E) (inside := inside) (m := wa.mount) (by rw [ho.mount]) hin hm3
  refine ⟨d', execIn_trans ((execIn_iff (getWorkspace_leaves E cwd (lit "."))).2 h1) ?_⟩
  refine execIn_trans ((execIn_iff (hy wa)).2 h2) ?_
  refine execIn_trans ((execIn_iff (expand_leaves E w')).2 h3) ?_
  exact execIn_trans h4 (.ret _ _)

/-- While nobody is in the mount, it does its work. -/
theorem replace_works {y : OpenWs → M OpenWs} (hy : ∀ w, Leaves (y w)) {d d' : Disk} {cwd : Str} {w : OpenWs} {u p : UID} (ho : Opens E d cwd (lit ".") w u p)
    (hacc : ∀ r d', Exec E Faults.none (replaceCmd E (getWorkspace E cwd (lit ".")) y) d r d' → ∃ x, r = .ok x)
    (hin : ¬ inside w.mount.id.base32) {r : Res CErr (OpenWs × OpenWs)} (h : ExecIn E inside (replaceCmd E (getWorkspace E cwd (lit ".")) y) d r d') :
    ∃ x, r = .ok x := by
  rcases replace_in (getWorkspace_leaves E cwd (lit ".")) hy h with ⟨wa, w', d1, d2, d3, q, h1, h2, h3, h4, rfl⟩ | ⟨h1, _⟩
  · obtain ⟨rfl, rfl⟩ := wpm_exec_ok (getWorkspace_wp ho) h1
    rw [(removeMount_out (by rw [ho.mount]) hin h4).1]
    exact ⟨_, rfl⟩
  · exact hacc _ _ h1

/-- What is left of the old mount. -/
theorem left_behind {d dc d' : Disk} {g : Str → Option TS} (hs : Steady E d g) {cwd : Str} {w w' : OpenWs} {u p u' : UID} {T : TS} {ls : List UID}
    (hF : Found E d g cwd (lit ".") w u p T) (hm : d.Mounted w) (hL : Placed E d dc w' w'.mount.id u' ls) (hw : Wiped Faults.busyOnly w.mount.id.base32 dc d') :
    LeftBehind d d' w.mount.id.base32 ∧ d'.user = dc.user ∧ d'.info = dc.info ∧ d'.mnt = dc.mnt ∧ ∀ v, v ≠ u → d'.layer v = dc.layer v := by
  have hne : w.mount.id.base32 ≠ w'.mount.id.base32 := by intro e; exact hF.mdir (by rw [e]; exact hL.newMdir)
  obtain ⟨m, hmm⟩ : ∃ m, d.mnt w.mount.id.base32 = some m := Option.ne_none_iff_exists'.1 hm
  obtain ⟨hup, hlow⟩ := mnt_of_found hs hF hmm
  have hmc : dc.mnt w.mount.id.base32 = some m := by rw [hL.mnt, upd_ne _ _ hne]; exact hmm
  obtain ⟨c0, hc0⟩ := head_stored hs (found_head hs hF)
  have huu : u ≠ u' := by
    rintro rfl
    rw [hL.newLayer] at hc0; cases hc0
  have hlu : dc.layer u = some (some c0) := by rw [hL.layer, upd_ne _ _ huu]; exact hc0
  have hnot : u ∉ m.lowers := fun h => by
    obtain ⟨_, n, hn, hpp⟩ := hF.opens.head
    have := anc_shorter (lh := u :: m.lowers) (path_mem_anc hlow u h) (.step hn hpp hlow) hlow
    simp at this
    omega
  obtain ⟨_, mt, c, wk, h1, h2, rfl⟩ := hw
  rw [hmc] at h1; cases h1
  rw [hup]
  obtain ⟨e1, e2, e3, e4, e5, e6⟩ := put_rest dc u c
  have hl : ∀ v, v ≠ u → (dc.put u c).layer v = dc.layer v := fun v hv => by
    rcases put_layer dc u v c with h | ⟨h, _⟩
    · exact h
    · exact absurd h hv
  have hcu : (dc.put u c).content u = c := by simp [Disk.content, Disk.put, hlu, Disk.setLayer]
  refine ⟨⟨⟨?_, by rw [hmm]; simp⟩, ?_, ?_, fun x q => ?_⟩, e5, e3, e4, hl⟩
  · show (dc.put u c).mnt _ = _
    rw [e4, hmc, hmm]
  · show (dc.put u c).info _ = _
    rw [e3, hL.info, upd_ne _ _ hne]
  · simp only [Disk.setMdir, upd_self]
    rw [hL.mdir, upd_ne _ _ hne]
    cases h : d.mdir w.mount.id.base32 with
    | none => exact absurd h hF.mdir
    | some _ => simp
  · have hmn : ((dc.put u c).setMdir w.mount.id.base32 ((dc.mdir w.mount.id.base32).map fun x => { x with work := wk })).mnt w.mount.id.base32 = some m := by
      show (dc.put u c).mnt _ = _
      rw [e4, hmc]
    simp only [Disk.shows, hmn, List.map_cons, hup]
    have k : ∀ v, ((dc.put u c).setMdir w.mount.id.base32 ((dc.mdir w.mount.id.base32).map fun x => { x with work := wk })).content v = (dc.put u c).content v := fun _ => rfl
    rw [k, hcu, List.map_congr_left (g := dc.content) fun v hv => ?_]
    · exact h2 rfl x q
    · rw [k]; simp only [Disk.content, hl v (fun e => hnot (e ▸ hv))]

/-! ## Commit -/

/-- A commit changes no path. -/
theorem commitEffect_path {a a' : ATree} {w : Ws} {u u2 : UID} {ci : CommitInfo} (h : CommitEffect a w u u2 ci a') {v : UID} {ls : List UID} (hp : a.Path v ls) : a'.Path v ls := by
  have key : ∀ x n, a.node x = some n → ∃ n', a'.node x = some n' ∧ n'.parent = n.parent := by
    intro x n hx
    by_cases e : x = u
    · subst e
      obtain ⟨m, m', h1, h2, h3, _⟩ := h.commit
      rw [hx] at h1; cases h1
      exact ⟨m', h2, h3⟩
    · exact ⟨n, by rw [h.others x e fun e2 => h.fresh (e2 ▸ ⟨n, hx⟩)]; exact hx, rfl⟩
  induction hp with
  | root h1 h2 => obtain ⟨n', k1, k2⟩ := key _ _ h1; exact .root k1 (k2.trans h2)
  | step h1 h2 _ ih => obtain ⟨n', k1, k2⟩ := key _ _ h1; exact .step k1 (k2.trans h2) ih

/-- **Violation.** Somebody - the shell in which the command is typed - is inside the workspace and nothing else goes wrong. Then
every `commit` that would otherwise succeed fails, and does harm: the branch has the commit, the path leads to its
successor, and all files of the commit are deleted. The old mount stays. -/
theorem C88_violated_commit {d : Disk} (hd : Reachable E d) {cwd : Str} (hout : E.Outside (Path.abs cwd (lit "."))) {w : OpenWs}
    (hg : Gets E d cwd (lit ".") w) (hm : d.Mounted w) {u p : UID} (hh : w.ws.HeadAt w.tree u p) (hmay : MayCommit w u)
    {ls : List UID} (hls : w.tree.abs.Path u ls) (hfit : E.Fits ls.length)
    (hlink : ∃ n m c, d.user w.ws.path = .link (E.mountPath n) ∧ d.mdir n = some m ∧ m.merged = some c)
    (hin : inside w.mount.id.base32) (ci : CommitInfo) {r : Res CErr (OpenWs × OpenWs)} {d' : Disk} (he : ExecIn E inside (commitCmd E cwd ci) d r d') :
    r = .err .removeData ∧ LeftBehind d d' w.mount.id.base32 ∧
    ∃ w2 u2, Gets E d' cwd (lit ".") w2 ∧ SameWs w w2 ∧ w2.ws.HeadAt w2.tree u2 u ∧ CommitEffect w.tree.abs w.ws u u2 ci w2.tree.abs ∧
      d'.Mounted w2 ∧ d'.lists w2 = (fun _ => none) ∧ files (ls.map d'.content) = fun _ => none := by
  obtain ⟨g, hs⟩ := steady_reachable hd
  obtain ⟨T, hF⟩ := gets_found hs hout hg hh
  rw [commitCmd_eq] at he
  have hr := replace_fails (commitP_leaves E · ci) hF.opens hm (fun r d' h => (C28_accepted_iff hd hout hg hh hls hfit hlink h).2 hmay) hin he
  subst hr
  obtain ⟨_, _, h | ⟨w', u', ls', hC, hP, ⟨_, h | h⟩ | ⟨d1, hL, hw⟩⟩⟩ := (wpm_exec (commitCmd_wp (ci := ci) hF.opens hF.mdir) (execIn_exec he)).2 rfl
  · cases h
  · rw [Ws.path_unique hP hls] at h; exact absurd hfit h
  · exact absurd (Or.inr (Or.inr (Or.inr hlink))) h
  obtain rfl := Ws.path_unique hP hls
  obtain ⟨w2, h⟩ := commit_wiped hs hF hm hh hmay hC hP hL rfl hw
  exact ⟨rfl, (left_behind hs hF hm hL hw).1, w2, u', h⟩

/-- Such a run exists. -/
theorem C88_violated_commit_runs {d : Disk} (hd : Reachable E d) {cwd : Str} (hout : E.Outside (Path.abs cwd (lit "."))) {w : OpenWs}
    (hg : Gets E d cwd (lit ".") w) (hm : d.Mounted w) {u p : UID} (hh : w.ws.HeadAt w.tree u p) (hmay : MayCommit w u)
    {ls : List UID} (hls : w.tree.abs.Path u ls) (hfit : E.Fits ls.length)
    (hlink : ∃ n m c, d.user w.ws.path = .link (E.mountPath n) ∧ d.mdir n = some m ∧ m.merged = some c)
    (hused : d.used.length + 2 < 2 ^ 128) (hin : inside w.mount.id.base32) (ci : CommitInfo) :
    ∃ d', ExecIn E inside (commitCmd E cwd ci) d (.err .removeData) d' := by
  obtain ⟨g, hs⟩ := steady_reachable hd
  obtain ⟨T, hF⟩ := gets_found hs hout hg hh
  obtain ⟨r, dz, he0⟩ := exec_total (E := E) (f := Faults.none) (commitCmd_draws E cwd ci) d hused
  obtain ⟨r, rfl⟩ := (C28_accepted_iff hd hout hg hh hls hfit hlink he0).2 hmay
  exact replace_failing (commitP_leaves E · ci) hF.opens hm he0 hin

/-- **C88.** While nobody is inside this workspace - whoever is inside others - a `commit` that may be made succeeds: the history has
it, and the workspace shows the same files as before. -/
theorem C88_commit_partial {d : Disk} (hd : Reachable E d) {cwd : Str} (hout : E.Outside (Path.abs cwd (lit "."))) {w : OpenWs}
    (hg : Gets E d cwd (lit ".") w) (hm : d.Mounted w) {u p : UID} (hh : w.ws.HeadAt w.tree u p) (hmay : MayCommit w u)
    {ls : List UID} (hls : w.tree.abs.Path u ls) (hfit : E.Fits ls.length)
    (hlink : ∃ n m c, d.user w.ws.path = .link (E.mountPath n) ∧ d.mdir n = some m ∧ m.merged = some c)
    (hin : ¬ inside w.mount.id.base32) (ci : CommitInfo) {r : Res CErr (OpenWs × OpenWs)} {d' : Disk} (he : ExecIn E inside (commitCmd E cwd ci) d r d') :
    (∃ x, r = .ok x) ∧ ∃ w2 u2, Gets E d' cwd (lit ".") w2 ∧ SameWs w w2 ∧ w2.ws.HeadAt w2.tree u2 u ∧ CommitEffect w.tree.abs w.ws u u2 ci w2.tree.abs ∧
      d'.Mounted w2 ∧ d'.lists w2 = d.lists w ∧ files (ls.map d'.content) = d.lists w := by
  obtain ⟨g, hs⟩ := steady_reachable hd
  obtain ⟨T, hF⟩ := gets_found hs hout hg hh
  rw [commitCmd_eq] at he
  obtain ⟨x, rfl⟩ := replace_works (commitP_leaves E · ci) hF.opens (fun r d' h => (C28_accepted_iff hd hout hg hh hls hfit hlink h).2 hmay) hin he
  have he := execIn_exec he
  obtain ⟨w2, u2, g1, g2, g3, g4⟩ := C27_commit_effect hd hout hg hh he
  obtain ⟨w3, k1, k2, k3, ls', k4, k5⟩ := C27_commit_keeps_files hd hout hg hm hh he
  obtain rfl : w2 = w3 := by
    obtain ⟨_, _, _, _, _, w4, _, _, _, _, h4, _⟩ := after_commit hs hF he
    rw [(wpm_exec_ok (getWorkspace_wp h4) g1).1, (wpm_exec_ok (getWorkspace_wp h4) k1).1]
  refine ⟨⟨x, rfl⟩, w2, u2, g1, g2, g3, g4, k2, k3, ?_⟩
  have hup : w2.tree.abs.Path u ls := commitEffect_path g4 hls
  rw [Ws.path_unique hup k4]
  exact k5

/-- **C88.** Otherwise it is refused without effect, whoever is inside. -/
theorem C88_commit_refused {d : Disk} (hd : Reachable E d) {cwd : Str} (hout : E.Outside (Path.abs cwd (lit "."))) {w : OpenWs}
    (hg : Gets E d cwd (lit ".") w) {u p : UID} (hh : w.ws.HeadAt w.tree u p) (hno : ¬ MayCommit w u)
    {ci : CommitInfo} {r : Res CErr (OpenWs × OpenWs)} {d' : Disk} (he : ExecIn E inside (commitCmd E cwd ci) d r d') :
    (∃ e, r = .err e) ∧ d'.info = d.info ∧ d'.mnt = d.mnt ∧ d'.user = d.user ∧ (∀ n, d.space n ≠ none → d'.space n = d.space n) ∧
      ∀ v, d.layer v ≠ none → d'.layer v = d.layer v :=
  C28_refused hd hout hg hh hno (execIn_exec he)

/-! ## Checkout -/

/-- **Violation.** The same for `checkout` of a key that resolves: it fails although the workspace has switched, the files that were
not committed are deleted and the old mount stays. -/
theorem C88_violated_checkout {d : Disk} (hd : Reachable E d) {cwd key : Str} (hk : PlainKey key) (hout : E.Outside (Path.abs cwd (lit "."))) {w : OpenWs}
    (hg : Gets E d cwd (lit ".") w) (hm : d.Mounted w) {u p : UID} (hh : w.ws.HeadAt w.tree u p) {v : UID} {kt : KeyType} (hres : Ws.Resolves w.tree.abs w.ws.id p key v kt)
    {ls : List UID} (hls : w.tree.abs.Path v ls) (hfit : E.Fits ls.length)
    (hlink : ∃ n m c, d.user w.ws.path = .link (E.mountPath n) ∧ d.mdir n = some m ∧ m.merged = some c)
    (hin : inside w.mount.id.base32) {r : Res CErr (OpenWs × OpenWs)} {d' : Disk} (he : ExecIn E inside (checkoutCmd E cwd key) d r d') :
    r = .err .removeData ∧ LeftBehind d d' w.mount.id.base32 ∧
    ∃ w2 u2, Gets E d' cwd (lit ".") w2 ∧ w2.ws.id = w.ws.id ∧ w2.ws.HeadAt w2.tree u2 v ∧ w2.mount.id ≠ w.mount.id ∧
      d'.Mounted w2 ∧ (u ∉ ls → d'.lists w2 = files (ls.map d.content)) := by
  obtain ⟨g, hs⟩ := steady_reachable hd
  obtain ⟨T, hF⟩ := gets_found hs hout hg hh
  rw [checkoutCmd_eq] at he
  have hfit' : ∀ v' kt' ls', Ws.Resolves w.tree.abs w.ws.id p key v' kt' → w.tree.abs.Path v' ls' → E.Fits ls'.length := fun v' kt' ls' h1 h2 => by
    obtain ⟨rfl, rfl⟩ := Ws.resolves_unique h1 hres
    rw [Ws.path_unique h2 hls]; exact hfit
  have hr := replace_fails (checkoutP_leaves E · key) hF.opens hm (fun r d' h => (C61_checkout_accepted_iff hd hk hout hg hh hfit' hlink h).2 ⟨v, kt, hres⟩) hin he
  subst hr
  obtain ⟨_, v', kt', hR, h | ⟨w', u', ls', hC, hP, ⟨_, h | h⟩ | ⟨d1, hL, hw⟩⟩⟩ := (wpm_exec (checkoutCmd_wp hF.opens hk hF.mdir) (execIn_exec he)).2 rfl
  · cases h
  · exact absurd (hfit' _ _ _ hR hP) h
  · exact absurd (Or.inr (Or.inr (Or.inr hlink))) h
  obtain ⟨rfl, rfl⟩ := Ws.resolves_unique hR hres
  obtain rfl := Ws.path_unique hP hls
  obtain ⟨hleft, r1, r2, r3, r4⟩ := left_behind hs hF hm hL hw
  have hlate := placed_late hL (space_ne hF hC.spaceDir)
  have hsg := steady_moved hs hF hlate hC.spaceID hC.spaceDir hC.reach (by rw [hC.tree]; exact extends_add hC.newNode)
    (by rw [hC.tree]; exact nodeKeys_add (nodeKeys_back hF.back)) (fun v hv => by rw [hC.tree] at hv; exact add_has.1 hv) (headAt_below hC.head) hP
  have hs' := steady_wiped hsg.1 hw
  have hne : w.mount.id.base32 ≠ w'.mount.id.base32 := by intro e; exact hF.mdir (by rw [e]; exact hL.newMdir)
  have hSh : w'.tree.abs.Shallow := by
    rw [hC.tree]
    exact shallow_add (reach_rooted (opens_reach hF.opens)) (comesBack_shallow hF.back hF.shallow) hC.newNode hP (fits_small hL.fits)
  obtain ⟨w2, o, e1, e2, e3, e4, e5⟩ := reopened (cwd := cwd) (path := lit ".") hs' hL r1 (by rw [r2])
    (by rw [hC.path]; exact hF.opens.path) hF.opens.out (by rw [hC.spaceDir, hC.spaceID]; exact hF.opens.dir)
    (by rw [hC.spaceDir]; exact upd_self _ _ _) hSh (headAt_below hC.head)
  have hmnt2 : d'.mnt w2.mount.id.base32 = some ⟨u', ls'⟩ := by rw [r3, e3, hL.mnt]; exact upd_self _ _ _
  refine ⟨rfl, hleft, w2, u', gets_of_opens o, e1.trans hC.id, o.head, fun e => hne (by rw [← e3, e]), by rw [Disk.Mounted, hmnt2]; simp, fun hu => ?_⟩
  rw [lists_mounted hmnt2, List.map_cons]
  obtain ⟨c0, hc0⟩ := head_stored hs (found_head hs hF)
  have huu : u' ≠ u := by
    rintro rfl
    rw [hL.newLayer] at hc0; cases hc0
  have hb : d'.content u' = Content.empty.chown E.owner := by
    simp [Disk.content, r4 u' huu, hL.layer]
  rw [hb, files_blank (blank_chown E.owner)]
  congr 1
  refine List.map_congr_left fun x hx => ?_
  have hx1 : x ≠ u := fun e => hu (e ▸ hx)
  have hx2 : x ≠ u' := by
    rintro rfl
    exact hC.newNode (path_has hP x hx)
  simp only [Disk.content, r4 x hx1, hL.layer, upd_ne _ _ hx2]

/-- Such a run exists. -/
theorem C88_violated_checkout_runs {d : Disk} (hd : Reachable E d) {cwd key : Str} (hk : PlainKey key) (hout : E.Outside (Path.abs cwd (lit "."))) {w : OpenWs}
    (hg : Gets E d cwd (lit ".") w) (hm : d.Mounted w) {u p : UID} (hh : w.ws.HeadAt w.tree u p) {v : UID} {kt : KeyType} (hres : Ws.Resolves w.tree.abs w.ws.id p key v kt)
    {ls : List UID} (hls : w.tree.abs.Path v ls) (hfit : E.Fits ls.length)
    (hlink : ∃ n m c, d.user w.ws.path = .link (E.mountPath n) ∧ d.mdir n = some m ∧ m.merged = some c)
    (hused : d.used.length + 2 < 2 ^ 128) (hin : inside w.mount.id.base32) :
    ∃ d', ExecIn E inside (checkoutCmd E cwd key) d (.err .removeData) d' := by
  obtain ⟨g, hs⟩ := steady_reachable hd
  obtain ⟨T, hF⟩ := gets_found hs hout hg hh
  obtain ⟨r, dz, he0⟩ := exec_total (E := E) (f := Faults.none) (checkoutCmd_draws E cwd key) d hused
  obtain ⟨r, rfl⟩ := (C61_checkout_accepted_iff hd hk hout hg hh (fun v' kt' ls' h1 h2 => by
    obtain ⟨rfl, rfl⟩ := Ws.resolves_unique h1 hres
    rw [Ws.path_unique h2 hls]; exact hfit) hlink he0).2 ⟨v, kt, hres⟩
  exact replace_failing (checkoutP_leaves E · key) hF.opens hm he0 hin

/-- **C88.** While nobody is inside this workspace, `checkout` succeeds just if the key resolves. -/
theorem C88_checkout_partial {d : Disk} (hd : Reachable E d) {cwd key : Str} (hk : PlainKey key) (hout : E.Outside (Path.abs cwd (lit "."))) {w : OpenWs}
    (hg : Gets E d cwd (lit ".") w) {u p : UID} (hh : w.ws.HeadAt w.tree u p)
    (hfit : ∀ v kt ls, Ws.Resolves w.tree.abs w.ws.id p key v kt → w.tree.abs.Path v ls → E.Fits ls.length)
    (hlink : ∃ n m c, d.user w.ws.path = .link (E.mountPath n) ∧ d.mdir n = some m ∧ m.merged = some c)
    (hin : ¬ inside w.mount.id.base32) {r : Res CErr (OpenWs × OpenWs)} {d' : Disk} (he : ExecIn E inside (checkoutCmd E cwd key) d r d') :
    (∀ v kt, Ws.Resolves w.tree.abs w.ws.id p key v kt → ∀ ls, w.tree.abs.Path v ls → (∃ x, r = .ok x) ∧ ∃ w2 u2, Gets E d' cwd (lit ".") w2 ∧ w2.ws.id = w.ws.id ∧
      w2.ws.HeadAt w2.tree u2 v ∧ d'.Mounted w2 ∧ d'.lists w2 = files (ls.map d.content)) ∧
    ((∀ v kt, ¬ Ws.Resolves w.tree.abs w.ws.id p key v kt) → (∃ e, r = .err e) ∧ d'.info = d.info ∧ d'.mnt = d.mnt ∧ d'.user = d.user ∧
      (∀ n, d.space n ≠ none → d'.space n = d.space n) ∧ ∀ v, d.layer v ≠ none → d'.layer v = d.layer v) := by
  obtain ⟨g, hs⟩ := steady_reachable hd
  obtain ⟨T, hF⟩ := gets_found hs hout hg hh
  refine ⟨fun v kt hres ls hls => ?_, fun hno => (C61_checkout_refused hd hout hg hh hno (execIn_exec he)).2.imp_left (· hk)⟩
  rw [checkoutCmd_eq] at he
  obtain ⟨x, rfl⟩ := replace_works (checkoutP_leaves E · key) hF.opens
    (fun r d' h => (C61_checkout_accepted_iff hd hk hout hg hh hfit hlink h).2 ⟨v, kt, hres⟩) hin he
  obtain ⟨_, v', kt', u', ls', g', w2, b1, b2, _, _, b3, b4, b5, b6, b7, b8, b9, b10⟩ := after_checkout hs hF (execIn_exec he)
  obtain ⟨rfl, rfl⟩ := Ws.resolves_unique b1 hres
  obtain rfl := Ws.path_unique b3 hls
  refine ⟨⟨x, rfl⟩, w2, u', gets_of_opens b4, b5, b4.head, by rw [Disk.Mounted, b10.mnt]; simp, ?_⟩
  rw [lists_mounted b10.mnt, List.map_cons]
  have hb : d'.content u' = Content.empty.chown E.owner := by simp [Disk.content, b10.layer]
  rw [hb, files_blank (blank_chown E.owner)]
  congr 1
  refine List.map_congr_left fun y hy => ?_
  have hy2 : y ≠ u' := by
    rintro rfl
    exact b8 (path_has b3 y hy)
  simp only [Disk.content, b10.layer, upd_ne _ _ hy2]

end
end Verif
