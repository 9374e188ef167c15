import Verif.Props.Moves
import Verif.Props.Overlap
import Verif.Props.Pool
import Verif.World.Mono
/-!
# What later and concurrent commands leave of a commit and of another workspace (C32, C35, C36)

The disk is any that commands run one after another can leave. From there on any number of commands run at the same time,
fail, are killed, and files are written.
-/
set_option autoImplicit false
namespace Verif
open M TS Json

section
variable {E : Env} {f : Faults}

/-- A disk that commands run one after another have left. -/
theorem idle_steady {d : Disk} {g : Str → Option TS} (h : Steady E d g) : Idle ⟨d, fun _ => none⟩ := by
  refine ⟨fun _ => rfl, fun n m hm v hv => ?_, fun n n' m m' hm hm' he => ?_⟩
  · rcases List.mem_cons.1 hv with rfl | hv
    · exact head_stored h (mnt_head h hm)
    · obtain ⟨_, _, _, e3, _⟩ := h.mnt n m hm
      exact e3 v hv
  · obtain ⟨r, e1, e2, _⟩ := h.mnt n m hm
    obtain ⟨r', e1', e2', _⟩ := h.mnt n' m' hm'
    exact h.heads n n' r r' e1 e1' (by rw [← e2, ← e2', he])

/-- A layer that is no working layer stays as it is. -/
theorem layer_stays {d : Disk} {g : Str → Option TS} (h : Steady E d g) {u : UID} (hu : d.HasDiff u) (hn : ¬ Head E d u) {w2 : World}
    (hs : Sys.Steps E f ⟨d, fun _ => none⟩ w2) : w2.disk.layer u = d.layer u :=
  C32_idle_frozen (idle_steady h) (.refl _) (fun _ => rfl) hu (fun n m hm e => hn (e ▸ mnt_head h hm)) hs

/-! ## C36 -/

/-- **C36.** From any disk that commands have left, whatever runs at the same time: no two mounts write to the same layer. -/
theorem C36_reachable {d : Disk} (hd : Reachable E d) {w : World} (hs : Sys.Steps E f ⟨d, fun _ => none⟩ w) {n n' : Str} {m m' : Mnt}
    (hm : w.disk.mnt n = some m) (hm' : w.disk.mnt n' = some m') (hu : m.upper = m'.upper) : n = n' := by
  obtain ⟨g, h⟩ := steady_reachable hd
  exact C36_upper_unique (idle_steady h) hs hm hm' hu

/-! ## C32 -/

/-- **C32.** A workspace is committed. From then on the layer of the commit never changes: whatever commands run after it, at the
same time, fail or are killed, whatever is written in any workspace and whatever is unmounted. -/
theorem C32_commit_layer {d d' : Disk} (hd : Reachable E d) {cwd : Str} (hout : E.Outside (Path.abs cwd (lit "."))) {w : OpenWs}
    (hg : Gets E d cwd (lit ".") w) {u p : UID} (hh : w.ws.HeadAt w.tree u p) {ci : CommitInfo} {r : OpenWs × OpenWs} {f1 : Faults}
    (he : Exec E f1 (commitCmd E cwd ci) d (.ok r) d') {w2 : World} (hs : Sys.Steps E f ⟨d', fun _ => none⟩ w2) :
    w2.disk.layer u = d.layer u := by
  obtain ⟨g, hs0⟩ := steady_reachable hd
  obtain ⟨T, hF⟩ := gets_found hs0 hout hg hh
  obtain ⟨_, _, u2, ls, g1, w2', s1, k1, _, _, _, _, _, _, _, _, h10, h11⟩ := after_commit hs0 hF he
  have hu := head_stored hs0 (found_head hs0 hF)
  have hl : d'.layer u = d.layer u := by
    rw [h10.layer]
    refine upd_ne _ _ ?_
    rintro rfl
    obtain ⟨c, hc⟩ := hu
    rw [h10.newLayer] at hc; cases hc
  rw [layer_stays s1 (k1.diff u hu) h11 hs, hl]

/-- **C32.** The files of the commit never change: what the layers from the commit down show, in any execution that follows, is what
the workspace showed when the commit was made. Assumed: no layer below was a working layer then (it can be only if somebody
checked out or cloned a commit ID that is not yet a commit, see `C35_violated_checkout`). -/
theorem C32_commit_frozen {d d' : Disk} (hd : Reachable E d) {cwd : Str} (hout : E.Outside (Path.abs cwd (lit "."))) {w : OpenWs}
    (hg : Gets E d cwd (lit ".") w) (hm : d.Mounted w) {u p : UID} (hh : w.ws.HeadAt w.tree u p) (hbase : ∀ v, w.tree.abs.Anc v p → ¬ Head E d v)
    {ci : CommitInfo} {r : OpenWs × OpenWs} {f1 : Faults} (he : Exec E f1 (commitCmd E cwd ci) d (.ok r) d') {w2 : World}
    (hs : Sys.Steps E f ⟨d', fun _ => none⟩ w2) {ls : List UID} (hls : w.tree.abs.Path u ls) :
    files (ls.map w2.disk.content) = d.lists w := by
  obtain ⟨g, hs0⟩ := steady_reachable hd
  obtain ⟨T, hF⟩ := gets_found hs0 hout hg hh
  obtain ⟨_, _, u2, ls', g1, w2', s1, k1, _, h3, _, _, _, _, _, _, h10, h11⟩ := after_commit hs0 hF he
  obtain ⟨ls0, hp0, hl0⟩ := lists_found hs0 hF hm
  have e : ls = u :: ls0 := by
    obtain ⟨_, n, hn, hpp⟩ := hh
    exact Ws.path_unique hls (.step hn hpp hp0)
  subst e
  have hst := path_stored hF.opens hls
  rw [hl0]
  congr 1
  refine List.map_congr_left fun x hx => ?_
  have hx0 := hst x hx
  have hl1 : d'.layer x = d.layer x := by
    rw [h10.layer]
    refine upd_ne _ _ ?_
    rintro rfl
    obtain ⟨c, hc⟩ := hx0
    rw [h10.newLayer] at hc; cases hc
  have hnh : ¬ Head E d' x := by
    rcases List.mem_cons.1 hx with rfl | hx
    · exact h11
    · exact fun hh1 => hbase x (path_mem_anc hp0 x hx) (k1.heads x hh1 hx0)
  simp only [Disk.content, layer_stays s1 (k1.diff x hx0) hnh hs, hl1]

/-- What a commit leaves whose old mount could not be unmounted: the history has the commit, and its files are gone. -/
theorem commit_wiped {d dc d' : Disk} {g : Str → Option TS} (hs : Steady E d g) {cwd : Str} {w w' : OpenWs} {u p u' : UID} {T : TS} {ls : List UID} {ci : CommitInfo}
    (hF : Found E d g cwd (lit ".") w u p T) (hm : d.Mounted w) (hh : w.ws.HeadAt w.tree u p) (hmay : MayCommit w u) (hC : Committed w u ci w' u')
    (hls : w.tree.abs.Path u ls) (hL : Placed E d dc w' w'.mount.id u' ls) (hio : f.io = false) (hw : Wiped f w.mount.id.base32 dc d') :
    ∃ w2, Gets E d' cwd (lit ".") w2 ∧ SameWs w w2 ∧ w2.ws.HeadAt w2.tree u' u ∧
      CommitEffect w.tree.abs w.ws u u' ci w2.tree.abs ∧ d'.Mounted w2 ∧ d'.lists w2 = (fun _ => none) ∧ files (ls.map d'.content) = fun _ => none := by
  have hne : w.mount.id.base32 ≠ w'.mount.id.base32 := by intro e; exact hF.mdir (by rw [e]; exact hL.newMdir)
  -- the old mount
  obtain ⟨m, hmm⟩ : ∃ m, d.mnt w.mount.id.base32 = some m := Option.ne_none_iff_exists'.1 hm
  obtain ⟨hup, hlow⟩ := mnt_of_found hs hF hmm
  obtain ⟨u0, lows⟩ := m
  simp only at hup hlow
  subst hup
  have hls0 : ls = u0 :: lows := by
    obtain ⟨_, n, hn, hpp⟩ := hh
    exact Ws.path_unique hls (.step hn hpp hlow)
  have hmc : dc.mnt w.mount.id.base32 = some ⟨u0, lows⟩ := by rw [hL.mnt, upd_ne _ _ hne]; exact hmm
  have hu := head_stored hs (found_head hs hF)
  have huu : u0 ≠ u' := by
    rintro rfl
    obtain ⟨c, hc⟩ := hu
    rw [hL.newLayer] at hc; cases hc
  have hlu : dc.layer u0 = d.layer u0 := by rw [hL.layer]; exact upd_ne _ _ huu
  have huc : dc.HasDiff u0 := by obtain ⟨c, hc⟩ := hu; exact ⟨c, by rw [hlu]; exact hc⟩
  -- what is left
  have hlate := placed_late hL (space_ne hF hC.spaceDir)
  have hsg := steady_moved hs hF hlate hC.spaceID hC.spaceDir hC.reach (by rw [hC.tree]; exact extends_commit (found_head hs hF) hC.newNode)
    (by rw [hC.tree]; exact nodeKeys_commit (nodeKeys_back hF.back)) (fun v hv => by rw [hC.tree] at hv; exact commit_has hv) (headAt_below hC.head) hls
  have hs' := steady_wiped hsg.1 hw
  have hSh : w'.tree.abs.Shallow := by
    rw [hC.tree]
    exact shallow_commit (opens_reach hF.opens) (comesBack_shallow hF.back hF.shallow) hC.newNode hls (fits_small hL.fits)
  have hu8 := comesBack_is_utf8 hF.back
  have hnot : u0 ∉ lows := fun h => by
    have := anc_shorter (path_mem_anc hlow u0 h) hls hlow
    have e : ls.length = lows.length + 1 := by rw [hls0]; rfl
    omega
  have hrest : d'.user = dc.user ∧ d'.info = dc.info ∧ d'.mnt = dc.mnt ∧ (∀ v, v ≠ u0 → d'.layer v = dc.layer v) ∧
      ∀ x q, view ((u0 :: lows).map d'.content) (x :: q) = none := by
    obtain ⟨_, mt, c, wk, h1, h2, rfl⟩ := hw
    rw [hmc] at h1; cases h1
    obtain ⟨e1, e2, e3, e4, e5, e6⟩ := put_rest dc u0 c
    have hl : ∀ v, v ≠ u0 → (dc.put u0 c).layer v = dc.layer v := fun v hv => by
      rcases put_layer dc u0 v c with h | ⟨h, _⟩
      · exact h
      · exact absurd h hv
    simp only [Disk.setMdir]
    refine ⟨e5, e3, e4, hl, fun x q => ?_⟩
    obtain ⟨c0, hc0⟩ := huc
    have h3 := h2 hio x q
    rw [List.map_cons]
    have k1 : Disk.content { dc.put u0 c with mdir := upd (dc.put u0 c).mdir w.mount.id.base32 ((dc.mdir w.mount.id.base32).map fun x => { x with work := wk }) } u0 = c := by
      simp [Disk.content, Disk.put, hc0, Disk.setLayer]
    rw [k1, List.map_congr_left (g := dc.content) fun v hv => ?_]
    · exact h3
    · simp only [Disk.content, hl v (fun e => hnot (e ▸ hv))]
  obtain ⟨r1, r2, r3, r4, hview⟩ := hrest
  obtain ⟨w2, o, e1, e2, e3, e4, e5⟩ := reopened (cwd := cwd) (path := lit ".") hs' hL r1 (by rw [r2])
    (by rw [hC.path]; exact hF.opens.path) hF.opens.out (by rw [hC.spaceDir, hC.spaceID]; exact hF.opens.dir)
    (by rw [hC.spaceDir]; exact upd_self _ _ _) hSh (headAt_below hC.head)
  have hnone : files (ls.map d'.content) = fun _ => none := by
    rw [hls0]
    funext q
    cases q with
    | nil => rfl
    | cons x q => simp only [files]; exact hview x q
  have hmnt2 : d'.mnt w2.mount.id.base32 = some ⟨u', ls⟩ := by rw [r3, e3, hL.mnt]; exact upd_self _ _ _
  refine ⟨w2, gets_of_opens o, ⟨e1.trans hC.id, ?_, e2.trans hC.spaceID⟩, o.head, ?_, by rw [Disk.Mounted, hmnt2]; simp, ?_, hnone⟩
  · rw [e4, hC.branch]
    obtain ⟨i, _, _, _, _, _, i6⟩ := hF.opens.info
    rw [← i6, sanitize_idem]
  · have e6 : w2.tree.abs = w.tree.abs.commit w.ws.onBranch u0 u' (sanitize ci.date) (sanitize ci.message) := by
      rw [hC.tree] at e5
      have hn : (w.tree.abs.commit w.ws.onBranch u0 u' ci.date ci.message).Named := by
        refine named_commit (utf8_named hu8) fun x hx => ?_
        obtain ⟨hd, hb, _⟩ := follows_iff.2 hmay x hx
        exact hu8.branch x hd hb
      rw [comesBack_named e5 hn, tidy_commit, tidy_utf8 hu8]
    rw [e6]
    obtain ⟨_, n, hn, _⟩ := hh
    exact commitEffect ⟨n, hn⟩ hC.newNode
  · rw [lists_mounted hmnt2, List.map_cons]
    have hb : d'.content u' = Content.empty.chown E.owner := by
      simp [Disk.content, r4 u' (Ne.symm huu), hL.layer]
    rw [hb, files_blank (blank_chown E.owner), hnone]

/-- The part of a commit before the old mount is removed. -/
theorem commit_placed {d db dc : Disk} {w w' : OpenWs} {u p : UID} {ci : CommitInfo} {cwd : Str} (ho : Opens E d cwd (lit ".") w u p)
    (hcp : Exec E f (commitP E w ci) d (.ok w') db) (hex : Exec E f (expand E w') db (.ok ()) dc) :
    ∃ u' ls, Committed w u ci w' u' ∧ w.tree.abs.Path u ls ∧ Placed E d dc w' w'.mount.id u' ls :=
  have hpre : Exec E f (M.bind (commitP E w ci) fun w' => M.bind (expand E w') fun _ => M.pure w') d (.ok w') dc :=
    exec_ok hcp (exec_ok hex (.ret _ _))
  wpm_exec_ok (commitTo_wp (k := fun w' => M.pure w') (I := fun _ => True) (F := fun _ _ => True)
    (R := fun w' d' => ∃ u' ls', Committed w u ci w' u' ∧ w.tree.abs.Path u ls' ∧ Placed E d d' w' w'.mount.id u' ls') (held_of_opens ho)
    (fun _ _ => trivial) (fun _ _ _ _ _ => trivial) (fun _ _ _ _ _ _ => trivial)
    (fun w' u' ls' d' h1 h2 _ _ _ h3 => wpm_pure (I := fun _ => True) ⟨u', ls', h1, h2, h3⟩)) hpre

/-- **Violation.** Any workspace that may commit, on a system where nothing fails except that the mount is busy (a shell or an
editor works in it): `commit` saves the history - the branch has the commit - and then empties the committed layer. The command
fails; the workspace shows no files at all, nor does any later mount of the commit. -/
theorem C32_violated_commit {d : Disk} (hd : Reachable E d) {cwd : Str} (hout : E.Outside (Path.abs cwd (lit "."))) {w : OpenWs}
    (hg : Gets E d cwd (lit ".") w) (hm : d.Mounted w) {u p : UID} (hh : w.ws.HeadAt w.tree u p) (hmay : MayCommit w u)
    {ls : List UID} (hls : w.tree.abs.Path u ls) (hfit : E.Fits ls.length)
    (hlink : ∃ n m c, d.user w.ws.path = .link (E.mountPath n) ∧ d.mdir n = some m ∧ m.merged = some c)
    (hused : d.used.length + 2 < 2 ^ 128) (ci : CommitInfo) (hb : f.busy = true) :
    ∃ d' w2 u2, Exec E f (commitCmd E cwd ci) d (.err .removeData) d' ∧ Gets E d' cwd (lit ".") w2 ∧ SameWs w w2 ∧ w2.ws.HeadAt w2.tree u2 u ∧
      CommitEffect w.tree.abs w.ws u u2 ci w2.tree.abs ∧ d'.Mounted w2 ∧ d'.lists w2 = (fun _ => none) ∧ files (ls.map d'.content) = fun _ => none := by
  obtain ⟨g, hs⟩ := steady_reachable hd
  obtain ⟨T, hF⟩ := gets_found hs hout hg hh
  obtain ⟨r, dz, he0⟩ := exec_total (E := E) (f := Faults.none) (commitCmd_draws E cwd ci) d hused
  obtain ⟨r, rfl⟩ := (C28_accepted_iff hd hout hg hh hls hfit hlink he0).2 hmay
  -- the part of the command before the old mount is removed
  obtain ⟨wa, da, ha, h1⟩ := exec_ok_inv he0
  obtain ⟨rfl, rfl⟩ := wpm_exec_ok (getWorkspace_wp hF.opens) ha
  obtain ⟨w', db, hcp, h2⟩ := exec_ok_inv h1
  obtain ⟨⟨⟩, dc, hex, h3⟩ := exec_ok_inv h2
  obtain ⟨u', ls', hC, hP, hL⟩ := commit_placed hF.opens hcp hex
  obtain rfl := Ws.path_unique hP hls
  have hdir : wa.mount.dir = wa.mount.id.base32 := by rw [hF.opens.mount]
  have hne : wa.mount.id.base32 ≠ w'.mount.id.base32 := by intro e; exact hF.mdir (by rw [e]; exact hL.newMdir)
  -- the old mount
  obtain ⟨m, hmm⟩ : ∃ m, da.mnt wa.mount.id.base32 = some m := Option.ne_none_iff_exists'.1 hm
  obtain ⟨hup, _⟩ := mnt_of_found hs hF hmm
  have hmc : dc.mnt wa.mount.id.base32 = some m := by rw [hL.mnt, upd_ne _ _ hne]; exact hmm
  have huc : dc.HasDiff m.upper := by
    obtain ⟨c, hc⟩ := head_stored hs (found_head hs hF)
    rw [hup]
    refine ⟨c, ?_⟩
    rw [hL.layer, upd_ne _ _ fun e => by rw [e, hL.newLayer] at hc; cases hc]
    exact hc
  obtain ⟨d', hrm, _⟩ := C32_violated_busy (E := E) (f := ⟨false, true, false⟩) rfl hdir (by rw [hdir]; exact hmc) huc
  obtain ⟨_, _, hw⟩ := wpm_exec_err (removeMount_wp hdir) hrm
  have hw : Wiped ⟨false, true, false⟩ wa.mount.id.base32 dc d' := hw.resolve_left nofun
  have hcmd : Exec E f (commitCmd E cwd ci) da (.err .removeData) d' := by
    have le : Faults.none.Le f := ⟨nofun, nofun, nofun⟩
    have le' : Faults.Le ⟨false, true, false⟩ f := ⟨nofun, fun _ => hb, nofun⟩
    exact exec_ok (exec_mono le ha) (exec_ok (exec_mono le hcp) (exec_ok (exec_mono le hex) (exec_trans (exec_mono le' hrm) (.ret _ _))))
  obtain ⟨w2, h⟩ := commit_wiped (f := ⟨false, true, false⟩) hs hF hm hh hmay hC hP hL rfl hw
  exact ⟨d', w2, u', hcmd, h⟩

/-! ## C35 -/

/-- **C35.** Two workspaces are mounted. Whatever is written in the first does not show in the second, unless the working layer of
the first is in the history of the second. -/
theorem C35_isolated_partial {d : Disk} (hd : Reachable E d) {cwd1 cwd2 : Str} (hout1 : E.Outside (Path.abs cwd1 (lit ".")))
    (hout2 : E.Outside (Path.abs cwd2 (lit "."))) {w1 w2 : OpenWs} (hg1 : Gets E d cwd1 (lit ".") w1) (hg2 : Gets E d cwd2 (lit ".") w2)
    (hm1 : d.Mounted w1) (hm2 : d.Mounted w2) (hne : w1.mount.id ≠ w2.mount.id) {u1 p1 u2 p2 : UID} (hh1 : w1.ws.HeadAt w1.tree u1 p1)
    (hh2 : w2.ws.HeadAt w2.tree u2 p2) (hno : ¬ w2.tree.abs.Anc u1 p2) (c : Content) :
    (d.put u1 c).lists w2 = d.lists w2 := by
  obtain ⟨g, hs⟩ := steady_reachable hd
  obtain ⟨T1, hF1⟩ := gets_found hs hout1 hg1 hh1
  obtain ⟨T2, hF2⟩ := gets_found hs hout2 hg2 hh2
  obtain ⟨m1, e1⟩ : ∃ m, d.mnt w1.mount.id.base32 = some m := Option.ne_none_iff_exists'.1 hm1
  obtain ⟨m2, e2⟩ : ∃ m, d.mnt w2.mount.id.base32 = some m := Option.ne_none_iff_exists'.1 hm2
  obtain ⟨rfl, a2⟩ := mnt_of_found hs hF1 e1
  obtain ⟨rfl, b2⟩ := mnt_of_found hs hF2 e2
  have := C35_write_partial (E := E) (f := Faults.none) (w := ⟨d, fun _ => none⟩) (idle_steady hs) (.refl _) e1 e2 (fun e => hne (base32_inj e))
    (fun hx => hno (path_mem_anc b2 _ hx)) c
  funext q
  simp only [Disk.lists]
  split
  · rfl
  · exact congrFun this q

/-- **C35.** A workspace whose history contains no working layer shows the same files as long as it stays mounted and nobody writes in
it, whatever commands run at the same time and whatever is written elsewhere. -/
theorem C35_steady_partial {d : Disk} (hd : Reachable E d) {cwd : Str} (hout : E.Outside (Path.abs cwd (lit "."))) {w : OpenWs}
    (hg : Gets E d cwd (lit ".") w) (hm : d.Mounted w) {u p : UID} (hh : w.ws.HeadAt w.tree u p) (hbase : ∀ v, w.tree.abs.Anc v p → ¬ Head E d v)
    {W : World} (hs : Sys.Steps E f ⟨d, fun _ => none⟩ W) (hstay : W.disk.mnt w.mount.id.base32 = d.mnt w.mount.id.base32)
    (hown : W.disk.layer u = d.layer u) : W.disk.lists w = d.lists w := by
  obtain ⟨g, h0⟩ := steady_reachable hd
  obtain ⟨T, hF⟩ := gets_found h0 hout hg hh
  obtain ⟨m, e⟩ : ∃ m, d.mnt w.mount.id.base32 = some m := Option.ne_none_iff_exists'.1 hm
  obtain ⟨rfl, a2⟩ := mnt_of_found h0 hF e
  rw [lists_mounted e, lists_mounted (hstay.trans e)]
  congr 1
  refine List.map_congr_left fun x hx => ?_
  have : W.disk.layer x = d.layer x := by
    rcases List.mem_cons.1 hx with rfl | hx
    · exact hown
    · exact layer_stays h0 (path_stored hF.opens a2 x hx) (hbase x (path_mem_anc a2 x hx)) hs
  simp only [Disk.content, this]

/-- The content of a layer that holds one file. -/
def oneFile (x data : Str) : Content := fun p => if p = [x] then some (.file data) else none

/-- **Violation.** The ID of a working layer is accepted like that of a commit. The second workspace checks out the working layer of
the first one. From then on, whatever file is put into the first workspace shows in the second one. -/
theorem C35_violated_checkout {d d' : Disk} (hd : Reachable E d) {cwd1 cwd2 : Str} (hout1 : E.Outside (Path.abs cwd1 (lit ".")))
    (hout2 : E.Outside (Path.abs cwd2 (lit "."))) {w1 w2 : OpenWs} (hg1 : Gets E d cwd1 (lit ".") w1) (hg2 : Gets E d cwd2 (lit ".") w2)
    (hm1 : d.Mounted w1) (hne : w1.mount.id ≠ w2.mount.id) (hcwd : Path.abs cwd1 (lit ".") ≠ Path.abs cwd2 (lit "."))
    {u1 p1 u2 p2 : UID} (hh1 : w1.ws.HeadAt w1.tree u1 p1) (hh2 : w2.ws.HeadAt w2.tree u2 p2) {key : Str}
    {kt : KeyType} (hres : Ws.Resolves w2.tree.abs w2.ws.id p2 key u1 kt) {r : OpenWs × OpenWs} (he : Exec E f (checkoutCmd E cwd2 key) d (.ok r) d') :
    ∃ w1' w2', Gets E d' cwd1 (lit ".") w1' ∧ SameWs w1 w1' ∧ Gets E d' cwd2 (lit ".") w2' ∧ w2'.ws.id = w2.ws.id ∧ w1'.ws.HeadAt w1'.tree u1 p1 ∧
      (∃ m, d'.mnt w1'.mount.id.base32 = some m ∧ m.upper = u1) ∧ d'.Mounted w2' ∧
      ∀ x data, (d'.put u1 (oneFile x data)).lists w1' [x] = some (.file data) ∧ (d'.put u1 (oneFile x data)).lists w2' [x] = some (.file data) := by
  obtain ⟨g, hs⟩ := steady_reachable hd
  obtain ⟨T1, hF1⟩ := gets_found hs hout1 hg1 hh1
  obtain ⟨T2, hF2⟩ := gets_found hs hout2 hg2 hh2
  obtain ⟨_, v, kt', u3, ls3, g3, w3, b1, b2, b2', b2'', b3, b4, b5, b6, b7, b8, b9, b10⟩ := after_checkout hs hF2 he
  obtain ⟨rfl, rfl⟩ := Ws.resolves_unique b1 hres
  have hk1 : w1.mount.id.base32 ≠ w3.mount.id.base32 := fun e => hF1.mdir (by rw [e]; exact b10.newMdir)
  obtain ⟨o1, o2, o3⟩ := b10.others _ hk1 (fun e => hne (base32_inj e))
  have huser := b10.user (Path.abs cwd1 (lit ".")) (by rw [hF2.opens.path]; exact hcwd)
  obtain ⟨w1', ho, e1, e2, e3, e4, hx⟩ := others_open hs b2 b2' b2'' hF1 huser o2
  obtain ⟨m, em⟩ : ∃ m, d.mnt w1.mount.id.base32 = some m := Option.ne_none_iff_exists'.1 hm1
  obtain ⟨rfl, a2⟩ := mnt_of_found hs hF1 em
  have em' : d'.mnt w1'.mount.id.base32 = some m := by rw [e3, o1]; exact em
  have hu := head_stored hs (found_head hs hF1)
  have huu : m.upper ≠ u3 := by
    intro e
    obtain ⟨c, hc⟩ := hu
    rw [e, b10.newLayer] at hc; cases hc
  obtain ⟨rest, rfl⟩ : ∃ rest, ls3 = m.upper :: rest := by cases b3 <;> exact ⟨_, rfl⟩
  have hu' : d'.HasDiff m.upper := by obtain ⟨c, hc⟩ := hu; exact ⟨c, by rw [b10.layer, upd_ne _ _ huu]; exact hc⟩
  have hc1 : ∀ c, (d'.put m.upper c).content m.upper = c := by
    obtain ⟨c0, hc0⟩ := hu'
    intro c; simp [Disk.put, hc0, Disk.content, Disk.setLayer]
  have hc3 : ∀ c, (d'.put m.upper c).content u3 = Content.empty.chown E.owner := by
    obtain ⟨c0, hc0⟩ := hu'
    intro c
    simp [Disk.put, hc0, Disk.content, Disk.setLayer, upd_ne _ _ (Ne.symm huu), b10.layer]
  have hmnt : ∀ c, (d'.put m.upper c).mnt = d'.mnt := fun c => (put_rest d' m.upper c).2.2.2.1
  have hsee : ∀ x data L, files (oneFile x data :: L) [x] = some (.file data) := by
    intro x data L
    simp [files, view, stack, topEnt, oneFile]
  refine ⟨w1', w3, gets_of_opens ho, ⟨e1, e4, e2⟩, gets_of_opens b4, b5, ho.head, ⟨m, em', rfl⟩, by rw [Disk.Mounted, b10.mnt]; simp, fun x data => ⟨?_, ?_⟩⟩
  · rw [lists_mounted (m := m) (by rw [hmnt]; exact em'), List.map_cons, hc1]
    exact hsee x data _
  · rw [lists_mounted (m := ⟨u3, m.upper :: rest⟩) (by rw [hmnt]; exact b10.mnt), List.map_cons, List.map_cons, hc1, hc3, files_blank (blank_chown E.owner)]
    exact hsee x data _

end
end Verif
