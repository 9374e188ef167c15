import Verif.Props.Frames
/-!
# Failures and crashes (C41, C42, C45, C54)
-/
set_option autoImplicit false
namespace Verif
open M TS Json

section
variable {E : Env} {f : Faults}

/-! ## C42 -/

/-- Nothing that a record, a tree or a user refers to has changed: what is new is unused. -/
structure Harmless (d d' : Disk) : Prop where
  info : d'.info = d.info
  mnt : d'.mnt = d.mnt
  user : d'.user = d.user
  space : ∀ n b, d'.space n = some (some b) ↔ d.space n = some (some b)
  layer : ∀ u, d.layer u ≠ none → d'.layer u = d.layer u
  mdir : ∀ n, d.mdir n ≠ none → d'.mdir n = d.mdir n

theorem harmless_litter {d d' : Disk} (h : Litter d d') : Harmless d d' := by
  refine ⟨h.info, h.mnt, h.user, fun n b => ?_, fun u hu => litter_layer_eq h hu, fun n hn => ?_⟩
  · rcases h.space n with e | ⟨e1, e2⟩
    · rw [e]
    · rw [e1, e2]; simp
  · rcases h.mdir n with e | ⟨e, _⟩
    · exact e
    · exact absurd e hn

/-- **C42.** A commit that fails before it saves leaves nothing but unused directories, whatever made it fail. -/
theorem C42_commit {d d' : Disk} (hd : Reachable E d) {cwd : Str} (hout : E.Outside (Path.abs cwd (lit "."))) {ci : CommitInfo}
    {e : CErr} (he : Exec E f (commitCmd E cwd ci) d (.err e) d') (hearly : e.early = true) : Harmless d d' := by
  obtain ⟨g, hs⟩ := steady_reachable hd
  rcases run_opens hs hout he with ⟨rfl, _⟩ | ⟨w, u, p, T, hF⟩
  · exact harmless_litter (litter_refl _)
  · exact harmless_litter ((wpm_exec (commitCmd_wp hF.opens hF.mdir) he).1 hearly).1

/-- **C42.** The same for a checkout. -/
theorem C42_checkout {d d' : Disk} (hd : Reachable E d) {cwd key : Str} (hout : E.Outside (Path.abs cwd (lit ".")))
    {e : CErr} (he : Exec E f (checkoutCmd E cwd key) d (.err e) d') (hearly : e.early = true) : Harmless d d' := by
  obtain ⟨g, hs⟩ := steady_reachable hd
  rcases run_opens hs hout he with ⟨rfl, _⟩ | ⟨w, u, p, T, hF⟩
  · exact harmless_litter (litter_refl _)
  · by_cases hk : PlainKey key
    · exact harmless_litter ((wpm_exec (checkoutCmd_wp hF.opens hk hF.mdir) he).1 hearly).1
    · rw [(checkout_odd hk he).1]
      exact harmless_litter (litter_refl _)

/-- **C42.** The same for a clone. -/
theorem C42_clone {d d' : Disk} (hd : Reachable E d) {cwd source target : Str} (hout : E.Outside (Path.abs cwd source))
    (hoff : E.Off target) {e : CErr} (he : Exec E f (cloneCmd E cwd source target) d (.err e) d') (hearly : e.early = true) : Harmless d d' := by
  obtain ⟨g, hs⟩ := steady_reachable hd
  rcases run_opens hs hout he with ⟨rfl, _⟩ | ⟨w, u, p, T, hF⟩
  · exact harmless_litter (litter_refl _)
  · exact harmless_litter ((wpm_exec (cloneCmd_wp hF.opens hoff) he).1 hearly).1

/-- **C42.** The same for `init`. -/
theorem C42_init {d d' : Disk} {path branch : Str} (hoff : E.Off path) {e : CErr} (he : Exec E f (initCmd E path branch) d (.err e) d')
    (hearly : e.early = true) : Harmless d d' :=
  harmless_litter ((wpm_exec (initCmd_wp hoff) he).1 hearly).1

/-! ## C45 -/

theorem init_occupied {d : Disk} {path branch : Str} (hoff : E.Off path) (hio : f.io = false) (h : d.user path = .file ∨ d.user path = .dir) :
    wpm E f (· = d) (initCmd E path branch) (fun _ _ => False) (fun e d' => e = .notEmpty ∧ d' = d) d := by
  unfold initCmd
  refine wpm_call fun a d1 h1 => ?_
  obtain ⟨rfl, h1⟩ := h1
  have ha : a = true := by
    rcases h1 with h1 | h1 | h1
    · rcases h with h | h <;> simpa only [Exists, h] using h1
    · exact absurd h1 (fun ⟨n, hn⟩ => hoff n hn)
    · rw [hio] at h1; cases h1.2
  subst ha
  refine ⟨rfl, ?_⟩
  simp only [if_true]
  refine wpm_must fun b d2 h2 => ?_
  obtain ⟨rfl, h2⟩ := h2
  have hb : b = false := by
    rcases h2 with h2 | h2 | h2
    · rcases h with h | h <;> simpa only [EmptyDir, h] using h2
    · exact absurd h2 (fun ⟨n, hn⟩ => hoff n hn)
    · exact h2.1
  subst hb
  exact ⟨rfl, nofun, fun _ => ⟨rfl, rfl⟩⟩

/-- **C45.** Wherever `init` ends or is killed, it changed the entry at no path but its own, and there only if that was neither
a file nor a directory with something in it. If it was, nothing at all has changed. -/
theorem C45_init {d d' : Disk} {path branch : Str} (hoff : E.Off path) (hio : f.io = false) (h : Stops E f (initCmd E path branch) d d') :
    (∀ p, p ≠ path → d'.user p = d.user p) ∧ (d.user path = .file ∨ d.user path = .dir → d' = d) := by
  refine ⟨fun p hp => ?_, fun ho => wp_stops (I := (· = d)) (init_occupied hoff hio ho) rfl h⟩
  rcases wp_stops (initCmd_wp hoff) (Or.inl (litter_refl d)) h with hL | ⟨dir, _, hM⟩
  · exact congrFun hL.user p
  · exact hM.user p hp

/-- **C45.** A clone changes the entry at no path but its target, and that only if it is not a directory with something in it.
Missing: it does replace a file. -/
theorem C45_clone_partial {d d' : Disk} (hd : Reachable E d) {cwd source target : Str} (hout : E.Outside (Path.abs cwd source))
    (hoff : E.Off target) {r : Res CErr OpenWs} (he : Exec E f (cloneCmd E cwd source target) d r d') :
    (∀ p, p ≠ target → d'.user p = d.user p) ∧ (d.user target = .dir → d'.user target = .dir) := by
  obtain ⟨g, hs⟩ := steady_reachable hd
  rcases run_opens hs hout he with ⟨rfl, _⟩ | ⟨w, u, p, T, hF⟩
  · exact ⟨fun _ _ => rfl, fun h => h⟩
  · have hM := wpm_end (cloneCmd_wp hF.opens hoff) (mid_litter (litter_refl d)) he
    refine ⟨hM.user, fun h => ?_⟩
    rcases hM.entry with e | ⟨e, _⟩
    · rw [e, h]
    · exact absurd h e

/-- **C45, violated.** A clone to a path with a regular file succeeds and the file is gone: in every history with a workspace
whose last commit can be mounted, on a system without any faults. -/
theorem C45_violated_clone {d : Disk} (hd : Reachable E d) (hu : d.used.length + 3 < 2 ^ 128) {cwd source target : Str} (hout : E.Outside (Path.abs cwd source))
    (hoff : E.Off target) {w : OpenWs} (hg : Gets E d cwd source w) {u p : UID} (hh : w.ws.HeadAt w.tree u p) {ls : List UID} (hls : w.tree.abs.Path p ls)
    (hfit : E.Fits ls.length) (hfile : d.user target = .file) :
    (∃ w' d', Exec E Faults.none (cloneCmd E cwd source target) d (.ok w') d') ∧
    ∀ r d', Exec E Faults.none (cloneCmd E cwd source target) d r d' → ∃ w', r = .ok w' ∧ d'.user target = .link (E.mountPath w'.mount.id.base32) := by
  obtain ⟨g, hs⟩ := steady_reachable hd
  obtain ⟨T, hF⟩ := gets_found hs hout hg hh
  have key : ∀ r d', Exec E Faults.none (cloneCmd E cwd source target) d r d' → ∃ w', r = .ok w' ∧ d'.user target = .link (E.mountPath w'.mount.id.base32) := by
    intro r d' he
    have hp := wpm_exec (cloneCmd_wp hF.opens hoff) he
    cases r with
    | ok w' =>
      obtain ⟨u', ls', hC, _, _, _, hL⟩ := hp
      refine ⟨w', rfl, ?_⟩
      rw [hL.user, hC.path]; exact upd_self _ _ _
    | err e =>
      exfalso
      cases hee : e.early with
      | true => exact (hp.1 hee).2 ⟨rfl, rfl, hs.tracked⟩
      | false =>
        obtain ⟨_, h | ⟨w', u', ls', _, hP, _, _, _, h | h⟩⟩ := hp.2 hee
        · cases h
        · rw [Ws.path_unique hP hls] at h; exact h hfit
        · exact h (Or.inr (Or.inr (Or.inl hfile)))
    | panic => exact hp.elim
    | diverge => exact hp.elim
  obtain ⟨r, d', he⟩ := exec_total (f := Faults.none) (cloneCmd_draws E cwd source target) d hu
  obtain ⟨w', rfl, _⟩ := key r d' he
  exact ⟨⟨w', d', he⟩, key⟩

/-! ## C54 -/

/-- Only the mount `n` is different. -/
structure OnlyMount (n : Str) (d d' : Disk) : Prop where
  layer : d'.layer = d.layer
  space : d'.space = d.space
  user : d'.user = d.user
  used : d'.used = d.used
  mdir : ∀ k, k ≠ n → d'.mdir k = d.mdir k
  info : ∀ k, k ≠ n → d'.info k = d.info k
  mnt : ∀ k, k ≠ n → d'.mnt k = d.mnt k

/-- **C54.** Removing a mount that is not busy succeeds on every disk, removes it with its directory and record, and changes
nothing else. -/
theorem C54_removed {d d' : Disk} {m : MountObj} (hm : m.dir = m.id.base32) (hb : f.busy = false) (hio : f.io = false) {r : Res CErr Unit}
    (he : Exec E f (removeMount m) d r d') :
    r = .ok () ∧ OnlyMount m.dir d d' ∧ d'.mnt m.dir = none ∧ d'.mdir m.dir = none ∧ d'.info m.dir = none := by
  have hp := wpm_exec (removeMount_wp hm) he
  cases r with
  | ok a =>
    have hd : d' = removed m.id.base32 d := hp
    subst hd
    rw [hm]
    refine ⟨rfl, ⟨rfl, rfl, rfl, rfl, ?_, ?_, ?_⟩, ?_, ?_, ?_⟩
    · intro k hk; simp only [removed, Disk.setInfo, Disk.setMdir, Disk.setMnt, upd_ne _ _ hk]
    · intro k hk; simp only [removed, Disk.setInfo, Disk.setMdir, Disk.setMnt, upd_ne _ _ hk]
    · intro k hk; simp only [removed, Disk.setInfo, Disk.setMdir, Disk.setMnt, upd_ne _ _ hk]
    all_goals simp [removed, Disk.setInfo, Disk.setMdir, Disk.setMnt]
  | err e =>
    rcases hp.2.2 with h | h
    · rw [hio] at h; cases h
    · exact absurd h.1 (by rw [hb]; decide)
  | panic => exact hp.elim
  | diverge => exact hp.elim

/-- **C54.** Whatever fails, and wherever the removal is killed, every other mount, every record of another mount, every space
and every path of the user is unchanged, and every layer but the upper one of this mount. -/
theorem C54_frame {d d' : Disk} {m : MountObj} (hm : m.dir = m.id.base32) (h : Stops E f (removeMount m) d d') :
    (∀ k, k ≠ m.dir → d'.mdir k = d.mdir k ∧ d'.info k = d.info k ∧ d'.mnt k = d.mnt k) ∧ d'.space = d.space ∧ d'.user = d.user ∧
      ∀ v, (∀ mt, d.mnt m.dir = some mt → mt.upper ≠ v) → d'.layer v = d.layer v := by
  have hR : Removing f m.id.base32 d d' := wp_stops (removeMount_wp hm)
    ⟨Or.inl rfl, rfl, fun _ _ => rfl, Or.inl rfl, rfl, fun _ _ => rfl, fun h => h, fun _ _ => rfl, Or.inl rfl, rfl⟩ h
  rw [hm]
  refine ⟨fun k hk => ⟨hR.mdir k hk, hR.info k hk, hR.mnt k hk⟩, hR.space, hR.user, fun v hv => ?_⟩
  rcases hR.layer with e | ⟨_, mt, c, e1, e2⟩
  · rw [e]
  · rw [e2]
    unfold Disk.put
    split
    · exact upd_ne _ _ (Ne.symm (hv mt e1))
    · rfl

/-! ## C41 -/

/-- What loading the tree of the space `n` gives. -/
def Disk.loads (d : Disk) (n : Str) : Res SpaceErr TS :=
  spaceLoad (match d.space n with | some (some b) => .ok b | _ => .notExist)

theorem loads_congr {d d' : Disk} {n : Str} (h : d'.space n = d.space n) : d'.loads n = d.loads n := by unfold Disk.loads; rw [h]

theorem loads_prefix {T : TS} (hr : Reach T) {b q : Str} (hs : SavesAs E.sh T b) (hq : q <+: b) :
    (∃ e, spaceLoad (.ok q) = .err e) ∨ ∃ s', spaceLoad (.ok q) = .ok s' ∧ ComesBack T.abs s'.abs := by
  obtain ⟨q', rfl⟩ := hq
  by_cases h : q' = []
  · subst h
    rw [List.append_nil] at hs
    by_cases hS : T.abs.Shallow
    · obtain ⟨s', e1, _, e2⟩ := (load_saved hr hs).1 hS
      exact Or.inr ⟨s', e1, e2⟩
    · exact Or.inl ⟨_, (load_saved hr hs).2 hS⟩
  · exact Or.inl ⟨_, C18_torn_detected hs rfl h⟩

theorem mid_loads {N : OpenWs → UID → Prop} {dir path : Str} {old : Str → Prop} {hurt : UID → Prop} {d d' : Disk} (h : Mid E N dir path old hurt d d')
    (hr : ∀ w u, N w u → Reach w.tree) {n : Str} (hn : d.space n ≠ none) :
    d'.loads n = d.loads n ∨ (∃ e, d'.loads n = .err e) ∨ n = dir ∧ ∃ w u s', N w u ∧ d'.loads n = .ok s' ∧ ComesBack w.tree.abs s'.abs := by
  by_cases hd : n = dir
  · subst hd
    rcases h.tree with e | ⟨e, _⟩ | ⟨w, u, b, q, h1, h2, h3, h4⟩
    · exact Or.inl (loads_congr e)
    · exact absurd e hn
    · have hl : d'.loads n = spaceLoad (.ok q) := by unfold Disk.loads; rw [h4]
      rw [hl]
      rcases loads_prefix (hr w u h1) h2 h3 with e | ⟨s', e1, e2⟩
      · exact Or.inr (Or.inl e)
      · exact Or.inr (Or.inr ⟨rfl, w, u, s', h1, e1, e2⟩)
  · exact Or.inl (loads_congr (h.space n hd hn))

/-- **C41.** A commit is killed at any moment, also in the middle of a write. Then for every space, loading its tree gives the
same as before, or an error, or, for the space of the workspace, the tree with the new commit. -/
theorem C41_commit {d d' : Disk} (hd : Reachable E d) {cwd : Str} (hout : E.Outside (Path.abs cwd (lit "."))) {w : OpenWs} (hg : Gets E d cwd (lit ".") w)
    {u p : UID} (hh : w.ws.HeadAt w.tree u p) {ci : CommitInfo} (h : Stops E f (commitCmd E cwd ci) d d') {n : Str} (hn : d.space n ≠ none) :
    d'.loads n = d.loads n ∨ (∃ e, d'.loads n = .err e) ∨ n = w.spaceDir ∧ ∃ u' s', ¬ w.tree.abs.Has u' ∧ d'.loads n = .ok s' ∧
      ComesBack (w.tree.abs.commit w.ws.onBranch u u' ci.date ci.message) s'.abs := by
  obtain ⟨g, hs⟩ := steady_reachable hd
  obtain ⟨T, hF⟩ := gets_found hs hout hg hh
  refine (mid_loads (wp_stops (commitCmd_wp hF.opens hF.mdir) (mid_litter (litter_refl d)) h) (fun _ _ hC => hC.reach) hn).imp_right (Or.imp_right ?_)
  rintro ⟨e, w', u', s', hC, h1, h2⟩
  exact ⟨e, u', s', hC.newNode, h1, by rw [← hC.tree]; exact h2⟩

/-- **C41.** The same for a checkout, with a new working layer on the named commit. -/
theorem C41_checkout {d d' : Disk} (hd : Reachable E d) {cwd key : Str} (hout : E.Outside (Path.abs cwd (lit "."))) {w : OpenWs}
    (hg : Gets E d cwd (lit ".") w) {u p : UID} (hh : w.ws.HeadAt w.tree u p) (h : Stops E f (checkoutCmd E cwd key) d d') {n : Str} (hn : d.space n ≠ none) :
    d'.loads n = d.loads n ∨ (∃ e, d'.loads n = .err e) ∨ n = w.spaceDir ∧ ∃ v kt u' s', Ws.Resolves w.tree.abs w.ws.id p key v kt ∧
      ¬ w.tree.abs.Has u' ∧ d'.loads n = .ok s' ∧ ComesBack (w.tree.abs.add (some v) u' (fun _ => none) (fun _ => none)) s'.abs := by
  by_cases hk : PlainKey key
  rotate_left
  · exact Or.inl (by rw [checkout_odd_stops hk h])
  obtain ⟨g, hs⟩ := steady_reachable hd
  obtain ⟨T, hF⟩ := gets_found hs hout hg hh
  refine (mid_loads (wp_stops (checkoutCmd_wp hF.opens hk hF.mdir) (mid_litter (litter_refl d)) h) (fun _ _ ⟨_, _, _, hC⟩ => hC.reach) hn).imp_right (Or.imp_right ?_)
  rintro ⟨e, w', u', s', ⟨v, kt, hR, hC⟩, h1, h2⟩
  exact ⟨e, v, kt, u', s', hR, hC.newNode, h1, by rw [← hC.tree]; exact h2⟩

/-- **C41.** The same for a clone, with a new working layer on the last commit of the source. -/
theorem C41_clone {d d' : Disk} (hd : Reachable E d) {cwd source target : Str} (hoff : E.Off target) (hout : E.Outside (Path.abs cwd source)) {w : OpenWs}
    (hg : Gets E d cwd source w) {u p : UID} (hh : w.ws.HeadAt w.tree u p) (h : Stops E f (cloneCmd E cwd source target) d d') {n : Str} (hn : d.space n ≠ none) :
    d'.loads n = d.loads n ∨ (∃ e, d'.loads n = .err e) ∨ n = w.spaceDir ∧ ∃ u' s', ¬ w.tree.abs.Has u' ∧ d'.loads n = .ok s' ∧
      ComesBack (w.tree.abs.add (some p) u' (fun _ => none) (fun _ => none)) s'.abs := by
  obtain ⟨g, hs⟩ := steady_reachable hd
  obtain ⟨T, hF⟩ := gets_found hs hout hg hh
  refine (mid_loads (wp_stops (cloneCmd_wp hF.opens hoff) (mid_litter (litter_refl d)) h) (fun _ _ hC => hC.reach) hn).imp_right (Or.imp_right ?_)
  rintro ⟨e, w', u', s', hC, h1, h2⟩
  exact ⟨e, u', s', hC.newNode, h1, by rw [← hC.tree]; exact h2⟩

/-- **C41.** The same for changes to branches and tags: the tree has the first few of the changes. -/
theorem C41_edit {d d' : Disk} (hd : Reachable E d) {cwd : Str} {es : List Edit} (hout : E.Outside (Path.abs cwd (lit "."))) {w : OpenWs}
    (hg : Gets E d cwd (lit ".") w) {u p : UID} (hh : w.ws.HeadAt w.tree u p) (h : Stops E f (editCmd E cwd es) d d') {n : Str} (hn : d.space n ≠ none) :
    d'.loads n = d.loads n ∨ (∃ e, d'.loads n = .err e) ∨ n = w.spaceDir ∧ ∃ es1 a s', es1 <+: es ∧ EditsAll w.ws p es1 w.tree.abs a ∧
      d'.loads n = .ok s' ∧ ComesBack a s'.abs := by
  obtain ⟨g, hs⟩ := steady_reachable hd
  obtain ⟨T, hF⟩ := gets_found hs hout hg hh
  obtain ⟨es0, hpre, hes, h⟩ := edit_prefix_stops h
  rcases wp_stops (editCmd_wp hF.opens hes) (Or.inl rfl) h with rfl | ⟨es1, T', b, q, _, h1, h2, h3, h4, h5, rfl⟩
  · exact Or.inl rfl
  · by_cases hd : n = w.spaceDir
    · subst hd
      have hl : (d.setSpace w.spaceDir (some (some q))).loads w.spaceDir = spaceLoad (.ok q) := by simp only [Disk.loads, Disk.setSpace, upd_self]
      rw [hl]
      rcases loads_prefix h2 h4 h5 with e | ⟨s', e1, e2⟩
      · exact Or.inr (Or.inl e)
      · exact Or.inr (Or.inr ⟨rfl, es1, _, s', h1.trans hpre, h3, e1, e2⟩)
    · exact Or.inl (loads_congr (upd_ne _ _ hd))

/-- **C41.** `init` that is killed leaves every space that there was alone. -/
theorem C41_init {d d' : Disk} {path branch : Str} (hoff : E.Off path) (h : Stops E f (initCmd E path branch) d d') {n : Str} (hn : d.space n ≠ none) :
    d'.loads n = d.loads n := by
  rcases wp_stops (initCmd_wp hoff) (Or.inl (litter_refl d)) h with hL | ⟨dir, h1, hM⟩
  · exact loads_congr (litter_space_eq hL hn)
  · exact loads_congr (hM.space n (by rintro rfl; exact hn h1) hn)

/-- **C41.** In a path that does not open, a command changes nothing. -/
theorem C41_closed {α : Type} {d d' : Disk} (hd : Reachable E d) {cwd path : Str} (hout : E.Outside (Path.abs cwd path))
    (hno : ∀ w, ¬ Gets E d cwd path w) {k : OpenWs → M α} (h : Stops E f (M.bind (getWorkspace E cwd path) k) d d') : d' = d := by
  obtain ⟨g, hs⟩ := steady_reachable hd
  rcases stops_split h with ⟨w, d1, h1, _⟩ | h1
  · obtain ⟨rfl, ⟨w', _, u, p, ho, _⟩ | ⟨h2, _⟩⟩ := opens_or_not hs hout h1
    · exact absurd (gets_of_opens ho) (hno w')
    · exact absurd rfl (h2 w)
  · exact onlyReads_stops (onlyReads_getWorkspace E cwd path) h1

/-- **C41.** If no write is torn and the mount is not busy, killing a commit at any moment changes no layer that there was. -/
theorem C41_content {d d' : Disk} (hd : Reachable E d) (hb : f.busy = false) (hio : f.io = false) {cwd : Str} (hout : E.Outside (Path.abs cwd (lit "."))) {w : OpenWs}
    (hg : Gets E d cwd (lit ".") w) {u p : UID} (hh : w.ws.HeadAt w.tree u p) {ci : CommitInfo} (h : Stops E f (commitCmd E cwd ci) d d') {v : UID}
    (hv : d.layer v ≠ none) : d'.layer v = d.layer v := by
  obtain ⟨g, hs⟩ := steady_reachable hd
  obtain ⟨T, hF⟩ := gets_found hs hout hg hh
  refine (wp_stops (commitCmd_wp hF.opens hF.mdir) (mid_litter (litter_refl d)) h).layer v hv ?_
  rintro ⟨h1, _⟩
  simp [hb, hio] at h1

theorem exec_ask_inv {c : Cmd} {x : c.Ans} {d d' : Disk} (h : Exec E f (M.ask c) d (.ok x) d') : Step E f c d x d' := by
  unfold M.ask at h
  cases h with
  | op hs h => cases h; exact hs

theorem exec_need_inv {b : Bool} {e : CErr} {x : Unit} {d d' : Disk} (h : Exec E f (M.need b e) d (.ok x) d') : b = true ∧ d' = d := by
  unfold M.need at h
  cases b with
  | true => cases h; exact ⟨rfl, rfl⟩
  | false => cases h

/-- What opening a workspace has read. -/
theorem gets_reads {d : Disk} {cwd path : Str} {w : OpenWs} (hout : E.Outside (Path.abs cwd path)) (hg : Gets E d cwd path w) :
    mountIDOf E.root cwd path (d.user (Path.abs cwd path)).target = .ok w.mount.id ∧
    (∃ raw i, d.info w.mount.id.base32 = some raw ∧ unmarshalInfo raw = some i ∧ i.spaceID = w.spaceDir ∧ ∃ h, UID.decodeHex i.head = .ok h ∧ w.tree.get h = some w.ws.head) ∧ d.loads w.spaceDir = .ok w.tree := by
  unfold Gets getWorkspace at hg
  obtain ⟨l, d1, h1, h2⟩ := exec_ok_inv hg
  obtain ⟨rfl, hl⟩ := wpm_exec_ok (linkOf_wp (off_of_outside hout)) h1
  have hl : l = (d1.user (Path.abs cwd path)).target := by
    rcases hl with hl | hl
    · exact hl
    · exact absurd hl.1 (by decide)
  subst hl
  obtain ⟨m, d2, h3, h4⟩ := exec_ok_inv h2
  have hm := exec_lift_inv h3
  have hd2 : d2 = d1 := by rw [hm] at h3; cases h3; rfl
  subst hd2
  obtain ⟨i, d3, h5, h6⟩ := exec_ok_inv h4
  unfold loadInfo at h5
  obtain ⟨a, d4, h7, h8⟩ := exec_ok_inv h5
  obtain ⟨rfl, h7⟩ := exec_ask_inv h7
  cases a with
  | notExist => cases h8
  | failed b => cases h8
  | ok raw =>
    simp only at h7 h8
    have hi : unmarshalInfo raw = some i ∧ d3 = d4 := by
      cases hu : unmarshalInfo raw with
      | none => rw [hu] at h8; cases h8
      | some i' => rw [hu] at h8; cases h8; exact ⟨rfl, rfl⟩
    obtain ⟨hi, rfl⟩ := hi
    obtain ⟨wid, d5, h9, h10⟩ := exec_ok_inv h6
    have e5 : d5 = d3 := by rw [exec_lift_inv h9] at h9; cases h9; rfl
    subst e5
    obtain ⟨sid, d6, h11, h12⟩ := exec_ok_inv h10
    have e6 : d6 = d5 := by rw [exec_lift_inv h11] at h11; cases h11; rfl
    subst e6
    obtain ⟨rr, d7, h13, h14⟩ := exec_ok_inv h12
    obtain ⟨rfl, h13⟩ := exec_ask_inv h13
    obtain ⟨s, d8, h15, h16⟩ := exec_ok_inv h14
    have hs := exec_lift_inv h15
    obtain ⟨hd, d9, h17, h18⟩ := exec_ok_inv h16
    have hr : d7.loads i.spaceID = .ok s := by
      unfold Disk.loads
      cases rr with
      | ok b => simp only at h13; rw [h13]; exact hs
      | notExist => rcases h13 with h13 | h13 <;> rw [h13] <;> exact hs
      | failed b => exact absurd h13.1 (by decide)
    cases hx : s.get hd with
    | none => simp only [hx] at h18; cases h18
    | some r =>
      simp only [hx] at h18
      cases h18
      exact ⟨hm, ⟨raw, i, h7, hi, rfl, hd, exec_lift_inv h17, hx⟩, hr⟩

/-- Two paths that open have the same space if they name the same one. -/
theorem gets_no_tree {d d2 : Disk} {cwd path : Str} {w : OpenWs} (hout : E.Outside (Path.abs cwd path)) (hg : Gets E d cwd path w) (hu : d2.user = d.user)
    (hi : d2.info = d.info) {e : SpaceErr} (hl : d2.loads w.spaceDir = .err e) (w2 : OpenWs) : ¬ Gets E d2 cwd path w2 := by
  intro hg2
  obtain ⟨a1, ⟨raw, i, a2, a3, a4, _⟩, _⟩ := gets_reads hout hg
  obtain ⟨b1, ⟨raw2, i2, b2, b3, b4, _⟩, b5⟩ := gets_reads hout hg2
  rw [hu, a1, Res.ok.injEq] at b1
  rw [hi, ← b1, a2] at b2
  cases b2
  rw [a3] at b3
  cases b3
  rw [← b4, a4, hl] at b5
  cases b5

/-- Where a change to a branch or tag can be killed. -/
theorem truncated_stop {d d1 : Disk} (hd : Reachable E d) {cwd : Str} (hout : E.Outside (Path.abs cwd (lit "."))) {w : OpenWs}
    (hg : Gets E d cwd (lit ".") w) {e : Edit} {s : TS} (he : Exec E Faults.none (editCmd E cwd [e]) d (.ok s) d1) :
    Stops E Faults.none (editCmd E cwd [e]) d (d.setSpace w.spaceDir (some (some []))) := by
  obtain ⟨g, hs⟩ := steady_reachable hd
  obtain ⟨u, p, T, hF⟩ := found_of_gets hs hout hg
  unfold editCmd at he ⊢
  obtain ⟨w0, d3, h1, h2⟩ := exec_ok_inv he
  obtain ⟨rfl, rfl⟩ := wpm_exec_ok (getWorkspace_wp hF.opens) h1
  simp only [editAll] at h2
  obtain ⟨s', d4, h3, h4⟩ := exec_ok_inv h2
  obtain ⟨_, d5, h5, _⟩ := exec_ok_inv h4
  have e4 : d4 = d3 := by rw [exec_lift_inv h3] at h3; cases h3; rfl
  subst e4
  unfold spaceSave at h5
  obtain ⟨b, d6, h6, h7⟩ := exec_ok_inv h5
  obtain ⟨ok, d7, h8, h9⟩ := exec_ok_inv h7
  obtain ⟨_, d8, h10, _⟩ := exec_ok_inv h9
  obtain ⟨rfl, h6'⟩ := exec_ask_inv h6
  have h8' := exec_ask_inv h8
  obtain ⟨rfl, rfl⟩ := exec_need_inv h10
  rcases h8' with ⟨_, _, rfl⟩ | ⟨h, _⟩
  · refine stops_trans h1 ?_
    simp only [editAll]
    refine stops_trans h3 ?_
    unfold spaceSave
    have key : Stops E Faults.none (M.bind (M.ask (.dump s')) fun b => M.bind (M.ask (.truncTree w0.spaceDir)) fun ok =>
        M.bind (M.need ok .saveTree) fun _ => M.bind (M.ask (.writeTree w0.spaceDir b)) fun ok => M.need ok .saveTree) d6 (d6.setSpace w0.spaceDir (some (some []))) :=
      stops_trans h6 (stops_trans h8 (.here _ _))
    exact stops_bind key
  · cases h

/-- **C41, violated for the stronger wish.** Whenever a change to a branch or tag succeeds, it could have been killed so that
the tree of the whole space is lost: no workspace of the space opens any more. No call fails for that. -/
theorem C41_violated_truncated {d d1 : Disk} (hd : Reachable E d) {cwd : Str} (hout : E.Outside (Path.abs cwd (lit "."))) {w : OpenWs}
    (hg : Gets E d cwd (lit ".") w) {e : Edit} {s : TS} (he : Exec E Faults.none (editCmd E cwd [e]) d (.ok s) d1) :
    ∃ d2, Stops E Faults.none (editCmd E cwd [e]) d d2 ∧ ∀ cwd' path' w', E.Outside (Path.abs cwd' path') → Gets E d cwd' path' w' → w'.spaceDir = w.spaceDir →
      ∀ w2, ¬ Gets E d2 cwd' path' w2 := by
  refine ⟨_, truncated_stop hd hout hg he, fun cwd' path' w' ho' hg' hsp w2 => ?_⟩
  refine gets_no_tree (d2 := d.setSpace w.spaceDir (some (some []))) (e := .unmarshal) ho' hg' rfl rfl ?_ w2
  simp only [Disk.loads, hsp, Disk.setSpace, upd_self]
  decide

end
end Verif
