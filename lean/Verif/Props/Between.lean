import Verif.Props.Killed
/-!
# Where a killed commit or checkout leaves the workspace (C85)

A command that moves a workspace to a new layer saves the tree, writes a new record, mounts, replaces the link and removes the old mount. Here: what the path of the
workspace leads to if this ends anywhere in between, because the command is killed or because a call fails.
-/
set_option autoImplicit false
namespace Verif
open M TS Json

section
variable {E : Env} {f : Faults}

/-! ## Opening, file by file -/

/-- The files that opening reads. -/
theorem gets_of_files {d : Disk} {cwd path : Str} {w : OpenWs} {u : UID} {b : Str} {i : WsInfo}
    (hl : ∃ t, d.user (Path.abs cwd path) = .link t ∧ mountIDOf E.root cwd path (some t) = .ok w.mount.id) (hp : w.ws.path = Path.abs cwd path)
    (hi : d.info w.mount.id.base32 = some (marshalInfo E.sh i) ∧ i.id = w.ws.id.base32 ∧ i.spaceID = w.spaceID.base32 ∧
      i.mountID = w.mount.id.base32 ∧ i.head = u.hex ∧ sanitize i.branch = w.ws.branch)
    (hm : w.mount = ⟨w.mount.id, w.mount.id.base32, none⟩) (hdir : w.spaceDir = w.spaceID.base32) (hb : d.space w.spaceDir = some (some b))
    (ht : spaceLoad (.ok b) = .ok w.tree) (hh : w.tree.get u = some w.ws.head) : Gets E d cwd path w := by
  obtain ⟨t, e1, e2⟩ := hl
  obtain ⟨i1, i2, i3, i4, i5, i6⟩ := hi
  have key : Exec E Faults.none (getWorkspace E cwd path) d (.ok ⟨w.tree, w.spaceID, w.spaceID.base32, ⟨w.mount.id, w.mount.id.base32, none⟩, ⟨w.ws.id, Path.abs cwd path, w.ws.head, w.ws.branch⟩⟩) d := by
    unfold getWorkspace
    refine exec_ok (exec_linkOf e1) (exec_ok (exec_lift e2) (exec_ok (d1 := d) (a := ⟨sanitize i.id, sanitize i.path, sanitize i.head, sanitize i.spaceID, sanitize i.mountID, sanitize i.branch⟩) ?_ ?_))
    · exact exec_ok (a := .ok (marshalInfo E.sh i)) (exec_ask ⟨rfl, i1⟩) (exec_lift (by rw [C17_info_roundtrip]))
    · simp only [i2, i3, i4, i5, i6, sanitize_base32, sanitize_hex]
      refine exec_ok (exec_lift (C02_base32_roundtrip _)) (exec_ok (exec_lift (C02_base32_roundtrip _)) (exec_ok (d1 := d) (a := .ok b) (exec_ask ⟨rfl, ?_⟩) ?_))
      · show d.space (sanitize i.spaceID) = some (some b)
        rw [i3, sanitize_base32, ← hdir]; exact hb
      · refine exec_ok (exec_lift ht) (exec_ok (exec_lift (C01_hex_roundtrip u)) ?_)
        simp only [hh]
        exact .ret _ _
  have hw : w = ⟨w.tree, w.spaceID, w.spaceID.base32, ⟨w.mount.id, w.mount.id.base32, none⟩, ⟨w.ws.id, Path.abs cwd path, w.ws.head, w.ws.branch⟩⟩ := by
    obtain ⟨tr, si, sd, mo, ⟨a1, a2, a3, a4⟩⟩ := w
    simp only at hm hdir hp
    subst hdir hp
    congr
  rw [Gets, hw]
  exact key

/-! ## What is claimed -/

/-- The workspace `w` is where it was: the path leads to its old mount, which shows what it showed. -/
def Stays (E : Env) (d d' : Disk) (cwd : Str) (w w1 : OpenWs) (u p : UID) : Prop :=
  Gets E d' cwd (lit ".") w1 ∧ SameWs w w1 ∧ w1.mount = w.mount ∧ w1.ws.HeadAt w1.tree u p ∧ d'.mnt w.mount.id.base32 = d.mnt w.mount.id.base32 ∧ d'.lists w1 = d.lists w

/-- The workspace `w` has gone on to the new working layer `u'`, on `q`: that layer is mounted, and the path leads there, or will as soon as the missing link to the mount
is put at the path. Unless a mount was busy or a call failed, the mount shows the files of `q`. -/
def GoesOn (E : Env) (f : Faults) (d d' : Disk) (cwd : Str) (w w1 : OpenWs) (u' q : UID) : Prop :=
  (Gets E d' cwd (lit ".") w1 ∨ d'.user w.ws.path = .none ∧ Gets E (d'.setUser w.ws.path (.link (E.mountPath w1.mount.id.base32))) cwd (lit ".") w1) ∧
  w1.ws.id = w.ws.id ∧ w1.spaceID = w.spaceID ∧ w1.mount.id ≠ w.mount.id ∧ w1.ws.HeadAt w1.tree u' q ∧ d'.Mounted w1 ∧
  (f.busy = false → f.io = false → ∃ ls, w1.tree.abs.Path q ls ∧ d'.lists w1 = files (ls.map d.content))

/-! ## Proof -/

/-- What such a command saves. -/
structure Goes (w : OpenWs) (u p : UID) (w' : OpenWs) (u' q : UID) : Prop where
  reach : Reach w'.tree
  below : Below w'.tree.abs u p
  head : w'.ws.HeadAt w'.tree u' q
  id : w'.ws.id = w.ws.id
  path : w'.ws.path = w.ws.path
  spaceID : w'.spaceID = w.spaceID
  spaceDir : w'.spaceDir = w.spaceDir
  old : ∃ ls, w.tree.abs.Path q ls ∧ w'.tree.abs.Path q ls

theorem path_back {a b : ATree} (hc : ComesBack a b) {u : UID} {ls : List UID} (h : a.Path u ls) : b.Path u ls := by
  induction h with
  | root h1 h2 => obtain ⟨n', e1, e2, _⟩ := hc.node _ _ h1; exact .root e1 (e2.trans h2)
  | step h1 h2 _ ih => obtain ⟨n', e1, e2, _⟩ := hc.node _ _ h1; exact .step e1 (e2.trans h2) ih

theorem below_ne {s : TS} (hr : Reach s) {u p : UID} (h : Below s.abs u p) : u ≠ p := by
  rintro rfl
  obtain ⟨n, hn, hp⟩ := h
  obtain ⟨ls, hls⟩ := rooted_has_path hr ⟨n, hn⟩
  have := congrArg List.length (Ws.path_unique hls (.step hn hp hls))
  simp at this

theorem head_back {s s' : TS} (hr : Reach s') (hc : ComesBack s.abs s'.abs) {u p : UID} (hb : Below s.abs u p) : ∃ r, s'.get u = some r ∧ Below s'.abs u p := by
  obtain ⟨n, h1, h2⟩ := hb
  obtain ⟨n', e1, e2, _⟩ := hc.node u n h1
  obtain ⟨r, hr'⟩ := (abs_has_iff_get (wf_of_reach hr) u).1 ⟨n', e1⟩
  exact ⟨r, hr', n', e1, by rw [e2]; exact h2⟩

/-- The new record, tree and mount are there, and the link. -/
theorem goes_on {d d2 : Disk} {cwd : Str} {w w' : OpenWs} {u p u' q : UID} {b : Str} (hout : Opens E d cwd (lit ".") w u p) (hG : Goes w u p w' u' q)
    (hb : SavesAs E.sh w'.tree b) (hsp : d2.space w.spaceDir = some (some b)) (hi : d2.info w'.mount.id.base32 = some (marshalInfo E.sh (infoOf w' u')))
    (hu : d2.user w.ws.path = .link (E.mountPath w'.mount.id.base32)) (hl : ∀ e, d2.loads w.spaceDir ≠ .err e) :
    ∃ w1, Gets E d2 cwd (lit ".") w1 ∧ w1.ws.id = w.ws.id ∧ w1.spaceID = w.spaceID ∧ w1.mount.id = w'.mount.id ∧ w1.ws.branch = sanitize w'.ws.branch ∧
      w1.ws.HeadAt w1.tree u' q ∧ ComesBack w'.tree.abs w1.tree.abs := by
  by_cases hS : w'.tree.abs.Shallow
  · obtain ⟨s', k1, k2, k3⟩ := (load_saved hG.reach hb).1 hS
    obtain ⟨r, h1, h2⟩ := head_back k2 k3 hG.head.2
    refine ⟨⟨s', w.spaceID, w.spaceDir, ⟨w'.mount.id, w'.mount.id.base32, none⟩, ⟨w.ws.id, w.ws.path, r, sanitize w'.ws.branch⟩⟩,
      gets_of_files (u := u') (i := infoOf w' u') (b := b) ⟨_, by rw [← hout.path]; exact hu, leads_mountPath _ _ _⟩ hout.path ⟨hi, ?_, ?_, rfl, rfl, rfl⟩ rfl hout.dir hsp k1 h1,
      rfl, rfl, rfl, rfl, ⟨h1, h2⟩, k3⟩
    · show w'.ws.id.base32 = _; rw [hG.id]
    · show w'.spaceID.base32 = _; rw [hG.spaceID]
  · have := (load_saved hG.reach hb).2 hS
    exact absurd (show d2.loads w.spaceDir = _ by unfold Disk.loads; rw [hsp]; exact this) (hl _)

/-- The new layer `u'` is blank and all layers are as they were. -/
def Unspoilt (d d' : Disk) (u' : UID) : Prop := (∃ c, Blank c ∧ d'.layer u' = some (some c)) ∧ ∀ v, d.layer v ≠ none → d'.layer v = d.layer v

/-- The half-way disks of such a command, before and after the link has been replaced. -/
def Half (E : Env) (f : Faults) (N : OpenWs → UID → Prop) (w : OpenWs) (d d' : Disk) : Prop :=
  Mid E N w.spaceDir w.ws.path (fun _ => False) (fun _ => False) d d' ∨
  ∃ w' u' b, N w' u' ∧ SavesAs E.sh w'.tree b ∧ d'.space w.spaceDir = some (some b) ∧ d.mdir w'.mount.id.base32 = none ∧
    d'.info w'.mount.id.base32 = some (marshalInfo E.sh (infoOf w' u')) ∧ d'.user w.ws.path = .link (E.mountPath w'.mount.id.base32) ∧
    ∃ ls, d'.mnt w'.mount.id.base32 = some ⟨u', ls⟩ ∧ w'.tree.abs.Path u' (u' :: ls) ∧ (f.busy = false → f.io = false → Unspoilt d d' u')

theorem half_placed {N : OpenWs → UID → Prop} {w w' : OpenWs} {u' : UID} {ls : List UID} {d d1 d' : Disk} (hN : N w' u') (hP : Placed E d d1 w' w'.mount.id u' ls)
    (hdir : w'.spaceDir = w.spaceDir) (hpath : w'.ws.path = w.ws.path) (hmd : d.mdir w.mount.id.base32 ≠ none)
    (hpth : w'.tree.abs.Path u' (u' :: ls)) (hr : Removing f w.mount.id.base32 d1 d') :
    Half E f N w d d' := by
  have hne : w'.mount.id.base32 ≠ w.mount.id.base32 := by intro e; rw [← e] at hmd; exact hmd hP.newMdir
  obtain ⟨b, hb, hsp⟩ := hP.space
  refine Or.inr ⟨w', u', b, hN, hb, ?_, hP.newMdir, ?_, ?_, ?_⟩
  · rw [hr.space, hsp, hdir]; exact upd_self _ _ _
  · rw [hr.info _ hne, hP.info]; exact upd_self _ _ _
  · rw [hr.user, hP.user, hpath]; exact upd_self _ _ _
  · refine ⟨ls, by rw [hr.mnt _ hne, hP.mnt, upd_self], hpth, fun h1 h2 => ?_⟩
    have hl : d'.layer = upd d.layer u' (some (some (Content.empty.chown E.owner))) := by
      rcases hr.layer with e | ⟨h, _⟩
      · rw [e, hP.layer]
      · simp [h1, h2] at h
    refine ⟨⟨_, blank_chown E.owner, by rw [hl, upd_self]⟩, fun v hv => ?_⟩
    rw [hl, upd_ne _ _ (by rintro rfl; exact hv hP.newLayer)]

theorem half_open {N : OpenWs → UID → Prop} {d d' : Disk} {g : Str → Option TS} (hs : Steady E d g) {cwd : Str} {w : OpenWs} {u p : UID} {T : TS} (hF : Found E d g cwd (lit ".") w u p T)
    (hN : ∀ w' u', N w' u' → ∃ q, Goes w u p w' u' q) (h : Half E f N w d d') :
    (∃ e, d'.loads w.spaceDir = .err e) ∨ Stays E d d' cwd w w u p ∨
    (∃ w1 w' u', N w' u' ∧ Stays E d d' cwd w w1 u p ∧ ComesBack w'.tree.abs w1.tree.abs) ∨
    ∃ w1 w' u' q, N w' u' ∧ GoesOn E f d d' cwd w w1 u' q ∧ w1.ws.branch = sanitize w'.ws.branch ∧ ComesBack w'.tree.abs w1.tree.abs := by
  have ho := hF.opens
  by_cases hl : ∃ e, d'.loads w.spaceDir = .err e
  · exact Or.inl hl
  have hl : ∀ e, d'.loads w.spaceDir ≠ .err e := fun e he => hl ⟨e, he⟩
  refine Or.inr ?_
  have new : ∀ w' u' b, N w' u' → SavesAs E.sh w'.tree b → d'.space w.spaceDir = some (some b) → d.mdir w'.mount.id.base32 = none →
      d'.info w'.mount.id.base32 = some (marshalInfo E.sh (infoOf w' u')) →
      (∃ ls, d'.mnt w'.mount.id.base32 = some ⟨u', ls⟩ ∧ w'.tree.abs.Path u' (u' :: ls) ∧ (f.busy = false → f.io = false → Unspoilt d d' u')) →
      (d'.user w.ws.path = .none ∨ d'.user w.ws.path = .link (E.mountPath w'.mount.id.base32)) →
      ∃ w1 w' u' q, N w' u' ∧ GoesOn E f d d' cwd w w1 u' q ∧ w1.ws.branch = sanitize w'.ws.branch ∧ ComesBack w'.tree.abs w1.tree.abs := by
    intro w' u' b h1 h2 h3 h4 h5 h6 h7
    obtain ⟨q, hG⟩ := hN w' u' h1
    have hne : w'.mount.id ≠ w.mount.id := by intro e; rw [e] at h4; exact hF.mdir h4
    obtain ⟨ls, m1, m2, m3⟩ := h6
    have hls : w.tree.abs.Path q ls ∧ w'.tree.abs.Path q ls := by
      obtain ⟨ls0, o1, o2⟩ := hG.old
      obtain ⟨_, n, hn, hp⟩ := hG.head
      obtain rfl : ls = ls0 := (List.cons.inj (Ws.path_unique m2 (.step hn hp o2))).2
      exact ⟨o1, o2⟩
    have hshow : ∀ w1 : OpenWs, w1.mount.id = w'.mount.id → ComesBack w'.tree.abs w1.tree.abs →
        d'.Mounted w1 ∧ (f.busy = false → f.io = false → ∃ ls, w1.tree.abs.Path q ls ∧ d'.lists w1 = files (ls.map d.content)) := by
      intro w1 e hc
      refine ⟨by rw [Disk.Mounted, e, m1]; simp, fun f1 f2 => ⟨ls, path_back hc hls.2, ?_⟩⟩
      obtain ⟨⟨c, c1, c2⟩, hk⟩ := m3 f1 f2
      rw [lists_mounted (w := w1) (m := ⟨u', ls⟩) (by rw [e]; exact m1), List.map_cons, show d'.content u' = c by simp [Disk.content, c2], files_blank c1]
      congr 1
      refine List.map_congr_left fun v hv => ?_
      obtain ⟨c, hc⟩ := path_stored ho hls.1 v hv
      simp only [Disk.content, hk v (by rw [hc]; simp)]
    rcases h7 with h7 | h7
    · obtain ⟨w1, a1, a2, a3, a4, a5, a6, a7⟩ := goes_on (d2 := d'.setUser w.ws.path (.link (E.mountPath w'.mount.id.base32))) ho hG h2 h3 h5 (upd_self _ _ _) hl
      exact ⟨w1, w', u', q, h1, ⟨Or.inr ⟨h7, by rw [a4]; exact a1⟩, a2, a3, by rw [a4]; exact hne, a6, hshow w1 a4 a7⟩, a5, a7⟩
    · obtain ⟨w1, a1, a2, a3, a4, a5, a6, a7⟩ := goes_on (d2 := d') ho hG h2 h3 h5 h7 hl
      exact ⟨w1, w', u', q, h1, ⟨Or.inl a1, a2, a3, by rw [a4]; exact hne, a6, hshow w1 a4 a7⟩, a5, a7⟩
  rcases h with hM | ⟨w', u', b, h1, h2, h3, h4, h5, h6, h7⟩
  rotate_left
  · exact Or.inr (Or.inr (new w' u' b h1 h2 h3 h4 h5 h7 (Or.inr h6)))
  rcases hM.entry with hu | ⟨_, w', u', b, mt, h1, h2, h3, h4, h5, h6, h7, h8, h9, h10, h11, h12⟩
  rotate_left
  · exact Or.inr (Or.inr (new w' u' b h1 h2 h3 h4 h6 ⟨mt.lowers, by rw [h7, ← h9], h11, fun _ _ => ⟨h12.resolve_left id, fun v hv => hM.layer v hv (fun x => x)⟩⟩ h8))
  obtain ⟨e1, e2, e3⟩ := hM.mounts _ hF.mdir (fun x => x)
  have hlist : ∀ w1 : OpenWs, w1.mount = w.mount → d'.lists w1 = d.lists w := by
    intro w1 hw1
    have : d.mnt w.mount.id.base32 = none ∨ ∃ m, d.mnt w.mount.id.base32 = some m := by cases d.mnt w.mount.id.base32 <;> simp
    rcases this with hm | ⟨m, hm⟩
    · funext x
      simp only [Disk.lists, Disk.shows, hw1, e3, hm, e1]
    · rw [lists_mounted (w := w1) (m := m) (by rw [hw1, e3]; exact hm), lists_mounted hm]
      obtain ⟨a1, a2⟩ := mnt_of_found hs hF hm
      congr 1
      refine List.map_congr_left fun v hv => ?_
      have hv' : d.layer v ≠ none := by
        have : d.HasDiff v := by
          rcases List.mem_cons.1 hv with rfl | hv
          · rw [a1]; obtain ⟨_, n, hn, _⟩ := ho.head; exact ho.stored _ ⟨n, hn⟩
          · exact path_stored ho a2 v hv
        obtain ⟨c, hc⟩ := this
        rw [hc]; simp
      simp only [Disk.content, hM.layer v hv' (fun x => x)]
  have hinf : ∀ w1 : OpenWs, w1.mount = w.mount → w1.ws.id = w.ws.id → w1.spaceID = w.spaceID → w1.ws.branch = w.ws.branch → ∃ i : WsInfo, d'.info w1.mount.id.base32 = some (marshalInfo E.sh i) ∧ i.id = w1.ws.id.base32 ∧
      i.spaceID = w1.spaceID.base32 ∧ i.mountID = w1.mount.id.base32 ∧ i.head = u.hex ∧ sanitize i.branch = w1.ws.branch := by
    intro w1 a1 a2 a3 a4
    rw [a1, a2, a3, a4, e2]; exact ho.info
  have hlink : ∃ t, d'.user (Path.abs cwd (lit ".")) = .link t ∧ mountIDOf E.root cwd (lit ".") (some t) = .ok w.mount.id := by
    rw [← ho.path, hu, ho.path]; exact ho.link
  rcases hM.tree with e | ⟨e, _⟩ | ⟨w', u', b, q, h1, h2, h3, h4⟩
  · obtain ⟨T', b, _, _, hb, hb'⟩ := ho.tree
    obtain ⟨i, hi⟩ := hinf w rfl rfl rfl rfl
    exact Or.inl ⟨gets_of_files hlink ho.path hi ho.mount ho.dir (by rw [e]; exact hb) hb' ho.head.1, ⟨rfl, rfl, rfl⟩, rfl, ho.head, e3, hlist w rfl⟩
  · obtain ⟨T', b, _, _, hb, _⟩ := ho.tree
    rw [e] at hb; cases hb
  · obtain ⟨q0, hG⟩ := hN w' u' h1
    have hd : d'.loads w.spaceDir = spaceLoad (.ok q) := by unfold Disk.loads; rw [h4]
    obtain ⟨q', rfl⟩ := h3
    by_cases hq : q' = []
    rotate_left
    · exact absurd (hd.trans (C18_torn_detected h2 rfl hq)) (hl _)
    subst hq
    rw [List.append_nil] at h2
    by_cases hS : w'.tree.abs.Shallow
    rotate_left
    · exact absurd (hd.trans ((load_saved hG.reach h2).2 hS)) (hl _)
    obtain ⟨s', k1, k2, k3⟩ := (load_saved hG.reach h2).1 hS
    obtain ⟨r, r1, r2⟩ := head_back k2 k3 hG.below
    let w1 : OpenWs := { w with tree := s', ws := ⟨w.ws.id, w.ws.path, r, w.ws.branch⟩ }
    obtain ⟨i, hi⟩ := hinf w1 rfl rfl rfl rfl
    exact Or.inr (Or.inl ⟨w1, w', u', h1, ⟨gets_of_files hlink ho.path hi ho.mount ho.dir h4 k1 r1, ⟨rfl, rfl, rfl⟩, rfl, ⟨r1, r2⟩, e3, hlist w1 rfl⟩, k3⟩)

theorem commit_path {w w' : OpenWs} {u u' : UID} {ci : CommitInfo} {ls : List UID} (hC : Committed w u ci w' u') (h : w.tree.abs.Path u ls) : w'.tree.abs.Path u' (u' :: ls) := by
  obtain ⟨_, n, hn, hp⟩ := hC.head
  refine .step hn hp ?_
  rw [hC.tree]
  exact extends_path (extends_commit (S := fun _ => True) trivial hC.newNode) h

theorem commit_half {d : Disk} {cwd : Str} {w : OpenWs} {u p : UID} {ci : CommitInfo} (ho : Opens E d cwd (lit ".") w u p) (hmd : d.mdir w.mount.id.base32 ≠ none) :
    wpm E f (Half E f (Committed w u ci) w d) (commitCmd E cwd ci) (fun _ _ => True) (fun _ _ => True) d := by
  unfold commitCmd
  refine wpm_bind (wpm_weaken (getWorkspace_wp ho) (fun _ h => by rw [h]; exact Or.inl (mid_litter (litter_refl d))) (fun w0 d0 h0 => ?_) fun _ _ _ => trivial)
  obtain ⟨rfl, rfl⟩ := h0
  refine commitTo_wp (k := fun w' => removeMount w0.mount >>= fun _ => Pure.pure (w0, w')) (held_of_opens ho) (fun _ h => Or.inl h) (fun _ _ _ _ _ => trivial) (fun _ _ _ _ _ _ => trivial) ?_
  intro w' u' ls d' hC hls _ _ _ hP
  exact wpm_bind (wpm_weaken (removeMount_wp (by rw [ho.mount])) (fun x hx => half_placed hC hP hC.spaceDir hC.path hmd (commit_path hC hls) hx) (fun _ _ _ => wpm_pure trivial) fun _ _ _ => trivial)

theorem checkout_half {d : Disk} {cwd key : Str} {w : OpenWs} {u p : UID} (hk : PlainKey key) (ho : Opens E d cwd (lit ".") w u p) (hmd : d.mdir w.mount.id.base32 ≠ none) :
    wpm E f (Half E f (CheckoutN w p key) w d) (checkoutCmd E cwd key) (fun _ _ => True) (fun _ _ => True) d := by
  have hr := opens_reach ho
  have hmidL : ∀ d', Litter d d' → Half E f (CheckoutN w p key) w d d' := fun _ h => Or.inl (mid_litter h)
  unfold checkoutCmd
  refine wpm_bind (wpm_weaken (getWorkspace_wp ho) (fun _ h => by rw [h]; exact hmidL _ (litter_refl d)) (fun w0 d0 h0 => ?_) fun _ _ _ => trivial)
  obtain ⟨rfl, rfl⟩ := h0
  unfold checkoutP
  have hsp : d0.space w0.spaceDir ≠ none := by
    obtain ⟨T, b, _, _, h, _⟩ := ho.tree
    rw [h]; simp
  rcases Ws.search_spec (ε := Empty) (wf_of_reach hr) ho.head hk with ⟨r0, o, kt, g1, g2, g3, g4⟩ | ⟨g1, g2⟩
  rotate_left
  · exact wpm_bind (wpm_bind (wpm_lift_ok g1 (wpm_fail trivial)))
  refine wpm_bind (wpm_bind (wpm_lift_ok g1 ?_))
  simp only [Option.bind_some, g2]
  generalize hv : o.id = v at *
  have hu : w0.tree.abs.Has v := (abs_has_iff_get (wf_of_reach hr) v).2 ⟨_, g3⟩
  refine wpm_bind (wpm_weaken (createMount_wp hr hu ho.stored) hmidL (fun q d1 h1 => ?_) fun _ _ _ => trivial)
  obtain ⟨u', ls, hm⟩ := h1
  obtain ⟨s2, mo, r⟩ := q
  simp only at hm ⊢
  have hnode : s2.abs.node u' = some ⟨some v, fun _ => none, fun _ => none⟩ := by rw [hm.abs]; simp [ATree.add]
  rw [branchAfter_eq]
  let w' : OpenWs := { w0 with tree := s2, mount := mo, ws := ⟨w0.ws.id, w0.ws.path, r, branchAfter key kt⟩ }
  have hC : CheckedOut w0 v (branchAfter key kt) w' u' :=
    ⟨hm.reach, hm.newNode, hm.abs, ⟨hm.head, _, hnode, rfl⟩, rfl, rfl, rfl, rfl, rfl⟩
  have hoff : E.Off w'.ws.path := by
    show E.Off w0.ws.path
    rw [ho.path]; exact off_of_outside ho.out
  refine finish_wp (w := w') (N := CheckoutN w0 p key) (d0 := d0) (litter_refl d0) hm ho.stored rfl hm.reach ⟨v, kt, g4, hC⟩ hC.head.1 hsp hoff hm.newMdir (newMount_path hm) (fun _ h => Or.inl h)
    (fun _ _ _ _ _ => trivial) ?_
  intro d' _ hP _
  exact wpm_bind (wpm_weaken (removeMount_wp (by rw [ho.mount])) (fun x hx => half_placed (w' := w') ⟨v, kt, g4, hC⟩ hP hC.spaceDir hC.path hmd (newMount_path hm) hx) (fun _ _ _ => wpm_pure trivial) fun _ _ _ => trivial)

/-- **C85, part.** A commit is killed at any moment, or ends with an error after any call has failed. Then the history of the space cannot be read (C41, C78); or the
path leads to the workspace as it was, with the history from before or with that in which its working layer is committed; or the workspace has gone on to a new working
layer on the commit, with the same files. In the last case, for a moment, there is nothing at the path. -/
theorem C85_commit_partial {d d' : Disk} (hd : Reachable E d) {cwd : Str} (hout : E.Outside (Path.abs cwd (lit "."))) {w : OpenWs} (hg : Gets E d cwd (lit ".") w)
    {u p : UID} (hh : w.ws.HeadAt w.tree u p) {ci : CommitInfo} (h : Stops E f (commitCmd E cwd ci) d d') :
    (∃ e, d'.loads w.spaceDir = .err e) ∨ Stays E d d' cwd w w u p ∨
    (∃ w1 u', ¬ w.tree.abs.Has u' ∧ Stays E d d' cwd w w1 u p ∧ ComesBack (w.tree.abs.commit w.ws.onBranch u u' ci.date ci.message) w1.tree.abs) ∨
    ∃ w1 u', ¬ w.tree.abs.Has u' ∧ GoesOn E f d d' cwd w w1 u' u ∧ w1.ws.branch = w.ws.branch ∧
      ComesBack (w.tree.abs.commit w.ws.onBranch u u' ci.date ci.message) w1.tree.abs ∧ (d.Mounted w → f.busy = false → f.io = false → d'.lists w1 = d.lists w) := by
  obtain ⟨g, hs⟩ := steady_reachable hd
  obtain ⟨T, hF⟩ := gets_found hs hout hg hh
  have hgoes : ∀ w' u', Committed w u ci w' u' → Goes w u p w' u' u := fun w' u' hC =>
    ⟨hC.reach, by rw [hC.tree]; exact extends_below (extends_commit (S := fun _ => True) trivial hC.newNode) hh.2, hC.head, hC.id, hC.path, hC.spaceID, hC.spaceDir, by
      obtain ⟨n, hn, _⟩ := hh.2
      obtain ⟨ls, hls⟩ := rooted_has_path (opens_reach hF.opens) ⟨n, hn⟩
      exact ⟨ls, hls, by rw [hC.tree]; exact extends_path (extends_commit (S := fun _ => True) trivial hC.newNode) hls⟩⟩
  rcases half_open hs hF (fun w' u' hC => ⟨u, hgoes w' u' hC⟩) (wp_stops (commit_half hF.opens hF.mdir) (Or.inl (mid_litter (litter_refl d))) h) with
    h1 | h1 | ⟨w1, w', u', hC, h1, h2⟩ | ⟨w1, w', u', q, hC, h1, h2, h3⟩
  · exact Or.inl h1
  · exact Or.inr (Or.inl h1)
  · exact Or.inr (Or.inr (Or.inl ⟨w1, u', hC.newNode, h1, by rw [← hC.tree]; exact h2⟩))
  · have hq : q = u := by
      obtain ⟨_, _, _, _, hq, _⟩ := h1
      exact (comesBack_below h3 hC.head.2 hq.2).symm
    subst hq
    refine Or.inr (Or.inr (Or.inr ⟨w1, u', hC.newNode, h1, ?_, by rw [← hC.tree]; exact h3, fun hm f1 f2 => ?_⟩))
    rotate_left
    · obtain ⟨_, _, _, _, _, _, hx⟩ := h1
      obtain ⟨ls, hls, hl⟩ := hx f1 f2
      obtain ⟨ls0, hp0, hl0⟩ := lists_found hs hF hm
      obtain ⟨_, n, hn, hp⟩ := hh
      have h0 : w.tree.abs.Path q (q :: ls0) := .step hn hp hp0
      have : w'.tree.abs.Path q (q :: ls0) := by rw [hC.tree]; exact extends_path (extends_commit (S := fun _ => True) trivial hC.newNode) h0
      rw [hl, hl0, Ws.path_unique (comesBack_path h3 hls) this]
    obtain ⟨i, _, _, _, _, _, i6⟩ := hF.opens.info
    rw [h2, hC.branch, ← i6, sanitize_idem]

/-- **C85, part.** The same for a checkout. The new working layer is on the commit that the reference resolves to. -/
theorem C85_checkout_partial {d d' : Disk} (hd : Reachable E d) {cwd key : Str} (hout : E.Outside (Path.abs cwd (lit "."))) {w : OpenWs}
    (hg : Gets E d cwd (lit ".") w) {u p : UID} (hh : w.ws.HeadAt w.tree u p) (h : Stops E f (checkoutCmd E cwd key) d d') :
    (∃ e, d'.loads w.spaceDir = .err e) ∨ Stays E d d' cwd w w u p ∨
    ∃ v kt, Ws.Resolves w.tree.abs w.ws.id p key v kt ∧
      ((∃ w1 u', ¬ w.tree.abs.Has u' ∧ Stays E d d' cwd w w1 u p ∧ ComesBack (w.tree.abs.add (some v) u' (fun _ => none) (fun _ => none)) w1.tree.abs) ∨
      ∃ w1 u', ¬ w.tree.abs.Has u' ∧ GoesOn E f d d' cwd w w1 u' v ∧ w1.ws.branch = sanitize (branchAfter key kt) ∧
        ComesBack (w.tree.abs.add (some v) u' (fun _ => none) (fun _ => none)) w1.tree.abs) := by
  obtain ⟨g, hs⟩ := steady_reachable hd
  obtain ⟨T, hF⟩ := gets_found hs hout hg hh
  have hgoes : ∀ w' u', CheckoutN w p key w' u' → ∃ q, Goes w u p w' u' q := fun w' u' ⟨v, kt, _, hC⟩ =>
    ⟨v, hC.reach, by rw [hC.tree]; exact extends_below (extends_add (S := fun _ => True) hC.newNode) hh.2, hC.head, hC.id, hC.path, hC.spaceID, hC.spaceDir, by
      have hv : w.tree.abs.Has v := by
        obtain ⟨_, n, hn, hp⟩ := hC.head
        obtain ⟨n', hn'⟩ := (reach_rooted hC.reach).parent _ _ _ hn hp
        rw [hC.tree] at hn'
        have hne : v ≠ u' := by rintro rfl; exact below_ne hC.reach ⟨n, hn, hp⟩ rfl
        exact ⟨n', by simpa only [ATree.add, upd_ne _ _ hne] using hn'⟩
      obtain ⟨ls, hls⟩ := rooted_has_path (opens_reach hF.opens) hv
      exact ⟨ls, hls, by rw [hC.tree]; exact extends_path (extends_add (S := fun _ => True) hC.newNode) hls⟩⟩
  rcases half_open hs hF hgoes (by
      by_cases hk : PlainKey key
      · exact wp_stops (checkout_half hk hF.opens hF.mdir) (Or.inl (mid_litter (litter_refl d))) h
      · rw [checkout_odd_stops hk h]
        exact Or.inl (mid_litter (litter_refl d))) with
    h1 | h1 | ⟨w1, w', u', ⟨v, kt, hR, hC⟩, h1, h2⟩ | ⟨w1, w', u', q, ⟨v, kt, hR, hC⟩, h1, h2, h3⟩
  · exact Or.inl h1
  · exact Or.inr (Or.inl h1)
  · exact Or.inr (Or.inr ⟨v, kt, hR, Or.inl ⟨w1, u', hC.newNode, h1, by rw [← hC.tree]; exact h2⟩⟩)
  · have hq : q = v := by
      obtain ⟨_, _, _, _, hq, _⟩ := h1
      exact (comesBack_below h3 hC.head.2 hq.2).symm
    subst hq
    exact Or.inr (Or.inr ⟨q, kt, hR, Or.inr ⟨w1, u', hC.newNode, h1, by rw [h2, hC.branch], by rw [← hC.tree]; exact h3⟩⟩)

/-! ## The gap -/

/-- Expanding replaces the link in two calls. -/
theorem expand_gap {w : OpenWs} (hoff : E.Off w.ws.path) {d d' : Disk} {x : Unit} (h : Exec E f (expand E w) d (.ok x) d') :
    ∃ d1, Stops E f (expand E w) d d1 ∧ d1.user w.ws.path = .none := by
  have hno := off_not hoff
  unfold expand at h ⊢
  obtain ⟨_, d1, h1, h⟩ := exec_ok_inv h
  obtain ⟨a2, d2, h2, h⟩ := exec_ok_inv h
  obtain ⟨_, d3, h3, h⟩ := exec_ok_inv h
  obtain ⟨a4, d4, h4, h⟩ := exec_ok_inv h
  obtain ⟨_, d5, h5, h⟩ := exec_ok_inv h
  obtain ⟨a6, d6, h6, h⟩ := exec_ok_inv h
  have key : ∃ dx, Stops E f (if a6 = true then do
        need (← ask (.remove w.ws.path)) .clearPath
        need (← ask (.symlink (E.mountPath w.mount.dir) w.ws.path)) .symlink
        need (← ask (.lchown w.ws.path)) .symlink
        need (← ask (.sys .chdirBack)) .cwd
      else do
        need (← ask (.symlink (E.mountPath w.mount.dir) w.ws.path)) .symlink
        need (← ask (.lchown w.ws.path)) .symlink
        need (← ask (.sys .chdirBack)) .cwd : M Unit) d6 dx ∧ dx.user w.ws.path = .none := by
    cases a6 with
    | true =>
      obtain ⟨a7, d7, h7, h⟩ := exec_ok_inv h
      obtain ⟨_, d8, h8, h⟩ := exec_ok_inv h
      obtain ⟨rfl, rfl⟩ := exec_need_inv h8
      refine ⟨d8, stops_trans h7 (.here _ _), ?_⟩
      rcases exec_ask_inv h7 with ⟨_, ⟨_, _, rfl⟩ | ⟨h, _⟩⟩ | ⟨h, _⟩
      · exact upd_self _ _ _
      · cases h
      · exact absurd h hno
    | false =>
      obtain ⟨a7, d7, h7, h⟩ := exec_ok_inv h
      obtain ⟨_, d8, h8, h⟩ := exec_ok_inv h
      obtain ⟨rfl, rfl⟩ := exec_need_inv h8
      refine ⟨d6, .here _ _, ?_⟩
      rcases exec_ask_inv h7 with ⟨_, ⟨_, hx, _⟩ | ⟨h, _⟩⟩ | ⟨h, _⟩
      · exact hx
      · cases h
      · exact absurd h hno
  obtain ⟨dx, k1, k2⟩ := key
  exact ⟨dx, stops_trans h1 (stops_trans h2 (stops_trans h3 (stops_trans h4 (stops_trans h5 (stops_trans h6 k1))))), k2⟩

theorem saveAll_same {w w' : OpenWs} {d d' : Disk} (h : Exec E f (saveAll E w) d (.ok w') d') : w' = w := by
  unfold saveAll at h
  obtain ⟨_, d1, _, h⟩ := exec_ok_inv h
  obtain ⟨_, d2, _, h⟩ := exec_ok_inv h
  cases h
  rfl

theorem commitP_path {w w' : OpenWs} {ci : CommitInfo} {d d' : Disk} (h : Exec E f (commitP E w ci) d (.ok w') d') : w'.ws.path = w.ws.path := by
  unfold commitP at h
  cases h1 : setToNode w.tree w.ws.head ci with
  | none => simp only [h1] at h; cases h
  | some s1 =>
    cases h2 : s1.heap[w.ws.head]? with
    | none => simp only [h1, h2] at h; cases h
    | some o =>
      simp only [h1, h2] at h
      obtain ⟨_, d1, _, h⟩ := exec_ok_inv h
      obtain ⟨_, d2, _, h⟩ := exec_ok_inv h
      rw [saveAll_same h]

theorem checkoutP_path {w w' : OpenWs} {key : Str} {d d' : Disk} (h : Exec E f (checkoutP E w key) d (.ok w') d') : w'.ws.path = w.ws.path := by
  unfold checkoutP at h
  obtain ⟨a, d1, _, h⟩ := exec_ok_inv h
  cases a with
  | none => cases h
  | some nk =>
    obtain ⟨n, kt⟩ := nk
    cases h2 : n.bind (w.tree.heap[·]?) with
    | none => simp only [h2] at h; cases h
    | some o =>
      simp only [h2] at h
      obtain ⟨_, d1, _, h⟩ := exec_ok_inv h
      rw [saveAll_same h]

/-- With nothing at the path there is no workspace. -/
theorem gap_closed {d : Disk} {cwd path : Str} (hout : E.Outside (Path.abs cwd path)) (h : d.user (Path.abs cwd path) = .none) (w : OpenWs) : ¬ Gets E d cwd path w := by
  intro hg
  have h1 := (gets_reads hout hg).1
  rw [h] at h1
  obtain ⟨e, h2⟩ := leads_outside hout
  rw [show (UEnt.none : UEnt).target = none from rfl, h2] at h1
  cases h1

/-- **C85 does not hold.** Every commit that succeeds can be killed so that there is nothing at the path of the workspace any more, and opening it fails. -/
theorem C85_violated_commit {d d' : Disk} (hd : Reachable E d) {cwd : Str} (hout : E.Outside (Path.abs cwd (lit "."))) {w : OpenWs} (hg : Gets E d cwd (lit ".") w)
    {u p : UID} (hh : w.ws.HeadAt w.tree u p) {ci : CommitInfo} {r : OpenWs × OpenWs} (he : Exec E f (commitCmd E cwd ci) d (.ok r) d') :
    ∃ d1, Stops E f (commitCmd E cwd ci) d d1 ∧ d1.user w.ws.path = .none ∧ ∀ w1, ¬ Gets E d1 cwd (lit ".") w1 := by
  obtain ⟨g, hs⟩ := steady_reachable hd
  obtain ⟨T, hF⟩ := gets_found hs hout hg hh
  have hp := hF.opens.path
  unfold commitCmd at he ⊢
  obtain ⟨w0, d1, h1, he1⟩ := exec_ok_inv he
  obtain ⟨rfl, rfl⟩ := wpm_exec_ok (getWorkspace_wp hF.opens) h1
  obtain ⟨w', d2, h2, he2⟩ := exec_ok_inv he1
  obtain ⟨_, d3, h3, _⟩ := exec_ok_inv he2
  have hw := commitP_path h2
  obtain ⟨dx, k1, k2⟩ := expand_gap (by rw [hw, hp]; exact off_of_outside hout) h3
  rw [hw] at k2
  exact ⟨dx, stops_trans h1 (stops_trans h2 (stops_bind k1)), k2, gap_closed hout (by rw [← hp]; exact k2)⟩

/-- **C85 does not hold.** So can every checkout that succeeds. -/
theorem C85_violated_checkout {d d' : Disk} (hd : Reachable E d) {cwd key : Str} (hout : E.Outside (Path.abs cwd (lit "."))) {w : OpenWs}
    (hg : Gets E d cwd (lit ".") w) {u p : UID} (hh : w.ws.HeadAt w.tree u p) {r : OpenWs × OpenWs} (he : Exec E f (checkoutCmd E cwd key) d (.ok r) d') :
    ∃ d1, Stops E f (checkoutCmd E cwd key) d d1 ∧ d1.user w.ws.path = .none ∧ ∀ w1, ¬ Gets E d1 cwd (lit ".") w1 := by
  obtain ⟨g, hs⟩ := steady_reachable hd
  obtain ⟨T, hF⟩ := gets_found hs hout hg hh
  have hp := hF.opens.path
  unfold checkoutCmd at he ⊢
  obtain ⟨w0, d1, h1, he1⟩ := exec_ok_inv he
  obtain ⟨rfl, rfl⟩ := wpm_exec_ok (getWorkspace_wp hF.opens) h1
  obtain ⟨w', d2, h2, he2⟩ := exec_ok_inv he1
  obtain ⟨_, d3, h3, _⟩ := exec_ok_inv he2
  have hw := checkoutP_path h2
  obtain ⟨dx, k1, k2⟩ := expand_gap (by rw [hw, hp]; exact off_of_outside hout) h3
  rw [hw] at k2
  exact ⟨dx, stops_trans h1 (stops_trans h2 (stops_bind k1)), k2, gap_closed hout (by rw [← hp]; exact k2)⟩

end
end Verif
