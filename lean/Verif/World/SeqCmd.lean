import Verif.World.SeqIo
/-!
# Saving and expanding a new mount, run alone
-/
set_option autoImplicit false
namespace Verif
open M TS Json

section
variable {E : Env} {f : Faults}

/-- The disks that a command which works on the space `dir` and the workspace path `path` can leave, wherever it stops.
`N` says which workspaces with which head it may save, `old` which mounts it may remove, `hurt` which layers may be damaged. -/
structure Mid (E : Env) (N : OpenWs → UID → Prop) (dir path : Str) (old : Str → Prop) (hurt : UID → Prop) (d d' : Disk) : Prop where
  layer : ∀ v, d.layer v ≠ none → ¬ hurt v → d'.layer v = d.layer v
  space : ∀ n, n ≠ dir → d.space n ≠ none → d'.space n = d.space n
  tree : d'.space dir = d.space dir ∨ (d.space dir = none ∧ d'.space dir = some none) ∨
    ∃ w u b p, N w u ∧ SavesAs E.sh w.tree b ∧ p <+: b ∧ d'.space dir = some (some p)
  mounts : ∀ n, d.mdir n ≠ none → ¬ old n → d'.mdir n = d.mdir n ∧ d'.info n = d.info n ∧ d'.mnt n = d.mnt n
  user : ∀ p, p ≠ path → d'.user p = d.user p
  entry : d'.user path = d.user path ∨ d.user path ≠ .dir ∧
    ∃ w u b mt, N w u ∧ SavesAs E.sh w.tree b ∧ d'.space dir = some (some b) ∧ d.mdir w.mount.id.base32 = none ∧ w.mount.layers = some mt ∧
      d'.info w.mount.id.base32 = some (marshalInfo E.sh (infoOf w u)) ∧ d'.mnt w.mount.id.base32 = some mt ∧
      (d'.user path = .none ∨ d'.user path = .link (E.mountPath w.mount.id.base32)) ∧
      mt.upper = u ∧ E.Fits mt.lowers.length ∧ w.tree.abs.Path u (u :: mt.lowers) ∧ (hurt u ∨ ∃ c, Blank c ∧ d'.layer u = some (some c))

theorem mid_mono {N N' : OpenWs → UID → Prop} {dir path : Str} {old old' : Str → Prop} {hurt hurt' : UID → Prop} {d d' : Disk} (h : Mid E N dir path old hurt d d')
    (h1 : ∀ w u, N w u → N' w u) (h2 : ∀ n, old n → old' n) (h3 : ∀ v, hurt v → hurt' v) : Mid E N' dir path old' hurt' d d' :=
  ⟨fun v a b => h.layer v a fun c => b (h3 v c), h.space,
    h.tree.imp_right (Or.imp_right fun ⟨w, u, b, p, a, c⟩ => ⟨w, u, b, p, h1 w u a, c⟩), fun n a b => h.mounts n a fun c => b (h2 n c), h.user,
    h.entry.imp_right fun ⟨h0, w, u, b, mt, a, c1, c2, c3, c4, c5, c6, c7, c8, c9, c10, c11⟩ =>
      ⟨h0, w, u, b, mt, h1 w u a, c1, c2, c3, c4, c5, c6, c7, c8, c9, c10, c11.imp_left (h3 u)⟩⟩

theorem litter_layer_eq {d d' : Disk} (h : Litter d d') {v : UID} (hv : d.layer v ≠ none) : d'.layer v = d.layer v := by
  rcases h.layer v with e | ⟨e, _⟩
  · exact e
  · exact absurd e hv

theorem litter_space_eq {d d' : Disk} (h : Litter d d') {n : Str} (hn : d.space n ≠ none) : d'.space n = d.space n := by
  rcases h.space n with e | ⟨e, _⟩
  · exact e
  · exact absurd e hn

theorem litter_mdir_eq {d d' : Disk} (h : Litter d d') {n : Str} (hn : d.mdir n ≠ none) : d'.mdir n = d.mdir n := by
  rcases h.mdir n with e | ⟨e, _⟩
  · exact e
  · exact absurd e hn

theorem mid_litter {N : OpenWs → UID → Prop} {dir path : Str} {old : Str → Prop} {hurt : UID → Prop} {d d' : Disk} (h : Litter d d') :
    Mid E N dir path old hurt d d' :=
  ⟨fun _ hv _ => litter_layer_eq h hv, fun _ _ hn => litter_space_eq h hn, (h.space dir).imp_right Or.inl,
    fun n hn _ => ⟨litter_mdir_eq h hn, congrFun h.info n, congrFun h.mnt n⟩, fun p _ => congrFun h.user p,
    Or.inl (congrFun h.user path)⟩

/-- The disk after a new mount has been recorded and expanded. -/
structure Placed (E : Env) (d d' : Disk) (w : OpenWs) (mid u : UID) (ls : List UID) : Prop where
  newLayer : d.layer u = none
  newMdir : d.mdir mid.base32 = none
  fits : E.Fits ls.length
  clear : d.user w.ws.path ≠ .dir ∧ d.user w.ws.path ≠ .noParent
  solid : Solid E d mid.base32 w.ws.path
  layer : d'.layer = upd d.layer u (some (some (Content.empty.chown E.owner)))
  space : ∃ b, SavesAs E.sh w.tree b ∧ d'.space = upd d.space w.spaceDir (some (some b))
  mdir : d'.mdir = upd d.mdir mid.base32 (some ⟨some .empty, true⟩)
  info : d'.info = upd d.info mid.base32 (some (marshalInfo E.sh (infoOf w u)))
  mnt : d'.mnt = upd d.mnt mid.base32 (some ⟨u, ls⟩)
  user : d'.user = upd d.user w.ws.path (.link (E.mountPath mid.base32))
  used : ∀ v ∈ d.used, v ∈ d'.used
  drawn : mid ∈ d'.used ∧ (Tracked d → u ∈ d'.used)
  tracked : Tracked d → d.space w.spaceDir ≠ none → Tracked d'

theorem expanding_expanded {d : Disk} {n : Str} {mt : Mnt} {path : Str} (h : d.user path ≠ .dir) (hf : E.Fits mt.lowers.length) :
    Expanding E n mt path d (expanded E n mt path d) :=
  ⟨fun v hv => upd_ne _ _ hv, ⟨_, blank_chown E.owner, upd_self _ _ _⟩, rfl, rfl, rfl, fun n' h => upd_ne _ _ h,
    by simp [expanded, Disk.setUser, Disk.setLayer, Disk.setMnt, Disk.setMdir], fun n' h => upd_ne _ _ h,
    Or.inr (upd_self _ _ _), fun p h => upd_ne _ _ h, Or.inr ⟨Or.inr (upd_self _ _ _), h, upd_self _ _ _, hf⟩⟩

/-- `w` has been saved with its new working layer `u`, but the expansion did not finish. -/
structure Late (E : Env) (d d' : Disk) (w : OpenWs) (mid u : UID) (ls : List UID) : Prop where
  newLayer : d.layer u = none
  newMdir : d.mdir mid.base32 = none
  layer : ∀ v, v ≠ u → d'.layer v = d.layer v
  upper : ∃ c, Blank c ∧ d'.layer u = some (some c)
  space : ∃ b, SavesAs E.sh w.tree b ∧ d'.space = upd d.space w.spaceDir (some (some b))
  mdir : ∀ n, n ≠ mid.base32 → d'.mdir n = d.mdir n
  mdirNew : d'.mdir mid.base32 ≠ none
  info : d'.info = upd d.info mid.base32 (some (marshalInfo E.sh (infoOf w u)))
  mnt : ∀ n, n ≠ mid.base32 → d'.mnt n = d.mnt n
  mntNew : d'.mnt mid.base32 = d.mnt mid.base32 ∨ d'.mnt mid.base32 = some ⟨u, ls⟩
  user : ∀ p, p ≠ w.ws.path → d'.user p = d.user p
  used : ∀ v ∈ d.used, v ∈ d'.used
  drawn : mid ∈ d'.used ∧ (Tracked d → u ∈ d'.used)
  tracked : Tracked d → Tracked d'

theorem placed_late {d d' : Disk} {w : OpenWs} {mid u : UID} {ls : List UID} (h : Placed E d d' w mid u ls) (hs : d.space w.spaceDir ≠ none) :
    Late E d d' w mid u ls :=
  ⟨h.newLayer, h.newMdir, fun v hv => by rw [h.layer]; exact upd_ne _ _ hv, ⟨_, blank_chown E.owner, by rw [h.layer]; exact upd_self _ _ _⟩,
    h.space, fun n hn => by rw [h.mdir]; exact upd_ne _ _ hn, by rw [h.mdir]; simp, h.info, fun n hn => by rw [h.mnt]; exact upd_ne _ _ hn,
    Or.inr (by rw [h.mnt]; exact upd_self _ _ _), fun p hp => by rw [h.user]; exact upd_ne _ _ hp, h.used, h.drawn, fun ht => h.tracked ht hs⟩

theorem path_nodes {a b : ATree} (h : b.node = a.node) {v : UID} {l : List UID} (hp : a.Path v l) : b.Path v l := by
  induction hp with
  | root h1 h2 => exact .root (by rw [h]; exact h1) h2
  | step h1 h2 _ ih => exact .step (by rw [h]; exact h1) h2 ih

theorem newMount_path {d d1 : Disk} {s s' : TS} {base : UID} {m : MountObj} {r : Nat} {u : UID} {ls : List UID} (hm : NewMount (f := f) d d1 s s' base m r u ls) :
    s'.abs.Path u (u :: ls) := by
  rw [hm.abs]; exact path_add hm.newNode hm.path _ _

/-- Saving and expanding the mount that `createMount` made. -/
theorem finish_wp {N : OpenWs → UID → Prop} {d0 d d1 : Disk} {s s' : TS} {base : UID} {m : MountObj} {r : Nat} {u : UID} {ls : List UID} {w : OpenWs}
    (hl0 : Litter d0 d) (hm : NewMount (f := f) d d1 s s' base m r u ls) (hs : Stored d s.abs) (hw : w.mount = m) (hr : Reach w.tree)
    (hN : N w u) (hu : w.tree.get u = some w.ws.head) (hsp : d.space w.spaceDir ≠ none) (hoff : E.Off w.ws.path)
    (hmd0 : d0.mdir m.id.base32 = none) (hpth : w.tree.abs.Path u (u :: ls))
    {α : Type} {k : OpenWs → M α} {I : Disk → Prop} {R : α → Disk → Prop} {F : CErr → Disk → Prop}
    (hI : ∀ d', Mid E N w.spaceDir w.ws.path (fun _ => False) (fun _ => False) d0 d' → I d')
    (hF : ∀ e d', Mid E N w.spaceDir w.ws.path (fun _ => False) (fun _ => False) d0 d' → e.early = false →
        (f.io = true ∨ Late E d d' w m.id u ls ∧ d'.used = d1.used ∧ (¬ E.Fits ls.length ∨ ¬ Clearable E d w.ws.path)) → F e d')
    (hk : ∀ d', Mid E N w.spaceDir w.ws.path (fun _ => False) (fun _ => False) d0 d' → Placed E d d' w m.id u ls → d'.used = d1.used →
        wpm E f I (k w) R F d') :
    wpm E f I (saveAll E w) (fun w' d' => wpm E f I (expand E w' >>= fun _ => k w') R F d') F d1 := by
  have hl01 := litter_trans hl0 hm.litter
  have hsp1 : d1.space w.spaceDir ≠ none := by rw [hm.space]; exact hsp
  have hn : w.mount.id.base32 = m.id.base32 := by rw [hw]
  have hsave : ∀ d', Saving E w u d1 d' → Mid E N w.spaceDir w.ws.path (fun _ => False) (fun _ => False) d0 d' := by
    have hbase := mid_litter (E := E) (N := N) (dir := w.spaceDir) (path := w.ws.path) (old := fun _ => False) (hurt := fun _ => False) hl01
    rintro d' ((rfl | ⟨b, p, h1, h2, rfl⟩) | ⟨b, p, h1, h2, rfl⟩)
    · exact hbase
    · refine ⟨hbase.layer, fun n hn h => ?_, Or.inr (Or.inr ⟨w, u, b, p, hN, h1, h2, by simp [Disk.setSpace]⟩), hbase.mounts, hbase.user,
        Or.inl (congrFun hl01.user _)⟩
      simp only [Disk.setSpace, upd_ne _ _ hn]; exact hbase.space n hn h
    · refine ⟨hbase.layer, fun n hn h => ?_, Or.inr (Or.inr ⟨w, u, b, b, hN, h1, List.prefix_refl b, by simp [Disk.setSpace, Disk.setInfo]⟩),
        fun n h h' => ?_, hbase.user, Or.inl (congrFun hl01.user _)⟩
      · simp only [Disk.setSpace, Disk.setInfo, upd_ne _ _ hn]; exact hbase.space n hn h
      · have hne : n ≠ w.mount.id.base32 := by rintro rfl; rw [hn] at h; exact h hmd0
        simp only [Disk.setSpace, Disk.setInfo, upd_ne _ _ hne]; exact hbase.mounts n h h'
  refine wpm_weaken (saveAll_wp hr hu hsp1) (fun _ h => hI _ (hsave _ h)) (fun w' d2 h2 => ?_) fun e d2 h2 => hF e d2 (hsave _ h2.1) h2.2.1 (Or.inl h2.2.2)
  obtain ⟨rfl, b, hb, hd2⟩ := h2
  have hmid2 := hsave d2 (Or.inr ⟨b, _, hb, List.prefix_refl _, hd2⟩)
  have hmt : w'.mount = ⟨m.id, m.id.base32, some ⟨u, ls⟩⟩ := by rw [hw]; exact hm.mount
  have e1 : d2.mdir m.id.base32 = some ⟨none, false⟩ := by rw [hd2]; simp [Disk.setSpace, Disk.setInfo, hm.mdir]
  have e2 : d2.layer u = some (some .empty) := by rw [hd2]; simp [Disk.setSpace, Disk.setInfo, hm.layer]
  have e3 : ∀ v ∈ ls, d2.HasDiff v := by
    intro v hv
    obtain ⟨c, hc⟩ := litter_stored hm.litter hs v (path_has hm.path v hv)
    exact ⟨c, by rw [hd2]; exact hc⟩
  have hl0u : d0.layer u = none := by
    rcases hl0.layer u with e | ⟨e, _⟩
    · rw [← e]; exact hm.newLayer
    · exact e
  have hexp : ∀ d', Expanding E m.id.base32 ⟨u, ls⟩ w'.ws.path d2 d' → Mid E N w'.spaceDir w'.ws.path (fun _ => False) (fun _ => False) d0 d' := by
    intro d' h
    refine ⟨fun v hv hh => ?_, fun n hn hx => by rw [h.space]; exact hmid2.space n hn hx, by rw [h.space]; exact hmid2.tree, fun n hn hh => ?_, fun p hp => ?_, ?_⟩
    · rw [h.layer v (by rintro rfl; exact hv hl0u)]; exact hmid2.layer v hv hh
    · have hne : n ≠ m.id.base32 := by rintro rfl; exact hn hmd0
      rw [h.mdir n hne, h.info, h.mnt n hne]; exact hmid2.mounts n hn hh
    · rw [h.user p hp]; exact hmid2.user p hp
    · have hu0 : d2.user w'.ws.path = d0.user w'.ws.path := by rw [hd2]; exact congrFun hl01.user _
      rcases h.entry with e | ⟨e, h1, h2, hf⟩
      · exact Or.inl (e.trans hu0)
      · refine Or.inr ⟨by rw [← hu0]; exact h1, w', u, b, ⟨u, ls⟩, hN, hb, ?_, by rw [hn]; exact hmd0, by rw [hmt], ?_, by rw [hn]; exact h2, by rw [hn]; exact e, rfl, hf, hpth, Or.inr h.upper⟩
        · rw [h.space, hd2]; simp [Disk.setSpace, Disk.setInfo]
        · rw [h.info, hd2]; simp [Disk.setInfo]
  have hus : d2.user = d.user := by rw [hd2]; exact hm.litter.user
  refine wpm_bind (wpm_weaken (expand_wp hmt e1 e2 e3 hoff) (fun _ h => hI _ (hexp _ h)) (fun _ d3 h3 => ?_) fun e d3 h3 => hF e d3 (hexp _ h3.1) h3.2.1 ?_)
  · obtain ⟨hd3, hfit, hclear⟩ := h3
    have hsol : Solid E d m.id.base32 w'.ws.path := fun n' hn' hl => by
      obtain ⟨x, c, h1, h2⟩ := hclear.2 n' hn' (by rw [hus]; exact hl)
      refine ⟨x, c, ?_, h2⟩
      rw [hd2] at h1
      simp only [Disk.setSpace, Disk.setInfo, hm.mdir, upd_ne _ _ hn'] at h1
      exact h1
    replace hclear := hclear.1
    rw [hus] at hclear
    refine hk d3 (hexp d3 (by rw [hd3]; exact expanding_expanded (by rw [hus]; exact hclear.1) hfit)) ⟨hm.newLayer, hm.newMdir, hfit, hclear, hsol, ?_, ⟨b, hb, ?_⟩, ?_, ?_, ?_, ?_, ?_, ?_, ?_⟩ (by rw [hd3, hd2]; rfl)
    · rw [hd3, hd2]; simp only [expanded, Disk.setUser, Disk.setLayer, Disk.setMnt, Disk.setMdir, Disk.setInfo, Disk.setSpace, hm.layer, upd_upd]
    · rw [hd3, hd2]; simp only [expanded, Disk.setUser, Disk.setLayer, Disk.setMnt, Disk.setMdir, Disk.setInfo, Disk.setSpace, hm.space]
    · rw [hd3, hd2]; simp only [expanded, Disk.setUser, Disk.setLayer, Disk.setMnt, Disk.setMdir, Disk.setInfo, Disk.setSpace, hm.mdir, upd_upd]
    · rw [hd3, hd2, hn]; simp only [expanded, Disk.setUser, Disk.setLayer, Disk.setMnt, Disk.setMdir, Disk.setInfo, Disk.setSpace, hm.litter.info]
    · rw [hd3, hd2]; simp only [expanded, Disk.setUser, Disk.setLayer, Disk.setMnt, Disk.setMdir, Disk.setInfo, Disk.setSpace, hm.litter.mnt]
    · rw [hd3, hd2]; simp only [expanded, Disk.setUser, Disk.setLayer, Disk.setMnt, Disk.setMdir, Disk.setInfo, Disk.setSpace, hm.litter.user]
    · rw [hd3, hd2]; exact hm.litter.used
    · rw [hd3, hd2]
      exact ⟨hm.drawn, fun ht => (hm.litter.tracked ht).layer u (by rw [hm.layer]; simp)⟩
    · intro ht _
      have ht1 := hm.litter.tracked ht
      have hdr : ∀ n, n = m.id.base32 → ∃ u ∈ d1.used, n = u.base32 := fun n h => ⟨m.id, hm.drawn, h⟩
      rw [hd3, hd2]
      refine ⟨fun v hv => ?_, fun n hx => ?_, fun n hx => ?_, fun n hx => ?_, fun n hx => ?_⟩
      · by_cases hvu : v = u
        · exact ht1.layer v (by rw [hvu, hm.layer]; simp)
        · refine ht1.layer v ?_
          simpa only [expanded, Disk.setUser, Disk.setLayer, Disk.setMnt, Disk.setMdir, Disk.setInfo, Disk.setSpace, upd_ne _ _ hvu] using hv
      · by_cases hv : n = w'.spaceDir
        · exact ht1.space n (by rw [hv]; exact hsp1)
        · refine ht1.space n ?_
          simpa only [expanded, Disk.setUser, Disk.setLayer, Disk.setMnt, Disk.setMdir, Disk.setInfo, Disk.setSpace, upd_ne _ _ hv] using hx
      · by_cases hv : n = m.id.base32
        · exact hdr n hv
        · refine ht1.mdir n ?_
          simpa only [expanded, Disk.setUser, Disk.setLayer, Disk.setMnt, Disk.setMdir, Disk.setInfo, Disk.setSpace, upd_ne _ _ hv] using hx
      · by_cases hv : n = m.id.base32
        · exact hdr n hv
        · refine ht1.info n ?_
          simpa only [expanded, Disk.setUser, Disk.setLayer, Disk.setMnt, Disk.setMdir, Disk.setInfo, Disk.setSpace, hn, upd_ne _ _ hv] using hx
      · by_cases hv : n = m.id.base32
        · exact hdr n hv
        · refine ht1.mnt n ?_
          simpa only [expanded, Disk.setUser, Disk.setLayer, Disk.setMnt, Disk.setMdir, Disk.setInfo, Disk.setSpace, upd_ne _ _ hv] using hx
  · have hlate : Late E d d3 w' m.id u ls := by
      have hx := h3.1
      have ht2 : Tracked d → Tracked d3 := by
        intro ht
        have ht1 := hm.litter.tracked ht
        have hdr : ∀ n, n = m.id.base32 → ∃ u ∈ d3.used, n = u.base32 := fun n h => ⟨m.id, by rw [hx.used, hd2]; exact hm.drawn, h⟩
        have hused : d3.used = d1.used := by rw [hx.used, hd2]; rfl
        refine ⟨fun v hv => ?_, fun n hy => ?_, fun n hy => ?_, fun n hy => ?_, fun n hy => ?_⟩
        · rw [hused]
          by_cases hvu : v = u
          · exact ht1.layer v (by rw [hvu, hm.layer]; simp)
          · refine ht1.layer v ?_
            rw [hx.layer v hvu, hd2] at hv
            exact hv
        · rw [hused]
          by_cases hv : n = w'.spaceDir
          · exact ht1.space n (by rw [hv]; exact hsp1)
          · refine ht1.space n ?_
            rw [hx.space, hd2] at hy
            simpa only [Disk.setInfo, Disk.setSpace, upd_ne _ _ hv] using hy
        · by_cases hv : n = m.id.base32
          · exact hdr n hv
          · rw [hused]
            refine ht1.mdir n ?_
            rw [hx.mdir n hv, hd2] at hy
            exact hy
        · by_cases hv : n = m.id.base32
          · exact hdr n hv
          · rw [hused]
            refine ht1.info n ?_
            rw [hx.info, hd2] at hy
            simpa only [Disk.setInfo, Disk.setSpace, hn, upd_ne _ _ hv] using hy
        · by_cases hv : n = m.id.base32
          · exact hdr n hv
          · rw [hused]
            refine ht1.mnt n ?_
            rw [hx.mnt n hv, hd2] at hy
            exact hy
      refine ⟨hm.newLayer, hm.newMdir, fun v hv => ?_, hx.upper, ⟨b, hb, ?_⟩, fun n hv => ?_, hx.mdirNew, ?_, fun n hv => ?_, ?_, fun p hp => ?_, ?_, ?_, ht2⟩
      · rw [hx.layer v hv, hd2]; simp only [Disk.setInfo, Disk.setSpace, hm.layer, upd_ne _ _ hv]
      · rw [hx.space, hd2]; simp only [Disk.setInfo, Disk.setSpace, hm.space]
      · rw [hx.mdir n hv, hd2]; simp only [Disk.setInfo, Disk.setSpace, hm.mdir, upd_ne _ _ hv]
      · rw [hx.info, hd2, hn]; simp only [Disk.setInfo, Disk.setSpace, hm.litter.info]
      · rw [hx.mnt n hv, hd2]; simp only [Disk.setInfo, Disk.setSpace, hm.litter.mnt]
      · have := hx.mntNew
        rw [hd2] at this
        simpa only [Disk.setInfo, Disk.setSpace, hm.litter.mnt] using this
      · rw [hx.user p hp, hd2]; simp only [Disk.setInfo, Disk.setSpace, hm.litter.user]
      · rw [hx.used, hd2]; exact hm.litter.used
      · rw [hx.used, hd2]
        exact ⟨hm.drawn, fun ht => (hm.litter.tracked ht).layer u (by rw [hm.layer]; simp)⟩
    have hused : d3.used = d1.used := by rw [h3.1.used, hd2]; rfl
    rcases h3.2.2 with h | h | h
    · exact Or.inl h
    · exact Or.inr ⟨hlate, hused, Or.inl h⟩
    · refine Or.inr ⟨hlate, hused, Or.inr ?_⟩
      intro hc
      refine h ?_
      unfold Clearable at hc ⊢
      rw [hus]
      rcases hc with hc | hc | hc | ⟨n, md, c, h1, h2, h3⟩
      · exact Or.inl hc
      · exact Or.inr (Or.inl hc)
      · exact Or.inr (Or.inr (Or.inl hc))
      · refine Or.inr (Or.inr (Or.inr ⟨n, md, c, h1, ?_, h3⟩))
        have : d2.mdir n = d1.mdir n := by rw [hd2]; rfl
        rw [this, litter_mdir_eq hm.litter (by rw [h2]; simp), h2]

/-- What removing the old mount adds. -/
theorem mid_removing {N : OpenWs → UID → Prop} {dir path n : Str} {d d1 d' : Disk} {mt : Option Mnt} (h : Mid E N dir path (fun _ => False) (fun _ => False) d d1)
    (hn : d1.mnt n = mt) (hmd : d.mdir n ≠ none) (hr : Removing f n d1 d') :
    Mid E N dir path (fun x => x = n) (fun v => (f.busy = true ∨ f.io = true) ∧ ∃ m, mt = some m ∧ m.upper = v) d d' := by
  refine ⟨fun v hv hh => ?_, fun x hx hh => by rw [hr.space]; exact h.space x hx hh, by rw [hr.space]; exact h.tree, fun x hx hh => ?_,
    fun p hp => by rw [hr.user]; exact h.user p hp, ?_⟩
  · rcases hr.layer with e | ⟨hb, m, c, e1, e2⟩
    · rw [e]; exact h.layer v hv (fun x => x)
    · rw [e2]
      have hne : v ≠ m.upper := by
        intro e
        exact hh ⟨hb, m, by rw [← hn, e1], e.symm⟩
      rw [← h.layer v hv (fun x => x)]
      unfold Disk.put
      split
      · simp only [Disk.setLayer, upd_ne _ _ hne]
      · rfl
  · rw [hr.mdir x hh, hr.info x hh, hr.mnt x hh]
    exact h.mounts x hx (fun x => x)
  · rw [hr.user, hr.space]
    refine h.entry.imp_right fun ⟨h0, w, u, b, mt', h1, h2, h3, h4, h5, h6, h7, h8, h9, h10, h11, h12⟩ => ?_
    have hne : w.mount.id.base32 ≠ n := by rintro e; rw [e] at h4; exact hmd h4
    refine ⟨h0, w, u, b, mt', h1, h2, h3, h4, h5, by rw [hr.info _ hne]; exact h6, by rw [hr.mnt _ hne]; exact h7, h8, h9, h10, h11, ?_⟩
    rcases h12 with h12 | h12
    · exact h12.elim
    rcases hr.layer with e | ⟨hb, m, c, e1, e2⟩
    · rw [e]; exact Or.inr h12
    by_cases hx : m.upper = u
    · exact Or.inl ⟨hb, m, by rw [← hn, e1], hx⟩
    · right
      obtain ⟨c', k1, k2⟩ := h12
      refine ⟨c', k1, ?_⟩
      rw [e2, ← k2]
      unfold Disk.put
      split
      · simp only [Disk.setLayer, upd_ne _ _ (Ne.symm hx)]
      · rfl

end
end Verif
