import Verif.Props.Cwd
import Verif.World.Total
/-!
# C104: a process that does not know the path of its working directory
-/
set_option autoImplicit false
namespace Verif
open M TS Json

section
variable {E : Env} {f : Faults} {pwd : Option Str}

/-! ## Opening a workspace by its mount point -/

/-- `GetWorkspaceFromPath` once the mount is known (pkg/manager/manager_default.go:196-245). -/
def getRest (m : UID) (absPath : Str) : M OpenWs := do
  let info ← loadInfo m
  let wid ← lift (fun _ => .wsID) (UID.decodeBase32 info.id)
  let sid ← lift (fun _ => .spaceID) (UID.decodeBase32 info.spaceID)
  let s ← lift .space (spaceLoad (← ask (.readTree info.spaceID)))
  let h ← lift (fun _ => .headHex) (UID.decodeHex info.head)
  match s.get h with
  | none => fail .headMissing
  | some r => return ⟨s, sid, info.spaceID, ⟨m, info.mountID, none⟩, ⟨wid, absPath, r, info.branch⟩⟩

theorem getWorkspace_rest (E : Env) (cwd path : Str) : getWorkspace E cwd path =
    (linkOf (Path.abs cwd path) >>= fun link => M.lift (fun _ => .path) (mountIDOf E.root cwd path link) >>= fun m => getRest m (Path.abs cwd path)) := rfl

theorem getRest_calms {A : Str → Prop} (m : UID) (q : Str) : Calms A (getRest m q) := by
  unfold getRest
  refine calms_bind ?_ fun i => calms_bind calms_lift fun wid => calms_bind calms_lift fun sid =>
    calms_bind (calms_ask trivial) fun t => calms_bind calms_lift fun s => calms_bind calms_lift fun h => ?_
  · unfold loadInfo
    refine calms_bind (calms_ask trivial) fun r => ?_
    split
    · exact calms_lift
    · exact calms_fail
  · split
    · exact calms_fail
    · exact calms_pure

theorem mountPath_abs (cwd : Str) (i : UID) : Path.abs cwd (E.mountPath i.base32) = E.mountPath i.base32 := by
  unfold Path.abs
  rw [if_pos (by rfl)]
  unfold Path.clean
  rw [comps_mountPath]; rfl

theorem mountPath_dot (i : UID) : Path.abs (E.mountPath i.base32) (lit ".") = E.mountPath i.base32 := by
  have := abs_dot (E.mountPath i.base32) (E.mountPath i.base32)
  rwa [mountPath_abs] at this

theorem mountPath_leads (i : UID) : mountIDOf E.root (E.mountPath i.base32) (lit ".") none = .ok i := by
  have h := (C44_mount_path E.root (lit "/") (lit ".") i [lit "merged"] (by
    intro c hc
    rw [List.mem_singleton] at hc
    subst hc
    exact ⟨by decide, by decide, by decide, by decide⟩)).2
  have key : ∀ cwd path : Str, mountIDOf E.root cwd path none = mountIDOf E.root (lit "/") (Path.abs cwd path) none := by
    intro cwd path
    rw [mountIDOf_eq, mountIDOf_eq]
    have e : targetOf cwd path none = targetOf (lit "/") (Path.abs cwd path) none := by
      have h1 : targetOf cwd path none = Path.comps (Path.abs cwd path) := targetOf_none _ _
      have h2 : Path.isAbs (Path.abs cwd path) = true := by unfold Path.abs; split <;> rfl
      rw [h1]
      exact (if_pos ((isAbs_iff _).1 h2)).symm
    rw [e]
  rw [key, mountPath_dot]
  exact h

/-- The workspace as it is opened by another path to its mount. -/
def OpenWs.atPath (w : OpenWs) (q : Str) : OpenWs := { w with ws := ⟨w.ws.id, q, w.ws.head, w.ws.branch⟩ }

/-- The workspace as it is opened by its mount point: with the mount point as its path. -/
abbrev OpenWs.byMount (E : Env) (w : OpenWs) : OpenWs := w.atPath (E.mountPath w.mount.id.base32)

theorem getRest_opens {d : Disk} {cwd path : Str} {w : OpenWs} {u p : UID} (h : Opens E d cwd path w u p) (Q : Str) :
    (∀ r d', Exec E Faults.none (getRest w.mount.id Q) d r d' → r = .ok (w.atPath Q) ∧ d' = d) ∧
    Exec E Faults.none (getRest w.mount.id Q) d (.ok (w.atPath Q)) d := by
  obtain ⟨i, i1, i2, i3, i4, i5, i6⟩ := h.info
  obtain ⟨T, b, _, _, t3, t4⟩ := h.tree
  have hw : w.atPath Q = ⟨w.tree, w.spaceID, w.spaceID.base32, ⟨w.mount.id, w.mount.id.base32, none⟩, ⟨w.ws.id, Q, w.ws.head, w.ws.branch⟩⟩ := by
    have hm := h.mount
    have hd := h.dir
    obtain ⟨tr, si, sd, mo, wo⟩ := w
    simp only [OpenWs.atPath] at hm hd ⊢
    rw [hd, ← hm]
  rw [hw]
  have t3' : d.space (sanitize i.spaceID) = some (some b) := by rw [i3, sanitize_base32, ← h.dir]; exact t3
  constructor
  · intro r d' he
    have key : wpm E Faults.none (fun _ => True) (getRest w.mount.id Q) (fun a d' => a = ⟨w.tree, w.spaceID, w.spaceID.base32, ⟨w.mount.id, w.mount.id.base32, none⟩, ⟨w.ws.id, Q, w.ws.head, w.ws.branch⟩⟩ ∧ d' = d)
        (fun _ _ => False) d := by
      unfold getRest loadInfo
      refine wpm_bind (wpm_call fun r d2 h2 => ?_)
      obtain ⟨rfl, h2⟩ := h2
      refine ⟨trivial, ?_⟩
      rw [i1] at h2
      cases r with
      | notExist => simp at h2
      | failed b => exact absurd h2.1 (by simp [Faults.none])
      | ok b0 =>
        simp only [Option.some.injEq] at h2
        subst h2
        refine wpm_lift_ok (a := ⟨sanitize i.id, sanitize i.path, sanitize i.head, sanitize i.spaceID, sanitize i.mountID, sanitize i.branch⟩)
          (by rw [C17_info_roundtrip]) ?_
        simp only [i2, i3, i4, i5, i6, sanitize_base32, sanitize_hex]
        refine wpm_bind (wpm_lift_ok (C02_base32_roundtrip _) ?_)
        refine wpm_bind (wpm_lift_ok (C02_base32_roundtrip _) ?_)
        refine wpm_call fun r d3 h3 => ?_
        obtain ⟨rfl, h3⟩ := h3
        refine ⟨trivial, ?_⟩
        rw [i3, sanitize_base32] at t3'
        rw [i3, sanitize_base32, t3'] at h3
        cases r with
        | notExist => simp at h3
        | failed b => exact absurd h3.1 (by simp [Faults.none])
        | ok b' =>
          simp only [Option.some.injEq] at h3
          subst h3
          refine wpm_bind (wpm_lift_ok t4 ?_)
          refine wpm_bind (wpm_lift_ok (C01_hex_roundtrip _) ?_)
          rw [h.head.1]
          exact wpm_pure ⟨rfl, rfl⟩
    have := wpm_exec key he
    cases r with
    | ok a => exact ⟨by rw [this.1], this.2⟩
    | _ => exact this.elim
  · unfold getRest loadInfo
    refine exec_ok (d1 := d) (a := ⟨sanitize i.id, sanitize i.path, sanitize i.head, sanitize i.spaceID, sanitize i.mountID, sanitize i.branch⟩) ?_ ?_
    · exact exec_ok (a := .ok (marshalInfo E.sh i)) (exec_ask ⟨rfl, i1⟩) (exec_lift (by rw [C17_info_roundtrip]))
    · simp only [i2, i3, i4, i5, i6, sanitize_base32, sanitize_hex]
      refine exec_ok (exec_lift (C02_base32_roundtrip _)) (exec_ok (exec_lift (C02_base32_roundtrip _)) (exec_ok (d1 := d) (a := .ok b) (exec_ask ⟨rfl, t3'⟩) ?_))
      refine exec_ok (exec_lift t4) (exec_ok (exec_lift (C01_hex_roundtrip u)) ?_)
      simp only [h.head.1]
      exact .ret _ _

theorem getWorkspace_lost {d : Disk} {cwd path : Str} {w : OpenWs} {u p : UID} (h : Opens E d cwd path w u p) {s : Proc1} :
    (∀ r s' d', ExecAt E pwd (getWorkspace E (E.mountPath w.mount.id.base32) (lit ".")) s d r s' d' → r = .ok (w.byMount E) ∧ s' = s ∧ d' = d) ∧
    ExecAt E pwd (getWorkspace E (E.mountPath w.mount.id.base32) (lit ".")) s d (.ok (w.byMount E)) s d := by
  rw [getWorkspace_rest, mountPath_dot]
  obtain ⟨g1, g2⟩ := getRest_opens h (E.mountPath w.mount.id.base32)
  constructor
  · intro r s' d' he
    obtain ⟨q, s1, d1, h1, h2⟩ := execAt_bind he
    unfold linkOf at h1
    cases h1 with | @op _ _ _ s2 _ _ d2 _ a _ h3 h4 =>
    obtain ⟨rfl, e, ha⟩ := h3
    obtain rfl : a = false := ha _ rfl
    obtain rfl := e.1.symm
    cases h4
    obtain ⟨q, s1, d1, h5, h6⟩ := execAt_bind h2
    rw [mountPath_leads] at h5
    cases h5
    obtain ⟨rfl, h7⟩ := execAt_calm (A := fun _ => False) (getRest_calms _ _) h6
    obtain ⟨h8, h9⟩ := g1 _ _ h7
    exact ⟨h8, rfl, h9⟩
  · refine execAt_trans (a := .ok none) (s1 := s) (d1 := d) ?_ (execAt_trans (a := .ok w.mount.id) (s1 := s) (d1 := d) ?_ ?_)
    · unfold linkOf
      refine .op (x := false) ⟨rfl, ⟨rfl, Or.inr (Or.inl ⟨w.mount.id.base32, [], by rw [comps_mountPath, List.append_nil]⟩)⟩, fun _ _ => rfl⟩ (.ret _ _ _)
    · rw [mountPath_leads]; exact .ret _ _ _
    · exact execAt_of_calm (A := fun _ => False) (fun _ _ h => h.elim) (getRest_calms _ _) g2

/-! ## Committing -/

/-- What `commit` and `checkout` have done before they expand the workspace: `w'` is saved, with the tree `T` and the new working layer `u'` on `q`. -/
structure Prepared (E : Env) (d d2 : Disk) (w w' : OpenWs) (q u' : UID) (ls : List UID) (T : ATree) : Prop where
  reach : Reach w'.tree
  newNode : ¬ w.tree.abs.Has u'
  tree : w'.tree.abs = T
  wsPath : w'.ws.path = w.ws.path
  path : w.tree.abs.Path q ls
  mount : w'.mount = ⟨w'.mount.id, w'.mount.id.base32, some ⟨u', ls⟩⟩
  newLayer : d.layer u' = none
  newMdir : d.mdir w'.mount.id.base32 = none
  layer : ∀ v, v ≠ u' → d2.layer v = d.layer v
  upper : d2.layer u' = some (some .empty)
  mdir : ∀ n, n ≠ w'.mount.id.base32 → d2.mdir n = d.mdir n
  mdirNew : d2.mdir w'.mount.id.base32 = some ⟨none, false⟩
  mnt : d2.mnt = d.mnt
  user : d2.user = d.user
  info : ∀ n, n ≠ w'.mount.id.base32 → d2.info n = d.info n
  space : ∃ b, SavesAs E.sh w'.tree b ∧ d2.space w.spaceDir = some (some b)

theorem commitP_wp {d : Disk} {w : OpenWs} {u p : UID} {ci : CommitInfo} (hr : Reach w.tree) (hh : w.ws.HeadAt w.tree u p) (hst0 : Stored d w.tree.abs)
    (hsp : d.space w.spaceDir ≠ none) :
    wpm E Faults.none (fun _ => True) (commitP E w ci) (fun w' d2 => ∃ u' ls, Prepared E d d2 w w' u u' ls (w.tree.abs.commit w.ws.onBranch u u' ci.date ci.message))
      (fun _ _ => ¬ Calm Faults.none d ∨ ¬ Follows w.tree.abs w.ws u) d := by
  obtain ⟨s1, g1, g2, g3, ⟨o, g4, g5⟩, g6⟩ := setToNode_spec hr hh.1 ci
  have hA : ∀ x, s1.abs.Has x ↔ w.tree.abs.Has x := fun x => by rw [g6, note_has, note_has]
  have hst : Stored d s1.abs := fun x hx => hst0 x ((hA x).1 hx)
  have hu : s1.abs.Has u := (abs_has_iff_get (wf_of_reach g2) u).2 ⟨_, g3⟩
  have hcp : commitP E w ci = (do
      let (s2, mount, head) ← createMount s1 o.id
      let s3 ← moveBranch s2 (Ws.branchInfo w.ws) head
      saveAll E { w with tree := s3, mount := mount, ws := ⟨w.ws.id, w.ws.path, head, (Ws.branchInfo w.ws).localName⟩ }) := by
    unfold commitP
    simp only [g1, g4]
  rw [hcp, g5]
  refine wpm_bind (wpm_weaken (createMount_wp g2 hu hst) (fun _ _ => trivial) (fun q d1 h1 => ?_) fun e d1 h1 => ?_)
  rotate_left
  · exact Or.inl h1.2.2
  obtain ⟨u', ls, hm⟩ := h1
  obtain ⟨s2, mo, r⟩ := q
  simp only at hm ⊢
  have hpath : w.tree.abs.Path u ls := by
    have := hm.path
    rwa [g6, note_path, note_path] at this
  have hnew : ¬ w.tree.abs.Has u' := fun h => hm.newNode ((hA _).2 h)
  have hnode : s2.abs.node u' = some ⟨some u, fun _ => none, fun _ => none⟩ := by rw [hm.abs]; simp [ATree.add]
  have hhead : (⟨w.ws.id, w.ws.path, r, w.ws.branch⟩ : Ws).HeadAt s2 u' u := ⟨hm.head, _, hnode, rfl⟩
  have hfol : Follows s2.abs w.ws u ↔ Follows w.tree.abs w.ws u := by
    unfold Follows
    have e1 : s2.abs.branch = w.tree.abs.branch := by rw [hm.abs, g6]; rfl
    have e2 : ∀ h, s2.abs.Anc h u ↔ w.tree.abs.Anc h u := by
      intro h
      rw [hm.abs, add_anc (reach_rooted g2) hm.newNode hu, g6, note_anc, note_anc]
    simp only [e1, e2]
  refine wpm_bind (wpm_weaken (I' := _) (moveBranch_wp (E := E) (f := Faults.none) (I := fun d' => d' = d1) hm.reach hhead) (fun x hx => trivial) (fun s3 d2 h2 => ?_) fun e d2 h2 => ?_)
  rotate_left
  · exact Or.inr fun h => h2.2.2 (hfol.2 h)
  obtain ⟨rfl, hf, hr3, hg3, ha3⟩ := h2
  let w' : OpenWs := { w with tree := s3, mount := mo, ws := ⟨w.ws.id, w.ws.path, r, (Ws.branchInfo w.ws).localName⟩ }
  have hC : Committed w u ci w' u' := by
    refine ⟨hr3, hnew, ?_, ⟨?_, ?_⟩, rfl, rfl, rfl, rfl, rfl⟩
    · show s3.abs = _
      rw [ha3, hm.abs, g6]
      rfl
    · show s3.get u' = some r
      rw [hg3]; exact hm.head
    · refine ⟨⟨some u, fun _ => none, fun _ => none⟩, ?_, rfl⟩
      show s3.abs.node u' = _
      rw [ha3, ← hnode]
      cases w.ws.onBranch <;> rfl
  refine wpm_weaken (saveAll_wp (E := E) (f := Faults.none) (w := w') hr3 hC.head.1 (by show d2.space w.spaceDir ≠ none; rw [hm.space]; exact hsp)) (fun _ _ => trivial) (fun w2 d3 h3 => ?_)
    fun e d3 h3 => absurd h3.2.2 (by simp [Faults.none])
  obtain ⟨rfl, b, hb, rfl⟩ := h3
  refine ⟨u', ls, hC.reach, hC.newNode, hC.tree, hC.path, hpath, hm.mount, hm.newLayer, hm.newMdir, ?_, ?_, ?_, ?_, hm.litter.mnt, hm.litter.user, ?_, b, hb, upd_self _ _ _⟩
  · intro v hv
    show d2.layer v = _
    rw [hm.layer, upd_ne _ _ hv]
  · show d2.layer u' = _
    rw [hm.layer, upd_self]
  · intro n hn
    show d2.mdir n = _
    rw [hm.mdir, upd_ne _ _ hn]
  · show d2.mdir mo.id.base32 = _
    rw [hm.mdir, upd_self]
  · intro n hn
    show upd d2.info mo.id.base32 _ n = _
    rw [upd_ne _ _ hn, hm.litter.info]

theorem checkoutP_wp {d : Disk} {w : OpenWs} {u p v : UID} {key : Str} {kt : KeyType} (hr : Reach w.tree) (hh : w.ws.HeadAt w.tree u p) (hst : Stored d w.tree.abs)
    (hsp : d.space w.spaceDir ≠ none) (hk : PlainKey key) (hv : Ws.Resolves w.tree.abs w.ws.id p key v kt) :
    wpm E Faults.none (fun _ => True) (checkoutP E w key)
      (fun w' d2 => ∃ u' ls, Prepared E d d2 w w' v u' ls (w.tree.abs.add (some v) u' (fun _ => none) (fun _ => none))) (fun _ _ => ¬ Calm Faults.none d) d := by
  unfold checkoutP
  rcases Ws.search_spec (ε := Empty) (wf_of_reach hr) hh hk with ⟨r0, o, kt', g1, g2, g3, g4⟩ | ⟨g1, g2⟩
  rotate_left
  · exact absurd hv (g2 v kt)
  obtain ⟨e1, rfl⟩ := Ws.resolves_unique g4 hv
  refine wpm_bind (wpm_lift_ok g1 ?_)
  simp only [Option.bind_some, g2]
  rw [e1] at g3 ⊢
  have hu : w.tree.abs.Has v := (abs_has_iff_get (wf_of_reach hr) v).2 ⟨_, g3⟩
  refine wpm_bind (wpm_weaken (createMount_wp hr hu hst) (fun _ _ => trivial) (fun q d1 h1 => ?_) fun e d1 h1 => h1.2.2)
  obtain ⟨u', ls, hm⟩ := h1
  obtain ⟨s2, mo, r⟩ := q
  simp only at hm ⊢
  rw [branchAfter_eq]
  let w' : OpenWs := { w with tree := s2, mount := mo, ws := ⟨w.ws.id, w.ws.path, r, branchAfter key kt'⟩ }
  refine wpm_weaken (saveAll_wp (E := E) (f := Faults.none) (w := w') hm.reach hm.head (by show d1.space w.spaceDir ≠ none; rw [hm.space]; exact hsp)) (fun _ _ => trivial) (fun w2 d3 h3 => ?_)
    fun e d3 h3 => absurd h3.2.2 (by simp [Faults.none])
  obtain ⟨rfl, b, hb, rfl⟩ := h3
  refine ⟨u', ls, hm.reach, hm.newNode, hm.abs, rfl, hm.path, hm.mount, hm.newLayer, hm.newMdir, ?_, ?_, ?_, ?_, hm.litter.mnt, hm.litter.user, ?_, b, hb, upd_self _ _ _⟩
  · intro x hx
    show d1.layer x = _
    rw [hm.layer, upd_ne _ _ hx]
  · show d1.layer u' = _
    rw [hm.layer, upd_self]
  · intro n hn
    show d1.mdir n = _
    rw [hm.mdir, upd_ne _ _ hn]
  · show d1.mdir mo.id.base32 = _
    rw [hm.mdir, upd_self]
  · intro n hn
    show upd d1.info mo.id.base32 _ n = _
    rw [upd_ne _ _ hn, hm.litter.info]

theorem mountP_done {d2 d3 : Disk} {w' : OpenWs} {u' : UID} {ls : List UID} {P : Str} (hm : w'.mount = ⟨w'.mount.id, w'.mount.id.base32, some ⟨u', ls⟩⟩)
    (hmd : d2.mdir w'.mount.id.base32 = some ⟨none, false⟩) (hu : d2.layer u' = some (some .empty)) (hls : ∀ v ∈ ls, d2.HasDiff v) (hoff : E.Off P)
    (hfit : E.Fits ls.length) (hcl : Clearable E d2 P) {r : Res CErr Unit} (h : Exec E Faults.none (mountP w'.mount) d2 r d3) :
    r = .ok () ∧ Expanding E w'.mount.id.base32 ⟨u', ls⟩ P d2 d3 := by
  let w2 : OpenWs := { w' with ws := { w'.ws with path := P } }
  have hx := expand_wp (f := Faults.none) (w := w2) hm hmd hu hls hoff
  have hs : ∀ {α : Type} {p : Prog α} {r : α} {d d' : Disk}, Exec E Faults.none p d r d' → Stops E Faults.none p d d' := by
    intro α p r d d' h
    induction h with
    | ret a d => exact .here _ _
    | op hs _ ih => exact .op hs ih
  refine ⟨?_, wp_stops hx ?_ (stops_bind (x := mountP w'.mount) (hs h))⟩
  · cases r with
    | ok a => rfl
    | err e =>
      have he : Exec E Faults.none (expand E w2) d2 (.err e) d3 := by
        rw [expand_eq]
        exact exec_trans (p := mountP w'.mount) h (.ret _ _)
      obtain ⟨_, _, h1 | h1 | h1⟩ := wpm_exec hx he
      · cases h1
      · exact absurd hfit h1
      · exact absurd hcl h1
    | panic =>
      have he : Exec E Faults.none (expand E w2) d2 .panic d3 := by
        rw [expand_eq]
        exact exec_trans (p := mountP w'.mount) h (.ret _ _)
      exact (wpm_exec hx he).elim
    | diverge =>
      have he : Exec E Faults.none (expand E w2) d2 .diverge d3 := by
        rw [expand_eq]
        exact exec_trans (p := mountP w'.mount) h (.ret _ _)
      exact (wpm_exec hx he).elim
  · exact ⟨fun _ _ => rfl, ⟨_, blank_empty, hu⟩, rfl, rfl, rfl, fun _ _ => rfl, by rw [hmd]; simp, fun _ _ => rfl, Or.inl rfl, fun _ _ => rfl, Or.inl rfl⟩

/-- Replacing the path of the workspace, if that is its mount point: the mount point is mounted, so it cannot be removed. -/
theorem relink_lost {w' : OpenWs} {i : UID} {m : MDir} {c : Content} (hp : w'.ws.path = E.mountPath i.base32) {s : Proc1} {d : Disk}
    (hm : d.mdir i.base32 = some m) (hc : m.merged = some c) (hmt : d.mnt i.base32 ≠ none) :
    (∀ r s' d', ExecAt E pwd (relink E w') s d r s' d' → r = .err .clearPath ∧ s'.cwd = .dir (lit "/") ∧ d' = d) ∧
    ∃ s', ExecAt E pwd (relink E w') s d (.err .clearPath) s' d := by
  have hin : ∃ n, E.Inside (E.mountPath i.base32) n := ⟨i.base32, [], by rw [comps_mountPath, List.append_nil]⟩
  unfold relink
  rw [hp]
  constructor
  · intro r s' d' h
    cases h with | op h1 h =>
    obtain ⟨rfl, e1, hcwd, hg⟩ := h1
    obtain rfl := e1.symm
    cases h with | op h2 h =>
    obtain ⟨rfl, e2, rfl⟩ := h2
    obtain rfl := e2.symm
    cases h with | @op _ _ _ _ _ _ _ _ x _ h3 h =>
    obtain ⟨rfl, h3, ha⟩ := h3
    obtain rfl := h3.1.symm
    obtain rfl : x = true := (ha i rfl).2 ⟨m, c, hm, hc⟩
    cases h with | @op _ _ _ _ _ _ _ _ x _ h4 h =>
    obtain ⟨rfl, _, ha⟩ := h4
    obtain ⟨e4, e5⟩ := ha i rfl hmt
    obtain rfl := e5.symm
    obtain rfl : x = false := e4
    cases h
    exact ⟨rfl, rfl, rfl⟩
  · obtain ⟨a, ha⟩ : ∃ a, Getwd E d pwd s.cwd a := by
      by_cases hq : ∃ q, pwd = some q ∧ Path.isAbs q = true ∧ Leads E d q s.cwd
      · obtain ⟨q, h1, h2, h3⟩ := hq
        exact ⟨q, Or.inl ⟨q, h1, h2, h3, rfl⟩⟩
      · exact ⟨_, Or.inr ⟨fun q h1 h2 h3 => hq ⟨q, h1, h2, h3⟩, rfl⟩⟩
    refine ⟨⟨.dir (lit "/"), a⟩, ?_⟩
    refine .op (s1 := ⟨s.cwd, a⟩) (d1 := d) (x := true) ⟨rfl, rfl, rfl, ha⟩ ?_
    refine .op (c := .sys .chdirRoot) (s1 := ⟨.dir (lit "/"), a⟩) (d1 := d) (x := true) ⟨rfl, rfl, rfl⟩ ?_
    refine .op (c := .exists_ (E.mountPath i.base32)) (s1 := ⟨.dir (lit "/"), a⟩) (d1 := d) (x := true) ⟨rfl, ⟨rfl, Or.inr (Or.inl hin)⟩, fun j e => ?_⟩ ?_
    · rw [← base32_inj (mountPath_inj e)]
      exact ⟨fun _ => ⟨m, c, hm, hc⟩, fun _ => rfl⟩
    · refine .op (c := .remove (E.mountPath i.base32)) (s1 := ⟨.dir (lit "/"), a⟩) (d1 := d) (x := false) ⟨rfl, Or.inr ⟨hin, ?_⟩, fun j e _ => ⟨rfl, rfl⟩⟩ (.ret _ _ _)
      exact Or.inl rfl

/-- Without `PWD`, or with one that does not lead to the working directory, `os.Getwd` names the mount point. -/
theorem getwd_lost {d : Disk} {i : UID} (h : ∀ q, pwd = some q → Path.isAbs q = true → ¬ Leads E d q (.mount i)) : Getwd E d pwd (.mount i) (E.mountPath i.base32) :=
  Or.inr ⟨h, rfl⟩

/-- `-C` with the mount point as its argument - as in `-C "$(realpath w)"` - makes `os.Getwd` name the mount point, whatever `PWD` was. -/
theorem getwd_realpath {d : Disk} {i : UID} {pwd' : Option Str} {l l' : Place} {path cwd : Str} (hc : Getwd E d pwd l cwd) (hp : Path.abs cwd path = E.mountPath i.base32)
    (h : ChangesDir E d path pwd l pwd' l') : Getwd E d pwd' l' (E.mountPath i.base32) := by
  obtain ⟨cwd', h1, h2, h3⟩ := h
  obtain rfl := (getwd_only hc).1 h1
  obtain ⟨c, h4, h5, h6⟩ := C104_chdir ⟨_, h1, h2, h3⟩
  obtain rfl := (getwd_only hc).1 h4
  exact (h6 _).2 hp.symm

/-- What `commit` and `checkout` have prepared can be mounted; the old mount stays as it is. -/
theorem prepared_mounts {d d2 : Disk} {g : Str → Option TS} {P Q : Str} (hout : E.Outside P) {w w' : OpenWs} {u p : UID} {T0 : TS}
    (hF : Found E d g P (lit ".") w u p T0) {q u' : UID} {ls ls' : List UID} {T : ATree} (hls : w.tree.abs.Path q ls) (hfit : E.Fits ls.length) {md : MDir} {c : Content}
    (hlk : d.user P = .link (E.mountPath w.mount.id.base32)) (hmd : d.mdir w.mount.id.base32 = some md) (hmc : md.merged = some c)
    (hp : Prepared E d d2 (w.atPath Q) w' q u' ls' T) :
    w.mount.id.base32 ≠ w'.mount.id.base32 ∧ ∀ r d3, Exec E Faults.none (mountP w'.mount) d2 r d3 → r = .ok () ∧ Expanding E w'.mount.id.base32 ⟨u', ls'⟩ P d2 d3 ∧
      d3.mdir w.mount.id.base32 = some md ∧ d3.mnt w.mount.id.base32 = d.mnt w.mount.id.base32 ∧ d3.user = d.user := by
  have ho := hF.opens
  have hoff : E.Off P := off_of_outside hout
  have hne : w.mount.id.base32 ≠ w'.mount.id.base32 := by
    intro e
    have := hp.newMdir
    rw [← e] at this
    exact hF.mdir this
  obtain rfl : ls' = ls := Ws.path_unique (show w.tree.abs.Path q ls' from hp.path) hls
  refine ⟨hne, fun r d3 h3 => ?_⟩
  have key : r = .ok () ∧ Expanding E w'.mount.id.base32 ⟨u', ls'⟩ P d2 d3 := by
    refine mountP_done hp.mount hp.mdirNew hp.upper ?_ hoff hfit ?_ h3
    · intro v hv
      obtain ⟨c0, hc0⟩ := path_stored ho (show w.tree.abs.Path q ls' from hp.path) v hv
      refine ⟨c0, ?_⟩
      rw [hp.layer v (by rintro rfl; rw [hp.newLayer] at hc0; cases hc0)]
      exact hc0
    · exact Or.inr (Or.inr (Or.inr ⟨_, md, c, by rw [hp.user]; exact hlk, by rw [hp.mdir _ hne]; exact hmd, hmc⟩))
  obtain ⟨e, hx⟩ := key
  exact ⟨e, hx, by rw [hx.mdir _ hne, hp.mdir _ hne]; exact hmd, by rw [hx.mnt _ hne, hp.mnt], by rw [(exec_sees (A := fun _ => False) (mountP_calms _) h3).1, hp.user]⟩

/-- Then the workspace is still where it was. -/
theorem prepared_stays {d d2 d' : Disk} {g : Str → Option TS} (hS : Steady E d g) {P Q : Str} (hP : Path.abs P (lit ".") = P) {w w' : OpenWs} {u p : UID} {T0 : TS}
    (hF : Found E d g P (lit ".") w u p T0) {q u' : UID} {ls' : List UID} (hmt : d.Mounted w) {T : UID → ATree}
    (hSh : ∀ u', ¬ w.tree.abs.Has u' → (T u').Shallow) (hbel : ∀ u', ¬ w.tree.abs.Has u' → Below (T u') u p)
    (hp : Prepared E d d2 (w.atPath Q) w' q u' ls' (T u')) (hx : Expanding E w'.mount.id.base32 ⟨u', ls'⟩ P d2 d') (hne : w.mount.id.base32 ≠ w'.mount.id.base32)
    (r2 : d'.mnt w.mount.id.base32 = d.mnt w.mount.id.base32) (huser : d'.user P = d.user P) :
    ∃ w1 u', ¬ w.tree.abs.Has u' ∧ Stays E d d' P w w1 u p ∧ ComesBack (T u') w1.tree.abs := by
  have ho := hF.opens
  have htree : w'.tree.abs = T u' := hp.tree
  have hnew : ¬ w.tree.abs.Has u' := hp.newNode
  have hlay : ∀ v, d.layer v ≠ none → d'.layer v = d.layer v := fun v hv => by
    have hvu : v ≠ u' := by rintro rfl; exact hv hp.newLayer
    rw [hx.layer v hvu, hp.layer v hvu]
  have hlist : ∀ w1 : OpenWs, w1.mount = w.mount → d'.lists w1 = d.lists w := by
    intro w1 hw1
    obtain ⟨m, hm⟩ : ∃ m, d.mnt w.mount.id.base32 = some m := Option.ne_none_iff_exists'.1 hmt
    rw [lists_mounted (w := w1) (m := m) (by rw [hw1, r2]; exact hm), lists_mounted hm]
    obtain ⟨a1, a2⟩ := mnt_of_found hS hF hm
    congr 1
    refine List.map_congr_left fun v hv => ?_
    have hv' : d.layer v ≠ none := by
      have : d.HasDiff v := by
        rcases List.mem_cons.1 hv with rfl | hv
        · rw [a1]; obtain ⟨_, n, hn, _⟩ := ho.head; exact ho.stored _ ⟨n, hn⟩
        · exact path_stored ho a2 v hv
      obtain ⟨c, hc⟩ := this
      rw [hc]; simp
    simp only [Disk.content, hlay v hv']
  obtain ⟨b, hb, hbs⟩ := hp.space
  obtain ⟨t, k1, k2', k3'⟩ := (load_saved hp.reach hb).1 (by rw [htree]; exact hSh u' hnew)
  obtain ⟨r, q1, q2⟩ := head_back k2' k3' (u := u) (p := p) (by rw [htree]; exact hbel u' hnew)
  obtain ⟨i, hi⟩ := ho.info
  refine ⟨{ w with tree := t, ws := ⟨w.ws.id, w.ws.path, r, w.ws.branch⟩ }, u', hnew, ⟨?_, ⟨rfl, rfl, rfl⟩, rfl, ⟨q1, q2⟩, r2, hlist _ rfl⟩, by rw [← htree]; exact k3'⟩
  refine gets_of_files (u := u) (i := i) (b := b) ?_ ho.path ?_ ho.mount ho.dir (by rw [hx.space]; exact hbs) k1 q1
  · have hol := ho.link; rw [hP] at hol ⊢; rw [huser]; exact hol
  · rw [show d'.info w.mount.id.base32 = d.info w.mount.id.base32 by rw [hx.info, hp.info _ hne]]
    exact hi
/-- `commit` or `checkout` in a workspace that is named by its mount point. -/
theorem lost_cmd {α : Type} {d : Disk} {g : Str → Option TS} (hS : Steady E d g) {P : Str} (hP : Path.abs P (lit ".") = P) (hout : E.Outside P) {w : OpenWs} {u p : UID} {T0 : TS}
    (hF : Found E d g P (lit ".") w u p T0) {q : UID} {ls : List UID} (hls : w.tree.abs.Path q ls) (hfit : E.Fits ls.length) (hmt : d.Mounted w)
    {s : Proc1} (hlink : ∃ m c, d.user P = .link (E.mountPath w.mount.id.base32) ∧ d.mdir w.mount.id.base32 = some m ∧ m.merged = some c)
    {y : OpenWs → M OpenWs} {T : UID → ATree} (hy : ∀ w, Calms (fun _ => False) (y w)) (hdr : Draws (α := Res CErr OpenWs) (y (w.byMount E)) 2)
    (hwp : wpm E Faults.none (fun _ => True) (y (w.byMount E)) (fun w' d2 => ∃ u' ls, Prepared E d d2 (w.byMount E) w' q u' ls (T u')) (fun _ _ => False) d)
    (hSh : ∀ u', ¬ w.tree.abs.Has u' → (T u').Shallow) (hbel : ∀ u', ¬ w.tree.abs.Has u' → Below (T u') u p) {k : OpenWs → OpenWs → M α} :
    (d.used.length + 2 < 2 ^ 128 → ∃ r s' d', ExecAt E pwd (getWorkspace E (E.mountPath w.mount.id.base32) (lit ".") >>= fun w => y w >>= fun w' => expand E w' >>= fun _ => k w w' : M α) s d r s' d') ∧
    ∀ r s' d', ExecAt E pwd (getWorkspace E (E.mountPath w.mount.id.base32) (lit ".") >>= fun w => y w >>= fun w' => expand E w' >>= fun _ => k w w' : M α) s d r s' d' → r = .err .clearPath ∧
      ∃ w1 u', ¬ w.tree.abs.Has u' ∧ Stays E d d' P w w1 u p ∧ ComesBack (T u') w1.tree.abs := by
  have ho := hF.opens
  obtain ⟨md, c, hlk, hmd, hmc⟩ := hlink
  obtain ⟨o1, o2⟩ := getWorkspace_lost (pwd := pwd) ho (s := s)
  -- the end of the command, on the disk after `commitP`
  have rest : ∀ w' d2, Exec E Faults.none (y (w.byMount E)) d (.ok w') d2 →
      ∃ u' : UID, ∃ ls, Prepared E d d2 (w.byMount E) w' q u' ls (T u') ∧ w.mount.id.base32 ≠ w'.mount.id.base32 ∧ ∀ r d3, Exec E Faults.none (mountP w'.mount) d2 r d3 →
        r = .ok () ∧ Expanding E w'.mount.id.base32 ⟨u', ls⟩ P d2 d3 ∧ d3.mdir w.mount.id.base32 = some md ∧ d3.mnt w.mount.id.base32 = d.mnt w.mount.id.base32 ∧ d3.user = d.user := by
    intro w' d2 h
    obtain ⟨u', ls', hp⟩ := wpm_exec_ok hwp h
    exact ⟨u', ls', hp, prepared_mounts hout hF hls hfit hlk hmd hmc hp⟩
  refine ⟨fun hused => ?_, fun r s' d' h => ?_⟩
  · obtain ⟨z, d2, h2⟩ := exec_total (E := E) (f := Faults.none) (hdr) d hused
    have h2' := execAt_of_calm (pwd := pwd) (s := s) (A := fun _ => False) (fun _ _ h => h.elim) (hy _) h2
    cases z with
    | ok w' =>
      obtain ⟨u', ls', hp, hne, hmp⟩ := rest w' d2 h2
      obtain ⟨z, d3, h3⟩ := exec_total (E := E) (f := Faults.none) (mountP_draws w'.mount) d2 (by have := exec_used (hdr) h2; omega)
      obtain ⟨rfl, hx, r1, r2, _⟩ := hmp z d3 h3
      have h3' := execAt_of_calm (pwd := pwd) (s := s) (A := fun _ => False) (fun _ _ h => h.elim) (mountP_calms w'.mount) h3
      obtain ⟨_, s4, h4⟩ := relink_lost (pwd := pwd) hp.wsPath (s := s) r1 hmc (by rw [r2]; exact hmt)
      refine ⟨.err .clearPath, s4, d3, ?_⟩
      refine execAt_trans o2 (execAt_trans h2' (execAt_trans (a := .err .clearPath) (s1 := s4) (d1 := d3) ?_ (.ret _ _ _)))
      rw [expand_eq]
      exact execAt_trans h3' h4
    | err e => exact ⟨_, _, _, execAt_trans o2 (execAt_trans h2' (.ret _ _ _))⟩
    | panic => exact ⟨_, _, _, execAt_trans o2 (execAt_trans h2' (.ret _ _ _))⟩
    | diverge => exact ⟨_, _, _, execAt_trans o2 (execAt_trans h2' (.ret _ _ _))⟩
  · obtain ⟨z, s1, d1, h1, h⟩ := execAt_bind h
    obtain ⟨rfl, e1, e2⟩ := o1 _ _ _ h1
    obtain rfl := e1.symm
    obtain rfl := e2.symm
    obtain ⟨z, s2, d2, h2, h⟩ := execAt_bind h
    obtain ⟨e3, k2⟩ := execAt_calm (A := fun _ => False) (hy _) h2
    obtain rfl := e3.symm
    have hq := wpm_exec hwp k2
    cases z with
    | ok w' =>
      obtain ⟨u', ls', hp, hne, hmp⟩ := rest w' d2 k2
      obtain ⟨z, s4, d4, h4, h⟩ := execAt_bind h
      rw [expand_eq] at h4
      obtain ⟨q3, s3, d3, h3, h4⟩ := execAt_bind h4
      obtain ⟨e5, k3⟩ := execAt_calm (A := fun _ => False) (mountP_calms _) h3
      obtain rfl := e5.symm
      obtain ⟨rfl, hx, r1, r2, ruser⟩ := hmp _ _ k3
      obtain ⟨rfl, _, rfl⟩ := (relink_lost (pwd := pwd) hp.wsPath r1 hmc (by rw [r2]; exact hmt)).1 _ _ _ h4
      cases h
      refine ⟨rfl, ?_⟩
      exact prepared_stays hS hP hF hmt hSh hbel hp hx hne r2 (by rw [ruser])
    | err e => exact hq.elim
    | panic => exact hq.elim
    | diverge => exact hq.elim


/-- **C104, violated.** `os.Getwd` answers with the mount point itself when `commit` is run inside a workspace: because `PWD` is not set or does
not lead to the working directory - as by `sudo` without its environment, or by a program that changes its directory without changing `PWD` -
(`getwd_lost`), or because the directory was given by the path that the link has (`getwd_realpath`, `cd -P w`). Then the workspace is opened
by its mount point, and that is the path that `Expand` wants to replace by a link: it cannot be removed. The commit is recorded in the history of
the space and a new mount is made for the workspace, but the command fails, and the path of the workspace still leads to the mount
with the layer that is now a commit: what the user changes there changes the commit. -/
theorem C104_violated_commit {d : Disk} (hd : Reachable E d) {P : Str} (hP : Path.abs P (lit ".") = P) (hout : E.Outside P) {w : OpenWs} (hg : Gets E d P (lit ".") w)
    {u p : UID} (hh : w.ws.HeadAt w.tree u p) {ls : List UID} (hls : w.tree.abs.Path u ls) (hfit : E.Fits ls.length) (hmay : MayCommit w u) (hmt : d.Mounted w)
    {s : Proc1} (hs : s.cwd = .mount w.mount.id) (hlink : ∃ m c, d.user P = .link (E.mountPath w.mount.id.base32) ∧ d.mdir w.mount.id.base32 = some m ∧ m.merged = some c)
    {cwd : Str} (hcwd : cwd = E.mountPath w.mount.id.base32) (_ : Getwd E d pwd s.cwd cwd) (ci : CommitInfo) :
    (d.used.length + 2 < 2 ^ 128 → ∃ r s' d', ExecAt E pwd (commitCmd E cwd ci) s d r s' d') ∧
    ∀ r s' d', ExecAt E pwd (commitCmd E cwd ci) s d r s' d' → r = .err .clearPath ∧
      ∃ w1 u', ¬ w.tree.abs.Has u' ∧ Stays E d d' P w w1 u p ∧ ComesBack (w.tree.abs.commit w.ws.onBranch u u' ci.date ci.message) w1.tree.abs := by
  obtain ⟨g, hS⟩ := steady_reachable hd
  obtain ⟨T, hF⟩ := gets_found hS (by rw [hP]; exact hout) hg hh
  have ho := hF.opens
  obtain rfl := hcwd
  exact lost_cmd (pwd := pwd) hS hP hout hF hls hfit hmt hlink (T := fun u' => w.tree.abs.commit w.ws.onBranch u u' ci.date ci.message) (fun w => commitP_calms E w ci)
    (commitP_draws E _ ci)
    (wpm_weaken (commitP_wp (E := E) (w := w.byMount E) (d := d) (u := u) (p := p) (ci := ci) (show Reach w.tree from opens_reach ho) hh ho.stored (by
      obtain ⟨T, b, _, _, h, _⟩ := ho.tree
      show d.space w.spaceDir ≠ none
      rw [h]; simp)) (fun _ h => h) (fun _ _ h => h) fun e d' h => by
        rcases h with h | h
        · exact h ⟨rfl, rfl, hS.tracked⟩
        · exact h (follows_iff.2 hmay))
    (fun u' hn => shallow_commit (opens_reach ho) (comesBack_shallow hF.back hF.shallow) hn hls (fits_small hfit))
    (fun u' hn => extends_below (extends_commit (S := fun _ => True) trivial hn) hh.2)

/-- **C104, violated.** So does every `checkout` of what there is: the new working layer is recorded and mounted, but the workspace
does not move there. -/
theorem C104_violated_checkout {d : Disk} (hd : Reachable E d) {P : Str} (hP : Path.abs P (lit ".") = P) (hout : E.Outside P) {w : OpenWs} (hg : Gets E d P (lit ".") w)
    {u p v : UID} (hh : w.ws.HeadAt w.tree u p) {key : Str} {kt : KeyType} (hk : PlainKey key) (hv : Ws.Resolves w.tree.abs w.ws.id p key v kt)
    {ls : List UID} (hls : w.tree.abs.Path v ls) (hfit : E.Fits ls.length) (hmt : d.Mounted w)
    {s : Proc1} (_ : s.cwd = .mount w.mount.id) (hlink : ∃ m c, d.user P = .link (E.mountPath w.mount.id.base32) ∧ d.mdir w.mount.id.base32 = some m ∧ m.merged = some c)
    {cwd : Str} (hcwd : cwd = E.mountPath w.mount.id.base32) (_ : Getwd E d pwd s.cwd cwd) :
    (d.used.length + 2 < 2 ^ 128 → ∃ r s' d', ExecAt E pwd (checkoutCmd E cwd key) s d r s' d') ∧
    ∀ r s' d', ExecAt E pwd (checkoutCmd E cwd key) s d r s' d' → r = .err .clearPath ∧
      ∃ w1 u', ¬ w.tree.abs.Has u' ∧ Stays E d d' P w w1 u p ∧ ComesBack (w.tree.abs.add (some v) u' (fun _ => none) (fun _ => none)) w1.tree.abs := by
  obtain ⟨g, hS⟩ := steady_reachable hd
  obtain ⟨T, hF⟩ := gets_found hS (by rw [hP]; exact hout) hg hh
  have ho := hF.opens
  obtain rfl := hcwd
  exact lost_cmd (pwd := pwd) hS hP hout hF hls hfit hmt hlink (T := fun u' => w.tree.abs.add (some v) u' (fun _ => none) (fun _ => none)) (fun w => checkoutP_calms E w key)
    (checkoutP_draws E _ key)
    (wpm_weaken (checkoutP_wp (E := E) (w := w.byMount E) (d := d) (u := u) (p := p) (show Reach w.tree from opens_reach ho) hh ho.stored (by
      obtain ⟨T, b, _, _, h, _⟩ := ho.tree
      show d.space w.spaceDir ≠ none
      rw [h]; simp) hk hv) (fun _ h => h) (fun _ _ h => h) fun e d' h => h ⟨rfl, rfl, hS.tracked⟩)
    (fun u' hn => shallow_add (reach_rooted (opens_reach ho)) (comesBack_shallow hF.back hF.shallow) hn hls (fits_small hfit))
    (fun u' hn => extends_below (extends_add (S := fun _ => True) hn) hh.2)

end
end Verif
