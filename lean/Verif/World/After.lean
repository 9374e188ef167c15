import Verif.World.Reopen
/-!
# Opening a workspace before and after a command

`Gets` is what a user observes: `GetWorkspaceFromPath` answers with this workspace.
-/
set_option autoImplicit false
namespace Verif
open M TS Json

section
variable {E : Env} {f : Faults}

/-- Opening the path gives `w`. -/
def Gets (E : Env) (d : Disk) (cwd path : Str) (w : OpenWs) : Prop := Exec E Faults.none (getWorkspace E cwd path) d (.ok w) d

theorem exec_ok {α β : Type} {x : M α} {k : α → M β} {d d1 d2 : Disk} {a : α} {r : Res CErr β} (h : Exec E f x d (.ok a) d1)
    (h' : Exec E f (k a) d1 r d2) : Exec E f (M.bind x k) d r d2 := exec_trans h h'

theorem exec_ok_inv {α β : Type} {x : M α} {k : α → M β} {d d2 : Disk} {b : β} (h : Exec E f (M.bind x k) d (.ok b) d2) :
    ∃ a d1, Exec E f x d (.ok a) d1 ∧ Exec E f (k a) d1 (.ok b) d2 := by
  obtain ⟨r, d1, h1, h2⟩ := exec_bind h
  cases r with
  | ok a => exact ⟨a, d1, h1, h2⟩
  | err e => cases h2
  | panic => cases h2
  | diverge => cases h2

theorem exec_lift {α ε : Type} {g : ε → CErr} {a : α} {r : Res ε α} {d : Disk} (h : r = .ok a) : Exec E f (M.lift g r) d (.ok a) d := by
  subst h; exact .ret _ _

theorem exec_lift_inv {α ε : Type} {g : ε → CErr} {a : α} {r : Res ε α} {d d' : Disk} (h : Exec E f (M.lift g r) d (.ok a) d') : r = .ok a := by
  cases r with
  | ok b => cases h; rfl
  | err e => cases h
  | panic => cases h
  | diverge => cases h

theorem exec_ask {c : Cmd} {x : c.Ans} {d d' : Disk} (h : Step E f c d x d') : Exec E f (M.ask c) d (.ok x) d' := .op h (.ret _ _)

theorem exec_linkOf {d : Disk} {p t : Str} (h : d.user p = .link t) : Exec E f (linkOf p) d (.ok (some t)) d := by
  unfold linkOf
  refine exec_ok (a := true) (exec_ask ⟨rfl, Or.inl ⟨fun _ => ⟨t, h⟩, fun _ => rfl⟩⟩) ?_
  exact exec_ok (a := some t) (exec_ask ⟨rfl, Or.inl ⟨t, h, rfl⟩⟩) (.ret _ _)

theorem gets_of_opens {d : Disk} {cwd path : Str} {w : OpenWs} {u p : UID} (h : Opens E d cwd path w u p) : Gets E d cwd path w := by
  obtain ⟨t, e1, e2⟩ := h.link
  obtain ⟨i, i1, i2, i3, i4, i5, i6⟩ := h.info
  obtain ⟨T, b, _, _, t3, t4⟩ := h.tree
  have key : Exec E Faults.none (getWorkspace E cwd path) d (.ok ⟨w.tree, w.spaceID, w.spaceID.base32, ⟨w.mount.id, w.mount.id.base32, none⟩, ⟨w.ws.id, Path.abs cwd path, w.ws.head, w.ws.branch⟩⟩) d := by
    unfold getWorkspace
    refine exec_ok (exec_linkOf e1) (exec_ok (exec_lift e2) (exec_ok (d1 := d) (a := ⟨sanitize i.id, sanitize i.path, sanitize i.head, sanitize i.spaceID, sanitize i.mountID, sanitize i.branch⟩) ?_ ?_))
    · exact exec_ok (a := .ok (marshalInfo E.sh i)) (exec_ask ⟨rfl, i1⟩) (exec_lift (by rw [C17_info_roundtrip]))
    · simp only [i2, i3, i4, i5, i6, sanitize_base32, sanitize_hex]
      refine exec_ok (exec_lift (C02_base32_roundtrip _)) (exec_ok (exec_lift (C02_base32_roundtrip _)) (exec_ok (d1 := d) (a := .ok b) (exec_ask ⟨rfl, ?_⟩) ?_))
      · show d.space (sanitize i.spaceID) = some (some b)
        rw [i3, sanitize_base32, ← h.dir]; exact t3
      · refine exec_ok (exec_lift t4) (exec_ok (exec_lift (C01_hex_roundtrip u)) ?_)
        simp only [h.head.1]
        exact .ret _ _
  have hw : w = ⟨w.tree, w.spaceID, w.spaceID.base32, ⟨w.mount.id, w.mount.id.base32, none⟩, ⟨w.ws.id, Path.abs cwd path, w.ws.head, w.ws.branch⟩⟩ := by
    have h1 := h.mount
    have h2 := h.dir
    have h3 := h.path
    obtain ⟨tr, si, sd, mo, ⟨a1, a2, a3, a4⟩⟩ := w
    simp only at h1 h2 h3
    subst h2 h3
    congr
  rw [Gets, hw]
  exact key

theorem found_of_gets {d : Disk} {g : Str → Option TS} (h : Steady E d g) {cwd path : Str} (hout : E.Outside (Path.abs cwd path)) {w : OpenWs}
    (hg : Gets E d cwd path w) : ∃ u p T, Found E d g cwd path w u p T := by
  have hpl : ∀ t, d.user (Path.abs cwd path) = .link t → (∀ m, mountIDOf E.root cwd path (some t) ≠ .ok m) → ∃ e, mountIDOf E.root cwd path (some t) = .err e := by
    intro t ht hm
    have hg' := hg
    unfold Gets getWorkspace at hg'
    obtain ⟨l, d1, h1, h2⟩ := exec_ok_inv hg'
    obtain ⟨m, d2, h3, _⟩ := exec_ok_inv h2
    have h3 := exec_lift_inv h3
    obtain ⟨rfl, hl⟩ := wpm_exec (linkOf_wp (off_of_outside hout)) h1
    rcases hl with rfl | ⟨hl, _⟩
    · rw [ht] at h3; exact absurd h3 (hm m)
    · cases hl
  have := wpm_exec (opens_of_steady' h hout hpl) hg
  obtain ⟨_, u, p, g1, g2, T, g3, g4, g5⟩ := this
  exact ⟨u, p, T, g1, g2, g3, g4, g5⟩

theorem rec_of_opens {d : Disk} {g : Str → Option TS} (h : Steady E d g) {cwd path : Str} {w : OpenWs} {u p : UID} (ho : Opens E d cwd path w u p) :
    ∃ r : WsRec, d.info w.mount.id.base32 = some (r.bytes E) ∧ r.ws = w.ws.id ∧ r.space = w.spaceID ∧ r.mount = w.mount.id ∧ r.head = u ∧
      sanitize r.branch = w.ws.branch := by
  obtain ⟨i, i1, i2, i3, i4, i5, i6⟩ := ho.info
  have a1 := C17_info_roundtrip E.sh i
  rcases h.info _ _ i1 with h2 | ⟨r, e1, _⟩
  · rw [a1] at h2; cases h2
  refine ⟨r, by rw [i1, e1], ?_⟩
  rw [e1, WsRec.bytes, C17_info_roundtrip] at a1
  simp only [WsRec.info, i2, i3, i4, i5, sanitize_base32, sanitize_hex, Option.some.injEq, WsInfo.mk.injEq] at a1
  obtain ⟨c1, _, c3, c4, c5, c6⟩ := a1
  refine ⟨base32_inj c1, base32_inj c4, base32_inj c5, ?_, by rw [c6]; exact i6⟩
  have := C01_hex_roundtrip r.head
  rw [c3, C01_hex_roundtrip] at this
  simpa using this.symm

theorem comesBack_below {a b : ATree} (h : ComesBack a b) {u p p' : UID} (h1 : Below a u p) (h2 : Below b u p') : p = p' := by
  obtain ⟨n, e1, e2⟩ := h1
  obtain ⟨n', e3, e4⟩ := h2
  obtain ⟨n2, e5, e6, _⟩ := h.node u n e1
  rw [e3] at e5; cases e5
  rw [e4, e2] at e6
  simpa using e6.symm

/-- The working layer is in the saved tree. -/
theorem found_below {d : Disk} {g : Str → Option TS} {cwd path : Str} {w : OpenWs} {u p : UID} {T : TS} (hF : Found E d g cwd path w u p T) : Below T.abs u p := by
  obtain ⟨nd, n1, n2⟩ := hF.opens.head.2
  obtain ⟨n, hn⟩ := comesBack_has hF.back ⟨nd, n1⟩
  obtain ⟨n', e1, e2, _⟩ := hF.back.node u n hn
  rw [n1] at e1; cases e1
  exact ⟨n, hn, by rw [← e2]; exact n2⟩

theorem mnt_of_found {d : Disk} {g : Str → Option TS} (h : Steady E d g) {cwd path : Str} {w : OpenWs} {u p : UID} {T : TS} (hF : Found E d g cwd path w u p T)
    {m : Mnt} (hm : d.mnt w.mount.id.base32 = some m) : m.upper = u ∧ w.tree.abs.Path p m.lowers := by
  obtain ⟨r, r1, _, r3, _, r5, _⟩ := rec_of_opens h hF.opens
  obtain ⟨r', e1, e4, _, e5⟩ := h.mnt _ m hm
  rw [r1, Option.some.injEq] at e1
  obtain ⟨_, i2, _, i4, _⟩ := rec_bytes_inj e1
  have hg : g r'.space.base32 = some T := by rw [← i2, r3, ← hF.opens.dir]; exact hF.tree
  have hb : Below T.abs r'.head p := by rw [← i4, r5]; exact found_below hF
  exact ⟨by rw [e4, ← i4, r5], extends_path (S := fun _ => False) (extends_comesBack hF.back (h.keys _ _ hF.tree)) (e5 T p hg hb)⟩

/-- The workspace that a command has placed opens. -/
theorem reopened {d d1 d' : Disk} {g' : Str → Option TS} (hs : Steady E d' g') {cwd path : Str} {w' : OpenWs} {u' q : UID} {ls : List UID}
    (hL : Placed E d d1 w' w'.mount.id u' ls) (huser : d'.user = d1.user) (hinfo : d'.info w'.mount.id.base32 = d1.info w'.mount.id.base32)
    (hpath : w'.ws.path = Path.abs cwd path) (hout : E.Outside (Path.abs cwd path)) (hdir : w'.spaceDir = w'.spaceID.base32)
    (hg : g' w'.spaceDir = some w'.tree) (hS : w'.tree.abs.Shallow) (hb : Below w'.tree.abs u' q) :
    ∃ w2, Opens E d' cwd path w2 u' q ∧ w2.ws.id = w'.ws.id ∧ w2.spaceID = w'.spaceID ∧ w2.mount.id = w'.mount.id ∧
      w2.ws.branch = sanitize w'.ws.branch ∧ ComesBack w'.tree.abs w2.tree.abs := by
  have h1 : d'.user (Path.abs cwd path) = .link (E.mountPath w'.mount.id.base32) := by rw [huser, hL.user, hpath]; exact upd_self _ _ _
  have h2 : d'.info w'.mount.id.base32 = some ((recOf w' u').bytes E) := by rw [hinfo, hL.info]; exact upd_self _ _ _
  obtain ⟨w2, p, o, e1, e2, e3, e4, e5, e6⟩ := reopen (r := recOf w' u') hs hout ⟨_, h1, leads_mountPath cwd path _⟩ h2 (by show g' w'.spaceID.base32 = _; rw [← hdir]; exact hg) hS
    (by obtain ⟨n, hn, _⟩ := hb; exact ⟨n, hn⟩)
  have : p = q := by
    obtain ⟨n, a1, a2⟩ := e6
    obtain ⟨n', b1, b2⟩ := hb
    have : w'.tree.abs.node (recOf w' u').head = w'.tree.abs.node u' := rfl
    rw [this, b1] at a1; cases a1
    rw [b2] at a2
    simpa using a2.symm
  subst this
  exact ⟨w2, o, e1, e2, e3, e4, e5⟩

/-- Trees that have changed can be loaded. -/
def Kept (g g' : Str → Option TS) : Prop := ∀ n T, g' n = some T → T.abs.Shallow ∨ g n = some T

theorem kept_upd {g : Str → Option TS} {dir : Str} {T : TS} (h : T.abs.Shallow) : Kept g (upd g dir (some T)) := by
  intro n T' hT
  by_cases hn : n = dir
  · subst hn; rw [upd_self] at hT; cases hT; exact Or.inl h
  · rw [upd_ne _ _ hn] at hT; exact Or.inr hT

theorem sameNode_symm {n n' : ANode} (h : SameNode n n') : SameNode n' n := ⟨h.1.symm, fun k => (h.2.1 k).symm, h.2.2.symm⟩

/-- What is read back grows as the trees do. -/
theorem extends_views {S : UID → Prop} {a b a' b' : ATree} (ha : ComesBack a a') (hb : ComesBack b b') (ka : NodeKeys a) (kb : NodeKeys b)
    (h : Extends S a b) : Extends S a' b' := by
  intro u n' hn'
  cases hx : a.node u with
  | none => rw [ha.gone u hx] at hn'; cases hn'
  | some n =>
    obtain ⟨n1, e1, e2, e3⟩ := extends_comesBack (S := fun _ => False) ha ka u n hx
    rw [hn'] at e1; cases e1
    obtain ⟨n2, f1, f2, f3⟩ := h u n hx
    obtain ⟨n3, g1, g2, g3⟩ := extends_comesBack (S := fun _ => False) hb kb u n2 f1
    exact ⟨n3, g1, by rw [g2, f2, e2], fun hs => sameNode_trans (sameNode_symm (e3 (fun x => x))) (sameNode_trans (f3 hs) (g3 (fun x => x)))⟩

theorem sameNode_utf8 {a b : ATree} (ha : a.Utf8) (hb : b.Utf8) {u : UID} {n n' : ANode} (h1 : a.node u = some n) (h2 : b.node u = some n')
    (h : SameNode n n') : n' = n := by
  obtain ⟨p, an, da⟩ := n
  obtain ⟨p', an', da'⟩ := n'
  obtain ⟨e1, e2, e3⟩ := h
  simp only at e1 e2 e3
  subst e1 e3
  congr
  funext k
  have := e2 k
  cases hk : an k with
  | none => rw [hk] at this; simpa using this
  | some v =>
    cases hk' : an' k with
    | none => rw [hk, hk'] at this; cases this
    | some v' =>
      rw [hk, hk', Option.map_some, Option.map_some, sanitize_valid (ha.anno u _ k v h1 hk).2, sanitize_valid (hb.anno u _ k v' h2 hk').2] at this
      exact this

/-- A workspace whose record and link are kept opens as before, with a grown tree. -/
theorem others_open {d d' : Disk} {g g' : Str → Option TS} (h : Steady E d g) (h' : Steady E d' g') (hG : Grew E d g d' g') (hK : Kept g g') {cwd path : Str}
    {w : OpenWs} {u p : UID} {T : TS} (hF : Found E d g cwd path w u p T) (huser : d'.user (Path.abs cwd path) = d.user (Path.abs cwd path))
    (hinfo : d'.info w.mount.id.base32 = d.info w.mount.id.base32) :
    ∃ w2, Opens E d' cwd path w2 u p ∧ w2.ws.id = w.ws.id ∧ w2.spaceID = w.spaceID ∧ w2.mount.id = w.mount.id ∧ w2.ws.branch = w.ws.branch ∧
      Extends (Head E d) w.tree.abs w2.tree.abs := by
  obtain ⟨r, r1, r2, r3, r4, r5, r6⟩ := rec_of_opens h hF.opens
  obtain ⟨T', t1, t2⟩ := hG.trees _ T hF.tree
  have hS : T'.abs.Shallow := by
    rcases hK _ T' t1 with e | e
    · exact e
    · rw [hF.tree] at e; cases e; exact hF.shallow
  obtain ⟨w2, q, o, e1, e2, e3, e4, e5, e6⟩ := reopen (r := r) h' hF.opens.out (by rw [huser, r4]; exact hF.opens.link) (by rw [r4, hinfo]; exact r1)
    (by rw [r3, ← hF.opens.dir]; exact t1) hS (by rw [r5]; exact extends_has t2 (by obtain ⟨n, hn, _⟩ := found_below hF; exact ⟨n, hn⟩))
  have hx := extends_views hF.back e5 (h.keys _ _ hF.tree) (h'.keys _ _ t1) t2
  have hq : p = q := by
    obtain ⟨n, a1, a2⟩ := extends_below hx hF.opens.head.2
    obtain ⟨n', b1, b2⟩ := o.head.2
    rw [r5, a1] at b1; cases b1
    rw [a2] at b2; simpa using b2
  subst hq
  rw [r5] at o
  exact ⟨w2, o, e1.trans r2, e2.trans r3, e3.trans r4, e4.trans r6, hx⟩

/-- A new mount `n` with the new layer `u'` on the layers `ls`, linked from `path`; the mounts in `old` may be gone. -/
structure Fresh (E : Env) (d d' : Disk) (n : Str) (old : Str → Prop) (u' : UID) (ls : List UID) (path : Str) : Prop where
  newLayer : d.layer u' = none
  layer : d'.layer = upd d.layer u' (some (some (Content.empty.chown E.owner)))
  fits : E.Fits ls.length
  newMdir : d.mdir n = none
  mnt : d'.mnt n = some ⟨u', ls⟩
  others : ∀ k, k ≠ n → ¬ old k → d'.mnt k = d.mnt k ∧ d'.info k = d.info k ∧ d'.mdir k = d.mdir k
  gone : ∀ k, old k → d'.mnt k = none ∧ d'.info k = none ∧ d'.mdir k = none
  link : d'.user path = .link (E.mountPath n)
  user : ∀ p, p ≠ path → d'.user p = d.user p
  mdir : d'.mdir n = some ⟨some .empty, true⟩

theorem fresh_placed {d d1 : Disk} {w' : OpenWs} {u' : UID} {ls : List UID} (h : Placed E d d1 w' w'.mount.id u' ls) :
    Fresh E d d1 w'.mount.id.base32 (fun _ => False) u' ls w'.ws.path :=
  ⟨h.newLayer, h.layer, h.fits, h.newMdir, by rw [h.mnt]; exact upd_self _ _ _,
    fun k hk _ => ⟨by rw [h.mnt]; exact upd_ne _ _ hk, by rw [h.info]; exact upd_ne _ _ hk, by rw [h.mdir]; exact upd_ne _ _ hk⟩, fun _ h => h.elim,
    by rw [h.user]; exact upd_self _ _ _, fun p hp => by rw [h.user]; exact upd_ne _ _ hp, by rw [h.mdir]; exact upd_self _ _ _⟩

theorem fresh_removed {d d1 : Disk} {n old path : Str} {u' : UID} {ls : List UID} (h : Fresh E d d1 n (fun _ => False) u' ls path) (hne : old ≠ n) :
    Fresh E d (removed old d1) n (· = old) u' ls path := by
  refine ⟨h.newLayer, h.layer, h.fits, h.newMdir, ?_, fun k hk ho => ?_, fun k hk => ?_, h.link, h.user, ?_⟩
  · simp only [removed, Disk.setInfo, Disk.setMdir, Disk.setMnt, upd_ne _ _ (Ne.symm hne)]; exact h.mnt
  · have := h.others k hk (fun x => x)
    simpa only [removed, Disk.setInfo, Disk.setMdir, Disk.setMnt, upd_ne _ _ ho] using this
  · subst hk; simp [removed, Disk.setInfo, Disk.setMdir, Disk.setMnt]
  · simp only [removed, Disk.setInfo, Disk.setMdir, Disk.setMnt, upd_ne _ _ (Ne.symm hne)]; exact h.mdir

/-- What a finished commit leaves. -/
theorem after_commit {d d' : Disk} {g : Str → Option TS} (h : Steady E d g) {cwd : Str} {ci : CommitInfo} {w : OpenWs} {u p : UID} {T : TS}
    (hF : Found E d g cwd (lit ".") w u p T) {r : OpenWs × OpenWs} (he : Exec E f (commitCmd E cwd ci) d (.ok r) d') :
    r.1 = w ∧ Follows w.tree.abs w.ws u ∧ ∃ u' ls g' w2, Steady E d' g' ∧ Grew E d g d' g' ∧ Kept g g' ∧ w.tree.abs.Path u ls ∧
      Opens E d' cwd (lit ".") w2 u' u ∧ w2.ws.id = w.ws.id ∧ w2.spaceID = w.spaceID ∧ w2.ws.branch = w.ws.branch ∧
      ¬ w.tree.abs.Has u' ∧ w2.tree.abs = w.tree.abs.commit w.ws.onBranch u u' (sanitize ci.date) (sanitize ci.message) ∧
      Fresh E d d' w2.mount.id.base32 (· = w.mount.id.base32) u' ls w.ws.path ∧ ¬ Head E d' u := by
  obtain ⟨h1, hfo, u', ls, d1, hC, hP, _, hL, rfl⟩ := wpm_exec (commitCmd_wp (f := f) (ci := ci) hF.opens hF.mdir) he
  have hlate := placed_late hL (space_ne hF hC.spaceDir)
  have hsg := steady_moved h hF hlate hC.spaceID hC.spaceDir hC.reach (by rw [hC.tree]; exact extends_commit (found_head h hF) hC.newNode)
    (by rw [hC.tree]; exact nodeKeys_commit (nodeKeys_back hF.back)) (fun v hv => by rw [hC.tree] at hv; exact commit_has hv) (headAt_below hC.head) hP
  have hs' := steady_removed hsg.1 w.mount.id.base32
  have hne : w.mount.id.base32 ≠ r.2.mount.id.base32 := by intro e; exact hF.mdir (by rw [e]; exact hL.newMdir)
  have hSh : r.2.tree.abs.Shallow := by
    rw [hC.tree]
    exact shallow_commit (opens_reach hF.opens) (comesBack_shallow hF.back hF.shallow) hC.newNode hP (fits_small hL.fits)
  have hu8 := comesBack_is_utf8 hF.back
  have hout := hF.opens.out
  have hdir : r.2.spaceDir = r.2.spaceID.base32 := by rw [hC.spaceDir, hC.spaceID]; exact hF.opens.dir
  obtain ⟨w2, o, e1, e2, e3, e4, e5⟩ := reopened (cwd := cwd) (path := lit ".") hs' hL rfl
    (by simp only [removed, Disk.setInfo, Disk.setMdir, Disk.setMnt, upd_ne _ _ (Ne.symm hne)])
    (by rw [hC.path]; exact hF.opens.path) hout hdir (by rw [hC.spaceDir]; exact upd_self _ _ _) hSh (headAt_below hC.head)
  refine ⟨h1, hfo, u', ls, _, w2, hs', grew_trans h hsg.2 (grew_removed _ _ _), kept_upd hSh, hP, o, e1.trans hC.id, e2.trans hC.spaceID, ?_, hC.newNode, ?_, ?_, ?_⟩
  · rw [e4, hC.branch]
    obtain ⟨i, _, _, _, _, _, i6⟩ := hF.opens.info
    rw [← i6, sanitize_idem]
  · rw [hC.tree] at e5
    have hn : (w.tree.abs.commit w.ws.onBranch u u' ci.date ci.message).Named := by
      refine named_commit (utf8_named hu8) fun x hx => ?_
      obtain ⟨hd, hb, _⟩ := hfo x hx
      exact hu8.branch x hd hb
    rw [comesBack_named e5 hn, tidy_commit, tidy_utf8 hu8]
  · have := fresh_removed (fresh_placed hL) hne
    rw [e3]; rwa [hC.path] at this
  · rintro ⟨n, rr, a1, a2⟩
    have hd : d.HasDiff u := head_stored h (found_head h hF)
    have hn1 : n ≠ w.mount.id.base32 := by rintro rfl; simp [removed, Disk.setInfo] at a1
    simp only [removed, Disk.setInfo, Disk.setMdir, Disk.setMnt, upd_ne _ _ hn1] at a1
    rw [hL.info] at a1
    by_cases hn : n = r.2.mount.id.base32
    · subst hn
      rw [upd_self, ← recOf_bytes, Option.some.injEq] at a1
      have : u' = rr.head := (rec_bytes_inj a1).2.2.2.1
      rw [← this] at a2; subst a2
      obtain ⟨c, hc⟩ := hd
      rw [hL.newLayer] at hc; cases hc
    · rw [upd_ne _ _ hn] at a1
      obtain ⟨r0, r1, _, _, _, r5, _⟩ := rec_of_opens h hF.opens
      exact hn1 (h.heads n _ rr r0 a1 r1 (by rw [a2, r5]))

/-- What a finished checkout leaves. -/
theorem after_checkout {d d' : Disk} {g : Str → Option TS} (h : Steady E d g) {cwd key : Str} {w : OpenWs} {u p : UID} {T : TS}
    (hF : Found E d g cwd (lit ".") w u p T) {r : OpenWs × OpenWs} (he : Exec E f (checkoutCmd E cwd key) d (.ok r) d') :
    r.1 = w ∧ ∃ v kt u' ls g' w2, Ws.Resolves w.tree.abs w.ws.id p key v kt ∧ Steady E d' g' ∧ Grew E d g d' g' ∧ Kept g g' ∧ w.tree.abs.Path v ls ∧
      Opens E d' cwd (lit ".") w2 u' v ∧ w2.ws.id = w.ws.id ∧ w2.spaceID = w.spaceID ∧ w2.ws.branch = sanitize (branchAfter key kt) ∧
      ¬ w.tree.abs.Has u' ∧ w2.tree.abs = w.tree.abs.add (some v) u' (fun _ => none) (fun _ => none) ∧
      Fresh E d d' w2.mount.id.base32 (· = w.mount.id.base32) u' ls w.ws.path := by
  have hk := plain_of_checkout he
  obtain ⟨h1, v, kt, u', ls, d1, hR, hC, hP, _, hL, rfl⟩ := wpm_exec (checkoutCmd_wp (f := f) hF.opens hk hF.mdir) he
  have hlate := placed_late hL (space_ne hF hC.spaceDir)
  have hsg := steady_moved h hF hlate hC.spaceID hC.spaceDir hC.reach (by rw [hC.tree]; exact extends_add hC.newNode)
    (by rw [hC.tree]; exact nodeKeys_add (nodeKeys_back hF.back)) (fun v hv => by rw [hC.tree] at hv; exact add_has.1 hv) (headAt_below hC.head) hP
  have hs' := steady_removed hsg.1 w.mount.id.base32
  have hne : w.mount.id.base32 ≠ r.2.mount.id.base32 := by intro e; exact hF.mdir (by rw [e]; exact hL.newMdir)
  have hSh : r.2.tree.abs.Shallow := by
    rw [hC.tree]
    exact shallow_add (reach_rooted (opens_reach hF.opens)) (comesBack_shallow hF.back hF.shallow) hC.newNode hP (fits_small hL.fits)
  have hu8 := comesBack_is_utf8 hF.back
  have hdir : r.2.spaceDir = r.2.spaceID.base32 := by rw [hC.spaceDir, hC.spaceID]; exact hF.opens.dir
  obtain ⟨w2, o, e1, e2, e3, e4, e5⟩ := reopened (cwd := cwd) (path := lit ".") hs' hL rfl
    (by simp only [removed, Disk.setInfo, Disk.setMdir, Disk.setMnt, upd_ne _ _ (Ne.symm hne)])
    (by rw [hC.path]; exact hF.opens.path) hF.opens.out hdir (by rw [hC.spaceDir]; exact upd_self _ _ _) hSh (headAt_below hC.head)
  refine ⟨h1, v, kt, u', ls, _, w2, hR, hs', grew_trans h hsg.2 (grew_removed _ _ _), kept_upd hSh, hP, o, e1.trans hC.id, e2.trans hC.spaceID, ?_, hC.newNode, ?_, ?_⟩
  · rw [e4, hC.branch]
  · rw [hC.tree] at e5
    rw [comesBack_named e5 (named_add (utf8_named hu8)), tidy_add, tidy_utf8 hu8]
  · have := fresh_removed (fresh_placed hL) hne
    rw [e3]; rwa [hC.path] at this

/-- What a finished clone leaves. -/
theorem after_clone {d d' : Disk} {g : Str → Option TS} (h : Steady E d g) {cwd source cwd2 path2 : Str} {w : OpenWs} {u p : UID} {T : TS}
    (hF : Found E d g cwd source w u p T) (hout2 : E.Outside (Path.abs cwd2 path2)) {w' : OpenWs}
    (he : Exec E f (cloneCmd E cwd source (Path.abs cwd2 path2)) d (.ok w') d') :
    ∃ u' ls g' w2, Steady E d' g' ∧ Grew E d g d' g' ∧ Kept g g' ∧ w.tree.abs.Path p ls ∧
      Opens E d' cwd2 path2 w2 u' p ∧ (Calm f d → w2.ws.id ∉ d.used) ∧ w2.spaceID = w.spaceID ∧ w2.ws.branch = w.ws.branch ∧
      ¬ w.tree.abs.Has u' ∧ w2.tree.abs = w.tree.abs.add (some p) u' (fun _ => none) (fun _ => none) ∧
      Fresh E d d' w2.mount.id.base32 (fun _ => False) u' ls (Path.abs cwd2 path2) := by
  obtain ⟨u', ls, hC, hP, hcalm, _, hL⟩ := wpm_exec (cloneCmd_wp (f := f) hF.opens (off_of_outside hout2)) he
  have hlate := placed_late hL (space_ne hF hC.spaceDir)
  have hsg := steady_moved h hF hlate hC.spaceID hC.spaceDir hC.reach (by rw [hC.tree]; exact extends_add hC.newNode)
    (by rw [hC.tree]; exact nodeKeys_add (nodeKeys_back hF.back)) (fun v hv => by rw [hC.tree] at hv; exact add_has.1 hv) (headAt_below hC.head) hP
  have hSh : w'.tree.abs.Shallow := by
    rw [hC.tree]
    exact shallow_add (reach_rooted (opens_reach hF.opens)) (comesBack_shallow hF.back hF.shallow) hC.newNode hP (fits_small hL.fits)
  have hu8 := comesBack_is_utf8 hF.back
  have hdir : w'.spaceDir = w'.spaceID.base32 := by rw [hC.spaceDir, hC.spaceID]; exact hF.opens.dir
  obtain ⟨w2, o, e1, e2, e3, e4, e5⟩ := reopened (cwd := cwd2) (path := path2) hsg.1 hL rfl rfl
    hC.path hout2 hdir (by rw [hC.spaceDir]; exact upd_self _ _ _) hSh (headAt_below hC.head)
  refine ⟨u', ls, _, w2, hsg.1, hsg.2, kept_upd hSh, hP, o, fun hc => by rw [e1]; exact (hcalm hc).2, e2.trans hC.spaceID, ?_, hC.newNode, ?_, ?_⟩
  · rw [e4, hC.branch]
    obtain ⟨i, _, _, _, _, _, i6⟩ := hF.opens.info
    rw [← i6, sanitize_idem]
  · rw [hC.tree] at e5
    rw [comesBack_named e5 (named_add (utf8_named hu8)), tidy_add, tidy_utf8 hu8]
  · have := fresh_placed hL
    rw [e3]; rwa [hC.path] at this

theorem comesBack_oneBranch {a a' : ATree} {b : Str} {u : UID} (h : ComesBack a a') (hb : ∀ x v, a.branch x = some v ↔ x = b ∧ v = u)
    (ht : ∀ t v, a.tag t = some v → validUtf8 t) (hn : ∀ x n, a.node x = some n → n.anno = (fun _ => none) ∧ n.data = fun _ => none) :
    a' = { a with branch := upd (fun _ => none) (sanitize b) (some u) } := by
  apply atree_ext
  · intro x
    cases hx : a.node x with
    | none => rw [h.gone x hx]
    | some n =>
      obtain ⟨n', h1, h2, h3, h4⟩ := h.node x n hx
      obtain ⟨e1, e2⟩ := hn x n hx
      rw [h1, Option.some.injEq]
      cases n with
      | mk p an da =>
        cases n' with
        | mk p' an' da' =>
          simp only at h2 h3 h4 e1 e2
          subst h2 e1 e2
          congr
          · funext k; cases hk : an' k with
            | none => rfl
            | some w => obtain ⟨_, _, hz, _⟩ := (h3 k w).1 hk; cases hz
          · funext k; cases hk : da' k with
            | none => rfl
            | some w => obtain ⟨_, _, hz, _⟩ := (h4 k w).1 hk; cases hz
  · exact h.root
  · intro x
    show _ = upd (fun _ => none) (sanitize b) (some u) x
    by_cases hx : x = sanitize b
    · subst hx
      rw [upd_self]
      exact (h.branch _ _).2 ⟨b, u, (hb b u).2 ⟨rfl, rfl⟩, rfl, rfl, fun k1 v1 h1 _ => by rw [((hb k1 v1).1 h1).1]; exact strLe_refl _⟩
    · rw [upd_ne _ _ hx]
      cases hk : a'.branch x with
      | none => rfl
      | some v =>
        obtain ⟨k0, v0, h1, _, h2, _⟩ := (h.branch x v).1 hk
        rw [((hb k0 v0).1 h1).1] at h2
        exact absurd h2.symm hx
  · intro x
    rw [cleaned_valid h.tag ht]
    show (a.tag x).map _ = a.tag x
    simp

/-- What a finished init leaves. -/
theorem after_init {d d' : Disk} {g : Str → Option TS} (h : Steady E d g) {cwd path branch : Str} (hout : E.Outside (Path.abs cwd path)) {w' : OpenWs}
    (he : Exec E f (initCmd E (Path.abs cwd path) branch) d (.ok w') d') :
    ∃ root u' dp g' w2, Founded d dp w2.spaceDir root ∧ Steady E d' g' ∧ Grew E d g d' g' ∧ Kept g g' ∧ u' ≠ root ∧
      Opens E d' cwd path w2 u' root ∧ (Calm f d → w2.ws.id ∉ d.used) ∧ w2.ws.branch = sanitize branch ∧
      w2.tree.abs = ((ATree.first root).add (some root) u' (fun _ => none) (fun _ => none)).setBranch (w2.ws.id.base32 ++ lit "/" ++ sanitize branch) root ∧
      Fresh E dp d' w2.mount.id.base32 (fun _ => False) u' [root] (Path.abs cwd path) ∧
      ∃ b, SavesAs E.sh w'.tree b ∧ d'.space = upd dp.space w2.spaceDir (some (some b)) := by
  obtain ⟨_, root, u', dp, hFo, hC, hcalm, _, hL⟩ := wpm_exec (initCmd_wp (f := f) (off_of_outside hout)) he
  have hlate := placed_late hL (by rw [hFo.space]; simp)
  have hg : ∀ T0, g w'.spaceDir = some T0 → Extends (Head E dp) T0.abs w'.tree.abs := by
    intro T0 hT0
    obtain ⟨b, hb⟩ := h.saved _ _ hT0
    rw [hFo.newSpace] at hb; cases hb
  have hroot : w'.tree.abs.node root = some ⟨none, fun _ => none, fun _ => none⟩ := by
    rw [hC.tree]
    simp only [ATree.setBranch, ATree.add, ATree.first, ATree.setTag, upd_ne _ _ (Ne.symm hC.newNode), upd_self]
  have hkeys : NodeKeys w'.tree.abs := by
    rw [hC.tree]
    have hk0 : NodeKeys ATree.empty := nofun
    have h1 : NodeKeys (ATree.first root) := nodeKeys_add hk0
    exact nodeKeys_add h1
  have hhas : ∀ v, w'.tree.abs.Has v → v = u' ∨ v = root := by
    intro v hv
    rw [hC.tree] at hv
    have hv' : ((ATree.first root).add (some root) u' (fun _ => none) (fun _ => none)).Has v := hv
    rcases add_has.1 hv' with hv | hv
    · exact Or.inl hv
    · have hv2 : (ATree.empty.add none root (fun _ => none) (fun _ => none)).Has v := hv
      rcases add_has.1 hv2 with rfl | ⟨n, hn⟩
      · exact Or.inr rfl
      · cases hn
  have hst : ∀ v, w'.tree.abs.Has v → v = u' ∨ dp.HasDiff v := fun v hv =>
    (hhas v hv).imp_right fun e => by subst e; exact ⟨_, by rw [hFo.layer]; exact upd_self _ _ _⟩
  have hs' := steady_late (steady_litter h hFo.litter) hlate hC.spaceDir hg hkeys hC.reach hst (headAt_below hC.head) (.root hroot rfl)
    (fun v hh hv => (founded_heads h hFo hlate.newLayer hh (hhas v hv)).elim)
  have hgr := grew_trans h (grew_litter hFo.litter) (grew_late hlate hg)
  have hnode : ∀ x n, w'.tree.abs.node x = some n → n.anno = (fun _ => none) ∧ n.data = fun _ => none := by
    intro x n hx
    by_cases e1 : x = u'
    · subst e1
      rw [hC.tree] at hx
      simp only [ATree.setBranch, ATree.add, upd_self, Option.some.injEq] at hx
      subst hx; exact ⟨rfl, rfl⟩
    · rcases hhas x ⟨n, hx⟩ with e | rfl
      · exact absurd e e1
      · rw [hroot] at hx; cases hx; exact ⟨rfl, rfl⟩
  have hSh : w'.tree.abs.Shallow := by
    have hfr : (ATree.first root).Path root [root] := .root (n := ⟨none, fun _ => none, fun _ => none⟩) (by simp [ATree.first, ATree.setTag, ATree.add]) rfl
    obtain ⟨s0, _, hr0, ha0⟩ := spaceInit_spec root
    have hS0 : (ATree.first root).Shallow := by
      intro x n l hx hp
      have hxr : x = root := by
        have hv2 : (ATree.empty.add none root (fun _ => none) (fun _ => none)).Has x := ⟨n, hx⟩
        rcases add_has.1 hv2 with rfl | ⟨n, hn⟩
        · rfl
        · cases hn
      subst hxr
      have := Ws.path_unique hp hfr
      subst this
      refine ⟨by simp, fun hc => by simp⟩
    have h2 := shallow_add (by rw [← ha0]; exact reach_rooted hr0) hS0 (u := u') (v := root) (ls := [root])
      (by rintro ⟨n, hn⟩; have hv2 : (ATree.empty.add none root (fun _ => none) (fun _ => none)).Has u' := ⟨n, hn⟩
          rcases add_has.1 hv2 with e | ⟨n, hn⟩
          · exact hC.newNode e
          · cases hn) hfr (by simp)
    exact shallow_congr (by rw [hC.tree]; rfl) h2
  obtain ⟨w2, o, e1, e2, e3, e4, e5⟩ := reopened (cwd := cwd) (path := path) hs' hL rfl rfl
    hC.path hout hC.spaceDir (upd_self _ _ _) hSh (headAt_below hC.head)
  have hsd : w2.spaceDir = w'.spaceDir := by rw [o.dir, e2, hC.spaceDir]
  refine ⟨root, u', dp, _, w2, by rw [hsd]; exact hFo, hs', hgr, kept_upd hSh, hC.newNode, o, fun hc => by rw [e1]; exact (hcalm hc).2.1, by rw [e4, hC.branch], ?_, ?_, ?_⟩
  · have hx := comesBack_oneBranch (b := w'.ws.id.base32 ++ lit "/" ++ branch) (u := root) e5 (fun x v => ?_) (fun t v ht => ?_) hnode
    · rw [hx, hC.tree, e1]
      refine atree_fields rfl rfl ?_ rfl
      have : sanitize (w'.ws.id.base32 ++ lit "/" ++ branch) = w'.ws.id.base32 ++ lit "/" ++ sanitize branch := by
        refine sanitize_append_ascii (fun b hb => ?_) branch
        rcases List.mem_append.1 hb with hb | hb
        · exact base32_ascii _ b hb
        · exact (show ∀ b ∈ lit "/", b < (0x80 : UInt8) by decide) b hb
      rw [this]; rfl
    · rw [hC.tree]
      simp only [ATree.setBranch, ATree.add, ATree.first, ATree.setTag, ATree.empty, upd]
      split
      · rename_i hh; simp only [Option.some.injEq, hh, true_and]; exact eq_comm
      · rename_i hh; exact ⟨nofun, fun e => absurd e.1 hh⟩
    · rw [hC.tree] at ht
      simp only [ATree.setBranch, ATree.add, ATree.first, ATree.setTag, ATree.empty, upd] at ht
      split at ht
      · rename_i hh; rw [hh]; exact valid_ascii (by decide)
      · cases ht
  · have := fresh_placed hL
    rw [e3]; rwa [hC.path] at this
  · obtain ⟨b, hb1, hb2⟩ := hL.space
    exact ⟨b, hb1, by rw [hsd]; exact hb2⟩

end
end Verif
