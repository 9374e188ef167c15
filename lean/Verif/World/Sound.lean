import Verif.World.SeqEdit
import Verif.World.PoolInv
/-!
# Disks that arise from commands run one after another

`Steady E d g` describes every disk that a sequence of finished commands can leave; `g` names the tree saved in each
space. It makes no claim about the files of the user. Files that cannot be read are allowed, so that disks which killed and
overlapping commands left are covered too (`Verif.World.Settle`).
-/
set_option autoImplicit false
namespace Verif
open M TS Json

/-- The content of a workspace record (`WorkspaceInfo`, pkg/manager/manager_default.go:116-123). -/
structure WsRec where
  ws : UID
  space : UID
  mount : UID
  head : UID
  path : Str
  branch : Str

/-- The record as the manager marshals it. -/
def WsRec.info (r : WsRec) : WsInfo := ⟨r.ws.base32, r.path, r.head.hex, r.space.base32, r.mount.base32, r.branch⟩

def WsRec.bytes (E : Env) (r : WsRec) : Str := marshalInfo E.sh r.info

theorem sanitize_idem (s : Str) : sanitize (sanitize s) = sanitize s := sanitize_valid (valid_sanitize s)

theorem rec_bytes_inj {E : Env} {r r' : WsRec} (h : r.bytes E = r'.bytes E) :
    r.ws = r'.ws ∧ r.space = r'.space ∧ r.mount = r'.mount ∧ r.head = r'.head ∧ sanitize r.path = sanitize r'.path ∧ sanitize r.branch = sanitize r'.branch := by
  have h1 := C17_info_roundtrip E.sh r.info
  have h2 := C17_info_roundtrip E.sh r'.info
  have h' : marshalInfo E.sh r.info = marshalInfo E.sh r'.info := h
  rw [h', h2] at h1
  simp only [WsRec.info, sanitize_base32, sanitize_hex, Option.some.injEq, WsInfo.mk.injEq] at h1
  obtain ⟨e1, e2, e3, e4, e5, e6⟩ := h1
  have hh : r'.head = r.head := by
    have := C01_hex_roundtrip r.head
    rw [← e3, C01_hex_roundtrip] at this
    simpa using this
  exact ⟨(base32_inj e1).symm, (base32_inj e4).symm, (base32_inj e5).symm, hh.symm, e2.symm, e6.symm⟩

/-- Two nodes with the same parent, annotations (as they are read back) and data. -/
def SameNode (n n' : ANode) : Prop :=
  n'.parent = n.parent ∧ (∀ k, (n'.anno k).map sanitize = (n.anno k).map sanitize) ∧ n'.data = n.data

theorem sameNode_refl (n : ANode) : SameNode n n := ⟨rfl, fun _ => rfl, rfl⟩

theorem sameNode_trans {n1 n2 n3 : ANode} (h : SameNode n1 n2) (h' : SameNode n2 n3) : SameNode n1 n3 :=
  ⟨h'.1.trans h.1, fun k => (h'.2.1 k).trans (h.2.1 k), h'.2.2.trans h.2.2⟩

/-- Every node of the first tree is in the second, below the same parent; only nodes in `S` have other texts. -/
def Extends (S : UID → Prop) (a a' : ATree) : Prop :=
  ∀ u n, a.node u = some n → ∃ n', a'.node u = some n' ∧ n'.parent = n.parent ∧ (¬ S u → SameNode n n')

section
variable {S : UID → Prop}

theorem extends_refl (a : ATree) : Extends S a a := fun _ n h => ⟨n, h, rfl, fun _ => sameNode_refl n⟩

theorem extends_trans {a b c : ATree} (h : Extends S a b) (h' : Extends S b c) : Extends S a c := by
  intro u n hn
  obtain ⟨n1, h1, e1, f1⟩ := h u n hn
  obtain ⟨n2, h2, e2, f2⟩ := h' u n1 h1
  exact ⟨n2, h2, e2.trans e1, fun hs => sameNode_trans (f1 hs) (f2 hs)⟩

theorem extends_mono {S' : UID → Prop} {a b : ATree} (h : Extends S a b) (hs : ∀ u, a.Has u → S u → S' u) : Extends S' a b := by
  intro u n hn
  obtain ⟨n1, h1, e1, f1⟩ := h u n hn
  exact ⟨n1, h1, e1, fun hx => f1 fun hy => hx (hs u ⟨n, hn⟩ hy)⟩

theorem extends_path {a b : ATree} (h : Extends S a b) {u : UID} {l : List UID} (hp : a.Path u l) : b.Path u l := by
  induction hp with
  | root h1 h2 => obtain ⟨n', e1, e2, _⟩ := h _ _ h1; exact .root e1 (e2.trans h2)
  | step h1 h2 _ ih => obtain ⟨n', e1, e2, _⟩ := h _ _ h1; exact .step e1 (e2.trans h2) ih

theorem extends_has {a b : ATree} (h : Extends S a b) {u : UID} (hu : a.Has u) : b.Has u := by
  obtain ⟨n, hn⟩ := hu
  obtain ⟨n', h', _⟩ := h u n hn
  exact ⟨n', h'⟩

/-- The keys of all annotations and data are valid UTF-8. -/
def NodeKeys (a : ATree) : Prop :=
  ∀ u n, a.node u = some n → (∀ k v, n.anno k = some v → validUtf8 k) ∧ ∀ k v, n.data k = some v → validUtf8 k

theorem extends_comesBack {a b : ATree} (h : ComesBack a b) (hk : NodeKeys a) : Extends S a b := fun u n hn => by
  obtain ⟨n', h1, h2, h3, h4⟩ := h.node u n hn
  refine ⟨n', h1, h2, fun _ => ⟨h2, fun k => ?_, ?_⟩⟩
  · rw [cleaned_valid h3 (hk u n hn).1]
    show ((n.anno k).map sanitize).map sanitize = _
    cases n.anno k with
    | none => rfl
    | some v => simp only [Option.map_some, sanitize_idem]
  · rw [cleaned_valid h4 (hk u n hn).2]; simp

theorem nodeKeys_back {a b : ATree} (h : ComesBack a b) : NodeKeys b := by
  intro u n' hn'
  cases hx : a.node u with
  | none => rw [h.gone u hx] at hn'; cases hn'
  | some n =>
    obtain ⟨n2, h1, _, h3, h4⟩ := h.node u n hx
    rw [hn'] at h1; cases h1
    refine ⟨fun k v hk => ?_, fun k v hk => ?_⟩
    · obtain ⟨k0, _, _, _, rfl, _⟩ := (h3 k v).1 hk; exact valid_sanitize k0
    · obtain ⟨k0, _, _, _, rfl, _⟩ := (h4 k v).1 hk; exact valid_sanitize k0

/-- The head of a record is in the tree, below `p`. -/
def Below (a : ATree) (u p : UID) : Prop := ∃ n, a.node u = some n ∧ n.parent = some p

theorem extends_below {a b : ATree} (h : Extends S a b) {u p : UID} (hb : Below a u p) : Below b u p := by
  obtain ⟨n, h1, h2⟩ := hb
  obtain ⟨n', e1, e2, _⟩ := h u n h1
  exact ⟨n', e1, e2.trans h2⟩

end

/-- The working layer of some workspace. -/
def Head (E : Env) (d : Disk) (u : UID) : Prop := ∃ (n : Str) (r : WsRec), d.info n = some (r.bytes E) ∧ r.head = u

/-- No tree can be read from these bytes: they are the beginning of a text, or a text too deep to be decoded. -/
structure Broken (b : Str) : Prop where
  ok : ∃ e, spaceLoad (.ok b) = .err e
  torn : ∀ q, q <+: b → ∃ e, spaceLoad (.failed q) = .err e

/-- The record `r` of mount `n` has its mount directory and its layer. If the tree has the layer then it is no root. (A
command that was killed, or two that ran at once, may leave a record whose layer no tree has.) -/
structure Backed (d : Disk) (g : Str → Option TS) (n : Str) (r : WsRec) : Prop where
  name : n = r.mount.base32
  mdir : d.mdir n ≠ none
  head : d.HasDiff r.head
  below : ∀ T, g r.space.base32 = some T → T.abs.Has r.head → ∃ p, Below T.abs r.head p

structure Steady (E : Env) (d : Disk) (g : Str → Option TS) : Prop where
  tracked : Tracked d
  tree : ∀ n b, d.space n = some (some b) → (∃ T, g n = some T ∧ Reads T b) ∨ (g n = none ∧ Broken b)
  saved : ∀ n T, g n = some T → ∃ b, d.space n = some (some b)
  reach : ∀ n T, g n = some T → Reach T
  stored : ∀ n T, g n = some T → Stored d T.abs
  keys : ∀ n T, g n = some T → NodeKeys T.abs
  info : ∀ n x, d.info n = some x → unmarshalInfo x = none ∨ ∃ r : WsRec, x = r.bytes E ∧ Backed d g n r
  mnt : ∀ n m, d.mnt n = some m → ∃ r : WsRec, d.info n = some (r.bytes E) ∧ m.upper = r.head ∧ (∀ v ∈ m.lowers, d.HasDiff v) ∧
    ∀ T p, g r.space.base32 = some T → Below T.abs r.head p → T.abs.Path p m.lowers
  heads : ∀ (n n' : Str) (r r' : WsRec), d.info n = some (r.bytes E) → d.info n' = some (r'.bytes E) → r.head = r'.head → n = n'

section
variable {E : Env} {f : Faults}

theorem backed_of_rec {d : Disk} {g : Str → Option TS} (h : Steady E d g) {n : Str} {r : WsRec} (hx : d.info n = some (r.bytes E)) : Backed d g n r := by
  rcases h.info n _ hx with h1 | ⟨r', e1, e2⟩
  · rw [WsRec.bytes, C17_info_roundtrip] at h1; cases h1
  · obtain ⟨_, i2, i3, i4, _⟩ := rec_bytes_inj e1
    exact ⟨by rw [e2.name, i3], e2.mdir, by rw [i4]; exact e2.head, by rw [i2, i4]; exact e2.below⟩

theorem head_stored {d : Disk} {g : Str → Option TS} (h : Steady E d g) {u : UID} (hu : Head E d u) : d.HasDiff u := by
  obtain ⟨n, r, hx, rfl⟩ := hu
  exact (backed_of_rec h hx).head

/-- What is written through a mount goes to a working layer. -/
theorem mnt_head {d : Disk} {g : Str → Option TS} (h : Steady E d g) {n : Str} {m : Mnt} (hm : d.mnt n = some m) : Head E d m.upper := by
  obtain ⟨r, e1, e2, _⟩ := h.mnt n m hm
  exact ⟨n, r, e1, e2.symm⟩

theorem steady_litter {d d' : Disk} {g : Str → Option TS} (h : Steady E d g) (hl : Litter d d') : Steady E d' g := by
  refine ⟨hl.tracked h.tracked, fun n b hn => ?_, fun n T hT => ?_, h.reach, fun n T hT => litter_stored hl (h.stored n T hT), h.keys, fun n x hx => ?_, fun n m hm => ?_, ?_⟩
  · rcases hl.space n with e | ⟨_, e⟩
    · rw [e] at hn; exact h.tree n b hn
    · rw [e] at hn; cases hn
  · obtain ⟨b, hb⟩ := h.saved n T hT
    exact ⟨b, by rw [litter_space_eq hl (by rw [hb]; simp), hb]⟩
  · rw [hl.info] at hx
    exact (h.info n x hx).imp_right fun ⟨r, h1, h2⟩ => ⟨r, h1, h2.name, by rw [litter_mdir_eq hl h2.mdir]; exact h2.mdir, litter_hasDiff hl h2.head, h2.below⟩
  · rw [hl.mnt] at hm
    rw [hl.info]
    obtain ⟨r, h1, h2, h3, h4⟩ := h.mnt n m hm
    exact ⟨r, h1, h2, fun v hv => litter_hasDiff hl (h3 v hv), h4⟩
  · rw [hl.info]; exact h.heads

theorem steady_removed {d : Disk} {g : Str → Option TS} (h : Steady E d g) (n : Str) : Steady E (removed n d) g := by
  have hi : ∀ k x, (removed n d).info k = some x → k ≠ n ∧ d.info k = some x := by
    intro k x hx
    by_cases hk : k = n
    · subst hk; simp [removed, Disk.setInfo] at hx
    · exact ⟨hk, by simpa only [removed, Disk.setInfo, Disk.setMdir, Disk.setMnt, upd_ne _ _ hk] using hx⟩
  refine ⟨⟨h.tracked.layer, h.tracked.space, fun k hk => ?_, fun k hk => ?_, fun k hk => ?_⟩, h.tree, h.saved, h.reach, h.stored, h.keys, fun k x hx => ?_, fun k m hm => ?_, ?_⟩
  · by_cases e : k = n
    · subst e; simp [removed, Disk.setInfo, Disk.setMdir] at hk
    · exact h.tracked.mdir k (by simpa only [removed, Disk.setInfo, Disk.setMdir, Disk.setMnt, upd_ne _ _ e] using hk)
  · cases hx : (removed n d).info k with
    | none => exact absurd hx hk
    | some x => exact h.tracked.info k (by rw [(hi k x hx).2]; simp)
  · by_cases e : k = n
    · subst e; simp [removed, Disk.setInfo, Disk.setMdir, Disk.setMnt] at hk
    · exact h.tracked.mnt k (by simpa only [removed, Disk.setInfo, Disk.setMdir, Disk.setMnt, upd_ne _ _ e] using hk)
  · obtain ⟨hne, hx⟩ := hi k x hx
    exact (h.info k x hx).imp_right fun ⟨r, h1, h2⟩ =>
      ⟨r, h1, h2.name, by simpa only [removed, Disk.setInfo, Disk.setMdir, Disk.setMnt, upd_ne _ _ hne] using h2.mdir, h2.head, h2.below⟩
  · have hne : k ≠ n := by rintro rfl; simp [removed, Disk.setInfo, Disk.setMdir, Disk.setMnt] at hm
    have hm' : d.mnt k = some m := by simpa only [removed, Disk.setInfo, Disk.setMdir, Disk.setMnt, upd_ne _ _ hne] using hm
    obtain ⟨r, h1, h2⟩ := h.mnt k m hm'
    exact ⟨r, by simpa only [removed, Disk.setInfo, Disk.setMdir, Disk.setMnt, upd_ne _ _ hne] using h1, h2⟩
  · intro k k' r r' h1 h2 h3
    exact h.heads k k' r r' (hi _ _ h1).2 (hi _ _ h2).2 h3

theorem steady_same {d d' : Disk} {g : Str → Option TS} (h : Steady E d g) (ht : Tracked d') (hs : d'.space = d.space) (hi : d'.info = d.info)
    (hm : ∀ n m, d'.mnt n = some m → d.mnt n = some m) (hmd : ∀ n, d.mdir n ≠ none → d'.mdir n ≠ none)
    (hl : ∀ u, d.HasDiff u → d'.HasDiff u) : Steady E d' g := by
  refine ⟨ht, by rw [hs]; exact h.tree, by rw [hs]; exact h.saved, h.reach, fun n T hT u hu => hl u (h.stored n T hT u hu), h.keys, fun n x hx => ?_, fun n m hx => ?_, by rw [hi]; exact h.heads⟩
  · rw [hi] at hx
    exact (h.info n x hx).imp_right fun ⟨r, h1, h2⟩ => ⟨r, h1, h2.name, hmd n h2.mdir, hl _ h2.head, h2.below⟩
  · rw [hi]
    obtain ⟨r, h1, h2, h3, h4⟩ := h.mnt n m (hm n m hx)
    exact ⟨r, h1, h2, fun v hv => hl v (h3 v hv), h4⟩

theorem put_hasDiff {d : Disk} {v : UID} {c : Content} {u : UID} (h : d.HasDiff u) : (d.put v c).HasDiff u := by
  rcases put_layer d v u c with e | ⟨_, _, e⟩
  · rw [Disk.HasDiff, e]; exact h
  · exact ⟨c, e⟩

theorem put_tracked {d : Disk} {v : UID} {c : Content} (h : Tracked d) : Tracked (d.put v c) := by
  obtain ⟨e1, e2, e3, e4, e5, e6⟩ := put_rest d v c
  refine ⟨fun u hu => ?_, by rw [e1, e6]; exact h.space, by rw [e2, e6]; exact h.mdir, by rw [e3, e6]; exact h.info, by rw [e4, e6]; exact h.mnt⟩
  rw [e6]
  rcases put_layer d v u c with e | ⟨rfl, ⟨c0, h0⟩, _⟩
  · rw [e] at hu; exact h.layer u hu
  · exact h.layer u (by rw [h0]; simp)

/-- The user writes files. -/
theorem steady_put {d : Disk} {g : Str → Option TS} (h : Steady E d g) (v : UID) (c : Content) : Steady E (d.put v c) g := by
  obtain ⟨e1, e2, e3, e4, e5, e6⟩ := put_rest d v c
  exact steady_same h (put_tracked h.tracked) e1 e3 (fun n m hm => by rw [← e4]; exact hm) (fun n hn => by rw [e2]; exact hn) (fun u hu => put_hasDiff hu)

theorem steady_wiped {d d' : Disk} {g : Str → Option TS} {n : Str} (h : Steady E d g) (hw : Wiped f n d d') : Steady E d' g := by
  obtain ⟨_, mt, c, wk, _, _, rfl⟩ := hw
  obtain ⟨e1, e2, e3, e4, e5, e6⟩ := put_rest d mt.upper c
  have hp := steady_put h mt.upper c
  have hmd : ∀ k, (d.put mt.upper c).mdir k ≠ none ↔ ((d.put mt.upper c).setMdir n ((d.mdir n).map fun x => { x with work := wk })).mdir k ≠ none := by
    intro k
    by_cases hk : k = n
    · subst hk
      simp [Disk.setMdir, e2]
    · simp [Disk.setMdir, upd_ne _ _ hk]
  refine steady_same hp ⟨hp.tracked.layer, hp.tracked.space, fun k hk => hp.tracked.mdir k ((hmd k).2 hk), hp.tracked.info, hp.tracked.mnt⟩ rfl rfl (fun k m hm => hm)
    (fun k hk => (hmd k).1 hk) (fun u hu => hu)

/-- Files are written where nothing is mounted. -/
theorem steady_stray {d : Disk} {g : Str → Option TS} {n : Str} {m m' : MDir} (h : Steady E d g) (hm : d.mdir n = some m) : Steady E (d.setMdir n (some m')) g := by
  have hmd : ∀ k, (d.setMdir n (some m')).mdir k ≠ none ↔ d.mdir k ≠ none := by
    intro k
    by_cases hk : k = n
    · subst hk; simp [Disk.setMdir, hm]
    · simp [Disk.setMdir, upd_ne _ _ hk]
  exact steady_same h ⟨h.tracked.layer, h.tracked.space, fun k hk => h.tracked.mdir k ((hmd k).1 hk), h.tracked.info, h.tracked.mnt⟩ rfl rfl (fun _ _ hx => hx)
    (fun k hk => (hmd k).2 hk) (fun _ hu => hu)

/-- A restart of the machine, and changes of the files of the user outside the workspaces. -/
theorem steady_reboot {d : Disk} {g : Str → Option TS} (h : Steady E d g) : Steady E { d with mnt := fun _ => none } g :=
  steady_same h ⟨h.tracked.layer, h.tracked.space, h.tracked.mdir, h.tracked.info, fun _ hn => absurd rfl hn⟩ rfl rfl (fun _ _ hm => nomatch hm) (fun _ hn => hn) (fun _ hu => hu)

theorem steady_user {d : Disk} {g : Str → Option TS} (h : Steady E d g) (us : Str → UEnt) : Steady E { d with user := us } g :=
  steady_same h ⟨h.tracked.layer, h.tracked.space, h.tracked.mdir, h.tracked.info, h.tracked.mnt⟩ rfl rfl (fun _ _ hm => hm) (fun _ hn => hn) (fun _ hu => hu)

/-- The record of `w`. -/
def recOf (w : OpenWs) (u : UID) : WsRec := ⟨w.ws.id, w.spaceID, w.mount.id, u, w.ws.path, (Ws.branchInfo w.ws).localName⟩

theorem recOf_bytes (w : OpenWs) (u : UID) : (recOf w u).bytes E = marshalInfo E.sh (infoOf w u) := rfl

theorem steady_late {d d' : Disk} {g : Str → Option TS} {w : OpenWs} {u p : UID} {ls : List UID} (h : Steady E d g) (hL : Late E d d' w w.mount.id u ls)
    (hdir : w.spaceDir = w.spaceID.base32) {S : UID → Prop} (hext : ∀ T, g w.spaceDir = some T → Extends S T.abs w.tree.abs)
    (hkeys : NodeKeys w.tree.abs) (hr : Reach w.tree) (hst : ∀ v, w.tree.abs.Has v → v = u ∨ d.HasDiff v) (hb : Below w.tree.abs u p) (hp : w.tree.abs.Path p ls)
    (hback : ∀ v, Head E d v → w.tree.abs.Has v → ∃ T, g w.spaceDir = some T ∧ T.abs.Has v) :
    Steady E d' (upd g w.spaceDir (some w.tree)) := by
  obtain ⟨b, hb1, hb2⟩ := hL.space
  have hlift : ∀ {n : Str} {T : TS}, g n = some T → ∃ T', upd g w.spaceDir (some w.tree) n = some T' ∧ Extends S T.abs T'.abs := by
    intro n T hT
    by_cases hn : n = w.spaceDir
    · subst hn; exact ⟨w.tree, upd_self _ _ _, hext T hT⟩
    · exact ⟨T, by rw [upd_ne _ _ hn]; exact hT, extends_refl _⟩
  have hdiff : ∀ v, d.HasDiff v → d'.HasDiff v := by
    rintro v ⟨c, hc⟩
    refine ⟨c, ?_⟩
    rw [hL.layer v, hc]
    rintro rfl
    rw [hL.newLayer] at hc; cases hc
  have hinfo : ∀ n x, d'.info n = some x → (n = w.mount.id.base32 ∧ x = (recOf w u).bytes E) ∨ (n ≠ w.mount.id.base32 ∧ d.info n = some x) := by
    intro n x hx
    rw [hL.info] at hx
    by_cases hn : n = w.mount.id.base32
    · subst hn
      rw [upd_self] at hx
      exact Or.inl ⟨rfl, (Option.some.inj hx).symm⟩
    · rw [upd_ne _ _ hn] at hx; exact Or.inr ⟨hn, hx⟩
  have hnew : d'.HasDiff u := by obtain ⟨c, _, hc⟩ := hL.upper; exact ⟨c, hc⟩
  have hspace : upd g w.spaceDir (some w.tree) (recOf w u).space.base32 = some w.tree := by
    show upd g w.spaceDir _ w.spaceID.base32 = _
    rw [← hdir]; exact upd_self _ _ _
  have hold : ∀ {r : WsRec} {T : TS}, Head E d r.head → upd g w.spaceDir (some w.tree) r.space.base32 = some T → T.abs.Has r.head →
      ∃ T0, g r.space.base32 = some T0 ∧ T0.abs.Has r.head ∧ Extends S T0.abs T.abs := by
    intro r T hh hT hs
    by_cases hn : r.space.base32 = w.spaceDir
    · rw [hn, upd_self] at hT; cases hT
      obtain ⟨T0, h1, h2⟩ := hback _ hh hs
      exact ⟨T0, by rw [hn]; exact h1, h2, hext T0 h1⟩
    · rw [upd_ne _ _ hn] at hT
      exact ⟨T, hT, hs, extends_refl _⟩
  have hfresh : ∀ (n : Str) (r : WsRec), d.info n = some (r.bytes E) → r.head ≠ u := by
    intro n r hx e
    obtain ⟨c, hc⟩ := head_stored h ⟨n, r, hx, rfl⟩
    rw [e, hL.newLayer] at hc
    cases hc
  refine ⟨hL.tracked h.tracked, fun n b' hn => ?_, fun n T hT => ?_, fun n T hT => ?_, fun n T hT v hv => ?_, fun n T hT => ?_, fun n x hx => ?_, fun n m hm => ?_, fun n n' r r' h1 h2 h3 => ?_⟩
  · rw [hb2] at hn
    by_cases he : n = w.spaceDir
    · subst he
      rw [upd_self] at hn ⊢
      simp only [Option.some.injEq] at hn
      exact Or.inl ⟨w.tree, rfl, hn ▸ reads_saved hr hb1⟩
    · rw [upd_ne _ _ he] at hn ⊢; exact h.tree n b' hn
  · rw [hb2]
    by_cases he : n = w.spaceDir
    · subst he; exact ⟨b, upd_self _ _ _⟩
    · rw [upd_ne _ _ he] at hT ⊢; exact h.saved n T hT
  · by_cases he : n = w.spaceDir
    · subst he; rw [upd_self] at hT; cases hT; exact hr
    · rw [upd_ne _ _ he] at hT; exact h.reach n T hT
  · by_cases he : n = w.spaceDir
    · subst he; rw [upd_self] at hT; cases hT
      rcases hst v hv with rfl | hd
      · obtain ⟨c, _, hc⟩ := hL.upper; exact ⟨c, hc⟩
      · exact hdiff v hd
    · rw [upd_ne _ _ he] at hT; exact hdiff v (h.stored n T hT v hv)
  · by_cases he : n = w.spaceDir
    · subst he; rw [upd_self] at hT; cases hT; exact hkeys
    · rw [upd_ne _ _ he] at hT; exact h.keys n T hT
  · rcases hinfo n x hx with ⟨rfl, rfl⟩ | ⟨hne, hx⟩
    · exact Or.inr ⟨recOf w u, rfl, rfl, hL.mdirNew, hnew, fun T hT _ => ⟨p, by rw [hspace, Option.some.injEq] at hT; exact hT ▸ hb⟩⟩
    · refine (h.info n x hx).imp_right fun ⟨r, e1, e2⟩ => ⟨r, e1, e2.name, by rw [hL.mdir n hne]; exact e2.mdir, hdiff _ e2.head, fun T hT hh => ?_⟩
      obtain ⟨T0, f1, f2, f3⟩ := hold ⟨n, r, by rw [hx, e1], rfl⟩ hT hh
      obtain ⟨q, hq⟩ := e2.below T0 f1 f2
      exact ⟨q, extends_below f3 hq⟩
  · have hkeep : d.mnt n = some m → n ≠ w.mount.id.base32 → ∃ r : WsRec, d'.info n = some (r.bytes E) ∧ m.upper = r.head ∧ (∀ v ∈ m.lowers, d'.HasDiff v) ∧
        ∀ T p, upd g w.spaceDir (some w.tree) r.space.base32 = some T → Below T.abs r.head p → T.abs.Path p m.lowers := by
      intro hm hne
      obtain ⟨r, e1, e2, e3, e4⟩ := h.mnt n m hm
      refine ⟨r, by rw [hL.info, upd_ne _ _ hne]; exact e1, e2, fun v hv => hdiff v (e3 v hv), fun T q hT hq => ?_⟩
      obtain ⟨T0, f1, f2, f3⟩ := hold ⟨n, r, e1, rfl⟩ hT (by obtain ⟨nd, hnd, _⟩ := hq; exact ⟨nd, hnd⟩)
      obtain ⟨q0, hq0⟩ := (backed_of_rec h e1).below T0 f1 f2
      have : q0 = q := by
        obtain ⟨a, a1, a2⟩ := extends_below f3 hq0
        obtain ⟨b, b1, b2⟩ := hq
        rw [a1] at b1; cases b1
        rw [a2] at b2; simpa using b2
      subst this
      exact extends_path f3 (e4 T0 q0 f1 hq0)
    by_cases hn : n = w.mount.id.base32
    · subst hn
      rcases hL.mntNew with e | e
      · rw [e] at hm
        obtain ⟨r, e1, _⟩ := h.mnt _ m hm
        exact absurd hL.newMdir (backed_of_rec h e1).mdir
      · rw [e] at hm; cases hm
        refine ⟨recOf w u, by rw [hL.info, upd_self]; rfl, rfl, fun v hv => ?_, fun T q hT hq => ?_⟩
        · rcases hst v (path_has hp v hv) with rfl | hd
          · exact hnew
          · exact hdiff v hd
        · rw [hspace, Option.some.injEq] at hT
          subst hT
          obtain ⟨a, a1, a2⟩ := hb
          obtain ⟨b, b1, b2⟩ := hq
          have a1' : w.tree.abs.node (recOf w u).head = some a := a1
          rw [a1'] at b1; cases b1
          rw [a2] at b2; cases b2; exact hp
    · rw [hL.mnt n hn] at hm; exact hkeep hm hn
  · rcases hinfo n _ h1 with ⟨rfl, e1⟩ | ⟨_, e1⟩ <;> rcases hinfo n' _ h2 with ⟨rfl, e2⟩ | ⟨_, e2⟩
    · rfl
    · have := (rec_bytes_inj e1).2.2.2.1
      exact absurd (h3.symm.trans this) (hfresh _ _ e2)
    · have := (rec_bytes_inj e2).2.2.2.1
      exact absurd (h3.trans this) (hfresh _ _ e1)
    · exact h.heads n n' r r' e1 e2 h3

/-! ## Opening -/

/-- No component of the link at the path crashes the program (`C44_violated_newline`). -/
def PlainLink (d : Disk) (cwd path : Str) : Prop :=
  ∀ t, d.user (Path.abs cwd path) = .link t → ∀ c ∈ targetOf cwd path (some t), UID.decodeBase32 c ≠ .panic

/-- On such a disk a path opens, or the command fails having done nothing. -/
theorem opens_of_steady' {d : Disk} {g : Str → Option TS} (h : Steady E d g) {cwd path : Str} (hout : E.Outside (Path.abs cwd path))
    (hpl : ∀ t, d.user (Path.abs cwd path) = .link t → (∀ m, mountIDOf E.root cwd path (some t) ≠ .ok m) → ∃ e, mountIDOf E.root cwd path (some t) = .err e) :
    wpm E f (fun d' => d' = d) (getWorkspace E cwd path)
      (fun w d' => d' = d ∧ ∃ u p, Opens E d cwd path w u p ∧ d.mdir w.mount.id.base32 ≠ none ∧
        ∃ T, g w.spaceDir = some T ∧ T.abs.Shallow ∧ ComesBack T.abs w.tree.abs)
      (fun e d' => d' = d ∧ e.early = true) d := by
  unfold getWorkspace
  refine wpm_bind (wpm_mono (linkOf_wp (off_of_outside hout)) (fun l d1 h1 => ?_) fun e d1 h1 => ⟨h1.1, h1.2.1⟩)
  obtain ⟨rfl, h1⟩ := h1
  have hl : l = none ∨ ∃ t, d1.user (Path.abs cwd path) = .link t ∧ l = some t := by
    rcases h1 with rfl | ⟨_, rfl⟩
    · cases hu : d1.user (Path.abs cwd path) <;> simp [UEnt.target]
    · exact Or.inl rfl
  rcases hl with rfl | ⟨t, ht, rfl⟩
  · obtain ⟨e, he⟩ := leads_outside hout
    exact wpm_bind (wpm_lift_err he ⟨rfl, rfl⟩)
  by_cases hm : ∀ m, mountIDOf E.root cwd path (some t) ≠ .ok m
  · obtain ⟨e, he⟩ := hpl t ht hm
    exact wpm_bind (wpm_lift_err he ⟨rfl, rfl⟩)
  simp only [ne_eq, Classical.not_forall, Classical.not_not] at hm
  obtain ⟨m, hm⟩ := hm
  refine wpm_bind (wpm_lift_ok hm ?_)
  unfold loadInfo
  refine wpm_bind (wpm_call fun r d2 h2 => ?_)
  obtain ⟨rfl, h2⟩ := h2
  refine ⟨rfl, ?_⟩
  cases r with
  | notExist => exact wpm_fail ⟨rfl, rfl⟩
  | failed b => exact wpm_fail ⟨rfl, rfl⟩
  | ok b =>
  rcases h.info _ _ h2 with h5 | ⟨r, e1, e2⟩
  · exact wpm_lift_err (e := ()) (by rw [h5]) ⟨rfl, rfl⟩
  have hmm := base32_inj e2.name
  subst hmm
  subst e1
  refine wpm_lift_ok (a := ⟨sanitize r.info.id, sanitize r.info.path, sanitize r.info.head, sanitize r.info.spaceID, sanitize r.info.mountID, sanitize r.info.branch⟩)
    (by rw [WsRec.bytes, C17_info_roundtrip]) ?_
  simp only [WsRec.info, sanitize_base32, sanitize_hex]
  refine wpm_bind (wpm_lift_ok (C02_base32_roundtrip _) ?_)
  refine wpm_bind (wpm_lift_ok (C02_base32_roundtrip _) ?_)
  refine wpm_call fun x d3 h3 => ?_
  obtain ⟨rfl, h3⟩ := h3
  refine ⟨rfl, ?_⟩
  have fin : ∀ b0, d3.space r.space.base32 = some (some b0) → wpm E f (fun d' => d' = d3)
      (lift CErr.space (spaceLoad (.ok b0)) >>= fun s => lift (fun _ => .headHex) (UID.decodeHex r.head.hex) >>= fun hd =>
        (match s.get hd with
        | none => fail .headMissing
        | some q => return ⟨s, r.space, r.space.base32, ⟨r.mount, r.mount.base32, none⟩, ⟨r.ws, Path.abs cwd path, q, sanitize r.branch⟩⟩))
      (fun w d' => d' = d3 ∧ ∃ u p, Opens E d3 cwd path w u p ∧ d3.mdir w.mount.id.base32 ≠ none ∧
        ∃ T, g w.spaceDir = some T ∧ T.abs.Shallow ∧ ComesBack T.abs w.tree.abs) (fun e d' => d' = d3 ∧ e.early = true) d3 := by
    intro b0 hb0
    rcases h.tree _ _ hb0 with ⟨T, e4, t2⟩ | ⟨_, ⟨e, he⟩, _⟩
    · have hrT := h.reach _ T e4
      have hst := h.stored _ T e4
      by_cases hS : T.abs.Shallow
      · obtain ⟨s', g1, g2, g3⟩ := t2.ok hS
        refine wpm_bind (wpm_lift_ok g1 (wpm_bind (wpm_lift_ok (C01_hex_roundtrip _) ?_)))
        cases hq : s'.get r.head with
        | none => exact wpm_fail ⟨rfl, rfl⟩
        | some q =>
          have hhas : T.abs.Has r.head := by
            obtain ⟨n, hn⟩ := (abs_has_iff_get (wf_of_reach g2) r.head).2 ⟨q, hq⟩
            cases hx : T.abs.node r.head with
            | none => rw [g3.gone _ hx] at hn; cases hn
            | some n => exact ⟨n, hx⟩
          obtain ⟨p, hb⟩ := e2.below T e4 hhas
          obtain ⟨nd, n1, n2⟩ := extends_below (S := fun _ => False) (extends_comesBack g3 (h.keys _ T e4)) hb
          refine wpm_pure ⟨rfl, r.head, p, ⟨hout, ⟨t, ht, hm⟩, rfl, ⟨r.info, h2, rfl, rfl, rfl, rfl, rfl⟩, rfl, rfl, ⟨T, b0, hrT, t2, hb0, g1⟩, ⟨hq, nd, n1, n2⟩, ?_⟩,
            e2.mdir, T, e4, hS, g3⟩
          intro v hv
          obtain ⟨n', hn'⟩ := hv
          cases hx : T.abs.node v with
          | none => rw [g3.gone v hx] at hn'; cases hn'
          | some n0 => exact hst v ⟨n0, hx⟩
      · obtain ⟨e, he⟩ := t2.deep hS
        exact wpm_bind (wpm_lift_err he ⟨rfl, rfl⟩)
    · exact wpm_bind (wpm_lift_err he ⟨rfl, rfl⟩)
  cases x with
  | ok b' =>
    simp only at h3
    rw [sanitize_base32] at h3
    exact fin b' h3
  | notExist => exact wpm_bind (wpm_lift_err (e := .read) rfl ⟨rfl, rfl⟩)
  | failed b' =>
    obtain ⟨_, full, hb, hpre⟩ := h3
    rw [sanitize_base32] at hb
    rcases h.tree _ _ hb with ⟨T, _, t2⟩ | ⟨_, _, t2⟩
    · rcases t2.torn _ hpre with ⟨e, he⟩ | he
      · exact wpm_bind (wpm_lift_err he ⟨rfl, rfl⟩)
      · rw [he]; exact fin full hb
    · obtain ⟨e, he⟩ := t2 _ hpre
      exact wpm_bind (wpm_lift_err he ⟨rfl, rfl⟩)

theorem opens_of_steady {d : Disk} {g : Str → Option TS} (h : Steady E d g) {cwd path : Str} (hout : E.Outside (Path.abs cwd path))
    (hpl : PlainLink d cwd path) :
    wpm E f (fun d' => d' = d) (getWorkspace E cwd path)
      (fun w d' => d' = d ∧ ∃ u p, Opens E d cwd path w u p ∧ d.mdir w.mount.id.base32 ≠ none ∧
        ∃ T, g w.spaceDir = some T ∧ T.abs.Shallow ∧ ComesBack T.abs w.tree.abs)
      (fun e d' => d' = d ∧ e.early = true) d :=
  opens_of_steady' h hout fun t ht hm => C44_otherwise_error E.root cwd path (some t) (hpl t ht) hm

end
end Verif
