import Verif.World.Reads
/-!
# Histories of finished commands

Commands run to their end one after another, with changes of files and restarts of the machine in between.
-/
set_option autoImplicit false
namespace Verif
open M TS Json

section
variable {E : Env} {f : Faults}

/-- What opening found on a sound disk. -/
structure Found (E : Env) (d : Disk) (g : Str → Option TS) (cwd path : Str) (w : OpenWs) (u p : UID) (T : TS) : Prop where
  opens : Opens E d cwd path w u p
  mdir : d.mdir w.mount.id.base32 ≠ none
  tree : g w.spaceDir = some T
  shallow : T.abs.Shallow
  back : ComesBack T.abs w.tree.abs

theorem run_cases {α : Type} {d d' : Disk} {g : Str → Option TS} (h : Steady E d g) {cwd path : Str} (hout : E.Outside (Path.abs cwd path))
    (hpl : PlainLink d cwd path) {k : OpenWs → M α} {r : Res CErr α} (he : Exec E f (M.bind (getWorkspace E cwd path) k) d r d') :
    (∃ e, r = .err e ∧ e.early = true ∧ d' = d) ∨ ∃ w u p T, Found E d g cwd path w u p T := by
  obtain ⟨a, d1, h1, h2⟩ := exec_bind he
  have := wpm_exec (opens_of_steady h hout hpl) h1
  cases a with
  | ok w =>
    obtain ⟨rfl, u, p, g1, g2, T, g3, g4, g5⟩ := this
    exact Or.inr ⟨w, u, p, T, g1, g2, g3, g4, g5⟩
  | err e =>
    obtain ⟨rfl, g1⟩ := this
    cases h2
    exact Or.inl ⟨e, rfl, g1, rfl⟩
  | panic => exact this.elim
  | diverge => exact this.elim

/-- A command opens its workspace, or it does nothing and does not succeed. -/
theorem run_opens {α : Type} {d d' : Disk} {g : Str → Option TS} (h : Steady E d g) {cwd path : Str} (hout : E.Outside (Path.abs cwd path))
    {k : OpenWs → M α} {r : Res CErr α} (he : Exec E f (M.bind (getWorkspace E cwd path) k) d r d') :
    (d' = d ∧ (∀ x, r ≠ .ok x) ∧ ∀ e, r = .err e → e.early = true) ∨ ∃ w u p T, Found E d g cwd path w u p T := by
  rcases exec_split he with ⟨w, d1, h1, _⟩ | ⟨hr, h1, ⟨r0, h2, h3⟩, _⟩
  · obtain ⟨rfl, ⟨w', e, u, p, g1, g2, T, g3, g4, g5⟩ | ⟨h4, _⟩⟩ := opens_or_not h hout h1
    · exact Or.inr ⟨w', u, p, T, g1, g2, g3, g4, g5⟩
    · exact absurd rfl (h4 w)
  · refine Or.inl ⟨(opens_or_not h hout h2).1, hr, fun e he => ?_⟩
    obtain ⟨_, ⟨w, e', _⟩ | ⟨_, h4⟩⟩ := opens_or_not h hout (h1 e he)
    · cases e'
    · exact h4 e rfl

theorem extends_node {S : UID → Prop} {a b : ATree} (h : b.node = a.node) : Extends S a b :=
  fun _ n hn => ⟨n, by rw [h]; exact hn, rfl, fun _ => sameNode_refl n⟩

theorem extends_add {S : UID → Prop} {a : ATree} {q : Option UID} {u : UID} {x : Str → Option Str} {y : Str → Option (Option Str)} (h : ¬ a.Has u) :
    Extends S a (a.add q u x y) := by
  intro v n hn
  refine ⟨n, ?_, rfl, fun _ => sameNode_refl n⟩
  simp only [ATree.add]
  rw [upd_ne _ _ (by rintro rfl; exact h ⟨n, hn⟩)]
  exact hn

theorem extends_note {S : UID → Prop} {a : ATree} {u : UID} {k v : Str} (hS : S u) : Extends S a (a.note u k v) := by
  intro x n hn
  have := note_parent (a := a) (u := u) (k := k) (v := v) x
  rw [hn] at this
  obtain ⟨n', h1, h2⟩ := Option.map_eq_some_iff.1 this
  refine ⟨n', h1, h2, fun hx => ?_⟩
  have hne : x ≠ u := by rintro rfl; exact hx hS
  simp only [ATree.note, upd_ne _ _ hne, hn, Option.some.injEq] at h1
  exact h1 ▸ sameNode_refl n

theorem nodeKeys_add {a : ATree} {q : Option UID} {u : UID} (h : NodeKeys a) : NodeKeys (a.add q u (fun _ => none) (fun _ => none)) := by
  intro x n hn
  by_cases hx : x = u
  · subst hx
    simp only [ATree.add, upd_self, Option.some.injEq] at hn
    subst hn
    exact ⟨nofun, nofun⟩
  · simp only [ATree.add, upd_ne _ _ hx] at hn
    exact h x n hn

theorem nodeKeys_note {a : ATree} {u : UID} {k v : Str} (h : NodeKeys a) (hk : validUtf8 k) : NodeKeys (a.note u k v) := by
  intro x n hn
  by_cases hx : x = u
  · subst hx
    simp only [ATree.note, upd_self, Option.map_eq_some_iff] at hn
    obtain ⟨n0, h0, rfl⟩ := hn
    refine ⟨fun k' v' hk' => ?_, (h x n0 h0).2⟩
    by_cases e : k' = k
    · subst e; exact hk
    · exact (h x n0 h0).1 k' v' (by simpa only [upd_ne _ _ e] using hk')
  · simp only [ATree.note, upd_ne _ _ hx] at hn
    exact h x n hn

theorem commit_node (a : ATree) (b : Option Str) (u u' : UID) (date msg : Str) :
    (a.commit b u u' date msg).node = (((a.note u (lit "commit-date") date).note u (lit "commit-message") msg).add (some u) u' (fun _ => none) (fun _ => none)).node := by
  cases b <;> rfl

theorem extends_commit {a : ATree} {b : Option Str} {u u' : UID} {date msg : Str} {S : UID → Prop} (hS : S u) (h : ¬ a.Has u') :
    Extends S a (a.commit b u u' date msg) := by
  have h2 : ¬ ((a.note u (lit "commit-date") date).note u (lit "commit-message") msg).Has u' := by rw [note_has, note_has]; exact h
  exact extends_trans (extends_trans (extends_note hS) (extends_note hS)) (extends_trans (extends_add h2) (extends_node (commit_node a b u u' date msg)))

theorem nodeKeys_commit {a : ATree} {b : Option Str} {u u' : UID} {date msg : Str} (h : NodeKeys a) : NodeKeys (a.commit b u u' date msg) := by
  intro x n hn
  rw [commit_node] at hn
  exact nodeKeys_add (nodeKeys_note (nodeKeys_note h (valid_ascii (by decide))) (valid_ascii (by decide))) x n hn

theorem commit_has {a : ATree} {b : Option Str} {u u' v : UID} {date msg : Str} (h : (a.commit b u u' date msg).Has v) : v = u' ∨ a.Has v := by
  rw [ATree.Has, commit_node] at h
  rcases add_has.1 h with h | h
  · exact Or.inl h
  · rw [note_has, note_has] at h; exact Or.inr h

theorem comesBack_has {a a' : ATree} (h : ComesBack a a') {v : UID} (hv : a'.Has v) : a.Has v := by
  obtain ⟨n, hn⟩ := hv
  cases hx : a.node v with
  | none => rw [h.gone v hx] at hn; cases hn
  | some n => exact ⟨n, hx⟩

theorem headAt_below {s : TS} {w : Ws} {u p : UID} (h : w.HeadAt s u p) : Below s.abs u p := h.2

theorem below_unique {a : ATree} {u p p' : UID} (h : Below a u p) (h' : Below a u p') : p = p' := by
  obtain ⟨n, e1, e2⟩ := h
  obtain ⟨n', e3, e4⟩ := h'
  rw [e1] at e3; cases e3
  rw [e2] at e4; simpa using e4

/-- A change of the tree file alone. -/
theorem steady_shelved {d : Disk} {g : Str → Option TS} (h : Steady E d g) {dir : Str} {T0 T : TS} {b : Str} (h0 : g dir = some T0) (hT : Reach T)
    (hb : SavesAs E.sh T b) {S : UID → Prop} (hext : Extends S T0.abs T.abs) (hkeys : NodeKeys T.abs) (hst : ∀ v, T.abs.Has v → d.HasDiff v) (hback : ∀ v, T.abs.Has v → T0.abs.Has v) :
    Steady E (d.setSpace dir (some (some b))) (upd g dir (some T)) := by
  have hold : ∀ {n : Str} {T' : TS}, upd g dir (some T) n = some T' → ∃ T2, g n = some T2 ∧ Extends S T2.abs T'.abs ∧ ∀ v, T'.abs.Has v → T2.abs.Has v := by
    intro n T' hT'
    by_cases hn : n = dir
    · subst hn; rw [upd_self] at hT'; cases hT'; exact ⟨T0, h0, hext, hback⟩
    · rw [upd_ne _ _ hn] at hT'; exact ⟨T', hT', extends_refl _, fun _ hv => hv⟩
  obtain ⟨b0, hb0⟩ := h.saved dir T0 h0
  refine ⟨⟨h.tracked.layer, fun n hn => ?_, h.tracked.mdir, h.tracked.info, h.tracked.mnt⟩, fun n b' hn => ?_, fun n T' hn => ?_, fun n T' hn => ?_, fun n T' hn v hv => ?_, fun n T' hn => ?_,
    fun n x hx => ?_, fun n m hm => ?_, h.heads⟩
  · by_cases he : n = dir
    · subst he; exact h.tracked.space n (by rw [hb0]; simp)
    · exact h.tracked.space n (by simpa only [Disk.setSpace, upd_ne _ _ he] using hn)
  · by_cases he : n = dir
    · subst he
      simp only [Disk.setSpace, upd_self, Option.some.injEq] at hn
      exact Or.inl ⟨T, upd_self _ _ _, hn ▸ reads_saved hT hb⟩
    · simp only [Disk.setSpace, upd_ne _ _ he] at hn
      rw [upd_ne _ _ he]; exact h.tree n b' hn
  · by_cases he : n = dir
    · subst he; exact ⟨b, by simp [Disk.setSpace]⟩
    · rw [upd_ne _ _ he] at hn
      obtain ⟨b', hb'⟩ := h.saved n T' hn
      exact ⟨b', by simp only [Disk.setSpace, upd_ne _ _ he]; exact hb'⟩
  · by_cases he : n = dir
    · subst he; rw [upd_self] at hn; cases hn; exact hT
    · rw [upd_ne _ _ he] at hn; exact h.reach n T' hn
  · by_cases he : n = dir
    · subst he; rw [upd_self] at hn; cases hn; exact hst v hv
    · rw [upd_ne _ _ he] at hn; exact h.stored n T' hn v hv
  · by_cases he : n = dir
    · subst he; rw [upd_self] at hn; cases hn; exact hkeys
    · rw [upd_ne _ _ he] at hn; exact h.keys n T' hn
  · refine (h.info n x hx).imp_right fun ⟨r, e1, e2⟩ => ⟨r, e1, e2.name, e2.mdir, e2.head, fun T' hT' hh => ?_⟩
    obtain ⟨T2, f1, f2, f3⟩ := hold hT'
    obtain ⟨q, hq⟩ := e2.below T2 f1 (f3 _ hh)
    exact ⟨q, extends_below f2 hq⟩
  · obtain ⟨r, e1, e2, e3, e4⟩ := h.mnt n m hm
    refine ⟨r, e1, e2, e3, fun T' q hT' hq => ?_⟩
    obtain ⟨T2, f1, f2, f3⟩ := hold hT'
    obtain ⟨q0, hq0⟩ := (backed_of_rec h e1).below T2 f1 (f3 _ (by obtain ⟨nd, hnd, _⟩ := hq; exact ⟨nd, hnd⟩))
    have := below_unique (extends_below f2 hq0) hq
    subst this
    exact extends_path f2 (e4 T2 q0 f1 hq0)

/-- The trees of all spaces grow: nodes stay where they are, and only working layers change their texts. A layer that is
not a working layer never becomes one again and keeps its content. -/
structure Grew (E : Env) (d : Disk) (g : Str → Option TS) (d' : Disk) (g' : Str → Option TS) : Prop where
  trees : ∀ n T, g n = some T → ∃ T', g' n = some T' ∧ Extends (Head E d) T.abs T'.abs
  heads : ∀ u, Head E d' u → d.HasDiff u → Head E d u
  layer : ∀ u, d.HasDiff u → ¬ Head E d u → d'.layer u = d.layer u
  diff : ∀ u, d.HasDiff u → d'.HasDiff u

theorem grew_same {d d' : Disk} {g : Str → Option TS} (hi : ∀ n x, d'.info n = some x → d.info n = some x)
    (hl : ∀ u, d.HasDiff u → ¬ Head E d u → d'.layer u = d.layer u) (hd : ∀ u, d.HasDiff u → d'.HasDiff u) : Grew E d g d' g :=
  ⟨fun _ T h => ⟨T, h, extends_refl _⟩, fun _ ⟨n, r, h1, h2⟩ _ => ⟨n, r, hi n _ h1, h2⟩, hl, hd⟩

theorem grew_refl (d : Disk) (g : Str → Option TS) : Grew E d g d g := grew_same (fun _ _ h => h) (fun _ _ _ => rfl) fun _ h => h

theorem grew_trans {d1 d2 d3 : Disk} {g1 g2 g3 : Str → Option TS} (hs : Steady E d1 g1) (h : Grew E d1 g1 d2 g2) (h' : Grew E d2 g2 d3 g3) : Grew E d1 g1 d3 g3 := by
  refine ⟨fun n T hT => ?_, fun u h3 hd => h.heads u (h'.heads u h3 (h.diff u hd)) hd, fun u hd hh => ?_, fun u hd => h'.diff u (h.diff u hd)⟩
  · obtain ⟨T1, h1, e1⟩ := h.trees n T hT
    obtain ⟨T2, h2, e2⟩ := h'.trees n T1 h1
    refine ⟨T2, h2, fun u nd hn => ?_⟩
    obtain ⟨n1, a1, b1, c1⟩ := e1 u nd hn
    obtain ⟨n2, a2, b2, c2⟩ := e2 u n1 a1
    refine ⟨n2, a2, b2.trans b1, fun hx => sameNode_trans (c1 hx) (c2 fun hy => hx (h.heads u hy (hs.stored n T hT u ⟨nd, hn⟩)))⟩
  · rw [h'.layer u (h.diff u hd) fun hx => hh (h.heads u hx hd), h.layer u hd hh]

theorem grew_litter {d d' : Disk} {g : Str → Option TS} (hl : Litter d d') : Grew E d g d' g := by
  have e : ∀ u, d.HasDiff u → d'.layer u = d.layer u := fun u ⟨c, hc⟩ => litter_layer_eq hl (by rw [hc]; simp)
  exact grew_same (fun n x hx => by rw [← hl.info]; exact hx) (fun u hu _ => e u hu) fun u hu => by rw [Disk.HasDiff, e u hu]; exact hu

theorem grew_removed (d : Disk) (g : Str → Option TS) (n : Str) : Grew E d g (removed n d) g := by
  refine grew_same (fun k x hx => ?_) (fun _ _ _ => rfl) fun _ h => h
  by_cases hk : k = n
  · subst hk; simp [removed, Disk.setInfo] at hx
  · simpa only [removed, Disk.setInfo, Disk.setMdir, Disk.setMnt, upd_ne _ _ hk] using hx

theorem grew_put {d : Disk} {g : Str → Option TS} (h : Steady E d g) {n : Str} {m : Mnt} (hm : d.mnt n = some m) (c : Content) : Grew E d g (d.put m.upper c) g := by
  refine grew_same (fun k x hx => by rw [← (put_rest d m.upper c).2.2.1]; exact hx) (fun u hu hh => ?_) fun u hu => put_hasDiff hu
  rcases put_layer d m.upper u c with e | ⟨rfl, _, _⟩
  · exact e
  · exact absurd (mnt_head h hm) hh

theorem grew_wiped {d d' : Disk} {g : Str → Option TS} {n : Str} (h : Steady E d g) (hw : Wiped f n d d') : Grew E d g d' g := by
  obtain ⟨_, mt, c, wk, hm, _, rfl⟩ := hw
  obtain ⟨h1, h2, h3, h4⟩ := grew_put h hm c
  exact ⟨h1, h2, h3, h4⟩

theorem grew_late {d d' : Disk} {g : Str → Option TS} {w : OpenWs} {u : UID} {ls : List UID} (hL : Late E d d' w w.mount.id u ls)
    (hext : ∀ T, g w.spaceDir = some T → Extends (Head E d) T.abs w.tree.abs) : Grew E d g d' (upd g w.spaceDir (some w.tree)) := by
  have hne : ∀ v, d.HasDiff v → v ≠ u := by
    rintro v ⟨c, hc⟩ rfl
    rw [hL.newLayer] at hc; cases hc
  refine ⟨fun n T hT => ?_, fun v hv hd => ?_, fun v hd _ => hL.layer v (hne v hd), fun v hd => ?_⟩
  · by_cases hn : n = w.spaceDir
    · subst hn; exact ⟨w.tree, upd_self _ _ _, hext T hT⟩
    · exact ⟨T, by rw [upd_ne _ _ hn]; exact hT, extends_refl _⟩
  · obtain ⟨n, r, h1, h2⟩ := hv
    by_cases hn : n = w.mount.id.base32
    · subst hn
      rw [hL.info, upd_self, ← recOf_bytes, Option.some.injEq] at h1
      have := (rec_bytes_inj h1).2.2.2.1
      exact absurd (this.trans h2).symm (hne v hd)
    · exact ⟨n, r, by rw [hL.info, upd_ne _ _ hn] at h1; exact h1, h2⟩
  · rw [Disk.HasDiff, hL.layer v (hne v hd)]; exact hd

theorem found_head {d : Disk} {g : Str → Option TS} {cwd path : Str} {w : OpenWs} {u p : UID} {T : TS} (h : Steady E d g) (hF : Found E d g cwd path w u p T) : Head E d u := by
  obtain ⟨i, h1, _, _, _, h5, _⟩ := hF.opens.info
  have a1 := C17_info_roundtrip E.sh i
  rcases h.info _ _ h1 with h2 | ⟨r, e1, _⟩
  · rw [a1] at h2; cases h2
  refine ⟨_, r, by rw [h1, e1], ?_⟩
  have a2 := C17_info_roundtrip E.sh r.info
  rw [e1, WsRec.bytes, a2] at a1
  simp only [WsRec.info, sanitize_hex, Option.some.injEq, WsInfo.mk.injEq, h5] at a1
  have := C01_hex_roundtrip r.head
  rw [a1.2.2.1, C01_hex_roundtrip] at this
  simpa using this.symm

/-! ## The commands -/

/-- What a user does; the machine may also restart. -/
inductive Act where
  | init (path branch : Str)
  | clone (cwd source target : Str)
  | commit (cwd : Str) (ci : CommitInfo)
  | checkout (cwd key : Str)
  | edit (cwd : Str) (es : List Edit)
  | write (n : Str) (c : Content)
  | files (us : Str → UEnt)
  | reboot

/-- The paths in the arguments are not inside the data directory. -/
def Act.Plain (E : Env) : Act → Prop
  | .init path _ => E.Off path
  | .clone cwd source target => E.Outside (Path.abs cwd source) ∧ E.Off target
  | .commit cwd _ => E.Outside (Path.abs cwd (lit "."))
  | .checkout cwd _ => E.Outside (Path.abs cwd (lit "."))
  | .edit cwd _ => E.Outside (Path.abs cwd (lit "."))
  | _ => True

/-- One act from beginning to end. A write changes the upper layer of the mount it goes through, or, where nothing is mounted,
the directory itself. -/
inductive Happens (E : Env) (f : Faults) : Act → Disk → Disk → Prop where
  | init {path branch : Str} {d d' : Disk} {r : Res CErr OpenWs} : Exec E f (initCmd E path branch) d r d' → Happens E f (.init path branch) d d'
  | clone {cwd source target : Str} {d d' : Disk} {r : Res CErr OpenWs} : Exec E f (cloneCmd E cwd source target) d r d' → Happens E f (.clone cwd source target) d d'
  | commit {cwd : Str} {ci : CommitInfo} {d d' : Disk} {r : Res CErr (OpenWs × OpenWs)} : Exec E f (commitCmd E cwd ci) d r d' → Happens E f (.commit cwd ci) d d'
  | checkout {cwd key : Str} {d d' : Disk} {r : Res CErr (OpenWs × OpenWs)} : Exec E f (checkoutCmd E cwd key) d r d' → Happens E f (.checkout cwd key) d d'
  | edit {cwd : Str} {es : List Edit} {d d' : Disk} {r : Res CErr TS} : Exec E f (editCmd E cwd es) d r d' → Happens E f (.edit cwd es) d d'
  | write {n : Str} {m : Mnt} {c : Content} {d : Disk} : d.mnt n = some m → Happens E f (.write n c) d (d.put m.upper c)
  | stray {n : Str} {m : MDir} {c0 c : Content} {d : Disk} : d.mnt n = none → d.mdir n = some m → m.merged = some c0 →
      Happens E f (.write n c) d (d.setMdir n (some { m with merged := some c }))
  | files {us : Str → UEnt} {d : Disk} : Happens E f (.files us) d { d with user := us }
  | reboot {d : Disk} : Happens E f .reboot d { d with mnt := fun _ => none }

/-- Any number of acts, each by any user. -/
inductive Past (E : Env) (f : Faults) : Disk → Disk → Prop where
  | refl {d : Disk} : Past E f d d
  | step {d d1 d2 : Disk} {a : Act} {o : Nat} : Past E f d d1 → a.Plain E → Happens (E.as o) f a d1 d2 → Past E f d d2

theorem plain_as {o : Nat} {a : Act} (h : a.Plain E) : a.Plain (E.as o) := by cases a <;> exact h

theorem steady_as {o : Nat} {d : Disk} {g : Str → Option TS} (h : Steady E d g) : Steady (E.as o) d g :=
  ⟨h.tracked, h.tree, h.saved, h.reach, h.stored, h.keys, h.info, h.mnt, h.heads⟩

theorem steady_of_as {o : Nat} {d : Disk} {g : Str → Option TS} (h : Steady (E.as o) d g) : Steady E d g :=
  ⟨h.tracked, h.tree, h.saved, h.reach, h.stored, h.keys, h.info, h.mnt, h.heads⟩

theorem grew_of_as {o : Nat} {d d' : Disk} {g g' : Str → Option TS} (h : Grew (E.as o) d g d' g') : Grew E d g d' g' :=
  ⟨h.1, h.2, h.3, h.4⟩

theorem past_trans {d d1 d2 : Disk} (h : Past E f d d1) (h' : Past E f d1 d2) : Past E f d d2 := by
  induction h' with
  | refl => exact h
  | step _ hp hh ih => exact .step ih hp hh

/-- What a command that places a new working layer `u'` does to a sound disk. -/
theorem steady_moved {d d' : Disk} {g : Str → Option TS} (h : Steady E d g) {cwd path : Str} {w w' : OpenWs} {u p u' q : UID} {T : TS} {ls : List UID}
    (hF : Found E d g cwd path w u p T) (hL : Late E d d' w' w'.mount.id u' ls) (hid : w'.spaceID = w.spaceID) (hdir : w'.spaceDir = w.spaceDir)
    (hr : Reach w'.tree) (hext : Extends (Head E d) w.tree.abs w'.tree.abs) (hkeys : NodeKeys w'.tree.abs) (hhas : ∀ v, w'.tree.abs.Has v → v = u' ∨ w.tree.abs.Has v)
    (hb : Below w'.tree.abs u' q) (hp : w.tree.abs.Path q ls) :
    Steady E d' (upd g w.spaceDir (some w'.tree)) ∧ Grew E d g d' (upd g w.spaceDir (some w'.tree)) := by
  have hx : ∀ T0, g w.spaceDir = some T0 → Extends (Head E d) T0.abs w'.tree.abs := by
    intro T0 hT0
    rw [hF.tree] at hT0; cases hT0
    exact extends_trans (extends_comesBack hF.back (h.keys _ _ hF.tree)) hext
  refine ⟨?_, by have := grew_late (g := g) (w := w') hL (by rw [hdir]; exact hx); rwa [hdir] at this⟩
  have := steady_late (w := w') (p := q) h hL (by rw [hdir, hid]; exact hF.opens.dir) (by rw [hdir]; exact hx) hkeys hr
    (fun v hv => (hhas v hv).imp_right fun hv => hF.opens.stored v hv) hb (extends_path hext hp)
    (fun v hh hv => by
      rcases hhas v hv with rfl | hv
      · obtain ⟨c, hc⟩ := head_stored h hh
        rw [hL.newLayer] at hc; cases hc
      · rw [hdir]; exact ⟨T, hF.tree, comesBack_has hF.back hv⟩)
  rwa [hdir] at this

theorem space_ne {d : Disk} {g : Str → Option TS} {cwd path : Str} {w w' : OpenWs} {u p : UID} {T : TS} (hF : Found E d g cwd path w u p T)
    (hdir : w'.spaceDir = w.spaceDir) : d.space w'.spaceDir ≠ none := by
  obtain ⟨_, b, _, _, hb, _⟩ := hF.opens.tree
  rw [hdir, hb]; simp

/-- The layers of a new space are the working layers of no workspace. -/
theorem founded_heads {d dp : Disk} {g : Str → Option TS} (h : Steady E d g) {dir : Str} {root u' v : UID} (hFo : Founded d dp dir root)
    (hnew : dp.layer u' = none) (hh : Head E dp v) (hv : v = u' ∨ v = root) : False := by
  rcases hv with rfl | rfl
  · obtain ⟨c, hc⟩ := head_stored (steady_litter h hFo.litter) hh
    rw [hnew] at hc; cases hc
  · obtain ⟨n, r, h1, h2⟩ := hh
    rw [hFo.litter.info] at h1
    obtain ⟨c, hc⟩ := head_stored h ⟨n, r, h1, h2⟩
    rw [hFo.newLayer] at hc; cases hc

variable (hio : f.io = false)
include hio

theorem steady_commit {d d' : Disk} {g : Str → Option TS} (h : Steady E d g) {cwd : Str} {ci : CommitInfo} {w : OpenWs} {u p : UID} {T : TS}
    (hF : Found E d g cwd (lit ".") w u p T) {r : Res CErr (OpenWs × OpenWs)} (he : Exec E f (commitCmd E cwd ci) d r d') :
    ∃ g', Steady E d' g' ∧ Grew E d g d' g' := by
  have hp := wpm_exec (commitCmd_wp (f := f) (ci := ci) hF.opens hF.mdir) he
  have key : ∀ {w' : OpenWs} {u' : UID} {ls : List UID} {dx : Disk}, Committed w u ci w' u' → w.tree.abs.Path u ls → Late E d dx w' w'.mount.id u' ls →
      ∃ g', Steady E dx g' ∧ Grew E d g dx g' := by
    intro w' u' ls dx hC hP hL
    exact ⟨_, steady_moved h hF hL hC.spaceID hC.spaceDir hC.reach (by rw [hC.tree]; exact extends_commit (found_head h hF) hC.newNode)
      (by rw [hC.tree]; exact nodeKeys_commit (nodeKeys_back hF.back))
      (fun v hv => by rw [hC.tree] at hv; exact commit_has hv) (headAt_below hC.head) hP⟩
  cases r with
  | ok r =>
    obtain ⟨_, _, u', ls, d1, hC, hP, _, hL, rfl⟩ := hp
    obtain ⟨g', h1, h2⟩ := key hC hP (placed_late hL (space_ne hF hC.spaceDir))
    exact ⟨g', steady_removed h1 _, grew_trans h h2 (grew_removed _ _ _)⟩
  | err e =>
    cases hee : e.early with
    | true => exact ⟨g, steady_litter h (hp.1 hee).1, grew_litter (hp.1 hee).1⟩
    | false =>
      obtain ⟨_, _, hh⟩ := hp.2 hee
      rcases hh with hh | ⟨w', u', ls, hC, hP, ⟨hL, _⟩ | ⟨d1, hL, hw⟩⟩
      · rw [hio] at hh; cases hh
      · exact key hC hP hL
      · obtain ⟨g', h1, h2⟩ := key hC hP (placed_late hL (space_ne hF hC.spaceDir))
        exact ⟨g', steady_wiped h1 hw, grew_trans h h2 (grew_wiped h1 hw)⟩
  | panic => exact hp.elim
  | diverge => exact hp.elim

theorem steady_checkout {d d' : Disk} {g : Str → Option TS} (h : Steady E d g) {cwd key : Str} (hk : PlainKey key) {w : OpenWs} {u p : UID} {T : TS}
    (hF : Found E d g cwd (lit ".") w u p T) {r : Res CErr (OpenWs × OpenWs)} (he : Exec E f (checkoutCmd E cwd key) d r d') :
    ∃ g', Steady E d' g' ∧ Grew E d g d' g' := by
  have hp := wpm_exec (checkoutCmd_wp (f := f) hF.opens hk hF.mdir) he
  have keyl : ∀ {w' : OpenWs} {u' v : UID} {b : Str} {ls : List UID} {dx : Disk}, CheckedOut w v b w' u' → w.tree.abs.Path v ls → Late E d dx w' w'.mount.id u' ls →
      ∃ g', Steady E dx g' ∧ Grew E d g dx g' := by
    intro w' u' v b ls dx hC hP hL
    exact ⟨_, steady_moved h hF hL hC.spaceID hC.spaceDir hC.reach (by rw [hC.tree]; exact extends_add hC.newNode)
      (by rw [hC.tree]; exact nodeKeys_add (nodeKeys_back hF.back))
      (fun v hv => by rw [hC.tree] at hv; exact add_has.1 hv) (headAt_below hC.head) hP⟩
  cases r with
  | ok r =>
    obtain ⟨_, v, kt, u', ls, d1, _, hC, hP, _, hL, rfl⟩ := hp
    obtain ⟨g', h1, h2⟩ := keyl hC hP (placed_late hL (space_ne hF hC.spaceDir))
    exact ⟨g', steady_removed h1 _, grew_trans h h2 (grew_removed _ _ _)⟩
  | err e =>
    cases hee : e.early with
    | true => exact ⟨g, steady_litter h (hp.1 hee).1, grew_litter (hp.1 hee).1⟩
    | false =>
      obtain ⟨_, v, kt, _, hh⟩ := hp.2 hee
      rcases hh with hh | ⟨w', u', ls, hC, hP, ⟨hL, _⟩ | ⟨d1, hL, hw⟩⟩
      · rw [hio] at hh; cases hh
      · exact keyl hC hP hL
      · obtain ⟨g', h1, h2⟩ := keyl hC hP (placed_late hL (space_ne hF hC.spaceDir))
        exact ⟨g', steady_wiped h1 hw, grew_trans h h2 (grew_wiped h1 hw)⟩
  | panic => exact hp.elim
  | diverge => exact hp.elim

theorem steady_clone {d d' : Disk} {g : Str → Option TS} (h : Steady E d g) {cwd source target : Str} (hoff : E.Off target) {w : OpenWs} {u p : UID} {T : TS}
    (hF : Found E d g cwd source w u p T) {r : Res CErr OpenWs} (he : Exec E f (cloneCmd E cwd source target) d r d') :
    ∃ g', Steady E d' g' ∧ Grew E d g d' g' := by
  have hp := wpm_exec (cloneCmd_wp (f := f) hF.opens hoff) he
  have keyl : ∀ {w' : OpenWs} {u' : UID} {ls : List UID} {dx : Disk}, Cloned w p target w' u' → w.tree.abs.Path p ls → Late E d dx w' w'.mount.id u' ls →
      ∃ g', Steady E dx g' ∧ Grew E d g dx g' := by
    intro w' u' ls dx hC hP hL
    exact ⟨_, steady_moved h hF hL hC.spaceID hC.spaceDir hC.reach (by rw [hC.tree]; exact extends_add hC.newNode)
      (by rw [hC.tree]; exact nodeKeys_add (nodeKeys_back hF.back))
      (fun v hv => by rw [hC.tree] at hv; exact add_has.1 hv) (headAt_below hC.head) hP⟩
  cases r with
  | ok r =>
    obtain ⟨u', ls, hC, hP, _, _, hL⟩ := hp
    exact keyl hC hP (placed_late hL (space_ne hF hC.spaceDir))
  | err e =>
    cases hee : e.early with
    | true => exact ⟨g, steady_litter h (hp.1 hee).1, grew_litter (hp.1 hee).1⟩
    | false =>
      obtain ⟨_, hh⟩ := hp.2 hee
      rcases hh with hh | ⟨w', u', ls, hC, hP, _, _, hL, _⟩
      · rw [hio] at hh; cases hh
      · exact keyl hC hP hL
  | panic => exact hp.elim
  | diverge => exact hp.elim

theorem steady_edit {d d' : Disk} {g : Str → Option TS} (h : Steady E d g) {cwd : Str} {es : List Edit} (hes : ∀ e ∈ es, e.Plain) {w : OpenWs} {u p : UID} {T : TS}
    (hF : Found E d g cwd (lit ".") w u p T) {r : Res CErr TS} (he : Exec E f (editCmd E cwd es) d r d') :
    ∃ g', Steady E d' g' ∧ Grew E d g d' g' := by
  have hp := wpm_exec (editCmd_wp (f := f) hF.opens hes) he
  have key : ∀ {a : ATree} {es' : List Edit}, EditsAll w.ws p es' w.tree.abs a → Shelved E w.spaceDir a d d' → ∃ g', Steady E d' g' ∧ Grew E d g d' g' := by
    rintro a es' hE ⟨T', b, h1, rfl, h2, rfl⟩
    have hn := (editsAll_node hE).1
    have hx : Extends (Head E d) T.abs T'.abs := extends_trans (extends_comesBack hF.back (h.keys _ _ hF.tree)) (extends_node hn)
    refine ⟨_, steady_shelved h hF.tree h1 h2 hx (fun v n hv => nodeKeys_back hF.back v n (by rw [← hn]; exact hv)) (fun v hv => hF.opens.stored v ?_)
      (fun v hv => comesBack_has hF.back (by rw [ATree.Has, hn] at hv; exact hv)),
      fun n T0 hT0 => ?_, fun _ hv _ => hv, fun _ _ _ => rfl, fun _ hv => hv⟩
    · rw [ATree.Has, hn] at hv; exact hv
    · by_cases he : n = w.spaceDir
      · subst he; rw [hF.tree] at hT0; cases hT0; exact ⟨T', upd_self _ _ _, hx⟩
      · exact ⟨T0, by rw [upd_ne _ _ he]; exact hT0, extends_refl _⟩
  cases r with
  | ok r =>
    obtain ⟨_, hE, ⟨_, rfl⟩ | hh⟩ := hp
    · exact ⟨g, h, grew_refl _ g⟩
    · exact key hE hh
  | err e =>
    rcases hp with ⟨es1, e1, b, _, hE, _, ⟨_, rfl⟩ | ⟨_, hh⟩, _⟩ | hh
    · exact ⟨g, h, grew_refl _ g⟩
    · exact key hE hh
    · rw [hio] at hh; cases hh.2
  | panic => exact hp.elim
  | diverge => exact hp.elim

theorem steady_init {d d' : Disk} {g : Str → Option TS} (h : Steady E d g) {path branch : Str} (hoff : E.Off path)
    {r : Res CErr OpenWs} (he : Exec E f (initCmd E path branch) d r d') : ∃ g', Steady E d' g' ∧ Grew E d g d' g' := by
  have hp := wpm_exec (initCmd_wp (f := f) hoff) he
  have key : ∀ {w' : OpenWs} {root u' : UID} {dp : Disk}, Founded d dp w'.spaceDir root → Inited path branch root w' u' → Late E dp d' w' w'.mount.id u' [root] →
      ∃ g', Steady E d' g' ∧ Grew E d g d' g' := by
    intro w' root u' dp hFo hC hL
    have hg : ∀ T0, g w'.spaceDir = some T0 → Extends (Head E dp) T0.abs w'.tree.abs := by
      intro T0 hT0
      obtain ⟨b, hb⟩ := h.saved _ _ hT0
      rw [hFo.newSpace] at hb; cases hb
    have hroot : w'.tree.abs.node root = some ⟨none, fun _ => none, fun _ => none⟩ := by
      rw [hC.tree]
      simp only [ATree.setBranch, ATree.add, ATree.first, ATree.setTag, upd_ne _ _ (Ne.symm hC.newNode), upd_self]
    have hk0 : NodeKeys ATree.empty := nofun
    have hkeys : NodeKeys w'.tree.abs := by
      rw [hC.tree]
      have h1 : NodeKeys (ATree.first root) := nodeKeys_add hk0
      exact nodeKeys_add h1
    have hsplit : ∀ v, w'.tree.abs.Has v → v = u' ∨ v = root := by
      intro v hv
      rw [hC.tree] at hv
      have hv' : ((ATree.first root).add (some root) u' (fun _ => none) (fun _ => none)).Has v := hv
      rcases add_has.1 hv' with hv | hv
      · exact Or.inl hv
      · have hv2 : (ATree.empty.add none root (fun _ => none) (fun _ => none)).Has v := hv
        rcases add_has.1 hv2 with rfl | ⟨n, hn⟩
        · exact Or.inr rfl
        · cases hn
    refine ⟨_, steady_late (steady_litter h hFo.litter) hL hC.spaceDir hg hkeys hC.reach (fun v hv => ?_) (headAt_below hC.head) (.root hroot rfl) (fun v hh hv => ?_),
      grew_trans h (grew_litter hFo.litter) (grew_late hL hg)⟩
    rotate_left
    · exact (founded_heads h hFo hL.newLayer hh (hsplit v hv)).elim
    rw [hC.tree] at hv
    have hv' : ((ATree.first root).add (some root) u' (fun _ => none) (fun _ => none)).Has v := hv
    rcases add_has.1 hv' with hv | hv
    · exact Or.inl hv
    · right
      have hv2 : (ATree.empty.add none root (fun _ => none) (fun _ => none)).Has v := hv
      rcases add_has.1 hv2 with rfl | ⟨n, hn⟩
      · exact ⟨_, by rw [hFo.layer]; exact upd_self _ _ _⟩
      · cases hn
  cases r with
  | ok r =>
    obtain ⟨_, root, u', dp, hFo, hC, _, _, hL⟩ := hp
    exact key hFo hC (placed_late hL (by rw [hFo.space]; simp))
  | err e =>
    cases hee : e.early with
    | true => exact ⟨g, steady_litter h (hp.1 hee).1, grew_litter (hp.1 hee).1⟩
    | false =>
      obtain ⟨_, hh⟩ := hp.2 hee
      rcases hh with hh | ⟨w', root, u', dp, hFo, hC, _, hL, _⟩
      · rw [hio] at hh; cases hh
      · exact key hFo hC hL
  | panic => exact hp.elim
  | diverge => exact hp.elim

/-- Every act keeps the disk sound and lets the histories grow. -/
theorem steady_happens {d d' : Disk} {g : Str → Option TS} {a : Act} (h : Steady E d g) (hpl : a.Plain E) (hh : Happens E f a d d') :
    ∃ g', Steady E d' g' ∧ Grew E d g d' g' := by
  have same : ∀ {d'}, d' = d → ∃ g', Steady E d' g' ∧ Grew E d g d' g' := by rintro _ rfl; exact ⟨g, h, grew_refl _ g⟩
  cases hh with
  | init he => exact steady_init hio h hpl he
  | clone he =>
    rcases run_opens h hpl.1 he with ⟨e, _⟩ | ⟨w, u, p, T, hF⟩
    · exact same e
    · exact steady_clone hio h hpl.2 hF he
  | commit he =>
    rcases run_opens h hpl he with ⟨e, _⟩ | ⟨w, u, p, T, hF⟩
    · exact same e
    · exact steady_commit hio h hF he
  | @checkout _ key _ _ _ he =>
    rcases run_opens h hpl he with ⟨e, _⟩ | ⟨w, u, p, T, hF⟩
    · exact same e
    · by_cases hk : PlainKey key
      · exact steady_checkout hio h hk hF he
      · exact same (checkout_odd hk he).1
  | edit he =>
    obtain ⟨es1, r1, _, hes, he⟩ := edit_prefix he
    rcases run_opens h hpl he with ⟨e, _⟩ | ⟨w, u, p, T, hF⟩
    · exact same e
    · exact steady_edit hio h hes hF he
  | write hm => exact ⟨g, steady_put h _ _, grew_put h hm _⟩
  | stray _ hm _ => exact ⟨g, steady_stray h hm, grew_same (fun _ _ hx => hx) (fun _ _ _ => rfl) fun _ hx => hx⟩
  | files => exact ⟨g, steady_user h _, grew_same (fun _ _ hx => hx) (fun _ _ _ => rfl) fun _ hx => hx⟩
  | reboot => exact ⟨g, steady_reboot h, grew_same (fun _ _ hx => hx) (fun _ _ _ => rfl) fun _ hx => hx⟩

theorem steady_past {d d' : Disk} {g : Str → Option TS} (h : Steady E d g) (hp : Past E f d d') : ∃ g', Steady E d' g' ∧ Grew E d g d' g' := by
  induction hp with
  | refl => exact ⟨g, h, grew_refl _ g⟩
  | step _ hpl hh ih =>
    obtain ⟨g1, h1, h2⟩ := ih
    obtain ⟨g2, h3, h4⟩ := steady_happens hio (steady_as h1) (plain_as hpl) hh
    exact ⟨g2, steady_of_as h3, grew_trans h h2 (grew_of_as h4)⟩

omit hio

/-- A disk on which the program has never run. -/
structure Untouched (d : Disk) : Prop where
  layer : d.layer = fun _ => none
  space : d.space = fun _ => none
  mdir : d.mdir = fun _ => none
  info : d.info = fun _ => none
  mnt : d.mnt = fun _ => none

theorem steady_untouched {d : Disk} (h : Untouched d) : Steady E d (fun _ => none) := by
  refine ⟨⟨?_, ?_, ?_, ?_, ?_⟩, ?_, nofun, nofun, nofun, nofun, ?_, ?_, ?_⟩ <;> simp [h.layer, h.space, h.mdir, h.info, h.mnt]

end
end Verif
