import Verif.World.History
/-!
# Opening a workspace again

What the program reads back after a command saved a tree and a record.
-/
set_option autoImplicit false
namespace Verif
open M TS Json

/-! ## Texts -/

theorem sanitize_cons_ascii {a : UInt8} (h : a < 0x80) (s : Str) : sanitize (a :: s) = a :: sanitize s := by
  obtain ⟨t, h1, h2⟩ := chunks_cons a s
  rw [head_ascii h] at h1 h2
  have : s = t := by simpa [Chunk.src] using h1
  subst this
  rw [sanitize, h2, List.flatMap_cons]; rfl

theorem sanitize_append_ascii {p : Str} (h : ∀ b ∈ p, b < (0x80 : UInt8)) (s : Str) : sanitize (p ++ s) = p ++ sanitize s := by
  induction p with
  | nil => rfl
  | cons a p ih =>
    rw [List.cons_append, sanitize_cons_ascii (h a (by simp)), ih (fun b hb => h b (by simp [hb]))]; rfl

theorem valid_iff_sanitize {s : Str} : validUtf8 s ↔ sanitize s = s :=
  ⟨sanitize_valid, fun h => h ▸ valid_sanitize s⟩

theorem valid_append_ascii {p : Str} (h : ∀ b ∈ p, b < (0x80 : UInt8)) (s : Str) : validUtf8 (p ++ s) ↔ validUtf8 s := by
  rw [valid_iff_sanitize, valid_iff_sanitize, sanitize_append_ascii h, List.append_right_inj]

/-! ## Trees -/

theorem comesBack_is_utf8 {a a' : ATree} (h : ComesBack a a') : a'.Utf8 := by
  refine ⟨fun b u hb => ?_, fun b u hb => ?_, fun u n k v hn hk => ?_, fun u n k v hn hk => ?_⟩
  · obtain ⟨k0, _, _, _, rfl, _⟩ := (h.branch b u).1 hb; exact valid_sanitize k0
  · obtain ⟨k0, _, _, _, rfl, _⟩ := (h.tag b u).1 hb; exact valid_sanitize k0
  · cases hx : a.node u with
    | none => rw [h.gone u hx] at hn; cases hn
    | some n0 =>
      obtain ⟨n', h1, _, h3, _⟩ := h.node u n0 hx
      rw [hn] at h1; cases h1
      obtain ⟨k0, v0, _, rfl, rfl, _⟩ := (h3 k v).1 hk
      exact ⟨valid_sanitize k0, valid_sanitize v0⟩
  · cases hx : a.node u with
    | none => rw [h.gone u hx] at hn; cases hn
    | some n0 =>
      obtain ⟨n', h1, _, _, h4⟩ := h.node u n0 hx
      rw [hn] at h1; cases h1
      obtain ⟨k0, v0, _, _, rfl, _⟩ := (h4 k v).1 hk
      exact valid_sanitize k0

theorem comesBack_path {a a' : ATree} (h : ComesBack a a') {u : UID} {l : List UID} (hp : a'.Path u l) : a.Path u l := by
  have hn : ∀ {u : UID} {n' : ANode}, a'.node u = some n' → ∃ n, a.node u = some n ∧ n.parent = n'.parent := by
    intro u n' hn'
    cases hx : a.node u with
    | none => rw [h.gone u hx] at hn'; cases hn'
    | some n =>
      obtain ⟨n2, h1, h2, _⟩ := h.node u n hx
      rw [hn'] at h1; cases h1
      exact ⟨n, rfl, h2.symm⟩
  induction hp with
  | root h1 h2 => obtain ⟨n, e1, e2⟩ := hn h1; exact .root e1 (e2.trans h2)
  | step h1 h2 _ ih => obtain ⟨n, e1, e2⟩ := hn h1; exact .step e1 (e2.trans h2) ih

theorem comesBack_shallow {a a' : ATree} (h : ComesBack a a') (hs : a.Shallow) : a'.Shallow := by
  intro u n' l hn' hp
  cases hx : a.node u with
  | none => rw [h.gone u hx] at hn'; cases hn'
  | some n =>
    obtain ⟨n2, h1, h2, h3, h4⟩ := h.node u n hx
    rw [hn'] at h1; cases h1
    obtain ⟨g1, g2⟩ := hs u n l hx (comesBack_path h hp)
    refine ⟨g1, fun hc => g2 ?_⟩
    rcases hc with ⟨k, v, hc⟩ | ⟨k, v, hc⟩
    · obtain ⟨k0, v0, e, _⟩ := (h3 k v).1 hc; exact Or.inl ⟨k0, v0, e⟩
    · obtain ⟨k0, v0, e, _⟩ := (h4 k v).1 hc; exact Or.inr ⟨k0, v0, e⟩

/-- The mount of a path that fits is far below the nesting limit of the decoder. -/
theorem fits_small {E : Env} {k : Nat} (h : E.Fits k) : k ≤ 97 := by
  unfold Env.Fits at h
  generalize ((Path.comps E.root).map fun a => a.length + 1).sum = x at h
  have h1 : k * 41 ≤ k * (x + 41) := Nat.mul_le_mul_left k (Nat.le_add_left 41 x)
  omega

/-- All names of a tree are valid UTF-8. -/
structure ATree.Named (a : ATree) : Prop where
  branch : ∀ b u, a.branch b = some u → validUtf8 b
  tag : ∀ t u, a.tag t = some u → validUtf8 t
  anno : ∀ u n k v, a.node u = some n → n.anno k = some v → validUtf8 k
  data : ∀ u n k v, a.node u = some n → n.data k = some v → validUtf8 k

/-- The tree with cleaned annotations. -/
def ATree.tidy (a : ATree) : ATree :=
  { a with node := fun u => (a.node u).map fun n => { n with anno := fun k => (n.anno k).map sanitize } }

theorem comesBack_named {a a' : ATree} (h : ComesBack a a') (hu : a.Named) : a' = a.tidy := by
  apply atree_ext
  · intro u
    cases hn : a.node u with
    | none => rw [h.gone u hn]; simp [ATree.tidy, hn]
    | some n =>
      obtain ⟨n', h1, h2, h3, h4⟩ := h.node u n hn
      rw [h1]
      have e1 := cleaned_valid h3 fun k v hk => hu.anno u n k v hn hk
      have e2 := cleaned_valid h4 fun k v hk => hu.data u n k v hn hk
      simp only [ATree.tidy, hn, Option.map_some, Option.some.injEq]
      cases n with
      | mk p an da =>
        cases n' with
        | mk p' an' da' =>
          simp only at h2 e1 e2
          subst h2 e1 e2
          simp
  · exact h.root
  · intro b
    rw [cleaned_valid h.branch hu.branch]; simp [ATree.tidy]
  · intro b
    rw [cleaned_valid h.tag hu.tag]; simp [ATree.tidy]

theorem tidy_utf8 {a : ATree} (h : a.Utf8) : a.tidy = a := by
  apply atree_ext
  · intro u
    cases hn : a.node u with
    | none => simp [ATree.tidy, hn]
    | some n =>
      simp only [ATree.tidy, hn, Option.map_some, Option.some.injEq]
      cases n with
      | mk p an da =>
        simp only [ANode.mk.injEq, and_true, true_and]
        funext k
        cases hk : an k with
        | none => rfl
        | some v => simp [sanitize_valid (h.anno u _ k v hn hk).2]
  · rfl
  · intro b; rfl
  · intro b; rfl

theorem atree_fields {a b : ATree} (h1 : a.node = b.node) (h2 : a.root = b.root) (h3 : a.branch = b.branch) (h4 : a.tag = b.tag) : a = b :=
  atree_ext (fun u => congrFun h1 u) h2 (fun x => congrFun h3 x) (fun x => congrFun h4 x)

theorem tidy_note (a : ATree) (u : UID) (k v : Str) : (a.note u k v).tidy = a.tidy.note u k (sanitize v) := by
  refine atree_fields ?_ rfl rfl rfl
  funext x
  simp only [ATree.tidy, ATree.note]
  by_cases hx : x = u
  · subst hx
    simp only [upd_self, Option.map_map]
    cases a.node x with
    | none => rfl
    | some n =>
      simp only [Option.map_some, Function.comp, Option.some.injEq, ANode.mk.injEq, and_true, true_and]
      funext k'
      by_cases hk : k' = k
      · subst hk; simp
      · simp [upd_ne _ _ hk]
  · simp only [upd_ne _ _ hx]

theorem tidy_add (a : ATree) (q : Option UID) (u : UID) : (a.add q u (fun _ => none) (fun _ => none)).tidy = a.tidy.add q u (fun _ => none) (fun _ => none) := by
  refine atree_fields ?_ rfl rfl rfl
  funext x
  simp only [ATree.tidy, ATree.add]
  by_cases hx : x = u
  · subst hx; simp
  · simp only [upd_ne _ _ hx]

theorem tidy_commit (a : ATree) (b : Option Str) (u u' : UID) (date msg : Str) :
    (a.commit b u u' date msg).tidy = a.tidy.commit b u u' (sanitize date) (sanitize msg) := by
  have h := tidy_add ((a.note u (lit "commit-date") date).note u (lit "commit-message") msg) (some u) u'
  rw [tidy_note, tidy_note] at h
  cases b with
  | none => exact h
  | some b =>
    show ((((a.note u (lit "commit-date") date).note u (lit "commit-message") msg).add (some u) u' _ _).tidy).setBranch b u = _
    rw [h]; rfl

theorem utf8_named {a : ATree} (h : a.Utf8) : a.Named :=
  ⟨h.branch, h.tag, fun u n k v h1 h2 => (h.anno u n k v h1 h2).1, h.data⟩

theorem named_note {a : ATree} (h : a.Named) {u : UID} {k v : Str} (hk : validUtf8 k) : (a.note u k v).Named := by
  have hn : ∀ {x : UID} {n : ANode}, (a.note u k v).node x = some n → ∃ n0, a.node x = some n0 ∧ n.data = n0.data ∧ (∀ k', k' ≠ k → n.anno k' = n0.anno k') := by
    intro x n hx
    simp only [ATree.note] at hx
    by_cases he : x = u
    · subst he
      rw [upd_self] at hx
      obtain ⟨n0, h1, rfl⟩ := Option.map_eq_some_iff.1 hx
      exact ⟨n0, h1, rfl, fun k' hk' => upd_ne _ _ hk'⟩
    · rw [upd_ne _ _ he] at hx; exact ⟨n, hx, rfl, fun _ _ => rfl⟩
  refine ⟨h.branch, h.tag, fun x n k' v' hx hv => ?_, fun x n k' v' hx hv => ?_⟩
  · obtain ⟨n0, h1, _, h3⟩ := hn hx
    by_cases he : k' = k
    · subst he; exact hk
    · rw [h3 k' he] at hv; exact h.anno x n0 k' v' h1 hv
  · obtain ⟨n0, h1, h2, _⟩ := hn hx
    rw [h2] at hv; exact h.data x n0 k' v' h1 hv

theorem named_add {a : ATree} (h : a.Named) {q : Option UID} {u : UID} : (a.add q u (fun _ => none) (fun _ => none)).Named := by
  refine ⟨h.branch, h.tag, fun x n k v hx hv => ?_, fun x n k v hx hv => ?_⟩
  all_goals
    simp only [ATree.add] at hx
    by_cases he : x = u
    · subst he; rw [upd_self] at hx; cases hx; cases hv
    rw [upd_ne _ _ he] at hx
  · exact h.anno x n k v hx hv
  · exact h.data x n k v hx hv

theorem utf8_add {a : ATree} (h : a.Utf8) {q : Option UID} {u : UID} : (a.add q u (fun _ => none) (fun _ => none)).Utf8 := by
  refine ⟨h.branch, h.tag, fun x n k v hx hv => ?_, fun x n k v hx hv => ?_⟩
  all_goals
    simp only [ATree.add] at hx
    by_cases he : x = u
    · subst he; rw [upd_self] at hx; cases hx; cases hv
    rw [upd_ne _ _ he] at hx
  · exact h.anno x n k v hx hv
  · exact h.data x n k v hx hv

theorem named_setBranch {a : ATree} (h : a.Named) {b : Str} {u : UID} (hb : validUtf8 b) : (a.setBranch b u).Named := by
  refine ⟨fun x v hx => ?_, h.tag, h.anno, h.data⟩
  simp only [ATree.setBranch] at hx
  by_cases he : x = b
  · subst he; exact hb
  · rw [upd_ne _ _ he] at hx; exact h.branch x v hx

theorem named_commit {a : ATree} (h : a.Named) {b : Option Str} {u u' : UID} {date msg : Str} (hb : ∀ x, b = some x → validUtf8 x) :
    (a.commit b u u' date msg).Named := by
  have h2 := named_add (q := some u) (u := u') (named_note (v := msg) (u := u) (named_note (v := date) (u := u) h (k := lit "commit-date") (valid_ascii (by decide))) (k := lit "commit-message") (valid_ascii (by decide)))
  cases b with
  | none => exact h2
  | some b => exact named_setBranch h2 (hb b rfl)

/-! ## Depth -/

theorem shallow_congr {a b : ATree} (h : b.node = a.node) (hs : a.Shallow) : b.Shallow := by
  intro u n l hn hp
  refine hs u n l (by rw [← h]; exact hn) ?_
  exact path_congr (fun x => by rw [h]) hp

theorem add_path_old {a : ATree} (ha : a.Rooted) {q u x : UID} {l : List UID} {an : Str → Option Str} {da : Str → Option (Option Str)} (hu : ¬ a.Has u)
    (hx : a.Has x) (hp : (a.add (some q) u an da).Path x l) : a.Path x l := by
  have hne : ∀ y, a.Has y → (a.add (some q) u an da).node y = a.node y := by
    intro y hy
    exact upd_ne _ _ (by rintro rfl; exact hu hy)
  induction hp with
  | root h1 h2 => rw [hne _ hx] at h1; exact .root h1 h2
  | step h1 h2 _ ih => rw [hne _ hx] at h1; exact .step h1 h2 (ih (ha.parent _ _ _ h1 h2))

theorem shallow_add {a : ATree} (ha : a.Rooted) (hs : a.Shallow) {v u : UID} {ls : List UID} (hu : ¬ a.Has u) (hv : a.Path v ls) (hl : ls.length ≤ 97) :
    (a.add (some v) u (fun _ => none) (fun _ => none)).Shallow := by
  intro x n l hn hp
  have hvh : a.Has v := by cases hv with
    | root h _ => exact ⟨_, h⟩
    | step h _ _ => exact ⟨_, h⟩
  by_cases hx : x = u
  · subst hx
    simp only [ATree.add, upd_self, Option.some.injEq] at hn
    subst hn
    cases hp with
    | root h1 h2 => simp only [ATree.add, upd_self, Option.some.injEq] at h1; subst h1; cases h2
    | @step _ _ _ l' h1 h2 h3 =>
      simp only [ATree.add, upd_self, Option.some.injEq] at h1
      subst h1; cases h2
      have := Ws.path_unique (add_path_old ha hu hvh h3) hv
      subst this
      simp only [List.length_cons]
      exact ⟨by omega, fun _ => by omega⟩
  · simp only [ATree.add, upd_ne _ _ hx] at hn
    exact hs x n l hn (add_path_old ha hu ⟨n, hn⟩ hp)

theorem shallow_note {a : ATree} (hs : a.Shallow) {u : UID} {k v : Str} {ls : List UID} (hu : a.Path u ls) (hl : ls.length ≤ 97) : (a.note u k v).Shallow := by
  intro x n l hn hp
  rw [note_path] at hp
  by_cases hx : x = u
  · subst hx
    have := Ws.path_unique hp hu
    subst this
    exact ⟨by omega, fun _ => by omega⟩
  · simp only [ATree.note, upd_ne _ _ hx] at hn
    exact hs x n l hn hp

theorem shallow_commit {s : TS} (hr : Reach s) (hs : s.abs.Shallow) {b : Option Str} {u u' : UID} {date msg : Str} {ls : List UID} (hu' : ¬ s.abs.Has u')
    (hu : s.abs.Path u ls) (hl : ls.length ≤ 97) : (s.abs.commit b u u' date msg).Shallow := by
  obtain ⟨r, hr0⟩ : ∃ r, s.get u = some r := by
    refine (abs_has_iff_get (wf_of_reach hr) u).1 ?_
    cases hu with
    | root h _ => exact ⟨_, h⟩
    | step h _ _ => exact ⟨_, h⟩
  obtain ⟨s1, _, g2, _, _, g6⟩ := setToNode_spec hr hr0 ⟨date, msg⟩
  have h1 : s1.abs.Shallow := by
    rw [g6]
    exact shallow_note (shallow_note hs hu hl) (note_path.2 hu) hl
  have h2 := shallow_add (reach_rooted g2) h1 (u := u') (v := u) (ls := ls) (by rw [g6, note_has, note_has]; exact hu') (by rw [g6, note_path, note_path]; exact hu) hl
  rw [g6] at h2
  exact shallow_congr (commit_node s.abs b u u' date msg) h2

/-! ## Opening -/

section
variable {E : Env}

/-- What is read back from a link to a mount with a record. -/
theorem reopen {d : Disk} {g : Str → Option TS} (h : Steady E d g) {cwd path : Str} {r : WsRec} {T : TS} (hout : E.Outside (Path.abs cwd path))
    (hlink : ∃ t, d.user (Path.abs cwd path) = .link t ∧ mountIDOf E.root cwd path (some t) = .ok r.mount) (hinfo : d.info r.mount.base32 = some (r.bytes E))
    (hT : g r.space.base32 = some T) (hS : T.abs.Shallow) (hh : T.abs.Has r.head) :
    ∃ w p, Opens E d cwd path w r.head p ∧ w.ws.id = r.ws ∧ w.spaceID = r.space ∧ w.mount.id = r.mount ∧ w.ws.branch = sanitize r.branch ∧
      ComesBack T.abs w.tree.abs ∧ Below T.abs r.head p := by
  obtain ⟨p, e5⟩ := (backed_of_rec h hinfo).below T hT hh
  obtain ⟨b, hb⟩ := h.saved _ T hT
  have t2 : Reads T b := by
    rcases h.tree _ _ hb with ⟨T', t1, t2⟩ | ⟨t1, _⟩
    · rw [hT] at t1; cases t1; exact t2
    · rw [hT] at t1; cases t1
  have hrT := h.reach _ T hT
  obtain ⟨s', g1, g2, g3⟩ := t2.ok hS
  obtain ⟨nd, n1, n2⟩ := extends_below (S := fun _ => False) (extends_comesBack g3 (h.keys _ T hT)) e5
  obtain ⟨q, hq⟩ := (abs_has_iff_get (wf_of_reach g2) r.head).1 ⟨nd, n1⟩
  refine ⟨⟨s', r.space, r.space.base32, ⟨r.mount, r.mount.base32, none⟩, ⟨r.ws, Path.abs cwd path, q, sanitize r.branch⟩⟩, p,
    ⟨hout, hlink, rfl, ⟨r.info, hinfo, rfl, rfl, rfl, rfl, rfl⟩, rfl, rfl, ⟨T, b, hrT, t2, hb, g1⟩, ⟨hq, nd, n1, n2⟩, ?_⟩,
    rfl, rfl, rfl, rfl, g3, e5⟩
  intro v hv
  exact h.stored _ T hT v (comesBack_has g3 hv)

/-- A path opens in at most one way. -/
theorem opens_unique {d : Disk} {cwd path : Str} {w w' : OpenWs} {u p u' p' : UID} (h : Opens E d cwd path w u p) (h' : Opens E d cwd path w' u' p') :
    w = w' ∧ u = u' ∧ p = p' := by
  obtain ⟨t, e1, e2⟩ := h.link
  obtain ⟨t', e1', e2'⟩ := h'.link
  rw [e1] at e1'; cases e1'
  rw [e2] at e2'
  have hm : w.mount.id = w'.mount.id := by simpa using e2'
  obtain ⟨i, a1, a2, a3, a4, a5, a6⟩ := h.info
  obtain ⟨i', b1, b2, b3, b4, b5, b6⟩ := h'.info
  rw [hm, b1] at a1
  have hx : marshalInfo E.sh i' = marshalInfo E.sh i := by simpa using a1
  have r1 := C17_info_roundtrip E.sh i
  rw [← hx, C17_info_roundtrip] at r1
  simp only [Option.some.injEq, WsInfo.mk.injEq, a2, a3, a5, b2, b3, b5, sanitize_base32, sanitize_hex] at r1
  obtain ⟨c1, _, c3, c4, _, c6⟩ := r1
  have hws : w.ws.id = w'.ws.id := (base32_inj c1).symm
  have hsp : w.spaceID = w'.spaceID := (base32_inj c4).symm
  have hu : u = u' := by
    have := C01_hex_roundtrip u
    rw [← c3, C01_hex_roundtrip] at this
    simpa using this.symm
  subst hu
  have hbr : w.ws.branch = w'.ws.branch := by rw [← a6, ← b6, c6]
  have hdir : w.spaceDir = w'.spaceDir := by rw [h.dir, h'.dir, hsp]
  obtain ⟨T, b, _, _, f3, f4⟩ := h.tree
  obtain ⟨T', b', _, _, f3', f4'⟩ := h'.tree
  rw [hdir, f3'] at f3
  have hb : b' = b := by simpa using f3
  subst hb
  rw [f4] at f4'
  have htr : w.tree = w'.tree := by simpa using f4'
  have hhd : w.ws.head = w'.ws.head := by
    have k1 := h.head.1
    have k2 := h'.head.1
    rw [htr, k2] at k1
    simpa using k1.symm
  have hp : p = p' := by
    obtain ⟨n, k1, k2⟩ := h.head.2
    obtain ⟨n', k1', k2'⟩ := h'.head.2
    rw [htr, k1'] at k1
    cases k1
    rw [k2] at k2'
    simpa using k2'
  refine ⟨?_, rfl, hp⟩
  have m1 := h.mount
  have m2 := h'.mount
  have p1 := h.path
  have p2 := h'.path
  have d1 := h.dir
  have d2 := h'.dir
  obtain ⟨t1, s1, sd1, mo1, w1⟩ := w
  obtain ⟨t2, s2, sd2, mo2, w2⟩ := w'
  obtain ⟨x1, x2, x3, x4⟩ := w1
  obtain ⟨y1, y2, y3, y4⟩ := w2
  simp only at hm hws hsp hbr hdir htr hhd m1 m2 p1 p2
  subst hws hsp hbr hdir htr hhd
  rw [m1, m2, hm, p1, p2]

end
end Verif
