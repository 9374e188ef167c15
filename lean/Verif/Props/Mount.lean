import Verif.Mount.Model
import Verif.Props.Path
import Verif.Props.Ws
/-!
# C37-C39: the layers and options of a mount
-/
set_option autoImplicit false
namespace Verif
open Path TS

/-! ## C37 -/

theorem fill_spec {α : Type} (d : α) (l : List α) : ∀ (k : Nat) (m : Nat) (acc : List α), l.length = k →
    acc.length = m + k → 
    ((l.zipIdx m).foldl (fun acc li => acc.set (m + k - li.2 - 1) li.1) acc) =
      l.reverse ++ acc.drop k := by
  induction l with
  | nil => intro k m acc h1 h2; simp at h1; subst h1; simp
  | cons a l ih =>
    intro k m acc h1 h2
    simp only [List.length_cons] at h1
    rw [List.zipIdx_cons, List.foldl_cons]
    have e : m + k = (m + 1) + l.length := by omega
    rw [e, ih l.length (m + 1) _ rfl (by rw [List.length_set]; omega)]
    rw [List.reverse_cons, List.append_assoc]
    congr 1
    have e2 : m + 1 + l.length - m - 1 = l.length := by omega
    rw [e2]
    have hlt : l.length < acc.length := by omega
    rw [List.drop_set, if_neg (by omega), Nat.sub_self]
    rw [List.drop_eq_getElem_cons hlt, List.set_cons_zero, ← h1]
    rfl

/-- The slice that `mounts.New` fills is the list of lower layers, top first. -/
theorem lower_eq {n : Nat} (layers : List Str) (h : layers.length = n + 1) :
    ((layers.take (n + 1 - 1)).zipIdx).foldl (fun acc li => acc.set (n + 1 - li.2 - 2) li.1) (List.replicate (n + 1 - 1) []) =
      layers.dropLast.reverse := by
  have := fill_spec ([] : Str) (layers.take n) n 0 (List.replicate n []) (by simp [h]) (by simp)
  simp only [Nat.zero_add] at this
  have e : layers.dropLast = layers.take n := by rw [List.dropLast_eq_take, h]; rfl
  rw [e]
  simp only [Nat.add_sub_cancel]
  have e2 : (fun (acc : List Str) (li : Str × Nat) => acc.set (n + 1 - li.2 - 2) li.1) =
      fun acc li => acc.set (n - li.2 - 1) li.1 := by
    funext acc li
    congr 1
    omega
  rw [e2, this]
  simp

/-- **C37.** `mounts.New` on the layers `bottom ... top`: the last one is the upper layer, all others are lower layers with
the topmost first. -/
theorem C37_mount_new (root : Str) (m : UID) (lowers : List Str) (upper : Str) (h : lowers ≠ []) :
    ∃ o, mountNew root m (lowers.reverse ++ [upper]) = some o ∧ o.lowerDir = lowers ∧ o.upperDir = upper := by
  obtain ⟨k, hk⟩ : ∃ k, lowers.length = k + 1 := by
    cases lowers with
    | nil => exact absurd rfl h
    | cons a l => exact ⟨l.length, rfl⟩
  have hl : (lowers.reverse ++ [upper]).length = (k + 1) + 1 := by simp [hk]
  refine ⟨_, by unfold mountNew; rw [if_neg (by omega)], ?_, ?_⟩
  · simp only
    rw [hl, lower_eq _ hl]
    simp
  · simp only
    rw [hl]
    simp [List.getD, hk]

/-- **C37.** Fewer than two layers is an error. -/
theorem C37_too_few (root : Str) (m : UID) (layers : List Str) (h : layers.length < 2) : mountNew root m layers = none := by
  unfold mountNew; rw [if_pos h]

theorem layerWalk_spec {s : TS} (h : WF s) {d : Ref → Nat} {isDir : UID → Bool}
    (hd : ∀ r o, s.heap[r]? = some o → s.tree.nodes.get o.id.hex = some r → ∀ p, o.parent = some p → d r = d p + 1) :
    ∀ (fuel : Nat) (r : Ref) (o : NodeObj), s.heap[r]? = some o → s.tree.nodes.get o.id.hex = some r → d r < fuel →
      ∃ ids, s.abs.Path o.id ids ∧ layerWalk s.heap isDir fuel (some r) = if ids.all isDir then .ok ids else .err ()
  | 0, _, _, _, _, hlt => absurd hlt (Nat.not_lt_zero _)
  | n + 1, r, o, ho, hi, hlt => by
    have hnode := (abs_node_iff h o.id _).2 ⟨r, o, ho, hi, rfl, rfl⟩
    rw [layerWalk]
    simp only [ho]
    rcases h.par r o ho hi with ⟨hn, hroot⟩ | ⟨q, qo, h1, h2, h3, h4⟩
    · refine ⟨[o.id], .root hnode (by simp [absObj, hn]), ?_⟩
      rw [hn]
      cases hdir : isDir o.id <;> simp [hdir, layerWalk]
    · have hlt' : d q < n := by have := hd r o ho hi q h1; omega
      obtain ⟨ids, e1, e2⟩ := layerWalk_spec h hd n q qo h2 h3 hlt'
      refine ⟨o.id :: ids, .step hnode (by simp [absObj, h1, idAt, h2]) e1, ?_⟩
      rw [h1, e2]
      cases hdir : isDir o.id <;> cases hall : ids.all isDir <;> simp [hdir, hall]

theorem layerWalk_path {s : TS} (h : WF s) {isDir : UID → Bool} {u : UID} {r : Ref} (hr : s.get u = some r) {ids : List UID}
    (hp : s.abs.Path u ids) :
    layerWalk s.heap isDir s.walkFuel (some r) = if ids.all isDir then .ok ids else .err () := by
  obtain ⟨o, ho, hid⟩ := h.idx _ _ hr
  have := C03_hex_injective hid
  subst this
  obtain ⟨d, hd⟩ := h.depth
  obtain ⟨ids', e1, e2⟩ := layerWalk_spec (isDir := isDir) h (fun r o a b => (hd r o a b).2) s.walkFuel r o ho hr (by
    have := (hd r o ho hr).1; unfold walkFuel; omega)
  rw [Ws.path_unique hp e1]
  exact e2

/-- **C37.** The mount of a node `v` whose layers all exist: the upper layer is that of `v`, the lower layers are exactly
those of the proper ancestors of `v`, the parent first and the root last. A node without parent cannot be mounted. -/
theorem C37_stack {s : TS} (h : WF s) (root : Str) (m : UID) {isDir : UID → Bool} {v : UID} {r : Ref} (hr : s.get v = some r)
    {anc : List UID} (hp : s.abs.Path v (v :: anc)) (hall : ∀ u ∈ v :: anc, isDir u = true) :
    ∃ ids, layerWalk s.heap isDir s.walkFuel (some r) = .ok ids ∧
      (anc ≠ [] → ∃ o, mountNew root m (ids.reverse.map (diffDir root)) = some o ∧
        o.upperDir = diffDir root v ∧ o.lowerDir = anc.map (diffDir root)) ∧
      (anc = [] → mountNew root m (ids.reverse.map (diffDir root)) = none) := by
  refine ⟨v :: anc, ?_, ?_, ?_⟩
  · rw [layerWalk_path h hr hp, if_pos (List.all_eq_true.2 hall)]
  · intro ha
    obtain ⟨o, h1, h2, h3⟩ := C37_mount_new root m (anc.map (diffDir root)) (diffDir root v) (by simpa using ha)
    refine ⟨o, ?_, h3, h2⟩
    rw [← h1]
    congr 1
    simp
  · rintro rfl
    exact C37_too_few _ _ _ (by simp)

/-- **C37.** If a layer of the path is missing, no mount is made. -/
theorem C37_missing_layer {s : TS} (h : WF s) {isDir : UID → Bool} {v : UID} {r : Ref} (hr : s.get v = some r)
    {ids : List UID} (hp : s.abs.Path v ids) {u : UID} (hu : u ∈ ids) (hno : isDir u = false) :
    layerWalk s.heap isDir s.walkFuel (some r) = .err () := by
  rw [layerWalk_path h hr hp, if_neg]
  intro hall
  rw [List.all_eq_true.1 hall u hu] at hno; cases hno

example : (layerWalk Ws.sampleWsTree.heap (fun _ => true) Ws.sampleWsTree.walkFuel (some 3)) =
    .ok [sampleIDs 3, sampleIDs 1, sampleIDs 0] := by decide

/-! ## C38 -/

namespace Kernel

theorem cut_ne_nil (sep : UInt8) (s : Str) : cut sep s ≠ [] := by
  unfold cut
  split
  · simp
  · split <;> simp
  · split
    · split <;> simp
    · split
      · simp
      · split <;> simp

theorem cut_cons {sep c : UInt8} (h1 : c ≠ 0x5C) (h2 : c ≠ sep) (s : Str) :
    ∃ p ps, cut sep s = p :: ps ∧ cut sep (c :: s) = (c :: p) :: ps := by
  cases s with
  | nil => exact ⟨[], [], by simp [cut], by simp [cut, h2]⟩
  | cons d s =>
    cases hc : cut sep (d :: s) with
    | nil => exact absurd hc (cut_ne_nil _ _)
    | cons p ps =>
      refine ⟨p, ps, rfl, ?_⟩
      rw [cut, if_neg h1, if_neg h2, hc]

theorem cut_sep {sep : UInt8} (hs : sep ≠ 0x5C) (s : Str) : cut sep (sep :: s) = [] :: cut sep s := by
  cases s with
  | nil => simp [cut]
  | cons d s => rw [cut, if_neg hs, if_pos rfl]

theorem cut_append {sep : UInt8} (hs : sep ≠ 0x5C) (a b : Str) (ha : (0x5C : UInt8) ∉ a) :
    cut sep (a ++ sep :: b) = cut sep a ++ cut sep b := by
  induction a with
  | nil => rw [List.nil_append, cut_sep hs]; simp [cut]
  | cons c a ih =>
    simp only [List.mem_cons, not_or] at ha
    have ih := ih ha.2
    by_cases hc : c = sep
    · subst hc
      rw [List.cons_append, cut_sep hs, ih, cut_sep hs]; rfl
    · obtain ⟨p, ps, e1, e2⟩ := cut_cons (Ne.symm ha.1) hc a
      obtain ⟨q, qs, e3, e4⟩ := cut_cons (Ne.symm ha.1) hc (a ++ sep :: b)
      rw [List.cons_append, e4, e2]
      rw [ih, e1, List.cons_append] at e3
      cases e3
      rfl

theorem cut_plain {sep : UInt8} {a : Str} (ha : (0x5C : UInt8) ∉ a) (hs : sep ∉ a) : cut sep a = [a] := by
  induction a with
  | nil => simp [cut]
  | cons c a ih =>
    simp only [List.mem_cons, not_or] at ha hs
    obtain ⟨p, ps, e1, e2⟩ := cut_cons (Ne.symm ha.1) (Ne.symm hs.1) a
    rw [ih ha.2 hs.2] at e1
    cases e1
    exact e2

theorem unesc_plain {a : Str} (ha : (0x5C : UInt8) ∉ a) : unesc a = a := by
  induction a with
  | nil => rfl
  | cons c a ih =>
    simp only [List.mem_cons, not_or] at ha
    cases a with
    | nil => rw [unesc, if_neg (Ne.symm ha.1)]
    | cons d a => rw [unesc, if_neg (Ne.symm ha.1), ih ha.2]

theorem cut_joinColon {l : List Str} (hl : l ≠ []) (h : ∀ a ∈ l, (0x5C : UInt8) ∉ a ∧ (0x3A : UInt8) ∉ a) :
    cut 0x3A (joinColon l) = l := by
  induction l with
  | nil => exact absurd rfl hl
  | cons a l ih =>
    have ha := h a (by simp)
    cases l with
    | nil => exact cut_plain ha.1 ha.2
    | cons b l =>
      rw [joinColon, cut_append (by decide) _ _ ha.1, cut_plain ha.1 ha.2,
        ih (by simp) (fun c hc => h c (List.mem_cons_of_mem _ hc))]
      · rfl
      · simp

end Kernel

/-- The bytes with a meaning in option strings: comma, colon, backslash. -/
def Unspecial (s : Str) : Prop := (0x2C : UInt8) ∉ s ∧ (0x3A : UInt8) ∉ s ∧ (0x5C : UInt8) ∉ s

theorem mem_joinColon {l : List Str} {c : UInt8} (h : c ∈ joinColon l) : c = 0x3A ∨ ∃ a ∈ l, c ∈ a := by
  induction l with
  | nil => simp [joinColon] at h
  | cons a l ih =>
    cases l with
    | nil => exact Or.inr ⟨a, by simp, h⟩
    | cons b l =>
      rw [joinColon] at h
      · rcases List.mem_append.1 h with h | h
        · exact Or.inr ⟨a, by simp, h⟩
        · rcases List.mem_cons.1 h with h | h
          · exact Or.inl h
          · rcases ih h with h | ⟨x, hx, hc⟩
            · exact Or.inl h
            · exact Or.inr ⟨x, List.mem_cons_of_mem _ hx, hc⟩
      · simp

theorem parse_data {o : OvlOpts} (hl : o.lowerDir ≠ []) (hlo : ∀ a ∈ o.lowerDir, Unspecial a) (hu : Unspecial o.upperDir)
    (hw : Unspecial o.workDir) (hfit : o.data.length ≤ 4095) :
    Kernel.parse o.data = some ⟨o.lowerDir, some o.upperDir, some o.workDir⟩ := by
  have hj : (0x5C : UInt8) ∉ lit "lowerdir=" ++ joinColon o.lowerDir ∧ (0x2C : UInt8) ∉ lit "lowerdir=" ++ joinColon o.lowerDir := by
    constructor <;> intro h <;> rcases List.mem_append.1 h with h | h
    · exact absurd h (by decide)
    · rcases mem_joinColon h with h | ⟨a, ha, h⟩
      · cases h
      · exact (hlo a ha).2.2 h
    · exact absurd h (by decide)
    · rcases mem_joinColon h with h | ⟨a, ha, h⟩
      · cases h
      · exact (hlo a ha).1 h
  have hu2 : (0x5C : UInt8) ∉ lit "upperdir=" ++ o.upperDir ∧ (0x2C : UInt8) ∉ lit "upperdir=" ++ o.upperDir := by
    constructor <;> intro h <;> rcases List.mem_append.1 h with h | h
    · exact absurd h (by decide)
    · exact hu.2.2 h
    · exact absurd h (by decide)
    · exact hu.1 h
  have hw2 : (0x5C : UInt8) ∉ lit "workdir=" ++ o.workDir ∧ (0x2C : UInt8) ∉ lit "workdir=" ++ o.workDir := by
    constructor <;> intro h <;> rcases List.mem_append.1 h with h | h
    · exact absurd h (by decide)
    · exact hw.2.2 h
    · exact absurd h (by decide)
    · exact hw.1 h
  have e : o.data = (lit "lowerdir=" ++ joinColon o.lowerDir) ++ 0x2C :: ((lit "upperdir=" ++ o.upperDir) ++
      0x2C :: (lit "workdir=" ++ o.workDir)) := by
    have a1 : lit ",upperdir=" = 0x2C :: lit "upperdir=" := rfl
    have a2 : lit ",workdir=" = 0x2C :: lit "workdir=" := rfl
    unfold OvlOpts.data
    rw [a1, a2]
    simp
  unfold Kernel.parse
  rw [List.take_of_length_le hfit, e, Kernel.cut_append (by decide) _ _ hj.1, Kernel.cut_append (by decide) _ _ hu2.1,
    Kernel.cut_plain hj.1 hj.2, Kernel.cut_plain hu2.1 hu2.2, Kernel.cut_plain hw2.1 hw2.2]
  have t1 : ∀ x, (lit "lowerdir=" ++ x).take 9 = lit "lowerdir=" := fun _ => rfl
  have d1 : ∀ x, (lit "lowerdir=" ++ x).drop 9 = x := fun _ => rfl
  have t2 : ∀ x, (lit "upperdir=" ++ x).take 9 = lit "upperdir=" := fun _ => rfl
  have d2 : ∀ x, (lit "upperdir=" ++ x).drop 9 = x := fun _ => rfl
  have t3 : ∀ x, (lit "workdir=" ++ x).take 8 = lit "workdir=" := fun _ => rfl
  have d3 : ∀ x, (lit "workdir=" ++ x).drop 8 = x := fun _ => rfl
  have n1 : ∀ x, ¬ (lit "workdir=" ++ x).take 9 = lit "lowerdir=" := by
    intro x h; have := congrArg List.head? h; simp [lit] at this
  have n2 : ∀ x, ¬ (lit "workdir=" ++ x).take 9 = lit "upperdir=" := by
    intro x h; have := congrArg List.head? h; simp [lit] at this
  have n3 : ¬ lit "upperdir=" = lit "lowerdir=" := by decide
  have hcut : (Kernel.cut 0x3A (joinColon o.lowerDir)).map Kernel.unesc = o.lowerDir := by
    rw [Kernel.cut_joinColon hl fun a ha => ⟨(hlo a ha).2.2, (hlo a ha).2.1⟩]
    conv => rhs; rw [← List.map_id o.lowerDir]
    exact List.map_congr_left fun a ha => Kernel.unesc_plain (hlo a ha).2.2
  simp only [List.cons_append, List.nil_append, List.foldlM_cons, List.foldlM_nil, Kernel.option, t1, d1, t2, d2, t3, d3, if_true,
    if_neg n3, if_neg (n1 _), if_neg (n2 _), hcut, Kernel.unesc_plain hu.2.2, Kernel.unesc_plain hw.2.2]
  rfl

theorem mem_join {l : List Str} {c : UInt8} (h : c ∈ join l) : c = slash ∨ ∃ a ∈ l, c ∈ a := by
  induction l with
  | nil => simp [join] at h
  | cons a l ih =>
    cases l with
    | nil => exact Or.inr ⟨a, by simp, h⟩
    | cons b l =>
      rw [join] at h
      · rcases List.mem_append.1 h with h | h
        · exact Or.inr ⟨a, by simp, h⟩
        · rcases List.mem_cons.1 h with h | h
          · exact Or.inl h
          · rcases ih h with h | ⟨x, hx, hc⟩
            · exact Or.inl h
            · exact Or.inr ⟨x, List.mem_cons_of_mem _ hx, hc⟩
      · simp

theorem mem_comps {p : Str} {c : UInt8} {a : Str} (ha : a ∈ comps p) (hc : c ∈ a) : c ∈ p := by
  have key : ∀ (l stack : List Str), a ∈ l.foldl push stack → a ∈ l ∨ a ∈ stack := by
    intro l
    induction l with
    | nil => intro st h; exact Or.inr h
    | cons x l ih =>
      intro st h
      rw [List.foldl_cons] at h
      rcases ih _ h with h | h
      · exact Or.inl (List.mem_cons_of_mem _ h)
      · unfold push at h
        split at h
        · exact Or.inr h
        · split at h
          · exact Or.inr (List.mem_of_mem_tail h)
          · rcases List.mem_cons.1 h with rfl | h
            · exact Or.inl (by simp)
            · exact Or.inr h
  have hm := key (split p) [] (List.mem_reverse.1 ha)
  simp only [List.not_mem_nil, or_false] at hm
  clear key ha
  induction p generalizing a with
  | nil => simp [split] at hm; subst hm; simp at hc
  | cons x p ih =>
    rw [split] at hm
    split at hm
    · rcases List.mem_cons.1 hm with rfl | hm
      · simp at hc
      · exact List.mem_cons_of_mem _ (ih hc hm)
    · cases hs : split p with
      | nil => exact absurd hs (split_ne_nil p)
      | cons q qs =>
        rw [hs] at hm ih
        simp only at hm
        rcases List.mem_cons.1 hm with rfl | hm
        · rcases List.mem_cons.1 hc with rfl | hc
          · simp
          · exact List.mem_cons_of_mem _ (ih hc (by simp))
        · exact List.mem_cons_of_mem _ (ih hc (List.mem_cons_of_mem _ hm))

theorem unspecial_joinRoot {root : Str} (h : Unspecial root) {l : List Str} (hl : ∀ a ∈ l, Unspecial a) : Unspecial (joinRoot root l) := by
  have key : ∀ c : UInt8, c ≠ slash → (c ∉ root) → (∀ a ∈ l, c ∉ a) → c ∉ joinRoot root l := by
    intro c h1 h2 h3 hc
    unfold joinRoot at hc
    rcases List.mem_cons.1 hc with hc | hc
    · exact h1 hc
    · rcases mem_join hc with hc | ⟨a, ha, hc⟩
      · exact h1 hc
      · rcases List.mem_append.1 ha with ha | ha
        · exact h2 (mem_comps ha hc)
        · exact h3 a ha hc
  exact ⟨key _ (by decide) h.1 fun a ha => (hl a ha).1, key _ (by decide) h.2.1 fun a ha => (hl a ha).2.1,
    key _ (by decide) h.2.2 fun a ha => (hl a ha).2.2⟩

theorem unspecial_base32 (u : UID) : Unspecial u.base32 := by
  refine ⟨?_, ?_, ?_⟩ <;> intro h <;> exact absurd (C02_base32_alphabet u _ h) (by decide)

theorem unspecial_diff {root : Str} (hr : Unspecial root) (u : UID) : Unspecial (diffDir root u) := by
  refine unspecial_joinRoot hr ?_
  intro a ha
  simp only [List.mem_cons, List.not_mem_nil, or_false] at ha
  rcases ha with rfl | rfl | rfl
  · exact ⟨by decide, by decide, by decide⟩
  · exact unspecial_base32 u
  · exact ⟨by decide, by decide, by decide⟩

theorem unspecial_work {root : Str} (hr : Unspecial root) (m : UID) :
    Unspecial (joinRoot root [lit "mounts", m.base32, lit "work"]) := by
  refine unspecial_joinRoot hr ?_
  intro a ha
  simp only [List.mem_cons, List.not_mem_nil, or_false] at ha
  rcases ha with rfl | rfl | rfl
  · exact ⟨by decide, by decide, by decide⟩
  · exact unspecial_base32 m
  · exact ⟨by decide, by decide, by decide⟩

/-- **C38 (partial).** If the data root has no comma, colon or backslash and the string fits, the kernel reads exactly the
lower directories, the upper directory and the work directory that were meant. -/
theorem C38_options_partial {root : Str} (hr : Unspecial root) (m v : UID) (anc : List UID) (ha : anc ≠ []) :
    ∃ o, mountNew root m ((v :: anc).reverse.map (diffDir root)) = some o ∧
      (o.data.length ≤ 4095 → Kernel.parse o.data =
        some ⟨anc.map (diffDir root), some (diffDir root v), some (joinRoot root [lit "mounts", m.base32, lit "work"])⟩) := by
  obtain ⟨o, h1, h2, h3⟩ := C37_mount_new root m (anc.map (diffDir root)) (diffDir root v) (by simpa using ha)
  have e : (v :: anc).reverse.map (diffDir root) = (anc.map (diffDir root)).reverse ++ [diffDir root v] := by simp
  rw [e]
  refine ⟨o, h1, fun hfit => ?_⟩
  have hw : o.workDir = joinRoot root [lit "mounts", m.base32, lit "work"] := by
    unfold mountNew at h1
    split at h1
    · cases h1
    · simp only [Option.some.injEq] at h1
      rw [← h1]
  have hdiff : ∀ u, Unspecial (diffDir root u) := by
    intro u
    refine unspecial_joinRoot hr ?_
    intro a ha
    simp only [List.mem_cons, List.not_mem_nil, or_false] at ha
    rcases ha with rfl | rfl | rfl
    · exact ⟨by decide, by decide, by decide⟩
    · exact unspecial_base32 u
    · exact ⟨by decide, by decide, by decide⟩
  have := parse_data (o := o) (by rw [h2]; simpa using ha) (by
    rw [h2]; intro a ha
    obtain ⟨u, _, rfl⟩ := List.mem_map.1 ha
    exact hdiff u) (by rw [h3]; exact hdiff v) (by
    rw [hw]
    refine unspecial_joinRoot hr ?_
    intro a ha
    simp only [List.mem_cons, List.not_mem_nil, or_false] at ha
    rcases ha with rfl | rfl | rfl
    · exact ⟨by decide, by decide, by decide⟩
    · exact unspecial_base32 m
    · exact ⟨by decide, by decide, by decide⟩) hfit
  rw [this, h2, h3, hw]

/-- **C38 is violated** by a comma in the data root: the mount is refused. -/
theorem C38_violated_comma : ∃ o, mountNew (lit "/a,b") UID.sample ([UID.sample, UID.sample].map (diffDir (lit "/a,b"))) = some o ∧
    Kernel.parse o.data = none := ⟨_, rfl, by decide⟩

/-- **C38 is violated** by a colon in the data root: the kernel sees other lower directories. -/
theorem C38_violated_colon : ∃ o p, mountNew (lit "/a:b") UID.sample ([UID.sample, UID.sample].map (diffDir (lit "/a:b"))) = some o ∧
    Kernel.parse o.data = some p ∧ o.lowerDir.length = 1 ∧ p.lower.length = 2 ∧ p.lower.head? = some (lit "/a") :=
  ⟨_, _, rfl, rfl, by decide, by decide, by decide⟩

/-- **C38 is violated** by a backslash in the data root: the kernel looks for another upper directory. -/
theorem C38_violated_backslash : ∃ o p, mountNew (lit "/a\\b") UID.sample ([UID.sample, UID.sample].map (diffDir (lit "/a\\b"))) = some o ∧
    Kernel.parse o.data = some p ∧ p.upper ≠ some o.upperDir := ⟨_, _, rfl, rfl, by decide⟩

/-! ## C39 -/

theorem length_join {l : List Str} (h : l ≠ []) : (join l).length + 1 = (l.map fun a => a.length + 1).sum := by
  induction l with
  | nil => exact absurd rfl h
  | cons a l ih =>
    cases l with
    | nil => simp [join]
    | cons b l =>
      have := ih (by simp)
      rw [join]
      · simp only [List.length_append, List.length_cons, List.map_cons, List.sum_cons] at this ⊢
        omega
      · simp

theorem length_joinRoot (root : Str) {rest : List Str} (h : rest ≠ []) :
    (joinRoot root rest).length = ((comps root).map fun a => a.length + 1).sum + (rest.map fun a => a.length + 1).sum := by
  unfold joinRoot
  have := length_join (l := comps root ++ rest) (by simp [h])
  rw [List.map_append, List.sum_append] at this
  simp only [List.length_cons]
  omega

theorem length_joinColon {l : List Str} {k : Nat} (h : ∀ a ∈ l, a.length = k) : (joinColon l).length + (if l = [] then 0 else 1) = l.length * (k + 1) := by
  induction l with
  | nil => simp [joinColon]
  | cons a l ih =>
    have ha := h a (by simp)
    cases l with
    | nil => simp [joinColon, ha]
    | cons b l =>
      have := ih (fun c hc => h c (List.mem_cons_of_mem _ hc))
      rw [joinColon]
      · simp only [List.length_append, List.length_cons, reduceCtorEq, if_false] at this ⊢
        rw [Nat.add_mul (l.length + 1) 1]
        omega
      · simp

/-- The length of the cleaned data root as it appears in paths (0 for `/`). -/
def rootLen (root : Str) : Nat := ((comps root).map fun a => a.length + 1).sum

/-- **C39.** The exact length of the option string for `n` lower layers. -/
theorem C39_length (root : Str) (m v : UID) (anc : List UID) (ha : anc ≠ []) :
    ∃ o, mountNew root m ((v :: anc).reverse.map (diffDir root)) = some o ∧
      o.data.length = anc.length * (rootLen root + 41) + 2 * rootLen root + 106 := by
  obtain ⟨o, h1, h2, h3⟩ := C37_mount_new root m (anc.map (diffDir root)) (diffDir root v) (by simpa using ha)
  have e : (v :: anc).reverse.map (diffDir root) = (anc.map (diffDir root)).reverse ++ [diffDir root v] := by simp
  rw [e]
  refine ⟨o, h1, ?_⟩
  have hw : o.workDir = joinRoot root [lit "mounts", m.base32, lit "work"] := by
    unfold mountNew at h1
    split at h1
    · cases h1
    · simp only [Option.some.injEq] at h1
      rw [← h1]
  have hd : ∀ u, (diffDir root u).length = rootLen root + 40 := by
    intro u
    unfold diffDir
    rw [length_joinRoot _ (by simp)]
    simp [rootLen, C02_base32_length u, lit]
  have hwl : o.workDir.length = rootLen root + 39 := by
    rw [hw, length_joinRoot _ (by simp)]
    simp [rootLen, C02_base32_length m, lit]
  have hj := length_joinColon (l := anc.map (diffDir root)) (k := rootLen root + 40) (by
    intro a ha
    obtain ⟨u, _, rfl⟩ := List.mem_map.1 ha
    exact hd u)
  rw [if_neg (by simpa using ha), List.length_map] at hj
  unfold OvlOpts.data
  rw [h2, h3]
  simp only [List.length_append, hwl, hd]
  have l1 : (lit "lowerdir=").length = 9 := rfl
  have l2 : (lit ",upperdir=").length = 10 := rfl
  have l3 : (lit ",workdir=").length = 9 := rfl
  rw [l1, l2, l3]
  have e41 : rootLen root + 40 + 1 = rootLen root + 41 := rfl
  rw [e41] at hj
  omega

/-- **C39 (partial).** The option string fits into what the system call accepts exactly if there are few enough layers. -/
theorem C39_fits_iff_partial (root : Str) (m v : UID) (anc : List UID) (ha : anc ≠ []) :
    ∃ o, mountNew root m ((v :: anc).reverse.map (diffDir root)) = some o ∧
      (o.data.length ≤ 4095 ↔ anc.length * (rootLen root + 41) + 2 * rootLen root ≤ 3989) := by
  obtain ⟨o, h1, h2⟩ := C39_length root m v anc ha
  exact ⟨o, h1, by rw [h2]; omega⟩

/-- **C39 is violated** at every data root: from some depth on, the string never fits. -/
theorem C39_violated_depth (root : Str) (m v : UID) (anc : List UID) (ha : 98 ≤ anc.length) :
    ∃ o, mountNew root m ((v :: anc).reverse.map (diffDir root)) = some o ∧ 4095 < o.data.length := by
  obtain ⟨o, h1, h2⟩ := C39_length root m v anc (by rintro rfl; simp at ha)
  refine ⟨o, h1, ?_⟩
  rw [h2]
  have : 98 * 41 ≤ anc.length * (rootLen root + 41) := Nat.mul_le_mul ha (by omega)
  omega

/-- **C39.** At the default data root 65 lower layers fit and 66 do not. -/
theorem C39_default_root (m v : UID) (anc : List UID) (ha : anc ≠ []) :
    ∃ o, mountNew (lit "/var/lib/stackcrisp") m ((v :: anc).reverse.map (diffDir (lit "/var/lib/stackcrisp"))) = some o ∧
      (o.data.length ≤ 4095 ↔ anc.length ≤ 65) := by
  obtain ⟨o, h1, h2⟩ := C39_fits_iff_partial (lit "/var/lib/stackcrisp") m v anc ha
  refine ⟨o, h1, ?_⟩
  have : rootLen (lit "/var/lib/stackcrisp") = 19 := by decide
  rw [h2, this]
  omega

theorem option_work_none {p p' : Kernel.Parsed} {x : Str} (h : Kernel.option p x = some p') (hx : x.head? ≠ some 0x77)
    (hp : p.work = none) : p'.work = none := by
  unfold Kernel.option at h
  split at h
  · cases h; exact hp
  · split at h
    · cases h; exact hp
    · split at h
      · rename_i h3
        exfalso
        cases x with
        | nil => simp [lit] at h3
        | cons c x =>
          apply hx
          have := congrArg List.head? h3
          simpa [lit] using this
      · cases h

/-- **C39 is violated**: when the string is too long, the kernel does not read what was meant, since the last option is cut
short or missing. -/
theorem C39_violated_meaning {root : Str} (hr : Unspecial root) (m v : UID) (anc : List UID) (ha : anc ≠ []) :
    ∃ o, mountNew root m ((v :: anc).reverse.map (diffDir root)) = some o ∧
      (4095 < o.data.length → ∀ p, Kernel.parse o.data = some p →
        p.work ≠ some (joinRoot root [lit "mounts", m.base32, lit "work"])) := by
  obtain ⟨o, h1, h2, h3⟩ := C37_mount_new root m (anc.map (diffDir root)) (diffDir root v) (by simpa using ha)
  have e : (v :: anc).reverse.map (diffDir root) = (anc.map (diffDir root)).reverse ++ [diffDir root v] := by simp
  rw [e]
  refine ⟨o, h1, fun hlen p hp => ?_⟩
  have hw : o.workDir = joinRoot root [lit "mounts", m.base32, lit "work"] := by
    unfold mountNew at h1
    split at h1
    · cases h1
    · simp only [Option.some.injEq] at h1
      rw [← h1]
  rw [← hw]
  have hdiff := unspecial_diff hr
  have hwork := unspecial_work hr m
  rw [← hw] at hwork
  obtain ⟨A, B, C, hd, hA, hB, hC⟩ : ∃ A B C, o.data = A ++ 0x2C :: (B ++ 0x2C :: C) ∧
      ((0x5C : UInt8) ∉ A ∧ (0x2C : UInt8) ∉ A ∧ A.head? = some 0x6C) ∧
      ((0x5C : UInt8) ∉ B ∧ (0x2C : UInt8) ∉ B ∧ B.head? = some 0x75) ∧
      (C = lit "workdir=" ++ o.workDir) := by
    refine ⟨lit "lowerdir=" ++ joinColon o.lowerDir, lit "upperdir=" ++ o.upperDir, _, ?_, ⟨?_, ?_, rfl⟩, ⟨?_, ?_, rfl⟩, rfl⟩
    · have a1 : lit ",upperdir=" = 0x2C :: lit "upperdir=" := rfl
      have a2 : lit ",workdir=" = 0x2C :: lit "workdir=" := rfl
      unfold OvlOpts.data
      rw [a1, a2]
      simp
    · intro h
      rcases List.mem_append.1 h with h | h
      · exact absurd h (by decide)
      · rcases mem_joinColon h with h | ⟨a, ha, h⟩
        · cases h
        · rw [h2] at ha
          obtain ⟨u, _, rfl⟩ := List.mem_map.1 ha
          exact (hdiff u).2.2 h
    · intro h
      rcases List.mem_append.1 h with h | h
      · exact absurd h (by decide)
      · rcases mem_joinColon h with h | ⟨a, ha, h⟩
        · cases h
        · rw [h2] at ha
          obtain ⟨u, _, rfl⟩ := List.mem_map.1 ha
          exact (hdiff u).1 h
    · rw [h3]; intro h
      rcases List.mem_append.1 h with h | h
      · exact absurd h (by decide)
      · exact (hdiff v).2.2 h
    · rw [h3]; intro h
      rcases List.mem_append.1 h with h | h
      · exact absurd h (by decide)
      · exact (hdiff v).1 h
  have hC1 : (0x5C : UInt8) ∉ C ∧ (0x2C : UInt8) ∉ C := by
    rw [hC]
    constructor <;> intro h <;> rcases List.mem_append.1 h with h | h
    · exact absurd h (by decide)
    · exact hwork.2.2 h
    · exact absurd h (by decide)
    · exact hwork.1 h
  have headTake : ∀ (x : Str) (c : UInt8) (k : Nat), x.head? = some c → c ≠ 0x77 → (x.take k).head? ≠ some 0x77 := by
    intro x c k hx hc
    cases x with
    | nil => simp at hx
    | cons d x =>
      cases k with
      | zero => simp
      | succ k => simp only [List.head?_cons, Option.some.injEq] at hx; subst hx; simpa using hc
  have sub : ∀ {x : Str} {c : UInt8} {k : Nat}, c ∉ x → c ∉ x.take k := fun h hc => h (List.mem_of_mem_take hc)
  unfold Kernel.parse at hp
  rw [hd] at hp hlen
  simp only [List.length_append, List.length_cons] at hlen
  intro hwp
  rw [List.take_append] at hp
  by_cases k1 : 4095 ≤ A.length
  · rw [Nat.sub_eq_zero_of_le k1, List.take_zero, List.append_nil, Kernel.cut_plain (sub hA.1) (sub hA.2.1)] at hp
    simp only [List.foldlM_cons, List.foldlM_nil] at hp
    obtain ⟨q, hq, hp⟩ := Option.bind_eq_some_iff.1 hp
    cases hp
    rw [option_work_none hq (headTake _ _ _ hA.2.2 (by decide)) rfl] at hwp
    cases hwp
  · rw [List.take_of_length_le (by omega), show 4095 - A.length = (4094 - A.length) + 1 by omega, List.take_succ_cons,
      Kernel.cut_append (by decide) _ _ hA.1, Kernel.cut_plain hA.1 hA.2.1, List.take_append] at hp
    by_cases k2 : 4094 - A.length ≤ B.length
    · rw [Nat.sub_eq_zero_of_le k2, List.take_zero, List.append_nil, Kernel.cut_plain (sub hB.1) (sub hB.2.1)] at hp
      simp only [List.cons_append, List.nil_append, List.foldlM_cons, List.foldlM_nil] at hp
      obtain ⟨q, hq, hp⟩ := Option.bind_eq_some_iff.1 hp
      obtain ⟨q2, hq2, hp⟩ := Option.bind_eq_some_iff.1 hp
      cases hp
      have n1 := option_work_none hq (by rw [hA.2.2]; decide) rfl
      rw [option_work_none hq2 (headTake _ _ _ hB.2.2 (by decide)) n1] at hwp
      cases hwp
    · obtain ⟨j, hj⟩ : ∃ j, 4094 - A.length - B.length = j + 1 := ⟨4093 - A.length - B.length, by omega⟩
      rw [List.take_of_length_le (by omega), hj, List.take_succ_cons, Kernel.cut_append (by decide) _ _ hB.1,
        Kernel.cut_plain hB.1 hB.2.1, Kernel.cut_plain (sub hC1.1) (sub hC1.2)] at hp
      simp only [List.cons_append, List.nil_append, List.foldlM_cons, List.foldlM_nil] at hp
      obtain ⟨q, hq, hp⟩ := Option.bind_eq_some_iff.1 hp
      obtain ⟨q2, hq2, hp⟩ := Option.bind_eq_some_iff.1 hp
      obtain ⟨q3, hq3, hp⟩ := Option.bind_eq_some_iff.1 hp
      cases hp
      have n1 := option_work_none hq (by rw [hA.2.2]; decide) rfl
      have n2 := option_work_none hq2 (by rw [hB.2.2]; decide) n1
      have hjl : j < C.length := by omega
      unfold Kernel.option at hq3
      split at hq3
      · cases hq3; rw [n2] at hwp; cases hwp
      · split at hq3
        · cases hq3; rw [n2] at hwp; cases hwp
        · split at hq3
          · cases hq3
            simp only [Option.some.injEq] at hwp
            rw [Kernel.unesc_plain] at hwp
            · have := congrArg List.length hwp
              rw [List.length_drop, List.length_take] at this
              have hl : C.length = 8 + o.workDir.length := by rw [hC, List.length_append]; rfl
              have hpos : 0 < o.workDir.length := by rw [hw]; simp [joinRoot]
              omega
            · intro h
              exact hC1.1 (List.mem_of_mem_take (List.mem_of_mem_drop h))
          · cases hq3

end Verif
