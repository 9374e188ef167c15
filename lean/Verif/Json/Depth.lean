import Verif.Json.San
/-!
# How deep the JSON text of a tree nests
-/
set_option autoImplicit false
namespace Verif
open Json

namespace Json

theorem depth_fields_le (l : List (Str × Val)) (B : Nat) : depthFields (fields l) ≤ B ↔ ∀ e ∈ l, depth e.2 ≤ B := by
  induction l with
  | nil => simp [fields, depthFields]
  | cons e l ih => simp only [fields, depthFields, Nat.max_le, ih, List.forall_mem_cons]

theorem depth_vals_le (l : List Val) (B : Nat) : depthVals (vals l) ≤ B ↔ ∀ e ∈ l, depth e ≤ B := by
  induction l with
  | nil => simp [vals, depthVals]
  | cons e l ih => simp only [vals, depthVals, Nat.max_le, ih, List.forall_mem_cons]

theorem depth_strMap (l : List (Str × Str)) (B : Nat) : depth (strMapJ l) ≤ B ↔ 1 ≤ B := by
  simp only [strMapJ, depth]
  constructor
  · intro h; omega
  · intro h
    have : depthFields (fields ((sortBy Prod.fst l).map fun e => (e.1, Val.str e.2))) ≤ B - 1 := by
      rw [depth_fields_le]
      intro e he
      obtain ⟨x, _, rfl⟩ := List.mem_map.1 he
      simp [depth]
    omega

theorem depth_bytesMap (l : List (Str × Option Str)) (B : Nat) : depth (bytesMapJ l) ≤ B ↔ 1 ≤ B := by
  simp only [bytesMapJ, depth]
  constructor
  · intro h; omega
  · intro h
    have : depthFields (fields ((sortBy Prod.fst l).map fun e => (e.1, bytesJ e.2))) ≤ B - 1 := by
      rw [depth_fields_le]
      intro e he
      obtain ⟨x, _, rfl⟩ := List.mem_map.1 he
      cases x.2 <;> simp [bytesJ, depth]
    omega

theorem depth_nameMap (m : GoMap Str) : depth (nameMapJ m) ≤ 1 := by
  cases m with
  | none => simp [nameMapJ, depth]
  | some l => exact (depth_strMap l 1).2 (Nat.le_refl _)

/-- `x` is `k` levels below the top of the dump. -/
inductive At : NodeDump → Nat → NodeDump → Prop where
  | here {d : NodeDump} : At d 0 d
  | down {d c x : NodeDump} {k : Nat} : c ∈ d.children → At c k x → At d (k + 1) x

theorem at_snoc {d x c : NodeDump} {k : Nat} (h : At d k x) (hc : c ∈ x.children) : At d (k + 1) c := by
  induction h with
  | here => exact .down hc .here
  | down h1 _ ih => exact .down h1 (ih hc)

/-- The levels of a node's own object: one, and one more for its maps. -/
def weight (x : NodeDump) : Nat := if x.annotations.entries.isEmpty && x.data.entries.isEmpty then 1 else 2

theorem weight_mk (id : Str) (cs : List NodeDump) (anno : GoMap Str) (data : GoMap (Option Str)) :
    weight (.mk id cs anno data) = if anno.entries.isEmpty && data.entries.isEmpty then 1 else 2 := rfl

theorem forall_optField {b : Bool} {k : Str} {v : Val} {P : Str × Val → Prop} :
    (∀ e ∈ optField b k v, P e) ↔ (b = true → P (k, v)) := by
  unfold optField
  cases b <;> simp

mutual
theorem depth_node_le : ∀ (nd : NodeDump) (B : Nat), depth (nodeJ nd) ≤ B ↔ ∀ k x, At nd k x → 2 * k + weight x ≤ B
  | .mk id cs anno data, B => by
    have hcs := depth_nodes_le cs
    rw [nodeJ]
    simp only [depth]
    have h1 : (1 + depthFields (fields (nodeFieldsJ id (nodesJ cs) anno data vals)) ≤ B) ↔
        1 ≤ B ∧ depthFields (fields (nodeFieldsJ id (nodesJ cs) anno data vals)) ≤ B - 1 := by omega
    rw [h1, depth_fields_le]
    simp only [nodeFieldsJ, List.forall_mem_cons, List.forall_mem_append, forall_optField, isEmpty_nodesJ, depth,
      depth_strMap, depth_bytesMap]
    have h2 : (1 + depthVals (vals (nodesJ cs)) ≤ B - 1) ↔ 2 ≤ B ∧ depthVals (vals (nodesJ cs)) ≤ B - 2 := by omega
    rw [h2, depth_vals_le, hcs]
    constructor
    · rintro ⟨g1, g2, g3, g4, g5⟩ k x hx
      cases hx with
      | here =>
        rw [weight_mk]
        split
        · omega
        · rename_i hw
          simp only [Bool.and_eq_true, not_and, Bool.not_eq_true] at hw
          cases ha : anno.entries.isEmpty with
          | false => have := g4 (by simp [ha]); omega
          | true => have := g5 (by simp [hw ha]); omega
      | @down _ c _ k hc hx =>
        have hne : (!cs.isEmpty) = true := by
          simp only [NodeDump.children] at hc
          cases cs with
          | nil => cases hc
          | cons _ _ => rfl
        have := (g3 hne).2 c hc k x hx
        have : 1 ≤ weight x := by unfold weight; split <;> omega
        omega
    · intro g
      have g0 := g 0 _ .here
      rw [weight_mk] at g0
      refine ⟨?_, by omega, ?_, ?_, ?_⟩
      · split at g0 <;> omega
      · intro hne
        have : ∀ c ∈ cs, ∀ k x, At c k x → 2 * (k + 1) + weight x ≤ B := fun c hc k x hx => g _ x (.down hc hx)
        refine ⟨?_, ?_⟩
        · cases cs with
          | nil => simp at hne
          | cons c _ =>
            have := this c (by simp) 0 c .here
            omega
        · intro c hc k x hx
          have := this c hc k x hx
          omega
      · intro ha
        simp only [Bool.not_eq_true'] at ha
        rw [ha] at g0
        simp at g0; omega
      · intro ha
        simp only [Bool.not_eq_true'] at ha
        rw [ha] at g0
        simp at g0; omega
theorem depth_nodes_le : ∀ (cs : List NodeDump) (B : Nat),
    (∀ e ∈ nodesJ cs, depth e ≤ B) ↔ ∀ c ∈ cs, ∀ k x, At c k x → 2 * k + weight x ≤ B
  | [], B => by simp [nodesJ]
  | c :: cs, B => by
    simp only [nodesJ, List.forall_mem_cons, depth_node_le c B, depth_nodes_le cs B]
end

theorem dumpDepth_le {d : TreeDump} {B : Nat} (hB : 2 ≤ B) :
    dumpDepth d ≤ B ↔ ∀ nd, d.nodes = some nd → ∀ k x, At nd k x → 2 * k + 1 + weight x ≤ B := by
  have e : (1 + depthFields (dumpFieldsJ d) ≤ B) ↔ depthFields (dumpFieldsJ d) ≤ B - 1 := by omega
  unfold dumpDepth
  simp only [depth]
  rw [e, dumpFieldsJ, depth_fields_le]
  simp only [List.forall_mem_cons, List.not_mem_nil, false_implies, implies_true, and_true]
  have h1 := depth_nameMap d.branches
  have h2 := depth_nameMap d.tags
  constructor
  · rintro ⟨g, _⟩ nd hnd k x hx
    rw [hnd] at g
    have := (depth_node_le nd (B - 1)).1 g k x hx
    omega
  · intro g
    refine ⟨?_, by omega, by omega⟩
    cases hnd : d.nodes with
    | none => simp [rootJ, depth]
    | some nd =>
      simp only [rootJ]
      rw [depth_node_le]
      intro k x hx
      have := g nd hnd k x hx
      omega

end Json

namespace TS

theorem dumpsList_inv {heap : List NodeObj} {rs : List Ref} {ds : List NodeDump} (h : DumpsList heap rs ds) {d : NodeDump}
    (hd : d ∈ ds) : ∃ r ∈ rs, DumpsTo heap r d := by
  induction rs generalizing ds with
  | nil => cases h; cases hd
  | cons x xs ih =>
    cases h with
    | cons h1 h2 =>
      rcases List.mem_cons.1 hd with rfl | hd
      · exact ⟨x, by simp, h1⟩
      · obtain ⟨r, hr, h3⟩ := ih h2 hd
        exact ⟨r, by simp [hr], h3⟩

theorem at_depth {s : TS} (h : WF s) {dep : Ref → Nat} (hdep : IsDepth s dep) {nd x : NodeDump} {k : Nat} (ha : At nd k x) :
    ∀ {r : Ref}, DumpsTo s.heap r nd → s.In r → ∃ y, DumpsTo s.heap y x ∧ s.In y ∧ dep y = dep r + k := by
  induction ha with
  | here => intro r hd hr; exact ⟨r, hd, hr, rfl⟩
  | @down d c x k hc _ ih =>
    intro r hd hr
    cases hd with
    | @mk _ o es ds _ _ h1 h2 h3 h4 h5 =>
      obtain ⟨o', ho', hin⟩ := hr
      rw [h1] at ho'; cases ho'
      obtain ⟨q, hq, hqd⟩ := dumpsList_inv h3 hc
      obtain ⟨e, he, rfl⟩ := List.mem_map.1 hq
      obtain ⟨c1, c2⟩ := h.chi r o h1 hin
      obtain ⟨g1, co, g2, g3⟩ := c2 e.1 e.2 ((GoMap.mem_iff_get c1).1 (h2.mem_iff.1 he))
      obtain ⟨co', g4, g5⟩ := h.idx _ _ g1
      rw [g2] at g4; cases g4
      have hcin : s.In e.2 := ⟨co, g2, by rw [g5]; exact g1⟩
      obtain ⟨y, y1, y2, y3⟩ := ih hqd hcin
      have := (hdep e.2 co g2 (by rw [g5]; exact g1)).2 r g3
      exact ⟨y, y1, y2, by omega⟩

theorem at_covers {s : TS} (h : WF s) {dep : Ref → Nat} (hdep : IsDepth s dep) {r : Ref} {nd : NodeDump}
    (hd : DumpsTo s.heap r nd) {y : Ref} (ha : RAnc s.heap r y) (hy : s.In y) :
    ∃ x k, At nd k x ∧ DumpsTo s.heap y x ∧ dep y = dep r + k := by
  induction ha with
  | refl => exact ⟨nd, 0, .here, hd, rfl⟩
  | @step y p o h1 h2 _ ih =>
    obtain ⟨x, k, a, b, c⟩ := ih (in_parent h hy h1 h2)
    obtain ⟨o', ho', hn⟩ := hy
    rw [h1] at ho'; cases ho'
    have hdy := (hdep y o h1 hn).2 p h2
    cases b with
    | @mk _ po es ds _ _ g1 g2 g3 _ _ =>
      rcases h.par y o h1 hn with ⟨f1, _⟩ | ⟨q, qo, f1, f2, f3, f4⟩
      · rw [h2] at f1; cases f1
      · rw [h2] at f1; cases f1
        rw [g1] at f2; cases f2
        have hm : y ∈ es.map Prod.snd := List.mem_map.2 ⟨(o.id.hex, y), g2.mem_iff.2 (GoMap.mem_of_get f4), rfl⟩
        obtain ⟨d', hd', hdx⟩ := dumpsList_mem g3 hm
        exact ⟨d', k + 1, at_snoc a hd', hdx, by omega⟩

/-- The length of the path of a node to the root is its depth. -/
theorem path_depth {s : TS} (h : WF s) {dep : Ref → Nat} (hdep : IsDepth s dep) {r0 : Ref} (hr0 : s.tree.root = some r0)
    {u : UID} {l : List UID} (hp : ATree.Path s.abs u l) :
    ∀ {r : Ref} {o : NodeObj}, s.heap[r]? = some o → s.tree.nodes.get o.id.hex = some r → o.id = u →
      l.length + dep r0 = dep r + 1 := by
  induction hp with
  | root h1 h2 =>
    intro r o ho hn hid
    obtain ⟨r', o', a, b, c, d⟩ := (abs_node_iff h _ _).1 h1
    have := in_inj ho hn a b (hid.trans c.symm)
    subst this
    rw [ho] at a; cases a
    rw [d] at h2
    have := ((abs_parent_none_iff h ho hn).1 h2).2
    rw [hr0] at this; cases this
    simp; omega
  | @step u p n l h1 h2 _ ih =>
    intro r o ho hn hid
    obtain ⟨r', o', a, b, c, d⟩ := (abs_node_iff h _ _).1 h1
    have := in_inj ho hn a b (hid.trans c.symm)
    subst this
    rw [ho] at a; cases a
    rw [d] at h2
    obtain ⟨q, qo, e1, e2, e3, e4, _⟩ := (abs_parent_iff h ho hn p).1 h2
    have h3 := ih e2 e4 e3
    have h4 := (hdep r o ho hn).2 q e1
    simp only [List.length_cons]
    omega

/-- A node carries annotations or data. -/
def _root_.Verif.ANode.Carries (n : ANode) : Prop := (∃ k v, n.anno k = some v) ∨ ∃ k v, n.data k = some v

/-- A tree that the JSON decoder accepts: each node is at most 4999 steps below the root, and one that carries annotations
or data at most 4998. -/
def _root_.Verif.ATree.Shallow (a : ATree) : Prop :=
  ∀ u n l, a.node u = some n → ATree.Path a u l →
    2 * l.length ≤ 10000 ∧ (n.Carries → 2 * l.length + 1 ≤ 10000)

theorem isEmpty_iff_get {α : Type} (m : GoMap α) : m.entries.isEmpty = true ↔ ∀ k, m.get k = none := by
  constructor
  · intro h k
    have : m.entries = [] := by simpa using h
    simp [GoMap.get, this]
  · intro h
    cases he : m.entries with
    | nil => rfl
    | cons e l =>
      have := h e.1
      simp only [GoMap.get, he] at this
      obtain ⟨k, v⟩ := e
      simp [AL.get] at this

theorem weight_eq {s : TS} {y : Ref} {x : NodeDump} {o : NodeObj} (hd : DumpsTo s.heap y x) (ho : s.heap[y]? = some o) :
    ((absObj s.heap o).Carries ∧ weight x = 2) ∨ (¬ (absObj s.heap o).Carries ∧ weight x = 1) := by
  obtain ⟨o', ho', _, h1, h2⟩ := dumpsTo_id hd
  rw [ho] at ho'; cases ho'
  have e1 := isEmpty_iff_get x.annotations
  have e2 := isEmpty_iff_get x.data
  rw [h1.get] at e1
  rw [h2.get] at e2
  unfold weight
  cases ha : x.annotations.entries.isEmpty with
  | false =>
    left
    rw [ha] at e1
    refine ⟨Or.inl ?_, by simp⟩
    obtain ⟨k, hk⟩ := Classical.not_forall.1 fun hh => Bool.false_ne_true (e1.2 hh)
    obtain ⟨v, hv⟩ := Option.ne_none_iff_exists'.1 hk
    exact ⟨k, v, hv⟩
  | true =>
    cases hb : x.data.entries.isEmpty with
    | false =>
      left
      rw [hb] at e2
      refine ⟨Or.inr ?_, by simp⟩
      obtain ⟨k, hk⟩ := Classical.not_forall.1 fun hh => Bool.false_ne_true (e2.2 hh)
      obtain ⟨v, hv⟩ := Option.ne_none_iff_exists'.1 hk
      exact ⟨k, v, hv⟩
    | true =>
      right
      refine ⟨?_, by simp⟩
      rintro (⟨k, v, hv⟩ | ⟨k, v, hv⟩)
      · simp only [absObj] at hv; rw [e1.1 ha k] at hv; cases hv
      · simp only [absObj] at hv; rw [e2.1 hb k] at hv; cases hv

theorem shallow_iff {s : TS} (h : WF s) {d : TreeDump} (hd : Dumps s d) : dumpDepth d ≤ maxDepth ↔ s.abs.Shallow := by
  rw [dumpDepth_le (by simp [maxDepth])]
  simp only [maxDepth]
  obtain ⟨hn, _, _⟩ := hd
  obtain ⟨dep, hdep⟩ := h.depth
  cases hr : s.tree.root with
  | none =>
    rw [hr] at hn
    simp only at hn
    constructor
    · intro _ u n l hu
      obtain ⟨r, o, _, h2, _⟩ := (abs_node_iff h u n).1 hu
      rw [h.rootNone hr] at h2; cases h2
    · intro _ nd hnd; rw [hn] at hnd; cases hnd
  | some r0 =>
    rw [hr] at hn
    obtain ⟨nd, hnd, hdt⟩ := hn
    obtain ⟨ro, hro, hrin, _⟩ := h.root r0 hr
    constructor
    · intro g u n l hu hp
      obtain ⟨r, o, h1, h2, h3, rfl⟩ := (abs_node_iff h u n).1 hu
      have hlen := path_depth h hdep hr hp h1 h2 h3
      obtain ⟨x, k, a, b, c⟩ := at_covers h hdep hdt (ranc_root h hdep hr _ rfl ⟨o, h1, h2⟩) ⟨o, h1, h2⟩
      have hg := g nd hnd k x a
      have hw := weight_eq b h1
      constructor
      · have : 1 ≤ weight x := by unfold weight; split <;> omega
        omega
      · intro hc
        rcases hw with ⟨_, hw⟩ | ⟨hw, _⟩
        · omega
        · exact absurd hc hw
    · intro g nd' hnd' k x hx
      rw [hnd] at hnd'; cases hnd'
      obtain ⟨y, y1, y2, y3⟩ := at_depth h hdep hx hdt ⟨ro, hro, hrin⟩
      obtain ⟨o, ho, hin⟩ := y2
      obtain ⟨l, hl⟩ := (rooted_of_wf h).path o.id ((abs_has_iff h _).2 ⟨y, o, ho, hin, rfl⟩)
      have hlen := path_depth h hdep hr hl ho hin rfl
      have hg := g o.id _ l ((abs_node_iff h _ _).2 ⟨y, o, ho, hin, rfl, rfl⟩) hl
      rcases weight_eq y1 ho with ⟨hc, hw⟩ | ⟨_, hw⟩
      · have := hg.2 hc
        omega
      · omega

end TS
end Verif
