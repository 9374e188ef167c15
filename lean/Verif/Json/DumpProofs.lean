import Verif.Json.Dump
import Verif.Tree.DumpProofs
/-! # Reading back a written dump -/
set_option autoImplicit false
namespace Verif
namespace Json

/-! ## ASCII texts are valid -/

theorem head_ascii {a : UInt8} (h : a < 0x80) (r : Str) : head a r = .ascii a := by
  unfold head; simp [h]

theorem valid_ascii {s : Str} (h : ∀ b ∈ s, b < (0x80 : UInt8)) : validUtf8 s := by
  induction s with
  | nil => intro c hc; simp [chunks, chunksFrom] at hc
  | cons a r ih =>
    intro c hc
    obtain ⟨t, h1, h2⟩ := chunks_cons a r
    rw [head_ascii (h a (by simp))] at h1 h2
    simp only [Chunk.src, List.singleton_append, List.cons.injEq, true_and] at h1
    subst h1
    rw [h2, List.mem_cons] at hc
    rcases hc with rfl | hc
    · intro b; simp
    · exact ih (fun b hb => h b (by simp [hb])) c hc

theorem sanitize_ascii {s : Str} (h : ∀ b ∈ s, b < (0x80 : UInt8)) : sanitize s = s := sanitize_valid (valid_ascii h)

theorem hexDigit_ascii : ∀ n : Fin 16, Hex.digit n.val < (0x80 : UInt8) := by decide

theorem hex_ascii (l : Str) : ∀ b ∈ Hex.encode l, b < (0x80 : UInt8) := by
  induction l with
  | nil => simp [Hex.encode]
  | cons a r ih =>
    intro b hb
    have ha := a.toNat_lt
    simp only [Hex.encode, List.mem_cons] at hb
    rcases hb with rfl | rfl | hb
    · exact hexDigit_ascii ⟨a.toNat / 16, by omega⟩
    · exact hexDigit_ascii ⟨a.toNat % 16, by omega⟩
    · exact ih b hb

theorem sanitize_hex (u : UID) : sanitize u.hex = u.hex := sanitize_ascii (hex_ascii _)

theorem sanitize_base64 (s : Str) : sanitize (Base64.encode s) = Base64.encode s :=
  sanitize_ascii fun b hb => (Base64.encode_plain s b hb).2.2

/-! ## What comes back -/

/-- The entries of a map after a round trip: texts are cleaned, and of keys that become equal the last in byte order
wins. `g` is the effect on values. -/
def rtMap {α β : Type} (g : α → β) (l : List (Str × α)) : List (Str × β) :=
  (sortBy Prod.fst l).foldl (fun acc e => AL.put acc (sanitize e.1) (g e.2)) []

mutual
/-- A node after a round trip. -/
def rtNode : NodeDump → NodeDump
  | .mk id cs anno data =>
    .mk (sanitize id) (rtNodes cs)
      (if anno.entries.isEmpty then none else some (rtMap sanitize anno.entries))
      (if data.entries.isEmpty then none else some (rtMap (fun x => x) data.entries))
/-- A list of nodes after a round trip. -/
def rtNodes : List NodeDump → List NodeDump
  | [] => []
  | c :: cs => rtNode c :: rtNodes cs
end

/-- A dump after a round trip. -/
def rtDump (d : TreeDump) : TreeDump :=
  ⟨d.nodes.map rtNode, d.branches.map (rtMap sanitize), d.tags.map (rtMap sanitize)⟩

theorem clean_fields (l : List (Str × Val)) :
    cleanFields (fields l) = fields (l.map fun e => (sanitize e.1, clean e.2)) := by
  induction l with
  | nil => rfl
  | cons e l ih => simp only [fields, cleanFields, List.map_cons, ih]

theorem clean_vals (l : List Val) : cleanVals (vals l) = vals (l.map clean) := by
  induction l with
  | nil => rfl
  | cons e l ih => simp only [vals, cleanVals, List.map_cons, ih]

theorem strEntries_fields (l : List (Str × Str)) (acc : List (Str × Str)) :
    strEntries (fields (l.map fun e => (sanitize e.1, .str (sanitize e.2)))) acc =
      some (l.foldl (fun acc e => AL.put acc (sanitize e.1) (sanitize e.2)) acc) := by
  induction l generalizing acc with
  | nil => rfl
  | cons e l ih => simp only [List.map_cons, fields, strEntries, strInto, Option.bind_some, List.foldl_cons, ih]

theorem bytesOf_clean (v : Option Str) : bytesOf (clean (bytesJ v)) = some v := by
  cases v with
  | none => rfl
  | some b => simp [bytesJ, clean, bytesOf, sanitize_base64, Base64.decode_encode]

theorem bytesEntries_fields (l : List (Str × Option Str)) (acc : List (Str × Option Str)) :
    bytesEntries (fields (l.map fun e => (sanitize e.1, clean (bytesJ e.2)))) acc =
      some (l.foldl (fun acc e => AL.put acc (sanitize e.1) e.2) acc) := by
  induction l generalizing acc with
  | nil => rfl
  | cons e l ih => simp only [List.map_cons, fields, bytesEntries, bytesOf_clean, Option.bind_some, List.foldl_cons, ih]

theorem strMapInto_clean (l : List (Str × Str)) :
    strMapInto none (clean (strMapJ l)) = some (some (rtMap sanitize l)) := by
  simp only [strMapJ, clean, clean_fields, List.map_map, Function.comp_def, strMapInto, GoMap.entries_none]
  rw [strEntries_fields]; rfl

theorem bytesMapInto_clean (l : List (Str × Option Str)) :
    bytesMapInto none (clean (bytesMapJ l)) = some (some (rtMap (fun x => x) l)) := by
  simp only [bytesMapJ, clean, clean_fields, List.map_map, Function.comp_def, bytesMapInto, GoMap.entries_none]
  rw [bytesEntries_fields]; rfl

theorem key_id : sanitize (lit "id") = lit "id" ∧ foldKey (lit "id") = lit "id" := by decide
theorem key_children : sanitize (lit "children") = lit "children" ∧ foldKey (lit "children") = lit "children" := by decide
theorem key_anno : sanitize (lit "annotations") = lit "annotations" ∧ foldKey (lit "annotations") = lit "annotations" := by
  decide
theorem key_data : sanitize (lit "data") = lit "data" ∧ foldKey (lit "data") = lit "data" := by decide
theorem key_nodes : sanitize (lit "nodes") = lit "nodes" ∧ foldKey (lit "nodes") = lit "nodes" := by decide
theorem key_branches : sanitize (lit "branches") = lit "branches" ∧ foldKey (lit "branches") = lit "branches" := by decide
theorem key_tags : sanitize (lit "tags") = lit "tags" ∧ foldKey (lit "tags") = lit "tags" := by decide

theorem nodeFields_id (id i : Str) (cs : List NodeDump) (anno : GoMap Str) (data : GoMap (Option Str)) (l : Fields) :
    nodeFields (.cons (lit "id") (.str id) l) (.mk i cs anno data) = nodeFields l (.mk id cs anno data) := by
  simp [nodeFields, key_id.2, strInto]

theorem nodeFields_children {v : Val} {ds : List NodeDump} (hv : childrenOf v = some ds) (id : Str) (cs : List NodeDump)
    (anno : GoMap Str) (data : GoMap (Option Str)) (l : Fields) :
    nodeFields (.cons (lit "children") v l) (.mk id cs anno data) = nodeFields l (.mk id ds anno data) := by
  rw [nodeFields, if_neg (by rw [key_children.2]; decide), if_pos key_children.2, hv]; rfl

theorem nodeFields_anno {v : Val} {m anno : GoMap Str} (hv : strMapInto anno v = some m) (id : Str) (cs : List NodeDump)
    (data : GoMap (Option Str)) (l : Fields) :
    nodeFields (.cons (lit "annotations") v l) (.mk id cs anno data) = nodeFields l (.mk id cs m data) := by
  rw [nodeFields, if_neg (by rw [key_anno.2]; decide), if_neg (by rw [key_anno.2]; decide), if_pos key_anno.2, hv]; rfl

theorem nodeFields_data {v : Val} {m data : GoMap (Option Str)} (hv : bytesMapInto data v = some m) (id : Str)
    (cs : List NodeDump) (anno : GoMap Str) (l : Fields) :
    nodeFields (.cons (lit "data") v l) (.mk id cs anno data) = nodeFields l (.mk id cs anno m) := by
  rw [nodeFields, if_neg (by rw [key_data.2]; decide), if_neg (by rw [key_data.2]; decide),
    if_neg (by rw [key_data.2]; decide), if_pos key_data.2, hv]; rfl

theorem isEmpty_nodesJ (cs : List NodeDump) : (nodesJ cs).isEmpty = cs.isEmpty := by cases cs <;> rfl

theorem nodeFields_step {b : Bool} {k : Str} {v : Val} {rest : List (Str × Val)} {c1 c2 : NodeDump}
    (h : b = true → ∀ l, nodeFields (.cons (sanitize k) (clean v) l) c1 = nodeFields l c2) (h2 : b = false → c1 = c2) :
    nodeFields (fields ((optField b k v ++ rest).map fun e => (sanitize e.1, clean e.2))) c1 =
      nodeFields (fields (rest.map fun e => (sanitize e.1, clean e.2))) c2 := by
  cases b with
  | false => rw [h2 rfl]; rfl
  | true => simp only [optField, if_true, List.singleton_append, List.map_cons, fields, h rfl]

mutual
theorem nodeInto_clean : ∀ (nd : NodeDump), nodeInto (clean (nodeJ nd)) zeroNode = some (rtNode nd)
  | .mk id cs anno data => by
    simp only [nodeJ, clean, nodeInto, clean_fields]
    simp only [nodeFieldsJ, List.map_cons, fields, key_id.1, zeroNode, clean, nodeFields_id, rtNode]
    rw [nodeFields_step (c2 := .mk (sanitize id) (rtNodes cs) none none)]
    · rw [nodeFields_step (c2 := .mk (sanitize id) (rtNodes cs)
        (if anno.entries.isEmpty then none else some (rtMap sanitize anno.entries)) none)]
      · have := nodeFields_step (b := !data.entries.isEmpty) (k := lit "data") (v := bytesMapJ data.entries) (rest := [])
          (c1 := .mk (sanitize id) (rtNodes cs)
            (if anno.entries.isEmpty then none else some (rtMap sanitize anno.entries)) none)
          (c2 := .mk (sanitize id) (rtNodes cs)
            (if anno.entries.isEmpty then none else some (rtMap sanitize anno.entries))
            (if data.entries.isEmpty then none else some (rtMap (fun x => x) data.entries)))
          (by
            intro hb l
            simp only [Bool.not_eq_true'] at hb
            rw [hb, key_data.1, nodeFields_data (bytesMapInto_clean _)]
            simp)
          (by intro hb; simp only [Bool.not_eq_false'] at hb; rw [hb]; simp)
        rw [List.append_nil] at this
        rw [this]; rfl
      · intro hb l
        simp only [Bool.not_eq_true'] at hb
        rw [hb, key_anno.1, nodeFields_anno (strMapInto_clean _)]
        simp
      · intro hb; simp only [Bool.not_eq_false'] at hb; rw [hb]; simp
    · intro hb l
      rw [key_children.1, nodeFields_children (ds := rtNodes cs)]
      simp only [clean, childrenOf, clean_vals, nodeList_clean cs]
    · intro hb
      rw [isEmpty_nodesJ] at hb
      cases cs with
      | nil => rfl
      | cons c cs => simp at hb
theorem nodeList_clean : ∀ (cs : List NodeDump), nodeList (vals ((nodesJ cs).map clean)) = some (rtNodes cs)
  | [] => rfl
  | c :: cs => by
    simp only [nodesJ, List.map_cons, vals, nodeList, nodeInto_clean c, nodeList_clean cs, Option.bind_some, Option.map_some,
      rtNodes]
end

theorem nameMap_clean (m : GoMap Str) : strMapInto none (clean (nameMapJ m)) = some (m.map (rtMap sanitize)) := by
  cases m with
  | none => rfl
  | some l => exact strMapInto_clean l

theorem nodeJ_obj (nd : NodeDump) : ∃ l, nodeJ nd = .obj l := by cases nd; exact ⟨_, by rw [nodeJ]⟩

theorem rootInto_clean (nd : Option NodeDump) : rootInto none (clean (rootJ nd)) = some (nd.map rtNode) := by
  cases nd with
  | none => rfl
  | some nd =>
    have h := nodeInto_clean nd
    obtain ⟨l, hl⟩ := nodeJ_obj nd
    simp only [rootJ, Option.map_some]
    rw [hl] at h ⊢
    simp only [clean] at h ⊢
    simp only [rootInto, Option.getD_none, h, Option.map_some]

theorem dumpOf_clean (d : TreeDump) : dumpOf (clean (.obj (dumpFieldsJ d))) = some (rtDump d) := by
  simp only [clean, dumpFieldsJ, clean_fields, List.map_cons, List.map_nil]
  simp only [fields, key_nodes.1, key_branches.1, key_tags.1, dumpOf]
  rw [dumpFields, if_pos key_nodes.2]
  simp only [zeroDump, rootInto_clean, Option.bind_some]
  rw [dumpFields, if_neg (by rw [key_branches.2]; decide), if_pos key_branches.2]
  simp only [nameMap_clean, Option.bind_some]
  rw [dumpFields, if_neg (by rw [key_tags.2]; decide), if_neg (by rw [key_tags.2]; decide), if_pos key_tags.2]
  simp only [nameMap_clean, Option.bind_some]
  rfl

/-! ## No numbers -/

theorem noNum_fields {l : List (Str × Val)} (h : ∀ e ∈ l, NoNum e.2) : NoNumFields (fields l) := by
  induction l with
  | nil => trivial
  | cons e l ih => exact ⟨h e (by simp), ih fun x hx => h x (by simp [hx])⟩

theorem noNum_vals {l : List Val} (h : ∀ e ∈ l, NoNum e) : NoNumVals (vals l) := by
  induction l with
  | nil => trivial
  | cons e l ih => exact ⟨h e (by simp), ih fun x hx => h x (by simp [hx])⟩

theorem noNum_strMap (l : List (Str × Str)) : NoNum (strMapJ l) := by
  apply noNum_fields
  intro e he
  obtain ⟨x, _, rfl⟩ := List.mem_map.1 he
  trivial

theorem noNum_bytesMap (l : List (Str × Option Str)) : NoNum (bytesMapJ l) := by
  apply noNum_fields
  intro e he
  obtain ⟨x, _, rfl⟩ := List.mem_map.1 he
  cases x.2 <;> trivial

theorem mem_optField {b : Bool} {k : Str} {v : Val} {e : Str × Val} (h : e ∈ optField b k v) : b = true ∧ e = (k, v) := by
  unfold optField at h
  split at h
  · exact ⟨by assumption, by simpa using h⟩
  · cases h

mutual
theorem noNum_node : ∀ (nd : NodeDump), NoNum (nodeJ nd)
  | .mk id cs anno data => by
    rw [nodeJ]
    apply noNum_fields
    intro e he
    simp only [nodeFieldsJ, List.mem_cons, List.mem_append] at he
    rcases he with rfl | he | he | he
    · trivial
    · rw [(mem_optField he).2]; exact noNum_vals (noNum_nodes cs)
    · rw [(mem_optField he).2]; exact noNum_strMap _
    · rw [(mem_optField he).2]; exact noNum_bytesMap _
theorem noNum_nodes : ∀ (cs : List NodeDump), ∀ e ∈ nodesJ cs, NoNum e
  | [], e, he => by simp [nodesJ] at he
  | c :: cs, e, he => by
    simp only [nodesJ, List.mem_cons] at he
    rcases he with rfl | he
    · exact noNum_node c
    · exact noNum_nodes cs e he
end

theorem noNum_dump (d : TreeDump) : NoNum (.obj (dumpFieldsJ d)) := by
  apply noNum_fields
  intro e he
  simp only [List.mem_cons, List.not_mem_nil, or_false] at he
  rcases he with rfl | rfl | rfl
  · cases d.nodes with
    | none => trivial
    | some nd => exact noNum_node nd
  · cases d.branches with
    | none => trivial
    | some nd => exact noNum_strMap _
  · cases d.tags with
    | none => trivial
    | some nd => exact noNum_strMap _

/-- Nesting of the JSON text of a dump. -/
def dumpDepth (d : TreeDump) : Nat := depth (.obj (dumpFieldsJ d))

/-- Reading back what was written: the round-trip result up to the nesting limit, an error beyond it. -/
theorem unmarshal_marshal (sh : Bool) (d : TreeDump) :
    unmarshalDump (marshalDump sh d) = if dumpDepth d ≤ maxDepth then some (rtDump d) else none := by
  unfold unmarshalDump parse marshalDump
  rw [parseWith_emit sh _ _ (noNum_dump d)]
  unfold dumpDepth
  split
  · rw [Option.bind_some, dumpOf_clean]
  · rfl

/-- A strict prefix of a written dump cannot be read. -/
theorem unmarshal_prefix (sh : Bool) (d : TreeDump) {p q : Str} (h : p ++ q = marshalDump sh d) (hq : q ≠ []) :
    unmarshalDump p = none := by
  unfold unmarshalDump parse
  rw [parse_prefix sh _ _ (noNum_dump d) h hq]; rfl

/-! ## Valid texts come back unchanged -/

theorem foldl_put_nodup {α β : Type} (f : Str → Str) (g : α → β) (l : List (Str × α)) (acc : List (Str × β))
    (h : (AL.keys acc).Nodup) : (AL.keys (l.foldl (fun acc e => AL.put acc (f e.1) (g e.2)) acc)).Nodup := by
  induction l generalizing acc with
  | nil => exact h
  | cons e l ih => exact ih _ (AL.nodup_put h _ _)

theorem rtMap_nodup {α β : Type} (g : α → β) (l : List (Str × α)) : (AL.keys (rtMap g l)).Nodup :=
  foldl_put_nodup sanitize g _ [] (by simp [AL.keys])

/-- Of the entries of a list that become equal, the last one stays. -/
theorem foldl_put_get {α β : Type} (f : Str → Str) (g : α → β) (l : List (Str × α)) (acc : List (Str × β)) (k : Str) (w : β) :
    AL.get (l.foldl (fun acc e => AL.put acc (f e.1) (g e.2)) acc) k = some w ↔
      (∃ l1 e l2, l = l1 ++ e :: l2 ∧ f e.1 = k ∧ w = g e.2 ∧ ∀ x ∈ l2, f x.1 ≠ k) ∨
      ((∀ x ∈ l, f x.1 ≠ k) ∧ AL.get acc k = some w) := by
  induction l generalizing acc with
  | nil => simp
  | cons e l ih =>
    rw [List.foldl_cons, ih, AL.get_put]
    constructor
    · rintro (⟨l1, x, l2, rfl, h2, h3, h4⟩ | ⟨h1, h2⟩)
      · exact Or.inl ⟨e :: l1, x, l2, rfl, h2, h3, h4⟩
      · split at h2
        · rename_i hk
          exact Or.inl ⟨[], e, l, rfl, hk, (Option.some.inj h2).symm, h1⟩
        · rename_i hk
          refine Or.inr ⟨?_, h2⟩
          intro x hx
          rcases List.mem_cons.1 hx with rfl | hx
          · exact hk
          · exact h1 x hx
    · rintro (⟨l1, x, l2, h1, h2, h3, h4⟩ | ⟨h1, h2⟩)
      · cases l1 with
        | nil =>
          simp only [List.nil_append, List.cons.injEq] at h1
          obtain ⟨rfl, rfl⟩ := h1
          exact Or.inr ⟨h4, by rw [if_pos h2, h3]⟩
        | cons y l1 =>
          simp only [List.cons_append, List.cons.injEq] at h1
          exact Or.inl ⟨l1, x, l2, h1.2, h2, h3, h4⟩
      · exact Or.inr ⟨fun x hx => h1 x (by simp [hx]), by rw [if_neg (h1 e (by simp))]; exact h2⟩

/-- Specification of a map after a round trip: the keys and values are cleaned; of keys that become equal, the last one in
byte order wins. -/
def Cleaned {α β : Type} (g : α → β) (f : Str → Option α) (f' : Str → Option β) : Prop :=
  ∀ k w, f' k = some w ↔ ∃ k0 v0, f k0 = some v0 ∧ w = g v0 ∧ sanitize k0 = k ∧
    ∀ k1 v1, f k1 = some v1 → sanitize k1 = k → strLe k1 k0 = true

theorem strLe_refl (a : Str) : strLe a a = true := by simp [strLe, strLt_irrefl]

theorem strLe_antisymm {a b : Str} (h1 : strLe a b = true) (h2 : strLe b a = true) : a = b := by
  by_cases h : a = b
  · exact h
  · simp only [strLe, Bool.not_eq_true'] at h1 h2
    rcases strLt_total h with h3 | h3
    · rw [h2] at h3; cases h3
    · rw [h1] at h3; cases h3

theorem rtMap_get {α β : Type} (g : α → β) {l : List (Str × α)} (hn : (AL.keys l).Nodup) :
    Cleaned g (AL.get l) (AL.get (rtMap g l)) := by
  intro k w
  have hp := sortBy_perm Prod.fst l
  have hs := sorted_sortBy Prod.fst l
  have hm : ∀ a b, AL.get l a = some b ↔ (a, b) ∈ sortBy Prod.fst l := by
    intro a b
    rw [← AL.mem_iff_get hn, hp.mem_iff]
  have hsn : ((sortBy Prod.fst l).map Prod.fst).Nodup := (List.Perm.nodup_iff (hp.map Prod.fst)).2 hn
  unfold rtMap
  rw [foldl_put_get]
  simp only [hm]
  generalize sortBy Prod.fst l = m at hs hm hsn ⊢
  constructor
  · rintro (⟨l1, e, l2, rfl, h2, h3, h4⟩ | ⟨h1, h2⟩)
    · refine ⟨e.1, e.2, by simp, h3, h2, ?_⟩
      intro k1 v1 hm1 hk1
      unfold Sorted at hs
      rw [List.pairwise_append, List.pairwise_cons] at hs
      rcases List.mem_append.1 hm1 with h5 | h5
      · exact hs.2.2 _ h5 e (by simp)
      · rcases List.mem_cons.1 h5 with h6 | h6
        · rw [← h6]; exact strLe_refl _
        · exact absurd hk1 (h4 _ h6)
    · cases h2
  · rintro ⟨k0, v0, h1, h2, h3, h4⟩
    left
    obtain ⟨l1, l2, rfl⟩ := List.append_of_mem h1
    refine ⟨l1, (k0, v0), l2, rfl, h3, h2, ?_⟩
    intro x hx hk
    have h5 := h4 x.1 x.2 (by simp [hx]) hk
    unfold Sorted at hs
    rw [List.pairwise_append, List.pairwise_cons] at hs
    have h6 := hs.2.1.1 x hx
    have h7 := strLe_antisymm h5 h6
    rw [List.map_append, List.map_cons, List.nodup_append, List.nodup_cons] at hsn
    exact hsn.2.1.1 (List.mem_map.2 ⟨x, hx, h7⟩)

/-- Valid keys and values come back as they were. -/
theorem cleaned_valid {α β : Type} {g : α → β} {f : Str → Option α} {f' : Str → Option β} (h : Cleaned g f f')
    (hv : ∀ k v, f k = some v → validUtf8 k) : f' = fun k => (f k).map g := by
  funext k
  have key : ∀ w, f' k = some w ↔ (f k).map g = some w := by
    intro w
    rw [h k w, Option.map_eq_some_iff]
    constructor
    · rintro ⟨k0, v0, h1, h2, h3, _⟩
      rw [sanitize_valid (hv k0 v0 h1)] at h3
      subst h3
      exact ⟨v0, h1, h2.symm⟩
    · rintro ⟨v0, h1, h2⟩
      refine ⟨k, v0, h1, h2.symm, sanitize_valid (hv k v0 h1), ?_⟩
      intro k1 v1 h3 h4
      rw [sanitize_valid (hv k1 v1 h3)] at h4
      subst h4
      exact strLe_refl _
  cases hf : f' k with
  | some w => exact ((key w).1 hf).symm
  | none =>
    cases hg : (f k).map g with
    | none => rfl
    | some w => rw [(key w).2 hg] at hf; cases hf

/-- A map that shows the same entries has the same round-trip result. -/
theorem rtMap_congr {α β : Type} (g : α → β) {l l' : List (Str × α)} (hn : (AL.keys l).Nodup) (hn' : (AL.keys l').Nodup)
    (h : AL.get l = AL.get l') : AL.get (rtMap g l) = AL.get (rtMap g l') := by
  have h1 := rtMap_get g hn
  have h2 := rtMap_get g hn'
  rw [← h] at h2
  funext k
  cases hk : AL.get (rtMap g l) k with
  | some w => exact ((h2 k w).2 ((h1 k w).1 hk)).symm
  | none =>
    cases hk' : AL.get (rtMap g l') k with
    | none => rfl
    | some w => rw [(h1 k w).2 ((h2 k w).1 hk')] at hk; cases hk

theorem copy_trans {α : Type} {a b c : GoMap α} (h1 : GoMap.Copy a b) (h2 : GoMap.Copy b c) : GoMap.Copy a c :=
  ⟨fun h => h2.nodup (h1.nodup h), h2.get.trans h1.get⟩

end Json
end Verif
