import Verif.Props.Json
import Verif.Props.Numerals
import Verif.Props.Lenient
/-!
# C101: the layout of the tree file and of the workspace record

`FileIs a v` says which JSON value a tree file holds for the tree `a`, `RecordIs i v` the same for a workspace record. Neither refers to the
code that writes or reads the files: they speak of objects, their members, positional notation (for IDs and binary data) and the tree.
-/
set_option autoImplicit false
namespace Verif
open TS Json

/-! ## Specification -/

/-- The members of an object, in order. -/
def pairs : Fields → List (Str × Val)
  | .nil => []
  | .cons k v l => (k, v) :: pairs l

/-- The names of the members. -/
def names (l : Fields) : List Str := (pairs l).map Prod.fst

/-- The digits of base64 (RFC 4648, section 4). -/
def base64Table : Str := lit "ABCDEFGHIJKLMNOPQRSTUVWXYZabcdefghijklmnopqrstuvwxyz0123456789+/"

/-- `t` is the base64 text of `b` (RFC 4648, section 4): four letters for each three bytes, the last ones filled up with `=`; the letters write
the number that the bytes write, with two zero bits behind it for each `=`. -/
def In64 (b t : Str) : Prop := ∃ (body : Str) (p k : Nat), t = body ++ List.replicate p 0x3D ∧ p < 3 ∧ 3 * k = b.length + p ∧ 4 * k = t.length ∧
  Writes base64Table body (numeral 256 (b.map UInt8.toNat) * 4 ^ p)

/-- The text of an ID: 32 lower-case hex digits. -/
def IdIs (u : UID) (v : Val) : Prop := ∃ t, v = .str t ∧ t.length = 32 ∧ Writes hexTable t u.number

/-- The value of an annotation. -/
def AnnoIs (t : Str) (v : Val) : Prop := v = .str t

/-- A data value: base64, or null. -/
def DataIs : Option Str → Val → Prop
  | none, v => v = .null
  | some b, v => ∃ t, v = .str t ∧ In64 b t

/-- `v` is an object with one member for each name that `f` gives something for. -/
def TableIs {α : Type} (P : α → Val → Prop) (f : Str → Option α) (v : Val) : Prop := ∃ l, v = .obj l ∧ (names l).Nodup ∧
  (∀ k a, f k = some a → ∃ x, (k, x) ∈ pairs l ∧ P a x) ∧ ∀ k x, (k, x) ∈ pairs l → ∃ a, f k = some a ∧ P a x

/-- A table that is left out when it is empty. -/
def OptTable {α : Type} (P : α → Val → Prop) (f : Str → Option α) (key : Str) (l : Fields) : Prop :=
  ((∀ k, f k = none) ∧ key ∉ names l) ∨ (∃ v, (key, v) ∈ pairs l ∧ TableIs P f v) ∧ ∃ k, f k ≠ none

/-- The IDs of the children of a node, each once. -/
def Kids (a : ATree) (u : UID) (cs : List UID) : Prop := cs.Nodup ∧ ∀ c, c ∈ cs ↔ ∃ m, a.node c = some m ∧ m.parent = some u

mutual
/-- The node `u` of the tree `a`: an object with the ID, the children (left out if there are none), the annotations and the data (left out if
empty), and nothing else. -/
inductive NodeIs (a : ATree) : UID → Val → Prop where
  | mk {u : UID} {n : ANode} {l : Fields} {cs : List UID} {vs : Vals} {i : Val} : a.node u = some n → (names l).Nodup →
      (∀ k ∈ names l, k = lit "id" ∨ k = lit "children" ∨ k = lit "annotations" ∨ k = lit "data") →
      (lit "id", i) ∈ pairs l → IdIs u i →
      Kids a u cs → NodesAre a cs vs → (cs = [] ∧ lit "children" ∉ names l ∨ cs ≠ [] ∧ (lit "children", .arr vs) ∈ pairs l) →
      OptTable AnnoIs n.anno (lit "annotations") l → OptTable DataIs n.data (lit "data") l →
      NodeIs a u (.obj l)
/-- Nodes in a row. -/
inductive NodesAre (a : ATree) : List UID → Vals → Prop where
  | nil : NodesAre a [] .nil
  | cons {u : UID} {v : Val} {us : List UID} {vs : Vals} : NodeIs a u v → NodesAre a us vs → NodesAre a (u :: us) (.cons v vs)
end

/-- The root node with all below it, or null for the tree without nodes. -/
def RootIs (a : ATree) : Option UID → Val → Prop
  | none, v => v = .null
  | some r, v => NodeIs a r v

/-- Branches or tags: the ID for each name; null is as good as no entries. -/
def NamesAre (f : Str → Option UID) (v : Val) : Prop := TableIs IdIs f v ∨ v = .null ∧ ∀ k, f k = none

/-- The tree file for the tree `a`. -/
def FileIs (a : ATree) (v : Val) : Prop := ∃ (l : Fields) (n b t : Val), v = .obj l ∧ (names l).Nodup ∧
  (∀ k ∈ names l, k = lit "nodes" ∨ k = lit "branches" ∨ k = lit "tags") ∧
  (lit "nodes", n) ∈ pairs l ∧ RootIs a a.root n ∧ (lit "branches", b) ∈ pairs l ∧ NamesAre a.branch b ∧
  (lit "tags", t) ∈ pairs l ∧ NamesAre a.tag t

/-- The record of a workspace: an object with these six members, in any order. The name `sapceID` is spelled like this. -/
def RecordIs (i : WsInfo) (v : Val) : Prop := ∃ l, v = .obj l ∧ (pairs l).Perm [(lit "branch", .str i.branch), (lit "head", .str i.head), (lit "id", .str i.id),
  (lit "mountID", .str i.mountID), (lit "path", .str i.path), (lit "sapceID", .str i.spaceID)]

/-! ## Base64 -/

/-- The digits of a base64 text. -/
def sextets : Str → List Nat
  | a :: b :: c :: r =>
    let n := a.toNat * 65536 + b.toNat * 256 + c.toNat
    n / 262144 :: n / 4096 % 64 :: n / 64 % 64 :: n % 64 :: sextets r
  | [a, b] => let n := a.toNat * 1024 + b.toNat * 4; [n / 4096, n / 64 % 64, n % 64]
  | [a] => let n := a.toNat * 16; [n / 64, n % 64]
  | [] => []

/-- The number of `=`. -/
def pad64 : Str → Nat
  | _ :: _ :: _ :: r => pad64 r
  | [_, _] => 1
  | [_] => 2
  | [] => 0

theorem sextets_lt : ∀ s : Str, ∀ d ∈ sextets s, d < 64
  | [] => by simp [sextets]
  | [a] => by
    intro d hd
    have ha := a.toNat_lt
    simp only [sextets, List.mem_cons, List.not_mem_nil, or_false] at hd
    omega
  | [a, b] => by
    intro d hd
    have ha := a.toNat_lt
    have hb := b.toNat_lt
    simp only [sextets, List.mem_cons, List.not_mem_nil, or_false] at hd
    omega
  | a :: b :: c :: r => by
    intro d hd
    have ha := a.toNat_lt
    have hb := b.toNat_lt
    have hc := c.toNat_lt
    simp only [sextets, List.mem_cons] at hd
    rcases hd with hd | hd | hd | hd | hd
    · omega
    · omega
    · omega
    · omega
    · exact sextets_lt r d hd

theorem encode_sextets : ∀ s : Str, Base64.encode s = (sextets s).map Base64.digit ++ List.replicate (pad64 s) 0x3D
  | [] => rfl
  | [_] => rfl
  | [_, _] => rfl
  | a :: b :: c :: r => by simp only [Base64.encode, sextets, pad64, List.map_cons, List.cons_append, encode_sextets r]

theorem fold_sextets : ∀ (s : Str) (n : Nat),
    (sextets s).foldl (fun n d => n * 64 + d) n = (s.map UInt8.toNat).foldl (fun n d => n * 256 + d) n * 4 ^ pad64 s
  | [], n => by simp [sextets, pad64]
  | [a], n => by simp only [sextets, pad64, List.foldl_cons, List.foldl_nil, List.map_cons, List.map_nil]; omega
  | [a, b], n => by simp only [sextets, pad64, List.foldl_cons, List.foldl_nil, List.map_cons, List.map_nil]; omega
  | a :: b :: c :: r, n => by
    simp only [sextets, pad64, List.foldl_cons, List.map_cons]
    rw [fold_sextets r]
    congr 2
    omega

theorem pad64_lt : ∀ s : Str, pad64 s < 3
  | [] => by decide
  | [_] => by simp [pad64]
  | [_, _] => by simp [pad64]
  | _ :: _ :: _ :: r => by rw [pad64]; exact pad64_lt r

theorem length_sextets : ∀ s : Str, ∃ k, 3 * k = s.length + pad64 s ∧ 4 * k = (sextets s).length + pad64 s
  | [] => ⟨0, by simp [pad64, sextets]⟩
  | [_] => ⟨1, by simp [pad64, sextets]⟩
  | [_, _] => ⟨1, by simp [pad64, sextets]⟩
  | _ :: _ :: _ :: r => by
    obtain ⟨k, h1, h2⟩ := length_sextets r
    exact ⟨k + 1, by simp only [pad64, List.length_cons]; omega, by simp only [pad64, sextets, List.length_cons]; omega⟩

set_option maxRecDepth 4000 in
theorem digit64_table {n : Nat} (h : n < 64) : some (Base64.digit n) = base64Table[n]? := by
  have : ∀ k : Fin 64, some (Base64.digit k.val) = base64Table[k.val]? := by decide
  exact this ⟨n, h⟩

theorem in64_encode (b : Str) : In64 b (Base64.encode b) := by
  obtain ⟨k, h1, h2⟩ := length_sextets b
  refine ⟨(sextets b).map Base64.digit, pad64 b, k, encode_sextets b, pad64_lt b, h1, ?_, sextets b, ?_, ?_⟩
  · rw [encode_sextets]; simpa using h2
  · rw [List.map_map]
    exact List.map_congr_left fun d hd => digit64_table (sextets_lt b d hd)
  · exact fold_sextets b 0

/-- Every text has one base64 form. -/
theorem in64_iff (b t : Str) : In64 b t ↔ t = Base64.encode b := by
  constructor
  · rintro ⟨body, p, k, h1, h2, h3, h4, h5⟩
    obtain ⟨body', p', k', g1, g2, g3, g4, g5⟩ := in64_encode b
    have hp : p = p' := by omega
    have hk : k = k' := by omega
    subst hp; subst hk
    have hl : body.length = body'.length := by
      rw [h1] at h4; rw [g1] at g4
      simp only [List.length_append, List.length_replicate] at h4 g4
      omega
    rw [h1, g1, writes_inj h5 g5 hl]
  · rintro rfl; exact in64_encode b

theorem idIs_iff (u : UID) (v : Val) : IdIs u v ↔ v = .str u.hex := by
  constructor
  · rintro ⟨t, rfl, h1, h2⟩; rw [C100_hex_unique h1 h2]
  · rintro rfl; exact ⟨_, rfl, (C100_hex u).1, (C100_hex u).2⟩

theorem dataIs_iff (d : Option Str) (v : Val) : DataIs d v ↔ v = bytesJ d := by
  cases d with
  | none => exact Iff.rfl
  | some b =>
    constructor
    · rintro ⟨t, rfl, h⟩; rw [(in64_iff b t).1 h]; rfl
    · rintro rfl; exact ⟨_, rfl, in64_encode b⟩

/-! ## Objects -/

theorem pairs_fields (l : List (Str × Val)) : pairs (fields l) = l := by
  induction l with
  | nil => rfl
  | cons e l ih => simp only [fields, pairs, ih]

theorem names_cons (k : Str) (v : Val) (l : Fields) : names (.cons k v l) = k :: names l := rfl

theorem mem_names {l : Fields} {k : Str} {v : Val} (h : (k, v) ∈ pairs l) : k ∈ names l := List.mem_map.2 ⟨(k, v), h, rfl⟩

/-- What reading the member `key` of an object makes of what is there. -/
def Slot {X : Type} (key : Str) (f : X → Val → Option X) (l : Fields) (cur out : X) : Prop :=
  (key ∉ names l ∧ out = cur) ∨ ∃ v, (key, v) ∈ pairs l ∧ f cur v = some out

theorem slot_nil {X : Type} {key : Str} {f : X → Val → Option X} {cur out : X} (h : Slot key f .nil cur out) : out = cur := by
  rcases h with h | ⟨v, h, _⟩
  · exact h.2
  · cases h

theorem slot_skip {X : Type} {key k : Str} {f : X → Val → Option X} {v : Val} {l : Fields} {cur out : X} (hk : key ≠ k)
    (h : Slot key f (.cons k v l) cur out) : Slot key f l cur out := by
  rcases h with ⟨h1, h2⟩ | ⟨x, h1, h2⟩
  · exact .inl ⟨fun hm => h1 (List.mem_cons_of_mem _ hm), h2⟩
  · rcases List.mem_cons.1 h1 with h1 | h1
    · cases h1; exact absurd rfl hk
    · exact .inr ⟨x, h1, h2⟩

theorem slot_take {X : Type} {key : Str} {f : X → Val → Option X} {v : Val} {l : Fields} {cur out : X} (hn : key ∉ names l)
    (h : Slot key f (.cons key v l) cur out) : f cur v = some out ∧ Slot key f l out out := by
  rcases h with ⟨h1, _⟩ | ⟨x, h1, h2⟩
  · exact absurd (List.mem_cons_self ..) h1
  · rcases List.mem_cons.1 h1 with h1 | h1
    · cases h1; exact ⟨h2, .inl ⟨hn, rfl⟩⟩
    · exact absurd (mem_names h1) hn

/-- A node read from an object, its members in any order. -/
theorem nodeFields_slots : ∀ (l : Fields) {id id' : Str} {cs cs' : List NodeDump} {an an' : GoMap Str} {dt dt' : GoMap (Option Str)},
    (names l).Nodup → (∀ k ∈ names l, k = lit "id" ∨ k = lit "children" ∨ k = lit "annotations" ∨ k = lit "data") →
    Slot (lit "id") strInto l id id' → Slot (lit "children") (fun _ v => childrenOf v) l cs cs' →
    Slot (lit "annotations") strMapInto l an an' → Slot (lit "data") bytesMapInto l dt dt' →
    nodeFields l (.mk id cs an dt) = some (.mk id' cs' an' dt')
  | .nil, id, id', cs, cs', an, an', dt, dt', _, _, h1, h2, h3, h4 => by
    rw [nodeFields, slot_nil h1, slot_nil h2, slot_nil h3, slot_nil h4]
  | .cons k v l, id, id', cs, cs', an, an', dt, dt', hn, hk, h1, h2, h3, h4 => by
    rw [names_cons, List.nodup_cons] at hn
    have hk' := fun x hx => hk x (List.mem_cons_of_mem _ hx)
    rcases hk k (List.mem_cons_self ..) with rfl | rfl | rfl | rfl
    · obtain ⟨e, h1⟩ := slot_take hn.1 h1
      rw [nodeFields, if_pos key_id.2, e]
      exact nodeFields_slots l hn.2 hk' h1 (slot_skip (by decide) h2) (slot_skip (by decide) h3) (slot_skip (by decide) h4)
    · obtain ⟨e, h2⟩ := slot_take hn.1 h2
      rw [nodeFields, if_neg (by decide), if_pos key_children.2, e]
      exact nodeFields_slots l hn.2 hk' (slot_skip (by decide) h1) h2 (slot_skip (by decide) h3) (slot_skip (by decide) h4)
    · obtain ⟨e, h3⟩ := slot_take hn.1 h3
      rw [nodeFields, if_neg (by decide), if_neg (by decide), if_pos key_anno.2, e]
      exact nodeFields_slots l hn.2 hk' (slot_skip (by decide) h1) (slot_skip (by decide) h2) h3 (slot_skip (by decide) h4)
    · obtain ⟨e, h4⟩ := slot_take hn.1 h4
      rw [nodeFields, if_neg (by decide), if_neg (by decide), if_neg (by decide), if_pos key_data.2, e]
      exact nodeFields_slots l hn.2 hk' (slot_skip (by decide) h1) (slot_skip (by decide) h2) (slot_skip (by decide) h3) h4

/-- A dump read from an object, its members in any order. -/
theorem dumpFields_slots : ∀ (l : Fields) {n n' : Option NodeDump} {b b' t t' : GoMap Str},
    (names l).Nodup → (∀ k ∈ names l, k = lit "nodes" ∨ k = lit "branches" ∨ k = lit "tags") →
    Slot (lit "nodes") rootInto l n n' → Slot (lit "branches") strMapInto l b b' → Slot (lit "tags") strMapInto l t t' →
    dumpFields l ⟨n, b, t⟩ = some ⟨n', b', t'⟩
  | .nil, n, n', b, b', t, t', _, _, h1, h2, h3 => by rw [dumpFields, slot_nil h1, slot_nil h2, slot_nil h3]
  | .cons k v l, n, n', b, b', t, t', hn, hk, h1, h2, h3 => by
    rw [names_cons, List.nodup_cons] at hn
    have hk' := fun x hx => hk x (List.mem_cons_of_mem _ hx)
    rcases hk k (List.mem_cons_self ..) with rfl | rfl | rfl
    · obtain ⟨e, h1⟩ := slot_take hn.1 h1
      rw [dumpFields, if_pos key_nodes.2, e]
      exact dumpFields_slots l hn.2 hk' h1 (slot_skip (by decide) h2) (slot_skip (by decide) h3)
    · obtain ⟨e, h2⟩ := slot_take hn.1 h2
      rw [dumpFields, if_neg (by decide), if_pos key_branches.2, e]
      exact dumpFields_slots l hn.2 hk' (slot_skip (by decide) h1) h2 (slot_skip (by decide) h3)
    · obtain ⟨e, h3⟩ := slot_take hn.1 h3
      rw [dumpFields, if_neg (by decide), if_neg (by decide), if_pos key_tags.2, e]
      exact dumpFields_slots l hn.2 hk' (slot_skip (by decide) h1) (slot_skip (by decide) h2) h3

/-! ## Reading tables -/

theorem strEntries_table {α : Type} (text : α → Str) : ∀ (l : Fields) (acc : List (Str × Str)), (names l).Nodup → (AL.keys acc).Nodup →
    (∀ k ∈ names l, k ∉ AL.keys acc) → (∀ k x, (k, x) ∈ pairs l → ∃ a : α, x = .str (text a)) →
    ∃ m, strEntries l acc = some m ∧ (AL.keys m).Nodup ∧ ∀ k t, (k, t) ∈ m ↔ (k, t) ∈ acc ∨ (k, Val.str t) ∈ pairs l
  | .nil, acc, _, ha, _, _ => ⟨acc, rfl, ha, fun k t => by simp [pairs]⟩
  | .cons k v l, acc, hn, ha, hd, hx => by
    rw [names_cons, List.nodup_cons] at hn
    obtain ⟨a, rfl⟩ := hx k v (List.mem_cons_self ..)
    have hk : AL.get acc k = none := AL.get_eq_none_iff.2 (hd k (List.mem_cons_self ..))
    obtain ⟨m, h1, h2, h3⟩ := strEntries_table text l (AL.put acc k (text a)) hn.2 (AL.nodup_put ha _ _) (by
        intro k' hk' hm
        rcases AL.mem_keys_put.1 hm with rfl | hm
        · exact hn.1 hk'
        · exact hd k' (List.mem_cons_of_mem _ hk') hm) (fun k x hm => hx k x (List.mem_cons_of_mem _ hm))
    refine ⟨m, by rw [strEntries]; exact h1, h2, fun k' t => ?_⟩
    rw [h3, AL.put_new hk]
    simp only [pairs, List.mem_append, List.mem_cons, List.not_mem_nil, or_false, Prod.mk.injEq, Val.str.injEq]
    constructor
    · rintro ((h | h) | h)
      · exact .inl h
      · exact .inr (.inl h)
      · exact .inr (.inr h)
    · rintro (h | h | h)
      · exact .inl (.inl h)
      · exact .inl (.inr h)
      · exact .inr h

theorem bytesEntries_table : ∀ (l : Fields) (acc : List (Str × Option Str)), (names l).Nodup → (AL.keys acc).Nodup →
    (∀ k ∈ names l, k ∉ AL.keys acc) → (∀ k x, (k, x) ∈ pairs l → ∃ d, x = bytesJ d) →
    ∃ m, bytesEntries l acc = some m ∧ (AL.keys m).Nodup ∧ ∀ k d, (k, d) ∈ m ↔ (k, d) ∈ acc ∨ (k, bytesJ d) ∈ pairs l
  | .nil, acc, _, ha, _, _ => ⟨acc, rfl, ha, fun k t => by simp [pairs]⟩
  | .cons k v l, acc, hn, ha, hd, hx => by
    rw [names_cons, List.nodup_cons] at hn
    obtain ⟨a, rfl⟩ := hx k v (List.mem_cons_self ..)
    have hread : ∀ d, bytesOf (bytesJ d) = some d := by
      intro d; cases d with
      | none => rfl
      | some b => simp [bytesJ, bytesOf, Base64.decode_encode]
    have hinj : ∀ d d', bytesJ d = bytesJ d' ↔ d = d' := by
      intro d d'
      constructor
      · intro h
        have := congrArg bytesOf h
        rw [hread, hread] at this
        exact Option.some.inj this
      · rintro rfl; rfl
    have hk : AL.get acc k = none := AL.get_eq_none_iff.2 (hd k (List.mem_cons_self ..))
    obtain ⟨m, h1, h2, h3⟩ := bytesEntries_table l (AL.put acc k a) hn.2 (AL.nodup_put ha _ _) (by
        intro k' hk' hm
        rcases AL.mem_keys_put.1 hm with rfl | hm
        · exact hn.1 hk'
        · exact hd k' (List.mem_cons_of_mem _ hk') hm) (fun k x hm => hx k x (List.mem_cons_of_mem _ hm))
    refine ⟨m, by rw [bytesEntries, hread]; exact h1, h2, fun k' t => ?_⟩
    rw [h3, AL.put_new hk]
    simp only [pairs, List.mem_append, List.mem_cons, List.not_mem_nil, or_false, Prod.mk.injEq, hinj]
    constructor
    · rintro ((h | h) | h)
      · exact .inl h
      · exact .inr (.inl h)
      · exact .inr (.inr h)
    · rintro (h | h | h)
      · exact .inl (.inl h)
      · exact .inl (.inr h)
      · exact .inr h

/-- A table of texts is read as the map it shows. -/
theorem strMap_table {α : Type} {text : α → Str} {P : α → Val → Prop} (hP : ∀ a v, P a v ↔ v = .str (text a)) {f : Str → Option α} {v : Val}
    (h : TableIs P f v) : ∃ m : List (Str × Str), strMapInto none v = some (some m) ∧ (AL.keys m).Nodup ∧ ∀ k, AL.get m k = (f k).map text := by
  obtain ⟨l, rfl, hn, h1, h2⟩ := h
  obtain ⟨m, g1, g2, g3⟩ := strEntries_table text l [] hn List.nodup_nil (fun _ _ => by simp [AL.keys]) (by
    intro k x hx
    obtain ⟨a, _, ha⟩ := h2 k x hx
    exact ⟨a, (hP a x).1 ha⟩)
  refine ⟨m, by simp only [strMapInto, GoMap.entries_none, g1, Option.map_some], g2, fun k => ?_⟩
  cases hf : f k with
  | none =>
    rw [Option.map_none, AL.get_eq_none_iff]
    intro hm
    obtain ⟨t, ht⟩ := AL.mem_keys_iff.1 hm
    rcases (g3 k t).1 (AL.mem_of_get ht) with h | h
    · cases h
    · obtain ⟨a, ha, _⟩ := h2 _ _ h
      rw [hf] at ha; cases ha
  | some a =>
    obtain ⟨x, hx, hp⟩ := h1 k a hf
    rw [(hP a x).1 hp] at hx
    exact AL.get_of_mem g2 ((g3 k _).2 (.inr hx))

/-- The same for data. -/
theorem bytesMap_table {f : Str → Option (Option Str)} {v : Val}
    (h : TableIs DataIs f v) : ∃ m : List (Str × Option Str), bytesMapInto none v = some (some m) ∧ (AL.keys m).Nodup ∧ ∀ k, AL.get m k = f k := by
  obtain ⟨l, rfl, hn, h1, h2⟩ := h
  obtain ⟨m, g1, g2, g3⟩ := bytesEntries_table l [] hn List.nodup_nil (fun _ _ => by simp [AL.keys]) (by
    intro k x hx
    obtain ⟨a, _, ha⟩ := h2 k x hx
    exact ⟨a, (dataIs_iff a x).1 ha⟩)
  refine ⟨m, by simp only [bytesMapInto, GoMap.entries_none, g1, Option.map_some], g2, fun k => ?_⟩
  cases hf : f k with
  | none =>
    rw [AL.get_eq_none_iff]
    intro hm
    obtain ⟨t, ht⟩ := AL.mem_keys_iff.1 hm
    rcases (g3 k t).1 (AL.mem_of_get ht) with h | h
    · cases h
    · obtain ⟨a, ha, _⟩ := h2 _ _ h
      rw [hf] at ha; cases ha
  | some a =>
    obtain ⟨x, hx, hp⟩ := h1 k a hf
    rw [(dataIs_iff a x).1 hp] at hx
    exact AL.get_of_mem g2 ((g3 k _).2 (.inr hx))

theorem optStr_slot {f : Str → Option Str} {l : Fields} {key : Str} (h : OptTable AnnoIs f key l) :
    ∃ m : GoMap Str, Slot key strMapInto l none m ∧ m.Nodup ∧ m.get = f := by
  rcases h with ⟨h1, h2⟩ | ⟨⟨v, h1, h2⟩, _⟩
  · exact ⟨none, .inl ⟨h2, rfl⟩, GoMap.nodup_none, funext fun k => (h1 k).symm⟩
  · obtain ⟨m, g1, g2, g3⟩ := strMap_table (text := fun t => t) (fun a v => Iff.rfl) h2
    exact ⟨some m, .inr ⟨v, h1, g1⟩, g2, funext fun k => by rw [GoMap.get_some, g3]; simp⟩

theorem optBytes_slot {f : Str → Option (Option Str)} {l : Fields} {key : Str} (h : OptTable DataIs f key l) :
    ∃ m : GoMap (Option Str), Slot key bytesMapInto l none m ∧ m.Nodup ∧ m.get = f := by
  rcases h with ⟨h1, h2⟩ | ⟨⟨v, h1, h2⟩, _⟩
  · exact ⟨none, .inl ⟨h2, rfl⟩, GoMap.nodup_none, funext fun k => (h1 k).symm⟩
  · obtain ⟨m, g1, g2, g3⟩ := bytesMap_table h2
    exact ⟨some m, .inr ⟨v, h1, g1⟩, g2, funext fun k => by rw [GoMap.get_some, g3]⟩

theorem names_slot {f : Str → Option UID} {l : Fields} {key : Str} {v : Val} (hm : (key, v) ∈ pairs l) (h : NamesAre f v) :
    ∃ m : GoMap Str, Slot key strMapInto l none m ∧ m.Nodup ∧ ∀ k, m.get k = (f k).map UID.hex := by
  rcases h with h | ⟨rfl, h⟩
  · obtain ⟨m, g1, g2, g3⟩ := strMap_table idIs_iff h
    exact ⟨some m, .inr ⟨v, hm, g1⟩, g2, g3⟩
  · exact ⟨none, .inr ⟨_, hm, rfl⟩, GoMap.nodup_none, fun k => by rw [h k]; rfl⟩

/-! ## Reading nodes -/

mutual
/-- The node `u` of `a` as a dump. -/
inductive Pictures (a : ATree) : UID → NodeDump → Prop where
  | mk {u : UID} {n : ANode} {cs : List UID} {ds : List NodeDump} {an : GoMap Str} {dt : GoMap (Option Str)} : a.node u = some n →
      Kids a u cs → PicturesList a cs ds → an.Nodup → an.get = n.anno → dt.Nodup → dt.get = n.data → Pictures a u (.mk u.hex ds an dt)
/-- Nodes in a row. -/
inductive PicturesList (a : ATree) : List UID → List NodeDump → Prop where
  | nil : PicturesList a [] []
  | cons {u : UID} {d : NodeDump} {us : List UID} {ds : List NodeDump} : Pictures a u d → PicturesList a us ds → PicturesList a (u :: us) (d :: ds)
end

mutual
theorem pictures_of_is {a : ATree} : ∀ {u : UID} {v : Val}, NodeIs a u v → ∃ d, nodeInto v zeroNode = some d ∧ Pictures a u d
  | u, _, .mk (n := n) (l := l) (cs := cs) (vs := vs) (i := i) hn hd hk hi hid hc hks hch han hda => by
    obtain ⟨ds, h1, h2⟩ := picturesList_of_are hks
    obtain ⟨an, a1, a2, a3⟩ := optStr_slot han
    obtain ⟨dt, d1, d2, d3⟩ := optBytes_slot hda
    rw [idIs_iff] at hid
    subst hid
    refine ⟨.mk u.hex ds an dt, ?_, .mk hn hc h2 a2 a3 d2 d3⟩
    rw [nodeInto, zeroNode]
    refine nodeFields_slots l hd hk (.inr ⟨_, hi, rfl⟩) ?_ a1 d1
    rcases hch with ⟨rfl, hch⟩ | ⟨_, hch⟩
    · cases h2
      exact .inl ⟨hch, rfl⟩
    · exact .inr ⟨_, hch, by show childrenOf (.arr vs) = _; rw [childrenOf.eq_def]; exact h1⟩
theorem picturesList_of_are {a : ATree} : ∀ {us : List UID} {vs : Vals}, NodesAre a us vs → ∃ ds, nodeList vs = some ds ∧ PicturesList a us ds
  | _, _, .nil => ⟨[], by rw [nodeList], .nil⟩
  | _, _, .cons h1 h2 => by
    obtain ⟨d, g1, g2⟩ := pictures_of_is h1
    obtain ⟨ds, g3, g4⟩ := picturesList_of_are h2
    exact ⟨d :: ds, by rw [nodeList, g1, Option.bind_some, g3, Option.map_some], .cons g2 g4⟩
end

theorem nodeIs_obj {a : ATree} {u : UID} {v : Val} (h : NodeIs a u v) : ∃ l, v = .obj l := by
  cases h; exact ⟨_, rfl⟩

/-! ## Paths in a tree -/

theorem path_inj {a : ATree} {u : UID} {l l' : List UID} (h : a.Path u l) (h' : a.Path u l') : l = l' := by
  induction h generalizing l' with
  | root h1 h2 =>
    cases h' with
    | root => rfl
    | step g1 g2 => rw [h1] at g1; cases g1; rw [h2] at g2; cases g2
  | step h1 h2 _ ih =>
    cases h' with
    | root g1 g2 => rw [h1] at g1; cases g1; rw [h2] at g2; cases g2
    | step g1 g2 g3 => rw [h1] at g1; cases g1; rw [h2] at g2; cases g2; rw [ih g3]

theorem anc_path {a : ATree} {h x : UID} {l m : List UID} (ha : a.Anc h x) (hl : a.Path h l) (hm : a.Path x m) :
    l.length ≤ m.length ∧ (l.length = m.length → h = x) := by
  induction ha generalizing m with
  | refl => rw [path_inj hl hm]; exact ⟨Nat.le_refl _, fun _ => rfl⟩
  | step h1 h2 _ ih =>
    cases hm with
    | root g1 g2 => rw [h1] at g1; cases g1; rw [h2] at g2; cases g2
    | step g1 g2 g3 =>
      rw [h1] at g1; cases g1; rw [h2] at g2; cases g2
      have := (ih g3).1
      rw [List.length_cons]
      exact ⟨by omega, fun _ => by omega⟩

theorem anc_same_depth {a : ATree} {h h' x : UID} {l l' m : List UID} (ha : a.Anc h x) (ha' : a.Anc h' x) (hl : a.Path h l) (hl' : a.Path h' l')
    (hm : a.Path x m) (he : l.length = l'.length) : h = h' := by
  induction ha generalizing m with
  | refl => exact ((anc_path ha' hl' hm).2 (by rw [← path_inj hl hm]; exact he.symm)).symm
  | step h1 h2 h3 ih =>
    cases hm with
    | root g1 g2 => rw [h1] at g1; cases g1; rw [h2] at g2; cases g2
    | step g1 g2 g3 =>
      rw [h1] at g1; cases g1; rw [h2] at g2; cases g2
      cases ha' with
      | refl =>
        have h5 := (anc_path h3 hl g3).1
        have h6 := path_inj hl' (.step h1 h2 g3)
        rw [h6, List.length_cons] at he
        omega
      | step k1 k2 k3 =>
        rw [h1] at k1; cases k1; rw [h2] at k2; cases k2
        exact ih k3 g3

theorem anc_trans {a : ATree} {x y z : UID} (h : a.Anc x y) (h' : a.Anc y z) : a.Anc x z := by
  induction h' with
  | refl => exact h
  | step h1 h2 _ ih => exact .step h1 h2 ih

theorem anc_top {a : ATree} {x y : UID} (h : a.Anc x y) : a.Has x := by
  induction h with
  | refl h => exact ⟨_, h⟩
  | step _ _ _ ih => exact ih

/-! ## The nodes of a picture -/

theorem pictures_id {a : ATree} {u : UID} {d : NodeDump} (h : Pictures a u d) : d.id = u.hex ∧ ∃ n, a.node u = some n ∧ d.annotations.get = n.anno ∧
    d.data.get = n.data ∧ MapsNodup d := by
  cases h with
  | mk h1 _ _ h2 h3 h4 h5 => exact ⟨rfl, _, h1, h3, h5, h2, h4⟩

/-- One edge of a dump, as an edge of the tree. -/
def EdgeOf (a : ATree) (e : Str × NodeDump) (c : UID) : Prop := ∃ (pu : UID) (n : ANode), e.1 = pu.hex ∧ e.2.id = c.hex ∧ a.node c = some n ∧ n.parent = some pu ∧
  e.2.annotations.get = n.anno ∧ e.2.data.get = n.data ∧ MapsNodup e.2

mutual
/-- The edges below a node, the IDs on them, each once, all below the node. -/
theorem pictures_edges {a : ATree} (hr : a.Rooted) : ∀ {u : UID} {d : NodeDump}, Pictures a u d →
    ∃ us : List UID, ((desc d).map fun e => e.2.id) = us.map UID.hex ∧ us.Nodup ∧ (∀ c ∈ us, a.Anc u c ∧ c ≠ u) ∧ ∀ e ∈ desc d, ∃ c, EdgeOf a e c
  | u, _, .mk (n := n) (cs := cs) (ds := ds) hn hk hds _ _ _ _ => by
    obtain ⟨us, h1, h2, h3, h4⟩ := picturesList_edges hr hds (u := u) ⟨_, hn⟩ hk.1 (fun c hc => (hk.2 c).1 hc)
    refine ⟨us, h1, h2, ?_, h4⟩
    intro x hx
    obtain ⟨c, hc, hcx⟩ := h3 x hx
    obtain ⟨m, hm, hp⟩ := (hk.2 c).1 hc
    have huc : a.Anc u c := .step hm hp (.refl hn)
    refine ⟨anc_trans huc hcx, ?_⟩
    rintro rfl
    obtain ⟨l, hl⟩ := hr.path x ⟨_, hn⟩
    have hlc : a.Path c (c :: l) := .step hm hp hl
    have := (anc_path hcx hlc hl).1
    rw [List.length_cons] at this
    omega
theorem picturesList_edges {a : ATree} (hr : a.Rooted) : ∀ {cs : List UID} {ds : List NodeDump}, PicturesList a cs ds → ∀ {u : UID}, a.Has u → cs.Nodup →
    (∀ c ∈ cs, ∃ m, a.node c = some m ∧ m.parent = some u) →
    ∃ us : List UID, ((descKids u.hex ds).map fun e => e.2.id) = us.map UID.hex ∧ us.Nodup ∧ (∀ x ∈ us, ∃ c ∈ cs, a.Anc c x) ∧
      ∀ e ∈ descKids u.hex ds, ∃ c, EdgeOf a e c
  | _, _, .nil, u, _, _, _ => ⟨[], rfl, List.nodup_nil, (fun _ h => nomatch h), fun _ h => by simp [descKids] at h⟩
  | _, _, .cons (u := c) (d := d) (us := cs) (ds := ds) h1 h2, u, hu, hn, hp => by
    rw [List.nodup_cons] at hn
    obtain ⟨xs, a1, a2, a3, a4⟩ := pictures_edges hr h1
    obtain ⟨ys, b1, b2, b3, b4⟩ := picturesList_edges hr h2 hu hn.2 fun x hx => hp x (List.mem_cons_of_mem _ hx)
    obtain ⟨e1, n, e2, e3, e4, e5⟩ := pictures_id h1
    obtain ⟨m, m1, m2⟩ := hp c (List.mem_cons_self ..)
    rw [e2] at m1; cases m1
    obtain ⟨l, hl⟩ := hr.path u hu
    have hcl : a.Path c (c :: l) := .step e2 m2 hl
    have hself : ∀ x ∈ c :: xs, a.Anc c x := by
      intro x hx
      rcases List.mem_cons.1 hx with rfl | hx
      · exact .refl e2
      · exact (a3 x hx).1
    refine ⟨c :: (xs ++ ys), ?_, ?_, ?_, ?_⟩
    · simp only [descKids, List.map_cons, List.map_append, a1, b1, e1]
    · rw [← List.cons_append, List.nodup_append]
      refine ⟨List.nodup_cons.2 ⟨fun h => (a3 c h).2 rfl, a2⟩, b2, ?_⟩
      rintro x hx y hy rfl
      obtain ⟨c', hc', hc'x⟩ := b3 x hy
      obtain ⟨m', g1, g2⟩ := hp c' (List.mem_cons_of_mem _ hc')
      have hx' : a.Has x := by
        cases hc'x with
        | refl h => exact ⟨_, h⟩
        | step h _ _ => exact ⟨_, h⟩
      obtain ⟨lx, hlx⟩ := hr.path x hx'
      have := anc_same_depth (hself x hx) hc'x hcl (.step g1 g2 hl) hlx rfl
      subst this
      exact hn.1 hc'
    · intro x hx
      rcases List.mem_append.1 (show x ∈ (c :: xs) ++ ys from hx) with hx | hx
      · exact ⟨c, List.mem_cons_self .., hself x hx⟩
      · obtain ⟨c', h3, h4⟩ := b3 x hx
        exact ⟨c', List.mem_cons_of_mem _ h3, h4⟩
    · intro e he
      simp only [descKids, List.mem_cons, List.mem_append] at he
      rcases he with rfl | he | he
      · exact ⟨c, u, n, rfl, e1, e2, m2, e3, e4, e5⟩
      · exact a4 e he
      · exact b4 e he
end

theorem mem_picturesList {a : ATree} {us : List UID} {ds : List NodeDump} (h : PicturesList a us ds) {c : UID} (hc : c ∈ us) : ∃ d ∈ ds, Pictures a c d := by
  induction us generalizing ds with
  | nil => cases hc
  | cons u us ih =>
    cases h with
    | cons h1 h2 =>
      rcases List.mem_cons.1 hc with rfl | hc
      · exact ⟨_, List.mem_cons_self .., h1⟩
      · obtain ⟨d, g1, g2⟩ := ih h2 hc
        exact ⟨d, List.mem_cons_of_mem _ g1, g2⟩

/-- Everything below a node is in its picture. -/
theorem pictures_covers {a : ATree} {u : UID} {d : NodeDump} (h : Pictures a u d) {x : UID} (hx : a.Anc u x) :
    x = u ∨ ∃ e ∈ desc d, Pictures a x e.2 := by
  induction hx with
  | refl => exact .inl rfl
  | @step x p n h1 h2 _ ih =>
    right
    have key : ∀ d', Pictures a p d' → ∃ e ∈ desc d', Pictures a x e.2 := by
      intro d' hd'
      cases hd' with
      | mk k1 k2 k3 _ _ _ _ =>
        obtain ⟨y, hy, hp⟩ := mem_picturesList k3 ((k2.2 x).2 ⟨n, h1, h2⟩)
        exact ⟨(_, y), mem_descKids hy, hp⟩
    rcases ih with rfl | ⟨e, he, hp⟩
    · exact key d h
    · obtain ⟨e', he', hp'⟩ := key e.2 hp
      exact ⟨e', desc_trans d he he', hp'⟩

/-- A picture of a whole tree loads as this tree. -/
theorem load_picture {a : ATree} (hr : a.Rooted) {r : UID} (hroot : a.root = some r) {nd : NodeDump} (hp : Pictures a r nd) {b t : GoMap Str} (hb : b.Nodup)
    (ht : t.Nodup) (hbg : ∀ k, b.get k = (a.branch k).map UID.hex) (htg : ∀ k, t.get k = (a.tag k).map UID.hex) :
    ∃ s, load ⟨some nd, b, t⟩ = .ok s ∧ Reach s ∧ s.abs = a := by
  obtain ⟨us, h1, h2, h3, h4⟩ := pictures_edges hr hp
  obtain ⟨p1, n, p2, p3, p4, p5⟩ := pictures_id hp
  obtain ⟨n', q1, q2⟩ := hr.root r hroot
  rw [p2] at q1; cases q1
  have hids : nd.ids = (r :: us).map UID.hex := by rw [ids_eq, h1, p1, List.map_cons]
  have hdist : nd.Distinct := by
    refine ⟨?_, p5, ?_⟩
    · rw [hids, List.map_map]
      have : ∀ u ∈ r :: us, ((fun i : Str => i.map Hex.lower) ∘ UID.hex) u = u.hex := fun u _ => canon_hex u
      rw [List.map_congr_left this]
      have hn : (r :: us).Nodup := List.nodup_cons.2 ⟨fun h => (h3 r h).2 rfl, h2⟩
      exact List.Pairwise.map _ (fun x y hne he => hne (C03_hex_injective he)) hn
    · intro p x hx
      obtain ⟨c, pu, m, _, _, _, _, _, _, e⟩ := h4 (p, x) (mem_of_below hx)
      exact e
  have hhas : ∀ u, a.Has u → u.hex ∈ nd.ids := by
    intro u hu
    obtain ⟨r', hr', hanc⟩ := hr.reach u hu
    rw [hroot] at hr'; cases hr'
    rw [ids_eq]
    rcases pictures_covers hp hanc with rfl | ⟨e, he, hpe⟩
    · rw [p1]; exact List.mem_cons_self ..
    · exact List.mem_cons_of_mem _ (List.mem_map.2 ⟨e, he, (pictures_id hpe).1⟩)
  have hres : Resolves nd b t := by
    refine ⟨?_, ?_, ?_⟩
    · intro i hi
      rw [hids] at hi
      obtain ⟨u, _, rfl⟩ := List.mem_map.1 hi
      exact ⟨u, C01_hex_roundtrip u⟩
    · intro k v hv
      rw [hbg] at hv
      obtain ⟨u, hu, rfl⟩ := Option.map_eq_some_iff.1 hv
      exact ⟨u, C01_hex_roundtrip u, u.hex, hhas u (hr.branch k u hu), C01_hex_roundtrip u⟩
    · intro k v hv
      rw [htg] at hv
      obtain ⟨u, hu, rfl⟩ := Option.map_eq_some_iff.1 hv
      exact ⟨u, C01_hex_roundtrip u, u.hex, hhas u (hr.tag k u hu), C01_hex_roundtrip u⟩
  rcases load_cases hdist hb ht with ⟨s, a1, a2, a3, _⟩ | ⟨e, _, hne⟩
  · refine ⟨s, a1, a2, ?_⟩
    have hnames : ∀ {f : Str → Option UID} {g : Str → Option UID} {m : GoMap Str}, (∀ k, m.get k = (f k).map UID.hex) →
        (∀ k u, g k = some u ↔ ∃ v, m.get k = some v ∧ UID.decodeHex v = .ok u) → ∀ k, g k = f k := by
      intro f g m hm hg k
      apply Option.ext
      intro u
      rw [hg, hm]
      constructor
      · rintro ⟨v, h1, h2⟩
        obtain ⟨w, hw, rfl⟩ := Option.map_eq_some_iff.1 h1
        rw [C01_hex_roundtrip] at h2; cases h2; exact hw
      · intro hu
        exact ⟨u.hex, by rw [hu]; rfl, C01_hex_roundtrip u⟩
    have hanode : ∀ m : ANode, (⟨m.parent, m.anno, m.data⟩ : ANode) = m := fun _ => rfl
    obtain ⟨r', r1, r2, r3⟩ := a3.root
    rw [p1, C01_hex_roundtrip] at r1; cases r1
    rw [p3, p4, ← q2, hanode] at r3
    have hbelow : ∀ e ∈ desc nd, ∀ c, e.2.id = UID.hex c → s.abs.node c = a.node c := by
      intro e he c hc
      obtain ⟨pu, u, b1, b2, b3⟩ := a3.below e.1 e.2 (below_of_mem nd he)
      obtain ⟨c', pu', m, c1, c2, c3, c4, c5, c6, _⟩ := h4 e he
      have : c' = c := C03_hex_injective (by rw [← c2, hc])
      subst this
      rw [c1, C01_hex_roundtrip] at b1; cases b1
      rw [c2, C01_hex_roundtrip] at b2; cases b2
      rw [b3, c3, c5, c6, ← c4]
    apply atree_ext
    · intro u
      cases hu : a.node u with
      | none =>
        cases hs : s.abs.node u with
        | none => rfl
        | some m =>
          exfalso
          obtain ⟨i, hi, hd⟩ := a3.only u ⟨m, hs⟩
          rw [ids_eq] at hi
          rcases List.mem_cons.1 hi with rfl | hi
          · rw [p1, C01_hex_roundtrip] at hd; cases hd
            rw [p2] at hu; cases hu
          · obtain ⟨e, he, rfl⟩ := List.mem_map.1 hi
            obtain ⟨c', pu', m', _, c2, c3, _⟩ := h4 e he
            rw [c2, C01_hex_roundtrip] at hd; cases hd
            rw [c3] at hu; cases hu
      | some m =>
        obtain ⟨r', hr', hanc⟩ := hr.reach u ⟨m, hu⟩
        rw [hroot] at hr'; cases hr'
        rcases pictures_covers hp hanc with rfl | ⟨e, he, hpe⟩
        · rw [r3, ← p2, hu]
        · rw [hbelow e he u (pictures_id hpe).1, hu]
    · rw [r2, hroot]
    · exact hnames hbg a3.branch
    · exact hnames htg a3.tag
  · exact absurd hres hne

/-- A value of the layout is read as the tree. -/
theorem load_layout {a : ATree} (hr : a.Rooted) {v : Val} (h : FileIs a v) : ∃ d s, dumpOf v = some d ∧ load d = .ok s ∧ Reach s ∧ s.abs = a := by
  obtain ⟨l, n, b, t, rfl, hn, hk, h1, h2, h3, h4, h5, h6⟩ := h
  obtain ⟨bm, b1, b2, b3⟩ := names_slot h3 h4
  obtain ⟨tm, t1, t2, t3⟩ := names_slot h5 h6
  cases hroot : a.root with
  | none =>
    rw [hroot] at h2
    cases h2
    refine ⟨⟨none, bm, tm⟩, empty, dumpFields_slots l hn hk (.inr ⟨_, h1, rfl⟩) b1 t1, rfl, .new, ?_⟩
    have hno : ∀ u, ¬ a.Has u := by
      intro u hu
      obtain ⟨r, h, _⟩ := hr.reach u hu
      rw [hroot] at h; cases h
    rw [abs_empty]
    apply atree_ext
    · intro u
      cases hu : a.node u with
      | none => rfl
      | some m => exact absurd ⟨m, hu⟩ (hno u)
    · rw [hroot]; rfl
    · intro k
      cases hu : a.branch k with
      | none => rfl
      | some u => exact absurd (hr.branch k u hu) (hno u)
    · intro k
      cases hu : a.tag k with
      | none => rfl
      | some u => exact absurd (hr.tag k u hu) (hno u)
  | some r =>
    rw [hroot] at h2
    obtain ⟨nd, n1, n2⟩ := pictures_of_is (show NodeIs a r n from h2)
    obtain ⟨lo, rfl⟩ := nodeIs_obj (show NodeIs a r n from h2)
    obtain ⟨s, s1, s2, s3⟩ := load_picture hr hroot n2 b2 t2 b3 t3
    refine ⟨⟨some nd, bm, tm⟩, s, dumpFields_slots l hn hk (.inr ⟨_, h1, ?_⟩) b1 t1, s1, s2, s3⟩
    rw [rootInto, Option.getD_none, n1, Option.map_some]
    intro hh; cases hh

/-! ## Writing -/

theorem table_written {α β : Type} {P : α → Val → Prop} {f : Str → Option α} {J : β → Val} {l : List (Str × β)} (hn : (AL.keys l).Nodup)
    (h1 : ∀ k a, f k = some a → ∃ b, (k, b) ∈ l ∧ P a (J b)) (h2 : ∀ k b, (k, b) ∈ l → ∃ a, f k = some a ∧ P a (J b)) :
    TableIs P f (.obj (fields ((sortBy Prod.fst l).map fun e => (e.1, J e.2)))) := by
  refine ⟨_, rfl, ?_, ?_, ?_⟩
  · rw [names, pairs_fields, List.map_map]
    exact ((sortBy_perm Prod.fst l).map Prod.fst).nodup_iff.2 hn
  · intro k a hf
    obtain ⟨b, hb, hp⟩ := h1 k a hf
    exact ⟨J b, by rw [pairs_fields]; exact List.mem_map.2 ⟨(k, b), (sortBy_perm Prod.fst l).mem_iff.2 hb, rfl⟩, hp⟩
  · intro k x hx
    rw [pairs_fields] at hx
    obtain ⟨e, he, hh⟩ := List.mem_map.1 hx
    cases hh
    exact h2 e.1 e.2 ((sortBy_perm Prod.fst l).mem_iff.1 he)

theorem clean_strMap {l : List (Str × Str)} (h : ∀ e ∈ l, validUtf8 e.1 ∧ validUtf8 e.2) : clean (strMapJ l) = strMapJ l := by
  rw [strMapJ, clean, clean_fields, List.map_map]
  congr 2
  apply List.map_congr_left
  intro e he
  obtain ⟨h1, h2⟩ := h e ((sortBy_perm Prod.fst l).mem_iff.1 he)
  simp only [Function.comp_def, clean, sanitize_valid h1, sanitize_valid h2]

theorem clean_bytesMap {l : List (Str × Option Str)} (h : ∀ e ∈ l, validUtf8 e.1) : clean (bytesMapJ l) = bytesMapJ l := by
  rw [bytesMapJ, clean, clean_fields, List.map_map]
  congr 2
  apply List.map_congr_left
  intro e he
  have h1 := h e ((sortBy_perm Prod.fst l).mem_iff.1 he)
  have h2 : clean (bytesJ e.2) = bytesJ e.2 := by
    cases e.2 with
    | none => rfl
    | some b => simp only [bytesJ, clean, sanitize_base64]
  simp only [Function.comp_def, sanitize_valid h1, h2]

theorem hex_valid (u : UID) : validUtf8 u.hex := valid_ascii (hex_ascii _)

/-- The fields of a node, all present or left out. -/
def NodeShape (i c n d : Val) (p1 p2 p3 : Bool) : List (Str × Val) :=
  (lit "id", i) :: (optField p1 (lit "children") c ++ (optField p2 (lit "annotations") n ++ optField p3 (lit "data") d))

theorem shape_facts (i c n d : Val) (p1 p2 p3 : Bool) :
    ((NodeShape i c n d p1 p2 p3).map Prod.fst).Nodup ∧
    (∀ k ∈ (NodeShape i c n d p1 p2 p3).map Prod.fst, k = lit "id" ∨ k = lit "children" ∨ k = lit "annotations" ∨ k = lit "data") ∧
    (lit "id", i) ∈ NodeShape i c n d p1 p2 p3 ∧
    (p1 = true → (lit "children", c) ∈ NodeShape i c n d p1 p2 p3) ∧ (p1 = false → lit "children" ∉ (NodeShape i c n d p1 p2 p3).map Prod.fst) ∧
    (p2 = true → (lit "annotations", n) ∈ NodeShape i c n d p1 p2 p3) ∧ (p2 = false → lit "annotations" ∉ (NodeShape i c n d p1 p2 p3).map Prod.fst) ∧
    (p3 = true → (lit "data", d) ∈ NodeShape i c n d p1 p2 p3) ∧ (p3 = false → lit "data" ∉ (NodeShape i c n d p1 p2 p3).map Prod.fst) := by
  have e1 : lit "id" ≠ lit "children" := by decide
  have e2 : lit "id" ≠ lit "annotations" := by decide
  have e3 : lit "id" ≠ lit "data" := by decide
  have e4 : lit "children" ≠ lit "annotations" := by decide
  have e5 : lit "children" ≠ lit "data" := by decide
  have e6 : lit "annotations" ≠ lit "data" := by decide
  cases p1 <;> cases p2 <;> cases p3 <;>
    simp [NodeShape, optField, e1, e2, e3, e4, e5, e6, e1.symm, e2.symm, e3.symm, e4.symm, e5.symm, e6.symm]

theorem clean_opt (p : Bool) (k : Str) (v : Val) (hk : sanitize k = k) :
    (optField p k v).map (fun e => (sanitize e.1, clean e.2)) = optField p k (clean v) := by
  cases p <;> simp [optField, hk]

theorem clean_node (id : Str) (cs : List NodeDump) (an : GoMap Str) (dt : GoMap (Option Str)) : clean (nodeJ (.mk id cs an dt)) =
    .obj (fields (NodeShape (.str (sanitize id)) (.arr (vals ((nodesJ cs).map clean))) (clean (strMapJ an.entries)) (clean (bytesMapJ dt.entries))
      (!(nodesJ cs).isEmpty) (!an.entries.isEmpty) (!dt.entries.isEmpty))) := by
  rw [nodeJ, clean, clean_fields, nodeFieldsJ, NodeShape, List.map_cons, List.map_append, List.map_append, clean_opt _ _ _ key_children.1,
    clean_opt _ _ _ key_anno.1, clean_opt _ _ _ key_data.1, key_id.1]
  simp only [clean, clean_vals]

theorem nodesJ_empty (cs : List NodeDump) : (nodesJ cs).isEmpty = cs.isEmpty := by cases cs <;> rfl

theorem entries_empty {α : Type} {m : GoMap α} (h : m.entries.isEmpty = true) (k : Str) : m.get k = none := by
  rw [List.isEmpty_iff] at h
  show AL.get m.entries k = none
  rw [h]; rfl

theorem entries_nonempty {α : Type} {m : GoMap α} (hn : m.Nodup) (h : m.entries.isEmpty = false) : ∃ k, m.get k ≠ none := by
  cases he : m.entries with
  | nil => rw [he] at h; cases h
  | cons e l =>
    have : (e.1, e.2) ∈ m.entries := by rw [he]; exact List.mem_cons_self ..
    refine ⟨e.1, ?_⟩
    rw [(GoMap.mem_iff_get hn).1 this]
    simp

mutual
theorem written_node {s : TS} (h : WF s) (hu : s.abs.Utf8) : ∀ {r : Ref} {nd : NodeDump}, DumpsTo s.heap r nd → s.In r →
    ∀ {o : NodeObj}, s.heap[r]? = some o → NodeIs s.abs o.id (clean (nodeJ nd))
  | r, _, .mk (o := o) (es := es) (ds := ds) (anno := an) (data := dt) ho hp hds han hda, hr, o', ho' => by
    rw [ho] at ho'; cases ho'
    obtain ⟨h1, h2⟩ := children_refs h ho hr hp
    obtain ⟨us, u1, u2, u3⟩ := written_nodes h hu hds (fun c hc => (h2 c hc).1)
    have hin : s.tree.nodes.get o.id.hex = some r := by
      obtain ⟨o2, a, b⟩ := hr
      rw [ho] at a; cases a; exact b
    have hnode : s.abs.node o.id = some (absObj s.heap o) := (abs_node_iff h _ _).2 ⟨r, o, ho, hin, rfl, rfl⟩
    have hm := h.maps r o ho hin
    have hkids : Kids s.abs o.id us := by
      refine ⟨u3 h1, fun c => ?_⟩
      rw [u2]
      constructor
      · rintro ⟨x, hx, xo, hxo, rfl⟩
        obtain ⟨hxin, co, hco, hcp⟩ := h2 x hx
        rw [hxo] at hco; cases hco
        obtain ⟨o3, a, b⟩ := hxin
        rw [hxo] at a; cases a
        exact ⟨_, (abs_node_iff h _ _).2 ⟨x, xo, hxo, b, rfl, rfl⟩, by simp [absObj, hcp, idAt, ho]⟩
      · rintro ⟨m, hmn, hmp⟩
        obtain ⟨x, xo, hxo, hxi, rfl, rfl⟩ := (abs_node_iff h _ _).1 hmn
        simp only [absObj, Option.bind_eq_some_iff, idAt, Option.map_eq_some_iff] at hmp
        obtain ⟨p, hp1, po, hp2, hp3⟩ := hmp
        rcases h.par x xo hxo hxi with ⟨g, _⟩ | ⟨p', po', g1, g2, g3, g4⟩
        · rw [hp1] at g; cases g
        · rw [hp1] at g1; cases g1
          rw [hp2] at g2; cases g2
          rw [hp3, hin] at g3; cases g3
          rw [ho] at hp2; cases hp2
          exact ⟨x, List.mem_map.2 ⟨(xo.id.hex, x), hp.mem_iff.2 (GoMap.mem_of_get g4), rfl⟩, xo, hxo, rfl⟩
    have hus : us = [] ↔ ds = [] := by
      have e1 : ∀ {vs}, NodesAre s.abs us vs → (us = [] ↔ vs = .nil) := by intro vs hv; cases hv <;> simp
      rw [e1 u1]
      cases ds <;> simp [nodesJ, vals]
    have hannoV : ∀ e ∈ an.entries, validUtf8 e.1 ∧ validUtf8 e.2 := by
      rintro ⟨k, v⟩ he
      have := (GoMap.mem_iff_get (han.nodup hm.1)).1 he
      rw [han.get] at this
      exact hu.anno _ _ k v hnode this
    have hdataV : ∀ e ∈ dt.entries, validUtf8 e.1 := by
      rintro ⟨k, v⟩ he
      have := (GoMap.mem_iff_get (hda.nodup hm.2)).1 he
      rw [hda.get] at this
      exact hu.data _ _ k v hnode this
    rw [clean_node, clean_strMap hannoV, clean_bytesMap hdataV, sanitize_hex, nodesJ_empty]
    obtain ⟨f1, f2, f3, f4, f5, f6, f7, f8, f9⟩ := shape_facts (.str o.id.hex) (.arr (vals ((nodesJ ds).map clean))) (strMapJ an.entries) (bytesMapJ dt.entries)
      (!ds.isEmpty) (!an.entries.isEmpty) (!dt.entries.isEmpty)
    rw [← pairs_fields (NodeShape _ _ _ _ _ _ _)] at f1 f2 f3 f4 f5 f6 f7 f8 f9
    refine .mk hnode f1 f2 f3 ((idIs_iff _ _).2 rfl) hkids u1 ?_ ?_ ?_
    · by_cases he : ds = []
      · exact .inl ⟨hus.2 he, f5 (by rw [he]; rfl)⟩
      · exact .inr ⟨fun h => he (hus.1 h), f4 (by cases ds with
          | nil => exact absurd rfl he
          | cons => rfl)⟩
    · rcases Bool.eq_false_or_eq_true an.entries.isEmpty with he | he
      · exact .inl ⟨fun k => by show o.annotations.get k = none; rw [← han.get]; exact entries_empty he k, f7 (by rw [he]; rfl)⟩
      · refine .inr ⟨⟨_, f6 (by rw [he]; rfl), ?_⟩, ?_⟩
        · refine table_written (J := Val.str) (han.nodup hm.1) ?_ ?_
          · intro k a ha
            refine ⟨a, (GoMap.mem_iff_get (han.nodup hm.1)).2 ?_, rfl⟩
            rw [han.get]; exact ha
          · intro k b hb
            have := (GoMap.mem_iff_get (han.nodup hm.1)).1 hb
            rw [han.get] at this
            exact ⟨b, this, rfl⟩
        · obtain ⟨k, hk⟩ := entries_nonempty (han.nodup hm.1) he
          rw [han.get] at hk; exact ⟨k, hk⟩
    · rcases Bool.eq_false_or_eq_true dt.entries.isEmpty with he | he
      · exact .inl ⟨fun k => by show o.data.get k = none; rw [← hda.get]; exact entries_empty he k, f9 (by rw [he]; rfl)⟩
      · refine .inr ⟨⟨_, f8 (by rw [he]; rfl), ?_⟩, ?_⟩
        · refine table_written (J := bytesJ) (hda.nodup hm.2) ?_ ?_
          · intro k a ha
            refine ⟨a, (GoMap.mem_iff_get (hda.nodup hm.2)).2 ?_, (dataIs_iff _ _).2 rfl⟩
            rw [hda.get]; exact ha
          · intro k b hb
            have := (GoMap.mem_iff_get (hda.nodup hm.2)).1 hb
            rw [hda.get] at this
            exact ⟨b, this, (dataIs_iff _ _).2 rfl⟩
        · obtain ⟨k, hk⟩ := entries_nonempty (hda.nodup hm.2) he
          rw [hda.get] at hk; exact ⟨k, hk⟩
theorem written_nodes {s : TS} (h : WF s) (hu : s.abs.Utf8) : ∀ {rs : List Ref} {ds : List NodeDump}, DumpsList s.heap rs ds → (∀ c ∈ rs, s.In c) →
    ∃ us, NodesAre s.abs us (vals ((nodesJ ds).map clean)) ∧ (∀ u, u ∈ us ↔ ∃ r ∈ rs, ∃ o, s.heap[r]? = some o ∧ o.id = u) ∧ (rs.Nodup → us.Nodup)
  | _, _, .nil, _ => ⟨[], .nil, fun u => by simp, fun _ => List.nodup_nil⟩
  | _, _, .cons (r := r) (d := nd) (rs := rs) (ds := ds) h1 h2, hc => by
    obtain ⟨us, u1, u2, u3⟩ := written_nodes h hu h2 fun c hm => hc c (List.mem_cons_of_mem _ hm)
    obtain ⟨o, ho, hi⟩ := hc r (List.mem_cons_self ..)
    have hn := written_node h hu h1 ⟨o, ho, hi⟩ ho
    refine ⟨o.id :: us, .cons hn u1, ?_, ?_⟩
    · intro u
      rw [List.mem_cons, u2]
      constructor
      · rintro (rfl | ⟨x, hx, y⟩)
        · exact ⟨r, List.mem_cons_self .., o, ho, rfl⟩
        · exact ⟨x, List.mem_cons_of_mem _ hx, y⟩
      · rintro ⟨x, hx, y, hy, hyu⟩
        rcases List.mem_cons.1 hx with rfl | hx
        · rw [ho] at hy; cases hy; exact .inl hyu.symm
        · exact .inr ⟨x, hx, y, hy, hyu⟩
    · intro hnd
      rw [List.nodup_cons] at hnd
      refine List.nodup_cons.2 ⟨fun hm => ?_, u3 hnd.2⟩
      obtain ⟨x, hx, y, hy, hyo⟩ := (u2 _).1 hm
      obtain ⟨y', hy', hyi⟩ := hc x (List.mem_cons_of_mem _ hx)
      rw [hy] at hy'; cases hy'
      rw [hyo, hi] at hyi; cases hyi
      exact hnd.1 hx
end

theorem written_names {heap : List NodeObj} {m : GoMap Ref} {m' : GoMap Str} (h : DumpsNames heap m m')
    (hv : ∀ k u, (m.get k).bind (idAt heap) = some u → validUtf8 k) :
    NamesAre (fun k => (m.get k).bind (idAt heap)) (clean (nameMapJ m')) := by
  cases h with
  | nil => exact .inr ⟨rfl, fun _ => rfl⟩
  | @mk l l' hn hg =>
    have hval : ∀ k v, (k, v) ∈ l' → ∃ u, ((GoMap.get (some l : GoMap Ref) k).bind (idAt heap)) = some u ∧ v = u.hex := by
      intro k v he
      obtain ⟨r, o, a, b, c⟩ := (hg k v).1 (AL.get_of_mem hn he)
      exact ⟨o.id, by rw [GoMap.get_some, a]; simp [idAt, b], c⟩
    left
    rw [nameMapJ, clean_strMap]
    · refine table_written (J := Val.str) hn ?_ ?_
      · intro k u hu
        obtain ⟨r, hr, hi⟩ := Option.bind_eq_some_iff.1 hu
        obtain ⟨o, ho, rfl⟩ := Option.map_eq_some_iff.1 hi
        exact ⟨o.id.hex, AL.mem_of_get ((hg k _).2 ⟨r, o, hr, ho, rfl⟩), (idIs_iff _ _).2 rfl⟩
      · intro k b hb
        obtain ⟨u, h1, rfl⟩ := hval k b hb
        exact ⟨u, h1, (idIs_iff _ _).2 rfl⟩
    · rintro ⟨k, v⟩ he
      obtain ⟨u, h1, h2⟩ := hval k v he
      exact ⟨hv k u h1, h2 ▸ hex_valid u⟩

theorem written_layout {s : TS} (h : WF s) (hu : s.abs.Utf8) {d : TreeDump} (hd : Dumps s d) : FileIs s.abs (clean (.obj (dumpFieldsJ d))) := by
  rw [clean, dumpFieldsJ, clean_fields]
  have hl : ∀ a b c : Val, [(lit "nodes", a), (lit "branches", b), (lit "tags", c)].map (fun e : Str × Val => (sanitize e.1, clean e.2)) =
      [(lit "nodes", clean a), (lit "branches", clean b), (lit "tags", clean c)] := by
    intro a b c
    simp only [List.map_cons, List.map_nil, key_nodes.1, key_branches.1, key_tags.1]
  rw [hl]
  refine ⟨_, clean (rootJ d.nodes), clean (nameMapJ d.branches), clean (nameMapJ d.tags), rfl, ?_, ?_, ?_, ?_, ?_, ?_, ?_, ?_⟩
  · rw [names, pairs_fields]; exact (by decide : [lit "nodes", lit "branches", lit "tags"].Nodup)
  · rw [names, pairs_fields]
    intro k hk
    simpa using hk
  · rw [pairs_fields]; simp
  · have hn := hd.nodes
    cases hr : s.tree.root with
    | none =>
      rw [hr] at hn
      have : s.abs.root = none := by simp [abs, hr]
      rw [this, hn]; rfl
    | some r =>
      rw [hr] at hn
      obtain ⟨nd, h1, h2⟩ := hn
      obtain ⟨o, ho, hi, _⟩ := h.root r hr
      have : s.abs.root = some o.id := by simp [abs, hr, idAt, ho]
      rw [this, h1]
      exact written_node h hu h2 ⟨o, ho, hi⟩ ho
  · rw [pairs_fields]; simp
  · exact written_names hd.branches hu.branch
  · rw [pairs_fields]; simp
  · exact written_names hd.tags hu.tag

/-! ## Workspace records -/

/-- A record read from an object, its members in any order. -/
theorem infoFields_slots : ∀ (l : Fields) {a a' b b' c c' d d' e e' f f' : Str}, (names l).Nodup →
    (∀ k ∈ names l, k = lit "branch" ∨ k = lit "head" ∨ k = lit "id" ∨ k = lit "mountID" ∨ k = lit "path" ∨ k = lit "sapceID") →
    Slot (lit "id") strInto l a a' → Slot (lit "path") strInto l b b' → Slot (lit "head") strInto l c c' → Slot (lit "sapceID") strInto l d d' →
    Slot (lit "mountID") strInto l e e' → Slot (lit "branch") strInto l f f' → infoFields l ⟨a, b, c, d, e, f⟩ = some ⟨a', b', c', d', e', f'⟩
  | .nil, a, a', b, b', c, c', d, d', e, e', f, f', _, _, h1, h2, h3, h4, h5, h6 => by
    rw [infoFields, slot_nil h1, slot_nil h2, slot_nil h3, slot_nil h4, slot_nil h5, slot_nil h6]
  | .cons k v l, a, a', b, b', c, c', d, d', e, e', f, f', hn, hk, h1, h2, h3, h4, h5, h6 => by
    rw [names_cons, List.nodup_cons] at hn
    have hk' := fun x hx => hk x (List.mem_cons_of_mem _ hx)
    rcases hk k (List.mem_cons_self ..) with rfl | rfl | rfl | rfl | rfl | rfl
    · obtain ⟨g, h6⟩ := slot_take hn.1 h6
      rw [infoFields, if_neg (by decide), if_neg (by decide), if_neg (by decide), if_neg (by decide), if_neg (by decide), if_pos (by decide), g]
      exact infoFields_slots l hn.2 hk' (slot_skip (by decide) h1) (slot_skip (by decide) h2) (slot_skip (by decide) h3) (slot_skip (by decide) h4) (slot_skip (by decide) h5) h6
    · obtain ⟨g, h3⟩ := slot_take hn.1 h3
      rw [infoFields, if_neg (by decide), if_neg (by decide), if_pos (by decide), g]
      exact infoFields_slots l hn.2 hk' (slot_skip (by decide) h1) (slot_skip (by decide) h2) h3 (slot_skip (by decide) h4) (slot_skip (by decide) h5) (slot_skip (by decide) h6)
    · obtain ⟨g, h1⟩ := slot_take hn.1 h1
      rw [infoFields, if_pos (by decide), g]
      exact infoFields_slots l hn.2 hk' h1 (slot_skip (by decide) h2) (slot_skip (by decide) h3) (slot_skip (by decide) h4) (slot_skip (by decide) h5) (slot_skip (by decide) h6)
    · obtain ⟨g, h5⟩ := slot_take hn.1 h5
      rw [infoFields, if_neg (by decide), if_neg (by decide), if_neg (by decide), if_neg (by decide), if_pos (by decide), g]
      exact infoFields_slots l hn.2 hk' (slot_skip (by decide) h1) (slot_skip (by decide) h2) (slot_skip (by decide) h3) (slot_skip (by decide) h4) h5 (slot_skip (by decide) h6)
    · obtain ⟨g, h2⟩ := slot_take hn.1 h2
      rw [infoFields, if_neg (by decide), if_pos (by decide), g]
      exact infoFields_slots l hn.2 hk' (slot_skip (by decide) h1) h2 (slot_skip (by decide) h3) (slot_skip (by decide) h4) (slot_skip (by decide) h5) (slot_skip (by decide) h6)
    · obtain ⟨g, h4⟩ := slot_take hn.1 h4
      rw [infoFields, if_neg (by decide), if_neg (by decide), if_neg (by decide), if_pos (by decide), g]
      exact infoFields_slots l hn.2 hk' (slot_skip (by decide) h1) (slot_skip (by decide) h2) (slot_skip (by decide) h3) h4 (slot_skip (by decide) h5) (slot_skip (by decide) h6)

theorem infoOf_record {i : WsInfo} {v : Val} (h : RecordIs i v) : infoOf v = some i := by
  obtain ⟨l, rfl, hp⟩ := h
  have hnm := hp.map Prod.fst
  have hn : (names l).Nodup := hnm.nodup_iff.2 (by simp only [List.map_cons, List.map_nil]; decide)
  have hk : ∀ k ∈ names l, k = lit "branch" ∨ k = lit "head" ∨ k = lit "id" ∨ k = lit "mountID" ∨ k = lit "path" ∨ k = lit "sapceID" := by
    intro k hk
    have := hnm.mem_iff.1 hk
    simpa using this
  have hm : ∀ (k t : Str), (k, Val.str t) ∈ [(lit "branch", Val.str i.branch), (lit "head", .str i.head), (lit "id", .str i.id),
      (lit "mountID", .str i.mountID), (lit "path", .str i.path), (lit "sapceID", .str i.spaceID)] → Slot k strInto l [] t :=
    fun k t h => .inr ⟨_, hp.mem_iff.2 h, rfl⟩
  exact infoFields_slots l hn hk (hm _ _ (by simp)) (hm _ _ (by simp)) (hm _ _ (by simp)) (hm _ _ (by simp)) (hm _ _ (by simp)) (hm _ _ (by simp))

/-! ## C101 -/

/-- **C101.** What is saved is a JSON text of the documented layout, for this very tree. -/
theorem C101_written {s : TS} (h : Reach s) (hu : s.abs.Utf8) {sh : Bool} {b : Str} (hs : SavesAs sh s b) : ∃ v, IsText v b ∧ FileIs s.abs v := by
  obtain ⟨d, hd, rfl⟩ := hs
  exact ⟨_, emit_text sh _ (noNum_dump d), written_layout (wf_of_reach h) hu hd⟩

/-- **C101.** Every text of this layout, whoever wrote it, loads as the tree it shows. -/
theorem C101_read {a : ATree} (hr : a.Rooted) {v : Val} {b : Str} (hf : FileIs a v) (ht : IsText v b) (hd : depth v ≤ maxDepth) :
    ∃ s, spaceLoad (.ok b) = .ok s ∧ Reach s ∧ s.abs = a := by
  obtain ⟨d, s, h1, h2, h3, h4⟩ := load_layout hr hf
  refine ⟨s, ?_, h3, h4⟩
  have : unmarshalDump b = some d := by rw [unmarshalDump, (Json.parse_iff b v).2 ⟨ht, hd⟩]; exact h1
  simp only [spaceLoad, this, h2, Res.mapErr]

/-- **C101.** A file shows one tree only. -/
theorem C101_one_tree {a a' : ATree} (hr : a.Rooted) (hr' : a'.Rooted) {v : Val} (h : FileIs a v) (h' : FileIs a' v) : a = a' := by
  obtain ⟨d, s, h1, h2, _, h4⟩ := load_layout hr h
  obtain ⟨d', s', h1', h2', _, h4'⟩ := load_layout hr' h'
  rw [h1] at h1'; cases h1'
  rw [h2] at h2'; cases h2'
  rw [← h4, h4']

/-- All texts of a record are valid UTF-8. -/
def RecordUtf8 (i : WsInfo) : Prop := validUtf8 i.id ∧ validUtf8 i.path ∧ validUtf8 i.head ∧ validUtf8 i.spaceID ∧ validUtf8 i.mountID ∧ validUtf8 i.branch

/-- **C101.** The record of a workspace has the documented layout. -/
theorem C101_record_written (sh : Bool) {i : WsInfo} (hu : RecordUtf8 i) : ∃ v, IsText v (marshalInfo sh i) ∧ RecordIs i v := by
  obtain ⟨h1, h2, h3, h4, h5, h6⟩ := hu
  refine ⟨_, emit_text sh _ (noNum_info i), cleanFields (infoFieldsJ i), by rw [clean], ?_⟩
  have k1 : sanitize (lit "id") = lit "id" := sanitize_ascii (by decide)
  have k2 : sanitize (lit "path") = lit "path" := sanitize_ascii (by decide)
  have k3 : sanitize (lit "head") = lit "head" := sanitize_ascii (by decide)
  have k4 : sanitize (lit "sapceID") = lit "sapceID" := sanitize_ascii (by decide)
  have k5 : sanitize (lit "mountID") = lit "mountID" := sanitize_ascii (by decide)
  have k6 : sanitize (lit "branch") = lit "branch" := sanitize_ascii (by decide)
  rw [infoFieldsJ, clean_fields, pairs_fields]
  simp only [List.map_cons, List.map_nil, clean, k1, k2, k3, k4, k5, k6, sanitize_valid h1, sanitize_valid h2, sanitize_valid h3, sanitize_valid h4, sanitize_valid h5,
    sanitize_valid h6]
  exact (by decide : ([0, 1, 2, 3, 4, 5] : List Nat).Perm [5, 2, 0, 4, 1, 3]).map
    (fun k => [(lit "id", Val.str i.id), (lit "path", .str i.path), (lit "head", .str i.head), (lit "sapceID", .str i.spaceID), (lit "mountID", .str i.mountID),
      (lit "branch", .str i.branch)].getD k ([], .null))

/-- **C101.** Every text of this layout is read as the record it shows. -/
theorem C101_record_read {i : WsInfo} {v : Val} {b : Str} (h : RecordIs i v) (ht : IsText v b) (hd : depth v ≤ maxDepth) : unmarshalInfo b = some i := by
  rw [unmarshalInfo, (Json.parse_iff b v).2 ⟨ht, hd⟩]
  exact infoOf_record h

/-! ## Examples -/

/-- The sample tree (four nodes, a branch, two tags) is saved in this layout. -/
example (sh : Bool) : ∃ b v, SavesAs sh sampleTree b ∧ IsText v b ∧ FileIs sampleTree.abs v := by
  obtain ⟨b, hb⟩ := C17_saves sampleTree_reach sh
  obtain ⟨v, h1, h2⟩ := C101_written sampleTree_reach sampleTree_good.1 hb
  exact ⟨b, v, hb, h1, h2⟩

namespace LayoutStory

/-- A root with one child that has a data value, and a tag on the root. -/
def tree (a b : UID) : ATree where
  node u := if u = a then some ⟨none, fun _ => none, fun _ => none⟩
    else if u = b then some ⟨some a, fun _ => none, fun k => if k = lit "k" then some (some (lit "foob")) else none⟩ else none
  root := some a
  branch _ := none
  tag t := if t = lit "x" then some a else none

/-- The child. -/
def low (b : UID) : Val := .obj (fields [(lit "data", .obj (fields [(lit "k", .str (lit "Zm9vYg=="))])), (lit "id", .str b.hex)])

/-- The root. -/
def top (a b : UID) : Val := .obj (fields [(lit "children", .arr (.cons (low b) .nil)), (lit "id", .str a.hex)])

/-- The tags. -/
def tags (a : UID) : Val := .obj (fields [(lit "x", .str a.hex)])

/-- A file for it, as another program might write it: no branches, the members in an order that this program does not use. -/
def file (a b : UID) : Val := .obj (fields [(lit "tags", tags a), (lit "nodes", top a b), (lit "branches", .null)])

theorem tree_rooted {a b : UID} (h : a ≠ b) : (tree a b).Rooted := by
  have na : (tree a b).node a = some ⟨none, fun _ => none, fun _ => none⟩ := if_pos rfl
  have nb : (tree a b).node b = some ⟨some a, fun _ => none, fun k => if k = lit "k" then some (some (lit "foob")) else none⟩ := by
    show (if b = a then _ else if b = b then _ else _) = _
    rw [if_neg h.symm, if_pos rfl]
  have only : ∀ u n, (tree a b).node u = some n → u = a ∨ u = b := by
    intro u n hn
    by_cases e1 : u = a
    · exact .inl e1
    by_cases e2 : u = b
    · exact .inr e2
    · have : (if u = a then _ else if u = b then _ else none) = some n := hn
      rw [if_neg e1, if_neg e2] at this; cases this
  constructor
  · rintro r hr; cases hr; exact ⟨_, na, rfl⟩
  · rintro u ⟨n, hn⟩
    rcases only u n hn with rfl | rfl
    · exact ⟨u, rfl, .refl na⟩
    · exact ⟨a, rfl, .step nb rfl (.refl na)⟩
  · intro u n p hn hp
    rcases only u n hn with rfl | rfl
    · rw [na] at hn; cases hn; cases hp
    · rw [nb] at hn; cases hn; cases hp; exact ⟨_, na⟩
  · intro u n hn hp
    rcases only u n hn with rfl | rfl
    · rfl
    · rw [nb] at hn; cases hn; cases hp
  · rintro u ⟨n, hn⟩
    rcases only u n hn with rfl | rfl
    · exact ⟨_, .root na rfl⟩
    · exact ⟨_, .step nb rfl (.root na rfl)⟩
  · intro k u hu; cases hu
  · intro k u hu
    have : (if k = lit "x" then some a else none) = some u := hu
    split at this
    · cases this; exact ⟨_, na⟩
    · cases this

theorem file_is {a b : UID} (h : a ≠ b) : FileIs (tree a b) (file a b) := by
  have na : (tree a b).node a = some ⟨none, fun _ => none, fun _ => none⟩ := if_pos rfl
  have nb : (tree a b).node b = some ⟨some a, fun _ => none, fun k => if k = lit "k" then some (some (lit "foob")) else none⟩ := by
    show (if b = a then _ else if b = b then _ else _) = _
    rw [if_neg h.symm, if_pos rfl]
  have only : ∀ u n, (tree a b).node u = some n → u = a ∨ u = b := fun u n hn => by
    by_cases e1 : u = a
    · exact .inl e1
    by_cases e2 : u = b
    · exact .inr e2
    · have : (if u = a then _ else if u = b then _ else none) = some n := hn
      rw [if_neg e1, if_neg e2] at this; cases this
  refine ⟨_, top a b, .null, tags a, rfl, ?_, ?_, ?_, ?_, ?_, .inr ⟨rfl, fun _ => rfl⟩, ?_, .inl ?_⟩
  · rw [names, pairs_fields]; exact (by decide : [lit "tags", lit "nodes", lit "branches"].Nodup)
  · rw [names, pairs_fields]; intro k hk
    simp only [List.map_cons, List.map_nil, List.mem_cons, List.not_mem_nil, or_false] at hk
    rcases hk with rfl | rfl | rfl
    · exact .inr (.inr rfl)
    · exact .inl rfl
    · exact .inr (.inl rfl)
  · rw [pairs_fields]; exact .tail _ (.head _)
  · refine .mk (cs := [b]) na ?_ ?_ (.tail _ (.head _)) ((idIs_iff a _).2 rfl) ⟨by simp, ?_⟩ (.cons ?_ .nil) (.inr ⟨by simp, .head _⟩) (.inl ⟨fun _ => rfl, ?_⟩) (.inl ⟨fun _ => rfl, ?_⟩)
    · exact (by decide : [lit "children", lit "id"].Nodup)
    · intro k hk
      have hk : k ∈ [lit "children", lit "id"] := hk
      simp only [List.mem_cons, List.not_mem_nil, or_false] at hk
      rcases hk with rfl | rfl
      · exact .inr (.inl rfl)
      · exact .inl rfl
    · intro c
      rw [List.mem_singleton]
      constructor
      · rintro rfl; exact ⟨_, nb, rfl⟩
      · rintro ⟨m, hm, hp⟩
        rcases only c m hm with rfl | rfl
        · rw [na] at hm; cases hm; cases hp
        · rfl
    · refine .mk (cs := []) (vs := .nil) nb ?_ ?_ (.tail _ (.head _)) ((idIs_iff b _).2 rfl) ⟨by simp, ?_⟩ .nil (.inl ⟨rfl, ?_⟩) (.inl ⟨fun _ => rfl, ?_⟩) (.inr ⟨⟨_, .head _, ?_⟩, lit "k", ?_⟩)
      · exact (by decide : [lit "data", lit "id"].Nodup)
      · intro k hk
        have hk : k ∈ [lit "data", lit "id"] := hk
        simp only [List.mem_cons, List.not_mem_nil, or_false] at hk
        rcases hk with rfl | rfl
        · exact .inr (.inr (.inr rfl))
        · exact .inl rfl
      · intro c
        constructor
        · intro hc; cases hc
        · rintro ⟨m, hm, hp⟩
          rcases only c m hm with rfl | rfl
          · rw [na] at hm; cases hm; cases hp
          · rw [nb] at hm; cases hm; cases hp; exact absurd rfl h
      · exact (by decide : lit "children" ∉ [lit "data", lit "id"])
      · exact (by decide : lit "annotations" ∉ [lit "data", lit "id"])
      · refine ⟨_, rfl, ?_, ?_, ?_⟩
        · exact (by decide : [lit "k"].Nodup)
        · intro k d hd
          have hd : (if k = lit "k" then some (some (lit "foob")) else none) = some d := hd
          split at hd
          · cases hd
            rename_i hk; subst hk
            exact ⟨_, .head _, _, rfl, (in64_iff _ _).2 (by decide)⟩
          · cases hd
        · intro k x hx
          rcases List.mem_cons.1 hx with hx | hx
          · cases hx
            exact ⟨some (lit "foob"), (if_pos rfl : (if lit "k" = lit "k" then some (some (lit "foob")) else none) = _), _, rfl, (in64_iff _ _).2 (by decide)⟩
          · cases hx
      · show (if lit "k" = lit "k" then some (some (lit "foob")) else none) ≠ none
        rw [if_pos rfl]; simp
    · exact (by decide : lit "annotations" ∉ [lit "children", lit "id"])
    · exact (by decide : lit "data" ∉ [lit "children", lit "id"])
  · rw [pairs_fields]; exact .tail _ (.tail _ (.head _))
  · rw [pairs_fields]; exact .head _
  · refine ⟨_, rfl, (by decide : [lit "x"].Nodup), ?_, ?_⟩
    · intro k u hu
      have hu : (if k = lit "x" then some a else none) = some u := hu
      split at hu
      · cases hu
        rename_i hk; subst hk
        exact ⟨_, .head _, (idIs_iff _ _).2 rfl⟩
      · cases hu
    · intro k x hx
      rcases List.mem_cons.1 hx with hx | hx
      · cases hx; exact ⟨a, (if_pos rfl : (if lit "x" = lit "x" then some a else none) = _), (idIs_iff _ _).2 rfl⟩
      · cases hx

/-- Such a file loads as this tree, however it is set. -/
example {a b : UID} (h : a ≠ b) {t : Str} (ht : IsText (file a b) t) : ∃ s, spaceLoad (.ok t) = .ok s ∧ Reach s ∧ s.abs = tree a b :=
  C101_read (tree_rooted h) (file_is h) ht (by simp [file, tags, top, low, fields, depth, depthFields, depthVals, maxDepth])

end LayoutStory

/-- A record, its members in the order of the struct. -/
example : RecordIs ⟨lit "a", lit "b", lit "c", lit "d", lit "e", lit "f"⟩ (clean (.obj (infoFieldsJ ⟨lit "a", lit "b", lit "c", lit "d", lit "e", lit "f"⟩))) := by
  obtain ⟨v, h1, h2⟩ := C101_record_written true (i := ⟨lit "a", lit "b", lit "c", lit "d", lit "e", lit "f"⟩)
    ⟨valid_ascii (by decide), valid_ascii (by decide), valid_ascii (by decide), valid_ascii (by decide), valid_ascii (by decide), valid_ascii (by decide)⟩
  rw [text_unique h1 (emit_text true _ (noNum_info _))] at h2
  exact h2

end Verif
