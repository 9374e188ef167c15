import Verif.Props.Json
import Verif.Json.Grammar
import Verif.Json.Extra
/-!
# What readers of the files do not look at (C97, C98)

`tree.json` and the workspace records may have been written by another version of the program, or edited by hand. The relations below say
which differences between two JSON values do not matter: fields that the program does not know, the order of the fields, upper and lower
case in the names of the fields, and null where a text is expected. A field may occur twice: of two texts the second one counts, and two
maps are put together. The relations are closed under nesting and under repetition. They mention nothing of the reader but the names of the
fields. Which text is which value is said by the grammar in `Json/Grammar`.
-/
set_option autoImplicit false
namespace Verif
open TS Json

/-- Specification: the fields of a node, of a tree file and of a workspace record (pkg/spaces/trees/dump.go:10-29, pkg/manager/manager_default.go:116-123). -/
def nodeNames : List Str := [lit "id", lit "children", lit "annotations", lit "data"]
/-- See `nodeNames`. -/
def treeNames : List Str := [lit "nodes", lit "branches", lit "tags"]
/-- See `nodeNames`. -/
def recordNames : List Str := [lit "id", lit "path", lit "head", lit "sapceid", lit "mountid", lit "branch"]

/-- Specification: two names of fields that differ only in upper and lower case. Outside of ASCII this makes a difference for two letters only:
the long s (U+017F) is a lower-case S, and the Kelvin sign (U+212A) an upper-case k. -/
inductive SameName : Str → Str → Prop where
  | refl (k : Str) : SameName k k
  | symm {k k' : Str} : SameName k k' → SameName k' k
  | trans {k k' k'' : Str} : SameName k k' → SameName k' k'' → SameName k k''
  | letter (a b : Str) (i : Nat) : i < 26 → SameName (a ++ UInt8.ofNat (0x41 + i) :: b) (a ++ UInt8.ofNat (0x61 + i) :: b)
  | longS (a b : Str) : SameName (a ++ [0xC5, 0xBF] ++ b) (a ++ lit "s" ++ b)
  | kelvin (a b : Str) : SameName (a ++ [0xE2, 0x84, 0xAA] ++ b) (a ++ lit "k" ++ b)

theorem foldKey_plain {c : UInt8} (h1 : c ≠ 0xC5) (h2 : c ≠ 0xE2) (r : Str) : foldKey (c :: r) = (if 0x41 ≤ c ∧ c ≤ 0x5A then c + 0x20 else c) :: foldKey r := by
  rw [foldKey]
  · exact fun _ e => absurd e h1
  · exact fun _ e => absurd e h2

/-- No letter outside ASCII begins before and ends in `x`. -/
theorem foldKey_append {c : UInt8} (h1 : c ≠ 0xBF) (h2 : c ≠ 0x84) (h3 : c ≠ 0xAA) (x : Str) : ∀ a, foldKey (a ++ c :: x) = foldKey a ++ foldKey (c :: x) := by
  intro a
  induction a using foldKey.induct with
  | case1 r ih => simp only [List.cons_append, foldKey, ih]
  | case2 r ih => simp only [List.cons_append, foldKey, ih]
  | case3 b r g1 g2 ih =>
    have e1 : foldKey (b :: r) = (if 0x41 ≤ b ∧ b ≤ 0x5A then b + 0x20 else b) :: foldKey r := by
      rw [foldKey]
      · exact g1
      · exact g2
    rw [e1, List.cons_append, List.cons_append, ← ih, foldKey]
    · rintro r' rfl e
      cases r with
      | nil => simp only [List.nil_append, List.cons.injEq] at e; exact h1 e.1
      | cons y r => simp only [List.cons_append, List.cons.injEq] at e; exact g1 _ rfl (by rw [e.1])
    · rintro r' rfl e
      cases r with
      | nil => simp only [List.nil_append, List.cons.injEq] at e; exact h2 e.1
      | cons y r =>
        simp only [List.cons_append, List.cons.injEq] at e
        cases r with
        | nil => simp only [List.nil_append, List.cons.injEq] at e; exact h3 e.2.1
        | cons z r => simp only [List.cons_append, List.cons.injEq] at e; exact g2 _ rfl (by rw [e.1, e.2.1])
  | case4 => rfl

theorem sameName_cons (c : UInt8) {k k' : Str} (h : SameName k k') : SameName (c :: k) (c :: k') := by
  induction h with
  | refl => exact .refl _
  | symm _ ih => exact .symm ih
  | trans _ _ ih ih' => exact .trans ih ih'
  | letter a b i hi => exact .letter (c :: a) b i hi
  | longS a b => exact .longS (c :: a) b
  | kelvin a b => exact .kelvin (c :: a) b

theorem sameName_fold (k : Str) : SameName k (foldKey k) := by
  induction k using foldKey.induct with
  | case1 r ih => rw [foldKey]; exact .trans (.longS [] r) (sameName_cons _ ih)
  | case2 r ih => rw [foldKey]; exact .trans (.kelvin [] r) (sameName_cons _ ih)
  | case3 b r g1 g2 ih =>
    have e1 : foldKey (b :: r) = (if 0x41 ≤ b ∧ b ≤ 0x5A then b + 0x20 else b) :: foldKey r := by
      rw [foldKey]
      · exact g1
      · exact g2
    rw [e1]
    split
    · rename_i hb
      have h1 : 0x41 ≤ b.toNat := hb.1
      have h2 : b.toNat ≤ 0x5A := hb.2
      have := SameName.letter [] r (b.toNat - 0x41) (by omega)
      have e2 : UInt8.ofNat (0x41 + (b.toNat - 0x41)) = b := by rw [Nat.add_sub_cancel' h1]; exact UInt8.ofNat_toNat
      have e3 : UInt8.ofNat (0x61 + (b.toNat - 0x41)) = b + 0x20 := by
        apply UInt8.toNat_inj.1
        rw [UInt8.toNat_add, UInt8.toNat_ofNat']
        show (0x61 + (b.toNat - 0x41)) % 256 = (b.toNat + 0x20) % 256
        congr 1; omega
      rw [e2, e3] at this
      exact .trans this (sameName_cons _ ih)
    · exact sameName_cons _ ih
  | case4 => exact .refl _

theorem foldKey_letter : ∀ i, i < 26 → ∀ b, foldKey (UInt8.ofNat (0x41 + i) :: b) = UInt8.ofNat (0x61 + i) :: foldKey b ∧ foldKey (UInt8.ofNat (0x61 + i) :: b) = UInt8.ofNat (0x61 + i) :: foldKey b := by
  intro i hi b
  have key : ∀ i, i < 26 → UInt8.ofNat (0x41 + i) ≠ 0xC5 ∧ UInt8.ofNat (0x41 + i) ≠ 0xE2 ∧ UInt8.ofNat (0x61 + i) ≠ 0xC5 ∧ UInt8.ofNat (0x61 + i) ≠ 0xE2 ∧
      (if 0x41 ≤ UInt8.ofNat (0x41 + i) ∧ UInt8.ofNat (0x41 + i) ≤ 0x5A then UInt8.ofNat (0x41 + i) + 0x20 else UInt8.ofNat (0x41 + i)) = UInt8.ofNat (0x61 + i) ∧
      (if 0x41 ≤ UInt8.ofNat (0x61 + i) ∧ UInt8.ofNat (0x61 + i) ≤ 0x5A then UInt8.ofNat (0x61 + i) + 0x20 else UInt8.ofNat (0x61 + i)) = UInt8.ofNat (0x61 + i) := by decide
  obtain ⟨h1, h2, h3, h4, h5, h6⟩ := key i hi
  rw [foldKey_plain h1 h2, foldKey_plain h3 h4, h5, h6]
  exact ⟨rfl, rfl⟩

/-- The reader takes two names for the same just if they differ only in upper and lower case. -/
theorem sameName_iff {k k' : Str} : SameName k k' ↔ foldKey k = foldKey k' := by
  constructor
  · intro h
    induction h with
    | refl => rfl
    | symm _ ih => exact ih.symm
    | trans _ _ ih ih' => exact ih.trans ih'
    | letter a b i hi =>
      have key : ∀ i, i < 26 → UInt8.ofNat (0x41 + i) ≠ 0xBF ∧ UInt8.ofNat (0x41 + i) ≠ 0x84 ∧ UInt8.ofNat (0x41 + i) ≠ 0xAA ∧
        UInt8.ofNat (0x61 + i) ≠ 0xBF ∧ UInt8.ofNat (0x61 + i) ≠ 0x84 ∧ UInt8.ofNat (0x61 + i) ≠ 0xAA := by decide
      obtain ⟨h1, h2, h3, h4, h5, h6⟩ := key i hi
      rw [foldKey_append h1 h2 h3, foldKey_append h4 h5 h6, (foldKey_letter i hi b).1, (foldKey_letter i hi b).2]
    | longS a b =>
      rw [List.append_assoc, List.append_assoc]
      refine (foldKey_append (by decide) (by decide) (by decide) _ a).trans (Eq.trans ?_ (foldKey_append (by decide) (by decide) (by decide) _ a).symm)
      congr 1
    | kelvin a b =>
      rw [List.append_assoc, List.append_assoc]
      refine (foldKey_append (by decide) (by decide) (by decide) _ a).trans (Eq.trans ?_ (foldKey_append (by decide) (by decide) (by decide) _ a).symm)
      congr 1
  · intro h
    have := sameName_fold k
    rw [h] at this
    exact .trans this (.symm (sameName_fold k'))

instance (k k' : Str) : Decidable (SameName k k') := decidable_of_iff _ sameName_iff.symm

/-- The names of the fields are in lower case. -/
theorem sameName_known {k n : Str} (hn : n ∈ nodeNames ++ treeNames ++ recordNames) : SameName k n ↔ foldKey k = n := by
  have : ∀ n ∈ nodeNames ++ treeNames ++ recordNames, foldKey n = n := by decide
  rw [sameName_iff, this n hn]

theorem sameName_unknown {k : Str} {l : List Str} (hl : ∀ n ∈ l, n ∈ nodeNames ++ treeNames ++ recordNames) (h : ∀ n ∈ l, ¬ SameName k n) : foldKey k ∉ l :=
  fun hm => h _ hm ((sameName_known (hl _ hm)).2 rfl)

/-- One list of fields after another. -/
def fieldsAppend : Fields → Fields → Fields
  | .nil, m => m
  | .cons k v l, m => .cons k v (fieldsAppend l m)

/-- The name occurs in the map. -/
def hasEntry (k : Str) : Fields → Prop
  | .nil => False
  | .cons k' _ l => k' = k ∨ hasEntry k l

/-- The same map of texts: of two entries with the same name the second counts, and null is the empty text. -/
inductive LikeEntries : Fields → Fields → Prop where
  | refl (l : Fields) : LikeEntries l l
  | symm {l l' : Fields} : LikeEntries l l' → LikeEntries l' l
  | trans {l l' l'' : Fields} : LikeEntries l l' → LikeEntries l' l'' → LikeEntries l l''
  | cons (k : Str) (v : Val) {l l' : Fields} : LikeEntries l l' → LikeEntries (.cons k v l) (.cons k v l')
  | null (k : Str) (l : Fields) : LikeEntries (.cons k .null l) (.cons k (.str []) l)
  | twice (k a b : Str) (m l : Fields) : ¬ hasEntry k m →
    LikeEntries (.cons k (.str a) (fieldsAppend m (.cons k (.str b) l))) (.cons k (.str b) (fieldsAppend m l))

mutual
/-- The same node, as far as the program is concerned. -/
inductive LikeNode : Val → Val → Prop where
  | refl (v : Val) : LikeNode v v
  | obj {l l' : Fields} : LikeFields l l' → LikeNode (.obj l) (.obj l')
/-- The same fields of a node. -/
inductive LikeFields : Fields → Fields → Prop where
  | refl (l : Fields) : LikeFields l l
  | symm {l l' : Fields} : LikeFields l l' → LikeFields l' l
  | trans {l l' l'' : Fields} : LikeFields l l' → LikeFields l' l'' → LikeFields l l''
  | cons {k k' : Str} (v : Val) {l l' : Fields} : SameName k k' → LikeFields l l' → LikeFields (.cons k v l) (.cons k' v l')
  | unknown {k : Str} (v : Val) (l : Fields) : (∀ n ∈ nodeNames, ¬ SameName k n) → LikeFields (.cons k v l) l
  | null {k : Str} (l : Fields) : SameName k (lit "id") → LikeFields (.cons k .null l) l
  | twice {k k' : Str} (a b : Str) (l : Fields) : SameName k (lit "id") → SameName k' (lit "id") → LikeFields (.cons k (.str a) (.cons k' (.str b) l)) (.cons k' (.str b) l)
  | merge {k k' : Str} (a b l : Fields) : SameName k k' → SameName k (lit "annotations") ∨ SameName k (lit "data") →
    LikeFields (.cons k (.obj a) (.cons k' (.obj b) l)) (.cons k (.obj (fieldsAppend a b)) l)
  | entries {k : Str} {a a' : Fields} (l : Fields) : SameName k (lit "annotations") → LikeEntries a a' → LikeFields (.cons k (.obj a) l) (.cons k (.obj a') l)
  | swap {k1 k2 : Str} (v1 v2 : Val) (l : Fields) : ¬ SameName k1 k2 → LikeFields (.cons k1 v1 (.cons k2 v2 l)) (.cons k2 v2 (.cons k1 v1 l))
  | children {k : Str} {cs cs' : Vals} (l : Fields) : SameName k (lit "children") → LikeNodes cs cs' → LikeFields (.cons k (.arr cs) l) (.cons k (.arr cs') l)
/-- The same nodes. -/
inductive LikeNodes : Vals → Vals → Prop where
  | nil : LikeNodes .nil .nil
  | cons {v v' : Val} {l l' : Vals} : LikeNode v v' → LikeNodes l l' → LikeNodes (.cons v l) (.cons v' l')
end

/-- The same fields of a tree file. -/
inductive LikeTree : Fields → Fields → Prop where
  | refl (l : Fields) : LikeTree l l
  | symm {l l' : Fields} : LikeTree l l' → LikeTree l' l
  | trans {l l' l'' : Fields} : LikeTree l l' → LikeTree l' l'' → LikeTree l l''
  | cons {k k' : Str} (v : Val) {l l' : Fields} : SameName k k' → LikeTree l l' → LikeTree (.cons k v l) (.cons k' v l')
  | unknown {k : Str} (v : Val) (l : Fields) : (∀ n ∈ treeNames, ¬ SameName k n) → LikeTree (.cons k v l) l
  | merge {k k' : Str} (a b l : Fields) : SameName k k' → SameName k (lit "branches") ∨ SameName k (lit "tags") →
    LikeTree (.cons k (.obj a) (.cons k' (.obj b) l)) (.cons k (.obj (fieldsAppend a b)) l)
  | entries {k : Str} {a a' : Fields} (l : Fields) : SameName k (lit "branches") ∨ SameName k (lit "tags") → LikeEntries a a' → LikeTree (.cons k (.obj a) l) (.cons k (.obj a') l)
  | swap {k1 k2 : Str} (v1 v2 : Val) (l : Fields) : ¬ SameName k1 k2 → LikeTree (.cons k1 v1 (.cons k2 v2 l)) (.cons k2 v2 (.cons k1 v1 l))
  | root {k : Str} {v v' : Val} (l : Fields) : SameName k (lit "nodes") → LikeNode v v' → LikeTree (.cons k v l) (.cons k v' l)

/-- The same fields of a workspace record. -/
inductive LikeRecord : Fields → Fields → Prop where
  | refl (l : Fields) : LikeRecord l l
  | symm {l l' : Fields} : LikeRecord l l' → LikeRecord l' l
  | trans {l l' l'' : Fields} : LikeRecord l l' → LikeRecord l' l'' → LikeRecord l l''
  | cons {k k' : Str} (v : Val) {l l' : Fields} : SameName k k' → LikeRecord l l' → LikeRecord (.cons k v l) (.cons k' v l')
  | unknown {k : Str} (v : Val) (l : Fields) : (∀ n ∈ recordNames, ¬ SameName k n) → LikeRecord (.cons k v l) l
  | null (k : Str) (l : Fields) : LikeRecord (.cons k .null l) l
  | twice {k k' : Str} (a b : Str) (l : Fields) : SameName k k' → LikeRecord (.cons k (.str a) (.cons k' (.str b) l)) (.cons k' (.str b) l)
  | swap {k1 k2 : Str} (v1 v2 : Val) (l : Fields) : ¬ SameName k1 k2 → LikeRecord (.cons k1 v1 (.cons k2 v2 l)) (.cons k2 v2 (.cons k1 v1 l))

/-! ## One field -/

/-- The effect of a field that is read into one part of a structure. -/
def partInto {S X : Type} (g : S → X) (p : S → X → S) (q : X → Option X) (cur : S) : Option S := (q (g cur)).map (p cur)

theorem partInto_comm {S X Y : Type} {g1 : S → X} {p1 : S → X → S} {g2 : S → Y} {p2 : S → Y → S} (h1 : ∀ s y, g1 (p2 s y) = g1 s) (h2 : ∀ s x, g2 (p1 s x) = g2 s)
    (hc : ∀ s x y, p2 (p1 s x) y = p1 (p2 s y) x) (q1 : X → Option X) (q2 : Y → Option Y) (cur : S) :
    (partInto g1 p1 q1 cur).bind (partInto g2 p2 q2) = (partInto g2 p2 q2 cur).bind (partInto g1 p1 q1) := by
  unfold partInto
  cases e1 : q1 (g1 cur) <;> cases e2 : q2 (g2 cur) <;> simp [h1, h2, hc, e1, e2]

theorem strEntries_append : ∀ (a b : Fields) (acc : List (Str × Str)), strEntries (fieldsAppend a b) acc = (strEntries a acc).bind (strEntries b)
  | .nil, _, _ => rfl
  | .cons k v a, b, acc => by
    rw [fieldsAppend, strEntries, strEntries, Option.bind_assoc]
    exact congrArg _ (funext fun x => strEntries_append a b _)

theorem bytesEntries_append : ∀ (a b : Fields) (acc : List (Str × Option Str)), bytesEntries (fieldsAppend a b) acc = (bytesEntries a acc).bind (bytesEntries b)
  | .nil, _, _ => rfl
  | .cons k v a, b, acc => by
    rw [fieldsAppend, bytesEntries, bytesEntries, Option.bind_assoc]
    exact congrArg _ (funext fun x => bytesEntries_append a b _)

theorem al_put_over {α : Type} (l : List (Str × α)) (k : Str) (a b : α) : AL.put (AL.put l k a) k b = AL.put l k b := by
  induction l with
  | nil => simp [AL.put]
  | cons e l ih =>
    obtain ⟨j, x⟩ := e
    by_cases h : j = k
    · simp [AL.put, h]
    · simp [AL.put, h, ih]

theorem al_put_mem {α : Type} (l : List (Str × α)) (k : Str) (a : α) : ∃ e ∈ AL.put l k a, e.1 = k := by
  induction l with
  | nil => exact ⟨_, .head _, rfl⟩
  | cons e l ih =>
    obtain ⟨j, x⟩ := e
    by_cases h : j = k
    · exact ⟨(k, a), by simp [AL.put, h], rfl⟩
    · obtain ⟨e, h1, h2⟩ := ih
      exact ⟨e, by simp [AL.put, h, h1], h2⟩

theorem al_put_keep {α : Type} {l : List (Str × α)} {k j : Str} (x : α) (h : ∃ e ∈ l, e.1 = k) : ∃ e ∈ AL.put l j x, e.1 = k := by
  induction l with
  | nil => obtain ⟨_, h, _⟩ := h; cases h
  | cons e l ih =>
    obtain ⟨i, y⟩ := e
    obtain ⟨e, h1, h2⟩ := h
    by_cases hi : i = j
    · rcases List.mem_cons.1 h1 with rfl | h1
      · exact ⟨(j, x), by simp [AL.put, hi], by rw [← hi]; exact h2⟩
      · exact ⟨e, by simp [AL.put, hi, h1], h2⟩
    · rcases List.mem_cons.1 h1 with rfl | h1
      · exact ⟨(i, y), by simp [AL.put, hi], h2⟩
      · obtain ⟨e', h3, h4⟩ := ih ⟨e, h1, h2⟩
        exact ⟨e', by simp [AL.put, hi, h3], h4⟩

theorem al_put_swap {α : Type} {l : List (Str × α)} {k j : Str} (x b : α) (hne : j ≠ k) (h : ∃ e ∈ l, e.1 = k) : AL.put (AL.put l j x) k b = AL.put (AL.put l k b) j x := by
  induction l with
  | nil => obtain ⟨_, h, _⟩ := h; cases h
  | cons e l ih =>
    obtain ⟨i, y⟩ := e
    by_cases h1 : i = j
    · subst h1; simp [AL.put, hne]
    · by_cases h2 : i = k
      · subst h2; simp [AL.put, h1]
      · obtain ⟨e, h3, h4⟩ := h
        rcases List.mem_cons.1 h3 with rfl | h3
        · exact absurd h4 h2
        · simp [AL.put, h1, h2, ih ⟨e, h3, h4⟩]

theorem strEntries_put {k : Str} (b : Str) : ∀ (m : Fields) {acc : List (Str × Str)}, ¬ hasEntry k m → (∃ e ∈ acc, e.1 = k) →
    (strEntries m acc).map (fun x => AL.put x k b) = strEntries m (AL.put acc k b)
  | .nil, acc, _, _ => rfl
  | .cons j v m, acc, hm, hk => by
    rw [hasEntry, not_or] at hm
    rw [strEntries, strEntries, Option.map_bind]
    refine congrArg _ (funext fun x => ?_)
    show Option.map _ (strEntries m (AL.put acc j x)) = _
    rw [strEntries_put b m hm.2 (al_put_keep x hk), al_put_swap x b hm.1 hk]

theorem likeEntries_into {a a' : Fields} (h : LikeEntries a a') : ∀ acc, strEntries a acc = strEntries a' acc := by
  induction h with
  | refl => exact fun _ => rfl
  | symm _ ih => exact fun acc => (ih acc).symm
  | trans _ _ ih ih' => exact fun acc => (ih acc).trans (ih' acc)
  | cons k v _ ih => exact fun acc => by rw [strEntries, strEntries]; exact congrArg _ (funext fun x => ih _)
  | null k l => exact fun acc => rfl
  | twice k a b m l hm =>
    intro acc
    rw [strEntries, strEntries]
    simp only [strInto, Option.bind_some]
    rw [strEntries_append, strEntries_append, ← al_put_over acc k a b, ← strEntries_put b m hm (al_put_mem acc k a), Option.bind_map]
    rfl

theorem likeEntries_map {a a' : Fields} (h : LikeEntries a a') (cur : GoMap Str) : strMapInto cur (.obj a) = strMapInto cur (.obj a') := by
  simp only [strMapInto, likeEntries_into h]

theorem strMap_merge (cur : GoMap Str) (a b : Fields) : (strMapInto cur (.obj a)).bind (fun x => strMapInto x (.obj b)) = strMapInto cur (.obj (fieldsAppend a b)) := by
  simp only [strMapInto, strEntries_append]
  cases strEntries a cur.entries <;> rfl

theorem bytesMap_merge (cur : GoMap (Option Str)) (a b : Fields) :
    (bytesMapInto cur (.obj a)).bind (fun x => bytesMapInto x (.obj b)) = bytesMapInto cur (.obj (fieldsAppend a b)) := by
  simp only [bytesMapInto, bytesEntries_append]
  cases bytesEntries a cur.entries <;> rfl

theorem partInto_twice {S X : Type} {g : S → X} {p : S → X → S} (h1 : ∀ s x, g (p s x) = x) (h2 : ∀ s x y, p (p s x) y = p s y) (q1 q2 : X → Option X) (cur : S) :
    (partInto g p q1 cur).bind (partInto g p q2) = partInto g p (fun x => (q1 x).bind q2) cur := by
  unfold partInto
  cases e1 : q1 (g cur) with
  | none => simp [e1]
  | some x => cases e2 : q2 x <;> simp [h1, h2, e1, e2]

/-- The effect of one field on a node. -/
def nodeField (k : Str) (v : Val) : NodeDump → Option NodeDump
  | .mk id cs anno data =>
    if foldKey k = lit "id" then (strInto id v).map fun x => .mk x cs anno data
    else if foldKey k = lit "children" then (childrenOf v).map fun x => .mk id x anno data
    else if foldKey k = lit "annotations" then (strMapInto anno v).map fun x => .mk id cs x data
    else if foldKey k = lit "data" then (bytesMapInto data v).map fun x => .mk id cs anno x
    else some (.mk id cs anno data)

theorem nodeFields_cons (k : Str) (v : Val) (l : Fields) (cur : NodeDump) : nodeFields (.cons k v l) cur = (nodeField k v cur).bind (nodeFields l) := by
  cases cur with
  | mk id cs anno data =>
    rw [nodeFields, nodeField]
    repeat' split
    all_goals first | rfl | (rw [Option.bind_map]; rfl)

def ndId : NodeDump → Str | .mk id _ _ _ => id
def ndCs : NodeDump → List NodeDump | .mk _ cs _ _ => cs
def ndAn : NodeDump → GoMap Str | .mk _ _ an _ => an
def ndDa : NodeDump → GoMap (Option Str) | .mk _ _ _ da => da
def ndPutId : NodeDump → Str → NodeDump | .mk _ cs an da, x => .mk x cs an da
def ndPutCs : NodeDump → List NodeDump → NodeDump | .mk id _ an da, x => .mk id x an da
def ndPutAn : NodeDump → GoMap Str → NodeDump | .mk id cs _ da, x => .mk id cs x da
def ndPutDa : NodeDump → GoMap (Option Str) → NodeDump | .mk id cs an _, x => .mk id cs an x

theorem nodeField_cases (k : Str) (v : Val) :
    (foldKey k = lit "id" ∧ nodeField k v = partInto ndId ndPutId fun x => strInto x v) ∨
    (foldKey k = lit "children" ∧ nodeField k v = partInto ndCs ndPutCs fun _ => childrenOf v) ∨
    (foldKey k = lit "annotations" ∧ nodeField k v = partInto ndAn ndPutAn fun x => strMapInto x v) ∨
    (foldKey k = lit "data" ∧ nodeField k v = partInto ndDa ndPutDa fun x => bytesMapInto x v) ∨
    (foldKey k ∉ nodeNames ∧ nodeField k v = some) := by
  by_cases a1 : foldKey k = lit "id"
  · exact Or.inl ⟨a1, funext fun c => by cases c; simp only [nodeField, if_pos a1]; rfl⟩
  by_cases a2 : foldKey k = lit "children"
  · exact Or.inr (Or.inl ⟨a2, funext fun c => by cases c; simp only [nodeField, if_neg a1, if_pos a2]; rfl⟩)
  by_cases a3 : foldKey k = lit "annotations"
  · exact Or.inr (Or.inr (Or.inl ⟨a3, funext fun c => by cases c; simp only [nodeField, if_neg a1, if_neg a2, if_pos a3]; rfl⟩))
  by_cases a4 : foldKey k = lit "data"
  · exact Or.inr (Or.inr (Or.inr (Or.inl ⟨a4, funext fun c => by cases c; simp only [nodeField, if_neg a1, if_neg a2, if_neg a3, if_pos a4]; rfl⟩)))
  · refine Or.inr (Or.inr (Or.inr (Or.inr ⟨by simp [nodeNames, a1, a2, a3, a4], funext fun c => ?_⟩)))
    cases c; simp only [nodeField, if_neg a1, if_neg a2, if_neg a3, if_neg a4]

theorem nodeField_swap {k1 k2 : Str} (v1 v2 : Val) (cur : NodeDump) (h : foldKey k1 ≠ foldKey k2) :
    (nodeField k1 v1 cur).bind (nodeField k2 v2) = (nodeField k2 v2 cur).bind (nodeField k1 v1) := by
  rcases nodeField_cases k1 v1 with ⟨a, e⟩ | ⟨a, e⟩ | ⟨a, e⟩ | ⟨a, e⟩ | ⟨a, e⟩ <;>
  rcases nodeField_cases k2 v2 with ⟨b, e'⟩ | ⟨b, e'⟩ | ⟨b, e'⟩ | ⟨b, e'⟩ | ⟨b, e'⟩ <;> rw [e, e'] <;>
  first
  | exact partInto_comm (fun s _ => by cases s; rfl) (fun s _ => by cases s; rfl) (fun s _ _ => by cases s; rfl) _ _ cur
  | exact absurd (a.trans b.symm) h
  | simp

theorem nodeFields_two (k k' : Str) (v v' : Val) (l : Fields) (cur : NodeDump) :
    nodeFields (.cons k v (.cons k' v' l)) cur = ((nodeField k v cur).bind (nodeField k' v')).bind (nodeFields l) := by
  rw [nodeFields_cons, Option.bind_assoc]
  exact congrArg _ (funext fun c => nodeFields_cons k' v' l c)

theorem nodeField_merge {k k' : Str} {a b : Fields} {cur : NodeDump} (hk : foldKey k = foldKey k') (h : foldKey k = lit "annotations" ∨ foldKey k = lit "data") :
    (nodeField k (.obj a) cur).bind (nodeField k' (.obj b)) = nodeField k (.obj (fieldsAppend a b)) cur := by
  have e : nodeField k' (.obj b) = nodeField k (.obj b) := funext fun c => by cases c; simp only [nodeField, hk]
  rw [e]
  rcases h with h | h
  · have f : ∀ v, nodeField k v = partInto ndAn ndPutAn fun x => strMapInto x v := by
      intro v
      funext c
      cases c
      rw [nodeField, if_neg (by rw [h]; decide), if_neg (by rw [h]; decide), if_pos h]
      rfl
    rw [f, f, f, partInto_twice (by intro s x; cases s; rfl) (by intro s x y; cases s; rfl)]
    simp only [strMap_merge]
  · have f : ∀ v, nodeField k v = partInto ndDa ndPutDa fun x => bytesMapInto x v := by
      intro v
      funext c
      cases c
      rw [nodeField, if_neg (by rw [h]; decide), if_neg (by rw [h]; decide), if_neg (by rw [h]; decide), if_pos h]
      rfl
    rw [f, f, f, partInto_twice (by intro s x; cases s; rfl) (by intro s x y; cases s; rfl)]
    simp only [bytesMap_merge]

mutual
theorem likeNode_into : ∀ {v v' : Val}, LikeNode v v' → ∀ cur, nodeInto v cur = nodeInto v' cur
  | _, _, .refl _, _ => rfl
  | _, _, .obj h, cur => by rw [nodeInto, nodeInto]; exact likeFields_into h cur
theorem likeFields_into : ∀ {l l' : Fields}, LikeFields l l' → ∀ cur, nodeFields l cur = nodeFields l' cur
  | _, _, .refl _, _ => rfl
  | _, _, .symm h, cur => (likeFields_into h cur).symm
  | _, _, .trans h h', cur => (likeFields_into h cur).trans (likeFields_into h' cur)
  | _, _, .cons (k := k) (k' := k') v hk h, cur => by
    replace hk := sameName_iff.1 hk
    have e : nodeField k v = nodeField k' v := funext fun c => by cases c; simp only [nodeField, hk]
    rw [nodeFields_cons, nodeFields_cons, e]
    exact congrArg _ (funext fun c => likeFields_into h c)
  | _, _, .unknown (k := k) v l hk, cur => by
    replace hk := sameName_unknown (by decide) hk
    rw [nodeFields_cons]
    rcases nodeField_cases k v with ⟨a, e⟩ | ⟨a, e⟩ | ⟨a, e⟩ | ⟨a, e⟩ | ⟨a, e⟩
    · exact absurd (by rw [a]; decide) hk
    · exact absurd (by rw [a]; decide) hk
    · exact absurd (by rw [a]; decide) hk
    · exact absurd (by rw [a]; decide) hk
    · rw [e]; rfl
  | _, _, .null (k := k) l hk, cur => by
    replace hk := (sameName_known (by decide)).1 hk
    rw [nodeFields_cons]
    cases cur
    simp only [nodeField, if_pos hk, strInto]
    rfl
  | _, _, .twice (k := k) (k' := k') a b l hk hk', cur => by
    replace hk := (sameName_known (by decide)).1 hk
    replace hk' := (sameName_known (by decide)).1 hk'
    rw [nodeFields_two, nodeFields_cons]
    cases cur
    simp only [nodeField, if_pos hk, if_pos hk', strInto, Option.map_some, Option.bind_some]
  | _, _, .merge (k := k) (k' := k') a b l hk hk', cur => by
    rw [nodeFields_two, nodeFields_cons, nodeField_merge (sameName_iff.1 hk) (hk'.imp (sameName_known (by decide)).1 (sameName_known (by decide)).1)]
  | _, _, .entries (k := k) (a := a) (a' := a') l hk h, cur => by
    replace hk := (sameName_known (by decide)).1 hk
    rw [nodeFields_cons, nodeFields_cons]
    have h1 : foldKey k ≠ lit "id" := by rw [hk]; decide
    have h2 : foldKey k ≠ lit "children" := by rw [hk]; decide
    cases cur
    simp only [nodeField, if_neg h1, if_neg h2, if_pos hk, likeEntries_map h]
  | _, _, .swap (k1 := k1) (k2 := k2) v1 v2 l h, cur => by
    rw [nodeFields_two, nodeFields_two, nodeField_swap v1 v2 cur (fun e => h (sameName_iff.2 e))]
  | _, _, .children (k := k) (cs := cs) (cs' := cs') l hk h, cur => by
    replace hk := (sameName_known (by decide)).1 hk
    rw [nodeFields_cons, nodeFields_cons]
    have e : childrenOf (.arr cs) = childrenOf (.arr cs') := by rw [childrenOf, childrenOf]; exact likeNodes_into h
    have e' : nodeField k (.arr cs) = nodeField k (.arr cs') := funext fun c => by
      cases c
      have h1 : foldKey k ≠ lit "id" := by rw [hk]; decide
      simp only [nodeField, if_neg h1, if_pos hk, e]
    rw [e']
theorem likeNodes_into : ∀ {l l' : Vals}, LikeNodes l l' → nodeList l = nodeList l'
  | _, _, .nil => rfl
  | _, _, .cons h h' => by rw [nodeList, nodeList, likeNode_into h, likeNodes_into h']
end

/-- The effect of one field on a tree file. -/
def dumpField (k : Str) (v : Val) (cur : TreeDump) : Option TreeDump :=
  if foldKey k = lit "nodes" then (rootInto cur.nodes v).map fun x => { cur with nodes := x }
  else if foldKey k = lit "branches" then (strMapInto cur.branches v).map fun x => { cur with branches := x }
  else if foldKey k = lit "tags" then (strMapInto cur.tags v).map fun x => { cur with tags := x }
  else some cur

theorem dumpFields_cons (k : Str) (v : Val) (l : Fields) (cur : TreeDump) : dumpFields (.cons k v l) cur = (dumpField k v cur).bind (dumpFields l) := by
  rw [dumpFields, dumpField]
  repeat' split
  all_goals first | rfl | (rw [Option.bind_map]; rfl)

theorem dumpField_cases (k : Str) (v : Val) :
    (foldKey k = lit "nodes" ∧ dumpField k v = partInto (·.nodes) (fun c x => { c with nodes := x }) fun x => rootInto x v) ∨
    (foldKey k = lit "branches" ∧ dumpField k v = partInto (·.branches) (fun c x => { c with branches := x }) fun x => strMapInto x v) ∨
    (foldKey k = lit "tags" ∧ dumpField k v = partInto (·.tags) (fun c x => { c with tags := x }) fun x => strMapInto x v) ∨
    (foldKey k ∉ treeNames ∧ dumpField k v = some) := by
  by_cases a1 : foldKey k = lit "nodes"
  · exact Or.inl ⟨a1, funext fun c => by simp only [dumpField, if_pos a1]; rfl⟩
  by_cases a2 : foldKey k = lit "branches"
  · exact Or.inr (Or.inl ⟨a2, funext fun c => by simp only [dumpField, if_neg a1, if_pos a2]; rfl⟩)
  by_cases a3 : foldKey k = lit "tags"
  · exact Or.inr (Or.inr (Or.inl ⟨a3, funext fun c => by simp only [dumpField, if_neg a1, if_neg a2, if_pos a3]; rfl⟩))
  · exact Or.inr (Or.inr (Or.inr ⟨by simp [treeNames, a1, a2, a3], funext fun c => by simp only [dumpField, if_neg a1, if_neg a2, if_neg a3]⟩))

theorem dumpField_swap {k1 k2 : Str} (v1 v2 : Val) (cur : TreeDump) (h : foldKey k1 ≠ foldKey k2) :
    (dumpField k1 v1 cur).bind (dumpField k2 v2) = (dumpField k2 v2 cur).bind (dumpField k1 v1) := by
  rcases dumpField_cases k1 v1 with ⟨a, e⟩ | ⟨a, e⟩ | ⟨a, e⟩ | ⟨a, e⟩ <;>
  rcases dumpField_cases k2 v2 with ⟨b, e'⟩ | ⟨b, e'⟩ | ⟨b, e'⟩ | ⟨b, e'⟩ <;> rw [e, e'] <;>
  first
  | exact partInto_comm (by intros; rfl) (by intros; rfl) (by intros; rfl) _ _ cur
  | exact absurd (a.trans b.symm) h
  | simp

theorem dumpFields_two (k k' : Str) (v v' : Val) (l : Fields) (cur : TreeDump) :
    dumpFields (.cons k v (.cons k' v' l)) cur = ((dumpField k v cur).bind (dumpField k' v')).bind (dumpFields l) := by
  rw [dumpFields_cons, Option.bind_assoc]
  exact congrArg _ (funext fun c => dumpFields_cons k' v' l c)

theorem dumpField_merge {k k' : Str} {a b : Fields} {cur : TreeDump} (hk : foldKey k = foldKey k') (h : foldKey k = lit "branches" ∨ foldKey k = lit "tags") :
    (dumpField k (.obj a) cur).bind (dumpField k' (.obj b)) = dumpField k (.obj (fieldsAppend a b)) cur := by
  have e : dumpField k' (.obj b) = dumpField k (.obj b) := funext fun c => by simp only [dumpField, hk]
  rw [e]
  rcases h with h | h
  · have f : ∀ v, dumpField k v = partInto (·.branches) (fun c x => { c with branches := x }) fun x => strMapInto x v := by
      intro v
      funext c
      rw [dumpField, if_neg (by rw [h]; decide), if_pos h]
      rfl
    rw [f, f, f, partInto_twice (by intros; rfl) (by intros; rfl)]
    simp only [strMap_merge]
  · have f : ∀ v, dumpField k v = partInto (·.tags) (fun c x => { c with tags := x }) fun x => strMapInto x v := by
      intro v
      funext c
      rw [dumpField, if_neg (by rw [h]; decide), if_neg (by rw [h]; decide), if_pos h]
      rfl
    rw [f, f, f, partInto_twice (by intros; rfl) (by intros; rfl)]
    simp only [strMap_merge]

theorem likeNode_root {v v' : Val} (h : LikeNode v v') (cur : Option NodeDump) : rootInto cur v = rootInto cur v' := by
  cases h with
  | refl => rfl
  | obj h => exact congrArg (Option.map some) (likeNode_into (.obj h) _)

theorem likeTree_into {l l' : Fields} (h : LikeTree l l') : ∀ cur, dumpFields l cur = dumpFields l' cur := by
  induction h with
  | refl => exact fun _ => rfl
  | symm _ ih => exact fun cur => (ih cur).symm
  | trans _ _ ih ih' => exact fun cur => (ih cur).trans (ih' cur)
  | @cons k k' v l l' hk _ ih =>
    intro cur
    replace hk := sameName_iff.1 hk
    have e : dumpField k v = dumpField k' v := funext fun c => by simp only [dumpField, hk]
    rw [dumpFields_cons, dumpFields_cons, e]
    exact congrArg _ (funext ih)
  | @unknown k v l hk =>
    intro cur
    replace hk := sameName_unknown (by decide) hk
    rw [dumpFields_cons]
    rcases dumpField_cases k v with ⟨a, e⟩ | ⟨a, e⟩ | ⟨a, e⟩ | ⟨a, e⟩
    · exact absurd (by rw [a]; decide) hk
    · exact absurd (by rw [a]; decide) hk
    · exact absurd (by rw [a]; decide) hk
    · rw [e]; rfl
  | @merge k k' a b l hk hk' =>
    intro cur
    rw [dumpFields_two, dumpFields_cons, dumpField_merge (sameName_iff.1 hk) (hk'.imp (sameName_known (by decide)).1 (sameName_known (by decide)).1)]
  | @entries k a a' l hk h =>
    intro cur
    rw [dumpFields_cons, dumpFields_cons]
    simp only [dumpField, likeEntries_map h]
    have h1 : foldKey k ≠ lit "nodes" := by
      rcases hk with hk | hk <;> rw [(sameName_known (by decide)).1 hk] <;> decide
    simp only [if_neg h1]
  | @swap k1 k2 v1 v2 l h =>
    intro cur
    rw [dumpFields_two, dumpFields_two, dumpField_swap v1 v2 cur (fun e => h (sameName_iff.2 e))]
  | @root k v v' l hk h =>
    intro cur
    replace hk := (sameName_known (by decide)).1 hk
    rw [dumpFields_cons, dumpFields_cons]
    simp only [dumpField, if_pos hk, likeNode_root h]

/-- The effect of one field on a record. -/
def infoField (k : Str) (v : Val) (cur : WsInfo) : Option WsInfo :=
  if foldKey k = lit "id" then (strInto cur.id v).map fun x => { cur with id := x }
  else if foldKey k = lit "path" then (strInto cur.path v).map fun x => { cur with path := x }
  else if foldKey k = lit "head" then (strInto cur.head v).map fun x => { cur with head := x }
  else if foldKey k = lit "sapceid" then (strInto cur.spaceID v).map fun x => { cur with spaceID := x }
  else if foldKey k = lit "mountid" then (strInto cur.mountID v).map fun x => { cur with mountID := x }
  else if foldKey k = lit "branch" then (strInto cur.branch v).map fun x => { cur with branch := x }
  else some cur

theorem infoFields_cons (k : Str) (v : Val) (l : Fields) (cur : WsInfo) : infoFields (.cons k v l) cur = (infoField k v cur).bind (infoFields l) := by
  rw [infoFields, infoField]
  repeat' split
  all_goals first | rfl | (rw [Option.bind_map]; rfl)

theorem infoField_cases (k : Str) (v : Val) :
    (foldKey k = lit "id" ∧ infoField k v = partInto (·.id) (fun c x => { c with id := x }) fun x => strInto x v) ∨
    (foldKey k = lit "path" ∧ infoField k v = partInto (·.path) (fun c x => { c with path := x }) fun x => strInto x v) ∨
    (foldKey k = lit "head" ∧ infoField k v = partInto (·.head) (fun c x => { c with head := x }) fun x => strInto x v) ∨
    (foldKey k = lit "sapceid" ∧ infoField k v = partInto (·.spaceID) (fun c x => { c with spaceID := x }) fun x => strInto x v) ∨
    (foldKey k = lit "mountid" ∧ infoField k v = partInto (·.mountID) (fun c x => { c with mountID := x }) fun x => strInto x v) ∨
    (foldKey k = lit "branch" ∧ infoField k v = partInto (·.branch) (fun c x => { c with branch := x }) fun x => strInto x v) ∨
    (foldKey k ∉ recordNames ∧ infoField k v = some) := by
  by_cases a1 : foldKey k = lit "id"
  · exact Or.inl ⟨a1, funext fun c => by simp only [infoField, if_pos a1]; rfl⟩
  by_cases a2 : foldKey k = lit "path"
  · exact Or.inr (Or.inl ⟨a2, funext fun c => by simp only [infoField, if_neg a1, if_pos a2]; rfl⟩)
  by_cases a3 : foldKey k = lit "head"
  · exact Or.inr (Or.inr (Or.inl ⟨a3, funext fun c => by simp only [infoField, if_neg a1, if_neg a2, if_pos a3]; rfl⟩))
  by_cases a4 : foldKey k = lit "sapceid"
  · exact Or.inr (Or.inr (Or.inr (Or.inl ⟨a4, funext fun c => by simp only [infoField, if_neg a1, if_neg a2, if_neg a3, if_pos a4]; rfl⟩)))
  by_cases a5 : foldKey k = lit "mountid"
  · exact Or.inr (Or.inr (Or.inr (Or.inr (Or.inl ⟨a5, funext fun c => by simp only [infoField, if_neg a1, if_neg a2, if_neg a3, if_neg a4, if_pos a5]; rfl⟩))))
  by_cases a6 : foldKey k = lit "branch"
  · exact Or.inr (Or.inr (Or.inr (Or.inr (Or.inr (Or.inl ⟨a6, funext fun c => by simp only [infoField, if_neg a1, if_neg a2, if_neg a3, if_neg a4, if_neg a5, if_pos a6]; rfl⟩)))))
  · exact Or.inr (Or.inr (Or.inr (Or.inr (Or.inr (Or.inr ⟨by simp [recordNames, a1, a2, a3, a4, a5, a6], funext fun c => by
      simp only [infoField, if_neg a1, if_neg a2, if_neg a3, if_neg a4, if_neg a5, if_neg a6]⟩)))))

theorem infoField_swap {k1 k2 : Str} (v1 v2 : Val) (cur : WsInfo) (h : foldKey k1 ≠ foldKey k2) :
    (infoField k1 v1 cur).bind (infoField k2 v2) = (infoField k2 v2 cur).bind (infoField k1 v1) := by
  rcases infoField_cases k1 v1 with ⟨a, e⟩ | ⟨a, e⟩ | ⟨a, e⟩ | ⟨a, e⟩ | ⟨a, e⟩ | ⟨a, e⟩ | ⟨a, e⟩ <;>
  rcases infoField_cases k2 v2 with ⟨b, e'⟩ | ⟨b, e'⟩ | ⟨b, e'⟩ | ⟨b, e'⟩ | ⟨b, e'⟩ | ⟨b, e'⟩ | ⟨b, e'⟩ <;> rw [e, e'] <;>
  first
  | exact partInto_comm (by intros; rfl) (by intros; rfl) (by intros; rfl) _ _ cur
  | exact absurd (a.trans b.symm) h
  | simp

theorem infoFields_two (k k' : Str) (v v' : Val) (l : Fields) (cur : WsInfo) :
    infoFields (.cons k v (.cons k' v' l)) cur = ((infoField k v cur).bind (infoField k' v')).bind (infoFields l) := by
  rw [infoFields_cons, Option.bind_assoc]
  exact congrArg _ (funext fun c => infoFields_cons k' v' l c)

theorem infoField_string (k : Str) : (∃ (g : WsInfo → Str) (p : WsInfo → Str → WsInfo), (∀ s x, g (p s x) = x) ∧ (∀ s x y, p (p s x) y = p s y) ∧
      ∀ v, infoField k v = partInto g p fun x => strInto x v) ∨ ∀ v, infoField k v = some := by
  by_cases a1 : foldKey k = lit "id"
  · exact Or.inl ⟨(·.id), fun c x => { c with id := x }, fun _ _ => rfl, fun _ _ _ => rfl, fun v => funext fun c => by simp only [infoField, if_pos a1]; rfl⟩
  by_cases a2 : foldKey k = lit "path"
  · exact Or.inl ⟨(·.path), fun c x => { c with path := x }, fun _ _ => rfl, fun _ _ _ => rfl, fun v => funext fun c => by
      simp only [infoField, if_neg a1, if_pos a2]; rfl⟩
  by_cases a3 : foldKey k = lit "head"
  · exact Or.inl ⟨(·.head), fun c x => { c with head := x }, fun _ _ => rfl, fun _ _ _ => rfl, fun v => funext fun c => by
      simp only [infoField, if_neg a1, if_neg a2, if_pos a3]; rfl⟩
  by_cases a4 : foldKey k = lit "sapceid"
  · exact Or.inl ⟨(·.spaceID), fun c x => { c with spaceID := x }, fun _ _ => rfl, fun _ _ _ => rfl, fun v => funext fun c => by
      simp only [infoField, if_neg a1, if_neg a2, if_neg a3, if_pos a4]; rfl⟩
  by_cases a5 : foldKey k = lit "mountid"
  · exact Or.inl ⟨(·.mountID), fun c x => { c with mountID := x }, fun _ _ => rfl, fun _ _ _ => rfl, fun v => funext fun c => by
      simp only [infoField, if_neg a1, if_neg a2, if_neg a3, if_neg a4, if_pos a5]; rfl⟩
  by_cases a6 : foldKey k = lit "branch"
  · exact Or.inl ⟨(·.branch), fun c x => { c with branch := x }, fun _ _ => rfl, fun _ _ _ => rfl, fun v => funext fun c => by
      simp only [infoField, if_neg a1, if_neg a2, if_neg a3, if_neg a4, if_neg a5, if_pos a6]; rfl⟩
  · exact Or.inr fun v => funext fun c => by simp only [infoField, if_neg a1, if_neg a2, if_neg a3, if_neg a4, if_neg a5, if_neg a6]

theorem likeRecord_into {l l' : Fields} (h : LikeRecord l l') : ∀ cur, infoFields l cur = infoFields l' cur := by
  induction h with
  | refl => exact fun _ => rfl
  | symm _ ih => exact fun cur => (ih cur).symm
  | trans _ _ ih ih' => exact fun cur => (ih cur).trans (ih' cur)
  | @cons k k' v l l' hk _ ih =>
    intro cur
    replace hk := sameName_iff.1 hk
    have e : infoField k v = infoField k' v := funext fun c => by simp only [infoField, hk]
    rw [infoFields_cons, infoFields_cons, e]
    exact congrArg _ (funext ih)
  | @unknown k v l hk =>
    intro cur
    replace hk := sameName_unknown (by decide) hk
    rw [infoFields_cons]
    rcases infoField_cases k v with ⟨a, e⟩ | ⟨a, e⟩ | ⟨a, e⟩ | ⟨a, e⟩ | ⟨a, e⟩ | ⟨a, e⟩ | ⟨a, e⟩
    iterate 6 exact absurd (by rw [a]; decide) hk
    rw [e]; rfl
  | null k l =>
    intro cur
    rw [infoFields_cons]
    rcases infoField_cases k .null with ⟨a, e⟩ | ⟨a, e⟩ | ⟨a, e⟩ | ⟨a, e⟩ | ⟨a, e⟩ | ⟨a, e⟩ | ⟨a, e⟩ <;> rw [e] <;> rfl
  | @twice k k' a b l hk =>
    intro cur
    replace hk := sameName_iff.1 hk
    rw [infoFields_two, infoFields_cons]
    have e : infoField k (.str a) = infoField k' (.str a) := funext fun c => by simp only [infoField, hk]
    rw [e]
    have f : (infoField k' (.str a) cur).bind (infoField k' (.str b)) = infoField k' (.str b) cur := by
      rcases infoField_string k' with ⟨g, p, h1, h2, h⟩ | h
      · rw [h, h, partInto_twice h1 h2]; rfl
      · rw [h, h]; rfl
    rw [f]
  | @swap k1 k2 v1 v2 l h =>
    intro cur
    rw [infoFields_two, infoFields_two, infoField_swap v1 v2 cur (fun e => h (sameName_iff.2 e))]

/-! ## C97, C98 -/

/-- **C97.** A tree file that differs from another one only in such things loads in the same way. -/
theorem C97_tree {t t' : Str} {l l' : Fields} (h : IsText (.obj l) t) (h' : IsText (.obj l') t') (hd : depth (.obj l) ≤ maxDepth) (hd' : depth (.obj l') ≤ maxDepth)
    (hl : LikeTree l l') : spaceLoad (.ok t) = spaceLoad (.ok t') := by
  have e : unmarshalDump t = unmarshalDump t' := by
    unfold unmarshalDump
    rw [(parse_iff _ _).2 ⟨h, hd⟩, (parse_iff _ _).2 ⟨h', hd'⟩]
    exact likeTree_into hl zeroDump
  simp only [spaceLoad, e]

/-- **C97.** The same for a workspace record. -/
theorem C97_record {t t' : Str} {l l' : Fields} (h : IsText (.obj l) t) (h' : IsText (.obj l') t') (hd : depth (.obj l) ≤ maxDepth) (hd' : depth (.obj l') ≤ maxDepth)
    (hl : LikeRecord l l') : unmarshalInfo t = unmarshalInfo t' := by
  unfold unmarshalInfo
  rw [(parse_iff _ _).2 ⟨h, hd⟩, (parse_iff _ _).2 ⟨h', hd'⟩]
  exact likeRecord_into hl _

/-- The fields that do not have this name. -/
def fieldsWithout (k : Str) : Fields → Fields
  | .nil => .nil
  | .cons k' v l => if SameName k' k then fieldsWithout k l else .cons k' v (fieldsWithout k l)

theorem dumpFields_append : ∀ (a b : Fields) (cur : TreeDump), dumpFields (fieldsAppend a b) cur = (dumpFields a cur).bind (dumpFields b)
  | .nil, _, _ => rfl
  | .cons k v a, b, cur => by
    rw [fieldsAppend, dumpFields_cons, dumpFields_cons, Option.bind_assoc]
    exact congrArg _ (funext fun c => dumpFields_append a b c)

theorem dumpFields_without {X : Type} {p : TreeDump → X → TreeDump} {k : Str} (hp : ∀ c x y, p (p c x) y = p c y)
    (hself : ∀ k' v c c', SameName k' k → dumpField k' v c = some c' → ∃ y, c' = p c y)
    (hother : ∀ k' v c c' x, ¬ SameName k' k → dumpField k' v c = some c' → dumpField k' v (p c x) = some (p c' x)) :
    ∀ (l : Fields) (cur r : TreeDump), dumpFields l cur = some r → ∀ x, dumpFields (fieldsWithout k l) (p cur x) = some (p r x)
  | .nil, cur, r, h, x => by
    rw [dumpFields] at h
    cases h
    rfl
  | .cons k' v l, cur, r, h, x => by
    rw [dumpFields_cons, Option.bind_eq_some_iff] at h
    obtain ⟨c, h1, h2⟩ := h
    rw [fieldsWithout]
    split
    · rename_i hk
      obtain ⟨y, rfl⟩ := hself _ _ _ _ hk h1
      have := dumpFields_without hp hself hother l _ r h2 x
      rwa [hp] at this
    · rename_i hk
      rw [dumpFields_cons, hother _ _ _ _ x hk h1]
      exact dumpFields_without hp hself hother l _ r h2 x

theorem dumpFields_null {k : Str} (hk : ∃ n ∈ treeNames, SameName k n) {l : Fields} {r : TreeDump} (h : dumpFields l zeroDump = some r) :
    dumpFields (fieldsAppend l (.cons k .null .nil)) zeroDump = dumpFields (fieldsWithout k l) zeroDump := by
  obtain ⟨n, hn, hs⟩ := hk
  have hf := (sameName_known (k := k) (List.mem_append_left _ (List.mem_append_right _ hn))).1 hs
  have hsame : ∀ {k' : Str}, SameName k' k ↔ foldKey k' = n := fun {k'} => by rw [sameName_iff, hf]
  rw [dumpFields_append, h]
  show dumpFields (.cons k .null .nil) r = _
  rw [dumpFields_cons]
  rw [treeNames, List.mem_cons, List.mem_cons, List.mem_singleton] at hn
  rcases hn with rfl | rfl | rfl
  · have := dumpFields_without (k := k) (p := fun c x => { c with nodes := x }) (fun _ _ _ => rfl)
      (fun k' v c c' e h1 => by
        have e := hsame.1 e
        rcases dumpField_cases k' v with ⟨a, e'⟩ | ⟨a, e'⟩ | ⟨a, e'⟩ | ⟨a, e'⟩
        all_goals first
          | exact absurd (a.symm.trans e) (by decide)
          | exact absurd (by rw [e]; decide) a
          | (rw [e', partInto, Option.map_eq_some_iff] at h1; obtain ⟨y, _, rfl⟩ := h1; exact ⟨y, rfl⟩))
      (fun k' v c c' x e h1 => by
        rcases dumpField_cases k' v with ⟨a, e'⟩ | ⟨a, e'⟩ | ⟨a, e'⟩ | ⟨a, e'⟩
        all_goals first
          | exact absurd (hsame.2 a) e
          | (rw [e', partInto, Option.map_eq_some_iff] at h1; obtain ⟨y, h2, rfl⟩ := h1; rw [e', partInto, Option.map_eq_some_iff]; exact ⟨y, h2, rfl⟩)
          | (rw [e'] at h1 ⊢; cases h1; rfl)) l _ r h none
    have e0 : ({ zeroDump with nodes := none } : TreeDump) = zeroDump := rfl
    rw [e0] at this
    rw [this]
    have e1 : dumpField k .null r = some { r with nodes := none } := by simp [dumpField, hf, lit, rootInto]
    rw [e1]; rfl
  · have := dumpFields_without (k := k) (p := fun c x => { c with branches := x }) (fun _ _ _ => rfl)
      (fun k' v c c' e h1 => by
        have e := hsame.1 e
        rcases dumpField_cases k' v with ⟨a, e'⟩ | ⟨a, e'⟩ | ⟨a, e'⟩ | ⟨a, e'⟩
        all_goals first
          | exact absurd (a.symm.trans e) (by decide)
          | exact absurd (by rw [e]; decide) a
          | (rw [e', partInto, Option.map_eq_some_iff] at h1; obtain ⟨y, _, rfl⟩ := h1; exact ⟨y, rfl⟩))
      (fun k' v c c' x e h1 => by
        rcases dumpField_cases k' v with ⟨a, e'⟩ | ⟨a, e'⟩ | ⟨a, e'⟩ | ⟨a, e'⟩
        all_goals first
          | exact absurd (hsame.2 a) e
          | (rw [e', partInto, Option.map_eq_some_iff] at h1; obtain ⟨y, h2, rfl⟩ := h1; rw [e', partInto, Option.map_eq_some_iff]; exact ⟨y, h2, rfl⟩)
          | (rw [e'] at h1 ⊢; cases h1; rfl)) l _ r h none
    have e0 : ({ zeroDump with branches := none } : TreeDump) = zeroDump := rfl
    rw [e0] at this
    rw [this]
    have e1 : dumpField k .null r = some { r with branches := none } := by simp [dumpField, hf, lit, strMapInto]
    rw [e1]; rfl
  · have := dumpFields_without (k := k) (p := fun c x => { c with tags := x }) (fun _ _ _ => rfl)
      (fun k' v c c' e h1 => by
        have e := hsame.1 e
        rcases dumpField_cases k' v with ⟨a, e'⟩ | ⟨a, e'⟩ | ⟨a, e'⟩ | ⟨a, e'⟩
        all_goals first
          | exact absurd (a.symm.trans e) (by decide)
          | exact absurd (by rw [e]; decide) a
          | (rw [e', partInto, Option.map_eq_some_iff] at h1; obtain ⟨y, _, rfl⟩ := h1; exact ⟨y, rfl⟩))
      (fun k' v c c' x e h1 => by
        rcases dumpField_cases k' v with ⟨a, e'⟩ | ⟨a, e'⟩ | ⟨a, e'⟩ | ⟨a, e'⟩
        all_goals first
          | exact absurd (hsame.2 a) e
          | (rw [e', partInto, Option.map_eq_some_iff] at h1; obtain ⟨y, h2, rfl⟩ := h1; rw [e', partInto, Option.map_eq_some_iff]; exact ⟨y, h2, rfl⟩)
          | (rw [e'] at h1 ⊢; cases h1; rfl)) l _ r h none
    have e0 : ({ zeroDump with tags := none } : TreeDump) = zeroDump := rfl
    rw [e0] at this
    rw [this]
    have e1 : dumpField k .null r = some { r with tags := none } := by simp [dumpField, hf, lit, strMapInto]
    rw [e1]; rfl

/-- **C97.** In a tree file that is read, a null takes back what the file says before it in fields of the same name: with a null at the end it loads as it does without these fields. -/
theorem C97_null {t0 t t' : Str} {k : Str} {l : Fields} (hk : ∃ n ∈ treeNames, SameName k n) (h0 : IsText (.obj l) t0) (hr : spaceLoad (.ok t0) ≠ .err .unmarshal)
    (h : IsText (.obj (fieldsAppend l (.cons k .null .nil))) t) (h' : IsText (.obj (fieldsWithout k l)) t') (hd0 : depth (.obj l) ≤ maxDepth)
    (hd : depth (.obj (fieldsAppend l (.cons k .null .nil))) ≤ maxDepth) (hd' : depth (.obj (fieldsWithout k l)) ≤ maxDepth) : spaceLoad (.ok t) = spaceLoad (.ok t') := by
  have e : unmarshalDump t = unmarshalDump t' := by
    unfold unmarshalDump
    rw [(parse_iff _ _).2 ⟨h, hd⟩, (parse_iff _ _).2 ⟨h', hd'⟩]
    cases hu : dumpFields l zeroDump with
    | some r => exact dumpFields_null hk hu
    | none =>
      refine absurd ?_ hr
      have : unmarshalDump t0 = none := by
        unfold unmarshalDump
        rw [(parse_iff _ _).2 ⟨h0, hd0⟩]
        exact hu
      simp only [spaceLoad, this]
  simp only [spaceLoad, e]

/-- **C97 (violated).** What the program does not know is not kept: what is saved after loading such a file is what is saved after loading
the file without it. -/
theorem C97_violated_lost {t t' : Str} {l l' : Fields} (h : IsText (.obj l) t) (h' : IsText (.obj l') t') (hd : depth (.obj l) ≤ maxDepth)
    (hd' : depth (.obj l') ≤ maxDepth) (hl : LikeTree l l') {sh : Bool} {s s' : TS} (hs : spaceLoad (.ok t) = .ok s) (hs' : spaceLoad (.ok t') = .ok s') (b : Str) :
    SavesAs sh s b ↔ SavesAs sh s' b := by
  rw [C97_tree h h' hd hd' hl, hs'] at hs
  cases hs
  exact Iff.rfl

/-- **C98.** Two texts of the same JSON value load in the same way, whatever white space they have and however they spell the strings. -/
theorem C98_layout {v : Val} {t t' : Str} (h : IsText v t) (h' : IsText v t') : spaceLoad (.ok t) = spaceLoad (.ok t') ∧ unmarshalInfo t = unmarshalInfo t' := by
  have e := parse_same h h'
  have e' : unmarshalDump t = unmarshalDump t' := by unfold unmarshalDump; rw [e]
  exact ⟨by simp only [spaceLoad, e'], by unfold unmarshalInfo; rw [e]⟩

/-- **C98.** What is no JSON text is refused. -/
theorem C98_refused {t : Str} (h : ∀ v, ¬ IsText v t) : spaceLoad (.ok t) = .err .unmarshal ∧ unmarshalInfo t = none := by
  have e : parse t = none := by
    cases hp : parse t with
    | none => rfl
    | some v => exact absurd ((parse_iff t v).1 hp).1 (h v)
  exact ⟨by simp only [spaceLoad, unmarshalDump, e]; rfl, by simp only [unmarshalInfo, e]; rfl⟩

/-- **C98.** What the program writes is a JSON text, however deeply it is nested. -/
theorem C98_written {s : TS} {sh : Bool} {b : Str} (h : SavesAs sh s b) : ∃ v, IsText v b := by
  obtain ⟨d, _, rfl⟩ := h
  exact ⟨_, emit_text sh _ (noNum_dump d)⟩

/-- **C98.** So are the records. -/
theorem C98_written_record (sh : Bool) (i : WsInfo) : ∃ v, IsText v (marshalInfo sh i) := ⟨_, emit_text sh _ (noNum_info i)⟩

/-- **C98.** No text is two values: neither the layout nor the spelling of a string is ambiguous. -/
theorem C98_one_value {v v' : Val} {t : Str} (h : IsText v t) (h' : IsText v' t) : v = v' := text_unique h h'

/-- **C98.** Whatever stands between the quotes of a string by the grammar says exactly one thing, and this is what the reader takes it for. -/
theorem C98_spelling {raw : Str} (h : Quoted raw) (v : Str) : Says raw v ↔ unquote raw = v := says_iff h v

/-- The spelling of a smiley by its two halves, and by its first half alone. -/
example : Says (lit "\\ud83d\\uDE00") [0xF0, 0x9F, 0x98, 0x80] ∧ Says (lit "\\ud83d") [0xEF, 0xBF, 0xBD] := by
  have h1 : Unit16 (lit "\\ud83d") (0xD800 + 0x3d) := .mk (.lower (k := 3) (by decide)) (.digit (k := 8) (by decide)) (.digit (k := 3) (by decide)) (.lower (k := 3) (by decide))
  have h2 : Unit16 (lit "\\uDE00") (0xDC00 + 0x200) := .mk (.upper (k := 3) (by decide)) (.upper (k := 4) (by decide)) (.digit (k := 0) (by decide)) (.digit (k := 0) (by decide))
  have h3 : Utf8 (0x10000 + 0x3d * 1024 + 0x200) [0xF0, 0x9F, 0x98, 0x80] := .four (x := 0) (y := 31) (z := 24) (t := 0) (by decide) (by decide) (by decide) (by decide) (by decide) (by decide)
  refine ⟨?_, ?_⟩
  · have := Says.pair h1 (by decide) h2 (by decide) h3 .nil
    exact this
  · have := Says.half (r := []) h1 (by decide) (by decide) (by
      rintro ⟨_, u, m, t, hu, e, _⟩
      obtain ⟨a, b, c, d, rfl⟩ := unit16_cons hu
      cases e) .nil
    exact this

/-! ## Examples -/

namespace LenientStory

/-- The fields of a tree file, as the program writes it: a node below the root, and two tags. -/
def plain (a b : UID) : Fields :=
  .cons (lit "nodes") (.obj (.cons (lit "id") (.str a.hex) (.cons (lit "children") (.arr (.cons (.obj (.cons (lit "id") (.str b.hex) .nil)) .nil)) .nil)))
  (.cons (lit "tags") (.obj (.cons (lit "x") (.str a.hex) (.cons (lit "y") (.str b.hex) .nil))) .nil)

/-- The same with fields that the program does not know, in another order, in other letters, with an ID and a tag given twice, and with the tags in
two parts. -/
def edited (a b : UID) : Fields :=
  .cons (lit "Tags") (.obj (.cons (lit "x") (.str a.hex) .nil)) (.cons (lit "version") (.str (lit "2"))
  (.cons (lit "TAGS") (.obj (.cons (lit "y") (.str a.hex) (.cons (lit "y") (.str b.hex) .nil))) (.cons (lit "nodes") (.obj
    (.cons (lit "children") (.arr (.cons (.obj (.cons (lit "note") (.str (lit "hi")) (.cons (lit "ID") (.str (lit "z")) (.cons (lit "id") (.str b.hex) .nil)))) .nil))
      (.cons (lit "Id") (.str a.hex) .nil))) .nil)))

theorem like (a b : UID) : LikeTree (edited a b) (plain a b) := by
  refine .trans (.cons (k' := lit "tags") _ (by decide) (.unknown _ _ (by decide))) ?_
  refine .trans (.merge _ _ _ (by decide) (Or.inr (by decide))) ?_
  refine .trans (.entries _ (Or.inr (by decide)) (.cons _ _ (.twice (lit "y") a.hex b.hex .nil .nil (fun h => h)))) ?_
  refine .trans (.swap _ _ _ (by decide)) ?_
  refine .root _ (by decide) (.obj ?_)
  refine .trans (.swap _ _ _ (by decide)) ?_
  refine .cons _ (by decide) (.children _ (by decide) (.cons (.obj ?_) .nil))
  exact .trans (.unknown _ _ (by decide)) (.twice _ _ _ (by decide) (by decide))

theorem parse_plain (a b : UID) : parse (emit true (.obj (plain a b))) = some (.obj (plain a b)) := by
  unfold parse
  rw [parseWith_emit _ _ _ (by simp [plain, NoNum, NoNumFields, NoNumVals])]
  have h1 : depth (.obj (plain a b)) ≤ maxDepth := by simp [plain, depth, depthFields, depthVals, maxDepth]
  rw [if_pos h1]
  have s1 : sanitize (lit "nodes") = lit "nodes" := sanitize_ascii (by decide)
  have s2 : sanitize (lit "id") = lit "id" := sanitize_ascii (by decide)
  have s3 : sanitize (lit "children") = lit "children" := sanitize_ascii (by decide)
  have s4 : sanitize (lit "tags") = lit "tags" := sanitize_ascii (by decide)
  have s5 : sanitize (lit "x") = lit "x" := sanitize_ascii (by decide)
  have s6 : sanitize (lit "y") = lit "y" := sanitize_ascii (by decide)
  simp only [plain, clean, cleanFields, cleanVals, sanitize_hex, s1, s2, s3, s4, s5, s6]

theorem parse_edited (a b : UID) : parse (emit true (.obj (edited a b))) = some (.obj (edited a b)) := by
  unfold parse
  rw [parseWith_emit _ _ _ (by simp [edited, NoNum, NoNumFields, NoNumVals])]
  have h1 : depth (.obj (edited a b)) ≤ maxDepth := by simp [edited, depth, depthFields, depthVals, maxDepth]
  rw [if_pos h1]
  have s1 : sanitize (lit "nodes") = lit "nodes" := sanitize_ascii (by decide)
  have s2 : sanitize (lit "id") = lit "id" := sanitize_ascii (by decide)
  have s3 : sanitize (lit "children") = lit "children" := sanitize_ascii (by decide)
  have s4 : sanitize (lit "Tags") = lit "Tags" := sanitize_ascii (by decide)
  have s5 : sanitize (lit "x") = lit "x" := sanitize_ascii (by decide)
  have s6 : sanitize (lit "y") = lit "y" := sanitize_ascii (by decide)
  have s7 : sanitize (lit "TAGS") = lit "TAGS" := sanitize_ascii (by decide)
  have s8 : sanitize (lit "version") = lit "version" := sanitize_ascii (by decide)
  have s9 : sanitize (lit "note") = lit "note" := sanitize_ascii (by decide)
  have t1 : sanitize (lit "hi") = lit "hi" := sanitize_ascii (by decide)
  have t2 : sanitize (lit "ID") = lit "ID" := sanitize_ascii (by decide)
  have t3 : sanitize (lit "z") = lit "z" := sanitize_ascii (by decide)
  have t4 : sanitize (lit "Id") = lit "Id" := sanitize_ascii (by decide)
  have t5 : sanitize (lit "2") = lit "2" := sanitize_ascii (by decide)
  simp only [edited, clean, cleanFields, cleanVals, sanitize_hex, s1, s2, s3, s4, s5, s6, s7, s8, s9, t1, t2, t3, t4, t5]

/-- Both files are read, and in the same way. -/
example (a b : UID) : spaceLoad (.ok (emit true (.obj (edited a b)))) = spaceLoad (.ok (emit true (.obj (plain a b)))) :=
  C97_tree ((parse_iff _ _).1 (parse_edited a b)).1 ((parse_iff _ _).1 (parse_plain a b)).1 ((parse_iff _ _).1 (parse_edited a b)).2
    ((parse_iff _ _).1 (parse_plain a b)).2 (like a b)

/-- What is read is a tree with two nodes and two tags. -/
example (a b : UID) : unmarshalDump (emit true (.obj (plain a b))) =
    some ⟨some (.mk a.hex [.mk b.hex [] none none] none none), none, some [(lit "x", a.hex), (lit "y", b.hex)]⟩ := by
  unfold unmarshalDump
  rw [parse_plain]
  rfl

/-- `C97_null`: with `"NODES": null` at the end, the file has no nodes any more, and is refused like a file with tags only. -/
example (a b : UID) {t t' : Str} (h : IsText (.obj (fieldsAppend (plain a b) (.cons (lit "NODES") .null .nil))) t)
    (h' : IsText (.obj (.cons (lit "tags") (.obj (.cons (lit "x") (.str a.hex) (.cons (lit "y") (.str b.hex) .nil))) .nil)) t') : spaceLoad (.ok t) = spaceLoad (.ok t') := by
  have hp := (parse_iff _ _).1 (parse_plain a b)
  refine C97_null (l := plain a b) (k := lit "NODES") ⟨lit "nodes", by decide, by decide⟩ hp.1 ?_ h ?_ hp.2 ?_ ?_
  · intro e
    have : unmarshalDump (emit true (.obj (plain a b))) ≠ none := by unfold unmarshalDump; rw [parse_plain]; exact nofun
    cases hu : unmarshalDump (emit true (.obj (plain a b))) with
    | none => exact this hu
    | some d =>
      simp only [spaceLoad, hu] at e
      cases hl : TS.load d <;> rw [hl] at e <;> cases e
  · exact h'
  · simp [plain, fieldsAppend, depth, depthFields, depthVals, maxDepth]
  · have h1 : SameName (lit "nodes") (lit "NODES") := by decide
    have h2 : ¬ SameName (lit "tags") (lit "NODES") := by decide
    simp [plain, fieldsWithout, h1, h2, depth, depthFields, maxDepth]

/-- White space and another spelling of a letter. -/
example : IsText (.obj (.cons (lit "id") (.str (lit "a")) .nil)) (lit "{\"id\":\"a\"}") ∧
    IsText (.obj (.cons (lit "id") (.str (lit "a")) .nil)) (lit " {\n  \"\\u0069d\" : \"\\u0061\"\n}\n") := by
  have b : ∀ s : Str, (∀ c ∈ s, isWs c = true) → Blank s := fun s h c hc => (isWs_iff c).1 (h c hc)
  have p : ∀ (c : UInt8) {r : Str}, 0x20 ≤ c ∧ c ≠ 0x22 ∧ c ≠ 0x5C → Quoted r → Quoted (c :: r) := fun c r h => .plain h.1 h.2.1 h.2.2
  have x : ∀ c : UInt8, (hexVal c).isSome = true → HexChar c := fun c => (hexVal_isSome c).1
  constructor
  · have q1 : Quoted (lit "id") := p _ (by decide) (p _ (by decide) .nil)
    have q2 : Quoted (lit "a") := p _ (by decide) .nil
    have m := Members.last (b [] (by decide)) q1 (says_unquote q1) (b [] (by decide)) (b [] (by decide)) (Text.str q2 (says_unquote q2)) (b [] (by decide))
    rw [show unquote (lit "id") = lit "id" from by decide +kernel, show unquote (lit "a") = lit "a" from by decide +kernel] at m
    exact ⟨[], _, [], by decide, b _ (by decide), .obj m, b _ (by decide)⟩
  · have q1 : Quoted (lit "\\u0069d") := .uni (x _ (by decide)) (x _ (by decide)) (x _ (by decide)) (x _ (by decide)) (p _ (by decide) .nil)
    have q2 : Quoted (lit "\\u0061") := .uni (x _ (by decide)) (x _ (by decide)) (x _ (by decide)) (x _ (by decide)) .nil
    have m := Members.last (b (lit "\n  ") (by decide)) q1 (says_unquote q1) (b (lit " ") (by decide)) (b (lit " ") (by decide)) (Text.str q2 (says_unquote q2)) (b (lit "\n") (by decide))
    rw [show unquote (lit "\\u0069d") = lit "id" from by decide +kernel, show unquote (lit "\\u0061") = lit "a" from by decide +kernel] at m
    exact ⟨lit " ", _, lit "\n", by decide, b _ (by decide), .obj m, b _ (by decide)⟩

/-- The empty file is no JSON text. -/
example : ∀ v, ¬ IsText v [] := by
  rintro v h
  have h1 := (parseWith_iff (depth v) [] v).2 ⟨h, Nat.le_refl _⟩
  have h2 : parseWith (depth v) [] = none := rfl
  rw [h2] at h1
  cases h1

/-- A record with a null, a number that the program does not look for, and a path given twice. -/
example (x y : Str) : LikeRecord (.cons (lit "id") .null (.cons (lit "PATH") (.str x) (.cons (lit "port") (.num (lit "7")) (.cons (lit "path") (.str y) .nil))))
    (.cons (lit "path") (.str y) .nil) := by
  refine .trans (.null _ _) (.trans (.cons (k' := lit "path") _ (by decide) (.unknown _ _ (by decide))) (.twice _ _ _ (.refl _)))

end LenientStory
end Verif
