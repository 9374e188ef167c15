import Verif.Props.Alias
import Verif.Misc.AliasTree
/-!
# C99: no two nodes share a map

The memory model of `Verif.Misc.Alias` against the model with values of `Verif.Tree.Model`: every method changes the tree as a user sees
it just as the model with values says, so one node is changed and all others stay as they are.
-/
set_option autoImplicit false
namespace Verif
namespace Alias

/-- The places that hold a map. -/
inductive Slot where
  | field (f : Field)
  | anno (r : Ref)
  | data (r : Ref)

/-- The map in a place. -/
def Mem.slot (m : Mem) : Slot → Option Nat
  | .field f => m.field f
  | .anno r => (m.objs[r]?).bind (·.annotations)
  | .data r => (m.objs[r]?).bind (·.data)

/-- No map is in two places, and no slice in a data map is a map in another place. -/
structure Sep (m : Mem) : Prop where
  one : ∀ {s s' : Slot} {p : Nat}, m.slot s = some p → m.slot s' = some p → s = s'
  slice : ∀ {r : Ref} {d q : Nat} {e : Str × Option Nat} {s : Slot}, m.slot (.data r) = some d → e ∈ dataOf m.cells d → e.2 = some q →
    m.slot s = some q → s = .data r

theorem owned_slot {m : Mem} {s : Slot} {p : Nat} (h : m.slot s = some p) : Owned m p := by
  cases s with
  | field f => exact Or.inl ⟨f, h⟩
  | anno r =>
    obtain ⟨o, ho, ha⟩ := Option.bind_eq_some_iff.1 h
    exact Or.inr (Or.inl ⟨r, o, ho, Or.inl ha⟩)
  | data r =>
    obtain ⟨o, ho, ha⟩ := Option.bind_eq_some_iff.1 h
    exact Or.inr (Or.inl ⟨r, o, ho, Or.inr ha⟩)

theorem owned_slice {m : Mem} {r : Ref} {d q : Nat} {e : Str × Option Nat} (h : m.slot (.data r) = some d) (he : e ∈ dataOf m.cells d)
    (hq : e.2 = some q) : Owned m q := by
  obtain ⟨o, ho, ha⟩ := Option.bind_eq_some_iff.1 h
  exact Or.inr (Or.inr ⟨r, o, d, ho, ha, e, he, hq⟩)

theorem slot_congr {m m' : Mem} (ho : m'.objs = m.objs) (hn : m'.nodes = m.nodes) (hb : m'.branches = m.branches) (ht : m'.tags = m.tags)
    (s : Slot) : m'.slot s = m.slot s := by
  cases s with
  | field f => exact field_congr ho hn hb ht f
  | anno r => simp only [Mem.slot, ho]
  | data r => simp only [Mem.slot, ho]

/-- The places stay and the data maps keep their entries. -/
theorem Sep.keep {m m' : Mem} (h : Sep m) (hs : ∀ s, m'.slot s = m.slot s)
    (hd : ∀ r d, m.slot (.data r) = some d → dataOf m'.cells d = dataOf m.cells d) : Sep m' where
  one h1 h2 := h.one (by rw [← hs]; exact h1) (by rw [← hs]; exact h2)
  slice {r d q e s} h1 h2 h3 h4 := by
    rw [hs] at h1 h4
    rw [hd r d h1] at h2
    exact h.slice h1 h2 h3 h4

/-- One place gets a map that was nowhere; its entries lead to nothing in other places, and the data maps keep theirs. -/
theorem Sep.put {m m' : Mem} (h : Sep m) {s0 : Slot} {p0 : Nat} (h0 : m'.slot s0 = some p0) (hs : ∀ s, s ≠ s0 → m'.slot s = m.slot s)
    (hn : ∀ s, m.slot s ≠ some p0)
    (hsl : ∀ r d, m.slot (.data r) = some d → ∀ e ∈ dataOf m.cells d, e.2 ≠ some p0)
    (hd : ∀ r d, m.slot (.data r) = some d → dataOf m'.cells d = dataOf m.cells d)
    (hnew : ∀ r, s0 = .data r → ∀ e ∈ dataOf m'.cells p0, ∀ q, e.2 = some q → ∀ s, m.slot s ≠ some q) : Sep m' where
  one {s s' p} h1 h2 := by
    by_cases e1 : s = s0
    · by_cases e2 : s' = s0
      · rw [e1, e2]
      · rw [e1, h0] at h1
        cases h1
        rw [hs s' e2] at h2
        exact absurd h2 (hn s')
    · rw [hs s e1] at h1
      by_cases e2 : s' = s0
      · rw [e2, h0] at h2
        cases h2
        exact absurd h1 (hn s)
      · rw [hs s' e2] at h2
        exact h.one h1 h2
  slice {r d q e s} h1 h2 h3 h4 := by
    by_cases e1 : (.data r : Slot) = s0
    · rw [e1, h0] at h1
      cases h1
      by_cases e2 : s = s0
      · rw [e2, e1]
      · rw [hs s e2] at h4
        exact absurd h4 (hnew r e1.symm e h2 q h3 s)
    · rw [hs _ e1] at h1
      rw [hd r d h1] at h2
      by_cases e2 : s = s0
      · rw [e2, h0] at h4
        cases h4
        exact absurd h3 (hsl r d h1 e h2)
      · rw [hs s e2] at h4
        exact h.slice h1 h2 h3 h4

theorem Sep.longer {m m' : Mem} {K : Nat → Prop} (h : Sep m) (ha : Apart m K) (hl : Longer m m') : Sep m' :=
  h.keep (slot_congr hl.objs hl.nodes hl.branches hl.tags) fun _ d hd => dataOf_congr (hl.old d (ha.owned d (owned_slot hd)))

/-! ### What is in the places afterwards -/

theorem slot_store (m : Mem) (p : Nat) (c : Cell) (s : Slot) : (m.store p c).slot s = m.slot s := slot_congr rfl rfl rfl rfl s

theorem slot_alloc (m : Mem) (c : Cell) (s : Slot) : (m.alloc c).2.slot s = m.slot s := slot_congr rfl rfl rfl rfl s

theorem objs_set {m : Mem} {r x : Ref} {o o' : Obj} (ho : m.objs[r]? = some o) :
    (m.setObj r o').objs[x]? = if r = x then some o' else m.objs[x]? := by
  have hlt : r < m.objs.length := (List.getElem?_eq_some_iff.1 ho).1
  simp only [Mem.setObj, List.getElem?_set]
  by_cases hx : r = x
  · subst hx; simp [hlt]
  · simp [hx]

/-- A change of a node changes no place of another node. -/
theorem slot_setObj {m : Mem} {r : Ref} {o o' : Obj} (ho : m.objs[r]? = some o) (s : Slot)
    (h1 : s = .field (.children r) → o'.children = o.children) (h2 : s = .anno r → o'.annotations = o.annotations)
    (h3 : s = .data r → o'.data = o.data) : (m.setObj r o').slot s = m.slot s := by
  cases s with
  | field f =>
    cases f with
    | children x =>
      simp only [Mem.slot, Mem.field, objs_set ho]
      by_cases hx : r = x
      · subst hx; simp [ho, h1]
      · simp [hx]
    | _ => rfl
  | anno x =>
    simp only [Mem.slot, objs_set ho]
    by_cases hx : r = x
    · subst hx; simp [ho, h2]
    · simp [hx]
  | data x =>
    simp only [Mem.slot, objs_set ho]
    by_cases hx : r = x
    · subst hx; simp [ho, h3]
    · simp [hx]

theorem slot_setField (m : Mem) (p : Nat) (f : Field) (s : Slot) (hs : s ≠ .field f) : (m.setField (some p) f).slot s = m.slot s := by
  cases f with
  | children r =>
    simp only [Mem.setField]
    cases ho : m.objs[r]? with
    | none => rfl
    | some o => exact slot_setObj ho s (fun h => absurd h hs) (fun _ => rfl) (fun _ => rfl)
  | nodes =>
    cases s with
    | field g => cases g with
      | nodes => exact absurd rfl hs
      | _ => rfl
    | _ => rfl
  | branches =>
    cases s with
    | field g => cases g with
      | branches => exact absurd rfl hs
      | _ => rfl
    | _ => rfl
  | tags =>
    cases s with
    | field g => cases g with
      | tags => exact absurd rfl hs
      | _ => rfl
    | _ => rfl

/-- Setting a place sets it, unless the node does not exist and nothing happens. -/
theorem slot_setField_self (m : Mem) (p : Nat) (f : Field) :
    (m.setField (some p) f).slot (.field f) = some p ∨ (∃ r, f = .children r ∧ m.objs[r]? = none ∧ m.setField (some p) f = m) := by
  cases f with
  | children r =>
    simp only [Mem.setField]
    cases ho : m.objs[r]? with
    | none => exact Or.inr ⟨r, rfl, ho, rfl⟩
    | some o =>
      left
      simp only [Mem.slot, Mem.field, objs_set ho, if_true, Option.bind_some]
  | nodes => exact Or.inl rfl
  | branches => exact Or.inl rfl
  | tags => exact Or.inl rfl

theorem slot_newNode (m : Mem) (id : UID) (s : Slot) : (m.newNode id).slot s = m.slot s := by
  have key : ∀ (g : Obj → Option Nat), g ⟨id, none, none, none, none⟩ = none → ∀ r : Ref,
      ((m.newNode id).objs[r]?).bind g = (m.objs[r]?).bind g := by
    intro g hg r
    simp only [Mem.newNode, List.getElem?_append]
    split
    · rfl
    · rename_i hlt
      rw [List.getElem?_eq_none (Nat.not_lt.1 hlt)]
      cases hx : r - m.objs.length with
      | zero => simp [hg]
      | succ n => simp
  cases s with
  | field f => cases f with
    | children r => exact key _ rfl r
    | _ => rfl
  | anno r => exact key _ rfl r
  | data r => exact key _ rfl r

theorem dataOf_store_ne {m : Mem} {p d : Nat} {c : Cell} (h : d ≠ p) : dataOf (m.store p c).cells d = dataOf m.cells d :=
  dataOf_congr (by simp [Mem.store, Ne.symm h])

theorem dataOf_store_self {m : Mem} {p : Nat} {l : List (Str × Option Nat)} (h : p < m.cells.length) :
    dataOf (m.store p (.datas l)).cells p = l := by
  simp [Mem.store, dataOf, h]

theorem dataOf_alloc {m : Mem} {K : Nat → Prop} (ha : Apart m K) {c : Cell} {r : Ref} {d : Nat} (hd : m.slot (.data r) = some d) :
    dataOf (m.alloc c).2.cells d = dataOf m.cells d :=
  dataOf_congr ((longer_alloc m c).old d (ha.owned d (owned_slot hd)))

/-- What was just allocated is nowhere. -/
theorem not_slot {m : Mem} {K : Nat → Prop} (ha : Apart m K) {p : Nat} (hp : m.cells.length ≤ p) (s : Slot) : m.slot s ≠ some p :=
  fun h => absurd (ha.owned p (owned_slot h)) (Nat.not_lt.2 hp)

theorem not_slice {m : Mem} {K : Nat → Prop} (ha : Apart m K) {p : Nat} (hp : m.cells.length ≤ p) (r : Ref) (d : Nat) (hd : m.slot (.data r) = some d)
    (e : Str × Option Nat) (he : e ∈ dataOf m.cells d) : e.2 ≠ some p :=
  fun h => absurd (ha.owned p (owned_slice hd he h)) (Nat.not_lt.2 hp)

theorem sep_assign {m : Mem} {K : Nat → Prop} (h : Sep m) (ha : Apart m K) (f : Field) (k : Str) (r : Ref) : Sep (m.assign f k r) := by
  simp only [Mem.assign]
  cases hf : m.field f with
  | none =>
    show Sep ((m.alloc (.refs [(k, r)])).2.setField (some m.cells.length) f)
    rcases slot_setField_self (m.alloc (.refs [(k, r)])).2 m.cells.length f with h1 | ⟨_, _, _, h1⟩
    · refine h.put (s0 := .field f) h1 (fun s hs => ?_) (not_slot ha (Nat.le_refl _)) (not_slice ha (Nat.le_refl _)) (fun x d hd => ?_)
        (fun _ hx => by cases hx)
      · rw [slot_setField _ _ _ _ hs, slot_alloc]
      · rw [setField_cells]; exact dataOf_alloc ha hd
    · rw [h1]; exact h.longer ha (longer_alloc _ _)
  | some p =>
    refine h.keep (slot_store m p _) fun x d hd => dataOf_store_ne ?_
    rintro rfl
    have hf' : m.slot (.field f) = some d := hf
    cases h.one hd hf'

theorem sep_delete {m : Mem} (h : Sep m) (f : Field) (k : Str) : Sep (m.delete f k) := by
  simp only [Mem.delete]
  cases hf : m.field f with
  | none => exact h
  | some p =>
    refine h.keep (slot_store m p _) fun x d hd => dataOf_store_ne ?_
    rintro rfl
    have hf' : m.slot (.field f) = some d := hf
    cases h.one hd hf'

theorem slot_anno {m : Mem} {r : Ref} {o : Obj} (ho : m.objs[r]? = some o) : m.slot (.anno r) = o.annotations := by simp [Mem.slot, ho]

theorem slot_data {m : Mem} {r : Ref} {o : Obj} (ho : m.objs[r]? = some o) : m.slot (.data r) = o.data := by simp [Mem.slot, ho]

theorem sep_addAnnotation {m : Mem} {K : Nat → Prop} (h : Sep m) (ha : Apart m K) (r : Ref) (k v : Str) : Sep (m.addAnnotation r k v) := by
  simp only [Mem.addAnnotation]
  cases ho : m.objs[r]? with
  | none => exact h
  | some o =>
    simp only []
    cases hn : o.annotations with
    | none =>
      have ho1 : (m.alloc (.strs [(k, v)])).2.objs[r]? = some o := ho
      refine h.put (s0 := .anno r) (p0 := m.cells.length) ?_ (fun s hs => ?_) (not_slot ha (Nat.le_refl _)) (not_slice ha (Nat.le_refl _))
        (fun x d hd => dataOf_alloc ha hd) (fun _ hx => by cases hx)
      · simp only [Mem.slot, objs_set ho1, if_true, Option.bind_some]; rfl
      · exact (slot_setObj (o' := { o with annotations := some m.cells.length }) ho1 s (fun _ => rfl) (fun h => absurd h hs)
          (fun _ => rfl)).trans (slot_alloc _ _ _)
    | some p =>
      refine h.keep (slot_store m p _) fun x d hd => dataOf_store_ne ?_
      rintro rfl
      cases h.one hd ((slot_anno ho).trans hn)

/-- The copy of a slice is nil or new. -/
theorem copyBytes_new (m : Mem) (v : Option Nat) {q : Nat} (h : (m.copyBytes v).1 = some q) :
    q = m.cells.length ∧ (m.copyBytes v).2.cells = m.cells ++ [.bytes ((readBytes m.cells v).getD [])] := by
  cases v with
  | none => cases h
  | some x => exact ⟨(Option.some.inj h).symm, rfl⟩

theorem sep_addData {m : Mem} {K : Nat → Prop} (h : Sep m) (ha : Apart m K) (r : Ref) (k : Str) (v : Option Nat) : Sep (m.addData r k v) := by
  simp only [Mem.addData]
  cases ho : m.objs[r]? with
  | none => exact h
  | some o =>
    simp only []
    have hl := longer_copyBytes m v
    have h1 : Sep (m.copyBytes v).2 := h.longer ha hl
    have hs1 : ∀ s, (m.copyBytes v).2.slot s = m.slot s := slot_congr hl.objs hl.nodes hl.branches hl.tags
    have ho1 : (m.copyBytes v).2.objs[r]? = some o := by rw [hl.objs]; exact ho
    have fr : ∀ q, (m.copyBytes v).1 = some q → ∀ s, (m.copyBytes v).2.slot s ≠ some q := by
      intro q hq s
      rw [hs1 s, (copyBytes_new m v hq).1]
      exact not_slot ha (Nat.le_refl _) s
    have hb1 : ∀ p, Owned (m.copyBytes v).2 p → p < (m.copyBytes v).2.cells.length :=
      fun p hp => Nat.lt_of_lt_of_le (ha.owned p (owned_longer hl ha.owned hp)) hl.len
    have ha1 : Apart (m.copyBytes v).2 (fun _ => False) := ⟨hb1, fun _ hp => hp.elim, fun _ _ hp => hp⟩
    cases hn : o.data with
    | none =>
      have ho2 : ((m.copyBytes v).2.alloc (.datas [(k, (m.copyBytes v).1)])).2.objs[r]? = some o := ho1
      refine h1.put (s0 := .data r) (p0 := (m.copyBytes v).2.cells.length) ?_ (fun s hs => ?_) (not_slot ha1 (Nat.le_refl _))
        (not_slice ha1 (Nat.le_refl _)) (fun x d hd => dataOf_alloc ha1 hd) (fun x _ e he q hq => ?_)
      · simp only [Mem.slot, objs_set ho2, if_true, Option.bind_some]; rfl
      · exact (slot_setObj (o' := { o with data := some (m.copyBytes v).2.cells.length }) ho2 s (fun _ => rfl) (fun _ => rfl)
          (fun h => absurd h hs)).trans (slot_alloc _ _ _)
      · have : e ∈ [(k, (m.copyBytes v).1)] := by
          simpa [dataOf, Mem.setObj, Mem.alloc] using he
        rw [List.mem_singleton] at this
        subst this
        exact fr q hq
    | some p =>
      have hp : (m.copyBytes v).2.slot (.data r) = some p := (slot_data ho1).trans hn
      refine ⟨fun h2 h3 => h1.one (by rw [← slot_store]; exact h2) (by rw [← slot_store]; exact h3), ?_⟩
      intro x d q e s h2 h3 h4 h5
      rw [slot_store] at h2 h5
      by_cases hd : d = p
      · subst hd
        have hx : (.data x : Slot) = .data r := h1.one h2 hp
        have hlt : d < (m.copyBytes v).2.cells.length := hb1 d (owned_slot hp)
        rw [dataOf_store_self hlt] at h3
        rcases al_put_mem h3 with h6 | h6
        · exact h1.slice h2 h6 h4 h5
        · exact absurd h5 (fr q (h6 ▸ h4) s)
      · rw [dataOf_store_ne hd] at h3
        exact h1.slice h2 h3 h4 h5

theorem sep_call {m m' : Mem} {K K' : Nat → Prop} (h : Sep m) (ha : Apart m K) (hc : Call m K m' K') : Sep m' := by
  cases hc with
  | newNode id => exact h.keep (slot_newNode m id) fun _ _ _ => rfl
  | setParent r p =>
    simp only [Mem.setParent]
    cases ho : m.objs[r]? with
    | none => exact h
    | some o => exact h.keep (fun s => slot_setObj ho s (fun _ => rfl) (fun _ => rfl) (fun _ => rfl)) fun _ _ _ => rfl
  | setRoot r => exact h.keep (slot_congr rfl rfl rfl rfl) fun _ _ _ => rfl
  | assign f k r => exact sep_assign h ha f k r
  | delete f k => exact sep_delete h f k
  | addAnnotation r k v => exact sep_addAnnotation h ha r k v
  | addData r k v hv => exact sep_addData h ha r k v
  | setAnnotations r p hp =>
    simp only [Mem.setAnnotations]
    cases ho : m.objs[r]? with
    | none => exact h
    | some o =>
      refine h.put (s0 := .anno r) (p0 := p) ?_ (fun s hs => slot_setObj ho s (fun _ => rfl) (fun h => absurd h hs) (fun _ => rfl))
        (fun s hs => ha.apart p (owned_slot hs) hp) (fun x d hd e he hq => ha.apart p (owned_slice hd he hq) hp) (fun _ _ _ => rfl)
        (fun _ hx => by cases hx)
      simp only [Mem.slot, objs_set ho, if_true, Option.bind_some]
  | setData r p hp hall =>
    simp only [Mem.setData]
    cases ho : m.objs[r]? with
    | none => exact h
    | some o =>
      refine h.put (s0 := .data r) (p0 := p) ?_ (fun s hs => slot_setObj ho s (fun _ => rfl) (fun _ => rfl) (fun h => absurd h hs))
        (fun s hs => ha.apart p (owned_slot hs) hp) (fun x d hd e he hq => ha.apart p (owned_slice hd he hq) hp) (fun _ _ _ => rfl)
        (fun x _ e he q hq s hs => ha.apart q (owned_slot hs) (hall e he q hq))
      simp only [Mem.slot, objs_set ho, if_true, Option.bind_some]
  | getRefs f => exact h.longer ha (longer_copyRefs _ _)
  | getAnnotations ho => exact h.longer ha (longer_copyStrs _ _)
  | getData ho => exact h.longer ha (longer_copyData _ _)

theorem sep_own {m m' : Mem} {K K' : Nat → Prop} (h : Sep m) (ha : Apart m K) (hc : Own m K m' K') : Sep m' := by
  cases hc with
  | alloc c hcl => exact h.longer ha (longer_alloc _ _)
  | @write p c hp hcl =>
    exact h.keep (slot_store m p c) fun x d hd => dataOf_store_ne fun e => ha.apart d (owned_slot hd) (e ▸ hp)

theorem sep_run {m : Mem} {K : Nat → Prop} (h : Run m K) : Sep m := by
  induction h with
  | start =>
    refine ⟨fun {s s' p} h1 _ => ?_, fun {r d q e s} h1 _ _ _ => ?_⟩
    · cases s with
      | field f => cases f <;> cases h1
      | anno r => cases h1
      | data r => cases h1
    · cases h1
  | call hr hc ih => exact sep_call ih (apart_run hr) hc
  | own hr hc ih => exact sep_own ih (apart_run hr) hc

/-! ### What a user sees -/

theorem readRefs_congr {c c' : List Cell} {p : Option Nat} (h : ∀ q, p = some q → c'[q]? = c[q]?) : readRefs c' p = readRefs c p := by
  cases p with
  | none => rfl
  | some q => simp only [readRefs, h q rfl]

theorem readStrs_congr {c c' : List Cell} {p : Option Nat} (h : ∀ q, p = some q → c'[q]? = c[q]?) : readStrs c' p = readStrs c p := by
  cases p with
  | none => rfl
  | some q => simp only [readStrs, h q rfl]

theorem readBytes_congr {c c' : List Cell} {p : Option Nat} (h : ∀ q, p = some q → c'[q]? = c[q]?) : readBytes c' p = readBytes c p := by
  cases p with
  | none => rfl
  | some q => simp only [readBytes, h q rfl]

theorem readData_congr {c c' : List Cell} {p : Option Nat} (h : ∀ d, p = some d → c'[d]? = c[d]?)
    (hq : ∀ d, p = some d → ∀ e ∈ dataOf c d, ∀ q, e.2 = some q → c'[q]? = c[q]?) : readData c' p = readData c p := by
  cases p with
  | none => rfl
  | some d =>
    simp only [readData, dataOf_congr (h d rfl)]
    congr 1
    exact List.map_congr_left fun e he => by rw [readBytes_congr (hq d rfl e he)]

/-- What a node shows, told from the places. -/
def look (m : Mem) (r : Ref) : Option NodeObj :=
  (m.objs[r]?).map fun o => ⟨o.id, o.parent, readRefs m.cells (m.slot (.field (.children r))), readStrs m.cells (m.slot (.anno r)),
    readData m.cells (m.slot (.data r))⟩

theorem view_look (m : Mem) (r : Ref) : m.view.heap[r]? = look m r := by
  simp only [Mem.view, look, List.getElem?_map]
  cases ho : m.objs[r]? with
  | none => rfl
  | some o => simp [Mem.slot, Mem.field, ho]

theorem view_ext {m : Mem} {t : TS} (hroot : m.root = t.tree.root) (hn : readRefs m.cells (m.slot (.field .nodes)) = t.tree.nodes)
    (hb : readRefs m.cells (m.slot (.field .branches)) = t.tree.branches) (ht : readRefs m.cells (m.slot (.field .tags)) = t.tree.tags)
    (hh : ∀ r : Ref, look m r = t.heap[r]?) : m.view = t := by
  have hheap : m.view.heap = t.heap := List.ext_getElem? fun r => by rw [view_look]; exact hh r
  obtain ⟨heap, root, nodes, branches, tags⟩ := t
  simp only [Mem.slot, Mem.field] at hroot hn hb ht hheap
  simp only [← hheap, ← hroot, ← hn, ← hb, ← ht]
  rfl

/-- Only the place `s` has another map or another content. -/
structure Frame (m m' : Mem) (s : Slot) : Prop where
  root : m'.root = m.root
  objs : ∀ r : Ref, (m'.objs[r]?).map (fun o => (o.id, o.parent)) = (m.objs[r]?).map (fun o => (o.id, o.parent))
  slots : ∀ s', s' ≠ s → m'.slot s' = m.slot s'
  cells : ∀ s' p, s' ≠ s → m.slot s' = some p → m'.cells[p]? = m.cells[p]?
  slices : ∀ r d, (.data r : Slot) ≠ s → m.slot (.data r) = some d → ∀ e ∈ dataOf m.cells d, ∀ q, e.2 = some q → m'.cells[q]? = m.cells[q]?

namespace Frame
variable {m m' : Mem} {s : Slot}

theorem refs (h : Frame m m' s) (f : Field) (hs : .field f ≠ s) :
    readRefs m'.cells (m'.slot (.field f)) = readRefs m.cells (m.slot (.field f)) := by
  rw [h.slots _ hs]
  exact readRefs_congr fun q hq => h.cells _ q hs hq

theorem strs (h : Frame m m' s) (r : Ref) (hs : .anno r ≠ s) : readStrs m'.cells (m'.slot (.anno r)) = readStrs m.cells (m.slot (.anno r)) := by
  rw [h.slots _ hs]
  exact readStrs_congr fun q hq => h.cells _ q hs hq

theorem datas (h : Frame m m' s) (r : Ref) (hs : .data r ≠ s) : readData m'.cells (m'.slot (.data r)) = readData m.cells (m.slot (.data r)) := by
  rw [h.slots _ hs]
  exact readData_congr (fun q hq => h.cells _ q hs hq) fun d hd e he q hq => h.slices r d hs hd e he q hq

/-- A node that the place does not belong to looks the same. -/
theorem look (h : Frame m m' s) (r : Ref) (h1 : .field (.children r) ≠ s) (h2 : .anno r ≠ s) (h3 : .data r ≠ s) : look m' r = look m r := by
  have hb := h.objs r
  simp only [Alias.look, h.refs _ h1, h.strs _ h2, h.datas _ h3]
  cases ho : m.objs[r]? with
  | none => simp only [ho, Option.map_none, Option.map_eq_none_iff] at hb; simp [hb]
  | some o =>
    rw [ho] at hb
    cases ho' : m'.objs[r]? with
    | none => simp [ho'] at hb
    | some o' =>
      simp only [ho', Option.map_some, Option.some.injEq, Prod.mk.injEq] at hb
      simp [hb.1, hb.2]

/-- The map of children of a node. -/
theorem view_children (h : Frame m m' s) {r : Ref} (hs : s = .field (.children r)) {g : GoMap Ref → GoMap Ref}
    (hg : ∀ o, m.objs[r]? = some o → readRefs m'.cells (m'.slot s) = g (readRefs m.cells (m.slot s))) :
    m'.view = { m.view with heap := m.view.heap.modify r fun o => { o with children := g o.children } } := by
  subst hs
  refine view_ext h.root (h.refs _ (by simp)) (h.refs _ (by simp)) (h.refs _ (by simp)) fun x => ?_
  simp only [List.getElem?_modify, view_look]
  by_cases hx : r = x
  · subst hx
    have hb := h.objs r
    simp only [Alias.look, h.strs r (by simp), h.datas r (by simp), if_true]
    cases ho : m.objs[r]? with
    | none => simp only [ho, Option.map_none, Option.map_eq_none_iff] at hb; simp [hb]
    | some o =>
      rw [ho] at hb
      cases ho' : m'.objs[r]? with
      | none => simp [ho'] at hb
      | some o' =>
        simp only [ho', Option.map_some, Option.some.injEq, Prod.mk.injEq] at hb
        simp [hb.1, hb.2, hg o ho]
  · simp only [hx, if_false]
    exact (h.look x (by simpa using Ne.symm hx) (by simp) (by simp)).trans (by cases Alias.look m x <;> rfl)

/-- The annotations of a node. -/
theorem view_anno (h : Frame m m' s) {r : Ref} (hs : s = .anno r) {g : GoMap Str → GoMap Str}
    (hg : readStrs m'.cells (m'.slot s) = g (readStrs m.cells (m.slot s))) :
    m'.view = { m.view with heap := m.view.heap.modify r fun o => { o with annotations := g o.annotations } } := by
  subst hs
  refine view_ext h.root (h.refs _ (by simp)) (h.refs _ (by simp)) (h.refs _ (by simp)) fun x => ?_
  simp only [List.getElem?_modify, view_look]
  by_cases hx : r = x
  · subst hx
    have hb := h.objs r
    simp only [Alias.look, h.refs (.children r) (by simp), h.datas r (by simp), if_true]
    cases ho : m.objs[r]? with
    | none => simp only [ho, Option.map_none, Option.map_eq_none_iff] at hb; simp [hb]
    | some o =>
      rw [ho] at hb
      cases ho' : m'.objs[r]? with
      | none => simp [ho'] at hb
      | some o' =>
        simp only [ho', Option.map_some, Option.some.injEq, Prod.mk.injEq] at hb
        simp [hb.1, hb.2, hg]
  · simp only [hx, if_false]
    exact (h.look x (by simp) (by simpa using Ne.symm hx) (by simp)).trans (by cases Alias.look m x <;> rfl)

/-- The data of a node. -/
theorem view_data (h : Frame m m' s) {r : Ref} (hs : s = .data r) {g : GoMap (Option Str) → GoMap (Option Str)}
    (hg : readData m'.cells (m'.slot s) = g (readData m.cells (m.slot s))) :
    m'.view = { m.view with heap := m.view.heap.modify r fun o => { o with data := g o.data } } := by
  subst hs
  refine view_ext h.root (h.refs _ (by simp)) (h.refs _ (by simp)) (h.refs _ (by simp)) fun x => ?_
  simp only [List.getElem?_modify, view_look]
  by_cases hx : r = x
  · subst hx
    have hb := h.objs r
    simp only [Alias.look, h.refs (.children r) (by simp), h.strs r (by simp), if_true]
    cases ho : m.objs[r]? with
    | none => simp only [ho, Option.map_none, Option.map_eq_none_iff] at hb; simp [hb]
    | some o =>
      rw [ho] at hb
      cases ho' : m'.objs[r]? with
      | none => simp [ho'] at hb
      | some o' =>
        simp only [ho', Option.map_some, Option.some.injEq, Prod.mk.injEq] at hb
        simp [hb.1, hb.2, hg]
  · simp only [hx, if_false]
    exact (h.look x (by simp) (by simp) (by simpa using Ne.symm hx)).trans (by cases Alias.look m x <;> rfl)

end Frame

/-- Change one of the maps of nodes. -/
def onField (t : TS) (f : Field) (g : GoMap Ref → GoMap Ref) : TS :=
  match f with
  | .nodes => { t with tree := { t.tree with nodes := g t.tree.nodes } }
  | .branches => { t with tree := { t.tree with branches := g t.tree.branches } }
  | .tags => { t with tree := { t.tree with tags := g t.tree.tags } }
  | .children r => { t with heap := t.heap.modify r fun o => { o with children := g o.children } }

theorem Frame.view_field {m m' : Mem} {f : Field} (h : Frame m m' (.field f)) {g : GoMap Ref → GoMap Ref}
    (hg : (∀ r, f = .children r → ∃ o, m.objs[r]? = some o) → readRefs m'.cells (m'.slot (.field f)) = g (readRefs m.cells (m.slot (.field f)))) :
    m'.view = onField m.view f g := by
  cases f with
  | children r =>
    exact h.view_children rfl fun o ho => hg fun x hx => ⟨o, by cases hx; exact ho⟩
  | nodes =>
    refine view_ext h.root (hg fun _ hx => by cases hx) (h.refs _ (by simp)) (h.refs _ (by simp)) fun x => ?_
    exact (h.look x (by simp) (by simp) (by simp)).trans (view_look m x).symm
  | branches =>
    refine view_ext h.root (h.refs _ (by simp)) (hg fun _ hx => by cases hx) (h.refs _ (by simp)) fun x => ?_
    exact (h.look x (by simp) (by simp) (by simp)).trans (view_look m x).symm
  | tags =>
    refine view_ext h.root (h.refs _ (by simp)) (h.refs _ (by simp)) (hg fun _ hx => by cases hx) fun x => ?_
    exact (h.look x (by simp) (by simp) (by simp)).trans (view_look m x).symm

theorem frame_store {m : Mem} (h : Sep m) {s : Slot} {p : Nat} (hs : m.slot s = some p) (c : Cell) : Frame m (m.store p c) s where
  root := rfl
  objs _ := rfl
  slots s' _ := slot_store m p c s'
  cells s' q hne hq := by
    have : p ≠ q := fun e => hne (h.one hq (e ▸ hs))
    simp [Mem.store, this]
  slices r d hne hd e he q hq := by
    have : p ≠ q := fun e' => hne (h.slice hd he hq (e' ▸ hs)).symm
    simp [Mem.store, this]

/-- More memory, and one place has another map. -/
theorem frame_longer {m m1 m' : Mem} {K : Nat → Prop} (ha : Apart m K) (hl : Longer m m1) {s : Slot} (hc : m'.cells = m1.cells) (hr : m'.root = m.root)
    (ho : ∀ r : Ref, (m'.objs[r]?).map (fun o => (o.id, o.parent)) = (m.objs[r]?).map (fun o => (o.id, o.parent)))
    (hs : ∀ s', s' ≠ s → m'.slot s' = m.slot s') : Frame m m' s where
  root := hr
  objs := ho
  slots := hs
  cells _ q _ hq := by rw [hc]; exact hl.old q (ha.owned q (owned_slot hq))
  slices _ _ _ hd _ he q hq := by rw [hc]; exact hl.old q (ha.owned q (owned_slice hd he hq))

theorem objs_setObj {m : Mem} {r : Ref} {o o' : Obj} (ho : m.objs[r]? = some o) (h1 : o'.id = o.id) (h2 : o'.parent = o.parent) (x : Ref) :
    ((m.setObj r o').objs[x]?).map (fun o => (o.id, o.parent)) = (m.objs[x]?).map (fun o => (o.id, o.parent)) := by
  rw [objs_set ho]
  by_cases hx : r = x
  · subst hx; simp [ho, h1, h2]
  · simp [hx]

theorem objs_setField (m : Mem) (p : Option Nat) (f : Field) (x : Ref) :
    ((m.setField p f).objs[x]?).map (fun o => (o.id, o.parent)) = (m.objs[x]?).map (fun o => (o.id, o.parent)) := by
  cases f with
  | children r =>
    simp only [Mem.setField]
    cases ho : m.objs[r]? with
    | none => rfl
    | some o => exact objs_setObj (o' := { o with children := p }) ho rfl rfl x
  | _ => rfl

theorem root_setField (m : Mem) (p : Option Nat) (f : Field) : (m.setField p f).root = m.root := by
  cases f with
  | children r => simp only [Mem.setField]; split <;> rfl
  | _ => rfl

/-- Every write into a map of nodes changes this map and nothing else. -/
theorem view_assign {m : Mem} {K : Nat → Prop} (h : Sep m) (ha : Apart m K) (f : Field) (k : Str) (r : Ref) :
    (m.assign f k r).view = onField m.view f (fun x => some (AL.put x.entries k r)) := by
  simp only [Mem.assign]
  cases hf : m.field f with
  | none =>
    have hf' : m.slot (.field f) = none := hf
    show ((m.alloc (.refs [(k, r)])).2.setField (some m.cells.length) f).view = _
    refine (frame_longer ha (longer_alloc m (.refs [(k, r)])) (setField_cells _ _ _) (root_setField _ _ _) (objs_setField _ _ _)
      fun s hs => (slot_setField _ _ _ _ hs).trans (slot_alloc _ _ _)).view_field fun hex => ?_
    rcases slot_setField_self (m.alloc (.refs [(k, r)])).2 m.cells.length f with h1 | ⟨x, hx, h1, _⟩
    · rw [h1, setField_cells, hf']
      simp [readRefs, Mem.alloc, AL.put]
    · obtain ⟨o, ho⟩ := hex x hx
      exact absurd (ho.symm.trans h1) (by simp)
  | some p =>
    have hf' : m.slot (.field f) = some p := hf
    have hlt : p < m.cells.length := ha.owned p (owned_slot hf')
    refine (frame_store h hf' _).view_field fun _ => ?_
    rw [slot_store, hf']
    simp [readRefs, Mem.store, hlt]

theorem view_delete {m : Mem} {K : Nat → Prop} (h : Sep m) (ha : Apart m K) (f : Field) (k : Str) :
    (m.delete f k).view = onField m.view f (fun x => x.delete k) := by
  simp only [Mem.delete]
  cases hf : m.field f with
  | none =>
    have hf' : m.slot (.field f) = none := hf
    refine (frame_longer (m' := m) (s := .field f) ha (Longer.refl m) rfl rfl (fun _ => rfl) (fun _ _ => rfl)).view_field fun _ => ?_
    rw [hf']; rfl
  | some p =>
    have hf' : m.slot (.field f) = some p := hf
    have hlt : p < m.cells.length := ha.owned p (owned_slot hf')
    refine (frame_store h hf' _).view_field fun _ => ?_
    rw [slot_store, hf']
    simp only [readRefs, Mem.store, List.getElem?_set_self hlt]
    split <;> rfl

theorem view_setAnno {m : Mem} {r : Ref} {o : Obj} (ho : m.objs[r]? = some o) (p : Option Nat) :
    (m.setAnnotations r p).view = { m.view with heap := m.view.heap.modify r fun n => { n with annotations := readStrs m.cells p } } := by
  simp only [Mem.setAnnotations, ho]
  have hF : Frame m (m.setObj r { o with annotations := p }) (.anno r) :=
    ⟨rfl, objs_setObj (o' := { o with annotations := p }) ho rfl rfl,
      fun s hs => slot_setObj (o' := { o with annotations := p }) ho s (fun _ => rfl) (fun h => absurd h hs) (fun _ => rfl),
      fun _ _ _ _ => rfl, fun _ _ _ _ _ _ _ _ => rfl⟩
  refine hF.view_anno (g := fun _ => readStrs m.cells p) rfl ?_
  simp only [Mem.slot, objs_set ho, if_true, Option.bind_some]; rfl

theorem view_setDat {m : Mem} {r : Ref} {o : Obj} (ho : m.objs[r]? = some o) (p : Option Nat) :
    (m.setData r p).view = { m.view with heap := m.view.heap.modify r fun n => { n with data := readData m.cells p } } := by
  simp only [Mem.setData, ho]
  have hF : Frame m (m.setObj r { o with data := p }) (.data r) :=
    ⟨rfl, objs_setObj (o' := { o with data := p }) ho rfl rfl,
      fun s hs => slot_setObj (o' := { o with data := p }) ho s (fun _ => rfl) (fun _ => rfl) (fun h => absurd h hs),
      fun _ _ _ _ => rfl, fun _ _ _ _ _ _ _ _ => rfl⟩
  refine hF.view_data (g := fun _ => readData m.cells p) rfl ?_
  simp only [Mem.slot, objs_set ho, if_true, Option.bind_some]; rfl

theorem view_addAnno {m : Mem} {K : Nat → Prop} (h : Sep m) (ha : Apart m K) {r : Ref} {o : Obj} (ho : m.objs[r]? = some o) (k v : Str) :
    (m.addAnnotation r k v).view =
      { m.view with heap := m.view.heap.modify r fun n => { n with annotations := some (AL.put n.annotations.entries k v) } } := by
  simp only [Mem.addAnnotation, ho]
  cases hn : o.annotations with
  | none =>
    have ho1 : (m.alloc (.strs [(k, v)])).2.objs[r]? = some o := ho
    have hF : Frame m ((m.alloc (.strs [(k, v)])).2.setObj r { o with annotations := some m.cells.length }) (.anno r) :=
      frame_longer ha (longer_alloc m (.strs [(k, v)])) rfl rfl (objs_setObj (o' := { o with annotations := some m.cells.length }) ho1 rfl rfl)
        fun s hs => (slot_setObj (o' := { o with annotations := some m.cells.length }) ho1 s (fun _ => rfl)
          (fun h => absurd h hs) (fun _ => rfl)).trans (slot_alloc _ _ _)
    refine hF.view_anno (g := fun x => some (AL.put x.entries k v)) rfl ?_
    rw [(slot_anno ho).trans hn]
    simp only [Mem.slot, objs_set ho1, if_true, Option.bind_some]
    simp [readStrs, Mem.alloc, AL.put, Mem.setObj]
  | some p =>
    have hs : m.slot (.anno r) = some p := (slot_anno ho).trans hn
    have hlt : p < m.cells.length := ha.owned p (owned_slot hs)
    refine (frame_store h hs _).view_anno (g := fun x => some (AL.put x.entries k v)) rfl ?_
    rw [slot_store, hs]
    simp [readStrs, Mem.store, hlt]

theorem put_map {α β : Type} (f : Str × α → Str × β) (hf : ∀ e, (f e).1 = e.1) (l : List (Str × α)) (k : Str) (v : α) :
    (AL.put l k v).map f = AL.put (l.map f) k (f (k, v)).2 := by
  induction l with
  | nil => simp only [AL.put, List.map_cons, List.map_nil]; congr 1; exact Prod.ext (hf _) rfl
  | cons x l ih =>
    obtain ⟨x1, x2⟩ := x
    have h1 : f (x1, x2) = (x1, (f (x1, x2)).2) := Prod.ext (hf _) rfl
    rw [List.map_cons, h1]
    simp only [AL.put]
    split
    · simp only [List.map_cons]; congr 1; exact Prod.ext (hf _) rfl
    · rw [List.map_cons, ih, h1]

theorem copyBytes_reads (m : Mem) (v : Option Nat) : readBytes (m.copyBytes v).2.cells (m.copyBytes v).1 = readBytes m.cells v := by
  cases v with
  | none => rfl
  | some q => simp only [Mem.copyBytes, Mem.alloc, readBytes]; simp; split <;> rfl

theorem view_addDat {m : Mem} {K : Nat → Prop} (h : Sep m) (ha : Apart m K) {r : Ref} {o : Obj} (ho : m.objs[r]? = some o) (k : Str) (v : Option Nat) :
    (m.addData r k v).view =
      { m.view with heap := m.view.heap.modify r fun n => { n with data := some (AL.put n.data.entries k (readBytes m.cells v)) } } := by
  simp only [Mem.addData, ho]
  have hl := longer_copyBytes m v
  have hs1 : ∀ s, (m.copyBytes v).2.slot s = m.slot s := slot_congr hl.objs hl.nodes hl.branches hl.tags
  have ho1 : (m.copyBytes v).2.objs[r]? = some o := by rw [hl.objs]; exact ho
  cases hn : o.data with
  | none =>
    have ho2 : ((m.copyBytes v).2.alloc (.datas [(k, (m.copyBytes v).1)])).2.objs[r]? = some o := ho1
    have hob := objs_setObj (o' := { o with data := some (m.copyBytes v).2.cells.length }) ho2 rfl rfl
    have hF : Frame m (((m.copyBytes v).2.alloc (.datas [(k, (m.copyBytes v).1)])).2.setObj r { o with data := some (m.copyBytes v).2.cells.length })
        (.data r) :=
      frame_longer ha (hl.trans (longer_alloc _ (.datas [(k, (m.copyBytes v).1)]))) rfl hl.root
        (fun x => (hob x).trans (by show ((m.copyBytes v).2.objs[x]?).map _ = _; rw [hl.objs]))
        fun s hs => (slot_setObj (o' := { o with data := some (m.copyBytes v).2.cells.length }) ho2 s (fun _ => rfl) (fun _ => rfl)
          (fun h => absurd h hs)).trans ((slot_alloc _ _ _).trans (hs1 s))
    refine hF.view_data (g := fun x => some (AL.put x.entries k (readBytes m.cells v))) rfl ?_
    · rw [(slot_data ho).trans hn]
      simp only [Mem.slot, objs_set ho2, if_true, Option.bind_some]
      have hd : dataOf ((m.copyBytes v).2.alloc (.datas [(k, (m.copyBytes v).1)])).2.cells (m.copyBytes v).2.cells.length = [(k, (m.copyBytes v).1)] := by
        simp [dataOf, Mem.alloc]
      show readData ((m.copyBytes v).2.alloc (.datas [(k, (m.copyBytes v).1)])).2.cells (some (m.copyBytes v).2.cells.length) = _
      simp only [readData, hd, List.map_cons, List.map_nil, GoMap.entries_none, AL.put]
      rw [readBytes_congr (c := (m.copyBytes v).2.cells), copyBytes_reads]
      intro q hq
      have := copyBytes_new m v hq
      refine (longer_alloc _ _).old q ?_
      rw [this.1, this.2]; simp
  | some p =>
    have hs : m.slot (.data r) = some p := (slot_data ho).trans hn
    have hlt : p < m.cells.length := ha.owned p (owned_slot hs)
    have hlt1 : p < (m.copyBytes v).2.cells.length := Nat.lt_of_lt_of_le hlt hl.len
    have h1 : Sep (m.copyBytes v).2 := h.longer ha hl
    have hp1 : (m.copyBytes v).2.slot (.data r) = some p := (hs1 _).trans hs
    have hf := frame_store h1 hp1 (.datas (AL.put (dataOf (m.copyBytes v).2.cells p) k (m.copyBytes v).1))
    have hv1 : (m.copyBytes v).2.view = m.view := view_congr hl.objs hl.root hl.nodes hl.branches hl.tags fun q hq => hl.old q (ha.owned q hq)
    rw [← hv1]
    refine hf.view_data (g := fun x => some (AL.put x.entries k (readBytes m.cells v))) rfl ?_
    rw [slot_store, hp1]
    simp only [readData, dataOf_store_self hlt1, GoMap.entries_some]
    have hb : ∀ v', (v' = (m.copyBytes v).1 ∨ ∃ e ∈ dataOf (m.copyBytes v).2.cells p, e.2 = v') →
        readBytes ((m.copyBytes v).2.store p (.datas (AL.put (dataOf (m.copyBytes v).2.cells p) k (m.copyBytes v).1))).cells v' =
          readBytes (m.copyBytes v).2.cells v' := by
      intro v' hv'
      cases v' with
      | none => rfl
      | some q =>
        by_cases hq : p = q
        · subst hq
          have hin : ∃ e ∈ dataOf (m.copyBytes v).2.cells p, e.2 = some p := by
            rcases hv' with hv' | hv'
            · exact absurd (copyBytes_new m v hv'.symm).1 (Nat.ne_of_lt hlt)
            · exact hv'
          obtain ⟨e, he, _⟩ := hin
          have hc : ∃ l, (m.copyBytes v).2.cells[p]? = some (.datas l) := by
            simp only [dataOf] at he
            split at he
            · exact ⟨_, by assumption⟩
            · cases he
          obtain ⟨l, hc⟩ := hc
          have hc' : ((m.copyBytes v).2.store p (.datas (AL.put (dataOf (m.copyBytes v).2.cells p) k (m.copyBytes v).1))).cells[p]? =
              some (.datas (AL.put (dataOf (m.copyBytes v).2.cells p) k (m.copyBytes v).1)) := by simp [Mem.store, hlt1]
          simp only [readBytes, hc, hc']
        · simp [readBytes, Mem.store, hq]
    have hmap : (AL.put (dataOf (m.copyBytes v).2.cells p) k (m.copyBytes v).1).map
          (fun e => (e.1, readBytes ((m.copyBytes v).2.store p (.datas (AL.put (dataOf (m.copyBytes v).2.cells p) k (m.copyBytes v).1))).cells e.2)) =
        (AL.put (dataOf (m.copyBytes v).2.cells p) k (m.copyBytes v).1).map (fun e => (e.1, readBytes (m.copyBytes v).2.cells e.2)) := by
      refine List.map_congr_left fun e he => ?_
      rw [hb e.2]
      rcases al_put_mem he with h6 | h6
      · exact Or.inr ⟨e, h6, rfl⟩
      · exact Or.inl h6
    rw [hmap, put_map (fun e => (e.1, readBytes (m.copyBytes v).2.cells e.2)) (fun _ => rfl), copyBytes_reads]


/-! ### The methods -/

/-- The result of a method on shared memory is the result `y` of the model with values, and the memory has come about by calls. -/
def Refines {ε : Type} (K : Nat → Prop) (x : Res ε Mem) (y : Res ε TS) : Prop :=
  match x with
  | .ok m => y = .ok m.view ∧ Run m K
  | .err e => y = .err e
  | .panic => y = .panic
  | .diverge => y = .diverge

theorem heap_len (m : Mem) : m.view.heap.length = m.objs.length := by simp [Mem.view]

theorem heap_some {m : Mem} {r : Ref} {o : Obj} (h : m.objs[r]? = some o) :
    m.view.heap[r]? = some ⟨o.id, o.parent, readRefs m.cells o.children, readStrs m.cells o.annotations, readData m.cells o.data⟩ := by
  simp [Mem.view, h]

theorem heap_none {m : Mem} {r : Ref} (h : m.objs[r]? = none) : m.view.heap[r]? = none := by
  simp [Mem.view, h]

theorem modify_set {l : List NodeObj} {r : Ref} {o : NodeObj} (h : l[r]? = some o) (f : NodeObj → NodeObj) : l.modify r f = l.set r (f o) := by
  have hlt : r < l.length := (List.getElem?_eq_some_iff.1 h).1
  refine List.ext_getElem? fun x => ?_
  rw [List.getElem?_modify, List.getElem?_set]
  by_cases hx : r = x
  · subst hx; simp only [if_true, h, hlt]; rfl
  · simp only [hx, if_false]; cases l[x]? <;> rfl

/-- A method of a node, against the model with values. -/
theorem modify_view {m m' : Mem} {r : Ref} {o : Obj} (ho : m.objs[r]? = some o) {f : NodeObj → NodeObj}
    (h : m'.view = { m.view with heap := m.view.heap.modify r f }) : m.view.modify r f = some m'.view := by
  rw [h, TS.modify, heap_some ho]
  simp only [modify_set (heap_some ho)]

/-- **C99**: `NewNode`. -/
theorem C99_new_node (m : Mem) (id : UID) : (m.view.newNode id).2 = (m.newNode id).view := by
  simp [TS.newNode, Mem.newNode, Mem.view, readRefs, readStrs, readData]

/-- **C99**: `SetParent`. -/
theorem C99_set_parent {m : Mem} {r : Ref} {o : Obj} (ho : m.objs[r]? = some o) (p : Option Ref) :
    m.view.setParent r p = some (m.setParent r p).view := by
  refine modify_view ho ?_
  simp only [Mem.setParent, ho, Mem.view, Mem.setObj]
  congr 1
  refine List.ext_getElem? fun x => ?_
  have hlt : r < m.objs.length := (List.getElem?_eq_some_iff.1 ho).1
  rw [List.getElem?_modify, List.getElem?_map, List.getElem?_map, List.getElem?_set]
  by_cases hx : r = x
  · subst hx; simp only [if_true, ho, hlt]; rfl
  · simp only [hx, if_false]; cases m.objs[x]? <;> rfl

/-- **C99**: `AddAnnotation`. -/
theorem C99_add_annotation {m : Mem} {K : Nat → Prop} (h : Run m K) {r : Ref} {o : Obj} (ho : m.objs[r]? = some o) (k v : Str) :
    m.view.addAnnotation r k v = some (m.addAnnotation r k v).view :=
  modify_view ho (view_addAnno (sep_run h) (apart_run h) ho k v)

/-- **C99**: `SetAnnotations` with the map `p`. -/
theorem C99_set_annotations {m : Mem} {r : Ref} {o : Obj} (ho : m.objs[r]? = some o) (p : Option Nat) :
    m.view.setAnnotations r (readStrs m.cells p) = some (m.setAnnotations r p).view :=
  modify_view ho (view_setAnno ho p)

/-- **C99**: `AddData` with the slice `v`. -/
theorem C99_add_data {m : Mem} {K : Nat → Prop} (h : Run m K) {r : Ref} {o : Obj} (ho : m.objs[r]? = some o) (k : Str) (v : Option Nat) :
    m.view.addData r k (readBytes m.cells v) = some (m.addData r k v).view :=
  modify_view ho (view_addDat (sep_run h) (apart_run h) ho k v)

/-- **C99**: `SetData` with the map `p`. -/
theorem C99_set_data {m : Mem} {r : Ref} {o : Obj} (ho : m.objs[r]? = some o) (p : Option Nat) :
    m.view.setData r (readData m.cells p) = some (m.setData r p).view :=
  modify_view ho (view_setDat ho p)

/-- **C99**: `AddChild`. -/
theorem C99_add_child {m : Mem} {K : Nat → Prop} (h : Run m K) (p c : Ref) :
    m.view.addChild p c = (m.addChild p c).map fun x => (x.1.view, x.2) := by
  simp only [TS.addChild, Mem.addChild]
  cases hp : m.objs[p]? with
  | none => simp [heap_none hp]
  | some po =>
    cases hc : m.objs[c]? with
    | none => simp [heap_none hc, heap_some hp]
    | some co =>
      simp only [heap_some hp, heap_some hc]
      cases hg : (readRefs m.cells po.children).get co.id.hex with
      | some _ => rfl
      | none =>
        simp only [GoMap.ensure, GoMap.assign, Option.map_some, view_assign (sep_run h) (apart_run h), onField, modify_set (heap_some hp)]

theorem addChild_run {m m' : Mem} {K : Nat → Prop} (h : Run m K) {p c : Ref} {b : Bool} (ha : m.addChild p c = some (m', b)) : Run m' K := by
  simp only [Mem.addChild] at ha
  split at ha
  · split at ha
    · cases ha; exact h
    · cases ha; exact .call h (.assign _ _ _)
  · cases ha

/-- **C99**: `DeleteChild`. -/
theorem C99_delete_child {m : Mem} {K : Nat → Prop} (h : Run m K) (p : Ref) (u : UID) :
    m.view.deleteChild p u = (m.deleteChild p u).map fun x => (x.1.view, x.2) := by
  simp only [TS.deleteChild, Mem.deleteChild]
  cases hp : m.objs[p]? with
  | none => simp [heap_none hp]
  | some po =>
    simp only [heap_some hp]
    cases hg : (readRefs m.cells po.children).get u.hex with
    | none => rfl
    | some _ => simp only [Option.map_some, view_delete (sep_run h) (apart_run h), onField, modify_set (heap_some hp)]

/-- **C99**: `AddTag`. -/
theorem C99_add_tag {m : Mem} {K : Nat → Prop} (h : Run m K) (name : Str) (id : UID) : Refines K (m.addTag name id) (m.view.addTag name id) := by
  simp only [TS.addTag, Mem.addTag]
  have hg : m.view.tree.nodes = readRefs m.cells m.nodes := rfl
  rw [hg]
  cases (readRefs m.cells m.nodes).get id.hex with
  | none => exact rfl
  | some r =>
    refine ⟨?_, .call h (.assign _ _ _)⟩
    rw [view_assign (sep_run h) (apart_run h)]; rfl

/-- **C99**: `DeleteTag`. -/
theorem C99_delete_tag {m : Mem} {K : Nat → Prop} (h : Run m K) (name : Str) :
    m.view.deleteTag name = ((m.deleteTag name).1.view, (m.deleteTag name).2) ∧ Run (m.deleteTag name).1 K := by
  simp only [TS.deleteTag, Mem.deleteTag]
  have hg : m.view.tree.tags = readRefs m.cells m.tags := rfl
  rw [hg]
  cases (readRefs m.cells m.tags).get name with
  | none => exact ⟨rfl, h⟩
  | some r =>
    refine ⟨?_, .call h (.delete _ _)⟩
    rw [view_delete (sep_run h) (apart_run h)]; rfl

/-- **C99**: `AddBranch`. -/
theorem C99_add_branch {m : Mem} {K : Nat → Prop} (h : Run m K) (name : Str) (id : UID) :
    Refines K (m.addBranch name id) (m.view.addBranch name id) := by
  simp only [TS.addBranch, Mem.addBranch]
  have hg : m.view.tree.nodes = readRefs m.cells m.nodes := rfl
  rw [hg]
  cases (readRefs m.cells m.nodes).get id.hex with
  | none => exact rfl
  | some r =>
    refine ⟨?_, .call h (.assign _ _ _)⟩
    rw [view_assign (sep_run h) (apart_run h)]; rfl

/-- **C99**: `DeleteBranch`. -/
theorem C99_delete_branch {m : Mem} {K : Nat → Prop} (h : Run m K) (name : Str) :
    m.view.deleteBranch name = ((m.deleteBranch name).1.view, (m.deleteBranch name).2) ∧ Run (m.deleteBranch name).1 K := by
  simp only [TS.deleteBranch, Mem.deleteBranch]
  have hg : m.view.tree.branches = readRefs m.cells m.branches := rfl
  rw [hg]
  cases (readRefs m.cells m.branches).get name with
  | none => exact ⟨rfl, h⟩
  | some r =>
    refine ⟨?_, .call h (.delete _ _)⟩
    rw [view_delete (sep_run h) (apart_run h)]; rfl

theorem connected_view {ε : Type} (m : Mem) (head : Str) : ∀ (n : Nat) (cur : Option Ref),
    TS.connected (ε := ε) m.view.heap head n cur = m.connected head n cur
  | _, none => by rw [TS.connected, Mem.connected]
  | 0, some _ => by rw [TS.connected, Mem.connected]
  | n + 1, some cur => by
    rw [TS.connected, Mem.connected]
    cases ho : m.objs[cur]? with
    | none => simp only [heap_none ho]
    | some o => simp only [heap_some ho, connected_view m head n]

/-- **C99**: `UpdateBranch`. -/
theorem C99_update_branch {m : Mem} {K : Nat → Prop} (h : Run m K) (name : Str) (id : UID) (force : Bool) :
    Refines K (m.updateBranch name id force) (m.view.updateBranch name id force) := by
  simp only [TS.updateBranch, Mem.updateBranch]
  have hg : m.view.tree.nodes = readRefs m.cells m.nodes := rfl
  have hb : m.view.tree.branches = readRefs m.cells m.branches := rfl
  rw [hg]
  cases (readRefs m.cells m.nodes).get id.hex with
  | none => exact rfl
  | some node =>
    simp only []
    rw [hb]
    cases hgb : (readRefs m.cells m.branches).get name with
    | none => exact rfl
    | some head =>
      simp only []
      cases hh : m.objs[head]? with
      | none => simp only [heap_none hh]; exact rfl
      | some ho =>
        cases hn : m.objs[node]? with
        | none => simp only [heap_none hn, heap_some hh]; exact rfl
        | some no =>
          simp only [heap_some hh, heap_some hn]
          have hbr : ∃ l, readRefs m.cells m.branches = some l := by
            cases hx : readRefs m.cells m.branches with
            | none => rw [hx] at hgb; cases hgb
            | some l => exact ⟨l, rfl⟩
          obtain ⟨l, hl⟩ := hbr
          have hset : (m.assign .branches name node).view =
              { m.view with tree := { m.view.tree with branches := some (AL.put l name node) } } := by
            rw [view_assign (sep_run h) (apart_run h)]
            simp only [onField, hb, hl, GoMap.entries_some]
          have hrun : Run (m.assign .branches name node) K := .call h (.assign _ _ _)
          rw [hl]
          simp only [GoMap.assign]
          split
          · exact ⟨rfl, h⟩
          · cases force with
            | true => exact ⟨by rw [hset]; rfl, hrun⟩
            | false =>
              simp only [Bool.false_eq_true, if_false]
              have hw : m.view.walkFuel = (readRefs m.cells m.nodes).size + m.objs.length + 1 := by simp only [TS.walkFuel, heap_len, hg]
              rw [hw, connected_view]
              cases m.connected (ε := TreeErr) ho.id.hex ((readRefs m.cells m.nodes).size + m.objs.length + 1) (some node) with
              | ok c =>
                cases c with
                | true => exact ⟨by rw [hset]; rfl, hrun⟩
                | false => exact rfl
              | err e => exact rfl
              | panic => exact rfl
              | diverge => exact rfl

theorem indexLoop_view {ε : Type} : ∀ (n : Nat) (roots : List Ref) (m : Mem) {K : Nat → Prop}, Run m K →
    match Mem.indexLoop (ε := ε) n roots m with
    | .ok m' => TS.indexLoop (ε := ε) m.view.heap n roots m.view.tree.nodes.entries = .ok m'.view.tree.nodes.entries ∧ Run m' K ∧
        m'.view = { m.view with tree := { m.view.tree with nodes := m'.view.tree.nodes } } ∧
        ((roots ≠ [] ∨ m.view.tree.nodes.isSome) → m'.view.tree.nodes.isSome)
    | .err e => TS.indexLoop (ε := ε) m.view.heap n roots m.view.tree.nodes.entries = .err e
    | .panic => TS.indexLoop (ε := ε) m.view.heap n roots m.view.tree.nodes.entries = .panic
    | .diverge => TS.indexLoop (ε := ε) m.view.heap n roots m.view.tree.nodes.entries = .diverge
  | n, [], m, K, h => by
    rw [Mem.indexLoop, TS.indexLoop]
    exact ⟨rfl, h, rfl, fun hx => hx.elim (fun h => absurd rfl h) (fun h => h)⟩
  | 0, x :: roots, m, K, h => by rw [Mem.indexLoop, TS.indexLoop]
  | n + 1, item :: roots, m, K, h => by
    rw [Mem.indexLoop, TS.indexLoop]
    cases ho : m.objs[item]? with
    | none => simp only [heap_none ho]
    | some o =>
      simp only [heap_some ho]
      have hv := view_assign (sep_run h) (apart_run h) .nodes o.id.hex item
      have ih := indexLoop_view (ε := ε) n (roots ++ (readRefs m.cells o.children).entries.map Prod.snd) (m.assign .nodes o.id.hex item)
        (.call h (.assign _ _ _))
      rw [hv] at ih
      simp only [onField, GoMap.entries_some] at ih
      generalize Mem.indexLoop (ε := ε) n (roots ++ (readRefs m.cells o.children).entries.map Prod.snd) (m.assign .nodes o.id.hex item) = x at ih ⊢
      cases x with
      | ok m' =>
        obtain ⟨h1, h2, h3, h4⟩ := ih
        exact ⟨h1, h2, h3, fun _ => h4 (Or.inr rfl)⟩
      | err e => exact ih
      | panic => exact ih
      | diverge => exact ih

theorem updateIndexes_view {m : Mem} {K : Nat → Prop} (h : Run m K) (node : Ref) :
    Refines (ε := TreeErr) K (m.updateIndexes node) (m.view.updateIndexes node) := by
  have hx := indexLoop_view (ε := TreeErr) (m.objs.length + 1) [node] m h
  simp only [TS.updateIndexes, Mem.updateIndexes, GoMap.ensure, GoMap.entries_some, heap_len]
  generalize Mem.indexLoop (ε := TreeErr) (m.objs.length + 1) [node] m = x at hx ⊢
  cases x with
  | ok m' =>
    obtain ⟨h1, h2, h3, h4⟩ := hx
    refine ⟨?_, h2⟩
    rw [h1]
    have hs := h4 (Or.inl (by simp))
    obtain ⟨l, hl⟩ := Option.isSome_iff_exists.1 hs
    rw [h3, hl]; rfl
  | err e => simp only at hx; rw [hx]; rfl
  | panic => simp only at hx; rw [hx]; rfl
  | diverge => simp only at hx; rw [hx]; rfl

/-- **C99**: `AddNode`. -/
theorem C99_add_node {m : Mem} {K : Nat → Prop} (h : Run m K) (parentID : Option UID) (node : Ref) :
    Refines K (m.addNode parentID node) (m.view.addNode parentID node) := by
  cases parentID with
  | none =>
    simp only [TS.addNode, Mem.addNode]
    have hr : m.view.tree.root = m.root := rfl
    rw [hr]
    cases m.root with
    | some _ => exact rfl
    | none => exact updateIndexes_view (.call h (.setRoot _)) node
  | some pid =>
    simp only [TS.addNode, Mem.addNode]
    have hg : m.view.tree.nodes = readRefs m.cells m.nodes := rfl
    rw [hg]
    cases (readRefs m.cells m.nodes).get pid.hex with
    | none => exact rfl
    | some p =>
      simp only []
      rw [C99_add_child h]
      cases ha : m.addChild p node with
      | none => exact rfl
      | some x =>
        obtain ⟨m1, b⟩ := x
        have h1 : Run m1 K := addChild_run h ha
        simp only [Option.map_some]
        cases ho : m1.objs[node]? with
        | none => simp only [TS.setParent, TS.modify, heap_none ho]; exact rfl
        | some o =>
          rw [C99_set_parent ho]
          exact updateIndexes_view (.call h1 (.setParent _ _)) node

/-! ### Other nodes -/

/-- The user sees a change at the node `r` at most: all other nodes and the maps of the tree show what they showed. -/
def OnlyAt (r : Ref) (m m' : Mem) : Prop := m'.view.tree = m.view.tree ∧ ∀ x, x ≠ r → m'.view.heap[x]? = m.view.heap[x]?

theorem onlyAt_of_modify {m m' : Mem} {r : Ref} {f : NodeObj → NodeObj} (h : m.view.modify r f = some m'.view) : OnlyAt r m m' := by
  simp only [TS.modify] at h
  cases ho : m.view.heap[r]? with
  | none => rw [ho] at h; cases h
  | some o =>
    rw [ho] at h
    have h := Option.some.inj h
    constructor
    · rw [← h]
    · intro x hx
      rw [← h]
      simp [Ne.symm hx]

theorem onlyAt_refl (r : Ref) (m : Mem) : OnlyAt r m m := ⟨rfl, fun _ _ => rfl⟩

theorem onlyAt_missing {m m' : Mem} (r : Ref) (h : m' = m) : OnlyAt r m m' := h ▸ onlyAt_refl r m

/-- **C99**: whatever has been done before, a method of a node changes what this node shows and nothing else. -/
theorem C99_others {m : Mem} {K : Nat → Prop} (h : Run m K) (r : Ref) :
    (∀ k v, OnlyAt r m (m.addAnnotation r k v)) ∧ (∀ p, OnlyAt r m (m.setAnnotations r p)) ∧
    (∀ k v, OnlyAt r m (m.addData r k v)) ∧ (∀ p, OnlyAt r m (m.setData r p)) ∧
    (∀ p, OnlyAt r m (m.setParent r p)) ∧
    (∀ c m' b, m.addChild r c = some (m', b) → OnlyAt r m m') ∧
    (∀ u m' b, m.deleteChild r u = some (m', b) → OnlyAt r m m') := by
  have gone : m.objs[r]? = none → ∀ k v p d,
      m.addAnnotation r k v = m ∧ m.setAnnotations r p = m ∧ m.addData r k d = m ∧ m.setData r p = m ∧ ∀ q, m.setParent r q = m := by
    intro hn k v p d
    simp [Mem.addAnnotation, Mem.setAnnotations, Mem.addData, Mem.setData, Mem.setParent, hn]
  cases ho : m.objs[r]? with
  | none =>
    refine ⟨fun k v => ?_, fun p => ?_, fun k v => ?_, fun p => ?_, fun p => ?_, fun c m' b hc => ?_, fun u m' b hc => ?_⟩
    · exact onlyAt_missing r (gone ho k v none none).1
    · exact onlyAt_missing r (gone ho [] [] p none).2.1
    · exact onlyAt_missing r (gone ho k [] none v).2.2.1
    · exact onlyAt_missing r (gone ho [] [] p none).2.2.2.1
    · exact onlyAt_missing r ((gone ho [] [] none none).2.2.2.2 p)
    · simp [Mem.addChild, ho] at hc
    · simp [Mem.deleteChild, ho] at hc
  | some o =>
    refine ⟨fun k v => onlyAt_of_modify (C99_add_annotation h ho k v), fun p => onlyAt_of_modify (C99_set_annotations ho p),
      fun k v => onlyAt_of_modify (C99_add_data h ho k v), fun p => onlyAt_of_modify (C99_set_data ho p),
      fun p => onlyAt_of_modify (C99_set_parent ho p), fun c m' b hc => ?_, fun u m' b hc => ?_⟩
    · simp only [Mem.addChild, ho] at hc
      split at hc
      · split at hc
        · cases hc; exact onlyAt_refl r m
        · cases hc
          rename_i po co _ _ hp _ _ _
          refine onlyAt_of_modify (modify_view ho (view_assign (sep_run h) (apart_run h) (.children r) _ _))
      · cases hc
    · simp only [Mem.deleteChild, ho] at hc
      split at hc
      · cases hc; exact onlyAt_refl r m
      · cases hc
        exact onlyAt_of_modify (modify_view ho (view_delete (sep_run h) (apart_run h) (.children r) _))

/-- **C99**: and tags and branches change no node, nor each other. -/
theorem C99_names {m : Mem} {K : Nat → Prop} (h : Run m K) (name : Str) :
    (∀ id m', m.addTag name id = .ok m' → m'.view.heap = m.view.heap ∧ m'.view.tree.branches = m.view.tree.branches ∧
      m'.view.tree.nodes = m.view.tree.nodes) ∧
    (∀ id m', m.addBranch name id = .ok m' → m'.view.heap = m.view.heap ∧ m'.view.tree.tags = m.view.tree.tags ∧
      m'.view.tree.nodes = m.view.tree.nodes) ∧
    ((m.deleteTag name).1.view.heap = m.view.heap ∧ (m.deleteTag name).1.view.tree.branches = m.view.tree.branches ∧
      (m.deleteTag name).1.view.tree.nodes = m.view.tree.nodes) ∧
    ((m.deleteBranch name).1.view.heap = m.view.heap ∧ (m.deleteBranch name).1.view.tree.tags = m.view.tree.tags ∧
      (m.deleteBranch name).1.view.tree.nodes = m.view.tree.nodes) := by
  refine ⟨fun id m' hm => ?_, fun id m' hm => ?_, ?_, ?_⟩
  · simp only [Mem.addTag] at hm
    split at hm
    · cases hm
    · cases hm; rw [view_assign (sep_run h) (apart_run h)]; exact ⟨rfl, rfl, rfl⟩
  · simp only [Mem.addBranch] at hm
    split at hm
    · cases hm
    · cases hm; rw [view_assign (sep_run h) (apart_run h)]; exact ⟨rfl, rfl, rfl⟩
  · simp only [Mem.deleteTag]
    split
    · exact ⟨rfl, rfl, rfl⟩
    · simp only []; rw [view_delete (sep_run h) (apart_run h)]; exact ⟨rfl, rfl, rfl⟩
  · simp only [Mem.deleteBranch]
    split
    · exact ⟨rfl, rfl, rfl⟩
    · simp only []; rw [view_delete (sep_run h) (apart_run h)]; exact ⟨rfl, rfl, rfl⟩

/-! ### Examples -/

/-- Two nodes; the first has an annotation, the second has the map that the caller made. -/
def duo (u w : UID) : Mem :=
  ((((((⟨[], [], none, none, none, none⟩ : Mem).newNode u).newNode w).addAnnotation 0 (lit "who") (lit "me")).alloc (.strs [(lit "k", lit "v")])).2).setAnnotations
    1 (some 1)

theorem duo_run (u w : UID) : ∃ K, Run (duo u w) K := by
  refine ⟨_, .call (.own (.call (.call (.call .start (.newNode u)) (.newNode w)) (.addAnnotation 0 _ _)) (.alloc _ (fun l hl => by cases hl)))
    (.setAnnotations 1 1 ?_)⟩
  exact Or.inr ⟨by simp [Mem.addAnnotation, Mem.newNode, Mem.alloc, Mem.setObj], by simp [Mem.addAnnotation, Mem.newNode, Mem.alloc, Mem.setObj]⟩

/-- The hypotheses of `C99_others` are met, and there is something to see: the annotation of the first node changes, the second keeps its
own. -/
example (u w : UID) : ∃ K, Run (duo u w) K ∧
    ((duo u w).addAnnotation 0 (lit "k") (lit "x")).view.heap[0]? =
      some ⟨u, none, none, some [(lit "who", lit "me"), (lit "k", lit "x")], none⟩ ∧
    ((duo u w).addAnnotation 0 (lit "k") (lit "x")).view.heap[1]? = some ⟨w, none, none, some [(lit "k", lit "v")], none⟩ := by
  obtain ⟨K, hK⟩ := duo_run u w
  exact ⟨K, hK, rfl, rfl⟩

/-- The condition that a map is handed over once is needed: the setters keep the caller's map, so two nodes that were given the same map
share it, and a change of one shows on the other. -/
theorem C99_shared_map (u w : UID) :
    let m := (duo u w).setAnnotations 0 (some 1)
    ¬ OnlyAt 0 m (m.addAnnotation 0 (lit "new") (lit "x")) := by
  intro m h
  have h1 := h.2 1 (by simp)
  have h2 : (m.addAnnotation 0 (lit "new") (lit "x")).view.heap[1]? =
    some ⟨w, none, none, some [(lit "k", lit "v"), (lit "new", lit "x")], none⟩ := rfl
  have h3 : m.view.heap[1]? = some ⟨w, none, none, some [(lit "k", lit "v")], none⟩ := rfl
  rw [h2, h3] at h1
  simp at h1

end Alias
end Verif
