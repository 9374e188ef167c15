import Verif.Misc.Alias
import Verif.Props.Tree
/-!
# C53: returned maps are copies
-/
set_option autoImplicit false
namespace Verif
namespace Alias

/-- The cells that the tree or a node can reach. -/
def Owned (m : Mem) (p : Nat) : Prop :=
  (∃ f, m.field f = some p) ∨
  (∃ (r : Ref) (o : Obj), m.objs[r]? = some o ∧ (o.annotations = some p ∨ o.data = some p)) ∨
  ∃ (r : Ref) (o : Obj) (d : Nat), m.objs[r]? = some o ∧ o.data = some d ∧ ∃ e ∈ dataOf m.cells d, e.2 = some p

/-- The tree and the caller share nothing. -/
structure Apart (m : Mem) (K : Nat → Prop) : Prop where
  owned : ∀ p, Owned m p → p < m.cells.length
  known : ∀ p, K p → p < m.cells.length
  apart : ∀ p, Owned m p → ¬ K p

theorem owned_data {m : Mem} {r : Ref} {o : Obj} {d : Nat} (ho : m.objs[r]? = some o) (hd : o.data = some d) : Owned m d :=
  Or.inr (Or.inl ⟨r, o, ho, Or.inr hd⟩)

theorem dataOf_congr {c c' : List Cell} {p : Nat} (h : c'[p]? = c[p]?) : dataOf c' p = dataOf c p := by simp only [dataOf, h]

/-- Memory that agrees on what the tree owns shows the same tree. -/
theorem view_congr {m m' : Mem} (ho : m'.objs = m.objs) (hr : m'.root = m.root) (hn : m'.nodes = m.nodes) (hb : m'.branches = m.branches)
    (ht : m'.tags = m.tags) (hc : ∀ p, Owned m p → m'.cells[p]? = m.cells[p]?) : m'.view = m.view := by
  have refs : ∀ f, readRefs m'.cells (m.field f) = readRefs m.cells (m.field f) := by
    intro f
    cases hf : m.field f with
    | none => rfl
    | some p => simp only [readRefs, hc p (Or.inl ⟨f, hf⟩)]
  simp only [Mem.view, ho, hr, hn, hb, ht]
  congr 1
  · apply List.map_congr_left
    intro o hm
    obtain ⟨r, hlt, hget⟩ := List.getElem_of_mem hm
    have hobj : m.objs[r]? = some o := by rw [List.getElem?_eq_getElem hlt, hget]
    congr 1
    · have := refs (.children r)
      simpa [Mem.field, hobj] using this
    · cases ha : o.annotations with
      | none => rfl
      | some p => simp only [readStrs, hc p (Or.inr (Or.inl ⟨r, o, hobj, Or.inl ha⟩))]
    · cases hd : o.data with
      | none => rfl
      | some d =>
        have h1 := dataOf_congr (hc d (owned_data hobj hd))
        simp only [readData, h1]
        congr 1
        apply List.map_congr_left
        intro e he
        cases hq : e.2 with
        | none => rfl
        | some q => simp only [readBytes, hc q (Or.inr (Or.inr ⟨r, o, d, hobj, hd, e, he, hq⟩))]
  · congr 1
    · exact refs .nodes
    · exact refs .branches
    · exact refs .tags

/-- More cells at the end, and nothing else. -/
structure Longer (m m' : Mem) : Prop where
  objs : m'.objs = m.objs
  root : m'.root = m.root
  nodes : m'.nodes = m.nodes
  branches : m'.branches = m.branches
  tags : m'.tags = m.tags
  len : m.cells.length ≤ m'.cells.length
  old : ∀ p, p < m.cells.length → m'.cells[p]? = m.cells[p]?

theorem Longer.refl (m : Mem) : Longer m m := ⟨rfl, rfl, rfl, rfl, rfl, Nat.le_refl _, fun _ _ => rfl⟩

theorem Longer.trans {a b c : Mem} (h1 : Longer a b) (h2 : Longer b c) : Longer a c :=
  ⟨h2.objs.trans h1.objs, h2.root.trans h1.root, h2.nodes.trans h1.nodes, h2.branches.trans h1.branches, h2.tags.trans h1.tags,
    Nat.le_trans h1.len h2.len, fun p hp => (h2.old p (Nat.lt_of_lt_of_le hp h1.len)).trans (h1.old p hp)⟩

theorem longer_alloc (m : Mem) (c : Cell) : Longer m (m.alloc c).2 :=
  ⟨rfl, rfl, rfl, rfl, rfl, by simp [Mem.alloc], fun p hp => by simp [Mem.alloc, List.getElem?_append_left hp]⟩

theorem longer_copyRefs (m : Mem) (p : Option Nat) : Longer m (m.copyRefs p).2 := by
  cases p with
  | none => exact Longer.refl _
  | some p => exact longer_alloc _ _

theorem longer_copyStrs (m : Mem) (p : Option Nat) : Longer m (m.copyStrs p).2 := by
  cases p with
  | none => exact Longer.refl _
  | some p => exact longer_alloc _ _

theorem longer_copyBytes (m : Mem) (p : Option Nat) : Longer m (m.copyBytes p).2 := by
  cases p with
  | none => exact Longer.refl _
  | some p => exact longer_alloc _ _

theorem longer_copyEntries : ∀ (es : List (Str × Option Nat)) (m : Mem), Longer m (m.copyEntries es).2
  | [], m => Longer.refl m
  | (k, v) :: es, m => (longer_copyBytes m v).trans (longer_copyEntries es _)

theorem longer_copyData (m : Mem) (p : Option Nat) : Longer m (m.copyData p).2 := by
  cases p with
  | none => exact Longer.refl _
  | some p => exact (longer_copyEntries _ m).trans (longer_alloc _ _)

theorem field_congr {m m' : Mem} (ho : m'.objs = m.objs) (hn : m'.nodes = m.nodes) (hb : m'.branches = m.branches) (ht : m'.tags = m.tags)
    (f : Field) : m'.field f = m.field f := by
  cases f <;> simp [Mem.field, ho, hn, hb, ht]

/-- Memory that agrees on what the tree owns: the tree owns the same. -/
theorem owned_congr {m m' : Mem} (ho : m'.objs = m.objs) (hn : m'.nodes = m.nodes) (hb : m'.branches = m.branches) (ht : m'.tags = m.tags)
    (hc : ∀ p, Owned m p → m'.cells[p]? = m.cells[p]?) {p : Nat} (h : Owned m' p) : Owned m p := by
  rcases h with ⟨f, hf⟩ | ⟨r, o, h1, h2⟩ | ⟨r, o, d, h1, h2, e, h3, h4⟩
  · exact Or.inl ⟨f, by rw [← field_congr ho hn hb ht]; exact hf⟩
  · exact Or.inr (Or.inl ⟨r, o, by rw [← ho]; exact h1, h2⟩)
  · rw [ho] at h1
    rw [dataOf_congr (hc d (owned_data h1 h2))] at h3
    exact Or.inr (Or.inr ⟨r, o, d, h1, h2, e, h3, h4⟩)

theorem owned_longer {m m' : Mem} (h : Longer m m') (hb : ∀ p, Owned m p → p < m.cells.length) {p : Nat} (hp : Owned m' p) : Owned m p :=
  owned_congr h.objs h.nodes h.branches h.tags (fun q hq => h.old q (hb q hq)) hp

/-- New memory that only the caller gets. -/
theorem apart_get {m m' : Mem} {K : Nat → Prop} (h : Apart m K) (hl : Longer m m') : Apart m' (fun p => K p ∨ fresh m m' p) where
  owned p hp := Nat.lt_of_lt_of_le (h.owned p (owned_longer hl h.owned hp)) hl.len
  known p hp := by
    rcases hp with hp | hp
    · exact Nat.lt_of_lt_of_le (h.known p hp) hl.len
    · exact hp.2
  apart p hp := by
    have ho := owned_longer hl h.owned hp
    rintro (hk | hk)
    · exact h.apart p ho hk
    · exact absurd (h.owned p ho) (Nat.not_lt.2 hk.1)

/-- New memory that only the tree gets. -/
theorem apart_put {m m' : Mem} {K : Nat → Prop} (h : Apart m K) (hl : m.cells.length ≤ m'.cells.length)
    (ho : ∀ p, Owned m' p → Owned m p ∨ fresh m m' p) : Apart m' K where
  owned p hp := by
    rcases ho p hp with h1 | h1
    · exact Nat.lt_of_lt_of_le (h.owned p h1) hl
    · exact h1.2
  known p hp := Nat.lt_of_lt_of_le (h.known p hp) hl
  apart p hp hk := by
    rcases ho p hp with h1 | h1
    · exact h.apart p h1 hk
    · exact absurd (h.known p hk) (Nat.not_lt.2 h1.1)

theorem field_setObj {m : Mem} {r : Ref} {o o' : Obj} (ho : m.objs[r]? = some o) {f : Field} {p : Nat} (h : (m.setObj r o').field f = some p) :
    m.field f = some p ∨ o'.children = some p := by
  cases f with
  | children x =>
    simp only [Mem.field, Mem.setObj, List.getElem?_set] at h
    by_cases hx : r = x
    · subst hx
      simp only [if_true] at h
      split at h
      · exact Or.inr h
      · cases h
    · simp only [hx, if_false] at h
      exact Or.inl h
  | nodes => exact Or.inl h
  | branches => exact Or.inl h
  | tags => exact Or.inl h

theorem owned_setObj {m : Mem} {r : Ref} {o o' : Obj} (ho : m.objs[r]? = some o) {p : Nat} (h : Owned (m.setObj r o') p) :
    Owned m p ∨ o'.children = some p ∨ o'.annotations = some p ∨ o'.data = some p ∨ ∃ d, o'.data = some d ∧ ∃ e ∈ dataOf m.cells d, e.2 = some p := by
  rcases h with ⟨f, hf⟩ | ⟨x, xo, h1, h2⟩ | ⟨x, xo, d, h1, h2, h3⟩
  · rcases field_setObj ho hf with h | h
    · exact Or.inl (Or.inl ⟨f, h⟩)
    · exact Or.inr (Or.inl h)
  · simp only [Mem.setObj, List.getElem?_set] at h1
    by_cases hx : r = x
    · subst hx
      simp only [if_true] at h1
      split at h1
      · cases h1
        rcases h2 with h2 | h2
        · exact Or.inr (Or.inr (Or.inl h2))
        · exact Or.inr (Or.inr (Or.inr (Or.inl h2)))
      · cases h1
    · simp only [hx, if_false] at h1
      exact Or.inl (Or.inr (Or.inl ⟨x, xo, h1, h2⟩))
  · simp only [Mem.setObj, List.getElem?_set] at h1
    by_cases hx : r = x
    · subst hx
      simp only [if_true] at h1
      split at h1
      · cases h1
        exact Or.inr (Or.inr (Or.inr (Or.inr ⟨d, h2, h3⟩)))
      · cases h1
    · simp only [hx, if_false] at h1
      exact Or.inl (Or.inr (Or.inr ⟨x, xo, d, h1, h2, h3⟩))

/-- Overwriting a cell: the tree owns nothing new except slices in the new content. -/
theorem owned_store {m : Mem} {p : Nat} {c : Cell} {q : Nat} (h : Owned (m.store p c) q) :
    Owned m q ∨ ∃ l, c = .datas l ∧ ∃ e ∈ l, e.2 = some q := by
  rcases h with ⟨f, hf⟩ | h | ⟨r, o, d, h1, h2, e, h3, h4⟩
  · exact Or.inl (Or.inl ⟨f, hf⟩)
  · exact Or.inl (Or.inr (Or.inl h))
  · by_cases hd : d = p
    · subst hd
      simp only [Mem.store, dataOf, List.getElem?_set_self'] at h3
      cases hold : m.cells[d]? with
      | none => simp [hold] at h3
      | some c0 =>
        simp only [hold, Option.map_some] at h3
        cases c with
        | datas l => exact Or.inr ⟨l, rfl, e, h3, h4⟩
        | _ => simp at h3
    · have : dataOf (m.store p c).cells d = dataOf m.cells d := dataOf_congr (by simp [Mem.store, Ne.symm hd])
      rw [this] at h3
      exact Or.inl (Or.inr (Or.inr ⟨r, o, d, h1, h2, e, h3, h4⟩))

theorem al_put_mem {α : Type} {l : List (Str × α)} {k : Str} {v : α} {e : Str × α} (h : e ∈ AL.put l k v) : e ∈ l ∨ e.2 = v := by
  induction l with
  | nil => simp [AL.put] at h; exact Or.inr (by rw [h])
  | cons x l ih =>
    obtain ⟨x1, x2⟩ := x
    simp only [AL.put] at h
    split at h
    · rcases List.mem_cons.1 h with rfl | h
      · exact Or.inr rfl
      · exact Or.inl (by simp [h])
    · rcases List.mem_cons.1 h with rfl | h
      · exact Or.inl (by simp)
      · rcases ih h with h | h
        · exact Or.inl (by simp [h])
        · exact Or.inr h

theorem owned_setField {m : Mem} {f : Field} {p q : Nat} (h : Owned (m.setField (some p) f) q) : Owned m q ∨ q = p := by
  cases f with
  | children r =>
    simp only [Mem.setField] at h
    cases ho : m.objs[r]? with
    | none => rw [ho] at h; exact Or.inl h
    | some o =>
      rw [ho] at h
      rcases owned_setObj ho h with h | h | h | h | ⟨d, h1, h2⟩
      · exact Or.inl h
      · exact Or.inr (Option.some.inj h).symm
      · exact Or.inl (Or.inr (Or.inl ⟨r, o, ho, Or.inl h⟩))
      · exact Or.inl (Or.inr (Or.inl ⟨r, o, ho, Or.inr h⟩))
      · exact Or.inl (Or.inr (Or.inr ⟨r, o, d, ho, h1, h2⟩))
  | nodes =>
    rcases h with ⟨g, hg⟩ | h | h
    · cases g with
      | nodes => exact Or.inr (Option.some.inj hg).symm
      | branches => exact Or.inl (Or.inl ⟨.branches, hg⟩)
      | tags => exact Or.inl (Or.inl ⟨.tags, hg⟩)
      | children r => exact Or.inl (Or.inl ⟨.children r, hg⟩)
    · exact Or.inl (Or.inr (Or.inl h))
    · exact Or.inl (Or.inr (Or.inr h))
  | branches =>
    rcases h with ⟨g, hg⟩ | h | h
    · cases g with
      | branches => exact Or.inr (Option.some.inj hg).symm
      | nodes => exact Or.inl (Or.inl ⟨.nodes, hg⟩)
      | tags => exact Or.inl (Or.inl ⟨.tags, hg⟩)
      | children r => exact Or.inl (Or.inl ⟨.children r, hg⟩)
    · exact Or.inl (Or.inr (Or.inl h))
    · exact Or.inl (Or.inr (Or.inr h))
  | tags =>
    rcases h with ⟨g, hg⟩ | h | h
    · cases g with
      | tags => exact Or.inr (Option.some.inj hg).symm
      | nodes => exact Or.inl (Or.inl ⟨.nodes, hg⟩)
      | branches => exact Or.inl (Or.inl ⟨.branches, hg⟩)
      | children r => exact Or.inl (Or.inl ⟨.children r, hg⟩)
    · exact Or.inl (Or.inr (Or.inl h))
    · exact Or.inl (Or.inr (Or.inr h))

theorem setField_cells (m : Mem) (p : Option Nat) (f : Field) : (m.setField p f).cells = m.cells := by
  cases f with
  | children r => simp only [Mem.setField]; split <;> rfl
  | _ => rfl

theorem owned_newNode {m : Mem} {id : UID} {p : Nat} (h : Owned (m.newNode id) p) : Owned m p := by
  have obj : ∀ {r : Ref} {o : Obj}, (m.newNode id).objs[r]? = some o → m.objs[r]? = some o ∨ (o.children = none ∧ o.annotations = none ∧ o.data = none) := by
    intro r o ho
    simp only [Mem.newNode, List.getElem?_append] at ho
    split at ho
    · exact Or.inl ho
    · right
      cases hx : r - m.objs.length with
      | zero => simp [hx] at ho; subst ho; exact ⟨rfl, rfl, rfl⟩
      | succ n => simp [hx] at ho
  rcases h with ⟨f, hf⟩ | ⟨r, o, h1, h2⟩ | ⟨r, o, d, h1, h2, h3⟩
  · cases f with
    | children r =>
      simp only [Mem.field] at hf
      cases ho : (m.newNode id).objs[r]? with
      | none => simp [ho] at hf
      | some o =>
        simp only [ho, Option.bind_some] at hf
        rcases obj ho with h | ⟨h, _, _⟩
        · exact Or.inl ⟨.children r, by simp [Mem.field, h, hf]⟩
        · rw [h] at hf; cases hf
    | nodes => exact Or.inl ⟨.nodes, hf⟩
    | branches => exact Or.inl ⟨.branches, hf⟩
    | tags => exact Or.inl ⟨.tags, hf⟩
  · rcases obj h1 with h | ⟨_, ha, hb⟩
    · exact Or.inr (Or.inl ⟨r, o, h, h2⟩)
    · rw [ha, hb] at h2
      rcases h2 with h2 | h2 <;> cases h2
  · rcases obj h1 with h | ⟨_, ha, hb⟩
    · exact Or.inr (Or.inr ⟨r, o, d, h, h2, h3⟩)
    · rw [hb] at h2; cases h2

/-- Changing a node without giving it new maps. -/
theorem owned_setObj_same {m : Mem} {r : Ref} {o o' : Obj} (ho : m.objs[r]? = some o) (h1 : o'.children = o.children) (h2 : o'.annotations = o.annotations)
    (h3 : o'.data = o.data) {p : Nat} (h : Owned (m.setObj r o') p) : Owned m p := by
  rcases owned_setObj ho h with h | h | h | h | ⟨d, h4, h5⟩
  · exact h
  · exact Or.inl ⟨.children r, by simp [Mem.field, ho, ← h1, h]⟩
  · exact Or.inr (Or.inl ⟨r, o, ho, Or.inl (h2 ▸ h)⟩)
  · exact Or.inr (Or.inl ⟨r, o, ho, Or.inr (h3 ▸ h)⟩)
  · exact Or.inr (Or.inr ⟨r, o, d, ho, h3 ▸ h4, h5⟩)

theorem apart_call {m m' : Mem} {K K' : Nat → Prop} (h : Apart m K) (hc : Call m K m' K') : Apart m' K' := by
  have noData : ∀ {p q : Nat} {c : Cell}, (∀ l, c ≠ .datas l) → Owned (m.store p c) q → Owned m q := by
    intro p q c hne hq
    rcases owned_store hq with h | ⟨l, hl, _⟩
    · exact h
    · exact absurd hl (hne l)
  cases hc with
  | newNode id => exact apart_put h (Nat.le_refl _) fun p hp => Or.inl (owned_newNode hp)
  | setParent r p =>
    simp only [Mem.setParent]
    cases ho : m.objs[r]? with
    | none => exact h
    | some o => exact apart_put h (Nat.le_refl _) fun q hq => Or.inl (owned_setObj_same (o' := { o with parent := p }) ho rfl rfl rfl hq)
  | setRoot r => exact apart_put h (Nat.le_refl _) fun p hp => Or.inl (owned_congr (m' := { m with root := r }) rfl rfl rfl rfl (fun _ _ => rfl) hp)
  | assign f k r =>
    simp only [Mem.assign]
    cases hf : m.field f with
    | none =>
      simp only
      have hl := longer_alloc m (.refs [(k, r)])
      refine apart_put h (by rw [setField_cells]; exact hl.len) fun q hq => ?_
      rcases owned_setField hq with hq | hq
      · exact Or.inl (owned_longer hl h.owned hq)
      · right
        rw [hq]
        simp [fresh, setField_cells, Mem.alloc]
    | some p =>
      exact apart_put h (by simp [Mem.store]) fun q hq => Or.inl (noData (by simp) hq)
  | delete f k =>
    simp only [Mem.delete]
    cases hf : m.field f with
    | none => exact h
    | some p => exact apart_put h (by simp [Mem.store]) fun q hq => Or.inl (noData (by simp) hq)
  | addAnnotation r k v =>
    simp only [Mem.addAnnotation]
    cases ho : m.objs[r]? with
    | none => exact h
    | some o =>
      simp only
      cases ha : o.annotations with
      | none =>
        simp only
        have hl := longer_alloc m (.strs [(k, v)])
        refine apart_put h hl.len fun q hq => ?_
        rcases owned_setObj (o := o) (by exact ho) hq with hq | hq | hq | hq | ⟨d, h1, h2⟩
        · exact Or.inl (owned_longer hl h.owned hq)
        · exact Or.inl (Or.inl ⟨.children r, by simp [Mem.field, ho]; exact hq⟩)
        · right
          have : q = m.cells.length := (Option.some.inj hq).symm
          rw [this]
          simp [fresh, Mem.setObj, Mem.alloc]
        · exact Or.inl (Or.inr (Or.inl ⟨r, o, ho, Or.inr hq⟩))
        · rw [dataOf_congr (hl.old d (h.owned d (owned_data ho h1)))] at h2
          exact Or.inl (Or.inr (Or.inr ⟨r, o, d, ho, h1, h2⟩))
      | some p => exact apart_put h (by simp [Mem.store]) fun q hq => Or.inl (noData (by simp) hq)
  | addData r k v hv =>
    simp only [Mem.addData]
    cases ho : m.objs[r]? with
    | none => exact h
    | some o =>
      simp only
      have hl := longer_copyBytes m v
      have hfr : ∀ q, (m.copyBytes v).1 = some q → q = m.cells.length ∧ m.cells.length < (m.copyBytes v).2.cells.length := by
        intro q hq
        cases v with
        | none => cases hq
        | some w => exact ⟨(Option.some.inj hq).symm, by simp [Mem.copyBytes, Mem.alloc]⟩
      have hobj : (m.copyBytes v).2.objs[r]? = some o := by rw [hl.objs]; exact ho
      cases ha : o.data with
      | none =>
        simp only
        have hl2 := hl.trans (longer_alloc (m.copyBytes v).2 (.datas [(k, (m.copyBytes v).1)]))
        refine apart_put h hl2.len fun q hq => ?_
        rcases owned_setObj (o := o) (by exact hobj) hq with hq | hq | hq | hq | ⟨d, h1, e, h2, h3⟩
        · exact Or.inl (owned_longer hl2 h.owned hq)
        · exact Or.inl (Or.inl ⟨.children r, by simp [Mem.field, ho]; exact hq⟩)
        · exact Or.inl (Or.inr (Or.inl ⟨r, o, ho, Or.inl hq⟩))
        · right
          have : q = (m.copyBytes v).2.cells.length := (Option.some.inj hq).symm
          rw [this]
          exact ⟨hl.len, by simp [Mem.setObj, Mem.alloc]⟩
        · right
          have hd : d = (m.copyBytes v).2.cells.length := (Option.some.inj h1).symm
          rw [hd] at h2
          simp only [Mem.alloc, dataOf, List.getElem?_append_right (Nat.le_refl _), Nat.sub_self, List.getElem?_cons_zero, List.mem_singleton] at h2
          rw [h2] at h3
          obtain ⟨h4, h5⟩ := hfr q h3
          rw [h4]
          exact ⟨Nat.le_refl _, by simp only [Mem.setObj, Mem.alloc, List.length_append, List.length_singleton]; omega⟩
      | some p =>
        refine apart_put h (by simp only [Mem.store, List.length_set]; exact hl.len) fun q hq => ?_
        rcases owned_store hq with hq | ⟨l, h1, e, h2, h3⟩
        · exact Or.inl (owned_longer hl h.owned hq)
        · cases h1
          rcases al_put_mem h2 with h4 | h4
          · rw [dataOf_congr (hl.old p (h.owned p (owned_data ho ha)))] at h4
            exact Or.inl (Or.inr (Or.inr ⟨r, o, p, ho, ha, e, h4, h3⟩))
          · rw [h4] at h3
            obtain ⟨h5, h6⟩ := hfr q h3
            right
            rw [h5]
            exact ⟨Nat.le_refl _, by simp only [Mem.store, List.length_set]; exact h6⟩
  | setAnnotations r p hp =>
    have hw : Apart m (fun q => K q ∧ q ≠ p) := ⟨h.owned, fun q hq => h.known q hq.1, fun q hq hk => h.apart q hq hk.1⟩
    simp only [Mem.setAnnotations]
    cases ho : m.objs[r]? with
    | none => exact hw
    | some o =>
      have key : ∀ q, Owned (m.setObj r { o with annotations := some p }) q → Owned m q ∨ q = p := by
        intro q hq
        rcases owned_setObj ho hq with hq | hq | hq | hq | ⟨d, h1, h2⟩
        · exact Or.inl hq
        · exact Or.inl (Or.inl ⟨.children r, by simp [Mem.field, ho]; exact hq⟩)
        · exact Or.inr (Option.some.inj hq).symm
        · exact Or.inl (Or.inr (Or.inl ⟨r, o, ho, Or.inr hq⟩))
        · exact Or.inl (Or.inr (Or.inr ⟨r, o, d, ho, h1, h2⟩))
      refine ⟨fun q hq => ?_, hw.known, fun q hq hk => ?_⟩
      · rcases key q hq with hq | hq
        · exact h.owned q hq
        · rw [hq]; exact h.known p hp
      · rcases key q hq with hq | hq
        · exact h.apart q hq hk.1
        · exact hk.2 hq
  | setData r p hp hs =>
    have hw : Apart m (fun q => K q ∧ q ≠ p ∧ ∀ e ∈ dataOf m.cells p, e.2 ≠ some q) :=
      ⟨h.owned, fun q hq => h.known q hq.1, fun q hq hk => h.apart q hq hk.1⟩
    simp only [Mem.setData]
    cases ho : m.objs[r]? with
    | none => exact hw
    | some o =>
      have key : ∀ q, Owned (m.setObj r { o with data := some p }) q → Owned m q ∨ q = p ∨ ∃ e ∈ dataOf m.cells p, e.2 = some q := by
        intro q hq
        rcases owned_setObj ho hq with hq | hq | hq | hq | ⟨d, h1, h2⟩
        · exact Or.inl hq
        · exact Or.inl (Or.inl ⟨.children r, by simp [Mem.field, ho]; exact hq⟩)
        · exact Or.inl (Or.inr (Or.inl ⟨r, o, ho, Or.inl hq⟩))
        · exact Or.inr (Or.inl (Option.some.inj hq).symm)
        · cases h1
          exact Or.inr (Or.inr h2)
      refine ⟨fun q hq => ?_, hw.known, fun q hq hk => ?_⟩
      · rcases key q hq with hq | hq | ⟨e, he, hq⟩
        · exact h.owned q hq
        · rw [hq]; exact h.known p hp
        · exact h.known q (hs e he q hq)
      · rcases key q hq with hq | hq | ⟨e, he, hq⟩
        · exact h.apart q hq hk.1
        · exact hk.2.1 hq
        · exact hk.2.2 e he hq
  | getRefs f => exact apart_get h (longer_copyRefs _ _)
  | getAnnotations ho => exact apart_get h (longer_copyStrs _ _)
  | getData ho => exact apart_get h (longer_copyData _ _)

/-- The caller's own steps change nothing that the tree owns. -/
theorem own_keeps {m m' : Mem} {K K' : Nat → Prop} (h : Apart m K) (hc : Own m K m' K') : m'.view = m.view ∧ Apart m' K' := by
  cases hc with
  | alloc c _ =>
    have hl := longer_alloc m c
    exact ⟨view_congr hl.objs hl.root hl.nodes hl.branches hl.tags (fun p hp => hl.old p (h.owned p hp)), apart_get h hl⟩
  | @write p c hk _ =>
    have hc : ∀ q, Owned m q → (m.store p c).cells[q]? = m.cells[q]? := by
      intro q hq
      have : p ≠ q := by rintro rfl; exact h.apart p hq hk
      simp [Mem.store, this]
    exact ⟨view_congr (m' := m.store p c) rfl rfl rfl rfl rfl hc, apart_put h (by simp [Mem.store]) fun q hq => Or.inl (owned_congr (m := m) (m' := m.store p c) rfl rfl rfl rfl hc hq)⟩

theorem apart_run {m : Mem} {K : Nat → Prop} (h : Run m K) : Apart m K := by
  induction h with
  | start => exact ⟨fun p hp => by
      rcases hp with ⟨f, hf⟩ | ⟨r, o, h1, _⟩ | ⟨r, o, d, h1, _⟩
      · cases f <;> simp [Mem.field] at hf
      · simp at h1
      · simp at h1, fun _ hp => hp.elim, fun _ _ hp => hp⟩
  | call _ hc ih => exact apart_call ih hc
  | own _ ho ih => exact (own_keeps ih ho).2

/-- **C53.** Whatever the API was asked for before, and whatever the caller does with the maps and slices that they got or made
themselves, and did not hand over to `SetAnnotations` or `SetData`: the tree does not change. -/
theorem C53_caller_cannot_change {m m' : Mem} {K K' : Nat → Prop} (h : Run m K) (ho : Own m K m' K') : m'.view = m.view :=
  (own_keeps (apart_run h) ho).1

/-- **C53.** `Annotations` returns the annotations, and asking for them changes nothing. -/
theorem C53_annotations {m : Mem} {K : Nat → Prop} (h : Run m K) {r : Ref} {o : Obj} (ho : m.objs[r]? = some o) :
    (m.copyStrs o.annotations).2.view = m.view ∧
    ∃ n, m.view.heap[r]? = some n ∧ readStrs (m.copyStrs o.annotations).2.cells (m.copyStrs o.annotations).1 = n.annotations := by
  have hl := longer_copyStrs m o.annotations
  refine ⟨view_congr hl.objs hl.root hl.nodes hl.branches hl.tags (fun p hp => hl.old p ((apart_run h).owned p hp)),
    ⟨o.id, o.parent, readRefs m.cells o.children, readStrs m.cells o.annotations, readData m.cells o.data⟩, by simp only [Mem.view, List.getElem?_map, ho, Option.map_some], ?_⟩
  cases ha : o.annotations with
  | none => rfl
  | some p =>
    simp only [Mem.copyStrs, Mem.alloc, readStrs, List.getElem?_append_right (Nat.le_refl _), Nat.sub_self, List.getElem?_cons_zero]
    cases hc : m.cells[p]? with
    | none => simp
    | some c => cases c <;> simp

/-- **C53.** `Tags`, `Branches` and `Children` return the entries, and asking for them changes nothing. -/
theorem C53_refs {m : Mem} {K : Nat → Prop} (h : Run m K) (f : Field) :
    (m.copyRefs (m.field f)).2.view = m.view ∧
    readRefs (m.copyRefs (m.field f)).2.cells (m.copyRefs (m.field f)).1 = readRefs m.cells (m.field f) := by
  have hl := longer_copyRefs m (m.field f)
  refine ⟨view_congr hl.objs hl.root hl.nodes hl.branches hl.tags (fun p hp => hl.old p ((apart_run h).owned p hp)), ?_⟩
  cases ha : m.field f with
  | none => rfl
  | some p =>
    simp only [Mem.copyRefs, Mem.alloc, readRefs, List.getElem?_append_right (Nat.le_refl _), Nat.sub_self, List.getElem?_cons_zero]
    cases hc : m.cells[p]? with
    | none => simp
    | some c => cases c <;> simp

theorem copyBytes_spec (m : Mem) (v : Option Nat) : readBytes (m.copyBytes v).2.cells (m.copyBytes v).1 = readBytes m.cells v ∧
    (∀ q, (m.copyBytes v).1 = some q → q < (m.copyBytes v).2.cells.length) := by
  cases v with
  | none => exact ⟨rfl, fun q hq => by cases hq⟩
  | some p =>
    refine ⟨?_, fun q hq => ?_⟩
    · simp only [Mem.copyBytes, Mem.alloc, readBytes, List.getElem?_append_right (Nat.le_refl _), Nat.sub_self, List.getElem?_cons_zero]
      cases hc : m.cells[p]? with
      | none => simp
      | some c => cases c <;> simp
    · have : q = m.cells.length := (Option.some.inj hq).symm
      rw [this]
      simp [Mem.copyBytes, Mem.alloc]

theorem copyEntries_spec : ∀ (es : List (Str × Option Nat)) (m : Mem), (∀ e ∈ es, ∀ q, e.2 = some q → q < m.cells.length) →
    (m.copyEntries es).1.map (fun e => (e.1, readBytes (m.copyEntries es).2.cells e.2)) = es.map (fun e => (e.1, readBytes m.cells e.2)) ∧
    (∀ e ∈ (m.copyEntries es).1, ∀ q, e.2 = some q → q < (m.copyEntries es).2.cells.length)
  | [], m, _ => ⟨rfl, by simp [Mem.copyEntries]⟩
  | (k, v) :: es, m, hes => by
    have hl := longer_copyBytes m v
    have hl2 := longer_copyEntries es (m.copyBytes v).2
    obtain ⟨b1, b2⟩ := copyBytes_spec m v
    have hes' : ∀ e ∈ es, ∀ q, e.2 = some q → q < (m.copyBytes v).2.cells.length := fun e he q hq =>
      Nat.lt_of_lt_of_le (hes e (by simp [he]) q hq) hl.len
    obtain ⟨i1, i2⟩ := copyEntries_spec es (m.copyBytes v).2 hes'
    have old : ∀ {a b : Mem} (_ : Longer a b) (w : Option Nat), (∀ q, w = some q → q < a.cells.length) → readBytes b.cells w = readBytes a.cells w := by
      intro a b hab w hw
      cases w with
      | none => rfl
      | some q => simp only [readBytes, hab.old q (hw q rfl)]
    simp only [Mem.copyEntries, List.map_cons, List.mem_cons]
    refine ⟨?_, ?_⟩
    · congr 1
      · rw [old hl2 _ b2, b1]
      · rw [i1]
        apply List.map_congr_left
        intro e he
        rw [old hl e.2 (hes e (by simp [he]))]
    · rintro e (rfl | he) q hq
      · exact Nat.lt_of_lt_of_le (b2 q hq) hl2.len
      · exact i2 e he q hq

/-- **C53.** `Data` returns the data with the bytes of every slice, and asking for it changes nothing. -/
theorem C53_data {m : Mem} {K : Nat → Prop} (h : Run m K) {r : Ref} {o : Obj} (ho : m.objs[r]? = some o) :
    (m.copyData o.data).2.view = m.view ∧
    ∃ n, m.view.heap[r]? = some n ∧ readData (m.copyData o.data).2.cells (m.copyData o.data).1 = n.data := by
  have hl := longer_copyData m o.data
  refine ⟨view_congr hl.objs hl.root hl.nodes hl.branches hl.tags (fun p hp => hl.old p ((apart_run h).owned p hp)),
    ⟨o.id, o.parent, readRefs m.cells o.children, readStrs m.cells o.annotations, readData m.cells o.data⟩, by simp only [Mem.view, List.getElem?_map, ho, Option.map_some], ?_⟩
  cases ha : o.data with
  | none => rfl
  | some p =>
    obtain ⟨h1, h2⟩ := copyEntries_spec (dataOf m.cells p) m (fun e he q hq => (apart_run h).owned q (Or.inr (Or.inr ⟨r, o, p, ho, ha, e, he, hq⟩)))
    have hd : ∀ (l : List Cell) (es : List (Str × Option Nat)), dataOf (l ++ [.datas es]) l.length = es := by
      intro l es
      simp [dataOf]
    show some ((dataOf ((m.copyEntries (dataOf m.cells p)).2.cells ++ [.datas (m.copyEntries (dataOf m.cells p)).1]) (m.copyEntries (dataOf m.cells p)).2.cells.length).map
      fun e => (e.1, readBytes ((m.copyEntries (dataOf m.cells p)).2.cells ++ [.datas (m.copyEntries (dataOf m.cells p)).1]) e.2)) =
      some ((dataOf m.cells p).map fun e => (e.1, readBytes m.cells e.2))
    rw [hd, ← h1]
    congr 1
    apply List.map_congr_left
    intro e he
    cases hq : e.2 with
    | none => rfl
    | some q => simp only [readBytes, List.getElem?_append_left (h2 e he q hq)]

/-- A tree with one node that has an annotation and a data entry; the caller has asked for both, and made a slice. -/
def sampleMem : Mem := ⟨[.strs [(lit "a", lit "x")], .bytes (lit "v"), .bytes (lit "v"), .datas [(lit "k", some 2)],
  .strs [(lit "a", lit "x")], .bytes (lit "v"), .datas [(lit "k", some 5)]], [⟨sampleIDs 0, none, none, some 0, some 3⟩], none, none, none, none⟩

theorem sampleMem_run : ∃ K, Run sampleMem K ∧ K 4 ∧ K 5 ∧ K 6 := by
  refine ⟨_, .call (.call (.call (.own (.call (.call .start (.newNode (sampleIDs 0))) (.addAnnotation 0 (lit "a") (lit "x"))) (.alloc (.bytes (lit "v")) (by simp)))
    (.addData 0 (lit "k") (some 1) ?_)) (.getAnnotations (r := 0) (o := ⟨sampleIDs 0, none, none, some 0, some 3⟩) rfl)) (.getData (r := 0) (o := ⟨sampleIDs 0, none, none, some 0, some 3⟩) rfl), ?_⟩
  · intro q hq
    cases hq
    exact Or.inr ⟨by decide, by decide⟩
  · refine ⟨Or.inl (Or.inr ⟨by decide, by decide⟩), Or.inr ⟨by decide, by decide⟩, Or.inr ⟨by decide, by decide⟩⟩

/-- The theorem applies to it: overwriting the returned map, or the bytes of a returned slice, leaves the tree alone. -/
example : (sampleMem.store 4 (.strs [])).view = sampleMem.view ∧ (sampleMem.store 5 (.bytes [])).view = sampleMem.view := by
  obtain ⟨K, h, h4, h5, h6⟩ := sampleMem_run
  exact ⟨C53_caller_cannot_change h (.write _ h4 (by simp)), C53_caller_cannot_change h (.write _ h5 (by simp))⟩

/-- **C53, the other half: the setters keep the map.** A map that was handed to `SetAnnotations` is shared: when the caller changes their map,
the node changes. Likewise for `SetData`, where even changing the bytes of a slice changes the node. -/
theorem C53_setters_keep : ∃ (m : Mem) (K : Nat → Prop), Run m K ∧ K 0 ∧ K 1 ∧ K 2 ∧
    (((m.setAnnotations 0 (some 0)).store 0 (.strs [])).view.heap[0]?.map (·.annotations) ≠ (m.setAnnotations 0 (some 0)).view.heap[0]?.map (·.annotations)) ∧
    (((m.setData 0 (some 2)).store 1 (.bytes [])).view.heap[0]?.map (·.data) ≠ (m.setData 0 (some 2)).view.heap[0]?.map (·.data)) := by
  refine ⟨⟨[.strs [(lit "a", lit "x")], .bytes (lit "v"), .datas [(lit "k", some 1)]], [⟨sampleIDs 0, none, none, none, none⟩], none, none, none, none⟩, _,
    .own (.own (.own (.call .start (.newNode (sampleIDs 0))) (.alloc (.strs [(lit "a", lit "x")]) (by simp))) (.alloc (.bytes (lit "v")) (by simp)))
      (.alloc (.datas [(lit "k", some 1)]) ?_), ?_, ?_, ?_, by decide, by decide⟩
  · intro l hl e he q hq
    cases hl
    simp only [List.mem_singleton] at he
    subst he
    cases hq
    exact Or.inr ⟨by decide, by decide⟩
  · exact Or.inl (Or.inl (Or.inr ⟨by decide, by decide⟩))
  · exact Or.inl (Or.inr ⟨by decide, by decide⟩)
  · exact Or.inr ⟨by decide, by decide⟩

end Alias
end Verif
