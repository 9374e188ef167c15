import Verif.Tree.DumpProofs
/-!
# The loop of `Dump`

`Dump` fills the tree of `NodeDump` values level by level. It keeps a map from pointers to `NodeDump` cells to the children
still to be written into them, and walks that map, and each map of children, in any order. This file models that loop with
an explicit memory of cells and proves that every run ends and leaves in memory a value related by `DumpsTo`.
-/
set_option autoImplicit false
namespace Verif
namespace DumpLoop

/-- A `NodeDump` in memory: `children` is a slice whose elements are cells. -/
structure Cell where
  id : Str
  kids : List Nat
  anno : GoMap Str
  data : GoMap (Option Str)

/-- The cell that is filled from a node (pkg/spaces/trees/dump.go:44-48, :60-62), before its children are set. -/
def cellOf (o : NodeObj) : Cell := ⟨o.id.hex, [], o.annotations, o.data⟩

/-- An entry of the map `nodes` (pkg/spaces/trees/dump.go:49-51): a cell and the children of its node. -/
abbrev Entry := Nat × GoMap Ref

/-- The inner loop (pkg/spaces/trees/dump.go:59-66): one new cell for each child, in the chosen order, and one entry of `newNodes` for each.
The new cells are the elements of the slice made at pkg/spaces/trees/dump.go:58; they are appended to the memory one by one. -/
def fillKids (heap : List NodeObj) : List (Str × Ref) → List Cell → Option (List Cell × List Nat × List Entry)
  | [], cells => some (cells, [], [])
  | (_, r) :: es, cells =>
    match heap[r]? with
    | none => none
    | some o =>
      match fillKids heap es (cells ++ [cellOf o]) with
      | none => none
      | some (cells', ks, f) => some (cells', cells.length :: ks, (cells.length, o.children) :: f)

/-- Store the slice in the parent cell (pkg/spaces/trees/dump.go:58). -/
def setKids (cells : List Cell) (c : Nat) (ks : List Nat) : List Cell :=
  match cells[c]? with
  | none => cells
  | some cell => cells.set c { cell with kids := ks }

/-- The body of the outer loop for one entry (pkg/spaces/trees/dump.go:53-67), for a chosen order of the children. -/
inductive FillOne (heap : List NodeObj) (cells : List Cell) : Entry → List Cell → List Entry → Prop where
  | skip {c : Nat} {m : GoMap Ref} : m.size = 0 → FillOne heap cells (c, m) cells []
  | fill {c : Nat} {m : GoMap Ref} {es : List (Str × Ref)} {cells' : List Cell} {ks : List Nat} {f : List Entry} :
      m.size ≠ 0 → es.Perm m.entries → fillKids heap es cells = some (cells', ks, f) →
      FillOne heap cells (c, m) (setKids cells' c ks) f

/-- One pass over the map (pkg/spaces/trees/dump.go:53-68), its entries in the given order. -/
inductive FillLevel (heap : List NodeObj) : List Cell → List Entry → List Cell → List Entry → Prop where
  | nil {cells : List Cell} : FillLevel heap cells [] cells []
  | cons {cells cells1 cells2 : List Cell} {e : Entry} {l f1 f2 : List Entry} :
      FillOne heap cells e cells1 f1 → FillLevel heap cells1 l cells2 f2 → FillLevel heap cells (e :: l) cells2 (f1 ++ f2)

/-- `n` passes of `for len(nodes) > 0` (pkg/spaces/trees/dump.go:52-70). -/
inductive Passes (heap : List NodeObj) : Nat → List Cell → List Entry → List Cell → List Entry → Prop where
  | zero {cells : List Cell} {f : List Entry} : Passes heap 0 cells f cells f
  | succ {n : Nat} {cells cells1 cells2 : List Cell} {f f' f1 f2 : List Entry} :
      f ≠ [] → f.Perm f' → FillLevel heap cells f' cells1 f1 → Passes heap n cells1 f1 cells2 f2 →
      Passes heap (n + 1) cells f cells2 f2

mutual
/-- The value stored at a cell. -/
inductive Reads (cells : List Cell) : Nat → NodeDump → Prop where
  | mk {c : Nat} {cell : Cell} {ds : List NodeDump} :
      cells[c]? = some cell → ReadsList cells cell.kids ds → Reads cells c (.mk cell.id ds cell.anno cell.data)
/-- The values stored at some cells. -/
inductive ReadsList (cells : List Cell) : List Nat → List NodeDump → Prop where
  | nil : ReadsList cells [] []
  | cons {c : Nat} {d : NodeDump} {cs : List Nat} {ds : List NodeDump} :
      Reads cells c d → ReadsList cells cs ds → ReadsList cells (c :: cs) (d :: ds)
end

/-! ## One pass -/

/-- The cell holds the node `r`, its children not yet set. -/
def Holds (heap : List NodeObj) (cells : List Cell) (e : Entry) (r : Ref) : Prop :=
  ∃ o, heap[r]? = some o ∧ e.2 = o.children ∧ cells[e.1]? = some (cellOf o)

/-- The cells `ks` hold the children `es` and are pending in `f`. -/
inductive Kids (heap : List NodeObj) (cells : List Cell) (f : List Entry) : List Nat → List (Str × Ref) → Prop where
  | nil : Kids heap cells f [] []
  | cons {k : Nat} {e : Str × Ref} {ks : List Nat} {es : List (Str × Ref)} {m : GoMap Ref} :
      (k, m) ∈ f → Holds heap cells (k, m) e.2 → Kids heap cells f ks es → Kids heap cells f (k :: ks) (e :: es)

theorem kids_mono {heap : List NodeObj} {cells cells' : List Cell} {f f' : List Entry} {ks : List Nat}
    {es : List (Str × Ref)} (h : Kids heap cells f ks es) (hf : ∀ e ∈ f, e ∈ f')
    (hc : ∀ e ∈ f, cells'[e.1]? = cells[e.1]?) : Kids heap cells' f' ks es := by
  induction h with
  | nil => exact .nil
  | cons h1 h2 _ ih =>
    obtain ⟨o, a, b, c⟩ := h2
    exact .cons (hf _ h1) ⟨o, a, b, (hc _ h1).trans c⟩ ih

/-- What a run of filling leaves, for new entries `f`. -/
structure Grown (heap : List NodeObj) (cells cells' : List Cell) (f : List Entry) : Prop where
  len : cells.length ≤ cells'.length
  range : ∀ e ∈ f, cells.length ≤ e.1 ∧ e.1 < cells'.length
  nodup : (f.map Prod.fst).Nodup
  holds : ∀ e ∈ f, ∃ r, Holds heap cells' e r

theorem fillKids_spec {heap : List NodeObj} : ∀ {es : List (Str × Ref)} {cells cells' : List Cell} {ks : List Nat}
    {f : List Entry}, fillKids heap es cells = some (cells', ks, f) →
    Grown heap cells cells' f ∧ (∀ c, c < cells.length → cells'[c]? = cells[c]?) ∧ Kids heap cells' f ks es ∧
      ks.length = es.length ∧ (∀ e ∈ f, ∃ x ∈ es, Holds heap cells' e x.2)
  | [], cells, cells', ks, f, h => by
    simp only [fillKids, Option.some.injEq, Prod.mk.injEq] at h
    obtain ⟨rfl, rfl, rfl⟩ := h
    exact ⟨⟨Nat.le_refl _, by simp, by simp, by simp⟩, fun _ _ => rfl, .nil, rfl, by simp⟩
  | (k, r) :: es, cells, cells', ks, f, h => by
    simp only [fillKids] at h
    cases ho : heap[r]? with
    | none => simp [ho] at h
    | some o =>
      simp only [ho] at h
      cases hr : fillKids heap es (cells ++ [cellOf o]) with
      | none => simp [hr] at h
      | some t =>
        obtain ⟨c1, ks1, f1⟩ := t
        simp only [hr, Option.some.injEq, Prod.mk.injEq] at h
        obtain ⟨rfl, rfl, rfl⟩ := h
        obtain ⟨g, fr, kd, kl, hx⟩ := fillKids_spec hr
        have hl := g.len
        simp only [List.length_append, List.length_singleton] at hl
        have hc : c1[cells.length]? = some (cellOf o) := by
          rw [fr cells.length (by simp)]; simp
        have hh : Holds heap c1 (cells.length, o.children) r := ⟨o, ho, rfl, hc⟩
        refine ⟨⟨by omega, ?_, ?_, ?_⟩, ?_, ?_, by simp [kl], ?_⟩
        · intro e he
          rcases List.mem_cons.1 he with rfl | he
          · exact ⟨Nat.le_refl _, by simp only; omega⟩
          · have := g.range e he
            simp only [List.length_append, List.length_singleton] at this
            omega
        · simp only [List.map_cons, List.nodup_cons]
          refine ⟨?_, g.nodup⟩
          intro hm
          obtain ⟨e, he, heq⟩ := List.mem_map.1 hm
          have := g.range e he
          simp only [List.length_append, List.length_singleton] at this
          omega
        · intro e he
          rcases List.mem_cons.1 he with rfl | he
          · exact ⟨r, hh⟩
          · exact g.holds e he
        · intro c hc'
          rw [fr c (by simp; omega), List.getElem?_append_left hc']
        · exact .cons (m := o.children) (by simp) hh (kids_mono kd (by simp_all) (fun _ _ => rfl))
        · intro e he
          rcases List.mem_cons.1 he with rfl | he
          · exact ⟨(k, r), by simp, hh⟩
          · obtain ⟨x, hx1, hx2⟩ := hx e he
            exact ⟨x, by simp [hx1], hx2⟩

theorem setKids_length (cells : List Cell) (c : Nat) (ks : List Nat) : (setKids cells c ks).length = cells.length := by
  unfold setKids; split <;> simp

theorem setKids_ne (cells : List Cell) {c x : Nat} (ks : List Nat) (h : x ≠ c) : (setKids cells c ks)[x]? = cells[x]? := by
  unfold setKids; split
  · rfl
  · rw [List.getElem?_set_ne (Ne.symm h)]

theorem setKids_self {cells : List Cell} {c : Nat} {cell : Cell} (ks : List Nat) (h : cells[c]? = some cell) :
    (setKids cells c ks)[c]? = some { cell with kids := ks } := by
  have := lt_of_getElem? h
  simp only [setKids, h]
  simp [this]

/-- The cell `c` has been completed. -/
def Done (heap : List NodeObj) (cells : List Cell) (f : List Entry) (c : Nat) (r : Ref) : Prop :=
  ∃ o es ks, heap[r]? = some o ∧ es.Perm o.children.entries ∧ cells[c]? = some { cellOf o with kids := ks } ∧
    Kids heap cells f ks es

theorem size_zero {m : GoMap Ref} (h : m.size = 0) : m.entries = [] := by
  simpa [GoMap.size, List.length_eq_zero_iff] using h

theorem fillOne_spec {heap : List NodeObj} {cells cells' : List Cell} {e : Entry} {f : List Entry} {r : Ref}
    (h : FillOne heap cells e cells' f) (hh : Holds heap cells e r) :
    Grown heap cells cells' f ∧ (∀ c, c < cells.length → c ≠ e.1 → cells'[c]? = cells[c]?) ∧
      Done heap cells' f e.1 r := by
  obtain ⟨o, h1, h2, h3⟩ := hh
  cases h with
  | skip hs =>
    refine ⟨⟨Nat.le_refl _, by simp, by simp, by simp⟩, fun _ _ _ => rfl, ?_⟩
    refine ⟨o, [], [], h1, ?_, h3, .nil⟩
    simp only at h2
    rw [← h2, size_zero hs]
  | @fill c m es c1 ks f hs hp hf =>
    obtain ⟨g, fr, kd, kl, hx⟩ := fillKids_spec hf
    simp only at h2 h3
    have hc := lt_of_getElem? h3
    have ne : ∀ x ∈ f, x.1 ≠ c := by intro x hx; have := g.range x hx; omega
    have hold : ∀ {x : Entry} {r : Ref}, x ∈ f → Holds heap c1 x r → Holds heap (setKids c1 c ks) x r := by
      rintro x r hx ⟨o, a, b, d⟩
      exact ⟨o, a, b, by rw [setKids_ne _ _ (ne x hx)]; exact d⟩
    refine ⟨⟨by rw [setKids_length]; exact g.len, by rw [setKids_length]; exact g.range, g.nodup, ?_⟩, ?_, ?_⟩
    · intro x hx
      obtain ⟨r, hr⟩ := g.holds x hx
      exact ⟨r, hold hx hr⟩
    · intro x hx hne
      rw [setKids_ne _ _ hne]; exact fr x hx
    · refine ⟨o, es, ks, h1, h2 ▸ hp, ?_, kids_mono kd (fun _ h => h) (fun x hx => setKids_ne _ _ (ne x hx))⟩
      have : c1[c]? = some (cellOf o) := by rw [fr c hc]; exact h3
      exact setKids_self ks this

theorem fillLevel_spec {heap : List NodeObj} {cells cells' : List Cell} {l f : List Entry}
    (h : FillLevel heap cells l cells' f) : (l.map Prod.fst).Nodup → (∀ e ∈ l, ∃ r, Holds heap cells e r) →
    Grown heap cells cells' f ∧ (∀ c, c < cells.length → (∀ e ∈ l, e.1 ≠ c) → cells'[c]? = cells[c]?) ∧
      (∀ e ∈ l, ∀ r, Holds heap cells e r → Done heap cells' f e.1 r) := by
  induction h with
  | nil => intro _ _; exact ⟨⟨Nat.le_refl _, by simp, by simp, by simp⟩, fun _ _ _ => rfl, by simp⟩
  | @cons cells c1 c2 e l f1 f2 h1 _ ih =>
    intro hnd hh
    simp only [List.map_cons, List.nodup_cons] at hnd
    obtain ⟨r0, hr0⟩ := hh e (by simp)
    obtain ⟨g1, fr1, _⟩ := fillOne_spec h1 hr0
    have helt : ∀ x ∈ e :: l, x.1 < cells.length := by
      intro x hx
      obtain ⟨r, o, _, _, h3⟩ := hh x hx
      exact lt_of_getElem? h3
    have hne : ∀ x ∈ l, x.1 ≠ e.1 := by
      intro x hx heq
      exact hnd.1 (List.mem_map.2 ⟨x, hx, heq⟩)
    have hold : ∀ x ∈ l, ∀ r, Holds heap cells x r → Holds heap c1 x r := by
      rintro x hx r ⟨o, a, b, c⟩
      exact ⟨o, a, b, by rw [fr1 x.1 (helt x (by simp [hx])) (hne x hx)]; exact c⟩
    obtain ⟨g2, fr2, dn2⟩ := ih hnd.2 (fun x hx => by
      obtain ⟨r, hr⟩ := hh x (by simp [hx]); exact ⟨r, hold x hx r hr⟩)
    have hl1 := g1.len
    have hl2 := g2.len
    have keep1 : ∀ x ∈ f1, c2[x.1]? = c1[x.1]? := by
      intro x hx
      have := g1.range x hx
      exact fr2 x.1 this.2 (fun y hy heq => by have := helt y (by simp [hy]); omega)
    refine ⟨⟨by omega, ?_, ?_, ?_⟩, ?_, ?_⟩
    · intro x hx
      rcases List.mem_append.1 hx with hx | hx
      · have := g1.range x hx; omega
      · have := g2.range x hx; omega
    · rw [List.map_append, List.nodup_append]
      refine ⟨g1.nodup, g2.nodup, ?_⟩
      intro a ha b hb hab
      obtain ⟨x, hx, rfl⟩ := List.mem_map.1 ha
      obtain ⟨y, hy, rfl⟩ := List.mem_map.1 hb
      have := g1.range x hx
      have := g2.range y hy
      omega
    · intro x hx
      rcases List.mem_append.1 hx with hx | hx
      · obtain ⟨r, o, a, b, c⟩ := g1.holds x hx
        exact ⟨r, o, a, b, (keep1 x hx).trans c⟩
      · exact g2.holds x hx
    · intro c hc hl
      rw [fr2 c (by omega) (fun y hy => hl y (by simp [hy])), fr1 c hc (Ne.symm (hl e (by simp)))]
    · intro x hx r hr
      rcases List.mem_cons.1 hx with rfl | hx
      · obtain ⟨_, _, ⟨o, es, ks, a, b, c, d⟩⟩ := fillOne_spec h1 hr
        refine ⟨o, es, ks, a, b, ?_, kids_mono d (by simp_all) keep1⟩
        rw [fr2 x.1 (by have := helt x (by simp); omega) (fun y hy => hne y hy)]
        exact c
      · obtain ⟨o, es, ks, a, b, c, d⟩ := dn2 x hx r (hold x hx r hr)
        exact ⟨o, es, ks, a, b, c, kids_mono d (by simp_all) (fun _ _ => rfl)⟩

/-! ## The whole loop -/

theorem passes_spec {heap : List NodeObj} {n : Nat} {cells cells' : List Cell} {f f' : List Entry}
    (h : Passes heap n cells f cells' f') : f' = [] → (f.map Prod.fst).Nodup → (∀ e ∈ f, ∃ r, Holds heap cells e r) →
    (∀ c, c < cells.length → (∀ e ∈ f, e.1 ≠ c) → cells'[c]? = cells[c]?) ∧
      (∀ e ∈ f, ∀ r, Holds heap cells e r → ∃ nd, Reads cells' e.1 nd ∧ DumpsTo heap r nd) := by
  induction h with
  | zero => rintro rfl _ _; simp
  | @succ n cells c1 c2 f f' f1 f2 _ hp hl _ ih =>
    intro he hnd hh
    have hnd' : (f'.map Prod.fst).Nodup := (hp.map _).nodup_iff.1 hnd
    have hh' : ∀ e ∈ f', ∃ r, Holds heap cells e r := fun e he => hh e (hp.mem_iff.2 he)
    obtain ⟨g, fr, dn⟩ := fillLevel_spec hl hnd' hh'
    obtain ⟨fr2, rd⟩ := ih he g.nodup g.holds
    have hlen := g.len
    have old : ∀ c, c < cells.length → c2[c]? = c1[c]? := by
      intro c hc
      exact fr2 c (by omega) (fun e he heq => by have := g.range e he; omega)
    constructor
    · intro c hc hne
      rw [old c hc, fr c hc (fun e he => hne e (hp.mem_iff.2 he))]
    · intro e hef r hr
      obtain ⟨o, es, ks, a, b, c, d⟩ := dn e (hp.mem_iff.1 hef) r hr
      have hlt : e.1 < cells.length := by obtain ⟨_, _, _, h3⟩ := hr; exact lt_of_getElem? h3
      have hk : ∃ ds, ReadsList c2 ks ds ∧ DumpsList heap (es.map Prod.snd) ds := by
        clear c b
        induction d with
        | nil => exact ⟨[], .nil, .nil⟩
        | @cons k x ks es m i1 i2 _ ihk =>
          obtain ⟨ds, j1, j2⟩ := ihk
          obtain ⟨nd, k1, k2⟩ := rd _ i1 _ i2
          exact ⟨nd :: ds, .cons k1 j1, .cons k2 j2⟩
      obtain ⟨ds, j1, j2⟩ := hk
      refine ⟨.mk o.id.hex ds o.annotations o.data, ?_, .mk a b j2 (.refl _) (.refl _)⟩
      have : c2[e.1]? = some { cellOf o with kids := ks } := by rw [old e.1 hlt]; exact c
      exact Reads.mk this j1

/-- The state before the loop (pkg/spaces/trees/dump.go:44-51). -/
def start (o : NodeObj) : List Cell × List Entry := ([cellOf o], [(0, o.children)])

/-- Every finished run of the loop leaves an export of the node in the first cell. -/
theorem loop_dumps {heap : List NodeObj} {r : Ref} {o : NodeObj} (ho : heap[r]? = some o) {n : Nat} {cells : List Cell}
    (h : Passes heap n (start o).1 (start o).2 cells []) : ∃ nd, Reads cells 0 nd ∧ DumpsTo heap r nd := by
  have := passes_spec h rfl (by simp [start]) (by
    intro e he
    simp only [start, List.mem_singleton] at he; subst he
    exact ⟨r, o, ho, rfl, by simp [start]⟩)
  exact this.2 (0, o.children) (by simp [start]) r ⟨o, ho, rfl, by simp [start]⟩

/-! ## The loop ends -/

open TS

/-- Pending cells hold nodes at depth at least `k`. -/
def Deep (s : TS) (d : Ref → Nat) (k : Nat) (cells : List Cell) (f : List Entry) : Prop :=
  ∀ e ∈ f, ∃ r, Holds s.heap cells e r ∧ s.In r ∧ k ≤ d r

theorem kids_valid {s : TS} (h : WF s) {r : Ref} {o : NodeObj} (ho : s.heap[r]? = some o) (hr : s.In r)
    {es : List (Str × Ref)} (hp : es.Perm o.children.entries) (cells : List Cell) :
    ∃ t, fillKids s.heap es cells = some t := by
  have h2 := (children_refs h ho hr hp).2
  clear hp
  induction es generalizing cells with
  | nil => exact ⟨_, rfl⟩
  | cons e es ih =>
    obtain ⟨_, co, hco, _⟩ := h2 e.2 (by simp)
    obtain ⟨t, ht⟩ := ih (cells ++ [cellOf co]) (fun c hc => h2 c (by
      simp only [List.map_cons, List.mem_cons]; exact Or.inr hc))
    obtain ⟨k, r'⟩ := e
    simp only at hco
    obtain ⟨t1, t2, t3⟩ := t
    exact ⟨_, by simp only [fillKids, hco, ht]; rfl⟩

/-- A pass can always be made. -/
theorem fillLevel_exists {s : TS} (h : WF s) : ∀ (l : List Entry) (cells : List Cell), (l.map Prod.fst).Nodup →
    (∀ e ∈ l, ∃ r, Holds s.heap cells e r ∧ s.In r) → ∃ cells' f, FillLevel s.heap cells l cells' f
  | [], cells, _, _ => ⟨cells, [], .nil⟩
  | e :: l, cells, hnd, hh => by
    obtain ⟨r, hr, hin⟩ := hh e (by simp)
    obtain ⟨c1, f1, h1⟩ : ∃ c1 f1, FillOne s.heap cells e c1 f1 := by
      obtain ⟨o, a, b, c⟩ := hr
      obtain ⟨c0, m⟩ := e
      by_cases hs : m.size = 0
      · exact ⟨_, _, .skip hs⟩
      · simp only at b; subst b
        obtain ⟨⟨c1, ks, f⟩, ht⟩ := kids_valid h a hin (List.Perm.refl _) cells
        exact ⟨_, _, .fill hs (List.Perm.refl _) ht⟩
    obtain ⟨g, fr, _⟩ := fillOne_spec h1 hr
    simp only [List.map_cons, List.nodup_cons] at hnd
    obtain ⟨c2, f2, h2⟩ := fillLevel_exists h l c1 hnd.2 (by
      intro x hx
      obtain ⟨r', ⟨o, a, b, c⟩, hin'⟩ := hh x (by simp [hx])
      refine ⟨r', ⟨o, a, b, ?_⟩, hin'⟩
      rw [fr x.1 (lt_of_getElem? c) (fun heq => hnd.1 (List.mem_map.2 ⟨x, hx, heq⟩))]
      exact c)
    exact ⟨c2, f1 ++ f2, .cons h1 h2⟩

theorem fillOne_deep {s : TS} (h : WF s) {d : Ref → Nat} (hd : IsDepth s d) {k : Nat} {cells cells' : List Cell} {e : Entry}
    {f : List Entry} {r : Ref} (h1 : FillOne s.heap cells e cells' f) (hh : Holds s.heap cells e r) (hr : s.In r)
    (hk : k ≤ d r) : Deep s d (k + 1) cells' f := by
  intro x hx
  cases h1 with
  | skip hs => cases hx
  | @fill c m es c1 ks f hs hp hf =>
    obtain ⟨o, a, b, c'⟩ := hh
    obtain ⟨g, fr, kd, kl, hx'⟩ := fillKids_spec hf
    obtain ⟨y, hy, o2, i1, i2, i3⟩ := hx' x hx
    simp only at b c'
    subst b
    obtain ⟨_, hc⟩ := children_refs h a hr hp
    obtain ⟨hin, co, hco, hcp⟩ := hc y.2 (List.mem_map.2 ⟨y, hy, rfl⟩)
    have hlt := lt_of_getElem? c'
    have hin' := hin
    obtain ⟨co', hco', hn⟩ := hin
    rw [hco] at hco'; cases hco'
    have hdep := (hd y.2 co hco hn).2 r hcp
    refine ⟨y.2, ⟨o2, i1, i2, ?_⟩, hin', by omega⟩
    rw [setKids_ne _ _ (by have := g.range x hx; omega)]; exact i3

theorem fillLevel_deep {s : TS} (h : WF s) {d : Ref → Nat} (hd : IsDepth s d) {k : Nat} {cells cells' : List Cell}
    {l f : List Entry} (hl : FillLevel s.heap cells l cells' f) : (l.map Prod.fst).Nodup → Deep s d k cells l →
    Deep s d (k + 1) cells' f := by
  induction hl with
  | nil => intro _ _ x hx; cases hx
  | @cons cells c1 c2 e l f1 f2 h1 h2 ih =>
    intro hnd hdp x hx
    simp only [List.map_cons, List.nodup_cons] at hnd
    obtain ⟨r, hr, hin, hk⟩ := hdp e (by simp)
    obtain ⟨g, fr, _⟩ := fillOne_spec h1 hr
    have hold : ∀ y ∈ l, ∀ r', Holds s.heap cells y r' → Holds s.heap c1 y r' := by
      rintro y hy r' ⟨o, a, b, c⟩
      exact ⟨o, a, b, by
        rw [fr y.1 (lt_of_getElem? c) (fun heq => hnd.1 (List.mem_map.2 ⟨y, hy, heq⟩))]; exact c⟩
    have hdp1 : Deep s d k c1 l := by
      intro y hy
      obtain ⟨r', a, b, c⟩ := hdp y (by simp [hy])
      exact ⟨r', hold y hy r' a, b, c⟩
    rcases List.mem_append.1 hx with hx | hx
    · obtain ⟨r', ⟨o, a, b, c⟩, i, j⟩ := fillOne_deep h hd h1 hr hin hk x hx
      refine ⟨r', ⟨o, a, b, ?_⟩, i, j⟩
      obtain ⟨_, fr2, _⟩ := fillLevel_spec h2 hnd.2 (fun y hy => by obtain ⟨r', a, _⟩ := hdp1 y hy; exact ⟨r', a⟩)
      rw [fr2 x.1 (g.range x hx).2 (fun y hy heq => by
        obtain ⟨_, ⟨_, _, _, h3⟩, _⟩ := hdp y (by simp [hy])
        have := lt_of_getElem? h3
        have := g.range x hx
        omega)]
      exact c
    · exact ih hnd.2 hdp1 x hx

/-- From any state of the loop: it can go on unless it is finished, and it makes at most as many further passes as there
are levels left. -/
theorem passes_ends {s : TS} (h : WF s) {d : Ref → Nat} (hd : IsDepth s d) {n : Nat} {cells cells' : List Cell}
    {f f' : List Entry} (hp : Passes s.heap n cells f cells' f') : ∀ {k : Nat}, (f.map Prod.fst).Nodup →
    Deep s d k cells f → (f'.map Prod.fst).Nodup ∧ Deep s d (k + n) cells' f' := by
  induction hp with
  | zero => intro k a b; exact ⟨a, b⟩
  | @succ n cells c1 c2 f f' f1 f2 _ hpm hl _ ih =>
    intro k a b
    have a' := (hpm.map Prod.fst).nodup_iff.1 a
    have b' : Deep s d k cells f' := fun e he => b e (hpm.mem_iff.2 he)
    have hdeep := fillLevel_deep h hd hl a' b'
    obtain ⟨g, _, _⟩ := fillLevel_spec hl a' (fun e he => by obtain ⟨r, x, _⟩ := b' e he; exact ⟨r, x⟩)
    obtain ⟨i, j⟩ := ih (k := k + 1) g.nodup hdeep
    exact ⟨i, by have : k + (n + 1) = k + 1 + n := by omega
                 rw [this]; exact j⟩

theorem passes_trans {heap : List NodeObj} {n m : Nat} {c1 c2 c3 : List Cell} {f1 f2 f3 : List Entry}
    (h1 : Passes heap n c1 f1 c2 f2) (h2 : Passes heap m c2 f2 c3 f3) : Passes heap (n + m) c1 f1 c3 f3 := by
  induction h1 with
  | zero => simpa using h2
  | @succ n _ _ _ _ _ _ _ a b c _ ih =>
    have : n + 1 + m = (n + m) + 1 := by omega
    rw [this]
    exact .succ a b c (ih h2)

/-- No run of `Dump` makes more passes than the tree has nodes, and every unfinished run can go on; so `Dump` ends. -/
theorem loop_bounded {s : TS} (h : WF s) {r : Ref} {o : NodeObj} (ho : s.heap[r]? = some o) (hr : s.In r) {n : Nat}
    {cells : List Cell} {f : List Entry} (hp : Passes s.heap n (start o).1 (start o).2 cells f) :
    (f ≠ [] → n < s.tree.nodes.size ∧ ∃ cells' f', Passes s.heap (n + 1) (start o).1 (start o).2 cells' f') := by
  obtain ⟨d, hd⟩ := h.depth
  obtain ⟨a, b⟩ := passes_ends h hd hp (k := 0) (by simp [start]) (by
    intro e he
    simp only [start, List.mem_singleton] at he; subst he
    exact ⟨r, ⟨o, ho, rfl, by simp [start]⟩, hr, Nat.zero_le _⟩)
  intro hne
  constructor
  · cases f with
    | nil => exact absurd rfl hne
    | cons e f =>
      obtain ⟨x, _, ⟨xo, hxo, hxi⟩, hk⟩ := b e (by simp)
      have := (hd x xo hxo hxi).1
      omega
  · obtain ⟨c', f', hl⟩ := fillLevel_exists h f cells a (fun e he => by
      obtain ⟨x, i, j, _⟩ := b e he; exact ⟨x, i, j⟩)
    exact ⟨c', f', passes_trans hp (.succ hne (List.Perm.refl _) hl .zero)⟩

end DumpLoop
end Verif
