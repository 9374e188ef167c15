import Verif.Tree.DumpProofs
/-!
# `Dump` while other goroutines change the tree

Every method of a tree or node is atomic under its lock. `Dump` is a sequence of such calls, so other calls may come between
any two of them.
-/
set_option autoImplicit false
namespace Verif
open TS

/-- The states of a tree one after the other, while any goroutines call its methods. A call that fails changes nothing.
`AddNode` counts as one step although it locks the nodes for long and the children of the parent only in between, because
nothing that `Dump` reads changes after `AddChild` (`addNode_view`). -/
structure Timeline (S : Nat → TS) : Prop where
  start : Reach (S 0)
  step : ∀ i, S (i + 1) = S i ∨ ∃ op : Op, op.Legal (S i).abs ∧ (S i).call op = .ok (S (i + 1))

mutual
/-- What `Dump` (pkg/spaces/trees/dump.go:43-71) builds for one node, when each read happens at some time from `t` to `n`: the calls
`Annotations()`, `Data()` and `Children()` (pkg/spaces/trees/dump.go:46-47, :50, :62-65) may each see another state. The children are read after
they were found, otherwise the order is left open. -/
inductive RDumpsTo (S : Nat → TS) (n : Nat) : Nat → Ref → NodeDump → Prop where
  | mk {r : Ref} {t ta td tc : Nat} {oa od oc : NodeObj} {es : List (Str × Ref)} {ds : List NodeDump} {anno : GoMap Str}
      {data : GoMap (Option Str)} :
      t ≤ ta → ta ≤ n → t ≤ td → td ≤ n → t ≤ tc → tc ≤ n →
      (S ta).heap[r]? = some oa → (S td).heap[r]? = some od → (S tc).heap[r]? = some oc →
      es.Perm oc.children.entries → RDumpsList S n tc (es.map Prod.snd) ds →
      GoMap.Copy oa.annotations anno → GoMap.Copy od.data data →
      RDumpsTo S n t r (.mk oa.id.hex ds anno data)
/-- The dumps of a list of nodes. -/
inductive RDumpsList (S : Nat → TS) (n : Nat) : Nat → List Ref → List NodeDump → Prop where
  | nil {t : Nat} : RDumpsList S n t [] []
  | cons {t : Nat} {r : Ref} {d : NodeDump} {rs : List Ref} {ds : List NodeDump} :
      RDumpsTo S n t r d → RDumpsList S n t rs ds → RDumpsList S n t (r :: rs) (d :: ds)
end

/-- `Dump` (pkg/spaces/trees/dump.go:32-88): it reads the root at `t0`, then the branches at `t1`, then the tags at `t2` (pkg/spaces/trees/dump.go:38-40), then
the nodes, and is through at `n`. The IDs that the name tables refer to are read later, but an ID never changes. -/
structure RDumps (S : Nat → TS) (t0 t1 t2 n : Nat) (d : TreeDump) : Prop where
  le1 : t0 ≤ t1
  le2 : t1 ≤ t2
  le3 : t2 ≤ n
  nodes : match (S t0).tree.root with
    | none => d.nodes = none
    | some r => ∃ nd, d.nodes = some nd ∧ RDumpsTo S n t2 r nd
  branches : DumpsNames (S t1).heap (S t1).tree.branches d.branches
  tags : DumpsNames (S t2).heap (S t2).tree.tags d.tags

namespace TS

/-- What `Dump` can read of a state. -/
def view (s : TS) : Option Ref × GoMap Ref × GoMap Ref × List (UID × GoMap Ref × GoMap Str × GoMap (Option Str)) :=
  (s.tree.root, s.tree.branches, s.tree.tags, s.heap.map fun o => (o.id, o.children, o.annotations, o.data))

/-- After the call of `AddChild` (pkg/spaces/trees/tree.go:211) the rest of `AddNode` (pkg/spaces/trees/tree.go:212-216) changes nothing that `Dump` reads. -/
theorem addNode_view {s s' : TS} {pid : UID} {r : Ref} (h : s.addNode (some pid) r = .ok s') :
    ∃ p s1 b, s.tree.nodes.get pid.hex = some p ∧ s.addChild p r = some (s1, b) ∧ s1.view = s'.view := by
  simp only [addNode] at h
  cases hp : s.tree.nodes.get pid.hex with
  | none => simp [hp] at h
  | some p =>
    simp only [hp] at h
    cases hc : s.addChild p r with
    | none => simp [hc] at h
    | some x =>
      obtain ⟨s1, b⟩ := x
      refine ⟨p, s1, b, rfl, hc, ?_⟩
      simp only [hc] at h
      cases hs : s1.setParent r (some p) with
      | none => simp [hs] at h
      | some s2 =>
        simp only [hs, updateIndexes] at h
        have h2 : s2.view = s1.view := by
          simp only [setParent, modify] at hs
          cases ho : s1.heap[r]? with
          | none => simp [ho] at hs
          | some o =>
            simp only [ho, Option.some.injEq] at hs
            subst hs
            simp only [view]
            congr 3
            apply List.ext_getElem?
            intro i
            simp only [List.getElem?_map, List.getElem?_set]
            by_cases hi : r = i
            · subst hi; rw [ho]; simp [lt_of_getElem? ho]
            · simp [hi]
        cases hl : indexLoop (ε := TreeErr) s2.heap (s2.heap.length + 1) [r] s2.tree.nodes.ensure.entries with
        | ok idx =>
          simp only [hl, Res.bind, Res.ok.injEq] at h
          subst h
          exact h2.symm
        | err e => rw [hl] at h; cases h
        | panic => rw [hl] at h; cases h
        | diverge => rw [hl] at h; cases h

/-- Nodes stay, with their IDs, their parents and their children. -/
structure Grows (s s' : TS) : Prop where
  node : ∀ r o, s.heap[r]? = some o → s.tree.nodes.get o.id.hex = some r →
    ∃ o', s'.heap[r]? = some o' ∧ o'.id = o.id ∧ o'.parent = o.parent ∧ s'.tree.nodes.get o.id.hex = some r ∧
      ∀ k c, o.children.get k = some c → o'.children.get k = some c
  root : ∀ r, s.tree.root = some r → s'.tree.root = some r

theorem Grows.refl (s : TS) : Grows s s := ⟨fun _ o h1 h2 => ⟨o, h1, rfl, rfl, h2, fun _ _ h => h⟩, fun _ h => h⟩

theorem Grows.trans {a b c : TS} (h1 : Grows a b) (h2 : Grows b c) : Grows a c where
  node r o ho hi := by
    obtain ⟨o1, a1, a2, a3, a4, a5⟩ := h1.node r o ho hi
    obtain ⟨o2, b1, b2, b3, b4, b5⟩ := h2.node r o1 a1 (by rw [a2]; exact a4)
    exact ⟨o2, b1, b2.trans a2, b3.trans a3, by rw [a2] at b4; exact b4, fun k x hx => b5 k x (a5 k x hx)⟩
  root r h := h2.root r (h1.root r h)

theorem grows_of_same {s s' : TS} (hh : s'.heap = s.heap) (hn : s'.tree.nodes = s.tree.nodes) (hr : s'.tree.root = s.tree.root) :
    Grows s s' :=
  ⟨fun _ o h1 h2 => ⟨o, by rw [hh]; exact h1, rfl, rfl, by rw [hn]; exact h2, fun _ _ h => h⟩, fun _ h => by rw [hr]; exact h⟩

theorem grows_of_set {s : TS} {r : Ref} {o o' : NodeObj} (ho : s.heap[r]? = some o) (h1 : o'.id = o.id) (h2 : o'.parent = o.parent)
    (h3 : o'.children = o.children) : Grows s { s with heap := s.heap.set r o' } where
  node x xo hx hi := by
    by_cases he : r = x
    · subst he
      rw [ho] at hx
      cases hx
      exact ⟨o', by simp [lt_of_getElem? ho], h1, h2, hi, fun k c hk => by rw [h3]; exact hk⟩
    · exact ⟨xo, by simp [he, hx], rfl, rfl, hi, fun _ _ h => h⟩
  root _ h := h

theorem grows_call {s s' : TS} (h : WF s) {op : Op} (hl : op.Legal s.abs) (hc : s.call op = .ok s') : Grows s s' := by
  cases op with
  | add p id anno data =>
    obtain ⟨hnew, ha, hd⟩ := hl
    obtain ⟨s1, he, hw, habs, ht, hf⟩ := mkNode_spec h ha hd hnew
    have h1 : Grows s s1 := by
      have he' := mkNode_eq s id anno data
      rw [he] at he'
      simp only [Option.some.injEq, Prod.mk.injEq, true_and] at he'
      subst he'
      refine ⟨fun r o ho hi => ⟨o, ?_, rfl, rfl, hi, fun _ _ hk => hk⟩, fun _ hr => hr⟩
      show (s.heap ++ _)[r]? = _
      rw [List.getElem?_append_left (lt_of_getElem? ho)]
      exact ho
    refine h1.trans ?_
    simp only [call, he] at hc
    cases p with
    | none =>
      cases hr : s1.tree.root with
      | some r => simp [addNode, hr] at hc
      | none =>
        rw [addNode_root_eq hr hf] at hc
        cases hc
        refine ⟨fun r o ho hi => ?_, fun r hr' => by rw [hr] at hr'; cases hr'⟩
        rw [hw.rootNone hr] at hi
        cases hi
    | some pid =>
      cases hp : s1.tree.nodes.get pid.hex with
      | none => simp [addNode, hp] at hc
      | some p =>
        obtain ⟨po, a1, a2, a3, a4, a5⟩ := addNode_child_eq hw hp hf
        rw [a5] at hc
        cases hc
        have hheap := added_heap a1 hf.obj a3
        refine ⟨fun r o ho hi => ?_, fun r hr' => hr'⟩
        have hrne : r ≠ s.heap.length := by
          rintro rfl
          rw [hf.obj] at ho
          cases ho
          rw [hf.new] at hi
          cases hi
        have hn : (addedChild s1 p s.heap.length po ⟨id, none, none, anno, data⟩).tree.nodes.get o.id.hex = some r := by
          simp only [addedChild, GoMap.get_some, AL.get_put]
          by_cases hx : id.hex = o.id.hex
          · have := hf.new
            rw [← hx] at hi
            simp only at this
            rw [this] at hi
            cases hi
          · rw [if_neg hx]; exact hi
        rw [hheap, if_neg hrne]
        by_cases hrp : r = p
        · subst hrp
          rw [a1] at ho
          cases ho
          rw [if_pos rfl]
          refine ⟨_, rfl, rfl, rfl, hn, fun k c hk => ?_⟩
          simp only [GoMap.get_some, AL.get_put]
          by_cases hx : id.hex = k
          · subst hx; simp only at a4; rw [a4] at hk; cases hk
          · rw [if_neg hx]; exact hk
        · exact ⟨o, by rw [if_neg hrp]; exact ho, rfl, rfl, hn, fun _ _ hk => hk⟩
  | addTag n id =>
    simp only [call, addTag] at hc
    split at hc
    · cases hc
    · split at hc
      · cases hc
      · cases hc; exact grows_of_same rfl rfl rfl
  | deleteTag n =>
    simp only [call, deleteTag, Res.ok.injEq] at hc
    subst hc
    split <;> exact grows_of_same rfl rfl rfl
  | addBranch n id =>
    simp only [call, addBranch] at hc
    split at hc
    · cases hc
    · split at hc
      · cases hc
      · cases hc; exact grows_of_same rfl rfl rfl
  | updateBranch n id f =>
    simp only [call, updateBranch, Res.bind] at hc
    repeat' split at hc
    all_goals first
      | (cases hc; done)
      | (cases hc; exact grows_of_same rfl rfl rfl)
  | deleteBranch n =>
    simp only [call, deleteBranch, Res.ok.injEq] at hc
    subst hc
    split <;> exact grows_of_same rfl rfl rfl
  | annotate id k v =>
    simp only [call, addAnnotation, modify] at hc
    cases hg : s.get id with
    | none => simp [hg] at hc
    | some r =>
      simp only [hg] at hc
      cases ho : s.heap[r]? with
      | none => simp [ho] at hc
      | some o =>
        simp only [ho, Res.ok.injEq] at hc
        subst hc
        exact grows_of_set ho rfl rfl rfl
  | addData id k v =>
    simp only [call, addData, modify] at hc
    cases hg : s.get id with
    | none => simp [hg] at hc
    | some r =>
      simp only [hg] at hc
      cases ho : s.heap[r]? with
      | none => simp [ho] at hc
      | some o =>
        simp only [ho, Res.ok.injEq] at hc
        subst hc
        exact grows_of_set ho rfl rfl rfl

end TS

theorem timeline_reach {S : Nat → TS} (h : Timeline S) : ∀ i, Reach (S i)
  | 0 => h.start
  | i + 1 => by
    have hi := timeline_reach h i
    rcases h.step i with he | ⟨op, hl, hc⟩
    · rw [he]; exact hi
    · exact .ok hi hl hc

theorem timeline_grows {S : Nat → TS} (h : Timeline S) (i : Nat) : ∀ n, Grows (S i) (S (i + n))
  | 0 => Grows.refl _
  | n + 1 => by
    refine (timeline_grows h i n).trans ?_
    rcases h.step (i + n) with he | ⟨op, hl, hc⟩
    · show Grows (S (i + n)) (S (i + n + 1))
      rw [he]; exact Grows.refl _
    · exact grows_call (wf_of_reach (timeline_reach h _)) hl hc

theorem timeline_le {S : Nat → TS} (h : Timeline S) {i j : Nat} (hij : i ≤ j) : Grows (S i) (S j) := by
  have := timeline_grows h i (j - i)
  rwa [show i + (j - i) = j by omega] at this

theorem grows_in {s s' : TS} (h : Grows s s') {r : Ref} (hr : s.In r) : s'.In r := by
  obtain ⟨o, ho, hi⟩ := hr
  obtain ⟨o', a, b, _, d, _⟩ := h.node r o ho hi
  exact ⟨o', a, by rw [b]; exact d⟩

theorem grows_ranc {s s' : TS} (hw : WF s) (h : Grows s s') {a x : Ref} (hx : s.In x) (hr : RAnc s.heap a x) : RAnc s'.heap a x := by
  induction hr with
  | refl => exact .refl
  | @step x p o h1 h2 h3 ih =>
    have hp := in_parent hw hx h1 h2
    obtain ⟨o1, ho1, hi⟩ := hx
    rw [h1] at ho1
    cases ho1
    obtain ⟨o', b1, _, b3, _, _⟩ := h.node x o h1 hi
    exact .step b1 (b3.trans h2) (ih hp)

/-- In a later state, the node is known. -/
theorem obj_at {s s' : TS} (h : Grows s s') {r : Ref} (hr : s.In r) {o' : NodeObj} (ho' : s'.heap[r]? = some o') :
    ∃ o, s.heap[r]? = some o ∧ s.tree.nodes.get o.id.hex = some r ∧ o'.id = o.id ∧ o'.parent = o.parent ∧
      s'.tree.nodes.get o'.id.hex = some r := by
  obtain ⟨o, ho, hi⟩ := hr
  obtain ⟨o2, a, b, c, d, _⟩ := h.node r o ho hi
  rw [ho'] at a
  cases a
  exact ⟨o, ho, hi, b, c, by rw [b]; exact d⟩

/-- A node of the dump: the tree has it at the end, and its annotations and data are maps. -/
theorem rdumpsTo_id {S : Nat → TS} (h : Timeline S) {t n : Nat} {r : Ref} {d : NodeDump} (hd : RDumpsTo S n t r d) (hr : (S t).In r) :
    ∃ o, (S n).heap[r]? = some o ∧ (S n).tree.nodes.get o.id.hex = some r ∧ d.id = o.id.hex ∧ d.annotations.Nodup ∧ d.data.Nodup := by
  cases hd with
  | @mk _ _ ta td tc oa od oc es ds anno data l1 l2 l3 l4 l5 l6 h1 h2 h3 h4 h5 h6 h7 =>
    have hrta := grows_in (timeline_le h l1) hr
    have hrtd := grows_in (timeline_le h l3) hr
    obtain ⟨o, ho, hi⟩ := grows_in (timeline_le h (Nat.le_trans l1 l2)) hr
    obtain ⟨oa', b1, b2, b3, _⟩ := obj_at (timeline_le h l2) hrta ho
    rw [h1] at b1; cases b1
    obtain ⟨od', c1, c2⟩ := hrtd
    rw [h2] at c1; cases c1
    exact ⟨o, ho, hi, by rw [b3]; rfl, h6.nodup ((wf_of_reach (timeline_reach h ta)).maps r oa h1 b2).1,
      h7.nodup ((wf_of_reach (timeline_reach h td)).maps r od h2 c2).2⟩

/-- The edge `e` of a racing dump shows the node `x` of the last state and its parent, a descendant of `a`. -/
def RShows (S : Nat → TS) (n : Nat) (a : Ref) (e : Str × NodeDump) (x : Ref) : Prop :=
  (S n).In x ∧ (∃ t, (S t).In x ∧ RDumpsTo S n t x e.2) ∧ ∃ o p po, (S n).heap[x]? = some o ∧ e.2.id = o.id.hex ∧ o.parent = some p ∧
    (S n).heap[p]? = some po ∧ e.1 = po.id.hex ∧ RAnc (S n).heap a p

theorem rshows_id {S : Nat → TS} {n : Nat} {a x : Ref} {e : Str × NodeDump} (h : RShows S n a e x) :
    ∃ o, (S n).heap[x]? = some o ∧ e.2.id = o.id.hex ∧ (S n).tree.nodes.get o.id.hex = some x := by
  obtain ⟨⟨o, h2, h3⟩, _, o', p, po, h4, h5, _⟩ := h
  rw [h2] at h4; cases h4
  exact ⟨o, h2, h5, h3⟩

/-- The references found in the children map of a node at one time are its children at the end. -/
theorem found_children {S : Nat → TS} (h : Timeline S) {tc n : Nat} (hle : tc ≤ n) {r : Ref} {oc : NodeObj} (ho : (S tc).heap[r]? = some oc)
    (hr : (S tc).In r) {es : List (Str × Ref)} (hp : es.Perm oc.children.entries) :
    (es.map Prod.snd).Nodup ∧ ∀ c ∈ es.map Prod.snd, (S tc).In c ∧ (S n).In c ∧ ∃ co, (S n).heap[c]? = some co ∧ co.parent = some r := by
  obtain ⟨h1, h2⟩ := children_refs (wf_of_reach (timeline_reach h tc)) ho hr hp
  refine ⟨h1, fun c hc => ?_⟩
  obtain ⟨a, co, b1, b2⟩ := h2 c hc
  have hg := timeline_le h hle
  obtain ⟨co', d1, d2⟩ := a
  rw [b1] at d1; cases d1
  obtain ⟨o', e1, e2, e3, e4, _⟩ := hg.node c co b1 d2
  exact ⟨⟨co, b1, d2⟩, ⟨o', e1, by rw [e2]; exact e4⟩, o', e1, e3.trans b2⟩

mutual
theorem rdumpsTo_edges {S : Nat → TS} (h : Timeline S) {n : Nat} {d : Ref → Nat} (hd : IsDepth (S n) d) :
    ∀ {t : Nat} {r : Ref} {nd : NodeDump}, RDumpsTo S n t r nd → (S t).In r →
      (∀ e ∈ desc nd, ∃ x, RShows S n r e x) ∧ ((desc nd).map fun e => e.2.id).Nodup
  | t, r, _, .mk (ta := ta) (tc := tc) (oa := oa) (oc := oc) (es := es) (ds := ds) l1 l2 l3 l4 l5 l6 ha1 ha2 ho hp hds _ _, hr => by
    obtain ⟨h1, h2⟩ := found_children h l6 ho (grows_in (timeline_le h l5) hr) hp
    have hrta := grows_in (timeline_le h l1) hr
    obtain ⟨o, hon, _⟩ := grows_in (timeline_le h (Nat.le_trans l1 l2)) hr
    obtain ⟨oa', b1, b2, b3, _⟩ := obj_at (timeline_le h l2) hrta hon
    rw [ha1] at b1; cases b1
    have := rdumpsList_edges h hd hds (p := r) (po := o) hon h1 h2
    rw [b3] at this
    exact ⟨fun e he => by
      obtain ⟨x, c, hc, hx, hcx⟩ := this.1 e he
      exact ⟨x, hx⟩, this.2⟩
theorem rdumpsList_edges {S : Nat → TS} (h : Timeline S) {n : Nat} {d : Ref → Nat} (hd : IsDepth (S n) d) :
    ∀ {t : Nat} {rs : List Ref} {ds : List NodeDump}, RDumpsList S n t rs ds → ∀ {p : Ref} {po : NodeObj}, (S n).heap[p]? = some po →
      rs.Nodup → (∀ c ∈ rs, (S t).In c ∧ (S n).In c ∧ ∃ co, (S n).heap[c]? = some co ∧ co.parent = some p) →
      (∀ e ∈ descKids po.id.hex ds, ∃ x c, c ∈ rs ∧ RShows S n p e x ∧ RAnc (S n).heap c x) ∧
      ((descKids po.id.hex ds).map fun e => e.2.id).Nodup
  | _, _, _, .nil, p, po, _, _, _ => by simp [descKids]
  | t, _, _, .cons (r := r) (d := nd) (rs := rs) (ds := ds) h1 h2, p, po, hpo, hnd, hc => by
    have hwf := wf_of_reach (timeline_reach h n)
    obtain ⟨hrt, hrin, ro, hro, hrp⟩ := hc r (by simp)
    obtain ⟨a1, a2⟩ := rdumpsTo_edges h hd h1 hrt
    simp only [List.nodup_cons] at hnd
    obtain ⟨b1, b2⟩ := rdumpsList_edges h hd h2 hpo hnd.2 (fun c hc' => hc c (by simp [hc']))
    have hpr : RAnc (S n).heap p r := .step hro hrp .refl
    have hshow : RShows S n p (po.id.hex, nd) r := by
      obtain ⟨o, g1, g2, g3, _⟩ := rdumpsTo_id h h1 hrt
      rw [hro] at g1; cases g1
      exact ⟨hrin, ⟨t, hrt, h1⟩, ro, p, po, hro, g3, hrp, hpo, rfl, .refl⟩
    have hdr : d r = d p + 1 := by
      obtain ⟨ro', hro', hn⟩ := hrin
      rw [hro] at hro'; cases hro'
      exact (hd r ro hro hn).2 p hrp
    have A : ∀ e ∈ desc nd, ∃ x, RShows S n p e x ∧ RAnc (S n).heap r x ∧ x ≠ r := by
      intro e he
      obtain ⟨x, c2, c1, o, q, qo, c3, c3', c4, c5, c6, c7⟩ := a1 e he
      refine ⟨x, ⟨c2, c1, o, q, qo, c3, c3', c4, c5, c6, ranc_trans hpr c7⟩, .step c3 c4 c7, ?_⟩
      rintro rfl
      have hq := in_parent hwf c2 c3 c4
      have hle := (depth_le_of_ranc hwf hd c7 hq).1
      obtain ⟨o', ho', hn⟩ := c2
      rw [c3] at ho'; cases ho'
      have := (hd _ o c3 hn).2 q c4
      omega
    have B : ∀ e ∈ descKids po.id.hex ds, ∃ x, RShows S n p e x ∧ ¬ RAnc (S n).heap r x := by
      intro e he
      obtain ⟨x, c, hcm, hs, hcx⟩ := b1 e he
      refine ⟨x, hs, fun hrx => ?_⟩
      obtain ⟨_, hcin, co, hco, hcp⟩ := hc c (by simp [hcm])
      have hdc : d c = d p + 1 := by
        obtain ⟨co', hco', hn⟩ := hcin
        rw [hco] at hco'; cases hco'
        exact (hd c co hco hn).2 p hcp
      have : r = c := ranc_unique hwf hd hrx hcx hs.1 (by omega)
      subst this
      exact hnd.1 hcm
    have same : ∀ {e e' : Str × NodeDump} {x x' : Ref}, RShows S n p e x → RShows S n p e' x' → e.2.id = e'.2.id → x = x' := by
      intro e e' x x' g1 g2 g3
      obtain ⟨o1, i1, i2, i3⟩ := rshows_id g1
      obtain ⟨o2, j1, j2, j3⟩ := rshows_id g2
      rw [i2, j2] at g3
      rw [g3, j3] at i3; exact (Option.some.inj i3).symm
    simp only [descKids]
    constructor
    · intro e he
      rcases List.mem_cons.1 he with rfl | he
      · exact ⟨r, r, by simp, hshow, .refl⟩
      · rcases List.mem_append.1 he with he | he
        · obtain ⟨x, g1, g2, _⟩ := A e he
          exact ⟨x, r, by simp, g1, g2⟩
        · obtain ⟨x, c, g1, g2, g3⟩ := b1 e he
          exact ⟨x, c, by simp [g1], g2, g3⟩
    · simp only [List.map_cons, List.map_append, List.nodup_cons, List.mem_append, List.nodup_append]
      refine ⟨?_, a2, b2, ?_⟩
      · rintro (hm | hm)
        · obtain ⟨e, he, heq⟩ := List.mem_map.1 hm
          obtain ⟨x, g1, _, g3⟩ := A e he
          exact g3 (same g1 hshow heq)
        · obtain ⟨e, he, heq⟩ := List.mem_map.1 hm
          obtain ⟨x, g1, g2⟩ := B e he
          exact g2 ((same g1 hshow heq) ▸ .refl)
      · intro i hi j hj hij
        obtain ⟨e, he, rfl⟩ := List.mem_map.1 hi
        obtain ⟨e', he', rfl⟩ := List.mem_map.1 hj
        obtain ⟨x, g1, g2, _⟩ := A e he
        obtain ⟨x', g1', g2'⟩ := B e' he'
        exact g2' ((same g1 g1' hij) ▸ g2)
end

/-! ## Every node that was there is shown -/

theorem rdumpsList_mem {S : Nat → TS} {n t : Nat} {rs : List Ref} {ds : List NodeDump} (h : RDumpsList S n t rs ds) {r : Ref}
    (hr : r ∈ rs) : ∃ d ∈ ds, RDumpsTo S n t r d := by
  induction rs generalizing ds with
  | nil => cases hr
  | cons x xs ih =>
    cases h with
    | cons h1 h2 =>
      rcases List.mem_cons.1 hr with rfl | hr
      · exact ⟨_, by simp, h1⟩
      · obtain ⟨d, hd, h3⟩ := ih h2 hr
        exact ⟨d, by simp [hd], h3⟩

/-- A node that is in the tree at `t` as a child of `p` is found by any dump of `p` that starts at `t` or later. -/
theorem rdumpsTo_child {S : Nat → TS} (h : Timeline S) {n t t' : Nat} (hle : t ≤ t') {p x : Ref} {nd : NodeDump} (hd : RDumpsTo S n t' p nd) {o : NodeObj}
    (hx : (S t).In x) (ho : (S t).heap[x]? = some o) (hp : o.parent = some p) :
    ∃ e ∈ desc nd, ∃ t'', t ≤ t'' ∧ RDumpsTo S n t'' x e.2 := by
  cases hd with
  | @mk _ _ ta td tc oa od oc es ds anno data l1 l2 l3 l4 l5 l6 h1 h2 h3 h4 h5 h6 h7 =>
    obtain ⟨o', ho', hn⟩ := hx
    rw [ho] at ho'; cases ho'
    rcases (wf_of_reach (timeline_reach h t)).par x o ho hn with ⟨g1, _⟩ | ⟨q, qo, g1, g2, g3, g4⟩
    · rw [hp] at g1; cases g1
    · rw [hp] at g1; cases g1
      obtain ⟨o2, i1, i2, i3, i4, i5⟩ := (timeline_le h (Nat.le_trans hle l5)).node p qo g2 g3
      rw [h3] at i1; cases i1
      have hm : x ∈ es.map Prod.snd :=
        List.mem_map.2 ⟨(o.id.hex, x), h4.mem_iff.2 (GoMap.mem_of_get (i5 _ _ g4)), rfl⟩
      obtain ⟨d, hd, hdx⟩ := rdumpsList_mem h5 hm
      exact ⟨_, mem_descKids hd, tc, Nat.le_trans hle l5, hdx⟩

theorem rdumpsTo_covers {S : Nat → TS} (h : Timeline S) {n t : Nat} {r : Ref} {nd : NodeDump} (hd : RDumpsTo S n t r nd) {x : Ref}
    (ha : RAnc (S t).heap r x) (hx : (S t).In x) (hne : x ≠ r) : ∃ e ∈ desc nd, ∃ t', t ≤ t' ∧ RDumpsTo S n t' x e.2 := by
  induction ha with
  | refl => exact absurd rfl hne
  | @step x p o h1 h2 h3 ih =>
    by_cases hp : p = r
    · subst hp; exact rdumpsTo_child h (Nat.le_refl _) hd hx h1 h2
    · obtain ⟨e, he, t1, ht1, hde⟩ := ih (in_parent (wf_of_reach (timeline_reach h t)) hx h1 h2) hp
      obtain ⟨e', he', t2, ht2, hde'⟩ := rdumpsTo_child h ht1 hde hx h1 h2
      exact ⟨e', desc_trans nd he he', t2, ht2, hde'⟩

/-- A constant tree: a dump without a race is a special case. -/
theorem timeline_const {s : TS} (h : Reach s) : Timeline (fun _ => s) := ⟨h, fun _ => Or.inl rfl⟩

mutual
theorem rdumps_of_dumpsTo {s : TS} : ∀ {r : Ref} {nd : NodeDump}, DumpsTo s.heap r nd → RDumpsTo (fun _ => s) 0 0 r nd
  | _, _, .mk h1 h2 h3 h4 h5 =>
    .mk (Nat.le_refl 0) (Nat.le_refl 0) (Nat.le_refl 0) (Nat.le_refl 0) (Nat.le_refl 0) (Nat.le_refl 0) h1 h1 h1 h2 (rdumps_of_dumpsList h3) h4 h5
theorem rdumps_of_dumpsList {s : TS} : ∀ {rs : List Ref} {ds : List NodeDump}, DumpsList s.heap rs ds → RDumpsList (fun _ => s) 0 0 rs ds
  | _, _, .nil => .nil
  | _, _, .cons h1 h2 => .cons (rdumps_of_dumpsTo h1) (rdumps_of_dumpsList h2)
end

end Verif
