import Verif.Tree.Inv
/-!
# Executions of the tree API

The remaining methods (new nodes, annotations, data), a step function for API calls, and the simulation of any sequence
of calls by the specification.
-/
set_option autoImplicit false
namespace Verif
namespace TS

/-! ## `NewNode` and the setters -/

theorem newNode_get {s : TS} {id : UID} {x : Ref} (hx : x ≠ s.heap.length) :
    (s.newNode id).2.heap[x]? = s.heap[x]? := by
  simp only [newNode, List.getElem?_append]
  split
  · rfl
  · rename_i h
    rw [List.getElem?_eq_none (by simp; omega), List.getElem?_eq_none (by omega)]

theorem newNode_get_self {s : TS} {id : UID} :
    (s.newNode id).2.heap[s.heap.length]? = some ⟨id, none, none, none, none⟩ := by
  simp [newNode]

/-- A heap that agrees on the nodes of the tree, with the same tree, is as good. -/
theorem wf_of_agree {s s' : TS} (h : WF s) (ht : s'.tree = s.tree)
    (hg : ∀ k r, s.tree.nodes.get k = some r → s'.heap[r]? = s.heap[r]?) : WF s' := by
  have down : ∀ r o, s'.heap[r]? = some o → s.tree.nodes.get o.id.hex = some r → s.heap[r]? = some o := by
    intro r o ho hr; rw [← hg _ _ hr]; exact ho
  have up : ∀ r o, s.heap[r]? = some o → s.tree.nodes.get o.id.hex = some r → s'.heap[r]? = some o := by
    intro r o ho hr; rw [hg _ _ hr]; exact ho
  constructor <;> (try rw [ht])
  · exact h.nodesNd
  · exact h.branchesNd
  · exact h.tagsNd
  · intro k r hk
    rw [hg _ _ hk]; exact h.idx k r hk
  · intro r hr
    obtain ⟨o, a, b, c⟩ := h.root r hr
    exact ⟨o, up r o a b, b, c⟩
  · exact h.rootNone
  · intro r o ho hr
    rcases h.par r o (down r o ho hr) hr with a | ⟨p, po, a, b, c, d⟩
    · exact Or.inl a
    · exact Or.inr ⟨p, po, a, up p po b c, c, d⟩
  · intro r o ho hr
    obtain ⟨a, b⟩ := h.chi r o (down r o ho hr) hr
    refine ⟨a, fun k c hk => ?_⟩
    obtain ⟨e, co, f, g⟩ := b k c hk
    exact ⟨e, co, by rw [hg _ _ e]; exact f, g⟩
  · intro r o ho hr
    exact h.maps r o (down r o ho hr) hr
  · intro b r hr
    obtain ⟨o, ho, hi⟩ := h.br b r hr
    exact ⟨o, up r o ho hi, by rw [ht]; exact hi⟩
  · intro b r hr
    obtain ⟨o, ho, hi⟩ := h.tg b r hr
    exact ⟨o, up r o ho hi, by rw [ht]; exact hi⟩
  · obtain ⟨d, hd⟩ := h.depth
    exact ⟨d, fun r o ho hr => hd r o (down r o ho hr) hr⟩

theorem abs_of_agree {s s' : TS} (h : WF s) (ht : s'.tree = s.tree)
    (hg : ∀ k r, s.tree.nodes.get k = some r → s'.heap[r]? = s.heap[r]?) : s'.abs = s.abs := by
  have hin : ∀ r, s.In r → s'.heap[r]? = s.heap[r]? := by
    rintro r ⟨o, _, hi⟩; exact hg _ _ hi
  apply atree_ext
  · intro u
    simp only [abs, get, ht]
    cases hr : s.tree.nodes.get u.hex with
    | none => rfl
    | some r =>
      obtain ⟨o, ho, hid⟩ := h.idx _ _ hr
      have hi : s.tree.nodes.get o.id.hex = some r := hid ▸ hr
      simp only [Option.bind_some, hg _ _ hr, ho, Option.map_some, absObj]
      rcases h.par r o ho hi with ⟨a, _⟩ | ⟨p, po, a, b, c, _⟩
      · simp [a]
      · simp [a, idAt, hg _ _ c]
  · simp only [abs, ht]
    cases hr : s.tree.root with
    | none => rfl
    | some r =>
      obtain ⟨o, ho, hi, _⟩ := h.root r hr
      simp [idAt, hg _ _ hi]
  · intro b
    simp only [abs, getByBranch, ht]
    cases hr : s.tree.branches.get b with
    | none => rfl
    | some r => simp [idAt, hin r (h.br b r hr)]
  · intro b
    simp only [abs, getByTag, ht]
    cases hr : s.tree.tags.get b with
    | none => rfl
    | some r => simp [idAt, hin r (h.tg b r hr)]

theorem in_lt {s : TS} (h : WF s) {k : Str} {r : Ref} (hr : s.tree.nodes.get k = some r) : r < s.heap.length := by
  obtain ⟨o, ho, _⟩ := h.idx _ _ hr
  exact lt_of_getElem? ho

theorem newNode_spec {s : TS} (h : WF s) {id : UID} :
    WF (s.newNode id).2 ∧ (s.newNode id).2.abs = s.abs ∧ (s.newNode id).2.tree = s.tree := by
  have hg : ∀ k r, s.tree.nodes.get k = some r → (s.newNode id).2.heap[r]? = s.heap[r]? := by
    intro k r hr
    have := in_lt h hr
    exact newNode_get (by omega)
  exact ⟨wf_of_agree h rfl hg, abs_of_agree h rfl hg, rfl⟩

/-- `NewNode`, `SetAnnotations`, `SetData`: the way `Load` and `CreateLayer` build a node
(pkg/spaces/trees/dump.go:103-105, :122-124; pkg/spaces/default.go:144). -/
def mkNode (s : TS) (id : UID) (anno : GoMap Str) (data : GoMap (Option Str)) : Option (Ref × TS) :=
  let (r, s1) := s.newNode id
  match s1.setAnnotations r anno with
  | none => none
  | some s2 =>
    match s2.setData r data with
    | none => none
    | some s3 => some (r, s3)

theorem mkNode_eq (s : TS) (id : UID) (anno : GoMap Str) (data : GoMap (Option Str)) :
    s.mkNode id anno data = some (s.heap.length, { s with heap := s.heap ++ [⟨id, none, none, anno, data⟩] }) := by
  simp [mkNode, newNode, setAnnotations, setData, modify]

theorem mkNode_spec {s : TS} (h : WF s) {id : UID} {anno : GoMap Str} {data : GoMap (Option Str)}
    (ha : anno.Nodup) (hd : data.Nodup) (hnew : ¬ s.abs.Has id) :
    ∃ s1, s.mkNode id anno data = some (s.heap.length, s1) ∧ WF s1 ∧ s1.abs = s.abs ∧ s1.tree = s.tree ∧
      Fresh s1 s.heap.length ⟨id, none, none, anno, data⟩ := by
  refine ⟨_, mkNode_eq s id anno data, ?_, ?_, rfl, ?_⟩
  · refine wf_of_agree (s' := { s with heap := _ }) h rfl ?_
    intro k r hr
    have := in_lt h hr
    simp [List.getElem?_append_left this]
  · refine abs_of_agree (s' := { s with heap := _ }) h rfl ?_
    intro k r hr
    have := in_lt h hr
    simp [List.getElem?_append_left this]
  · constructor
    · simp
    · rfl
    · rfl
    · cases hg : s.tree.nodes.get id.hex with
      | none => rfl
      | some r => exact absurd ((abs_has_iff_get h id).2 ⟨r, hg⟩) hnew
    · exact ha
    · exact hd

/-- Changing annotations and data of a node of the tree. -/
theorem meta_spec {s : TS} (h : WF s) {r : Ref} {o : NodeObj} (ho : s.heap[r]? = some o)
    (hi : s.tree.nodes.get o.id.hex = some r) (anno : GoMap Str) (data : GoMap (Option Str))
    (ha : anno.Nodup) (hdt : data.Nodup) :
    let s' : TS := { s with heap := s.heap.set r { o with annotations := anno, data := data } }
    WF s' ∧ s'.abs = { s.abs with
      node := upd s.abs.node o.id (some ⟨(absObj s.heap o).parent, anno.get, data.get⟩) } := by
  have hl := lt_of_getElem? ho
  have hg : ∀ x : Ref, (s.heap.set r { o with annotations := anno, data := data })[x]? =
      if x = r then some { o with annotations := anno, data := data } else s.heap[x]? := by
    intro x
    rw [List.getElem?_set]
    by_cases hx : r = x
    · subst hx; simp [hl]
    · simp [hx, Ne.symm hx]
  -- every object of the new heap has an old one with the same links
  have down : ∀ (x : Ref) (xo : NodeObj), (s.heap.set r { o with annotations := anno, data := data })[x]? = some xo →
      ∃ xo', s.heap[x]? = some xo' ∧ xo.id = xo'.id ∧ xo.parent = xo'.parent ∧ xo.children = xo'.children := by
    intro x xo hx
    rw [hg] at hx
    split at hx
    · rename_i he; subst he; simp at hx; subst hx; exact ⟨o, ho, rfl, rfl, rfl⟩
    · exact ⟨xo, hx, rfl, rfl, rfl⟩
  have up : ∀ (x : Ref) (xo : NodeObj), s.heap[x]? = some xo →
      ∃ xo', (s.heap.set r { o with annotations := anno, data := data })[x]? = some xo' ∧ xo'.id = xo.id ∧
        xo'.parent = xo.parent ∧ xo'.children = xo.children := by
    intro x xo hx
    rw [hg]
    split
    · rename_i he; subst he; rw [ho] at hx; cases hx; exact ⟨_, rfl, rfl, rfl, rfl⟩
    · exact ⟨xo, hx, rfl, rfl, rfl⟩
  have hidAt : idAt (s.heap.set r { o with annotations := anno, data := data }) = idAt s.heap := by
    funext x
    unfold idAt
    rw [hg]
    split
    · rename_i he; subst he; simp [ho]
    · rfl
  refine ⟨?_, ?_⟩
  · constructor
    · exact h.nodesNd
    · exact h.branchesNd
    · exact h.tagsNd
    · intro k x hk
      obtain ⟨xo, hxo, hid⟩ := h.idx k x hk
      obtain ⟨xo', a, b, _, _⟩ := up x xo hxo
      exact ⟨xo', a, by rw [b]; exact hid⟩
    · intro x hx
      obtain ⟨xo, hxo, a, b⟩ := h.root x hx
      obtain ⟨xo', c, d, e, _⟩ := up x xo hxo
      exact ⟨xo', c, by rw [d]; exact a, by rw [e]; exact b⟩
    · exact h.rootNone
    · intro x xo hxo hxi
      obtain ⟨xo', a, b, c, d⟩ := down x xo hxo
      rw [b] at hxi
      rcases h.par x xo' a hxi with ⟨e, f⟩ | ⟨p, po, e, f, g, i⟩
      · exact Or.inl ⟨by rw [c]; exact e, f⟩
      · obtain ⟨po', j, k, _, m⟩ := up p po f
        exact Or.inr ⟨p, po', by rw [c]; exact e, j, by rw [k]; exact g, by rw [m, b]; exact i⟩
    · intro x xo hxo hxi
      obtain ⟨xo', a, b, c, d⟩ := down x xo hxo
      rw [b] at hxi
      obtain ⟨e, f⟩ := h.chi x xo' a hxi
      refine ⟨by rw [d]; exact e, ?_⟩
      intro k c' hk
      rw [d] at hk
      obtain ⟨g, co, i, j⟩ := f k c' hk
      obtain ⟨co', l, _, m, _⟩ := up c' co i
      exact ⟨g, co', l, by rw [m]; exact j⟩
    · intro x xo hxo hxi
      simp only [hg] at hxo
      split at hxo
      · simp at hxo; subst hxo; exact ⟨ha, hdt⟩
      · exact h.maps x xo hxo hxi
    · intro b x hb
      obtain ⟨xo, a, c⟩ := h.br b x hb
      obtain ⟨xo', d, e, _, _⟩ := up x xo a
      exact ⟨xo', d, by rw [e]; exact c⟩
    · intro b x hb
      obtain ⟨xo, a, c⟩ := h.tg b x hb
      obtain ⟨xo', d, e, _, _⟩ := up x xo a
      exact ⟨xo', d, by rw [e]; exact c⟩
    · obtain ⟨d, hd⟩ := h.depth
      refine ⟨d, ?_⟩
      intro x xo hxo hxi
      obtain ⟨xo', a, b, c, _⟩ := down x xo hxo
      rw [b] at hxi
      rw [c]
      exact hd x xo' a hxi
  · apply atree_ext
    · intro u
      simp only [abs, get, upd]
      by_cases hu : u = o.id
      · subst hu
        simp [hi, hg, absObj, hidAt]
      · simp only [hu, if_false]
        cases hr : s.tree.nodes.get u.hex with
        | none => rfl
        | some x =>
          have hxr : x ≠ r := by
            rintro rfl
            obtain ⟨xo, hxo, hid⟩ := h.idx _ _ hr
            rw [ho] at hxo; cases hxo
            exact hu (C03_hex_injective hid).symm
          simp only [Option.bind_some, hg, hxr, if_false]
          congr 1
          funext xo
          simp [absObj, hidAt]
    · simp [abs, hidAt]
    · intro x; simp [abs, getByBranch, hidAt]
    · intro x; simp [abs, getByTag, hidAt]

/-! ## API calls -/

/-- A call of the tree API. `add` is `NewNode`, `SetAnnotations`, `SetData` and `AddNode`; `annotate` and `addData` are
`AddAnnotation` and `AddData` on the node found with `Get`. -/
inductive Op where
  | add (parent : Option UID) (id : UID) (anno : GoMap Str) (data : GoMap (Option Str))
  | addTag (name : Str) (id : UID)
  | deleteTag (name : Str)
  | addBranch (name : Str) (id : UID)
  | updateBranch (name : Str) (id : UID) (force : Bool)
  | deleteBranch (name : Str)
  | annotate (id : UID) (k v : Str)
  | addData (id : UID) (k : Str) (v : Option Str)

/-- Run one call. The state after an error is the state before (a node object that was not added stays behind as garbage,
which no method can see). -/
def call (s : TS) : Op → Res TreeErr TS
  | .add p id anno data =>
    match s.mkNode id anno data with
    | none => .panic
    | some (r, s1) => s1.addNode p r
  | .addTag n id => s.addTag n id
  | .deleteTag n => .ok (s.deleteTag n).1
  | .addBranch n id => s.addBranch n id
  | .updateBranch n id f => s.updateBranch n id f
  | .deleteBranch n => .ok (s.deleteBranch n).1
  | .annotate id k v =>
    match s.get id with
    | none => .err .nodeNotFound
    | some r => match s.addAnnotation r k v with
      | none => .panic
      | some s' => .ok s'
  | .addData id k v =>
    match s.get id with
    | none => .err .nodeNotFound
    | some r => match s.addData r k v with
      | none => .panic
      | some s' => .ok s'

/-- The caller's duty: a node is added at most once (its ID is new). Maps have distinct keys, as all Go maps do. -/
def Op.Legal (a : ATree) : Op → Prop
  | .add _ id anno data => ¬ a.Has id ∧ anno.Nodup ∧ data.Nodup
  | _ => True

/-- The specification of one call: the outcome and the observable tree after it. -/
inductive SpecStep (a : ATree) : Op → Option TreeErr → ATree → Prop where
  | addRoot {id anno data} : a.root = none →
      SpecStep a (.add none id anno data) none (a.add none id anno.get data.get)
  | addRootErr {id anno data r} : a.root = some r → SpecStep a (.add none id anno data) (some .rootExists) a
  | addChild {p id anno data} : a.Has p →
      SpecStep a (.add (some p) id anno data) none (a.add (some p) id anno.get data.get)
  | addChildErr {p id anno data} : ¬ a.Has p → SpecStep a (.add (some p) id anno data) (some .parentNotFound) a
  | addTag {n id} : a.Has id → SpecStep a (.addTag n id) none (a.setTag n id)
  | addTagErr {n id} : ¬ a.Has id → SpecStep a (.addTag n id) (some .nodeNotFound) a
  | deleteTag {n} : SpecStep a (.deleteTag n) none (a.delTag n)
  | addBranch {n id} : a.Has id → SpecStep a (.addBranch n id) none (a.setBranch n id)
  | addBranchErr {n id} : ¬ a.Has id → SpecStep a (.addBranch n id) (some .nodeNotFound) a
  | updateBranch {n id f h} : a.Has id → a.branch n = some h → (f = true ∨ a.Anc h id) →
      SpecStep a (.updateBranch n id f) none (a.setBranch n id)
  | updateBranchNode {n id f} : ¬ a.Has id → SpecStep a (.updateBranch n id f) (some .nodeNotFound) a
  | updateBranchName {n id f} : a.Has id → a.branch n = none →
      SpecStep a (.updateBranch n id f) (some .branchNotFound) a
  | updateBranchFar {n id h} : a.Has id → a.branch n = some h → ¬ a.Anc h id →
      SpecStep a (.updateBranch n id false) (some .unreachable) a
  | deleteBranch {n} : SpecStep a (.deleteBranch n) none (a.delBranch n)
  | annotate {id k v nd} : a.node id = some nd →
      SpecStep a (.annotate id k v) none
        { a with node := upd a.node id (some { nd with anno := upd nd.anno k (some v) }) }
  | annotateErr {id k v} : ¬ a.Has id → SpecStep a (.annotate id k v) (some .nodeNotFound) a
  | addData {id k v nd} : a.node id = some nd →
      SpecStep a (.addData id k v) none
        { a with node := upd a.node id (some { nd with data := upd nd.data k (some v) }) }
  | addDataErr {id k v} : ¬ a.Has id → SpecStep a (.addData id k v) (some .nodeNotFound) a

theorem get_put_upd {α : Type} (m : GoMap α) (k : Str) (v : α) :
    GoMap.get (some (AL.put m.entries k v)) = upd m.get k (some v) := by
  funext x
  simp only [GoMap.get_some, AL.get_put, upd]
  by_cases h : x = k
  · subst h; simp
  · simp only [h, Ne.symm h, if_false]; rfl

/-- One call behaves as specified, keeps the invariant and never panics or hangs. -/
theorem call_spec {s : TS} (h : WF s) (op : Op) (hl : op.Legal s.abs) :
    (∃ s', s.call op = .ok s' ∧ WF s' ∧ SpecStep s.abs op none s'.abs) ∨
    (∃ e, s.call op = .err e ∧ SpecStep s.abs op (some e) s.abs) := by
  cases op with
  | add p id anno data =>
    obtain ⟨hnew, ha, hd⟩ := hl
    obtain ⟨s1, he, hw, habs, ht, hf⟩ := mkNode_spec h ha hd hnew
    simp only [call, he]
    cases p with
    | none =>
      cases hr : s.tree.root with
      | some r =>
        right
        refine ⟨.rootExists, by simp [addNode, ht, hr], ?_⟩
        obtain ⟨o, ho, _⟩ := h.root r hr
        exact .addRootErr (r := o.id) (by simp [abs, hr, idAt, ho])
      | none =>
        left
        have hr1 : s1.tree.root = none := by rw [ht]; exact hr
        refine ⟨_, addNode_root_eq hr1 hf, wf_addedRoot hw hr1 hf, ?_⟩
        rw [abs_addedRoot hw hr1 hf, habs]
        exact .addRoot (by simp [abs, hr])
    | some pid =>
      by_cases hp : s.abs.Has pid
      · left
        obtain ⟨p, hp'⟩ := (abs_has_iff_get h pid).1 hp
        obtain ⟨po, h1, h2, h3, h4, h5⟩ := addNode_child_eq hw (by rw [ht]; exact hp') hf
        have hpi : s1.tree.nodes.get po.id.hex = some p := by rw [h2, ht]; exact hp'
        refine ⟨_, h5, wf_addedChild hw h1 hpi hf h3, ?_⟩
        rw [abs_addedChild hw h1 hpi hf h3, habs, h2]
        exact .addChild hp
      · right
        have : s1.tree.nodes.get pid.hex = none := by
          rw [ht]
          cases hg : s.tree.nodes.get pid.hex with
          | none => rfl
          | some r => exact absurd ((abs_has_iff_get h pid).2 ⟨r, hg⟩) hp
        exact ⟨.parentNotFound, by simp [addNode, this], .addChildErr hp⟩
  | addTag n id =>
    by_cases hu : s.abs.Has id
    · obtain ⟨s', a, b, c, _⟩ := (addTag_spec h n id).1 hu
      exact Or.inl ⟨s', a, b, by rw [c]; exact .addTag hu⟩
    · exact Or.inr ⟨_, (addTag_spec h n id).2 hu, .addTagErr hu⟩
  | deleteTag n =>
    obtain ⟨a, b, _, _⟩ := deleteTag_spec h n
    exact Or.inl ⟨_, rfl, a, by rw [b]; exact .deleteTag⟩
  | addBranch n id =>
    by_cases hu : s.abs.Has id
    · obtain ⟨s', a, b, c, _⟩ := (addBranch_spec h n id).1 hu
      exact Or.inl ⟨s', a, b, by rw [c]; exact .addBranch hu⟩
    · exact Or.inr ⟨_, (addBranch_spec h n id).2 hu, .addBranchErr hu⟩
  | updateBranch n id f =>
    obtain ⟨h1, h2, h3, h4⟩ := updateBranch_spec h n id f
    by_cases hu : s.abs.Has id
    · cases hb : s.abs.branch n with
      | none => exact Or.inr ⟨_, h2 hu hb, .updateBranchName hu hb⟩
      | some hd =>
        by_cases hc : f = true ∨ s.abs.Anc hd id
        · obtain ⟨s', a, b, c, _⟩ := h3 hd hu hb hc
          exact Or.inl ⟨s', a, b, by rw [c]; exact .updateBranch hu hb hc⟩
        · simp only [not_or, Bool.not_eq_true] at hc
          obtain ⟨hc1, hc2⟩ := hc
          subst hc1
          exact Or.inr ⟨_, h4 hd hu hb rfl hc2, .updateBranchFar hu hb hc2⟩
    · exact Or.inr ⟨_, h1 hu, .updateBranchNode hu⟩
  | deleteBranch n =>
    obtain ⟨a, b, _, _⟩ := deleteBranch_spec h n
    exact Or.inl ⟨_, rfl, a, by rw [b]; exact .deleteBranch⟩
  | annotate id k v =>
    by_cases hu : s.abs.Has id
    · left
      obtain ⟨r, o, ho, hi, rfl⟩ := (abs_has_iff h id).1 hu
      obtain ⟨m1, m2⟩ := h.maps r o ho hi
      obtain ⟨w1, w2⟩ := meta_spec h ho hi (some (AL.put o.annotations.entries k v)) o.data
        (GoMap.nodup_put m1 k v) m2
      refine ⟨_, by simp only [call, get, hi, addAnnotation, modify, ho], w1, ?_⟩
      rw [w2, get_put_upd]
      exact .annotate (nd := absObj s.heap o) ((abs_node_iff h _ _).2 ⟨r, o, ho, hi, rfl, rfl⟩)
    · right
      have : s.tree.nodes.get id.hex = none := by
        cases hg : s.tree.nodes.get id.hex with
        | none => rfl
        | some r => exact absurd ((abs_has_iff_get h id).2 ⟨r, hg⟩) hu
      exact ⟨_, by simp only [call, get, this], .annotateErr hu⟩
  | addData id k v =>
    by_cases hu : s.abs.Has id
    · left
      obtain ⟨r, o, ho, hi, rfl⟩ := (abs_has_iff h id).1 hu
      obtain ⟨m1, m2⟩ := h.maps r o ho hi
      obtain ⟨w1, w2⟩ := meta_spec h ho hi o.annotations (some (AL.put o.data.entries k v))
        m1 (GoMap.nodup_put m2 k v)
      refine ⟨_, by simp only [call, get, hi, addData, modify, ho], w1, ?_⟩
      rw [w2, get_put_upd]
      exact .addData (nd := absObj s.heap o) ((abs_node_iff h _ _).2 ⟨r, o, ho, hi, rfl, rfl⟩)
    · right
      have : s.tree.nodes.get id.hex = none := by
        cases hg : s.tree.nodes.get id.hex with
        | none => rfl
        | some r => exact absurd ((abs_has_iff_get h id).2 ⟨r, hg⟩) hu
      exact ⟨_, by simp only [call, get, this], .addDataErr hu⟩

/-- Executions: the states reachable from a new tree by legal calls. -/
inductive Reach : TS → Prop where
  | new : Reach empty
  | ok {s s' : TS} {op : Op} : Reach s → op.Legal s.abs → s.call op = .ok s' → Reach s'

theorem wf_of_reach {s : TS} (h : Reach s) : WF s := by
  induction h with
  | new => exact wf_empty
  | ok _ hl hc ih =>
    rcases call_spec ih _ hl with ⟨s', a, b, _⟩ | ⟨e, a, _⟩
    · rw [a] at hc; cases hc; exact b
    · rw [a] at hc; cases hc

end TS
end Verif
