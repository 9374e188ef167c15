import Verif.Tree.Model
import Verif.Tree.Spec
import Verif.Props.Uid
/-!
# The tree invariant and the refinement to the specification
-/
set_option autoImplicit false
namespace Verif

/-- The ID of the object at a reference. -/
def idAt (heap : List NodeObj) (r : Ref) : Option UID := (heap[r]?).map (·.id)

/-- The observable content of a node object. -/
def absObj (heap : List NodeObj) (o : NodeObj) : ANode where
  parent := o.parent.bind (idAt heap)
  anno := o.annotations.get
  data := o.data.get

/-- The observable content of a tree. -/
def TS.abs (s : TS) : ATree where
  node u := (s.get u).bind fun r => (s.heap[r]?).map (absObj s.heap)
  root := s.tree.root.bind (idAt s.heap)
  branch b := (s.getByBranch b).bind (idAt s.heap)
  tag t := (s.getByTag t).bind (idAt s.heap)

/-- `r` is a node of the tree. -/
def TS.In (s : TS) (r : Ref) : Prop := ∃ o, s.heap[r]? = some o ∧ s.tree.nodes.get o.id.hex = some r

/-- The invariant of `defaultTree`. -/
structure TS.WF (s : TS) : Prop where
  nodesNd : s.tree.nodes.Nodup
  branchesNd : s.tree.branches.Nodup
  tagsNd : s.tree.tags.Nodup
  idx : ∀ k r, s.tree.nodes.get k = some r → ∃ o, s.heap[r]? = some o ∧ o.id.hex = k
  root : ∀ r, s.tree.root = some r → ∃ o, s.heap[r]? = some o ∧ s.tree.nodes.get o.id.hex = some r ∧ o.parent = none
  rootNone : s.tree.root = none → ∀ k, s.tree.nodes.get k = none
  par : ∀ r o, s.heap[r]? = some o → s.tree.nodes.get o.id.hex = some r →
    (o.parent = none ∧ s.tree.root = some r) ∨
    (∃ p po, o.parent = some p ∧ s.heap[p]? = some po ∧ s.tree.nodes.get po.id.hex = some p ∧
      po.children.get o.id.hex = some r)
  chi : ∀ r o, s.heap[r]? = some o → s.tree.nodes.get o.id.hex = some r →
    o.children.Nodup ∧ ∀ k c, o.children.get k = some c → s.tree.nodes.get k = some c ∧
      ∃ co, s.heap[c]? = some co ∧ co.parent = some r
  maps : ∀ r o, s.heap[r]? = some o → s.tree.nodes.get o.id.hex = some r → o.annotations.Nodup ∧ o.data.Nodup
  br : ∀ b r, s.tree.branches.get b = some r → s.In r
  tg : ∀ t r, s.tree.tags.get t = some r → s.In r
  depth : ∃ d : Ref → Nat, ∀ r o, s.heap[r]? = some o → s.tree.nodes.get o.id.hex = some r →
    d r < s.tree.nodes.size ∧ ∀ p, o.parent = some p → d r = d p + 1

theorem lt_of_getElem? {α : Type} {l : List α} {i : Nat} {a : α} (h : l[i]? = some a) : i < l.length :=
  (List.getElem?_eq_some_iff.1 h).1

namespace TS

theorem wf_empty : WF empty := by
  constructor <;> simp [empty, GoMap.get, GoMap.Nodup, GoMap.entries, AL.keys]

theorem abs_empty : empty.abs = ATree.empty := by
  simp [abs, empty, ATree.empty, get, getByBranch, getByTag, GoMap.get, GoMap.entries]

/-! ## Reading the abstraction -/

theorem abs_node_iff {s : TS} (h : WF s) (u : UID) (n : ANode) :
    s.abs.node u = some n ↔
      ∃ r o, s.heap[r]? = some o ∧ s.tree.nodes.get o.id.hex = some r ∧ o.id = u ∧ n = absObj s.heap o := by
  constructor
  · intro hn
    simp only [abs, get, Option.bind_eq_some_iff, Option.map_eq_some_iff] at hn
    obtain ⟨r, hr, o, ho, rfl⟩ := hn
    obtain ⟨o', ho', hid⟩ := h.idx _ _ hr
    rw [ho] at ho'; cases ho'
    have : o.id = u := C03_hex_injective hid
    subst this
    exact ⟨r, o, ho, hr, rfl, rfl⟩
  · rintro ⟨r, o, ho, hr, rfl, rfl⟩
    simp [abs, get, hr, ho]

theorem abs_has_iff {s : TS} (h : WF s) (u : UID) :
    s.abs.Has u ↔ ∃ r o, s.heap[r]? = some o ∧ s.tree.nodes.get o.id.hex = some r ∧ o.id = u := by
  constructor
  · rintro ⟨n, hn⟩
    obtain ⟨r, o, h1, h2, h3, _⟩ := (abs_node_iff h u n).1 hn
    exact ⟨r, o, h1, h2, h3⟩
  · rintro ⟨r, o, h1, h2, h3⟩
    exact ⟨_, (abs_node_iff h u _).2 ⟨r, o, h1, h2, h3, rfl⟩⟩

theorem abs_has_iff_get {s : TS} (h : WF s) (u : UID) : s.abs.Has u ↔ ∃ r, s.tree.nodes.get u.hex = some r := by
  rw [abs_has_iff h]
  constructor
  · rintro ⟨r, o, _, h2, rfl⟩; exact ⟨r, h2⟩
  · rintro ⟨r, hr⟩
    obtain ⟨o, ho, hid⟩ := h.idx _ _ hr
    exact ⟨r, o, ho, hid ▸ hr, C03_hex_injective hid⟩

/-- Two references to nodes of the tree with the same ID are equal. -/
theorem in_inj {s : TS} {r r' : Ref} {o o' : NodeObj} (_ : s.heap[r]? = some o)
    (h2 : s.tree.nodes.get o.id.hex = some r) (_ : s.heap[r']? = some o')
    (h4 : s.tree.nodes.get o'.id.hex = some r') (he : o.id = o'.id) : r = r' := by
  rw [he, h4] at h2; exact (Option.some.inj h2).symm

theorem abs_parent_iff {s : TS} (h : WF s) {r : Ref} {o : NodeObj} (ho : s.heap[r]? = some o)
    (hr : s.tree.nodes.get o.id.hex = some r) (p : UID) :
    (absObj s.heap o).parent = some p ↔ ∃ q qo, o.parent = some q ∧ s.heap[q]? = some qo ∧ qo.id = p ∧
      s.tree.nodes.get qo.id.hex = some q ∧ qo.children.get o.id.hex = some r := by
  constructor
  · intro hp
    rcases h.par r o ho hr with ⟨hn, _⟩ | ⟨q, qo, h1, h2, h3, h4⟩
    · simp [absObj, hn] at hp
    · simp only [absObj, idAt, h1, Option.bind_some, h2, Option.map_some, Option.some.injEq] at hp
      exact ⟨q, qo, h1, h2, hp, h3, h4⟩
  · rintro ⟨q, qo, h1, h2, h3, _, _⟩
    simp [absObj, idAt, h1, h2, h3]

theorem abs_parent_none_iff {s : TS} (h : WF s) {r : Ref} {o : NodeObj} (ho : s.heap[r]? = some o)
    (hr : s.tree.nodes.get o.id.hex = some r) :
    (absObj s.heap o).parent = none ↔ o.parent = none ∧ s.tree.root = some r := by
  rcases h.par r o ho hr with ⟨hn, hroot⟩ | ⟨q, qo, h1, h2, h3, h4⟩
  · simp [absObj, hn, hroot]
  · simp [absObj, idAt, h1, h2]

theorem anc_trans {a : ATree} {x y z : UID} (h1 : ATree.Anc a x y) (h2 : ATree.Anc a y z) : ATree.Anc a x z := by
  induction h2 with
  | refl _ => exact h1
  | step hn hp _ ih => exact .step hn hp ih

/-- The invariant implies that the observable tree is a single rooted tree. -/
theorem rooted_of_wf {s : TS} (h : WF s) : s.abs.Rooted := by
  obtain ⟨d, hd⟩ := h.depth
  have key : ∀ n r o, s.heap[r]? = some o → s.tree.nodes.get o.id.hex = some r → d r = n →
      (∃ ro, s.abs.root = some ro ∧ ATree.Anc s.abs ro o.id) ∧ ∃ l, ATree.Path s.abs o.id l := by
    intro n
    induction n using Nat.strongRecOn with
    | _ n ih =>
      intro r o ho hr hn
      have habs := (abs_node_iff h o.id _).2 ⟨r, o, ho, hr, rfl, rfl⟩
      rcases h.par r o ho hr with ⟨hp, hroot⟩ | ⟨q, qo, h1, h2, h3, h4⟩
      · refine ⟨⟨o.id, by simp [abs, hroot, idAt, ho], .refl habs⟩, [o.id], .root habs ?_⟩
        exact (abs_parent_none_iff h ho hr).2 ⟨hp, hroot⟩
      · have hdr := (hd r o ho hr).2 q h1
        obtain ⟨⟨ro, hro, ha⟩, l, hl⟩ := ih (d q) (by omega) q qo h2 h3 rfl
        have hpar := (abs_parent_iff h ho hr qo.id).2 ⟨q, qo, h1, h2, rfl, h3, h4⟩
        exact ⟨⟨ro, hro, .step habs hpar ha⟩, _, .step habs hpar hl⟩
  constructor
  · intro r hroot
    simp only [abs, Option.bind_eq_some_iff, idAt, Option.map_eq_some_iff] at hroot
    obtain ⟨rr, hrr, o, ho, rfl⟩ := hroot
    obtain ⟨o', ho', hidx, hp⟩ := h.root _ hrr
    rw [ho] at ho'; cases ho'
    exact ⟨_, (abs_node_iff h _ _).2 ⟨rr, o, ho, hidx, rfl, rfl⟩, (abs_parent_none_iff h ho hidx).2 ⟨hp, hrr⟩⟩
  · intro u hu
    obtain ⟨r, o, h1, h2, rfl⟩ := (abs_has_iff h u).1 hu
    exact (key _ r o h1 h2 rfl).1
  · intro u n p hn hp
    obtain ⟨r, o, h1, h2, rfl, rfl⟩ := (abs_node_iff h u n).1 hn
    obtain ⟨q, qo, _, b, c, e, _⟩ := (abs_parent_iff h h1 h2 p).1 hp
    exact (abs_has_iff h p).2 ⟨q, qo, b, e, c⟩
  · intro u n hn hp
    obtain ⟨r, o, h1, h2, rfl, rfl⟩ := (abs_node_iff h u n).1 hn
    have := ((abs_parent_none_iff h h1 h2).1 hp).2
    simp [abs, this, idAt, h1]
  · intro u hu
    obtain ⟨r, o, h1, h2, rfl⟩ := (abs_has_iff h u).1 hu
    exact (key _ r o h1 h2 rfl).2
  · intro b u hb
    simp only [abs, getByBranch, Option.bind_eq_some_iff, idAt, Option.map_eq_some_iff] at hb
    obtain ⟨r, hr, o, ho, rfl⟩ := hb
    obtain ⟨o', ho', hidx⟩ := h.br _ _ hr
    rw [ho] at ho'; cases ho'
    exact (abs_has_iff h _).2 ⟨r, o, ho, hidx, rfl⟩
  · intro b u hb
    simp only [abs, getByTag, Option.bind_eq_some_iff, idAt, Option.map_eq_some_iff] at hb
    obtain ⟨r, hr, o, ho, rfl⟩ := hb
    obtain ⟨o', ho', hidx⟩ := h.tg _ _ hr
    rw [ho] at ho'; cases ho'
    exact (abs_has_iff h _).2 ⟨r, o, ho, hidx, rfl⟩

/-! ## `AddNode` -/

/-- What `NewNode` plus the setters give: an object without parent and children. -/
structure Fresh (s : TS) (r : Ref) (o : NodeObj) : Prop where
  obj : s.heap[r]? = some o
  leaf : o.children.entries = []
  top : o.parent = none
  new : s.tree.nodes.get o.id.hex = none
  anno : o.annotations.Nodup
  data : o.data.Nodup

theorem updateIndexes_leaf {ε : Type} {s : TS} {r : Ref} {o : NodeObj} (ho : s.heap[r]? = some o)
    (hl : o.children.entries = []) :
    (updateIndexes s r : Res ε TS) =
      .ok { s with tree := { s.tree with nodes := some (AL.put s.tree.nodes.entries o.id.hex r) } } := by
  have hlen : r < s.heap.length := lt_of_getElem? ho
  obtain ⟨n, hn⟩ : ∃ n, s.heap.length = n + 1 := Nat.exists_eq_add_of_lt (Nat.lt_of_le_of_lt (Nat.zero_le _) hlen) |>.imp (fun _ h => by omega)
  simp only [updateIndexes, hn, indexLoop, ho, hl, List.map_nil, List.append_nil, GoMap.entries_ensure, Res.bind]

/-- The state after adding the child `c` under `p`. -/
def addedChild (s : TS) (p c : Ref) (po co : NodeObj) : TS :=
  { heap := (s.heap.set p { po with children := some (AL.put po.children.entries co.id.hex c) }).set c
      { co with parent := some p }
    tree := { s.tree with nodes := some (AL.put s.tree.nodes.entries co.id.hex c) } }

theorem addNode_child_eq {s : TS} (h : WF s) {pid : UID} {p c : Ref} {co : NodeObj}
    (hp : s.tree.nodes.get pid.hex = some p) (hf : Fresh s c co) :
    ∃ po, s.heap[p]? = some po ∧ po.id = pid ∧ p ≠ c ∧ po.children.get co.id.hex = none ∧
      s.addNode (some pid) c = .ok (addedChild s p c po co) := by
  obtain ⟨po, hpo, hpid⟩ := h.idx _ _ hp
  have hpid' : po.id = pid := C03_hex_injective hpid
  have hpc : p ≠ c := by
    rintro rfl
    rw [hf.obj] at hpo; cases hpo
    have := hf.new
    rw [hpid'] at this; rw [this] at hp; cases hp
  have hidx : s.tree.nodes.get po.id.hex = some p := by rw [hpid']; exact hp
  have hnone : po.children.get co.id.hex = none := by
    cases hg : po.children.get co.id.hex with
    | none => rfl
    | some x =>
      have := ((h.chi p po hpo hidx).2 _ _ hg).1
      rw [hf.new] at this; cases this
  refine ⟨po, hpo, hpid', hpc, hnone, ?_⟩
  have hlc : c < s.heap.length := lt_of_getElem? hf.obj
  simp only [addNode, hp, addChild, hpo, hf.obj, hnone, GoMap.assign_ensure, setParent, modify]
  have hget : (s.heap.set p { po with children := some (AL.put po.children.entries co.id.hex c) })[c]? = some co := by
    rw [List.getElem?_set_ne hpc]; exact hf.obj
  simp only [hget]
  rw [updateIndexes_leaf (o := { co with parent := some p })]
  · rfl
  · simp [hlc]
  · exact hf.leaf

theorem added_heap {s : TS} {p c : Ref} {po co : NodeObj} (hpo : s.heap[p]? = some po)
    (hco : s.heap[c]? = some co) (hne : p ≠ c) (x : Ref) :
    (addedChild s p c po co).heap[x]? =
      if x = c then some { co with parent := some p }
      else if x = p then some { po with children := some (AL.put po.children.entries co.id.hex c) }
      else s.heap[x]? := by
  have hlc : c < s.heap.length := lt_of_getElem? hco
  have hlp : p < s.heap.length := lt_of_getElem? hpo
  simp only [addedChild, List.getElem?_set, List.length_set]
  by_cases h1 : x = c
  · simp [h1, hlc]
  · by_cases h2 : x = p
    · subst h2; rw [if_neg (Ne.symm h1)]; simp [hlp, h1]
    · simp [h1, h2, Ne.symm h1, Ne.symm h2]

theorem size_put_new {α : Type} {m : GoMap α} {k : Str} {v : α} (h : m.get k = none) :
    GoMap.size (some (AL.put m.entries k v)) = m.size + 1 := by
  simp only [GoMap.size, GoMap.entries_some]
  exact AL.length_put h

/-- Adding a fresh child keeps the invariant. -/
theorem wf_addedChild {s : TS} (h : WF s) {p c : Ref} {po co : NodeObj} (hpo : s.heap[p]? = some po)
    (hpi : s.tree.nodes.get po.id.hex = some p) (hf : Fresh s c co) (hne : p ≠ c) :
    WF (addedChild s p c po co) := by
  have hheap := added_heap hpo hf.obj hne
  have hnodes : ∀ k, (addedChild s p c po co).tree.nodes.get k =
      if co.id.hex = k then some c else s.tree.nodes.get k := by
    intro k; simp only [addedChild, GoMap.get_some, AL.get_put]; rfl
  have hnone : po.children.get co.id.hex = none := by
    cases hg : po.children.get co.id.hex with
    | none => rfl
    | some x =>
      have := ((h.chi p po hpo hpi).2 _ _ hg).1
      rw [hf.new] at this; cases this
  have heapP : (addedChild s p c po co).heap[p]? =
      some { po with children := some (AL.put po.children.entries co.id.hex c) } := by rw [hheap]; simp [hne]
  have heapC : (addedChild s p c po co).heap[c]? = some { co with parent := some p } := by rw [hheap]; simp
  have heapO : ∀ {x : Ref}, x ≠ c → x ≠ p → (addedChild s p c po co).heap[x]? = s.heap[x]? := by
    intro x h1 h2; rw [hheap]; simp [h1, h2]
  -- an old node of the tree, seen in the new heap
  have old : ∀ r o, s.heap[r]? = some o → s.tree.nodes.get o.id.hex = some r → r ≠ c := by
    rintro r o ho hr rfl
    rw [hf.obj] at ho; cases ho
    rw [hf.new] at hr; cases hr
  -- a node of the new tree is `c`, `p` or an old one
  have cases' : ∀ r o, (addedChild s p c po co).heap[r]? = some o →
      (addedChild s p c po co).tree.nodes.get o.id.hex = some r →
      (r = c ∧ o = { co with parent := some p }) ∨
      (r = p ∧ o = { po with children := some (AL.put po.children.entries co.id.hex c) }) ∨
      (r ≠ c ∧ r ≠ p ∧ s.heap[r]? = some o ∧ s.tree.nodes.get o.id.hex = some r ∧ o.id.hex ≠ co.id.hex) := by
    intro r o ho hr
    rw [hheap] at ho
    rw [hnodes] at hr
    by_cases h1 : r = c
    · left; simp [h1] at ho; exact ⟨h1, ho.symm⟩
    · by_cases h2 : r = p
      · right; left; subst h2; simp [h1] at ho; exact ⟨rfl, ho.symm⟩
      · right; right
        simp only [h1, h2, if_false] at ho
        refine ⟨h1, h2, ho, ?_, ?_⟩
        · split at hr
          · simp at hr; exact absurd hr.symm h1
          · exact hr
        · intro he
          rw [if_pos he.symm] at hr
          simp at hr; exact h1 hr.symm
  have keep : ∀ r o, s.heap[r]? = some o → s.tree.nodes.get o.id.hex = some r →
      (addedChild s p c po co).tree.nodes.get o.id.hex = some r := by
    intro r o ho hr
    rw [hnodes, if_neg]
    · exact hr
    · intro he; rw [← he, hf.new] at hr; cases hr
  constructor
  · exact GoMap.nodup_put h.nodesNd _ _
  · exact h.branchesNd
  · exact h.tagsNd
  · intro k r hk
    rw [hnodes] at hk
    rw [hheap]
    split at hk
    · rename_i he
      simp at hk; subst hk
      simp [he]
    · obtain ⟨o, ho, hid⟩ := h.idx k r hk
      have hrc := old r o ho (hid ▸ hk)
      by_cases hrp : r = p
      · subst hrp; rw [hpo] at ho; cases ho; simp [hrc, hid]
      · simp [hrc, hrp, ho, hid]
  · intro r hr
    obtain ⟨o, ho, hi, hp⟩ := h.root r hr
    have hrc := old r o ho hi
    have hk := keep r o ho hi
    by_cases hrp : r = p
    · subst hrp; rw [hpo] at ho; cases ho
      exact ⟨_, heapP, hk, hp⟩
    · exact ⟨o, by rw [hheap]; simp [hrc, hrp, ho], hk, hp⟩
  · intro hr
    exact absurd hpi (by rw [h.rootNone hr]; simp)
  · intro r o ho hr
    rcases cases' r o ho hr with ⟨rfl, rfl⟩ | ⟨rfl, rfl⟩ | ⟨h1, h2, h3, h4, h5⟩
    · right
      refine ⟨p, _, rfl, heapP, ?_, ?_⟩
      · exact keep p po hpo hpi
      · simp [GoMap.get_some]
    · rcases h.par r po hpo hpi with ⟨a, b⟩ | ⟨q, qo, a, b, e, f⟩
      · exact Or.inl ⟨a, b⟩
      · right
        have hqc := old q qo b e
        by_cases hqp : q = r
        · -- a parent cannot be itself
          subst hqp
          obtain ⟨d, hd⟩ := h.depth
          have := (hd q po hpo hpi).2 q a
          omega
        · refine ⟨q, qo, a, ?_, keep q qo b e, f⟩
          rw [hheap]; simp [hqc, hqp, b]
    · rcases h.par r o h3 h4 with ⟨a, b⟩ | ⟨q, qo, a, b, e, f⟩
      · exact Or.inl ⟨a, b⟩
      · right
        have hqc := old q qo b e
        by_cases hqp : q = p
        · subst hqp; rw [hpo] at b; cases b
          refine ⟨q, _, a, heapP, keep q po hpo e, ?_⟩
          simp only [GoMap.get_some, AL.get_put]
          rw [if_neg (Ne.symm h5)]; exact f
        · exact ⟨q, qo, a, by rw [hheap]; simp [hqc, hqp, b], keep q qo b e, f⟩
  · intro r o ho hr
    rcases cases' r o ho hr with ⟨rfl, rfl⟩ | ⟨rfl, rfl⟩ | ⟨h1, h2, h3, h4, h5⟩
    · constructor
      · simp [GoMap.Nodup, hf.leaf, AL.keys]
      · intro k x hk; simp [GoMap.get, hf.leaf] at hk
    · obtain ⟨nd, hch⟩ := h.chi r po hpo hpi
      refine ⟨GoMap.nodup_put nd _ _, ?_⟩
      intro k x hk
      simp only [GoMap.get_some, AL.get_put] at hk
      rw [hnodes]
      split at hk
      · rename_i he
        simp at hk; subst hk
        refine ⟨by simp [he], _, heapC, rfl⟩
      · rename_i he
        obtain ⟨a, xo, b, e⟩ := hch k x hk
        refine ⟨by simp [he, a], ?_⟩
        obtain ⟨xo', hxo', hid⟩ := h.idx k x a
        rw [b] at hxo'; cases hxo'
        have hxc := old x xo b (hid ▸ a)
        by_cases hxp : x = r
        · subst hxp; rw [hpo] at b; cases b
          exact ⟨_, heapP, e⟩
        · exact ⟨xo, by rw [hheap]; simp [hxc, hxp, b], e⟩
    · obtain ⟨nd, hch⟩ := h.chi r o h3 h4
      refine ⟨nd, ?_⟩
      intro k x hk
      obtain ⟨a, xo, b, e⟩ := hch k x hk
      obtain ⟨xo', hxo', hid⟩ := h.idx k x a
      rw [b] at hxo'; cases hxo'
      have hxc := old x xo b (hid ▸ a)
      refine ⟨hid ▸ keep x xo b (hid ▸ a), ?_⟩
      by_cases hxp : x = p
      · subst hxp; rw [hpo] at b; cases b
        exact ⟨_, heapP, e⟩
      · exact ⟨xo, by rw [hheap]; simp [hxc, hxp, b], e⟩
  · intro r o ho hr
    rcases cases' r o ho hr with ⟨rfl, rfl⟩ | ⟨rfl, rfl⟩ | ⟨h1, h2, h3, h4, h5⟩
    · exact ⟨hf.anno, hf.data⟩
    · exact h.maps r po hpo hpi
    · exact h.maps r o h3 h4
  · intro b r hb
    obtain ⟨o, ho, hi⟩ := h.br b r hb
    have hrc := old r o ho hi
    have hk := keep r o ho hi
    by_cases hrp : r = p
    · subst hrp; rw [hpo] at ho; cases ho
      exact ⟨_, heapP, hk⟩
    · exact ⟨o, by rw [hheap]; simp [hrc, hrp, ho], hk⟩
  · intro b r hb
    obtain ⟨o, ho, hi⟩ := h.tg b r hb
    have hrc := old r o ho hi
    have hk := keep r o ho hi
    by_cases hrp : r = p
    · subst hrp; rw [hpo] at ho; cases ho
      exact ⟨_, heapP, hk⟩
    · exact ⟨o, by rw [hheap]; simp [hrc, hrp, ho], hk⟩
  · obtain ⟨d, hd⟩ := h.depth
    refine ⟨fun x => if x = c then d p + 1 else d x, ?_⟩
    have hsize : (addedChild s p c po co).tree.nodes.size = s.tree.nodes.size + 1 := size_put_new hf.new
    rw [hsize]
    have hdp := hd p po hpo hpi
    intro r o ho hr
    rcases cases' r o ho hr with ⟨rfl, rfl⟩ | ⟨rfl, rfl⟩ | ⟨h1, h2, h3, h4, h5⟩
    · simp only [if_true]
      refine ⟨by omega, ?_⟩
      intro q hq
      simp at hq; subst hq
      simp [hne]
    · simp only [hne, if_false]
      refine ⟨by omega, ?_⟩
      intro q hq
      have := hdp.2 q hq
      rcases h.par r po hpo hpi with ⟨a, _⟩ | ⟨q', qo, a, b, e, _⟩
      · rw [a] at hq; cases hq
      · rw [a] at hq; simp at hq; subst hq
        simp [old _ _ b e, this]
    · have hdr := hd r o h3 h4
      simp only [h1, if_false]
      refine ⟨by omega, ?_⟩
      intro q hq
      have := hdr.2 q hq
      rcases h.par r o h3 h4 with ⟨a, _⟩ | ⟨q', qo, a, b, e, _⟩
      · rw [a] at hq; cases hq
      · rw [a] at hq; simp at hq; subst hq
        simp [old _ _ b e, this]

theorem atree_ext {a b : ATree} (h1 : ∀ u, a.node u = b.node u) (h2 : a.root = b.root)
    (h3 : ∀ x, a.branch x = b.branch x) (h4 : ∀ x, a.tag x = b.tag x) : a = b := by
  cases a; cases b
  simp only [ATree.mk.injEq]
  exact ⟨funext h1, h2, funext h3, funext h4⟩

/-- Adding a fresh child has the specified effect. -/
theorem abs_addedChild {s : TS} (h : WF s) {p c : Ref} {po co : NodeObj} (hpo : s.heap[p]? = some po)
    (hpi : s.tree.nodes.get po.id.hex = some p) (hf : Fresh s c co) (hne : p ≠ c) :
    (addedChild s p c po co).abs = s.abs.add (some po.id) co.id co.annotations.get co.data.get := by
  have hheap := added_heap hpo hf.obj hne
  have hid : idAt (addedChild s p c po co).heap = idAt s.heap := by
    funext x
    unfold idAt
    rw [hheap]
    by_cases h1 : x = c
    · subst h1; simp [hf.obj]
    · by_cases h2 : x = p
      · subst h2; simp [h1, hpo]
      · simp [h1, h2]
  apply atree_ext
  · intro u
    simp only [abs, ATree.add, upd, get, addedChild, GoMap.get_some, AL.get_put]
    by_cases hu : u = co.id
    · subst hu
      have hc : (s.heap.set p { po with children := some (AL.put po.children.entries co.id.hex c) } |>.set c
          { co with parent := some p })[c]? = some { co with parent := some p } := by
        have := hheap c
        simpa [addedChild] using this
      simp only [if_true, Option.bind_some, hc, Option.map_some, absObj]
      have hidp := congrFun hid p
      simp only [addedChild] at hidp
      rw [hidp]
      simp [idAt, hpo]
    · have hne' : ¬ co.id.hex = u.hex := fun he => hu (C03_hex_injective he).symm
      simp only [hu, hne', if_false]
      change (s.tree.nodes.get u.hex).bind _ = (s.tree.nodes.get u.hex).bind _
      cases hg : s.tree.nodes.get u.hex with
      | none => rfl
      | some r =>
        obtain ⟨o, ho, hoid⟩ := h.idx _ _ hg
        have hrc : r ≠ c := by
          rintro rfl
          rw [hf.obj] at ho; cases ho
          exact hne' hoid
        have h1 := hheap r
        simp only [addedChild] at h1 hid
        simp only [Option.bind_some, h1, hrc, if_false]
        by_cases hrp : r = p
        · subst hrp
          simp [hpo, absObj, hid]
        · simp [hrp, ho, absObj, hid]
  · simp only [abs, ATree.add, hid]
    simp [addedChild]
  · intro x; simp only [abs, ATree.add, hid]; rfl
  · intro x; simp only [abs, ATree.add, hid]; rfl

/-- The state after adding the root. -/
def addedRoot (s : TS) (r : Ref) (o : NodeObj) : TS :=
  { s with tree := { s.tree with root := some r, nodes := some (AL.put s.tree.nodes.entries o.id.hex r) } }

theorem addNode_root_eq {s : TS} {r : Ref} {o : NodeObj} (hr : s.tree.root = none) (hf : Fresh s r o) :
    s.addNode none r = .ok (addedRoot s r o) := by
  simp only [addNode, hr]
  exact updateIndexes_leaf (s := { s with tree := { s.tree with root := some r } }) hf.obj hf.leaf

theorem no_names_without_root {s : TS} (h : WF s) (hr : s.tree.root = none) :
    (∀ b, s.tree.branches.get b = none) ∧ (∀ t, s.tree.tags.get t = none) := by
  constructor
  · intro b
    cases hb : s.tree.branches.get b with
    | none => rfl
    | some r => obtain ⟨o, _, hi⟩ := h.br b r hb; rw [h.rootNone hr] at hi; cases hi
  · intro b
    cases hb : s.tree.tags.get b with
    | none => rfl
    | some r => obtain ⟨o, _, hi⟩ := h.tg b r hb; rw [h.rootNone hr] at hi; cases hi

theorem wf_addedRoot {s : TS} (h : WF s) {r : Ref} {o : NodeObj} (hr : s.tree.root = none) (hf : Fresh s r o) :
    WF (addedRoot s r o) := by
  have hnone := h.rootNone hr
  have hnodes : ∀ k, (addedRoot s r o).tree.nodes.get k = if o.id.hex = k then some r else none := by
    intro k
    have := hnone k
    simp only [addedRoot, GoMap.get_some, AL.get_put]
    split
    · rfl
    · exact this
  obtain ⟨nb, nt⟩ := no_names_without_root h hr
  have only : ∀ x xo, s.heap[x]? = some xo → (addedRoot s r o).tree.nodes.get xo.id.hex = some x → x = r ∧ xo = o := by
    intro x xo hx hi
    rw [hnodes] at hi
    split at hi
    · simp at hi; subst hi
      rw [hf.obj] at hx; cases hx; exact ⟨rfl, rfl⟩
    · cases hi
  constructor
  · exact GoMap.nodup_put h.nodesNd _ _
  · exact h.branchesNd
  · exact h.tagsNd
  · intro k x hk
    rw [hnodes] at hk
    split at hk
    · rename_i he; simp at hk; subst hk; exact ⟨o, hf.obj, he⟩
    · cases hk
  · intro x hx
    simp only [addedRoot, Option.some.injEq] at hx
    subst hx
    exact ⟨o, hf.obj, by rw [hnodes]; simp, hf.top⟩
  · intro hx; simp [addedRoot] at hx
  · intro x xo hx hi
    obtain ⟨rfl, rfl⟩ := only x xo hx hi
    exact Or.inl ⟨hf.top, rfl⟩
  · intro x xo hx hi
    obtain ⟨rfl, rfl⟩ := only x xo hx hi
    constructor
    · simp [GoMap.Nodup, hf.leaf, AL.keys]
    · intro k c hk; simp [GoMap.get, hf.leaf] at hk
  · intro x xo hx hi
    obtain ⟨rfl, rfl⟩ := only x xo hx hi
    exact ⟨hf.anno, hf.data⟩
  · intro b x hb
    have := nb b
    simp only [addedRoot] at hb
    rw [this] at hb; cases hb
  · intro b x hb
    have := nt b
    simp only [addedRoot] at hb
    rw [this] at hb; cases hb
  · refine ⟨fun _ => 0, ?_⟩
    have hsize : (addedRoot s r o).tree.nodes.size = s.tree.nodes.size + 1 := size_put_new hf.new
    rw [hsize]
    intro x xo hx hi
    obtain ⟨rfl, rfl⟩ := only x xo hx hi
    refine ⟨Nat.succ_pos _, ?_⟩
    intro q hq
    rw [hf.top] at hq; cases hq

theorem abs_addedRoot {s : TS} (h : WF s) {r : Ref} {o : NodeObj} (hr : s.tree.root = none) (hf : Fresh s r o) :
    (addedRoot s r o).abs = s.abs.add none o.id o.annotations.get o.data.get := by
  have hnone := h.rootNone hr
  apply atree_ext
  · intro u
    simp only [abs, ATree.add, upd, get, addedRoot, GoMap.get_some, AL.get_put]
    by_cases hu : u = o.id
    · subst hu
      simp [hf.obj, absObj, hf.top]
    · have hne' : ¬ o.id.hex = u.hex := fun he => hu (C03_hex_injective he).symm
      simp only [hu, hne', if_false]
      rfl
  · simp [abs, ATree.add, addedRoot, idAt, hf.obj]
  · intro x; rfl
  · intro x; rfl

/-! ## Branches and tags -/

theorem addTag_spec {s : TS} (h : WF s) (t : Str) (u : UID) :
    (s.abs.Has u → ∃ s', s.addTag t u = .ok s' ∧ WF s' ∧ s'.abs = s.abs.setTag t u ∧ s'.heap = s.heap) ∧
    (¬ s.abs.Has u → s.addTag t u = .err .nodeNotFound) := by
  constructor
  · intro hu
    obtain ⟨r, o, ho, hi, rfl⟩ := (abs_has_iff h u).1 hu
    refine ⟨{ s with tree := { s.tree with tags := some (AL.put s.tree.tags.entries t r) } },
      by simp [addTag, hi, GoMap.assign_ensure], ?_, ?_, rfl⟩
    · constructor
      · exact h.nodesNd
      · exact h.branchesNd
      · exact GoMap.nodup_put h.tagsNd _ _
      · exact h.idx
      · exact h.root
      · exact h.rootNone
      · exact h.par
      · exact h.chi
      · exact h.maps
      · exact h.br
      · intro t' r' hr'
        simp only [GoMap.get_some, AL.get_put] at hr'
        split at hr'
        · simp at hr'; subst hr'; exact ⟨o, ho, hi⟩
        · exact h.tg t' r' hr'
      · exact h.depth
    · apply atree_ext
      · intro _; rfl
      · rfl
      · intro _; rfl
      · intro x
        simp only [abs, getByTag, ATree.setTag, upd, GoMap.get_some, AL.get_put]
        by_cases hx : x = t
        · subst hx; simp [idAt, ho]
        · simp only [hx, Ne.symm hx, if_false]; rfl
  · intro hu
    have : s.tree.nodes.get u.hex = none := by
      cases hg : s.tree.nodes.get u.hex with
      | none => rfl
      | some r => exact absurd ((abs_has_iff_get h u).2 ⟨r, hg⟩) hu
    simp [addTag, this]

theorem abs_tag_iff {s : TS} (h : WF s) (t : Str) : (∃ u, s.abs.tag t = some u) ↔ ∃ r, s.tree.tags.get t = some r := by
  constructor
  · rintro ⟨u, hu⟩
    simp only [abs, getByTag, Option.bind_eq_some_iff] at hu
    obtain ⟨r, hr, _⟩ := hu
    exact ⟨r, hr⟩
  · rintro ⟨r, hr⟩
    obtain ⟨o, ho, _⟩ := h.tg t r hr
    exact ⟨o.id, by simp [abs, getByTag, hr, idAt, ho]⟩

theorem abs_branch_iff {s : TS} (h : WF s) (b : Str) :
    (∃ u, s.abs.branch b = some u) ↔ ∃ r, s.tree.branches.get b = some r := by
  constructor
  · rintro ⟨u, hu⟩
    simp only [abs, getByBranch, Option.bind_eq_some_iff] at hu
    obtain ⟨r, hr, _⟩ := hu
    exact ⟨r, hr⟩
  · rintro ⟨r, hr⟩
    obtain ⟨o, ho, _⟩ := h.br b r hr
    exact ⟨o.id, by simp [abs, getByBranch, hr, idAt, ho]⟩

theorem deleteTag_spec {s : TS} (h : WF s) (t : Str) :
    WF (s.deleteTag t).1 ∧ (s.deleteTag t).1.abs = s.abs.delTag t ∧ (s.deleteTag t).1.heap = s.heap ∧
      ((s.deleteTag t).2 = true ↔ ∃ u, s.abs.tag t = some u) := by
  rw [abs_tag_iff h]
  cases hg : s.tree.tags.get t with
  | none =>
    simp only [deleteTag, hg]
    refine ⟨h, ?_, by trivial, by simp⟩
    apply atree_ext
    · intro _; rfl
    · rfl
    · intro _; rfl
    · intro x
      simp only [ATree.delTag, upd]
      by_cases hx : x = t
      · subst hx; simp [abs, getByTag, hg]
      · simp [hx]
  | some r =>
    simp only [deleteTag, hg]
    refine ⟨?_, ?_, by trivial, by simp⟩
    · constructor
      · exact h.nodesNd
      · exact h.branchesNd
      · exact GoMap.nodup_delete h.tagsNd _
      · exact h.idx
      · exact h.root
      · exact h.rootNone
      · exact h.par
      · exact h.chi
      · exact h.maps
      · exact h.br
      · intro t' r' hr'
        simp only [GoMap.get_delete] at hr'
        split at hr'
        · cases hr'
        · exact h.tg t' r' hr'
      · exact h.depth
    · apply atree_ext
      · intro _; rfl
      · rfl
      · intro _; rfl
      · intro x
        simp only [abs, getByTag, ATree.delTag, upd, GoMap.get_delete]
        by_cases hx : x = t
        · subst hx; simp
        · simp only [hx, Ne.symm hx, if_false]

/-- Setting one branch to a node of the tree. -/
theorem setBranch_ok {s : TS} (h : WF s) {r : Ref} {o : NodeObj} (ho : s.heap[r]? = some o)
    (hi : s.tree.nodes.get o.id.hex = some r) (b : Str) :
    let s' : TS := { s with tree := { s.tree with branches := some (AL.put s.tree.branches.entries b r) } }
    WF s' ∧ s'.abs = s.abs.setBranch b o.id := by
  refine ⟨?_, ?_⟩
  · constructor
    · exact h.nodesNd
    · exact GoMap.nodup_put h.branchesNd _ _
    · exact h.tagsNd
    · exact h.idx
    · exact h.root
    · exact h.rootNone
    · exact h.par
    · exact h.chi
    · exact h.maps
    · intro t' r' hr'
      simp only [GoMap.get_some, AL.get_put] at hr'
      split at hr'
      · simp at hr'; subst hr'; exact ⟨o, ho, hi⟩
      · exact h.br t' r' hr'
    · exact h.tg
    · exact h.depth
  · apply atree_ext
    · intro _; rfl
    · rfl
    · intro x
      simp only [abs, getByBranch, ATree.setBranch, upd, GoMap.get_some, AL.get_put]
      by_cases hx : x = b
      · subst hx; simp [idAt, ho]
      · simp only [hx, Ne.symm hx, if_false]; rfl
    · intro _; rfl

theorem addBranch_spec {s : TS} (h : WF s) (b : Str) (u : UID) :
    (s.abs.Has u → ∃ s', s.addBranch b u = .ok s' ∧ WF s' ∧ s'.abs = s.abs.setBranch b u ∧ s'.heap = s.heap) ∧
    (¬ s.abs.Has u → s.addBranch b u = .err .nodeNotFound) := by
  constructor
  · intro hu
    obtain ⟨r, o, ho, hi, rfl⟩ := (abs_has_iff h u).1 hu
    obtain ⟨h1, h2⟩ := setBranch_ok h ho hi b
    exact ⟨_, by simp [addBranch, hi, GoMap.assign_ensure], h1, h2, rfl⟩
  · intro hu
    have : s.tree.nodes.get u.hex = none := by
      cases hg : s.tree.nodes.get u.hex with
      | none => rfl
      | some r => exact absurd ((abs_has_iff_get h u).2 ⟨r, hg⟩) hu
    simp [addBranch, this]

theorem deleteBranch_spec {s : TS} (h : WF s) (b : Str) :
    WF (s.deleteBranch b).1 ∧ (s.deleteBranch b).1.abs = s.abs.delBranch b ∧ (s.deleteBranch b).1.heap = s.heap ∧
      ((s.deleteBranch b).2 = true ↔ ∃ u, s.abs.branch b = some u) := by
  rw [abs_branch_iff h]
  cases hg : s.tree.branches.get b with
  | none =>
    simp only [deleteBranch, hg]
    refine ⟨h, ?_, by trivial, by simp⟩
    apply atree_ext
    · intro _; rfl
    · rfl
    · intro x
      simp only [ATree.delBranch, upd]
      by_cases hx : x = b
      · subst hx; simp [abs, getByBranch, hg]
      · simp [hx]
    · intro _; rfl
  | some r =>
    simp only [deleteBranch, hg]
    refine ⟨?_, ?_, by trivial, by simp⟩
    · constructor
      · exact h.nodesNd
      · exact GoMap.nodup_delete h.branchesNd _
      · exact h.tagsNd
      · exact h.idx
      · exact h.root
      · exact h.rootNone
      · exact h.par
      · exact h.chi
      · exact h.maps
      · intro t' r' hr'
        simp only [GoMap.get_delete] at hr'
        split at hr'
        · cases hr'
        · exact h.br t' r' hr'
      · exact h.tg
      · exact h.depth
    · apply atree_ext
      · intro _; rfl
      · rfl
      · intro x
        simp only [abs, getByBranch, ATree.delBranch, upd, GoMap.get_delete]
        by_cases hx : x = b
        · subst hx; simp
        · simp only [hx, Ne.symm hx, if_false]
      · intro _; rfl

/-! ## `UpdateBranch` -/

theorem connected_spec {ε : Type} {s : TS} (h : WF s) {d : Ref → Nat}
    (hd : ∀ r o, s.heap[r]? = some o → s.tree.nodes.get o.id.hex = some r → ∀ p, o.parent = some p → d r = d p + 1)
    (head : UID) : ∀ (fuel : Nat) (r : Ref) (o : NodeObj), s.heap[r]? = some o → s.tree.nodes.get o.id.hex = some r →
      d r < fuel →
      ∃ c : Bool, (connected s.heap head.hex fuel (some r) : Res ε Bool) = .ok c ∧
        (c = true ↔ ATree.Anc s.abs head o.id)
  | 0, _, _, _, _, hf => by omega
  | n + 1, r, o, ho, hr, hf => by
    simp only [connected, ho]
    have habs := (abs_node_iff h o.id _).2 ⟨r, o, ho, hr, rfl, rfl⟩
    by_cases he : o.id.hex = head.hex
    · have := C03_hex_injective he
      subst this
      exact ⟨true, by simp, by simp; exact .refl habs⟩
    · simp only [he, if_false]
      have hne : o.id ≠ head := fun e => he (by rw [e])
      rcases h.par r o ho hr with ⟨hp, hroot⟩ | ⟨q, qo, h1, h2, h3, h4⟩
      · refine ⟨false, by simp [hp, connected], ?_⟩
        simp only [Bool.false_eq_true, false_iff]
        intro ha
        cases ha with
        | refl _ => exact hne rfl
        | step hn hpar _ =>
          rw [habs] at hn; cases hn
          rw [(abs_parent_none_iff h ho hr).2 ⟨hp, hroot⟩] at hpar; cases hpar
      · have hdr := hd r o ho hr q h1
        obtain ⟨c, hc, hiff⟩ := connected_spec (ε := ε) h hd head n q qo h2 h3 (by omega)
        refine ⟨c, by rw [h1]; exact hc, hiff.trans ?_⟩
        have hpar := (abs_parent_iff h ho hr qo.id).2 ⟨q, qo, h1, h2, rfl, h3, h4⟩
        constructor
        · intro ha; exact .step habs hpar ha
        · intro ha
          cases ha with
          | refl _ => exact absurd rfl hne
          | step hn hpar' ha' =>
            rw [habs] at hn; cases hn
            rw [hpar] at hpar'; cases hpar'
            exact ha'

theorem updateBranch_spec {s : TS} (h : WF s) (b : Str) (u : UID) (force : Bool) :
    (¬ s.abs.Has u → s.updateBranch b u force = .err .nodeNotFound) ∧
    (s.abs.Has u → s.abs.branch b = none → s.updateBranch b u force = .err .branchNotFound) ∧
    (∀ hd, s.abs.Has u → s.abs.branch b = some hd → (force = true ∨ ATree.Anc s.abs hd u) →
      ∃ s', s.updateBranch b u force = .ok s' ∧ WF s' ∧ s'.abs = s.abs.setBranch b u ∧ s'.heap = s.heap) ∧
    (∀ hd, s.abs.Has u → s.abs.branch b = some hd → force = false → ¬ ATree.Anc s.abs hd u →
      s.updateBranch b u force = .err .unreachable) := by
  have hb_none : s.abs.branch b = none → s.tree.branches.get b = none := by
    intro hn
    cases hg : s.tree.branches.get b with
    | none => rfl
    | some r =>
      obtain ⟨x, hx⟩ := (abs_branch_iff h b).2 ⟨r, hg⟩
      rw [hn] at hx; cases hx
  have hb_some : ∀ hd, s.abs.branch b = some hd → ∃ r o, s.tree.branches.get b = some r ∧ s.heap[r]? = some o ∧
      s.tree.nodes.get o.id.hex = some r ∧ o.id = hd := by
    intro hd hh
    simp only [abs, getByBranch, Option.bind_eq_some_iff, idAt, Option.map_eq_some_iff] at hh
    obtain ⟨r, hr, o, ho, rfl⟩ := hh
    obtain ⟨o', ho', hi⟩ := h.br b r hr
    rw [ho] at ho'; cases ho'
    exact ⟨r, o, hr, ho, hi, rfl⟩
  obtain ⟨d, hd0⟩ := h.depth
  refine ⟨?_, ?_, ?_, ?_⟩
  · intro hu
    have : s.tree.nodes.get u.hex = none := by
      cases hg : s.tree.nodes.get u.hex with
      | none => rfl
      | some r => exact absurd ((abs_has_iff_get h u).2 ⟨r, hg⟩) hu
    simp [updateBranch, this]
  · intro hu hn
    obtain ⟨r, o, ho, hi, rfl⟩ := (abs_has_iff h u).1 hu
    simp [updateBranch, hi, hb_none hn]
  · intro hd hu hh hcond
    obtain ⟨r, o, ho, hi, rfl⟩ := (abs_has_iff h u).1 hu
    obtain ⟨hr, hobj, hg, hho, hhi, rfl⟩ := hb_some hd hh
    simp only [updateBranch, hi, hg, hho, ho]
    by_cases he : hobj.id.hex = o.id.hex
    · refine ⟨s, by simp [he], h, ?_, rfl⟩
      have he' := C03_hex_injective he
      apply atree_ext
      · intro _; rfl
      · rfl
      · intro x
        simp only [ATree.setBranch, upd]
        by_cases hx : x = b
        · subst hx; simp [hh, he']
        · simp [hx]
      · intro _; rfl
    · obtain ⟨w1, w2⟩ := setBranch_ok h ho hi b
      have hassign : s.tree.branches.assign b r = some (some (AL.put s.tree.branches.entries b r)) := by
        cases hm : s.tree.branches with
        | none => rw [hm] at hg; simp at hg
        | some l => rfl
      simp only [he, if_false, hassign]
      cases force with
      | true => exact ⟨_, by simp, w1, w2, rfl⟩
      | false =>
        have hanc : ATree.Anc s.abs hobj.id o.id := by simpa using hcond
        obtain ⟨c, hc, hiff⟩ := connected_spec (ε := TreeErr) h (fun r o a b => (hd0 r o a b).2) hobj.id s.walkFuel r o
          ho hi (by have := (hd0 r o ho hi).1; unfold walkFuel; omega)
        have hct : c = true := hiff.2 hanc
        subst hct
        exact ⟨_, by simp [hc], w1, w2, rfl⟩
  · intro hd hu hh hfalse hanc
    obtain ⟨r, o, ho, hi, rfl⟩ := (abs_has_iff h u).1 hu
    obtain ⟨hr, hobj, hg, hho, hhi, rfl⟩ := hb_some hd hh
    subst hfalse
    simp only [updateBranch, hi, hg, hho, ho]
    have he : ¬ hobj.id.hex = o.id.hex := by
      intro he
      have := C03_hex_injective he
      exact hanc (this ▸ .refl ((abs_node_iff h hobj.id _).2 ⟨hr, hobj, hho, hhi, rfl, rfl⟩))
    obtain ⟨c, hc, hiff⟩ := connected_spec (ε := TreeErr) h (fun r o a b => (hd0 r o a b).2) hobj.id s.walkFuel r o
      ho hi (by have := (hd0 r o ho hi).1; unfold walkFuel; omega)
    have hcf : c = false := by
      cases c with
      | false => rfl
      | true => exact absurd (hiff.1 rfl) hanc
    subst hcf
    simp [he, hc]

end TS
end Verif
