import Verif.Tree.LoadProofs
import Verif.Space.Model

/-!
# The index of a loaded tree

Whatever a dump says, repeated IDs included, the index of the tree that `Load` builds leads from an ID to an object with
this ID.
-/

set_option autoImplicit false

namespace Verif
namespace TS

/-- The index leads from an ID to an object with this ID. -/
def Keyed (s : TS) : Prop := ∀ k r, s.tree.nodes.get k = some r → ∃ o, s.heap[r]? = some o ∧ o.id.hex = k

theorem valid_of_keyed {s : TS} (h : Keyed s) : Valid s := by
  intro k r hk
  obtain ⟨o, ho, _⟩ := h k r hk
  exact lt_of_getElem? ho

/-- Appending an object and indexing it keeps the index right, if the other objects keep their IDs. -/
theorem keyed_put {s : TS} (h : Keyed s) {heap : List NodeObj} {id : UID} {o : NodeObj} {t : Tree}
    (ho : heap[s.heap.length]? = some o) (hid : o.id = id)
    (keep : ∀ (r : Nat) (x : NodeObj), s.heap[r]? = some x → ∃ y : NodeObj, heap[r]? = some y ∧ y.id = x.id)
    (ht : t.nodes = some (AL.put s.tree.nodes.ensure.entries id.hex s.heap.length)) : Keyed ⟨heap, t⟩ := by
  intro k r hk
  simp only [ht, GoMap.get_some, AL.get_put] at hk
  split at hk
  · rename_i he
    cases hk
    exact ⟨o, ho, by rw [hid]; first | exact he.symm | exact he | simpa using he⟩
  · obtain ⟨x, hx, hxk⟩ := h k r (by simpa [GoMap.get] using hk)
    obtain ⟨y, hy, hyx⟩ := keep r x hx
    exact ⟨y, hy, by rw [hyx]; exact hxk⟩

theorem addNew_keyed {s s' : TS} (h : Keyed s) {p : Option UID} {id : UID} {anno : GoMap Str} {data : GoMap (Option Str)}
    (he : s.addNew p id anno data = .ok s') : Keyed s' := by
  simp only [addNew, mkNode_eq] at he
  cases p with
  | none =>
    simp only [addNode] at he
    cases hr : s.tree.root with
    | some _ => simp [hr] at he
    | none =>
      simp only [hr] at he
      rw [updateIndexes_leaf (o := ⟨id, none, none, anno, data⟩) (by simp) rfl] at he
      cases he
      refine keyed_put h (o := ⟨id, none, none, anno, data⟩) (id := id) (by simp) rfl ?_ rfl
      intro r x hx
      exact ⟨x, by rw [List.getElem?_append_left (lt_of_getElem? hx)]; exact hx, rfl⟩
  | some pid =>
    simp only [addNode] at he
    cases hp : s.tree.nodes.get pid.hex with
    | none => simp [hp] at he
    | some q =>
      simp only [hp] at he
      have hq := valid_of_keyed h _ _ hp
      obtain ⟨qo, hqo⟩ : ∃ qo, s.heap[q]? = some qo := ⟨_, List.getElem?_eq_getElem hq⟩
      have hqo' : (s.heap ++ [(⟨id, none, none, anno, data⟩ : NodeObj)])[q]? = some qo := by
        rw [List.getElem?_append_left hq]; exact hqo
      have hlen : (s.heap ++ [(⟨id, none, none, anno, data⟩ : NodeObj)])[s.heap.length]? = some ⟨id, none, none, anno, data⟩ := by
        simp
      simp only [addChild, hqo', hlen] at he
      cases hc : qo.children.get id.hex with
      | some _ =>
        simp only [hc, setParent, modify, hlen] at he
        rw [updateIndexes_leaf (o := ⟨id, some q, none, anno, data⟩) (by simp) rfl] at he
        cases he
        refine keyed_put h (o := ⟨id, some q, none, anno, data⟩) (id := id) (by simp) rfl ?_ rfl
        intro r x hx
        have hl := lt_of_getElem? hx
        refine ⟨x, ?_, rfl⟩
        rw [List.getElem?_set_ne (by omega), List.getElem?_append_left hl]; exact hx
      | none =>
        simp only [hc, GoMap.assign_ensure, setParent, modify] at he
        rw [List.getElem?_set_ne (by omega), hlen] at he
        simp only at he
        rw [updateIndexes_leaf (o := ⟨id, some q, none, anno, data⟩) (by simp) rfl] at he
        cases he
        refine keyed_put h (o := ⟨id, some q, none, anno, data⟩) (id := id) (by simp) rfl ?_ rfl
        intro r x hx
        have hl := lt_of_getElem? hx
        by_cases hrq : r = q
        · subst hrq
          rw [hqo] at hx; cases hx
          refine ⟨_, by rw [List.getElem?_set_ne (by omega), List.getElem?_set_self (by simp; omega)], ?_⟩; rfl
        · refine ⟨x, ?_, rfl⟩
          rw [List.getElem?_set_ne (by omega), List.getElem?_set_ne (by omega), List.getElem?_append_left hl]; exact hx

theorem addEdges_keyed : ∀ {es : List (Str × NodeDump)} {s s' : TS}, Keyed s → addEdges es s = .ok s' → Keyed s'
  | [], s, s', h, he => by cases he; exact h
  | (p, c) :: es, s, s', h, he => by
    simp only [addEdges] at he
    cases hp : UID.decodeHex p with
    | ok pid =>
      cases hc : UID.decodeHex c.id with
      | ok cid =>
        simp only [hp, hc, Res.mapErr, Res.bind] at he
        cases ha : s.addNew (some pid) cid c.annotations c.data with
        | ok s1 => simp only [ha] at he; exact addEdges_keyed (addNew_keyed h ha) he
        | _ => simp [ha] at he
      | _ => simp [hp, hc, Res.mapErr, Res.bind] at he
    | _ => simp [hp, Res.mapErr, Res.bind] at he

theorem loadNames_keyed {add : TS → Str → UID → Res TreeErr TS}
    (hadd : ∀ {s s' n u}, Keyed s → add s n u = .ok s' → Keyed s') :
    ∀ {es : List (Str × Str)} {s s' : TS}, Keyed s → loadNames add es s = .ok s' → Keyed s'
  | [], s, s', h, he => by cases he; exact h
  | (n, v) :: es, s, s', h, he => by
    simp only [loadNames] at he
    cases hv : UID.decodeHex v with
    | ok u =>
      simp only [hv, Res.mapErr, Res.bind] at he
      cases ha : add s n u with
      | ok s1 => simp only [ha] at he; exact loadNames_keyed @hadd (hadd h ha) he
      | _ => simp [ha] at he
    | _ => simp [hv, Res.mapErr, Res.bind] at he

theorem addBranch_keyed {s s' : TS} {n : Str} {u : UID} (h : Keyed s) (he : s.addBranch n u = .ok s') : Keyed s' := by
  simp only [addBranch, GoMap.assign_ensure] at he
  split at he
  · cases he
  · cases he; exact h

theorem addTag_keyed {s s' : TS} {n : Str} {u : UID} (h : Keyed s) (he : s.addTag n u = .ok s') : Keyed s' := by
  simp only [addTag, GoMap.assign_ensure] at he
  split at he
  · cases he
  · cases he; exact h

theorem keyed_empty : Keyed empty := by intro k r hk; simp [empty, GoMap.get, GoMap.entries] at hk

/-- The index of a loaded tree leads to objects with the right IDs. -/
theorem load_keyed {d : TreeDump} {s : TS} (he : load d = .ok s) : Keyed s := by
  unfold load at he
  cases hn : d.nodes with
  | none => simp only [hn] at he; cases he; exact keyed_empty
  | some nd =>
    simp only [hn] at he
    cases hr : UID.decodeHex nd.id with
    | ok rid =>
      simp only [hr, Res.mapErr, Res.bind] at he
      cases ha : empty.addNew none rid nd.annotations nd.data with
      | ok s0 =>
        simp only [ha] at he
        rw [loadLoop_eq _ _ _ (by simp [dumpSizes]) (by simp; exact ⟨_, hr⟩)] at he
        cases h1 : addEdges (bfs (dumpSize nd) [nd]) s0 with
        | ok s1 =>
          simp only [h1] at he
          cases h2 : loadNames addBranch d.branches.entries s1 with
          | ok s2 =>
            simp only [h2] at he
            exact loadNames_keyed @addTag_keyed
              (loadNames_keyed @addBranch_keyed (addEdges_keyed (addNew_keyed keyed_empty ha) h1) h2) he
          | _ => simp [h2] at he
        | _ => simp [h1] at he
      | _ => simp [ha] at he
    | _ => simp [hr, Res.mapErr, Res.bind] at he

end TS

/-- So does the index of a space that was read from a file. -/
theorem spaceLoad_keyed {t : ReadRes} {s : TS} (h : spaceLoad t = .ok s) : s.Keyed := by
  have key : ∀ d : TreeDump, (TS.load d).mapErr SpaceErr.load = .ok s → s.Keyed := by
    intro d hd
    cases hl : TS.load d with
    | ok s1 => rw [hl] at hd; cases hd; exact TS.load_keyed hl
    | _ => rw [hl] at hd; cases hd
  cases t with
  | notExist => cases h
  | ok raw =>
    simp only [spaceLoad] at h
    split at h
    · cases h
    · exact key _ h
  | failed raw =>
    simp only [spaceLoad] at h
    split at h
    · cases h
    · exact key _ h

end Verif
