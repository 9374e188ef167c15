import Verif.Tree.Model
import Verif.Props.Uid
import Verif.Props.Tree
/-!
# A node keeps what was put into it (C95)

The methods of `Node` (node.go), called in any order on any nodes. What a node shows is told from the calls alone: `Last` finds the last
call that counts. The calls of a history are listed newest first.
-/
set_option autoImplicit false
namespace Verif
open TS

/-- A call of a method that changes something, or of `NewNode`. -/
inductive NCall where
  /-- `NewNode` (pkg/spaces/trees/node.go:49-51). -/
  | new (id : UID)
  /-- `SetParent` (pkg/spaces/trees/node.go:120-122). -/
  | parent (r : Ref) (p : Option Ref)
  /-- `AddChild` (pkg/spaces/trees/node.go:126-143). -/
  | child (p c : Ref)
  /-- `DeleteChild` (pkg/spaces/trees/node.go:147-161). -/
  | unchild (p : Ref) (u : UID)
  /-- `AddAnnotation` (pkg/spaces/trees/node.go:178-185). -/
  | anno (r : Ref) (k v : Str)
  /-- `SetAnnotations` (pkg/spaces/trees/node.go:188-192). -/
  | annos (r : Ref) (m : GoMap Str)
  /-- `AddData` (pkg/spaces/trees/node.go:215-228). -/
  | datum (r : Ref) (k : Str) (v : Option Str)
  /-- `SetData` (pkg/spaces/trees/node.go:231-235). -/
  | data (r : Ref) (m : GoMap (Option Str))

/-- The calls `h`, newest first, lead to the nodes of `s`. -/
inductive NRun : List NCall → TS → Prop where
  | start : NRun [] TS.empty
  | new {h : List NCall} {s : TS} (id : UID) : NRun h s → NRun (.new id :: h) (s.newNode id).2
  | parent {h : List NCall} {s s' : TS} {r : Ref} {p : Option Ref} : NRun h s → s.setParent r p = some s' → NRun (.parent r p :: h) s'
  | child {h : List NCall} {s s' : TS} {p c : Ref} {b : Bool} : NRun h s → s.addChild p c = some (s', b) → NRun (.child p c :: h) s'
  | unchild {h : List NCall} {s s' : TS} {p : Ref} {u : UID} {b : Bool} : NRun h s → s.deleteChild p u = some (s', b) → NRun (.unchild p u :: h) s'
  | anno {h : List NCall} {s s' : TS} {r : Ref} {k v : Str} : NRun h s → s.addAnnotation r k v = some s' → NRun (.anno r k v :: h) s'
  | annos {h : List NCall} {s s' : TS} {r : Ref} {m : GoMap Str} : NRun h s → s.setAnnotations r m = some s' → NRun (.annos r m :: h) s'
  | datum {h : List NCall} {s s' : TS} {r : Ref} {k : Str} {v : Option Str} : NRun h s → s.addData r k v = some s' → NRun (.datum r k v :: h) s'
  | data {h : List NCall} {s s' : TS} {r : Ref} {m : GoMap (Option Str)} : NRun h s → s.setData r m = some s' → NRun (.data r m :: h) s'

namespace NCall

/-- Some call does it (`does`, given the calls before it), and no call after it touches the same thing. -/
def Last (does : NCall → List NCall → Prop) (touches : NCall → Prop) (h : List NCall) : Prop :=
  ∃ h1 x h2, h = h1 ++ x :: h2 ∧ does x h2 ∧ ∀ y ∈ h1, ¬ touches y

/-- How many nodes have been made. -/
def made : List NCall → Nat
  | [] => 0
  | .new _ :: h => made h + 1
  | _ :: h => made h

/-- The node number `r` was made with the ID `u`. -/
def Born (h : List NCall) (r : Ref) (u : UID) : Prop := ∃ h1 h2, h = h1 ++ .new u :: h2 ∧ made h2 = r

/-- A child with the ID `u` was added to `r`, and it was not deleted since. -/
def Under (h : List NCall) (r : Ref) (u : UID) : Prop := Last (fun x h2 => ∃ c, x = .child r c ∧ Born h2 c u) (fun y => y = .unchild r u) h

/-- The same, and `c` is the child: the first that was added. -/
def First (h : List NCall) (r : Ref) (u : UID) (c : Ref) : Prop := Last (fun x h2 => x = .child r c ∧ Born h2 c u ∧ ¬ Under h2 r u) (fun y => y = .unchild r u) h

/-- The last call of `SetParent` on `r` had `p`. -/
def Parent (h : List NCall) (r p : Ref) : Prop := Last (fun x _ => x = .parent r (some p)) (fun y => ∃ q, y = .parent r q) h

/-- The last word on the annotation `k` of `r` was `v`. -/
def Anno (h : List NCall) (r : Ref) (k v : Str) : Prop :=
  Last (fun x _ => x = .anno r k v ∨ ∃ m, x = .annos r m ∧ m.get k = some v) (fun y => (∃ w, y = .anno r k w) ∨ ∃ m, y = .annos r m) h

/-- The last word on the data `k` of `r` was `v`. -/
def Datum (h : List NCall) (r : Ref) (k : Str) (v : Option Str) : Prop :=
  Last (fun x _ => x = .datum r k v ∨ ∃ m, x = .data r m ∧ m.get k = some v) (fun y => (∃ w, y = .datum r k w) ∨ ∃ m, y = .data r m) h

theorem last_nil {D : NCall → List NCall → Prop} {T : NCall → Prop} : ¬ Last D T [] := by
  rintro ⟨h1, x, h2, h, _⟩
  cases h1 <;> cases h

theorem last_cons {D : NCall → List NCall → Prop} {T : NCall → Prop} {x : NCall} {h : List NCall} : Last D T (x :: h) ↔ D x h ∨ (¬ T x ∧ Last D T h) := by
  constructor
  · rintro ⟨h1, y, h2, he, hd, ht⟩
    cases h1 with
    | nil => cases he; exact Or.inl hd
    | cons z h1 =>
      cases he
      exact Or.inr ⟨ht _ (by simp), h1, y, h2, rfl, hd, fun w hw => ht w (List.mem_cons_of_mem _ hw)⟩
  · rintro (hd | ⟨ht, h1, y, h2, rfl, hd, ht'⟩)
    · exact ⟨[], x, h, rfl, hd, nofun⟩
    · refine ⟨x :: h1, y, h2, rfl, hd, fun w hw => ?_⟩
      rcases List.mem_cons.1 hw with rfl | hw
      · exact ht
      · exact ht' w hw

theorem born_cons {x : NCall} {h : List NCall} {r : Ref} {u : UID} : Born (x :: h) r u ↔ (x = .new u ∧ made h = r) ∨ Born h r u := by
  constructor
  · rintro ⟨h1, h2, he, hr⟩
    cases h1 with
    | nil => cases he; exact Or.inl ⟨rfl, hr⟩
    | cons z h1 => cases he; exact Or.inr ⟨h1, h2, rfl, hr⟩
  · rintro (⟨rfl, hr⟩ | ⟨h1, h2, rfl, hr⟩)
    · exact ⟨[], h, rfl, hr⟩
    · exact ⟨x :: h1, h2, rfl, hr⟩

theorem under_iff {h : List NCall} {r : Ref} {u : UID} : Under h r u ↔ ∃ c, First h r u c := by
  induction h with
  | nil => exact ⟨fun h => absurd h last_nil, fun ⟨_, h⟩ => absurd h last_nil⟩
  | cons x h ih =>
    unfold Under First at *
    simp only [last_cons]
    constructor
    · rintro (⟨c, rfl, hb⟩ | ⟨h1, h2⟩)
      · by_cases hu : Under h r u
        · obtain ⟨c', hc'⟩ := ih.1 hu
          exact ⟨c', Or.inr ⟨nofun, hc'⟩⟩
        · exact ⟨c, Or.inl ⟨rfl, hb, hu⟩⟩
      · obtain ⟨c, hc⟩ := ih.1 h2
        exact ⟨c, Or.inr ⟨h1, hc⟩⟩
    · rintro ⟨c, ⟨h1, h2, _⟩ | ⟨h1, h2⟩⟩
      · exact Or.inl ⟨c, h1, h2⟩
      · exact Or.inr ⟨h1, ih.2 ⟨c, h2⟩⟩

/-- The nodes are as the calls tell. -/
structure Tells (h : List NCall) (s : TS) : Prop where
  len : s.heap.length = made h
  born : ∀ r o, s.heap[r]? = some o → ∀ u, Born h r u ↔ u = o.id
  parent : ∀ r o, s.heap[r]? = some o → ∀ p, o.parent = some p ↔ Parent h r p
  child : ∀ r o, s.heap[r]? = some o → ∀ k c, o.children.get k = some c ↔ ∃ u, k = u.hex ∧ First h r u c
  anno : ∀ r o, s.heap[r]? = some o → ∀ k v, o.annotations.get k = some v ↔ Anno h r k v
  data : ∀ r o, s.heap[r]? = some o → ∀ k v, o.data.get k = some v ↔ Datum h r k v
  fresh : ∀ r, made h ≤ r → (∀ u, ¬ Born h r u) ∧ (∀ p, ¬ Parent h r p) ∧ (∀ u c, ¬ First h r u c) ∧ (∀ k v, ¬ Anno h r k v) ∧ ∀ k v, ¬ Datum h r k v

theorem at_set {l : List NodeObj} {r q : Ref} {o o' o2 : NodeObj} (ho : l[r]? = some o) (h : (l.set r o')[q]? = some o2) : (q = r ∧ o2 = o') ∨ (q ≠ r ∧ l[q]? = some o2) := by
  by_cases hq : q = r
  · subst hq
    have : q < l.length := (List.getElem?_eq_some_iff.1 ho).1
    rw [List.getElem?_set_self this] at h
    cases h; exact Or.inl ⟨rfl, rfl⟩
  · rw [List.getElem?_set_ne (Ne.symm hq)] at h
    exact Or.inr ⟨hq, h⟩

theorem modify_inv {s s' : TS} {r : Ref} {f : NodeObj → NodeObj} (h : s.modify r f = some s') : ∃ o, s.heap[r]? = some o ∧ s'.heap = s.heap.set r (f o) := by
  unfold TS.modify at h
  cases ho : s.heap[r]? with
  | none => rw [ho] at h; cases h
  | some o => rw [ho] at h; cases h; exact ⟨o, rfl, rfl⟩

theorem set_same {l : List NodeObj} {r : Ref} {o : NodeObj} (ho : l[r]? = some o) : l.set r o = l := by
  obtain ⟨h1, h2⟩ := List.getElem?_eq_some_iff.1 ho
  rw [← h2, List.set_getElem_self]

theorem addChild_inv {s s' : TS} {p c : Ref} {b : Bool} (h : s.addChild p c = some (s', b)) : ∃ o co, s.heap[p]? = some o ∧ s.heap[c]? = some co ∧
    ((o.children.get co.id.hex ≠ none ∧ s'.heap = s.heap.set p o ∧ b = false) ∨
      (o.children.get co.id.hex = none ∧ s'.heap = s.heap.set p { o with children := some (AL.put o.children.entries co.id.hex c) } ∧ b = true)) := by
  unfold TS.addChild at h
  cases ho : s.heap[p]? with
  | none => rw [ho] at h; cases h
  | some o =>
    cases hc : s.heap[c]? with
    | none => rw [ho, hc] at h; cases h
    | some co =>
      rw [ho, hc] at h
      simp only [GoMap.assign_ensure] at h
      refine ⟨o, co, rfl, rfl, ?_⟩
      cases hg : o.children.get co.id.hex with
      | some x => rw [hg] at h; cases h; exact Or.inl ⟨nofun, (set_same ho).symm, rfl⟩
      | none => rw [hg] at h; cases h; exact Or.inr ⟨rfl, rfl, rfl⟩

theorem deleteChild_inv {s s' : TS} {p : Ref} {u : UID} {b : Bool} (h : s.deleteChild p u = some (s', b)) : ∃ o, s.heap[p]? = some o ∧
    ((o.children.get u.hex = none ∧ s'.heap = s.heap.set p o ∧ b = false) ∨
      (o.children.get u.hex ≠ none ∧ s'.heap = s.heap.set p { o with children := o.children.delete u.hex } ∧ b = true)) := by
  unfold TS.deleteChild at h
  cases ho : s.heap[p]? with
  | none => rw [ho] at h; cases h
  | some o =>
    rw [ho] at h
    simp only at h
    refine ⟨o, rfl, ?_⟩
    cases hg : o.children.get u.hex with
    | none => rw [hg] at h; cases h; exact Or.inl ⟨rfl, (set_same ho).symm, rfl⟩
    | some x => rw [hg] at h; cases h; exact Or.inr ⟨nofun, rfl, rfl⟩

/-- A call that is not `NewNode` and changes one node. -/
theorem tells_set {h : List NCall} {s s' : TS} (ht : Tells h s) {x : NCall} {r : Ref} {o o' : NodeObj} (ho : s.heap[r]? = some o) (hs : s'.heap = s.heap.set r o')
    (hx : ∀ id, x ≠ .new id) (hid : o'.id = o.id)
    (hp : ∀ q p, Parent (x :: h) q p ↔ if q = r then o'.parent = some p else Parent h q p)
    (hc : ∀ q k c, (∃ u : UID, k = u.hex ∧ First (x :: h) q u c) ↔ if q = r then o'.children.get k = some c else ∃ u : UID, k = u.hex ∧ First h q u c)
    (ha : ∀ q k v, Anno (x :: h) q k v ↔ if q = r then o'.annotations.get k = some v else Anno h q k v)
    (hd : ∀ q k v, Datum (x :: h) q k v ↔ if q = r then o'.data.get k = some v else Datum h q k v) : Tells (x :: h) s' := by
  have hm : made (x :: h) = made h := by
    cases x <;> first | rfl | exact absurd rfl (hx _)
  have hb : ∀ q u, Born (x :: h) q u ↔ Born h q u := fun q u => by
    rw [born_cons]
    exact ⟨fun h => h.elim (fun h => absurd h.1 (hx _)) (fun h => h), Or.inr⟩
  have hr : r < made h := by rw [← ht.len]; exact (List.getElem?_eq_some_iff.1 ho).1
  refine ⟨by rw [hs, List.length_set, hm, ht.len], ?_, ?_, ?_, ?_, ?_, ?_⟩
  · intro q o2 h2 u
    rw [hs] at h2
    rw [hb]
    rcases at_set ho h2 with ⟨rfl, rfl⟩ | ⟨hq, h2⟩
    · rw [hid]; exact ht.born _ _ ho u
    · exact ht.born _ _ h2 u
  · intro q o2 h2 u
    rw [hs] at h2
    rw [hp]
    rcases at_set ho h2 with ⟨rfl, rfl⟩ | ⟨hq, h2⟩
    · rw [if_pos rfl]
    · rw [if_neg hq]; exact ht.parent _ _ h2 u
  · intro q o2 h2 k c
    rw [hs] at h2
    rw [hc]
    rcases at_set ho h2 with ⟨rfl, rfl⟩ | ⟨hq, h2⟩
    · rw [if_pos rfl]
    · rw [if_neg hq]; exact ht.child _ _ h2 k c
  · intro q o2 h2 k v
    rw [hs] at h2
    rw [ha]
    rcases at_set ho h2 with ⟨rfl, rfl⟩ | ⟨hq, h2⟩
    · rw [if_pos rfl]
    · rw [if_neg hq]; exact ht.anno _ _ h2 k v
  · intro q o2 h2 k v
    rw [hs] at h2
    rw [hd]
    rcases at_set ho h2 with ⟨rfl, rfl⟩ | ⟨hq, h2⟩
    · rw [if_pos rfl]
    · rw [if_neg hq]; exact ht.data _ _ h2 k v
  · intro q hq
    rw [hm] at hq
    have hne : q ≠ r := by omega
    obtain ⟨h1, h2, h3, h4, h5⟩ := ht.fresh q hq
    refine ⟨fun u => by rw [hb]; exact h1 u, fun p => by rw [hp, if_neg hne]; exact h2 p, fun u c hf => ?_, fun k v => by rw [ha, if_neg hne]; exact h4 k v,
      fun k v => by rw [hd, if_neg hne]; exact h5 k v⟩
    have := (hc q u.hex c).1 ⟨u, rfl, hf⟩
    rw [if_neg hne] at this
    obtain ⟨u', _, h⟩ := this
    exact h3 u' c h

theorem tells {h : List NCall} {s : TS} (hr : NRun h s) : Tells h s := by
  induction hr with
  | start => exact ⟨rfl, nofun, nofun, nofun, nofun, nofun, fun r _ => ⟨fun u hb => (by obtain ⟨h1, h2, h, _⟩ := hb; cases h1 <;> cases h), fun _ => last_nil, fun _ _ => last_nil, fun _ _ => last_nil, fun _ _ => last_nil⟩⟩
  | @new h s id _ ih =>
    have e1 : ∀ q p, Parent (.new id :: h) q p ↔ Parent h q p := fun q p => by simp [Parent, last_cons]
    have e2 : ∀ q u c, First (.new id :: h) q u c ↔ First h q u c := fun q u c => by simp [First, last_cons]
    have e3 : ∀ q k v, Anno (.new id :: h) q k v ↔ Anno h q k v := fun q k v => by simp [Anno, last_cons]
    have e4 : ∀ q k v, Datum (.new id :: h) q k v ↔ Datum h q k v := fun q k v => by simp [Datum, last_cons]
    have hget : ∀ q o, (s.newNode id).2.heap[q]? = some o → s.heap[q]? = some o ∨ (q = made h ∧ o = ⟨id, none, none, none, none⟩) := by
      intro q o ho
      simp only [newNode] at ho
      rw [← ih.len]
      rcases Nat.lt_or_ge q s.heap.length with hl | hl
      · rw [List.getElem?_append_left hl] at ho; exact Or.inl ho
      · rw [List.getElem?_append_right hl] at ho
        obtain ⟨h1, h2⟩ := List.getElem?_eq_some_iff.1 ho
        simp only [List.length_singleton] at h1
        have h3 : q - s.heap.length = 0 := by omega
        simp only [h3, List.getElem_cons_zero] at h2
        exact Or.inr ⟨by omega, h2.symm⟩
    have hf := ih.fresh (made h) (Nat.le_refl _)
    refine ⟨by simp [newNode, made, ih.len], ?_, ?_, ?_, ?_, ?_, ?_⟩
    · intro q o ho u
      rw [born_cons]
      rcases hget q o ho with h1 | ⟨rfl, rfl⟩
      · rw [ih.born q o h1]
        have : q < made h := by rw [← ih.len]; exact (List.getElem?_eq_some_iff.1 h1).1
        exact ⟨fun h => h.elim (fun h => by omega) (fun h => h), Or.inr⟩
      · constructor
        · rintro (⟨h, _⟩ | h)
          · cases h; rfl
          · exact absurd h (hf.1 u)
        · rintro rfl; exact Or.inl ⟨rfl, rfl⟩
    · intro q o ho p
      rw [e1]
      rcases hget q o ho with h1 | ⟨rfl, rfl⟩
      · exact ih.parent q o h1 p
      · exact ⟨nofun, fun h => absurd h (hf.2.1 p)⟩
    · intro q o ho k c
      simp only [e2]
      rcases hget q o ho with h1 | ⟨rfl, rfl⟩
      · exact ih.child q o h1 k c
      · exact ⟨nofun, fun ⟨u, _, h⟩ => absurd h (hf.2.2.1 u c)⟩
    · intro q o ho k v
      rw [e3]
      rcases hget q o ho with h1 | ⟨rfl, rfl⟩
      · exact ih.anno q o h1 k v
      · exact ⟨nofun, fun h => absurd h (hf.2.2.2.1 k v)⟩
    · intro q o ho k v
      rw [e4]
      rcases hget q o ho with h1 | ⟨rfl, rfl⟩
      · exact ih.data q o h1 k v
      · exact ⟨nofun, fun h => absurd h (hf.2.2.2.2 k v)⟩
    · intro q hq
      simp only [made] at hq
      obtain ⟨h1, h2, h3, h4, h5⟩ := ih.fresh q (by omega)
      refine ⟨fun u => ?_, fun p => by rw [e1]; exact h2 p, fun u c => by rw [e2]; exact h3 u c, fun k v => by rw [e3]; exact h4 k v, fun k v => by rw [e4]; exact h5 k v⟩
      rw [born_cons]
      rintro (⟨_, h⟩ | h)
      · omega
      · exact h1 u h
  | @parent h s s' r p hr hs ih =>
    obtain ⟨o, ho, hs⟩ := modify_inv hs
    refine tells_set ih ho hs (fun _ => nofun) rfl (fun q p' => ?_) (fun q k c => ?_) (fun q k v => ?_) (fun q k v => ?_)
    · by_cases hq : q = r
      · subst hq; simp [Parent, last_cons]
      · simp [Parent, last_cons, hq, Ne.symm hq]
    · by_cases hq : q = r
      · subst hq; simp [First, last_cons, ih.child _ _ ho]
      · simp [First, last_cons, hq]
    · by_cases hq : q = r
      · subst hq; simp [ih.anno _ _ ho]; simp [Anno, last_cons]
      · simp [Anno, last_cons, hq]
    · by_cases hq : q = r
      · subst hq; simp [ih.data _ _ ho]; simp [Datum, last_cons]
      · simp [Datum, last_cons, hq]
  | @child h s s' p c b hr hs ih =>
    obtain ⟨o, co, ho, hco, hs⟩ := addChild_inv hs
    have hU : ∀ u, Under h p u ↔ o.children.get u.hex ≠ none := fun u => by
      rw [under_iff]
      constructor
      · rintro ⟨c, hc⟩ hn
        rw [(ih.child _ _ ho _ _).2 ⟨u, rfl, hc⟩] at hn; cases hn
      · intro hn
        obtain ⟨c, hc⟩ := Option.ne_none_iff_exists'.1 hn
        obtain ⟨u', h1, h2⟩ := (ih.child _ _ ho _ _).1 hc
        cases C03_hex_injective h1
        exact ⟨c, h2⟩
    have hF : ∀ q u c', First (.child p c :: h) q u c' ↔ (q = p ∧ c' = c ∧ u = co.id ∧ o.children.get u.hex = none) ∨ First h q u c' := fun q u c' => by
      unfold First
      rw [last_cons]
      constructor
      · rintro (⟨h1, h2, h3⟩ | ⟨_, h2⟩)
        · cases h1
          exact Or.inl ⟨rfl, rfl, (ih.born _ _ hco u).1 h2, Classical.not_not.1 fun hn => h3 ((hU u).2 hn)⟩
        · exact Or.inr h2
      · rintro (⟨rfl, rfl, rfl, h4⟩ | h2)
        · exact Or.inl ⟨rfl, (ih.born _ _ hco _).2 rfl, fun hn => (hU _).1 hn h4⟩
        · exact Or.inr ⟨nofun, h2⟩
    rcases hs with ⟨hne, hs, _⟩ | ⟨hne, hs, _⟩
    all_goals refine tells_set ih ho hs (fun _ => nofun) rfl (fun q p' => ?_) (fun q k' c' => ?_) (fun q k' v' => ?_) (fun q k' v' => ?_)
    · by_cases hq : q = p
      · subst hq; rw [if_pos rfl, ih.parent _ _ ho]; simp [Parent, last_cons]
      · simp [Parent, last_cons, hq]
    · by_cases hq : q = p
      · subst hq
        rw [if_pos rfl, ih.child _ _ ho]
        refine exists_congr fun u => and_congr_right fun _ => ?_
        rw [hF]
        exact ⟨fun h => h.elim (fun ⟨_, _, h3, h4⟩ => absurd (h3 ▸ h4) hne) (fun h => h), Or.inr⟩
      · rw [if_neg hq]
        refine exists_congr fun u => and_congr_right fun _ => ?_
        rw [hF]
        exact ⟨fun h => h.elim (fun ⟨h1, _⟩ => absurd h1 hq) (fun h => h), Or.inr⟩
    · by_cases hq : q = p
      · subst hq; rw [if_pos rfl, ih.anno _ _ ho]; simp [Anno, last_cons]
      · simp [Anno, last_cons, hq]
    · by_cases hq : q = p
      · subst hq; rw [if_pos rfl, ih.data _ _ ho]; simp [Datum, last_cons]
      · simp [Datum, last_cons, hq]
    · by_cases hq : q = p
      · subst hq; rw [if_pos rfl, ih.parent _ _ ho]; simp [Parent, last_cons]
      · simp [Parent, last_cons, hq]
    · by_cases hq : q = p
      · subst hq
        rw [if_pos rfl, GoMap.get_some, AL.get_put]
        by_cases hk : co.id.hex = k'
        · subst hk
          rw [if_pos rfl]
          constructor
          · rintro ⟨u, h1, h2⟩
            cases C03_hex_injective h1
            rcases (hF _ _ _).1 h2 with ⟨_, rfl, _⟩ | h2
            · rfl
            · rw [(ih.child _ _ ho _ _).2 ⟨_, rfl, h2⟩] at hne; cases hne
          · intro h; cases h
            exact ⟨_, rfl, (hF _ _ _).2 (Or.inl ⟨rfl, rfl, rfl, hne⟩)⟩
        · rw [if_neg hk]
          refine Iff.trans ?_ (ih.child _ _ ho k' c').symm
          refine exists_congr fun u => and_congr_right fun hu => ?_
          rw [hF]
          exact ⟨fun h => h.elim (fun ⟨_, _, h3, _⟩ => absurd (by rw [hu, h3]) hk) (fun h => h), Or.inr⟩
      · rw [if_neg hq]
        refine exists_congr fun u => and_congr_right fun _ => ?_
        rw [hF]
        exact ⟨fun h => h.elim (fun ⟨h1, _⟩ => absurd h1 hq) (fun h => h), Or.inr⟩
    · by_cases hq : q = p
      · subst hq; rw [if_pos rfl, ih.anno _ _ ho]; simp [Anno, last_cons]
      · simp [Anno, last_cons, hq]
    · by_cases hq : q = p
      · subst hq; rw [if_pos rfl, ih.data _ _ ho]; simp [Datum, last_cons]
      · simp [Datum, last_cons, hq]
  | @unchild h s s' p u b hr hs ih =>
    obtain ⟨o, ho, hs⟩ := deleteChild_inv hs
    have hF : ∀ q u' c', First (.unchild p u :: h) q u' c' ↔ ¬ (q = p ∧ u' = u) ∧ First h q u' c' := fun q u' c' => by
      unfold First
      rw [last_cons]
      constructor
      · rintro (⟨h1, _⟩ | ⟨h1, h2⟩)
        · cases h1
        · exact ⟨fun ⟨e1, e2⟩ => h1 (by rw [e1, e2]), h2⟩
      · rintro ⟨h1, h2⟩
        exact Or.inr ⟨fun e => by cases e; exact h1 ⟨rfl, rfl⟩, h2⟩
    rcases hs with ⟨hne, hs, _⟩ | ⟨hne, hs, _⟩
    all_goals refine tells_set ih ho hs (fun _ => nofun) rfl (fun q p' => ?_) (fun q k' c' => ?_) (fun q k' v' => ?_) (fun q k' v' => ?_)
    · by_cases hq : q = p
      · subst hq; rw [if_pos rfl, ih.parent _ _ ho]; simp [Parent, last_cons]
      · simp [Parent, last_cons, hq]
    · by_cases hq : q = p
      · subst hq
        rw [if_pos rfl, ih.child _ _ ho]
        refine exists_congr fun u' => and_congr_right fun hu => ?_
        rw [hF]
        refine ⟨fun h => h.2, fun h2 => ⟨fun e => ?_, h2⟩⟩
        obtain ⟨_, rfl⟩ := e
        rw [(ih.child _ _ ho _ _).2 ⟨_, rfl, h2⟩] at hne; cases hne
      · rw [if_neg hq]
        refine exists_congr fun u' => and_congr_right fun _ => ?_
        rw [hF]
        exact ⟨fun h => h.2, fun h2 => ⟨fun e => hq e.1, h2⟩⟩
    · by_cases hq : q = p
      · subst hq; rw [if_pos rfl, ih.anno _ _ ho]; simp [Anno, last_cons]
      · simp [Anno, last_cons, hq]
    · by_cases hq : q = p
      · subst hq; rw [if_pos rfl, ih.data _ _ ho]; simp [Datum, last_cons]
      · simp [Datum, last_cons, hq]
    · by_cases hq : q = p
      · subst hq; rw [if_pos rfl, ih.parent _ _ ho]; simp [Parent, last_cons]
      · simp [Parent, last_cons, hq]
    · by_cases hq : q = p
      · subst hq
        rw [if_pos rfl, GoMap.get_delete]
        by_cases hk : u.hex = k'
        · subst hk
          rw [if_pos rfl]
          constructor
          · rintro ⟨u', h1, h2⟩
            cases C03_hex_injective h1
            exact absurd ⟨rfl, rfl⟩ ((hF _ _ _).1 h2).1
          · exact nofun
        · rw [if_neg hk]
          refine Iff.trans ?_ (ih.child _ _ ho k' c').symm
          refine exists_congr fun u' => and_congr_right fun hu => ?_
          rw [hF]
          exact ⟨fun h => h.2, fun h2 => ⟨fun e => hk (by rw [hu, e.2]), h2⟩⟩
      · rw [if_neg hq]
        refine exists_congr fun u' => and_congr_right fun _ => ?_
        rw [hF]
        exact ⟨fun h => h.2, fun h2 => ⟨fun e => hq e.1, h2⟩⟩
    · by_cases hq : q = p
      · subst hq; rw [if_pos rfl, ih.anno _ _ ho]; simp [Anno, last_cons]
      · simp [Anno, last_cons, hq]
    · by_cases hq : q = p
      · subst hq; rw [if_pos rfl, ih.data _ _ ho]; simp [Datum, last_cons]
      · simp [Datum, last_cons, hq]
  | @anno h s s' r k v hr hs ih =>
    obtain ⟨o, ho, hs⟩ := modify_inv hs
    refine tells_set ih ho hs (fun _ => nofun) rfl (fun q p' => ?_) (fun q k' c => ?_) (fun q k' v' => ?_) (fun q k' v' => ?_)
    · by_cases hq : q = r
      · subst hq; rw [if_pos rfl, ih.parent _ _ ho]; simp [Parent, last_cons]
      · simp [Parent, last_cons, hq]
    · by_cases hq : q = r
      · subst hq; simp [First, last_cons, ih.child _ _ ho]
      · simp [First, last_cons, hq]
    · by_cases hq : q = r
      · subst hq
        rw [if_pos rfl]
        simp only [GoMap.get_some, AL.get_put]
        by_cases hk : k = k'
        · subst hk; simp [Anno, last_cons, eq_comm]
        · rw [if_neg hk]
          simp [Anno, last_cons, hk]
          exact (ih.anno _ _ ho k' v').symm
      · simp [Anno, last_cons, hq, Ne.symm hq]
    · by_cases hq : q = r
      · subst hq; rw [if_pos rfl, ih.data _ _ ho]; simp [Datum, last_cons]
      · simp [Datum, last_cons, hq]
  | @annos h s s' r m hr hs ih =>
    obtain ⟨o, ho, hs⟩ := modify_inv hs
    refine tells_set ih ho hs (fun _ => nofun) rfl (fun q p' => ?_) (fun q k' c => ?_) (fun q k' v' => ?_) (fun q k' v' => ?_)
    · by_cases hq : q = r
      · subst hq; rw [if_pos rfl, ih.parent _ _ ho]; simp [Parent, last_cons]
      · simp [Parent, last_cons, hq]
    · by_cases hq : q = r
      · subst hq; simp [First, last_cons, ih.child _ _ ho]
      · simp [First, last_cons, hq]
    · by_cases hq : q = r
      · subst hq
        rw [if_pos rfl]
        simp [Anno, last_cons]
      · simp [Anno, last_cons, hq, Ne.symm hq]
    · by_cases hq : q = r
      · subst hq; rw [if_pos rfl, ih.data _ _ ho]; simp [Datum, last_cons]
      · simp [Datum, last_cons, hq]
  | @datum h s s' r k v hr hs ih =>
    obtain ⟨o, ho, hs⟩ := modify_inv hs
    refine tells_set ih ho hs (fun _ => nofun) rfl (fun q p' => ?_) (fun q k' c => ?_) (fun q k' v' => ?_) (fun q k' v' => ?_)
    · by_cases hq : q = r
      · subst hq; rw [if_pos rfl, ih.parent _ _ ho]; simp [Parent, last_cons]
      · simp [Parent, last_cons, hq]
    · by_cases hq : q = r
      · subst hq; simp [First, last_cons, ih.child _ _ ho]
      · simp [First, last_cons, hq]
    · by_cases hq : q = r
      · subst hq; rw [if_pos rfl, ih.anno _ _ ho]; simp [Anno, last_cons]
      · simp [Anno, last_cons, hq]
    · by_cases hq : q = r
      · subst hq
        rw [if_pos rfl]
        simp only [GoMap.get_some, AL.get_put]
        by_cases hk : k = k'
        · subst hk; simp [Datum, last_cons, eq_comm]
        · rw [if_neg hk]
          simp [Datum, last_cons, hk]
          exact (ih.data _ _ ho k' v').symm
      · simp [Datum, last_cons, hq, Ne.symm hq]
  | @data h s s' r m hr hs ih =>
    obtain ⟨o, ho, hs⟩ := modify_inv hs
    refine tells_set ih ho hs (fun _ => nofun) rfl (fun q p' => ?_) (fun q k' c => ?_) (fun q k' v' => ?_) (fun q k' v' => ?_)
    · by_cases hq : q = r
      · subst hq; rw [if_pos rfl, ih.parent _ _ ho]; simp [Parent, last_cons]
      · simp [Parent, last_cons, hq]
    · by_cases hq : q = r
      · subst hq; simp [First, last_cons, ih.child _ _ ho]
      · simp [First, last_cons, hq]
    · by_cases hq : q = r
      · subst hq; rw [if_pos rfl, ih.anno _ _ ho]; simp [Anno, last_cons]
      · simp [Anno, last_cons, hq]
    · by_cases hq : q = r
      · subst hq
        rw [if_pos rfl]
        simp [Datum, last_cons]
      · simp [Datum, last_cons, hq, Ne.symm hq]

end NCall

section
variable {h : List NCall} {s : TS}

/-- The nodes are those that were made, each with the ID that it was made with, in the order in which they were made. -/
theorem C95_nodes (hr : NRun h s) (r : Ref) (u : UID) : (s.heap[r]?).map (·.id) = some u ↔ NCall.Born h r u := by
  have ht := NCall.tells hr
  cases ho : s.heap[r]? with
  | none =>
    have : s.heap.length ≤ r := List.getElem?_eq_none_iff.1 ho
    exact ⟨nofun, fun hb => absurd hb ((ht.fresh r (by rw [← ht.len]; exact this)).1 u)⟩
  | some o => rw [ht.born r o ho]; simp [eq_comm]

/-- **C95.** The parent is the one that was set last. -/
theorem C95_parent (hr : NRun h s) (r p : Ref) : (s.heap[r]?).bind (·.parent) = some p ↔ NCall.Parent h r p := by
  have ht := NCall.tells hr
  cases ho : s.heap[r]? with
  | none =>
    have : s.heap.length ≤ r := List.getElem?_eq_none_iff.1 ho
    exact ⟨nofun, fun hb => absurd hb ((ht.fresh r (by rw [← ht.len]; exact this)).2.1 p)⟩
  | some o => exact ht.parent r o ho p

/-- **C95.** A node is a root until it gets a parent. -/
theorem C95_root (hr : NRun h s) {r : Ref} (hm : r < NCall.made h) : s.isRoot r = some true ↔ ∀ p, ¬ NCall.Parent h r p := by
  have ht := NCall.tells hr
  obtain ⟨o, ho⟩ : ∃ o, s.heap[r]? = some o := ⟨_, List.getElem?_eq_getElem (by rw [ht.len]; exact hm)⟩
  simp only [isRoot, ho, Option.map_some, Option.some.injEq, Option.isNone_iff_eq_none]
  constructor
  · intro hn p hp
    rw [(ht.parent r o ho p).2 hp] at hn; cases hn
  · intro hn
    cases hp : o.parent with
    | none => rfl
    | some p => exact absurd ((ht.parent r o ho p).1 hp) (hn p)

/-- **C95.** `HasChild` is true iff a child with this ID has been added and not been deleted since. -/
theorem C95_has_child (hr : NRun h s) {r : Ref} (hm : r < NCall.made h) (u : UID) : s.hasChild r u = some true ↔ NCall.Under h r u := by
  have ht := NCall.tells hr
  obtain ⟨o, ho⟩ : ∃ o, s.heap[r]? = some o := ⟨_, List.getElem?_eq_getElem (by rw [ht.len]; exact hm)⟩
  simp only [hasChild, ho, Option.map_some, Option.some.injEq, Option.isSome_iff_exists, NCall.under_iff]
  refine exists_congr fun c => ?_
  rw [ht.child r o ho]
  exact ⟨fun ⟨u', h1, h2⟩ => C03_hex_injective h1 ▸ h2, fun h => ⟨u, rfl, h⟩⟩

/-- **C95.** `Children` has exactly those, under their IDs; of several that were added with the same ID it has the first. -/
theorem C95_children (hr : NRun h s) (r : Ref) (k : Str) (c : Ref) : (s.heap[r]?).bind (·.children.get k) = some c ↔ ∃ u : UID, k = u.hex ∧ NCall.First h r u c := by
  have ht := NCall.tells hr
  cases ho : s.heap[r]? with
  | none =>
    have : s.heap.length ≤ r := List.getElem?_eq_none_iff.1 ho
    exact ⟨nofun, fun ⟨u, _, hb⟩ => absurd hb ((ht.fresh r (by rw [← ht.len]; exact this)).2.2.1 u c)⟩
  | some o => exact ht.child r o ho k c

/-- **C95.** A node is a leaf iff no child is left. -/
theorem C95_leaf (hr : NRun h s) {r : Ref} (hm : r < NCall.made h) : s.isLeaf r = some true ↔ ∀ u, ¬ NCall.Under h r u := by
  have ht := NCall.tells hr
  obtain ⟨o, ho⟩ : ∃ o, s.heap[r]? = some o := ⟨_, List.getElem?_eq_getElem (by rw [ht.len]; exact hm)⟩
  simp only [isLeaf, ho, Option.map_some, Option.some.injEq, beq_iff_eq, GoMap.size, List.length_eq_zero_iff]
  constructor
  · intro hn u hu
    obtain ⟨c, hc⟩ := NCall.under_iff.1 hu
    have := (ht.child r o ho _ _).2 ⟨u, rfl, hc⟩
    rw [GoMap.get, hn] at this; cases this
  · intro hn
    cases he : o.children.entries with
    | nil => rfl
    | cons e l =>
      have : o.children.get e.1 = some e.2 := by rw [GoMap.get, he]; simp [AL.get]
      obtain ⟨u, _, hc⟩ := (ht.child r o ho _ _).1 this
      exact absurd (NCall.under_iff.2 ⟨_, hc⟩) (hn u)

/-- **C95.** `AddChild` says whether it has added: it has unless there is a child with the ID. -/
theorem C95_add_answer (hr : NRun h s) {p c : Ref} {u : UID} (hc : NCall.Born h c u) {s' : TS} {b : Bool} (he : s.addChild p c = some (s', b)) : b = true ↔ ¬ NCall.Under h p u := by
  obtain ⟨o, co, ho, hco, hs⟩ := NCall.addChild_inv he
  have ht := NCall.tells hr
  cases (ht.born _ _ hco u).1 hc
  have hm : p < NCall.made h := by rw [← ht.len]; exact (List.getElem?_eq_some_iff.1 ho).1
  rw [← C95_has_child hr hm]
  simp only [hasChild, ho, Option.map_some, Option.some.injEq]
  rcases hs with ⟨h1, _, rfl⟩ | ⟨h1, _, rfl⟩
  · obtain ⟨x, hx⟩ := Option.ne_none_iff_exists'.1 h1
    simp [hx]
  · simp [h1]

/-- **C95.** `DeleteChild` says whether it has deleted: it has iff there is a child with the ID. -/
theorem C95_delete_answer (hr : NRun h s) {p : Ref} {u : UID} {s' : TS} {b : Bool} (he : s.deleteChild p u = some (s', b)) : b = true ↔ NCall.Under h p u := by
  obtain ⟨o, ho, hs⟩ := NCall.deleteChild_inv he
  have ht := NCall.tells hr
  have hm : p < NCall.made h := by rw [← ht.len]; exact (List.getElem?_eq_some_iff.1 ho).1
  rw [← C95_has_child hr hm]
  simp only [hasChild, ho, Option.map_some, Option.some.injEq]
  rcases hs with ⟨h1, _, rfl⟩ | ⟨h1, _, rfl⟩
  · simp [h1]
  · obtain ⟨x, hx⟩ := Option.ne_none_iff_exists'.1 h1
    simp [hx]

/-- **C95.** An annotation has the value that was given last, by `AddAnnotation` or as part of `SetAnnotations`. -/
theorem C95_annotation (hr : NRun h s) (r : Ref) (k v : Str) : (s.heap[r]?).bind (·.annotations.get k) = some v ↔ NCall.Anno h r k v := by
  have ht := NCall.tells hr
  cases ho : s.heap[r]? with
  | none =>
    have : s.heap.length ≤ r := List.getElem?_eq_none_iff.1 ho
    exact ⟨nofun, fun hb => absurd hb ((ht.fresh r (by rw [← ht.len]; exact this)).2.2.2.1 k v)⟩
  | some o => exact ht.anno r o ho k v

/-- **C95.** The same for data. -/
theorem C95_data (hr : NRun h s) (r : Ref) (k : Str) (v : Option Str) : (s.heap[r]?).bind (·.data.get k) = some v ↔ NCall.Datum h r k v := by
  have ht := NCall.tells hr
  cases ho : s.heap[r]? with
  | none =>
    have : s.heap.length ≤ r := List.getElem?_eq_none_iff.1 ho
    exact ⟨nofun, fun hb => absurd hb ((ht.fresh r (by rw [← ht.len]; exact this)).2.2.2.2 k v)⟩
  | some o => exact ht.data r o ho k v

/-- **C95.** Calls on nodes that were made return. -/
theorem C95_returns (hr : NRun h s) {r c : Ref} (hm : r < NCall.made h) (hc : c < NCall.made h) :
    (∀ p, (s.setParent r p).isSome) ∧ (s.addChild r c).isSome ∧ (∀ u, (s.deleteChild r u).isSome) ∧ (∀ k v, (s.addAnnotation r k v).isSome) ∧ (∀ m, (s.setAnnotations r m).isSome) ∧
      (∀ k v, (s.addData r k v).isSome) ∧ ∀ m, (s.setData r m).isSome := by
  have ht := NCall.tells hr
  obtain ⟨o, ho⟩ : ∃ o, s.heap[r]? = some o := ⟨_, List.getElem?_eq_getElem (by rw [ht.len]; exact hm)⟩
  obtain ⟨co, hco⟩ : ∃ o, s.heap[c]? = some o := ⟨_, List.getElem?_eq_getElem (by rw [ht.len]; exact hc)⟩
  refine ⟨fun p => ?_, ?_, fun u => ?_, fun k v => ?_, fun m => ?_, fun k v => ?_, fun m => ?_⟩
  · simp [setParent, TS.modify, ho]
  · simp only [addChild, ho, hco, GoMap.assign_ensure]; split <;> rfl
  · simp only [deleteChild, ho]; split <;> rfl
  · simp [addAnnotation, TS.modify, ho]
  · simp [setAnnotations, TS.modify, ho]
  · simp [addData, TS.modify, ho]
  · simp [setData, TS.modify, ho]

end

/-- A concrete case: two nodes with the same ID are added to a third, one with another ID too; the ID is deleted, and the second of the two is added again. -/
example : ∃ s, NRun [.anno 0 (lit "a") (lit "y"), .child 0 2, .unchild 0 (sampleIDs 1), .annos 0 (some [(lit "a", lit "x"), (lit "b", lit "z")]), .child 0 3, .child 0 2, .child 0 1,
      .new (sampleIDs 2), .new (sampleIDs 1), .new (sampleIDs 1), .new (sampleIDs 0)] s ∧
    s.hasChild 0 (sampleIDs 1) = some true ∧ (s.heap[0]?).bind (·.children.get ((sampleIDs 1).hex)) = some 2 ∧ s.hasChild 0 (sampleIDs 2) = some true ∧ s.isLeaf 0 = some false ∧ s.isRoot 0 = some true ∧
    (s.heap[0]?).bind (·.annotations.get (lit "a")) = some (lit "y") ∧ (s.heap[0]?).bind (·.annotations.get (lit "b")) = some (lit "z") := by
  refine ⟨_, .anno (.child (b := true) (.unchild (b := true) (.annos (.child (b := true) (.child (b := false) (.child (b := true)
    (.new _ (.new _ (.new _ (.new _ .start)))) rfl) rfl) rfl) rfl) rfl) rfl) rfl, ?_⟩
  decide

end Verif
