import Verif.Props.Node
import Verif.Props.Repeat
/-!
# Adding a node adds all that hangs below it (C96)

`AddNode` (pkg/spaces/trees/tree.go:189-217) takes a node that may have children already and puts it and all its descendants into the index
(`updateIndexes`, pkg/spaces/trees/tree.go:355-377). The statements are about any nodes, however they were built, and speak of `Get`, of children and of
the refusals only.
-/
set_option autoImplicit false
namespace Verif
open TS

/-- Specification: `d` is a child of `c`. -/
def Child (h : List NodeObj) (c d : Ref) : Prop := ∃ o k, h[c]? = some o ∧ (k, d) ∈ o.children.entries

/-- Specification: `c` is `r` or a child of a child … of `r`. -/
inductive Hangs (h : List NodeObj) (r : Ref) : Ref → Prop where
  | self : Hangs h r r
  | step {c d : Ref} : Hangs h r c → Child h c d → Hangs h r d

/-- Specification: the nodes `ns` hang below the nodes `rs`, each is listed as often as there are ways to it. -/
inductive Spread (h : List NodeObj) : List Ref → List Ref → Prop where
  | nil : Spread h [] []
  | cons {r : Ref} {o : NodeObj} {rs ns ms : List Ref} : h[r]? = some o → Spread h (o.children.entries.map Prod.snd) ns → Spread h rs ms → Spread h (r :: rs) (r :: ns ++ ms)

/-- Specification: what hangs below `r` is a tree: finite, and there is one way to each node. -/
def IsTree (h : List NodeObj) (r : Ref) (ns : List Ref) : Prop := Spread h [r] ns ∧ ns.Nodup

theorem hangs_trans {h : List NodeObj} {a b c : Ref} (h1 : Hangs h a b) (h2 : Hangs h b c) : Hangs h a c := by
  induction h2 with
  | self => exact h1
  | step _ hc ih => exact .step ih hc

theorem hangs_head {h : List NodeObj} {a c : Ref} (h1 : Hangs h a c) : c = a ∨ ∃ b, Child h a b ∧ Hangs h b c := by
  induction h1 with
  | self => exact Or.inl rfl
  | step hc hd ih =>
    rcases ih with rfl | ⟨b, h2, h3⟩
    · exact Or.inr ⟨_, hd, .self⟩
    · exact Or.inr ⟨b, h2, .step h3 hd⟩

theorem hangs_mono {h h' : List NodeObj} (hc : ∀ c d, Child h c d → Child h' c d) {a b : Ref} (hx : Hangs h a b) : Hangs h' a b := by
  induction hx with
  | self => exact .self
  | step _ h ih => exact .step ih (hc _ _ h)

/-- What the loop of `updateIndexes` leaves in the index when it ends. -/
theorem indexLoop_ok {ε : Type} {h : List NodeObj} : ∀ {n : Nat} {roots : List Ref} {idx idx' : List (Str × Ref)}, (indexLoop h n roots idx : Res ε _) = .ok idx' →
    (∀ r ∈ roots, ∀ x, Hangs h r x → ∃ o, h[x]? = some o ∧ ∃ r' ∈ roots, ∃ y o', AL.get idx' o.id.hex = some y ∧ Hangs h r' y ∧ h[y]? = some o' ∧ o'.id = o.id) ∧
    (∀ k, (∀ r ∈ roots, ∀ x o, Hangs h r x → h[x]? = some o → o.id.hex ≠ k) → AL.get idx' k = AL.get idx k)
  | n, [], idx, idx', he => by
    rw [indexLoop] at he; cases he
    exact ⟨nofun, fun _ _ => rfl⟩
  | 0, _ :: _, idx, idx', he => by rw [indexLoop] at he; cases he
  | n + 1, item :: roots, idx, idx', he => by
    rw [indexLoop] at he
    cases ho : h[item]? with
    | none => rw [ho] at he; cases he
    | some o =>
      rw [ho] at he
      obtain ⟨h1, h2⟩ := indexLoop_ok he
      have kid : ∀ d ∈ o.children.entries.map Prod.snd, Child h item d := by
        intro d hd
        obtain ⟨⟨k, d'⟩, he, rfl⟩ := List.mem_map.1 hd
        exact ⟨o, k, ho, he⟩
      have back : ∀ r ∈ roots ++ o.children.entries.map Prod.snd, ∀ x, Hangs h r x → ∃ r' ∈ item :: roots, Hangs h r' x := by
        intro r hr x hx
        rcases List.mem_append.1 hr with hr | hr
        · exact ⟨r, List.mem_cons_of_mem _ hr, hx⟩
        · exact ⟨item, List.mem_cons_self, hangs_trans (.step .self (kid r hr)) hx⟩
      have forth : ∀ r ∈ item :: roots, ∀ x, Hangs h r x → x = item ∨ ∃ r' ∈ roots ++ o.children.entries.map Prod.snd, Hangs h r' x := by
        intro r hr x hx
        rcases List.mem_cons.1 hr with rfl | hr
        · rcases hangs_head hx with rfl | ⟨b, ⟨o', k, h3, h4⟩, h5⟩
          · exact Or.inl rfl
          · rw [ho] at h3; cases h3
            exact Or.inr ⟨b, List.mem_append_right _ (List.mem_map.2 ⟨_, h4, rfl⟩), h5⟩
        · exact Or.inr ⟨r, List.mem_append_left _ hr, hx⟩
      constructor
      · intro r hr x hx
        rcases forth r hr x hx with rfl | ⟨r', h3, h4⟩
        · refine ⟨o, ho, ?_⟩
          by_cases hd : ∃ r ∈ roots ++ o.children.entries.map Prod.snd, ∃ x o', Hangs h r x ∧ h[x]? = some o' ∧ o'.id.hex = o.id.hex
          · obtain ⟨r1, h3, x1, o1, h4, h5, h6⟩ := hd
            obtain ⟨o2, h7, r2, h8, y, o3, h9, h10, h11, h12⟩ := h1 r1 h3 x1 h4
            rw [h5] at h7; cases h7
            obtain ⟨r3, h13, h14⟩ := back r2 h8 y h10
            exact ⟨r3, h13, y, o3, h6 ▸ h9, h14, h11, h12.trans (C03_hex_injective h6)⟩
          · refine ⟨x, List.mem_cons_self, x, o, ?_, .self, ho, rfl⟩
            rw [h2 _ fun r hr x o' hx hxo he => hd ⟨r, hr, x, o', hx, hxo, he⟩]
            simp
        · obtain ⟨o2, h7, r2, h8, y, o3, h9, h10, h11⟩ := h1 r' h3 x h4
          obtain ⟨r3, h13, h14⟩ := back r2 h8 y h10
          exact ⟨o2, h7, r3, h13, y, o3, h9, h14, h11⟩
      · intro k hk
        rw [h2 k fun r hr x o' hx hxo => by
          obtain ⟨r', h3, h4⟩ := back r hr x hx
          exact hk r' h3 x o' h4 hxo]
        rw [AL.get_put, if_neg (hk item List.mem_cons_self item o .self ho)]

/-- `AddNode` ends by updating the index for the nodes as they are then. -/
theorem addNode_inv {s s' : TS} {p : Option UID} {r : Ref} (he : s.addNode p r = .ok s') :
    ∃ s2 : TS, (s2.updateIndexes r : Res TreeErr TS) = .ok s' ∧ s2.tree.nodes = s.tree.nodes ∧ s2.tree.tags = s.tree.tags ∧ s2.tree.branches = s.tree.branches ∧
      ((p = none ∧ s.tree.root = none ∧ s2.tree.root = some r ∧ s2.heap = s.heap) ∨
        ∃ u q s1 b, p = some u ∧ s.get u = some q ∧ s.addChild q r = some (s1, b) ∧ s1.setParent r (some q) = some s2 ∧ s2.tree.root = s.tree.root) := by
  unfold addNode at he
  cases p with
  | none =>
    simp only at he
    cases hr : s.tree.root with
    | some _ => rw [hr] at he; cases he
    | none => rw [hr] at he; exact ⟨_, he, rfl, rfl, rfl, Or.inl ⟨rfl, rfl, rfl, rfl⟩⟩
  | some u =>
    simp only at he
    cases hq : s.tree.nodes.get u.hex with
    | none => rw [hq] at he; cases he
    | some q =>
      rw [hq] at he
      simp only at he
      cases ha : s.addChild q r with
      | none => rw [ha] at he; cases he
      | some x =>
        obtain ⟨s1, b⟩ := x
        rw [ha] at he
        simp only at he
        cases hp : s1.setParent r (some q) with
        | none => rw [hp] at he; cases he
        | some s2 =>
          rw [hp] at he
          have t1 : s1.tree = s.tree := by
            unfold addChild at ha
            split at ha
            · split at ha
              · cases ha; rfl
              · split at ha
                · cases ha
                · cases ha; rfl
            · cases ha
          have t2 : s2.tree = s1.tree := by
            unfold setParent TS.modify at hp
            split at hp
            · cases hp
            · cases hp; rfl
          rw [t1] at t2
          exact ⟨s2, he, by rw [t2], by rw [t2], by rw [t2], Or.inr ⟨u, q, s1, b, rfl, hq, ha, hp, by rw [t2]⟩⟩

theorem updateIndexes_inv {s s' : TS} {r : Ref} (he : (s.updateIndexes r : Res TreeErr TS) = .ok s') :
    ∃ idx, (indexLoop s.heap (s.heap.length + 1) [r] s.tree.nodes.entries : Res TreeErr _) = .ok idx ∧ s' = { s with tree := { s.tree with nodes := some idx } } := by
  unfold updateIndexes at he
  rw [GoMap.entries_ensure] at he
  cases hi : (indexLoop s.heap (s.heap.length + 1) [r] s.tree.nodes.entries : Res TreeErr _) with
  | ok idx => rw [hi] at he; cases he; exact ⟨idx, rfl, rfl⟩
  | err e => rw [hi] at he; cases he
  | panic => rw [hi] at he; cases he
  | diverge => rw [hi] at he; cases he

/-- **C96.** When `AddNode` returns without error, `Get` finds the ID of every node that hangs below the added one, and gives a node
with this ID that hangs below it. -/
theorem C96_found {s s' : TS} {p : Option UID} {r : Ref} (he : s.addNode p r = .ok s') {x : Ref} (hx : Hangs s'.heap r x) :
    ∃ o, s'.heap[x]? = some o ∧ ∃ y o', s'.get o.id = some y ∧ Hangs s'.heap r y ∧ s'.heap[y]? = some o' ∧ o'.id = o.id := by
  obtain ⟨s2, h1, _⟩ := addNode_inv he
  obtain ⟨idx, h2, rfl⟩ := updateIndexes_inv h1
  obtain ⟨o, h3, r', h4, y, o', h5, h6, h7⟩ := (indexLoop_ok h2).1 r (by simp) x hx
  obtain rfl := List.mem_singleton.1 h4
  exact ⟨o, h3, y, o', h5, h6, h7⟩

/-- **C96.** If no other node below the added one has the same ID, it is the node itself. -/
theorem C96_found_itself {s s' : TS} {p : Option UID} {r : Ref} (he : s.addNode p r = .ok s') {x : Ref} {o : NodeObj} (hx : Hangs s'.heap r x) (ho : s'.heap[x]? = some o)
    (hu : ∀ y o', Hangs s'.heap r y → s'.heap[y]? = some o' → o'.id = o.id → y = x) : s'.get o.id = some x := by
  obtain ⟨o1, h1, y, o', h2, h3, h4, h5⟩ := C96_found he hx
  rw [ho] at h1; cases h1
  rw [h2, hu y o' h3 h4 h5]

/-- **C96.** `Get` answers as before for all other IDs, and tags and branches stay as they are. -/
theorem C96_others {s s' : TS} {p : Option UID} {r : Ref} (he : s.addNode p r = .ok s') :
    (∀ u : UID, (∀ x o, Hangs s'.heap r x → s'.heap[x]? = some o → o.id ≠ u) → s'.get u = s.get u) ∧
    (∀ t, s'.getByTag t = s.getByTag t) ∧ (∀ b, s'.getByBranch b = s.getByBranch b) := by
  obtain ⟨s2, h1, e1, e2, e3, _⟩ := addNode_inv he
  obtain ⟨idx, h2, rfl⟩ := updateIndexes_inv h1
  refine ⟨fun u hu => ?_, fun t => by simp only [getByTag]; rw [e2], fun b => by simp only [getByBranch]; rw [e3]⟩
  have := (indexLoop_ok h2).2 u.hex fun r' hr x o hx hxo hh => by
    obtain rfl := List.mem_singleton.1 hr
    exact hu x o hx hxo (C03_hex_injective hh)
  simp only [TS.get]
  rw [← e1]
  exact this

theorem spread_append {h : List NodeObj} {as xs bs ys : List Ref} (h1 : Spread h as xs) (h2 : Spread h bs ys) : Spread h (as ++ bs) (xs ++ ys) := by
  induction h1 with
  | nil => exact h2
  | cons ho hk _ _ ih => rw [List.append_assoc]; exact .cons ho hk ih

theorem indexLoop_spread {ε : Type} {h : List NodeObj} : ∀ {n : Nat} {roots ns : List Ref} {idx : List (Str × Ref)}, Spread h roots ns → ns.length ≤ n →
    ∃ idx', (indexLoop h n roots idx : Res ε _) = .ok idx'
  | n, [], ns, idx, _, _ => by rw [indexLoop]; exact ⟨_, rfl⟩
  | 0, r :: rs, ns, idx, hs, hn => by
    cases hs
    simp at hn
  | n + 1, r :: rs, ns, idx, hs, hn => by
    cases hs with
    | @cons _ o _ ns ms ho hk hr =>
      rw [indexLoop, ho]
      refine indexLoop_spread (spread_append hr hk) ?_
      simp only [List.cons_append, List.length_cons, List.length_append] at hn ⊢
      omega

theorem spread_valid {h : List NodeObj} {rs ns : List Ref} (hs : Spread h rs ns) : ∀ x ∈ ns, x < h.length := by
  induction hs with
  | nil => exact nofun
  | cons ho _ _ ih1 ih2 =>
    intro x hx
    rcases List.mem_append.1 hx with hx | hx
    · rcases List.mem_cons.1 hx with rfl | hx
      · exact (List.getElem?_eq_some_iff.1 ho).1
      · exact ih1 x hx
    · exact ih2 x hx

theorem spread_congr {h h' : List NodeObj} {rs ns : List Ref} (hs : Spread h rs ns)
    (hc : ∀ x ∈ ns, ∀ o, h[x]? = some o → ∃ o', h'[x]? = some o' ∧ o'.children = o.children) : Spread h' rs ns := by
  induction hs with
  | nil => exact .nil
  | @cons r o rs ns ms ho _ _ ih1 ih2 =>
    obtain ⟨o', h1, h2⟩ := hc r (by simp) o ho
    exact .cons h1 (by rw [h2]; exact ih1 fun x hx => hc x (by simp [hx])) (ih2 fun x hx => hc x (by simp [hx]))

/-- **C96.** If what hangs below the node is a tree, the parent exists and is no part of it, the call returns without error. -/
theorem C96_accepted {s : TS} {u : UID} {q r : Ref} {ns : List Ref} (hq : s.get u = some q) (hv : q < s.heap.length) (ht : IsTree s.heap r ns) (hn : q ∉ ns) :
    ∃ s', s.addNode (some u) r = .ok s' := by
  have hrn : r ∈ ns := by cases ht.1 with | cons _ _ _ => simp
  have hrv := spread_valid ht.1 r hrn
  have hqr : q ≠ r := fun h => hn (h ▸ hrn)
  have hq0 := List.getElem?_eq_getElem hv
  have hr0 := List.getElem?_eq_getElem hrv
  have hq1 : s.tree.nodes.get u.hex = some q := hq
  unfold addNode
  simp only [hq1]
  have key : ∀ (s1 : TS), s1.heap.length = s.heap.length → (∀ x, x ≠ q → s1.heap[x]? = s.heap[x]?) →
      ∃ s', (match s1.setParent r (some q) with | none => .panic | some s2 => updateIndexes s2 r : Res TreeErr TS) = .ok s' := by
    intro s1 hl hs
    have h1 : s1.heap[r]? = some s.heap[r] := by rw [hs r (Ne.symm hqr), hr0]
    simp only [setParent, TS.modify, h1, updateIndexes]
    obtain ⟨idx, hi⟩ := indexLoop_spread (ε := TreeErr) (n := s.heap.length + 1) (idx := s1.tree.nodes.entries)
      (spread_congr (h' := s1.heap.set r { s.heap[r] with parent := some q }) ht.1 fun x hx o ho => by
        by_cases hxr : x = r
        · subst hxr
          rw [hr0] at ho; cases ho
          exact ⟨_, List.getElem?_set_self (by omega), rfl⟩
        · exact ⟨o, by rw [List.getElem?_set_ne (Ne.symm hxr), hs x fun h => hn (h ▸ hx), ho], rfl⟩)
      (Nat.le_succ_of_le (nodup_length _ _ (spread_valid ht.1) ht.2))
    rw [GoMap.entries_ensure, List.length_set, hl, hi]
    exact ⟨_, rfl⟩
  unfold addChild
  simp only [hq0, hr0, GoMap.assign_ensure]
  cases hg : s.heap[q].children.get s.heap[r].id.hex with
  | some _ => exact key s rfl fun _ _ => rfl
  | none =>
    refine key _ ?_ ?_
    · simp
    · intro x hx
      simp [List.getElem?_set_ne (Ne.symm hx)]

/-- **C96.** The same for a root. -/
theorem C96_accepted_root {s : TS} {r : Ref} {ns : List Ref} (hr : s.tree.root = none) (ht : IsTree s.heap r ns) : ∃ s', s.addNode none r = .ok s' := by
  unfold addNode
  simp only [hr, updateIndexes]
  obtain ⟨idx, hi⟩ := indexLoop_spread (ε := TreeErr) (n := s.heap.length + 1) (idx := s.tree.nodes.entries) ht.1
    (Nat.le_succ_of_le (nodup_length _ _ (spread_valid ht.1) ht.2))
  rw [GoMap.entries_ensure, hi]
  exact ⟨_, rfl⟩

theorem indexLoop_cycle {ε : Type} {h : List NodeObj} (hc : ∀ c d, Child h c d → d < h.length) {S : Ref → Prop} (hS : ∀ x, S x → ∃ d, Child h x d ∧ S d) :
    ∀ {n : Nat} {roots : List Ref} {idx : List (Str × Ref)}, (∀ r ∈ roots, r < h.length) → (∃ x ∈ roots, S x) → (indexLoop h n roots idx : Res ε _) = .diverge
  | n, [], idx, _, hx => by obtain ⟨x, hx, _⟩ := hx; cases hx
  | 0, r :: rs, idx, _, _ => by rw [indexLoop]
  | n + 1, r :: rs, idx, hv, ⟨x, hx, hsx⟩ => by
    have ho := List.getElem?_eq_getElem (hv r (by simp))
    rw [indexLoop, ho]
    refine indexLoop_cycle hc hS ?_ ?_
    · intro y hy
      rcases List.mem_append.1 hy with hy | hy
      · exact hv y (by simp [hy])
      · obtain ⟨⟨k, d⟩, h1, rfl⟩ := List.mem_map.1 hy
        exact hc r d ⟨_, k, ho, h1⟩
    · rcases List.mem_cons.1 hx with rfl | hx
      · obtain ⟨d, ⟨o, k, h1, h2⟩, h3⟩ := hS x hsx
        rw [ho] at h1; cases h1
        exact ⟨d, List.mem_append_right _ (List.mem_map.2 ⟨_, h2, rfl⟩), h3⟩
      · exact ⟨x, List.mem_append_left _ hx, hsx⟩

/-- **C96 (violated).** If the parent hangs below the node itself, or is the node, the call never returns. -/
theorem C96_violated_cycle {s : TS} (hc : ∀ c d, Child s.heap c d → d < s.heap.length) {u : UID} {q r : Ref} {oq or' : NodeObj} (hq : s.get u = some q)
    (hoq : s.heap[q]? = some oq) (hor : s.heap[r]? = some or') (hb : Hangs s.heap r q) (hno : oq.children.get or'.id.hex = none) : s.addNode (some u) r = .diverge := by
  have hq1 : s.tree.nodes.get u.hex = some q := hq
  have hqv := (List.getElem?_eq_some_iff.1 hoq).1
  have hrv := (List.getElem?_eq_some_iff.1 hor).1
  unfold addNode addChild
  simp only [hq1, hoq, hor, hno, GoMap.assign_ensure, setParent, TS.modify]
  have hput := AL.put_new (v := r) hno
  generalize hh : s.heap.set q { oq with children := some (AL.put oq.children.entries or'.id.hex r) } = h1
  have hl1 : h1.length = s.heap.length := by rw [← hh, List.length_set]
  have kids1 : ∀ (x : Ref) (o : NodeObj), s.heap[x]? = some o → ∃ o1, h1[x]? = some o1 ∧ (∀ e ∈ o.children.entries, e ∈ o1.children.entries) ∧
      (∀ e ∈ o1.children.entries, e ∈ o.children.entries ∨ e.2 = r) ∧ (x = q → (or'.id.hex, r) ∈ o1.children.entries) := by
    intro x o ho
    by_cases hx : x = q
    · subst hx
      rw [hoq] at ho; cases ho
      refine ⟨{ oq with children := some (AL.put oq.children.entries or'.id.hex r) }, by rw [← hh]; exact List.getElem?_set_self hqv, ?_, ?_, ?_⟩
      · intro e he
        rw [GoMap.entries_some, hput]; exact List.mem_append_left _ he
      · intro e he
        rw [GoMap.entries_some, hput] at he
        rcases List.mem_append.1 he with he | he
        · exact Or.inl he
        · rw [List.mem_singleton.1 he]; exact Or.inr rfl
      · intro _
        rw [GoMap.entries_some, hput]; simp
    · exact ⟨o, by rw [← hh, List.getElem?_set_ne (Ne.symm hx), ho], fun _ h => h, fun _ h => Or.inl h, fun h => absurd h hx⟩
  obtain ⟨r1, hr1, _⟩ := kids1 r or' hor
  rw [hr1]
  simp only [updateIndexes]
  generalize hh2 : h1.set r { r1 with parent := some q } = h2
  have hl2 : h2.length = s.heap.length := by rw [← hh2, List.length_set, hl1]
  have same : ∀ (x : Ref) (o : NodeObj), h1[x]? = some o → ∃ o2, h2[x]? = some o2 ∧ o2.children = o.children := by
    intro x o ho
    by_cases hx : x = r
    · subst hx
      rw [hr1] at ho; cases ho
      exact ⟨{ r1 with parent := some q }, by rw [← hh2]; exact List.getElem?_set_self (by omega), rfl⟩
    · exact ⟨o, by rw [← hh2, List.getElem?_set_ne (Ne.symm hx), ho], rfl⟩
  have up : ∀ c d, Child s.heap c d → Child h2 c d := by
    rintro c d ⟨o, k, h3, h4⟩
    obtain ⟨o1, h5, h6, _⟩ := kids1 c o h3
    obtain ⟨o2, h7, h8⟩ := same c o1 h5
    exact ⟨o2, k, h7, by rw [h8]; exact h6 _ h4⟩
  have loop : Child h2 q r := by
    obtain ⟨o1, h5, _, _, h6⟩ := kids1 q oq hoq
    obtain ⟨o2, h7, h8⟩ := same q o1 h5
    exact ⟨o2, _, h7, by rw [h8]; exact h6 rfl⟩
  have closed : ∀ c d, Child h2 c d → d < h2.length := by
    rintro c d ⟨o2, k, h3, h4⟩
    have hcl : c < s.heap.length := by rw [← hl2]; exact (List.getElem?_eq_some_iff.1 h3).1
    obtain ⟨o1, h5, _, h6, _⟩ := kids1 c _ (List.getElem?_eq_getElem hcl)
    obtain ⟨o2', h7, h8⟩ := same c o1 h5
    rw [h3] at h7; cases h7
    rw [h8] at h4
    rw [hl2]
    rcases h6 _ h4 with h | h
    · exact hc c d ⟨_, k, List.getElem?_eq_getElem hcl, h⟩
    · rw [show d = r from h]; exact hrv
  have hb2 : Hangs h2 r q := hangs_mono up hb
  rw [indexLoop_cycle closed (S := fun x => Hangs h2 x q) ?_ ?_ ?_]
  · rfl
  · intro x hx
    rcases hangs_head hx with rfl | ⟨b, h3, h4⟩
    · exact ⟨r, loop, hb2⟩
    · exact ⟨b, h3, h4⟩
  · intro x hx
    rw [List.mem_singleton.1 hx, hl2]; exact hrv
  · exact ⟨r, by simp, hb2⟩

/-- **C96 (violated).** A node whose ID a child of the parent has already is accepted: `Get` finds it from then on, but the parent keeps
the old child. -/
theorem C96_violated_duplicate {s : TS} {u : UID} {q r c : Ref} {oq or' : NodeObj} (hq : s.get u = some q) (hoq : s.heap[q]? = some oq) (hor : s.heap[r]? = some or')
    (hl : or'.children.entries = []) (hc : oq.children.get or'.id.hex = some c) (hne : c ≠ r) :
    ∃ s', s.addNode (some u) r = .ok s' ∧ s'.get or'.id = some r ∧ ∃ o', s'.heap[q]? = some o' ∧ o'.children.get or'.id.hex = some c ∧ c ≠ r := by
  have hq1 : s.tree.nodes.get u.hex = some q := hq
  have hrv := (List.getElem?_eq_some_iff.1 hor).1
  have hqr : q ≠ r := by
    rintro rfl
    rw [hoq] at hor; cases hor
    rw [GoMap.get, hl] at hc; cases hc
  unfold addNode addChild
  simp only [hq1, hoq, hor, hc, setParent, TS.modify]
  rw [updateIndexes_leaf (o := { or' with parent := some q }) (List.getElem?_set_self hrv) hl]
  refine ⟨_, rfl, ?_, oq, ?_, hc, hne⟩
  · simp [TS.get, GoMap.get]
  · rw [← hoq]; exact List.getElem?_set_ne (Ne.symm hqr)

namespace TreeStory

/-- Three nodes with the IDs `a`, `b`, `c`: the root 0 of the tree, and 1 with the child 2 that are not in the tree yet. -/
def three (a b c : UID) : TS :=
  { heap := [⟨a, none, none, none, none⟩, ⟨b, none, some [(c.hex, 2)], none, none⟩, ⟨c, some 1, none, none, none⟩],
    tree := { root := some 0, nodes := some [(a.hex, 0)], branches := none, tags := none } }

theorem three_tree (a b c : UID) : IsTree (three a b c).heap 1 [1, 2] :=
  ⟨.cons (o := ⟨b, none, some [(c.hex, 2)], none, none⟩) (ns := [2]) (ms := []) rfl (.cons (o := ⟨c, some 1, none, none, none⟩) (ns := []) (ms := []) rfl .nil .nil) .nil, by decide⟩

/-- `C96_accepted`, `C96_found`: the node 1 is added below the root, and `Get` finds its child. -/
example (a b c : UID) (hbc : b ≠ c) : ∃ s', (three a b c).addNode (some a) 1 = .ok s' ∧ s'.get c = some 2 := by
  obtain ⟨s', he⟩ := C96_accepted (s := three a b c) (u := a) (q := 0) (by simp [TS.get, three, GoMap.get, AL.get]) (by simp [three]) (three_tree a b c) (by decide)
  refine ⟨s', he, ?_⟩
  have hh : s'.heap = [⟨a, none, some [(b.hex, 1)], none, none⟩, ⟨b, some 0, some [(c.hex, 2)], none, none⟩, ⟨c, some 1, none, none, none⟩] := by
    obtain ⟨s2, h1, _, _, _, ⟨h2, _⟩ | ⟨u, q, s1, b', h2, h3, h4, h5, _⟩⟩ := addNode_inv he
    · cases h2
    · obtain ⟨idx, _, rfl⟩ := updateIndexes_inv h1
      cases h2
      simp [TS.get, three, GoMap.get, AL.get] at h3
      subst h3
      simp [addChild, three, GoMap.get, AL.put, GoMap.ensure, GoMap.assign] at h4
      rw [← h4.1] at h5
      simp [setParent, TS.modify] at h5
      rw [← h5]
  refine C96_found_itself he (o := ⟨c, some 1, none, none, none⟩) (.step .self ⟨⟨b, some 0, some [(c.hex, 2)], none, none⟩, c.hex, by rw [hh]; rfl, by simp⟩) (by rw [hh]; rfl) ?_
  intro y o' hy ho hi
  rw [hh] at hy ho
  rcases hangs_head hy with rfl | ⟨d, ⟨o, k, h1, h2⟩, h3⟩
  · cases ho; exact absurd hi hbc
  · cases h1; cases List.mem_singleton.1 h2
    rcases hangs_head h3 with rfl | ⟨d, ⟨o, k, h1, h2⟩, h3⟩
    · rfl
    · cases h1; cases h2

/-- `C96_accepted_root`: the same as the root of an empty tree. -/
example (a b c : UID) : ∃ s', ({ three a b c with tree := TS.empty.tree } : TS).addNode none 1 = .ok s' := C96_accepted_root rfl (three_tree a b c)

/-- `C96_violated_cycle`: the root is added below itself. -/
example (a b c : UID) : (three a b c).addNode (some a) 0 = .diverge := by
  refine C96_violated_cycle ?_ (by simp [TS.get, three, GoMap.get, AL.get]) rfl rfl .self rfl
  rintro x d ⟨o, k, h1, h2⟩
  match x, h1 with
  | 0, h1 => cases h1; cases h2
  | 1, h1 => cases h1; cases List.mem_singleton.1 h2; simp [three]
  | 2, h1 => cases h1; cases h2

/-- The root 0 with the child 1, and a node 2 with the same ID as the child. -/
def twins (b c : UID) : TS :=
  { heap := [⟨b, none, some [(c.hex, 1)], none, none⟩, ⟨c, some 0, none, none, none⟩, ⟨c, none, none, none, none⟩],
    tree := { root := some 0, nodes := some [(b.hex, 0), (c.hex, 1)], branches := none, tags := none } }

/-- `C96_violated_duplicate`: the second node is added below the root. -/
example (b c : UID) : ∃ s', (twins b c).addNode (some b) 2 = .ok s' ∧ s'.get c = some 2 := by
  obtain ⟨s', h1, h2, _⟩ := C96_violated_duplicate (s := twins b c) (q := 0) (r := 2) (c := 1) (u := b)
    (by simp [TS.get, twins, GoMap.get, AL.get]) rfl rfl rfl (by simp [GoMap.get, AL.get]) (by decide)
  exact ⟨s', h1, h2⟩

end TreeStory
end Verif
