import Verif.Json.DumpProofs
/-!
# What a JSON round trip does to a tree

`san s` is the tree that comes back when `s` is written and read: the same nodes, with cleaned texts.
-/
set_option autoImplicit false
namespace Verif
open Json

/-- Content of a map with `omitempty` after a round trip. -/
def sanMap {α β : Type} (g : α → β) (m : GoMap α) : GoMap β := if m.entries.isEmpty then none else some (rtMap g m.entries)

/-- A node after a round trip. -/
def sanObj (o : NodeObj) : NodeObj :=
  { o with annotations := sanMap sanitize o.annotations, data := sanMap (fun x => x) o.data }

namespace TS

/-- A tree after a round trip. -/
def san (s : TS) : TS where
  heap := s.heap.map sanObj
  tree := { s.tree with
    branches := s.tree.branches.map (rtMap fun x => x), tags := s.tree.tags.map (rtMap fun x => x) }

theorem sanMap_nodup {α β : Type} (g : α → β) (m : GoMap α) : (sanMap g m).Nodup := by
  unfold sanMap
  split
  · simp
  · exact rtMap_nodup _ _

theorem sanMap_get {α β : Type} (g : α → β) {m : GoMap α} (h : m.Nodup) : Cleaned g m.get (sanMap g m).get := by
  unfold sanMap
  split
  · rename_i he
    have : m.entries = [] := by simpa using he
    intro k w
    simp [GoMap.get, this]
  · exact rtMap_get g h

theorem cleaned_unique {α β : Type} {g : α → β} {f : Str → Option α} {f1 f2 : Str → Option β} (h1 : Cleaned g f f1)
    (h2 : Cleaned g f f2) : f1 = f2 := by
  funext k
  cases hk : f1 k with
  | some w => exact ((h2 k w).2 ((h1 k w).1 hk)).symm
  | none =>
    cases hk' : f2 k with
    | none => rfl
    | some w => rw [(h1 k w).2 ((h2 k w).1 hk')] at hk; cases hk

/-- Copies have copies as round-trip results. -/
theorem sanMap_copy {α β : Type} (g : α → β) {m m' : GoMap α} (hn : m.Nodup) (h : GoMap.Copy m m') :
    GoMap.Copy (sanMap g m) (sanMap g m') := by
  refine ⟨fun _ => sanMap_nodup g m', ?_⟩
  have h1 := sanMap_get g hn
  have h2 := sanMap_get g (h.nodup hn)
  rw [h.get] at h2
  exact cleaned_unique h2 h1

theorem san_heap (s : TS) (r : Ref) : s.san.heap[r]? = (s.heap[r]?).map sanObj := by simp [san]

theorem san_heap_some {s : TS} {r : Ref} {o : NodeObj} (h : s.heap[r]? = some o) : s.san.heap[r]? = some (sanObj o) := by
  rw [san_heap, h]; rfl

theorem san_heap_inv {s : TS} {r : Ref} {o' : NodeObj} (h : s.san.heap[r]? = some o') :
    ∃ o, s.heap[r]? = some o ∧ o' = sanObj o := by
  rw [san_heap] at h
  obtain ⟨o, h1, h2⟩ := Option.map_eq_some_iff.1 h
  exact ⟨o, h1, h2.symm⟩

theorem san_in {s : TS} {r : Ref} : s.san.In r ↔ s.In r := by
  constructor
  · rintro ⟨o', h1, h2⟩
    obtain ⟨o, h3, rfl⟩ := san_heap_inv h1
    exact ⟨o, h3, h2⟩
  · rintro ⟨o, h1, h2⟩
    exact ⟨sanObj o, san_heap_some h1, h2⟩

theorem names_nodup (m : GoMap Ref) : GoMap.Nodup (m.map (rtMap (fun x => x)) : GoMap Ref) := by
  cases m with
  | none => simp
  | some l => exact rtMap_nodup (fun x => x) l

theorem names_get {α β : Type} (g : α → β) {m : GoMap α} (h : m.Nodup) :
    Cleaned g m.get (GoMap.get (m.map (rtMap g) : GoMap β)) := by
  cases m with
  | none => intro k w; simp
  | some l => exact rtMap_get g h

theorem wf_san {s : TS} (h : WF s) : WF s.san := by
  constructor
  · exact h.nodesNd
  · exact names_nodup _
  · exact names_nodup _
  · intro k r hr
    obtain ⟨o, h1, h2⟩ := h.idx k r hr
    exact ⟨_, san_heap_some h1, h2⟩
  · intro r hr
    obtain ⟨o, h1, h2⟩ := h.root r hr
    exact ⟨_, san_heap_some h1, h2⟩
  · exact h.rootNone
  · intro r o' ho' hn
    obtain ⟨o, ho, rfl⟩ := san_heap_inv ho'
    rcases h.par r o ho hn with h1 | ⟨p, po, h1, h2, h3⟩
    · exact Or.inl h1
    · exact Or.inr ⟨p, sanObj po, h1, san_heap_some h2, h3⟩
  · intro r o' ho' hn
    obtain ⟨o, ho, rfl⟩ := san_heap_inv ho'
    obtain ⟨h1, h2⟩ := h.chi r o ho hn
    refine ⟨h1, fun k c hc => ?_⟩
    obtain ⟨h3, co, h4, h5⟩ := h2 k c hc
    exact ⟨h3, _, san_heap_some h4, h5⟩
  · intro r o' ho' hn
    obtain ⟨o, ho, rfl⟩ := san_heap_inv ho'
    exact ⟨sanMap_nodup _ _, sanMap_nodup _ _⟩
  · intro b r hb
    obtain ⟨k0, v0, h1, h2, _⟩ := (names_get (fun x => x) h.branchesNd b r).1 hb
    exact san_in.2 (h2 ▸ h.br _ _ h1)
  · intro b r hb
    obtain ⟨k0, v0, h1, h2, _⟩ := (names_get (fun x => x) h.tagsNd b r).1 hb
    exact san_in.2 (h2 ▸ h.tg _ _ h1)
  · obtain ⟨d, hd⟩ := h.depth
    refine ⟨d, fun r o' ho' hn => ?_⟩
    obtain ⟨o, ho, rfl⟩ := san_heap_inv ho'
    exact hd r o ho hn

mutual
theorem dumpsTo_san {s : TS} (h : WF s) : ∀ (nd : NodeDump) {r : Ref}, DumpsTo s.heap r nd → s.In r →
    DumpsTo s.san.heap r (rtNode nd)
  | .mk id cs anno data, r, hd, hr => by
    cases hd with
    | @mk _ o es _ _ _ h1 h2 h3 h4 h5 =>
      obtain ⟨o', ho', hin⟩ := hr
      rw [h1] at ho'; cases ho'
      obtain ⟨m1, m2⟩ := h.maps r o h1 hin
      rw [rtNode, sanitize_hex]
      refine DumpsTo.mk (o := sanObj o) (san_heap_some h1) h2 (dumpsList_san h cs h3 ?_) (sanMap_copy _ m1 h4)
        (sanMap_copy _ m2 h5)
      intro x hx
      obtain ⟨e, he, rfl⟩ := List.mem_map.1 hx
      obtain ⟨c1, c2⟩ := h.chi r o h1 hin
      obtain ⟨g1, co, g2, _⟩ := c2 e.1 e.2 ((GoMap.mem_iff_get c1).1 (h2.mem_iff.1 he))
      obtain ⟨co', g4, g5⟩ := h.idx _ _ g1
      rw [g2] at g4; cases g4
      exact ⟨co, g2, by rw [g5]; exact g1⟩
theorem dumpsList_san {s : TS} (h : WF s) : ∀ (ds : List NodeDump) {rs : List Ref}, DumpsList s.heap rs ds →
    (∀ r ∈ rs, s.In r) → DumpsList s.san.heap rs (rtNodes ds)
  | [], rs, hd, _ => by cases hd; exact .nil
  | d :: ds, rs, hd, hin => by
    cases hd with
    | cons h1 h2 =>
      rw [rtNodes]
      exact .cons (dumpsTo_san h d h1 (hin _ (by simp))) (dumpsList_san h ds h2 fun r hr => hin r (by simp [hr]))
end

theorem dumpsNames_san {s : TS} {m : GoMap Ref} {m' : GoMap Str} (hn : m.Nodup) (hin : ∀ k r, m.get k = some r → s.In r)
    (hd : DumpsNames s.heap m m') :
    DumpsNames s.san.heap (m.map (rtMap fun x => x)) (m'.map (rtMap sanitize)) := by
  cases hd with
  | nil => exact .nil
  | @mk l l' h1 h2 =>
    refine .mk (rtMap_nodup _ _) ?_
    intro k v
    rw [rtMap_get sanitize h1 k v]
    have hr := rtMap_get (fun x => x) (l := l) hn k
    constructor
    · rintro ⟨k0, v0, a, rfl, b, c⟩
      obtain ⟨r, o, d1, d2, rfl⟩ := (h2 k0 v0).1 a
      refine ⟨r, sanObj o, (hr r).2 ⟨k0, r, d1, rfl, b, ?_⟩, san_heap_some d2, sanitize_hex _⟩
      intro k1 r1 e1 e2
      obtain ⟨o1, e3, _⟩ := hin k1 r1 e1
      exact c k1 _ ((h2 k1 o1.id.hex).2 ⟨r1, o1, e1, e3, rfl⟩) e2
    · rintro ⟨r, o', a, b, rfl⟩
      obtain ⟨o, ho, rfl⟩ := san_heap_inv b
      obtain ⟨k0, r0, d1, rfl, d2, d3⟩ := (hr r).1 a
      refine ⟨k0, o.id.hex, (h2 k0 _).2 ⟨r, o, d1, ho, rfl⟩, (sanitize_hex _).symm, d2, ?_⟩
      intro k1 v1 e1 e2
      obtain ⟨r1, o1, f1, _, _⟩ := (h2 k1 v1).1 e1
      exact d3 k1 r1 f1 e2

theorem dumps_san {s : TS} (h : WF s) {d : TreeDump} (hd : Dumps s d) : Dumps s.san (rtDump d) := by
  obtain ⟨hn, hb, ht⟩ := hd
  refine ⟨?_, dumpsNames_san h.branchesNd h.br hb, dumpsNames_san h.tagsNd h.tg ht⟩
  show (match s.tree.root with | none => _ | some r => _)
  cases hr : s.tree.root with
  | none => rw [hr] at hn; simp only at hn ⊢; simp [rtDump, hn]
  | some r =>
    rw [hr] at hn
    obtain ⟨nd, h1, h2⟩ := hn
    obtain ⟨o, ho, hi, _⟩ := h.root r hr
    exact ⟨rtNode nd, by simp [rtDump, h1], dumpsTo_san h nd h2 ⟨o, ho, hi⟩⟩

/-! ## The specification of what comes back -/

/-- Specification of a round trip: the same nodes and parents, the same root, and all texts cleaned. -/
structure ComesBack (a a' : ATree) : Prop where
  gone : ∀ u, a.node u = none → a'.node u = none
  node : ∀ u n, a.node u = some n → ∃ n', a'.node u = some n' ∧ n'.parent = n.parent ∧
    Cleaned sanitize n.anno n'.anno ∧ Cleaned (fun x => x) n.data n'.data
  root : a'.root = a.root
  branch : Cleaned (fun x => x) a.branch a'.branch
  tag : Cleaned (fun x => x) a.tag a'.tag

theorem idAt_san (s : TS) (r : Ref) : idAt s.san.heap r = idAt s.heap r := by
  simp only [idAt, san_heap, Option.map_map]; rfl

theorem cleaned_bind {α β : Type} {f f' : Str → Option α} (h : Cleaned (fun x => x) f f') (g : α → Option β)
    (hg : ∀ k v, f k = some v → ∃ w, g v = some w) : Cleaned (fun x => x) (fun k => (f k).bind g) (fun k => (f' k).bind g) := by
  intro k w
  constructor
  · intro hw
    obtain ⟨v, hv, hv'⟩ := Option.bind_eq_some_iff.1 hw
    obtain ⟨k0, v0, a, rfl, b, c⟩ := (h k v).1 hv
    refine ⟨k0, w, Option.bind_eq_some_iff.2 ⟨v, a, hv'⟩, rfl, b, ?_⟩
    intro k1 w1 h1 h2
    obtain ⟨v1, h3, _⟩ := Option.bind_eq_some_iff.1 h1
    exact c k1 v1 h3 h2
  · rintro ⟨k0, w0, a, rfl, b, c⟩
    obtain ⟨v0, a1, a2⟩ := Option.bind_eq_some_iff.1 a
    refine Option.bind_eq_some_iff.2 ⟨v0, (h k v0).2 ⟨k0, v0, a1, rfl, b, ?_⟩, a2⟩
    intro k1 v1 h1 h2
    obtain ⟨w1, h3⟩ := hg k1 v1 h1
    exact c k1 w1 (Option.bind_eq_some_iff.2 ⟨v1, h1, h3⟩) h2

theorem comesBack_san {s : TS} (h : WF s) : ComesBack s.abs s.san.abs := by
  have hbind : ∀ o : Option Ref, o.bind (idAt s.san.heap) = o.bind (idAt s.heap) := by
    intro o; cases o <;> simp [idAt_san]
  constructor
  · intro u hu
    cases hn : s.san.abs.node u with
    | none => rfl
    | some n =>
      obtain ⟨r, hr⟩ := (abs_has_iff_get (wf_san h) u).1 ⟨n, hn⟩
      obtain ⟨n', hn'⟩ := (abs_has_iff_get h u).2 ⟨r, hr⟩
      rw [hu] at hn'; cases hn'
  · intro u n hu
    have hu' := hu
    simp only [abs] at hu
    obtain ⟨r, hr, hu⟩ := Option.bind_eq_some_iff.1 hu
    obtain ⟨o, ho, rfl⟩ := Option.map_eq_some_iff.1 hu
    have hg : s.san.get u = some r := hr
    refine ⟨absObj s.san.heap (sanObj o), by simp [abs, hg, san_heap_some ho], hbind _, ?_, ?_⟩
    all_goals
      obtain ⟨o1, ho1, hid⟩ := h.idx _ _ hr
      rw [ho] at ho1; cases ho1
      have hm := h.maps r o ho (by rw [hid]; exact hr)
    · exact sanMap_get _ hm.1
    · exact sanMap_get _ hm.2
  · exact hbind _
  · have := cleaned_bind (names_get (fun x => x) h.branchesNd) (idAt s.heap)
      (fun k r hr => by obtain ⟨o, ho, _⟩ := h.br k r hr; exact ⟨o.id, by simp [idAt, ho]⟩)
    simp only [abs, getByBranch, hbind]
    exact this
  · have := cleaned_bind (names_get (fun x => x) h.tagsNd) (idAt s.heap)
      (fun k r hr => by obtain ⟨o, ho, _⟩ := h.tg k r hr; exact ⟨o.id, by simp [idAt, ho]⟩)
    simp only [abs, getByTag, hbind]
    exact this

/-- All texts of a tree are valid UTF-8. -/
structure _root_.Verif.ATree.Utf8 (a : ATree) : Prop where
  branch : ∀ b u, a.branch b = some u → validUtf8 b
  tag : ∀ t u, a.tag t = some u → validUtf8 t
  anno : ∀ u n k v, a.node u = some n → n.anno k = some v → validUtf8 k ∧ validUtf8 v
  data : ∀ u n k v, a.node u = some n → n.data k = some v → validUtf8 k

theorem comesBack_utf8 {a a' : ATree} (h : ComesBack a a') (hu : a.Utf8) : a' = a := by
  apply atree_ext
  · intro u
    cases hn : a.node u with
    | none => exact h.gone u hn
    | some n =>
      obtain ⟨n', h1, h2, h3, h4⟩ := h.node u n hn
      rw [h1, Option.some.injEq]
      have e1 := cleaned_valid h3 fun k v hk => (hu.anno u n k v hn hk).1
      have e2 := cleaned_valid h4 fun k v hk => hu.data u n k v hn hk
      cases n with
      | mk p an da =>
        cases n' with
        | mk p' an' da' =>
          simp only at h2 e1 e2
          subst h2 e1 e2
          simp only [Option.map_id_fun', id, ANode.mk.injEq, and_true, true_and]
          funext k
          cases hk : an k with
          | none => rfl
          | some v => simp [sanitize_valid (hu.anno u _ k v hn hk).2]
  · exact h.root
  · intro b
    rw [cleaned_valid h.branch hu.branch]; simp
  · intro b
    rw [cleaned_valid h.tag hu.tag]; simp

end TS
end Verif
