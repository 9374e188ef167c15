import Verif.Misc.Race
import Verif.Props.Dump
/-!
# C52: a dump taken while the tree is being changed
-/
set_option autoImplicit false
namespace Verif
open TS

theorem rdumps_root {S : Nat → TS} (h : Timeline S) {t0 t1 t2 n : Nat} {d : TreeDump} (hd : RDumps S t0 t1 t2 n d) {r : Ref}
    (hr : (S t0).tree.root = some r) : ∃ nd, d.nodes = some nd ∧ RDumpsTo S n t2 r nd ∧ (S t2).In r ∧ (S t2).tree.root = some r := by
  have hn := hd.nodes
  rw [hr] at hn
  obtain ⟨nd, h1, h2⟩ := hn
  have hr2 := (timeline_le h (Nat.le_trans hd.le1 hd.le2)).root r hr
  obtain ⟨o, ho, hi, _⟩ := (wf_of_reach (timeline_reach h t2)).root r hr2
  exact ⟨nd, h1, h2, ⟨o, ho, hi⟩, hr2⟩

/-- Every node that the tree has when the nodes are read is in the dump. -/
theorem rdumps_shows {S : Nat → TS} (h : Timeline S) {t0 t1 t2 n : Nat} {d : TreeDump} (hd : RDumps S t0 t1 t2 n d) {r : Ref}
    (hr : (S t0).tree.root = some r) {nd : NodeDump} (hnd : d.nodes = some nd) {x : Ref} {o : NodeObj} (ho : (S t2).heap[x]? = some o)
    (hi : (S t2).tree.nodes.get o.id.hex = some x) : o.id.hex ∈ nd.ids := by
  obtain ⟨nd', h1, h2, h3, h4⟩ := rdumps_root h hd hr
  rw [hnd] at h1; cases h1
  have hw := wf_of_reach (timeline_reach h t2)
  obtain ⟨dep, hdep⟩ := hw.depth
  have hin : (S t2).In x := ⟨o, ho, hi⟩
  have hra := ranc_root hw hdep h4 _ rfl hin
  have key : ∀ {t : Nat} {nd' : NodeDump}, t2 ≤ t → RDumpsTo S n t x nd' → nd'.id = o.id.hex := by
    intro t nd' hle hx
    have hxt := grows_in (timeline_le h hle) hin
    obtain ⟨on, g1, g2, g3, _⟩ := rdumpsTo_id h hx hxt
    have hle' : t2 ≤ n := hd.le3
    obtain ⟨o2, i1, i2, i3, _⟩ := obj_at (timeline_le h hle') hin g1
    rw [ho] at i1; cases i1
    rw [g3, i3]
  rw [ids_eq]
  by_cases hne : x = r
  · subst hne
    rw [key (Nat.le_refl _) h2]
    simp
  · obtain ⟨e, he, t', ht', hde⟩ := rdumpsTo_covers h h2 hra hin hne
    rw [← key ht' hde]
    exact List.mem_cons.2 (Or.inr (List.mem_map.2 ⟨e, he, rfl⟩))

/-- A name table that was read before the nodes refers to nodes of the dump. -/
theorem rdumps_names {S : Nat → TS} (h : Timeline S) {t0 t1 t2 n : Nat} {d : TreeDump} (hd : RDumps S t0 t1 t2 n d) {r : Ref}
    (hr : (S t0).tree.root = some r) {nd : NodeDump} (hnd : d.nodes = some nd) {t : Nat} (ht : t ≤ t2) {m : GoMap Ref} {m' : GoMap Str}
    (hm : DumpsNames (S t).heap m m') (hin : ∀ k x, m.get k = some x → (S t).In x) {b v : Str} (hv : m'.get b = some v) :
    v ∈ nd.ids := by
  obtain ⟨_, h2, _⟩ := dumpsNames_spec hm hin
  obtain ⟨x, o, a1, a2, ⟨o', a3, a4⟩, a5⟩ := h2 (b, v) (GoMap.mem_of_get hv)
  rw [a2] at a3; cases a3
  obtain ⟨o', b1, b2, b3, b4, _⟩ := (timeline_le h ht).node x o a2 a4
  have := rdumps_shows h hd hr hnd b1 (by rw [b2]; exact b4)
  rw [b2] at this
  rw [show v = o.id.hex from a5]
  exact this

/-- **C52.** However a dump overlaps with changes of the tree: if the tree had a root when the dump started, every branch and
every tag of the dump names a node of the dump. -/
theorem C52_names_closed {S : Nat → TS} (h : Timeline S) {t0 t1 t2 n : Nat} {d : TreeDump} (hd : RDumps S t0 t1 t2 n d)
    (hr : (S t0).abs.root ≠ none) :
    ∃ nd, d.nodes = some nd ∧ (∀ b v, d.branches.get b = some v → v ∈ nd.ids) ∧ (∀ b v, d.tags.get b = some v → v ∈ nd.ids) := by
  cases hr' : (S t0).tree.root with
  | none => simp [TS.abs, hr'] at hr
  | some r =>
    obtain ⟨nd, h1, h2, h3, h4⟩ := rdumps_root h hd hr'
    refine ⟨nd, h1, fun b v hv => ?_, fun b v hv => ?_⟩
    · exact rdumps_names h hd hr' h1 hd.le2 hd.branches (wf_of_reach (timeline_reach h t1)).br hv
    · exact rdumps_names h hd hr' h1 (Nat.le_refl _) hd.tags (wf_of_reach (timeline_reach h t2)).tg hv

/-- A dump of a tree that has a root loads, and what is loaded is what the dump describes. -/
theorem rdumps_load {S : Nat → TS} (h : Timeline S) {t0 t1 t2 n : Nat} {d : TreeDump} (hd : RDumps S t0 t1 t2 n d) {r : Ref}
    (hr' : (S t0).tree.root = some r) :
    ∃ nd s', d.nodes = some nd ∧ RDumpsTo S n t2 r nd ∧ (S t2).In r ∧ (∀ e ∈ desc nd, ∃ x, RShows S n r e x) ∧
      load d = .ok s' ∧ Reach s' ∧ Describes nd d.branches d.tags s'.abs := by
  obtain ⟨nd, h1, h2, h3, h4⟩ := rdumps_root h hd hr'
  obtain ⟨_, hn, hb, ht⟩ := C52_names_closed h hd (by
    obtain ⟨o, ho, _⟩ := (wf_of_reach (timeline_reach h t0)).root r hr'
    simp [TS.abs, hr', idAt, ho])
  rw [h1] at hn; cases hn
  obtain ⟨dep, hdep⟩ := (wf_of_reach (timeline_reach h n)).depth
  obtain ⟨e1, e2⟩ := rdumpsTo_edges h hdep h2 h3
  obtain ⟨ro, r1, r2, r3, r4, r5⟩ := rdumpsTo_id h h2 h3
  have hhex : ∀ i ∈ nd.ids, ∃ u : UID, i = u.hex := by
    intro i hi
    rw [ids_eq] at hi
    rcases List.mem_cons.1 hi with rfl | hi
    · exact ⟨_, r3⟩
    · obtain ⟨e, he, rfl⟩ := List.mem_map.1 hi
      obtain ⟨x, hx⟩ := e1 e he
      obtain ⟨o, _, g, _⟩ := rshows_id hx
      exact ⟨_, g⟩
  have hdist : nd.Distinct := by
    refine ⟨?_, ⟨r4, r5⟩, fun p x hb => ?_⟩
    · have : nd.ids.map (fun i => i.map Hex.lower) = nd.ids := by
        have : ∀ l : List Str, (∀ i ∈ l, ∃ u : UID, i = u.hex) → l.map (fun i => i.map Hex.lower) = l := by
          intro l
          induction l with
          | nil => intro; rfl
          | cons i l ih =>
            intro hl
            obtain ⟨u, rfl⟩ := hl i (by simp)
            rw [List.map_cons, ih (fun j hj => hl j (by simp [hj]))]
            congr 1
            exact canon_hex u
        exact this _ hhex
      rw [this, ids_eq, List.nodup_cons]
      refine ⟨fun hm => ?_, e2⟩
      obtain ⟨e, he, heq⟩ := List.mem_map.1 hm
      obtain ⟨x, hx⟩ := e1 e he
      obtain ⟨o, g1, g2, g3⟩ := rshows_id hx
      rw [g2, r3] at heq
      rw [heq, r2] at g3
      cases g3
      obtain ⟨c2, _, o', p, po, c3, _, c4, c5, _, c7⟩ := hx
      have hw := wf_of_reach (timeline_reach h n)
      have hle := (depth_le_of_ranc hw hdep c7 (in_parent hw c2 c3 c4)).1
      rw [r1] at c3; cases c3
      have := (hdep _ ro r1 r2).2 p c4
      omega
    · obtain ⟨y, ⟨_, ⟨t, c1, c2⟩, _⟩⟩ := e1 (p, x) (mem_of_below hb)
      obtain ⟨_, _, _, _, g4, g5⟩ := rdumpsTo_id h c2 c1
      exact ⟨g4, g5⟩
  have hbn : d.branches.Nodup := (dumpsNames_spec hd.branches (wf_of_reach (timeline_reach h t1)).br).1
  have htn : d.tags.Nodup := (dumpsNames_spec hd.tags (wf_of_reach (timeline_reach h t2)).tg).1
  have hres : Resolves nd d.branches d.tags := by
    refine ⟨fun i hi => ?_, fun b v hv => ?_, fun b v hv => ?_⟩
    · obtain ⟨u, rfl⟩ := hhex i hi
      exact ⟨u, C01_hex_roundtrip u⟩
    · have hm := hb b v hv
      obtain ⟨u, rfl⟩ := hhex v hm
      exact ⟨u, C01_hex_roundtrip u, _, hm, C01_hex_roundtrip u⟩
    · have hm := ht b v hv
      obtain ⟨u, rfl⟩ := hhex v hm
      exact ⟨u, C01_hex_roundtrip u, _, hm, C01_hex_roundtrip u⟩
  have hd' : d = ⟨some nd, d.branches, d.tags⟩ := by
    cases d; simp only [TreeDump.mk.injEq, and_true]; exact h1
  rcases load_cases hdist hbn htn with ⟨s, a, b, g⟩ | ⟨e, _, b⟩
  · exact ⟨nd, s, h1, h2, h3, e1, by rw [hd']; exact a, b, g.1⟩
  · exact absurd hres b

/-- **C52.** However a dump overlaps with changes of the tree, it loads. -/
theorem C52_loads {S : Nat → TS} (h : Timeline S) {t0 t1 t2 n : Nat} {d : TreeDump} (hd : RDumps S t0 t1 t2 n d) :
    ∃ s', load d = .ok s' ∧ Reach s' := by
  cases hr' : (S t0).tree.root with
  | none =>
    have hn := hd.nodes
    rw [hr'] at hn
    exact ⟨empty, by simp [load, show d.nodes = none from hn], .new⟩
  | some r =>
    obtain ⟨nd, s', _, _, _, _, h1, h2, _⟩ := rdumps_load h hd hr'
    exact ⟨s', h1, h2⟩

/-- A name table of a dump, read back. -/
theorem dumpsNames_back {s : TS} {m : GoMap Ref} {m' : GoMap Str} (hd : DumpsNames s.heap m m') (hin : ∀ k r, m.get k = some r → s.In r)
    (b : Str) (u : UID) : (∃ v, m'.get b = some v ∧ UID.decodeHex v = .ok u) ↔ (m.get b).bind (idAt s.heap) = some u := by
  cases hd with
  | nil => simp [GoMap.get]
  | @mk l l' h1 h2 =>
    constructor
    · rintro ⟨v, hv, hu⟩
      obtain ⟨r, o, a1, a2, a3⟩ := (h2 b v).1 hv
      rw [a3, C01_hex_roundtrip] at hu
      cases hu
      have a1' : GoMap.get (some l) b = some r := a1
      rw [a1']
      simp [idAt, a2]
    · intro hu
      cases hg : GoMap.get (some l : GoMap Ref) b with
      | none => rw [hg] at hu; cases hu
      | some r =>
        obtain ⟨o, ho, _⟩ := hin b r hg
        rw [hg] at hu
        simp only [Option.bind_some, idAt, ho, Option.map_some, Option.some.injEq] at hu
        exact ⟨o.id.hex, (h2 b _).2 ⟨r, o, hg, ho, rfl⟩, by rw [← hu]; exact C01_hex_roundtrip _⟩

/-- **C52.** What the loaded tree contains: all nodes that were there when the dump read the tags, only nodes that were there at
the end, each with its parent; the branches as they were when the dump read them, and the tags likewise. -/
theorem C52_content {S : Nat → TS} (h : Timeline S) {t0 t1 t2 n : Nat} {d : TreeDump} (hd : RDumps S t0 t1 t2 n d)
    (hr : (S t0).abs.root ≠ none) {s' : TS} (hl : load d = .ok s') :
    (∀ u, (S t2).abs.Has u → s'.abs.Has u) ∧
    (∀ u nd, s'.abs.node u = some nd → ∃ nd', (S n).abs.node u = some nd' ∧ nd'.parent = nd.parent) ∧
    s'.abs.branch = (S t1).abs.branch ∧ s'.abs.tag = (S t2).abs.tag := by
  cases hr' : (S t0).tree.root with
  | none => simp [TS.abs, hr'] at hr
  | some r =>
    obtain ⟨nd, s1, hnd, hroot, hin, edges, hl1, _, hde⟩ := rdumps_load h hd hr'
    rw [hl] at hl1; cases hl1
    have hw := wf_of_reach (timeline_reach h n)
    refine ⟨fun u hu => ?_, fun u x hx => ?_, ?_, ?_⟩
    · obtain ⟨y, o, ho, hi, rfl⟩ := (abs_has_iff (wf_of_reach (timeline_reach h t2)) u).1 hu
      have hm := rdumps_shows h hd hr' hnd ho hi
      rw [ids_eq] at hm
      rcases List.mem_cons.1 hm with hm | hm
      · obtain ⟨ru, a1, a2, a3⟩ := hde.root
        rw [← hm, C01_hex_roundtrip] at a1
        cases a1
        exact ⟨_, a3⟩
      · obtain ⟨e, he, heq⟩ := List.mem_map.1 hm
        obtain ⟨pu, w, _, a2, a3⟩ := hde.below e.1 e.2 (below_of_mem nd he)
        rw [show e.2.id = o.id.hex from heq, C01_hex_roundtrip] at a2
        cases a2
        exact ⟨_, a3⟩
    · obtain ⟨i, hi, hu⟩ := hde.only u ⟨x, hx⟩
      rw [ids_eq] at hi
      rcases List.mem_cons.1 hi with rfl | hi
      · obtain ⟨ru, a1, a2, a3⟩ := hde.root
        rw [hu] at a1; cases a1
        rw [hx] at a3; cases a3
        obtain ⟨o, g1, g2, g3, _⟩ := rdumpsTo_id h hroot hin
        rw [g3, C01_hex_roundtrip] at hu
        cases hu
        have hrn := (timeline_le h (Nat.le_trans hd.le1 (Nat.le_trans hd.le2 hd.le3))).root r hr'
        obtain ⟨o', i1, _, i3⟩ := hw.root r hrn
        rw [g1] at i1; cases i1
        exact ⟨_, (abs_node_iff hw _ _).2 ⟨r, o, g1, g2, rfl, rfl⟩, by simp [absObj, i3]⟩
      · obtain ⟨e, he, rfl⟩ := List.mem_map.1 hi
        obtain ⟨pu, w, a1, a2, a3⟩ := hde.below e.1 e.2 (below_of_mem nd he)
        rw [hu] at a2; cases a2
        rw [hx] at a3; cases a3
        obtain ⟨y, hy⟩ := edges e he
        obtain ⟨⟨o, g1, g2⟩, _, o', p, po, g3, g4, g5, g6, g7, _⟩ := hy
        rw [g1] at g3; cases g3
        rw [g4, C01_hex_roundtrip] at hu
        cases hu
        rw [g7, C01_hex_roundtrip] at a1
        cases a1
        exact ⟨_, (abs_node_iff hw _ _).2 ⟨y, o, g1, g2, rfl, rfl⟩, by simp [absObj, g5, idAt, g6]⟩
    · funext b
      apply Option.ext
      intro u
      rw [hde.branch b u, dumpsNames_back hd.branches (wf_of_reach (timeline_reach h t1)).br b u]
      rfl
    · funext b
      apply Option.ext
      intro u
      rw [hde.tag b u, dumpsNames_back hd.tags (wf_of_reach (timeline_reach h t2)).tg b u]
      rfl

/-! ## A dump that really races -/

/-- The states of a tree to which the given calls are made one after the other. -/
def statesOf (ops : List Op) (i : Nat) : TS := runOps .empty (ops.take i)

theorem runOps_append (s : TS) : ∀ (a b : List Op), runOps s (a ++ b) = runOps (runOps s a) b
  | [], _ => rfl
  | op :: a, b => by simp only [List.cons_append, runOps]; exact runOps_append _ a b

theorem legalRun_append (s : TS) : ∀ (a b : List Op), legalRun s (a ++ b) = (legalRun s a && legalRun (runOps s a) b)
  | [], _ => by simp [legalRun, runOps]
  | op :: a, b => by simp only [List.cons_append, legalRun, runOps, legalRun_append _ a b, Bool.and_assoc]

theorem timeline_statesOf {ops : List Op} (hl : legalRun .empty ops = true) : Timeline (statesOf ops) where
  start := .new
  step i := by
    rcases Nat.lt_or_ge i ops.length with hi | hi
    · have hcut : ops.take (i + 1) = ops.take i ++ [ops[i]] := by simp
      have hsplit : ops = ops.take i ++ (ops[i] :: ops.drop (i + 1)) := by
        rw [← List.drop_eq_getElem_cons hi, List.take_append_drop]
      have hl' := hl
      rw [hsplit, legalRun_append, Bool.and_eq_true] at hl'
      have hr : Reach (runOps .empty (ops.take i)) := reach_runOps .new hl'.1
      have hleg : Op.legalB (runOps .empty (ops.take i)) ops[i] = true := by
        have := hl'.2
        simp only [legalRun, Bool.and_eq_true] at this
        exact this.1
      simp only [statesOf, hcut, runOps_append, runOps]
      cases hc : TS.call (runOps .empty (ops.take i)) ops[i] with
      | ok s' => exact Or.inr ⟨ops[i], legal_of_legalB (wf_of_reach hr) hleg, hc⟩
      | err e => exact Or.inl rfl
      | panic => exact Or.inl rfl
      | diverge => exact Or.inl rfl
    · left
      simp only [statesOf]
      rw [List.take_of_length_le hi, List.take_of_length_le (by omega)]

/-- A root with a branch; then a node is added; then the branch moves to it; then it gets a tag. -/
def raceOps : List Op :=
  [.add none (sampleIDs 0) none none, .addBranch (lit "b") (sampleIDs 0), .add (some (sampleIDs 0)) (sampleIDs 1) none none,
    .updateBranch (lit "b") (sampleIDs 1) false, .addTag (lit "t") (sampleIDs 1)]

theorem raceOps_timeline : Timeline (statesOf raceOps) := timeline_statesOf (by decide)

/-- A dump that reads root and branches before the second node is added, the tags and the children
at the end. -/
theorem raceOps_dump : RDumps (statesOf raceOps) 2 2 5 5
    ⟨some (.mk (sampleIDs 0).hex [.mk (sampleIDs 1).hex [] none none] none none), some [(lit "b", (sampleIDs 0).hex)],
      some [(lit "t", (sampleIDs 1).hex)]⟩ where
  le1 := by omega
  le2 := by omega
  le3 := by omega
  nodes := by
    have hr : (statesOf raceOps 2).tree.root = some 0 := by decide
    rw [hr]
    refine ⟨_, rfl, ?_⟩
    refine .mk (ta := 5) (td := 5) (tc := 5) (es := [((sampleIDs 1).hex, 1)]) (oa := ⟨sampleIDs 0, none, some [((sampleIDs 1).hex, 1)], none, none⟩)
      (od := ⟨sampleIDs 0, none, some [((sampleIDs 1).hex, 1)], none, none⟩) (oc := ⟨sampleIDs 0, none, some [((sampleIDs 1).hex, 1)], none, none⟩)
      (by omega) (by omega) (by omega) (by omega) (by omega) (by omega) (by decide) (by decide) (by decide) (List.Perm.refl _) ?_ (.refl _) (.refl _)
    refine .cons ?_ .nil
    exact .mk (ta := 5) (td := 5) (tc := 5) (es := []) (oa := ⟨sampleIDs 1, some 0, none, none, none⟩) (od := ⟨sampleIDs 1, some 0, none, none, none⟩)
      (oc := ⟨sampleIDs 1, some 0, none, none, none⟩)
      (by omega) (by omega) (by omega) (by omega) (by omega) (by omega) (by decide) (by decide) (by decide) (List.Perm.refl _) .nil (.refl _) (.refl _)
  branches := by
    have hb : (statesOf raceOps 2).tree.branches = some [(lit "b", 0)] := by decide
    have ho : (statesOf raceOps 2).heap[0]? = some ⟨sampleIDs 0, none, none, none, none⟩ := by decide
    rw [hb]
    refine .mk (by decide) fun k v => ?_
    simp only [AL.get]
    by_cases hk : lit "b" = k
    · subst hk
      simp only [if_true, Option.some.injEq]
      exact ⟨fun hv => ⟨0, _, rfl, ho, hv.symm⟩, fun ⟨r, o, h1, h2, h3⟩ => by subst h1; rw [ho] at h2; cases h2; exact h3.symm⟩
    · simp [hk]
  tags := by
    have hb : (statesOf raceOps 5).tree.tags = some [(lit "t", 1)] := by decide
    have ho : (statesOf raceOps 5).heap[1]? = some ⟨sampleIDs 1, some 0, none, none, none⟩ := by decide
    rw [hb]
    refine .mk (by decide) fun k v => ?_
    simp only [AL.get]
    by_cases hk : lit "t" = k
    · subst hk
      simp only [if_true, Option.some.injEq]
      exact ⟨fun hv => ⟨1, _, rfl, ho, hv.symm⟩, fun ⟨r, o, h1, h2, h3⟩ => by subst h1; rw [ho] at h2; cases h2; exact h3.symm⟩
    · simp [hk]

/-- **C52.** More cannot be said: a dump need not be a snapshot. The dump above meets the hypotheses of the theorems, and the tree
loaded from it has the new tag together with the old branch, which the tree never had at the same time. -/
theorem C52_not_a_snapshot : ∃ d s', RDumps (statesOf raceOps) 2 2 5 5 d ∧ (statesOf raceOps 2).abs.root ≠ none ∧ load d = .ok s' ∧
    ∀ i, s'.abs ≠ (statesOf raceOps i).abs := by
  obtain ⟨s', h1, _⟩ := C52_loads raceOps_timeline raceOps_dump
  obtain ⟨_, _, c3, c4⟩ := C52_content raceOps_timeline raceOps_dump (by decide) h1
  refine ⟨_, s', raceOps_dump, by decide, h1, fun i he => ?_⟩
  have hb : (statesOf raceOps i).abs.branch (lit "b") = some (sampleIDs 0) := by rw [← he, c3]; decide
  have ht : (statesOf raceOps i).abs.tag (lit "t") = some (sampleIDs 1) := by rw [← he, c4]; decide
  have small : ∀ i : Fin 6, ¬ ((statesOf raceOps i).abs.branch (lit "b") = some (sampleIDs 0) ∧
      (statesOf raceOps i).abs.tag (lit "t") = some (sampleIDs 1)) := by decide
  rcases Nat.lt_or_ge i 6 with hi | hi
  · exact small ⟨i, hi⟩ ⟨hb, ht⟩
  · have hsame : statesOf raceOps i = statesOf raceOps 5 := by
      simp only [statesOf]
      rw [List.take_of_length_le (by simp [raceOps]; omega), List.take_of_length_le (by simp [raceOps])]
    rw [hsame] at hb ht
    exact small ⟨5, by omega⟩ ⟨hb, ht⟩

/-- **C52 needs the root.** A dump that reads the root of a tree that has none yet, and the branches when it has one, has a branch
without a node. It loads as the empty tree. -/
theorem C52_violated_no_root : ∃ d, RDumps (statesOf raceOps) 0 2 2 2 d ∧ d.nodes = none ∧
    (∃ b v, d.branches.get b = some v) ∧ load d = .ok .empty := by
  refine ⟨⟨none, some [(lit "b", (sampleIDs 0).hex)], none⟩, ⟨by omega, by omega, by omega, rfl, ?_, .nil⟩, rfl, ⟨lit "b", _, rfl⟩, rfl⟩
  have hb : (statesOf raceOps 2).tree.branches = some [(lit "b", 0)] := by decide
  have ho : (statesOf raceOps 2).heap[0]? = some ⟨sampleIDs 0, none, none, none, none⟩ := by decide
  rw [hb]
  refine .mk (by decide) fun k v => ?_
  simp only [AL.get]
  by_cases hk : lit "b" = k
  · subst hk
    simp only [if_true, Option.some.injEq]
    exact ⟨fun hv => ⟨0, _, rfl, ho, hv.symm⟩, fun ⟨r, o, h1, h2, h3⟩ => by subst h1; rw [ho] at h2; cases h2; exact h3.symm⟩
  · simp [hk]

end Verif
