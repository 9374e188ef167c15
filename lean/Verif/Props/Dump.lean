import Verif.Tree.DumpLoop
import Verif.Props.Tree
/-!
# C15, C16: exporting and importing a tree
-/
set_option autoImplicit false
namespace Verif
open TS

/-! ## C15 -/

/-- **C15.** Every export of a tree — whatever order Go's map iteration chooses — imports without error, and the imported
tree is a tree built by the API with exactly the same nodes, parents, annotations, data, root, branches and tags. -/
theorem C15_load_dump {s : TS} (h : Reach s) {d : TreeDump} (hd : Dumps s d) :
    ∃ s', load d = .ok s' ∧ Reach s' ∧ s'.abs = s.abs :=
  load_of_dumps (wf_of_reach h) hd

/-- **C15.** An export exists for every tree. -/
theorem C15_dump_exists {s : TS} (h : Reach s) : ∃ d, Dumps s d := dumps_exists (wf_of_reach h)

/-- **C15.** The loop of `Dump`, in every iteration order, ends after at most one pass for each node of the tree, and the
value it leaves is an export in the sense of `Dumps`. -/
theorem C15_dump_loop {s : TS} (h : Reach s) {r : Ref} {o : NodeObj} (hr : s.tree.root = some r)
    (ho : s.heap[r]? = some o) {n : Nat} {cells : List DumpLoop.Cell} {f : List DumpLoop.Entry}
    (hp : DumpLoop.Passes s.heap n (DumpLoop.start o).1 (DumpLoop.start o).2 cells f) :
    (f = [] → ∃ nd, DumpLoop.Reads cells 0 nd ∧ DumpsTo s.heap r nd) ∧
    (f ≠ [] → n < s.tree.nodes.size ∧
      ∃ cells' f', DumpLoop.Passes s.heap (n + 1) (DumpLoop.start o).1 (DumpLoop.start o).2 cells' f') := by
  have hw := wf_of_reach h
  obtain ⟨o', ho', hi, _⟩ := hw.root r hr
  constructor
  · rintro rfl; exact DumpLoop.loop_dumps ho hp
  · exact DumpLoop.loop_bounded hw ho ⟨o', ho', hi⟩ hp

/-- **C15.** Any number of export/import cycles, each with its own iteration order, changes nothing. -/
inductive Cycles : TS → Nat → TS → Prop where
  | zero {s : TS} : Cycles s 0 s
  | succ {s s1 s2 : TS} {n : Nat} {d : TreeDump} : Cycles s n s1 → Dumps s1 d → load d = .ok s2 → Cycles s (n + 1) s2

theorem C15_cycles {s s' : TS} {n : Nat} (h : Reach s) (hc : Cycles s n s') : Reach s' ∧ s'.abs = s.abs := by
  induction hc with
  | zero => exact ⟨h, rfl⟩
  | succ _ hd hl ih =>
    obtain ⟨s2, a, b, c⟩ := C15_load_dump ih.1 hd
    rw [hl] at a; cases a
    exact ⟨b, c.trans ih.2⟩

/-- Two exports of one tree import to the same content. -/
theorem C15_order_irrelevant {s : TS} (h : Reach s) {d1 d2 : TreeDump} (h1 : Dumps s d1) (h2 : Dumps s d2) :
    ∃ s1 s2, load d1 = .ok s1 ∧ load d2 = .ok s2 ∧ s1.abs = s2.abs := by
  obtain ⟨s1, a, _, b⟩ := C15_load_dump h h1
  obtain ⟨s2, c, _, d⟩ := C15_load_dump h h2
  exact ⟨s1, s2, a, c, b.trans d.symm⟩

/-- The sample tree (four nodes, a branch, two tags) has an export, and it imports. -/
example : ∃ d s', Dumps sampleTree d ∧ load d = .ok s' ∧ s'.abs.branch (lit "global/main") = some (sampleIDs 2) := by
  obtain ⟨d, hd⟩ := C15_dump_exists sampleTree_reach
  obtain ⟨s', a, _, c⟩ := C15_load_dump sampleTree_reach hd
  exact ⟨d, s', hd, a, by rw [c]; decide⟩

/-! ## C16 -/

mutual
/-- All ID texts of a dump. -/
def NodeDump.ids : NodeDump → List Str
  | .mk i cs _ _ => i :: idsList cs
/-- All ID texts of a list of dumps. -/
def idsList : List NodeDump → List Str
  | [] => []
  | c :: cs => c.ids ++ idsList cs
end

/-- `x` is a proper descendant in the dump and `p` the ID text of its parent. -/
inductive NodeDump.Below : NodeDump → Str → NodeDump → Prop where
  | child {d c : NodeDump} : c ∈ d.children → Below d d.id c
  | deeper {d c x : NodeDump} {p : Str} : c ∈ d.children → Below c p x → Below d p x

/-- Every ID of the dump occurs once (hex digits may be upper case) and its maps are maps. -/
structure NodeDump.Distinct (d : NodeDump) : Prop where
  ids : (d.ids.map fun i => i.map Hex.lower).Nodup
  root : MapsNodup d
  maps : ∀ p x, d.Below p x → MapsNodup x

mutual
theorem ids_eq : ∀ (d : NodeDump), d.ids = d.id :: (desc d).map (fun e => e.2.id)
  | .mk i cs _ _ => by
    simp only [NodeDump.ids, desc]
    rw [idsList_eq i cs]; rfl
theorem idsList_eq (p : Str) : ∀ (cs : List NodeDump), idsList cs = (descKids p cs).map (fun e => e.2.id)
  | [] => rfl
  | c :: cs => by
    simp only [idsList, descKids, List.map_cons, List.map_append, idsList_eq p cs, ids_eq c, List.cons_append]
end

theorem below_trans {d : NodeDump} {p : Str} {x : NodeDump} (h : (p, x) ∈ desc d) {q : Str} {y : NodeDump}
    (h' : (q, y) ∈ desc x) : (q, y) ∈ desc d := desc_trans d h h'

mutual
theorem below_of_mem : ∀ (d : NodeDump) {e : Str × NodeDump}, e ∈ desc d → d.Below e.1 e.2
  | .mk i cs a dt, e, h => by
    rcases below_of_memKids i cs h with ⟨rfl, hc⟩ | ⟨c, hc, hb⟩
    · exact .child (d := .mk e.1 cs a dt) hc
    · exact .deeper (d := .mk i cs a dt) hc hb
theorem below_of_memKids (p : Str) : ∀ (cs : List NodeDump) {e : Str × NodeDump}, e ∈ descKids p cs →
    (p = e.1 ∧ e.2 ∈ cs) ∨ ∃ c ∈ cs, c.Below e.1 e.2
  | [], e, h => by simp [descKids] at h
  | c :: cs, e, h => by
    simp only [descKids, List.mem_cons, List.mem_append] at h
    rcases h with rfl | h | h
    · exact Or.inl ⟨rfl, by simp⟩
    · exact Or.inr ⟨c, by simp, below_of_mem c h⟩
    · rcases below_of_memKids p cs h with ⟨h1, h2⟩ | ⟨c', h1, h2⟩
      · exact Or.inl ⟨h1, by simp [h2]⟩
      · exact Or.inr ⟨c', by simp [h1], h2⟩
end

theorem mem_of_below {d : NodeDump} {p : Str} {x : NodeDump} (h : d.Below p x) : (p, x) ∈ desc d := by
  induction h with
  | @child d c hc => cases d; exact mem_descKids hc
  | @deeper d c x p hc _ ih =>
    cases d with
    | mk i cs _ _ => exact desc_trans _ (e := (i, c)) (mem_descKids hc) ih

theorem mem_desc_iff {d : NodeDump} {p : Str} {x : NodeDump} : (p, x) ∈ desc d ↔ d.Below p x :=
  ⟨fun h => below_of_mem d h, mem_of_below⟩

/-- **C16.** `Load` returns a tree or an error for every dump: it never panics and always ends. -/
theorem C16_load_total (d : TreeDump) : (∃ s, load d = .ok s) ∨ ∃ e, load d = .err e := load_total d

/-- The content that a dump describes. -/
structure Describes (nd : NodeDump) (branches tags : GoMap Str) (a : ATree) : Prop where
  /-- The root of the dump. -/
  root : ∃ r, UID.decodeHex nd.id = .ok r ∧ a.root = some r ∧
    a.node r = some ⟨none, nd.annotations.get, nd.data.get⟩
  /-- Each further node, with its parent. -/
  below : ∀ p x, nd.Below p x → ∃ pu u, UID.decodeHex p = .ok pu ∧ UID.decodeHex x.id = .ok u ∧
    a.node u = some ⟨some pu, x.annotations.get, x.data.get⟩
  /-- Nothing else. -/
  only : ∀ u, a.Has u → ∃ i ∈ nd.ids, UID.decodeHex i = .ok u
  /-- The branches. -/
  branch : ∀ b u, a.branch b = some u ↔ ∃ v, branches.get b = some v ∧ UID.decodeHex v = .ok u
  /-- The tags. -/
  tag : ∀ t u, a.tag t = some u ↔ ∃ v, tags.get t = some v ∧ UID.decodeHex v = .ok u

/-- All references of a dump can be resolved. -/
structure Resolves (nd : NodeDump) (branches tags : GoMap Str) : Prop where
  ids : ∀ i ∈ nd.ids, ∃ u, UID.decodeHex i = .ok u
  branch : ∀ b v, branches.get b = some v → ∃ u, UID.decodeHex v = .ok u ∧ ∃ i ∈ nd.ids, UID.decodeHex i = .ok u
  tag : ∀ b v, tags.get b = some v → ∃ u, UID.decodeHex v = .ok u ∧ ∃ i ∈ nd.ids, UID.decodeHex i = .ok u

theorem load_cases {nd : NodeDump} {branches tags : GoMap Str} (hd : nd.Distinct) (hb : branches.Nodup)
    (ht : tags.Nodup) :
    (∃ s, load ⟨some nd, branches, tags⟩ = .ok s ∧ Reach s ∧ Describes nd branches tags s.abs ∧
      Resolves nd branches tags) ∨
    (∃ e, load ⟨some nd, branches, tags⟩ = .err e ∧ ¬ Resolves nd branches tags) := by
  have hids := ids_eq nd
  rcases C04_hex_decode_total nd.id with ⟨rid, hr⟩ | ⟨e, hr⟩
  · have hnh : ¬ empty.abs.Has rid := by rw [abs_empty]; rintro ⟨n, hn⟩; cases hn
    rcases addNew_cases (p := none) wf_empty hnh hd.root.1 hd.root.2 with
      ⟨s0, a, hw0, habs0, _⟩ | ⟨e, a, ⟨_, b⟩ | ⟨q, b, _⟩⟩
    · have hre0 : Reach s0 := .ok (op := .add none rid nd.annotations nd.data) .new ⟨hnh, hd.root.1, hd.root.2⟩ a
      rw [abs_empty] at habs0
      have hnod : (nd.id.map Hex.lower :: (desc nd).map (fun e => canon e.2.id)).Nodup := by
        have := hd.ids
        rw [hids] at this
        simpa [List.map_map, Function.comp_def, canon] using this
      rw [List.nodup_cons] at hnod
      have hnew : NewIDs (desc nd) s0 := by
        refine ⟨hnod.2, ?_, fun e he => hd.maps e.1 e.2 (below_of_mem nd he)⟩
        intro e he u hu hhas
        rw [habs0] at hhas
        obtain ⟨n, hn⟩ := hhas
        simp only [ATree.add, upd, ATree.empty] at hn
        split at hn
        · rename_i heq
          subst heq
          exact hnod.1 (List.mem_map.2 ⟨e, he, decode_inj hu hr⟩)
        · cases hn
      have hperm : (bfs (dumpSize nd) [nd]).Perm (desc nd) := by
        have := bfs_perm (dumpSize nd) [nd] (by simp [dumpSizes])
        simpa [descs] using this
      have hnewb := newIDs_perm hperm.symm hnew
      have hload : load ⟨some nd, branches, tags⟩ = (addEdges (bfs (dumpSize nd) [nd]) s0).bind fun s1 =>
          (loadNames addBranch branches.entries s1).bind fun s2 => loadNames addTag tags.entries s2 := by
        simp only [load, hr, Res.mapErr, Res.bind, a]
        rw [loadLoop_eq _ _ _ (by simp [dumpSizes]) (by simp; exact ⟨_, hr⟩)]
      have hroot0 : s0.abs.node rid = some ⟨none, nd.annotations.get, nd.data.get⟩ := by
        rw [habs0]; exact upd_self _ _ _
      rcases addEdges_cases hw0 hnewb with ⟨s1, hs1, had⟩ | ⟨e, he⟩
      · have had := added_perm hperm had
        have hre1 := addEdges_reach hre0 hnewb hs1
        have hrootne : ∀ e ∈ desc nd, UID.decodeHex e.2.id ≠ .ok rid := fun e he hu =>
          hnew.fresh e he rid hu ⟨_, hroot0⟩
        have honly : ∀ u, s1.abs.Has u ↔ ∃ i ∈ nd.ids, UID.decodeHex i = .ok u := by
          intro u
          rw [hids]
          constructor
          · rintro ⟨n, hn⟩
            by_cases hx : ∃ e ∈ desc nd, UID.decodeHex e.2.id = .ok u
            · obtain ⟨e, he, hu⟩ := hx
              exact ⟨e.2.id, List.mem_cons.2 (Or.inr (List.mem_map.2 ⟨e, he, rfl⟩)), hu⟩
            · rw [had.other u (fun e he hu => hx ⟨e, he, hu⟩), habs0] at hn
              simp only [ATree.add, upd, ATree.empty] at hn
              split at hn
              · rename_i heq; subst heq; exact ⟨nd.id, by simp, hr⟩
              · cases hn
          · rintro ⟨i, hi, hu⟩
            rcases List.mem_cons.1 hi with rfl | hi
            · rw [hr] at hu; cases hu
              exact ⟨_, (had.other rid hrootne).trans hroot0⟩
            · obtain ⟨e, he, rfl⟩ := List.mem_map.1 hi
              obtain ⟨p, c, _, h2, h3⟩ := had.edge e he
              rw [hu] at h2; cases h2; exact ⟨_, h3⟩
        rcases loadBranches_cases had.wf hb with ⟨s2, b1, b2, b3, b4, b5, b6, b7⟩ | ⟨e, he, x, hx, hx'⟩
        · have hhas2 : ∀ u, s2.abs.Has u ↔ s1.abs.Has u := by intro u; simp [ATree.Has, b3]
          rcases loadTags_cases b2 ht with ⟨s3, t1, t2, t3, t4, t5, t6, t7⟩ | ⟨e, he, x, hx, hx'⟩
          · left
            refine ⟨s3, by rw [hload, hs1]; simp [b1, t1], loadTags_reach (loadBranches_reach hre1 b1) t1, ?_, ?_⟩
            · constructor
              · refine ⟨rid, hr, ?_, ?_⟩
                · rw [t4, b4, had.root, habs0]; simp [ATree.add]
                · rw [t3, b3]; exact (had.other rid hrootne).trans hroot0
              · intro p x hbx
                obtain ⟨pu, u, h1, h2, h3⟩ := had.edge (p, x) (mem_of_below hbx)
                exact ⟨pu, u, h1, h2, by rw [t3, b3]; exact h3⟩
              · rintro u ⟨n, hn⟩
                rw [t3, b3] at hn
                exact (honly u).1 ⟨n, hn⟩
              · intro b u
                rw [t5]
                constructor
                · intro hbu
                  by_cases hk : b ∈ AL.keys branches.entries
                  · obtain ⟨v, hv⟩ := AL.mem_keys_iff.1 hk
                    obtain ⟨w, h1, _, h3⟩ := b6 (b, v) (AL.mem_of_get hv)
                    rw [hbu] at h3; cases h3
                    exact ⟨v, hv, h1⟩
                  · rw [b7 b hk, had.branch, habs0] at hbu; cases hbu
                · rintro ⟨v, hv, hu⟩
                  obtain ⟨w, h1, _, h3⟩ := b6 (b, v) (AL.mem_of_get hv)
                  rw [hu] at h1; cases h1; exact h3
              · intro b u
                constructor
                · intro hbu
                  by_cases hk : b ∈ AL.keys tags.entries
                  · obtain ⟨v, hv⟩ := AL.mem_keys_iff.1 hk
                    obtain ⟨w, h1, _, h3⟩ := t6 (b, v) (AL.mem_of_get hv)
                    rw [hbu] at h3; cases h3
                    exact ⟨v, hv, h1⟩
                  · rw [t7 b hk, b5, had.tag, habs0] at hbu; cases hbu
                · rintro ⟨v, hv, hu⟩
                  obtain ⟨w, h1, _, h3⟩ := t6 (b, v) (AL.mem_of_get hv)
                  rw [hu] at h1; cases h1; exact h3
            · constructor
              · intro i hi
                rw [hids] at hi
                rcases List.mem_cons.1 hi with rfl | hi
                · exact ⟨rid, hr⟩
                · obtain ⟨e, he, rfl⟩ := List.mem_map.1 hi
                  obtain ⟨p, c, _, h2, h3⟩ := had.edge e he
                  exact ⟨c, h2⟩
              · intro b v hv
                obtain ⟨w, h1, h2, _⟩ := b6 (b, v) (AL.mem_of_get hv)
                exact ⟨w, h1, (honly w).1 h2⟩
              · intro b v hv
                obtain ⟨w, h1, h2, _⟩ := t6 (b, v) (AL.mem_of_get hv)
                exact ⟨w, h1, (honly w).1 ((hhas2 w).1 h2)⟩
          · right
            refine ⟨e, by rw [hload, hs1]; simp [b1, he], fun hres => ?_⟩
            obtain ⟨u, h1, h2⟩ := hres.tag x.1 x.2 (AL.get_of_mem ht hx)
            exact hx' u h1 ((hhas2 u).2 ((honly u).2 h2))
        · right
          refine ⟨e, by rw [hload, hs1]; simp [he], fun hres => ?_⟩
          obtain ⟨u, h1, h2⟩ := hres.branch x.1 x.2 (AL.get_of_mem hb hx)
          exact hx' u h1 ((honly u).2 h2)
      · right
        refine ⟨e, by rw [hload, he]; rfl, fun hres => ?_⟩
        obtain ⟨s1, hs1⟩ := addEdges_bfs_ok (dumpSize nd) (q := [nd]) hw0
          (by intro d hm; simp only [List.mem_singleton] at hm; subst hm; exact ⟨rid, hr, _, hroot0⟩) hnewb
          (by
            intro e he
            exact hres.ids e.2.id (by
              rw [hids]; exact List.mem_cons.2 (Or.inr (List.mem_map.2 ⟨e, hperm.mem_iff.1 he, rfl⟩))))
        rw [he] at hs1; cases hs1
    · rw [abs_empty] at b; exact absurd rfl b
    · cases b
  · right
    refine ⟨.rootID, by simp [load, hr, Res.mapErr], fun hres => ?_⟩
    obtain ⟨u, hu⟩ := hres.ids nd.id (by rw [hids]; simp)
    rw [hr] at hu; cases hu

/-- **C16 (dumps without repeated IDs).** A dump whose IDs are distinct loads exactly when all its ID texts can be read
and each branch and tag names a node of it. -/
theorem C16_load_iff_partial {nd : NodeDump} {branches tags : GoMap Str} (hd : nd.Distinct) (hb : branches.Nodup)
    (ht : tags.Nodup) : (∃ s, load ⟨some nd, branches, tags⟩ = .ok s) ↔ Resolves nd branches tags := by
  rcases load_cases hd hb ht with ⟨s, a, _, _, b⟩ | ⟨e, a, b⟩
  · exact ⟨fun _ => b, fun _ => ⟨s, a⟩⟩
  · constructor
    · rintro ⟨s, hs⟩; rw [a] at hs; cases hs
    · intro h; exact absurd h b

/-- **C16 (dumps without repeated IDs).** What is loaded is what the dump describes, and it is a tree built by the API
(so C08 to C14 hold of it). Missing for the full claim: dumps with repeated IDs, see `C16_violated_duplicate`. -/
theorem C16_load_content_partial {nd : NodeDump} {branches tags : GoMap Str} (hd : nd.Distinct) (hb : branches.Nodup)
    (ht : tags.Nodup) {s : TS} (h : load ⟨some nd, branches, tags⟩ = .ok s) :
    Reach s ∧ s.abs.Rooted ∧ Describes nd branches tags s.abs := by
  rcases load_cases hd hb ht with ⟨s', a, r, b, _⟩ | ⟨e, a, b⟩
  · rw [h] at a; cases a; exact ⟨r, C08_single_rooted_tree r, b⟩
  · rw [h] at a; cases a

/-- **C16.** A dump without nodes loads as the empty tree. -/
theorem C16_load_empty (branches tags : GoMap Str) : load ⟨none, branches, tags⟩ = .ok .empty := rfl

/-- A sample dump: a root with two children, one of them spelled in upper case, and a branch. -/
def sampleDump : NodeDump :=
  .mk (sampleIDs 0).hex [.mk (lit "000000000000000000000000000000AB") [] none none, .mk (sampleIDs 2).hex [] none none]
    none none

theorem sampleDump_distinct : sampleDump.Distinct := by
  refine ⟨by decide, ⟨GoMap.nodup_none, GoMap.nodup_none⟩, ?_⟩
  intro p x h
  rw [← mem_desc_iff] at h
  simp only [sampleDump, desc, descKids, List.append_nil, List.nil_append, List.mem_cons, List.not_mem_nil,
    or_false, Prod.mk.injEq] at h
  rcases h with ⟨_, rfl⟩ | ⟨_, rfl⟩ <;> exact ⟨GoMap.nodup_none, GoMap.nodup_none⟩

example : ∃ s, load ⟨some sampleDump, some [(lit "b", (sampleIDs 2).hex)], none⟩ = .ok s ∧
    s.abs.branch (lit "b") = some (sampleIDs 2) := ⟨_, rfl, by decide⟩

/-- A dump with a repeated ID: below the root `0`, `1 → 2 → 1`. -/
def loopDump : NodeDump :=
  .mk (sampleIDs 0).hex [.mk (sampleIDs 1).hex [.mk (sampleIDs 2).hex [.mk (sampleIDs 1).hex [] none none] none none]
    none none] none none

/-- **C16 is violated by dumps with a repeated ID**: such a file loads without error to a tree in which two nodes are
each other's parents. -/
theorem C16_violated_duplicate : ∃ s, load ⟨some loopDump, none, none⟩ = .ok s ∧
    (s.abs.node (sampleIDs 1)).bind ANode.parent = some (sampleIDs 2) ∧
    (s.abs.node (sampleIDs 2)).bind ANode.parent = some (sampleIDs 1) ∧
    ¬ s.abs.Rooted := by
  have key : ∃ s, load ⟨some loopDump, none, none⟩ = .ok s ∧
    (s.abs.node (sampleIDs 1)).bind ANode.parent = some (sampleIDs 2) ∧
    (s.abs.node (sampleIDs 2)).bind ANode.parent = some (sampleIDs 1) := ⟨_, rfl, by decide, by decide⟩
  obtain ⟨s, h1, h2, h3⟩ := key
  refine ⟨s, h1, h2, h3, fun hr => ?_⟩
  have no : ∀ u l, ATree.Path s.abs u l → u ≠ sampleIDs 1 ∧ u ≠ sampleIDs 2 := by
    intro u l hp
    induction hp with
    | root hn hp =>
      constructor <;> rintro rfl
      · rw [hn] at h2; simp [hp] at h2
      · rw [hn] at h3; simp [hp] at h3
    | step hn hp _ ih =>
      constructor <;> rintro rfl
      · rw [hn] at h2; simp only [Option.bind_some, hp] at h2; cases h2; exact ih.2 rfl
      · rw [hn] at h3; simp only [Option.bind_some, hp] at h3; cases h3; exact ih.1 rfl
  have : s.abs.Has (sampleIDs 1) := by
    cases hn : s.abs.node (sampleIDs 1) with
    | none => rw [hn] at h2; cases h2
    | some n => exact ⟨n, hn⟩
  obtain ⟨l, hl⟩ := hr.path _ this
  exact (no _ _ hl).1 rfl

end Verif
