import Verif.Tree.Dump
/-! # What `Load` builds -/
set_option autoImplicit false
namespace Verif
namespace TS

/-! ## The edges of a dump -/

mutual
/-- The proper descendants of a dumped node, each with the ID text of its parent. -/
def desc : NodeDump → List (Str × NodeDump)
  | .mk i cs _ _ => descKids i cs
/-- The same for a list of children of a node with ID text `p`, the children included. -/
def descKids (p : Str) : List NodeDump → List (Str × NodeDump)
  | [] => []
  | c :: cs => (p, c) :: (desc c ++ descKids p cs)
end

/-- The proper descendants of several dumped nodes. -/
def descs : List NodeDump → List (Str × NodeDump)
  | [] => []
  | d :: ds => desc d ++ descs ds

theorem descs_append (a b : List NodeDump) : descs (a ++ b) = descs a ++ descs b := by
  induction a with
  | nil => rfl
  | cons d ds ih => simp [descs, ih]

theorem descKids_perm (p : Str) (cs : List NodeDump) :
    (descKids p cs).Perm (cs.map (fun c => (p, c)) ++ descs cs) := by
  induction cs with
  | nil => simp [descKids, descs]
  | cons c cs ih =>
    simp only [descKids, List.map_cons, List.cons_append, descs]
    refine List.Perm.cons _ ?_
    refine (List.Perm.append_left (desc c) ih).trans ?_
    rw [← List.append_assoc, ← List.append_assoc]
    exact List.Perm.append_right _ List.perm_append_comm

theorem desc_perm (d : NodeDump) : (desc d).Perm (d.children.map (fun c => (d.id, c)) ++ descs d.children) := by
  cases d with
  | mk i cs a dt => exact descKids_perm i cs

theorem dumpSizes_append (a b : List NodeDump) : dumpSizes (a ++ b) = dumpSizes a + dumpSizes b := by
  induction a with
  | nil => simp [dumpSizes]
  | cons d ds ih => simp [dumpSizes, ih]; omega

theorem dumpSize_eq (d : NodeDump) : dumpSize d = 1 + dumpSizes d.children := by
  cases d; simp [dumpSize, NodeDump.children]

/-- The edges in the order in which the work list visits them. -/
def bfs : Nat → List NodeDump → List (Str × NodeDump)
  | 0, _ => []
  | _ + 1, [] => []
  | n + 1, item :: q => item.children.map (fun c => (item.id, c)) ++ bfs n (q ++ item.children)

theorem bfs_nil (n : Nat) : bfs n [] = [] := by cases n <;> rfl

theorem bfs_perm : ∀ (n : Nat) (q : List NodeDump), dumpSizes q ≤ n → (bfs n q).Perm (descs q)
  | 0, [], _ => by simp [bfs, descs]
  | 0, d :: ds, h => by
    have := dumpSize_eq d
    simp only [dumpSizes] at h; omega
  | n + 1, [], _ => by simp [bfs, descs]
  | n + 1, item :: q, h => by
    have hs := dumpSize_eq item
    simp only [dumpSizes] at h
    have ih := bfs_perm n (q ++ item.children) (by rw [dumpSizes_append]; omega)
    simp only [bfs, descs]
    refine (List.Perm.append_left _ ih).trans ?_
    rw [descs_append]
    refine List.Perm.trans ?_ (List.Perm.append_right _ (desc_perm item)).symm
    rw [List.append_assoc]
    exact List.Perm.append_left _ List.perm_append_comm

/-! ## Adding edges -/

/-- Add the edges of a list in order. -/
def addEdges : List (Str × NodeDump) → TS → Res LoadErr TS
  | [], s => .ok s
  | (p, c) :: es, s =>
    ((UID.decodeHex p).mapErr fun _ => LoadErr.nodeID).bind fun pid =>
      ((UID.decodeHex c.id).mapErr fun _ => LoadErr.nodeID).bind fun cid =>
        ((s.addNew (some pid) cid c.annotations c.data).mapErr .tree).bind fun s' => addEdges es s'

theorem addEdges_append (a b : List (Str × NodeDump)) (s : TS) :
    addEdges (a ++ b) s = (addEdges a s).bind (addEdges b) := by
  induction a generalizing s with
  | nil => rfl
  | cons e es ih =>
    obtain ⟨p, c⟩ := e
    simp only [List.cons_append, addEdges]
    cases (UID.decodeHex p).mapErr fun _ => LoadErr.nodeID with
    | ok pid =>
      simp only [Res.bind]
      cases (UID.decodeHex c.id).mapErr fun _ => LoadErr.nodeID with
      | ok cid =>
        simp only
        cases Res.mapErr LoadErr.tree (s.addNew (some pid) cid c.annotations c.data) with
        | ok s' => exact ih s'
        | _ => rfl
      | _ => rfl
    | _ => rfl

theorem loadChildren_eq {pid : UID} {p : Str} (hp : UID.decodeHex p = .ok pid) (cs : List NodeDump) (s : TS) :
    loadChildren pid cs s = addEdges (cs.map fun c => (p, c)) s := by
  induction cs generalizing s with
  | nil => rfl
  | cons c cs ih =>
    simp only [loadChildren, List.map_cons, addEdges, hp, Res.mapErr, Res.bind]
    cases UID.decodeHex c.id with
    | ok cid =>
      simp only [Res.mapErr]
      cases s.addNew (some pid) cid c.annotations c.data with
      | ok s' => exact ih s'
      | _ => rfl
    | _ => rfl

/-- The ID text denotes an ID. -/
def Decodes (s : Str) : Prop := ∃ u, UID.decodeHex s = .ok u

theorem addEdges_decodes {es : List (Str × NodeDump)} {s s' : TS} (h : addEdges es s = .ok s') :
    ∀ e ∈ es, Decodes e.2.id := by
  induction es generalizing s with
  | nil => simp
  | cons e es ih =>
    obtain ⟨p, c⟩ := e
    simp only [addEdges] at h
    cases hp : UID.decodeHex p with
    | ok pid =>
      cases hc : UID.decodeHex c.id with
      | ok cid =>
        simp only [hp, hc, Res.mapErr, Res.bind] at h
        cases ha : s.addNew (some pid) cid c.annotations c.data with
        | ok s1 =>
          simp only [ha] at h
          intro e he
          rcases List.mem_cons.1 he with rfl | he
          · exact ⟨cid, hc⟩
          · exact ih h e he
        | _ => simp [ha] at h
      | _ => simp [hp, hc, Res.mapErr] at h
    | _ => simp [hp, Res.mapErr] at h

theorem loadLoop_eq : ∀ (n : Nat) (q : List NodeDump) (s : TS), dumpSizes q ≤ n → (∀ d ∈ q, Decodes d.id) →
    loadLoop n q s = addEdges (bfs n q) s
  | 0, [], s, _, _ => rfl
  | 0, d :: ds, s, h, _ => by
    have := dumpSize_eq d
    simp only [dumpSizes] at h; omega
  | n + 1, [], s, _, _ => rfl
  | n + 1, item :: q, s, h, hd => by
    obtain ⟨pid, hp⟩ := hd item (by simp)
    have hs := dumpSize_eq item
    simp only [dumpSizes] at h
    simp only [loadLoop, hp, Res.mapErr, Res.bind, bfs, addEdges_append, loadChildren_eq hp]
    cases ha : addEdges (item.children.map fun c => (item.id, c)) s with
    | ok s' =>
      simp only
      apply loadLoop_eq n
      · rw [dumpSizes_append]; omega
      · intro d hm
        rcases List.mem_append.1 hm with hm | hm
        · exact hd d (by simp [hm])
        · exact addEdges_decodes ha (item.id, d) (List.mem_map.2 ⟨d, hm, rfl⟩)
    | _ => rfl

/-! ## Effect of adding edges -/

/-- The canonical spelling of an ID text. -/
def canon (s : Str) : Str := s.map Hex.lower

theorem canon_of_decode {s : Str} {u : UID} (h : UID.decodeHex s = .ok u) : u.hex = canon s :=
  ((C04_hex_decode_iff s u).1 h).2.2

theorem decode_inj {s t : Str} {u : UID} (h1 : UID.decodeHex s = .ok u) (h2 : UID.decodeHex t = .ok u) :
    canon s = canon t := by rw [← canon_of_decode h1, ← canon_of_decode h2]

theorem addNew_cases {s : TS} (h : WF s) {p : Option UID} {id : UID} {anno : GoMap Str} {data : GoMap (Option Str)}
    (hnew : ¬ s.abs.Has id) (ha : anno.Nodup) (hd : data.Nodup) :
    (∃ s', s.addNew p id anno data = .ok s' ∧ WF s' ∧ s'.abs = s.abs.add p id anno.get data.get ∧
      ((p = none ∧ s.abs.root = none) ∨ ∃ q, p = some q ∧ s.abs.Has q)) ∨
    (∃ e, s.addNew p id anno data = .err e ∧
      ((p = none ∧ s.abs.root ≠ none) ∨ ∃ q, p = some q ∧ ¬ s.abs.Has q)) := by
  have := call_spec h (.add p id anno data) ⟨hnew, ha, hd⟩
  simp only [call] at this
  simp only [addNew]
  rcases this with ⟨s', a, b, c⟩ | ⟨e, a, c⟩
  · left
    refine ⟨s', a, b, ?_⟩
    generalize s'.abs = x at c
    cases c with
    | addRoot hr => exact ⟨rfl, Or.inl ⟨rfl, hr⟩⟩
    | addChild hp => exact ⟨rfl, Or.inr ⟨_, rfl, hp⟩⟩
  · right
    refine ⟨e, a, ?_⟩
    cases c with
    | addRootErr hr => exact Or.inl ⟨rfl, by simp [hr]⟩
    | addChildErr hp => exact Or.inr ⟨_, rfl, hp⟩

/-- What a successful run of additions leaves. -/
structure Added (es : List (Str × NodeDump)) (s s' : TS) : Prop where
  wf : WF s'
  edge : ∀ e ∈ es, ∃ p c, UID.decodeHex e.1 = .ok p ∧ UID.decodeHex e.2.id = .ok c ∧
    s'.abs.node c = some ⟨some p, e.2.annotations.get, e.2.data.get⟩
  other : ∀ u, (∀ e ∈ es, UID.decodeHex e.2.id ≠ .ok u) → s'.abs.node u = s.abs.node u
  root : s'.abs.root = s.abs.root
  branch : s'.abs.branch = s.abs.branch
  tag : s'.abs.tag = s.abs.tag

/-- The maps of a dump have distinct keys, as Go maps do. -/
def MapsNodup (d : NodeDump) : Prop := d.annotations.Nodup ∧ d.data.Nodup

/-- New, pairwise different IDs. -/
structure NewIDs (es : List (Str × NodeDump)) (s : TS) : Prop where
  nodup : (es.map fun e => canon e.2.id).Nodup
  fresh : ∀ e ∈ es, ∀ u, UID.decodeHex e.2.id = .ok u → ¬ s.abs.Has u
  maps : ∀ e ∈ es, MapsNodup e.2

theorem newIDs_cons {p : Str} {c : NodeDump} {es : List (Str × NodeDump)} {s s1 : TS} {cid pid : UID}
    (h : NewIDs ((p, c) :: es) s) (hc : UID.decodeHex c.id = .ok cid)
    (habs : s1.abs = s.abs.add (some pid) cid c.annotations.get c.data.get) : NewIDs es s1 := by
  obtain ⟨h1, h2, h3⟩ := h
  simp only [List.map_cons, List.nodup_cons] at h1
  refine ⟨h1.2, ?_, fun e he => h3 e (by simp [he])⟩
  intro e he u hu hhas
  rw [habs] at hhas
  obtain ⟨n, hn⟩ := hhas
  simp only [ATree.add, upd] at hn
  split at hn
  · rename_i hueq
    subst hueq
    exact h1.1 (List.mem_map.2 ⟨e, he, decode_inj hu hc⟩)
  · exact h2 e (by simp [he]) u hu ⟨n, hn⟩

theorem addEdges_cases : ∀ {es : List (Str × NodeDump)} {s : TS}, WF s → NewIDs es s →
    (∃ s', addEdges es s = .ok s' ∧ Added es s s') ∨ (∃ e, addEdges es s = .err e)
  | [], s, h, _ => Or.inl ⟨s, rfl, h, by simp, fun _ _ => rfl, rfl, rfl, rfl⟩
  | (p, c) :: es, s, h, hn => by
    simp only [addEdges]
    rcases C04_hex_decode_total p with ⟨pid, hp⟩ | ⟨e, hp⟩
    · rcases C04_hex_decode_total c.id with ⟨cid, hc⟩ | ⟨e, hc⟩
      · simp only [hp, hc, Res.mapErr, Res.bind]
        have hm := hn.maps (p, c) (by simp)
        rcases addNew_cases (p := some pid) h (hn.fresh (p, c) (by simp) cid hc) hm.1 hm.2 with
          ⟨s1, ha, hw, habs, _⟩ | ⟨e, ha, _⟩
        · simp only [ha]
          have hn1 := newIDs_cons hn hc habs
          rcases addEdges_cases hw hn1 with ⟨s', hs', had⟩ | ⟨e, he⟩
          · left
            refine ⟨s', hs', had.wf, ?_, ?_, ?_, ?_, ?_⟩
            · intro e he
              rcases List.mem_cons.1 he with rfl | he
              · refine ⟨pid, cid, hp, hc, ?_⟩
                rw [had.other cid, habs]
                · simp [ATree.add]
                · intro e' he' hd
                  have := hn.nodup
                  simp only [List.map_cons, List.nodup_cons] at this
                  exact this.1 (List.mem_map.2 ⟨e', he', decode_inj hd hc⟩)
              · exact had.edge e he
            · intro u hu
              rw [had.other u (fun e he => hu e (by simp [he])), habs]
              have : u ≠ cid := by rintro rfl; exact hu (p, c) (by simp) hc
              simp [ATree.add, upd, this]
            · rw [had.root, habs]; simp [ATree.add]
            · rw [had.branch, habs]; rfl
            · rw [had.tag, habs]; rfl
          · exact Or.inr ⟨e, he⟩
        · exact Or.inr ⟨.tree e, by simp [ha]⟩
      · exact Or.inr ⟨.nodeID, by simp [hp, hc, Res.mapErr]⟩
    · exact Or.inr ⟨.nodeID, by simp [hp, Res.mapErr]⟩

/-- The edges of children of a present node are all added. -/
theorem addEdges_children_ok {pid : UID} {p : Str} (hp : UID.decodeHex p = .ok pid) :
    ∀ {cs : List NodeDump} {s : TS}, WF s → s.abs.Has pid → NewIDs (cs.map fun c => (p, c)) s →
    (∀ c ∈ cs, Decodes c.id) → ∃ s', addEdges (cs.map fun c => (p, c)) s = .ok s'
  | [], s, _, _, _, _ => ⟨s, rfl⟩
  | c :: cs, s, h, hpid, hn, hd => by
    obtain ⟨cid, hc⟩ := hd c (by simp)
    simp only [List.map_cons, addEdges, hp, hc, Res.mapErr, Res.bind]
    simp only [List.map_cons] at hn
    have hm := hn.maps (p, c) (by simp)
    rcases addNew_cases (p := some pid) h (hn.fresh (p, c) (by simp) cid hc) hm.1 hm.2 with
      ⟨s1, ha, hw, habs, _⟩ | ⟨e, _, h2 | ⟨q, hq, hq'⟩⟩
    · simp only [ha]
      apply addEdges_children_ok hp hw _ (newIDs_cons hn hc habs) (fun d hd' => hd d (by simp [hd']))
      rw [habs]
      obtain ⟨n, hn'⟩ := hpid
      by_cases he : pid = cid
      · subst he; exact ⟨_, upd_self _ _ _⟩
      · exact ⟨n, (upd_ne _ _ he).trans hn'⟩
    · simp at h2
    · simp at hq; subst hq; exact absurd hpid hq'

theorem newIDs_append {a b : List (Str × NodeDump)} {s s1 : TS} (h : NewIDs (a ++ b) s) (had : Added a s s1) :
    NewIDs b s1 := by
  obtain ⟨h1, h2, h3⟩ := h
  rw [List.map_append, List.nodup_append] at h1
  refine ⟨h1.2.1, ?_, fun e he => h3 e (by simp [he])⟩
  intro e he u hu hhas
  by_cases hx : ∃ e' ∈ a, UID.decodeHex e'.2.id = .ok u
  · obtain ⟨e', he', hd⟩ := hx
    exact h1.2.2 (canon e'.2.id) (List.mem_map.2 ⟨e', he', rfl⟩) (canon e.2.id) (List.mem_map.2 ⟨e, he, rfl⟩)
      (decode_inj hd hu)
  · have hx' : ∀ e' ∈ a, UID.decodeHex e'.2.id ≠ .ok u := fun e' he' hd => hx ⟨e', he', hd⟩
    obtain ⟨n, hn⟩ := hhas
    rw [had.other u hx'] at hn
    exact h2 e (by simp [he]) u hu ⟨n, hn⟩

theorem newIDs_left {a b : List (Str × NodeDump)} {s : TS} (h : NewIDs (a ++ b) s) : NewIDs a s := by
  obtain ⟨h1, h2, h3⟩ := h
  rw [List.map_append, List.nodup_append] at h1
  exact ⟨h1.1, fun e he => h2 e (by simp [he]), fun e he => h3 e (by simp [he])⟩

/-- A work list whose nodes are in the tree is processed completely. -/
theorem addEdges_bfs_ok : ∀ (n : Nat) {q : List NodeDump} {s : TS}, WF s →
    (∀ d ∈ q, ∃ u, UID.decodeHex d.id = .ok u ∧ s.abs.Has u) → NewIDs (bfs n q) s →
    (∀ e ∈ bfs n q, Decodes e.2.id) → ∃ s', addEdges (bfs n q) s = .ok s'
  | 0, q, s, _, _, _, _ => ⟨s, rfl⟩
  | n + 1, [], s, _, _, _, _ => ⟨s, rfl⟩
  | n + 1, item :: q, s, h, hq, hn, hd => by
    obtain ⟨pid, hp, hpid⟩ := hq item (by simp)
    simp only [bfs] at hn hd ⊢
    rw [addEdges_append]
    have hdc : ∀ c ∈ item.children, Decodes c.id := fun c hc =>
      hd (item.id, c) (List.mem_append.2 (Or.inl (List.mem_map.2 ⟨c, hc, rfl⟩)))
    obtain ⟨s1, hs1⟩ := addEdges_children_ok hp h hpid (newIDs_left hn) hdc
    rw [hs1]
    rcases addEdges_cases h (newIDs_left hn) with ⟨s1', hs1', had⟩ | ⟨e, he⟩
    · rw [hs1] at hs1'; cases hs1'
      simp only [Res.bind]
      apply addEdges_bfs_ok n had.wf _ (newIDs_append hn had) (fun e he => hd e (List.mem_append.2 (Or.inr he)))
      intro d hm
      rcases List.mem_append.1 hm with hm | hm
      · obtain ⟨u, hu, x, hx⟩ := hq d (by simp [hm])
        refine ⟨u, hu, ?_⟩
        by_cases hc : ∃ e ∈ item.children.map (fun c => (item.id, c)), UID.decodeHex e.2.id = .ok u
        · obtain ⟨e, he, hde⟩ := hc
          obtain ⟨p', c', _, h2, h3⟩ := had.edge e he
          rw [hde] at h2; cases h2
          exact ⟨_, h3⟩
        · exact ⟨x, (had.other u (fun e he hde => hc ⟨e, he, hde⟩)).trans hx⟩
      · obtain ⟨p', c', _, h2, h3⟩ := had.edge (item.id, d) (List.mem_map.2 ⟨d, hm, rfl⟩)
        exact ⟨c', h2, _, h3⟩
    · rw [hs1] at he; cases he

/-! ## Branches and tags -/

/-- What the loop over branches leaves. -/
theorem loadBranches_cases : ∀ {es : List (Str × Str)} {s : TS}, WF s → (AL.keys es).Nodup →
    (∃ s', loadNames addBranch es s = .ok s' ∧ WF s' ∧ s'.abs.node = s.abs.node ∧ s'.abs.root = s.abs.root ∧
      s'.abs.tag = s.abs.tag ∧ (∀ e ∈ es, ∃ u, UID.decodeHex e.2 = .ok u ∧ s.abs.Has u ∧ s'.abs.branch e.1 = some u) ∧
      (∀ b, b ∉ AL.keys es → s'.abs.branch b = s.abs.branch b)) ∨
    (∃ e, loadNames addBranch es s = .err e ∧ ∃ x ∈ es, ∀ u, UID.decodeHex x.2 = .ok u → ¬ s.abs.Has u)
  | [], s, h, _ => Or.inl ⟨s, rfl, h, rfl, rfl, rfl, by simp, fun _ _ => rfl⟩
  | (n, v) :: es, s, h, hnd => by
    simp only [AL.keys, List.map_cons, List.nodup_cons] at hnd
    simp only [loadNames]
    rcases C04_hex_decode_total v with ⟨u, hu⟩ | ⟨e, hv⟩
    · simp only [hu, Res.mapErr, Res.bind]
      by_cases hh : s.abs.Has u
      · obtain ⟨s1, ha, hw, habs, _⟩ := (addBranch_spec h n u).1 hh
        simp only [ha]
        have hhas : ∀ x, s1.abs.Has x ↔ s.abs.Has x := by intro x; rw [habs]; exact Iff.rfl
        rcases loadBranches_cases hw hnd.2 with ⟨s', a, b, c, d, e, f, g⟩ | ⟨e, a, x, hx, hx'⟩
        · left
          refine ⟨s', a, b, by rw [c, habs]; rfl, by rw [d, habs]; rfl, by rw [e, habs]; rfl, ?_, ?_⟩
          · intro x hx
            rcases List.mem_cons.1 hx with rfl | hx
            · exact ⟨u, hu, hh, by rw [g n hnd.1, habs]; simp [ATree.setBranch]⟩
            · obtain ⟨w, hw1, hw2, hw3⟩ := f x hx
              exact ⟨w, hw1, (hhas w).1 hw2, hw3⟩
          · intro b' hb'
            simp only [AL.keys, List.map_cons, List.mem_cons, not_or] at hb'
            rw [g b' hb'.2, habs]
            exact upd_ne _ _ hb'.1
        · exact Or.inr ⟨e, a, x, by simp [hx], fun u hu hh' => hx' u hu ((hhas u).2 hh')⟩
      · right
        refine ⟨.tree .nodeNotFound, by simp [(addBranch_spec h n u).2 hh], (n, v), by simp, ?_⟩
        intro u' hu'
        rw [hu] at hu'; cases hu'; exact hh
    · right
      exact ⟨.nodeID, by simp [hv, Res.mapErr], (n, v), by simp, fun u hu => by simp [hv] at hu⟩

/-- What the loop over tags leaves. -/
theorem loadTags_cases : ∀ {es : List (Str × Str)} {s : TS}, WF s → (AL.keys es).Nodup →
    (∃ s', loadNames addTag es s = .ok s' ∧ WF s' ∧ s'.abs.node = s.abs.node ∧ s'.abs.root = s.abs.root ∧
      s'.abs.branch = s.abs.branch ∧ (∀ e ∈ es, ∃ u, UID.decodeHex e.2 = .ok u ∧ s.abs.Has u ∧ s'.abs.tag e.1 = some u) ∧
      (∀ b, b ∉ AL.keys es → s'.abs.tag b = s.abs.tag b)) ∨
    (∃ e, loadNames addTag es s = .err e ∧ ∃ x ∈ es, ∀ u, UID.decodeHex x.2 = .ok u → ¬ s.abs.Has u)
  | [], s, h, _ => Or.inl ⟨s, rfl, h, rfl, rfl, rfl, by simp, fun _ _ => rfl⟩
  | (n, v) :: es, s, h, hnd => by
    simp only [AL.keys, List.map_cons, List.nodup_cons] at hnd
    simp only [loadNames]
    rcases C04_hex_decode_total v with ⟨u, hu⟩ | ⟨e, hv⟩
    · simp only [hu, Res.mapErr, Res.bind]
      by_cases hh : s.abs.Has u
      · obtain ⟨s1, ha, hw, habs, _⟩ := (addTag_spec h n u).1 hh
        simp only [ha]
        have hhas : ∀ x, s1.abs.Has x ↔ s.abs.Has x := by intro x; rw [habs]; exact Iff.rfl
        rcases loadTags_cases hw hnd.2 with ⟨s', a, b, c, d, e, f, g⟩ | ⟨e, a, x, hx, hx'⟩
        · left
          refine ⟨s', a, b, by rw [c, habs]; rfl, by rw [d, habs]; rfl, by rw [e, habs]; rfl, ?_, ?_⟩
          · intro x hx
            rcases List.mem_cons.1 hx with rfl | hx
            · exact ⟨u, hu, hh, by rw [g n hnd.1, habs]; simp [ATree.setTag]⟩
            · obtain ⟨w, hw1, hw2, hw3⟩ := f x hx
              exact ⟨w, hw1, (hhas w).1 hw2, hw3⟩
          · intro b' hb'
            simp only [AL.keys, List.map_cons, List.mem_cons, not_or] at hb'
            rw [g b' hb'.2, habs]
            exact upd_ne _ _ hb'.1
        · exact Or.inr ⟨e, a, x, by simp [hx], fun u hu hh' => hx' u hu ((hhas u).2 hh')⟩
      · right
        refine ⟨.tree .nodeNotFound, by simp [(addTag_spec h n u).2 hh], (n, v), by simp, ?_⟩
        intro u' hu'
        rw [hu] at hu'; cases hu'; exact hh
    · right
      exact ⟨.nodeID, by simp [hv, Res.mapErr], (n, v), by simp, fun u hu => by simp [hv] at hu⟩

/-! ## Loaded trees are trees built by the API -/

theorem addNew_eq_call (s : TS) (p : Option UID) (id : UID) (anno : GoMap Str) (data : GoMap (Option Str)) :
    s.addNew p id anno data = s.call (.add p id anno data) := rfl

theorem addEdges_reach : ∀ {es : List (Str × NodeDump)} {s s' : TS}, Reach s → NewIDs es s → addEdges es s = .ok s' →
    Reach s'
  | [], s, s', h, _, he => by simp only [addEdges] at he; cases he; exact h
  | (p, c) :: es, s, s', h, hn, he => by
    simp only [addEdges] at he
    cases hp : UID.decodeHex p with
    | ok pid =>
      cases hc : UID.decodeHex c.id with
      | ok cid =>
        simp only [hp, hc, Res.mapErr, Res.bind] at he
        have hm := hn.maps (p, c) (by simp)
        have hf := hn.fresh (p, c) (by simp) cid hc
        rcases addNew_cases (p := some pid) (wf_of_reach h) hf hm.1 hm.2 with ⟨s1, ha, _, habs, _⟩ | ⟨e, ha, _⟩
        · simp only [ha] at he
          have h1 : Reach s1 := .ok (op := .add (some pid) cid c.annotations c.data) h ⟨hf, hm.1, hm.2⟩ ha
          exact addEdges_reach h1 (newIDs_cons hn hc habs) he
        · simp [ha] at he
      | _ => simp [hp, hc, Res.mapErr] at he
    | _ => simp [hp, Res.mapErr] at he

theorem loadBranches_reach : ∀ {es : List (Str × Str)} {s s' : TS}, Reach s → loadNames addBranch es s = .ok s' → Reach s'
  | [], s, s', h, he => by simp only [loadNames] at he; cases he; exact h
  | (n, v) :: es, s, s', h, he => by
    simp only [loadNames] at he
    cases hv : UID.decodeHex v with
    | ok u =>
      cases ha : s.addBranch n u with
      | ok s1 =>
        simp only [hv, ha, Res.mapErr, Res.bind] at he
        exact loadBranches_reach (.ok (op := .addBranch n u) h trivial ha) he
      | _ => simp [hv, ha, Res.mapErr] at he
    | _ => simp [hv, Res.mapErr] at he

theorem loadTags_reach : ∀ {es : List (Str × Str)} {s s' : TS}, Reach s → loadNames addTag es s = .ok s' → Reach s'
  | [], s, s', h, he => by simp only [loadNames] at he; cases he; exact h
  | (n, v) :: es, s, s', h, he => by
    simp only [loadNames] at he
    cases hv : UID.decodeHex v with
    | ok u =>
      cases ha : s.addTag n u with
      | ok s1 =>
        simp only [hv, ha, Res.mapErr, Res.bind] at he
        exact loadTags_reach (.ok (op := .addTag n u) h trivial ha) he
      | _ => simp [hv, ha, Res.mapErr] at he
    | _ => simp [hv, Res.mapErr] at he

/-! ## No panic, whatever the dump -/

/-- The index points into the heap. Holds even with repeated IDs. -/
def Valid (s : TS) : Prop := ∀ k r, s.tree.nodes.get k = some r → r < s.heap.length

theorem addNew_total {s : TS} (h : Valid s) (p : Option UID) (id : UID) (anno : GoMap Str) (data : GoMap (Option Str)) :
    (∃ s', s.addNew p id anno data = .ok s' ∧ Valid s') ∨ ∃ e, s.addNew p id anno data = .err e := by
  simp only [addNew, mkNode_eq]
  cases p with
  | none =>
    simp only [addNode]
    cases s.tree.root with
    | some _ => exact Or.inr ⟨_, rfl⟩
    | none =>
      left
      simp only
      rw [updateIndexes_leaf (o := ⟨id, none, none, anno, data⟩) (by simp) rfl]
      refine ⟨_, rfl, ?_⟩
      intro k r hk
      simp only [GoMap.get_some, AL.get_put, List.length_append, List.length_singleton] at hk ⊢
      split at hk
      · cases hk; omega
      · have := h k r hk; omega
  | some pid =>
    simp only [addNode]
    cases hp : s.tree.nodes.get pid.hex with
    | none => exact Or.inr ⟨_, rfl⟩
    | some q =>
      left
      have hq := h _ _ hp
      obtain ⟨qo, hqo⟩ : ∃ qo, s.heap[q]? = some qo := ⟨_, List.getElem?_eq_getElem hq⟩
      have hqo' : (s.heap ++ [(⟨id, none, none, anno, data⟩ : NodeObj)])[q]? = some qo := by
        rw [List.getElem?_append_left hq]; exact hqo
      have hlen : (s.heap ++ [(⟨id, none, none, anno, data⟩ : NodeObj)])[s.heap.length]? = some ⟨id, none, none, anno, data⟩ := by
        simp
      simp only [addChild, hqo', hlen]
      cases qo.children.get id.hex with
      | some _ =>
        simp only [setParent, modify, hlen]
        rw [updateIndexes_leaf (o := ⟨id, some q, none, anno, data⟩) (by simp) rfl]
        refine ⟨_, rfl, ?_⟩
        intro k r hk
        simp only [GoMap.get_some, AL.get_put, List.length_set, List.length_append, List.length_singleton] at hk ⊢
        split at hk
        · cases hk; omega
        · have := h k r hk; omega
      | none =>
        simp only [GoMap.assign_ensure, setParent, modify]
        rw [List.getElem?_set_ne (by omega), hlen]
        simp only
        rw [updateIndexes_leaf (o := ⟨id, some q, none, anno, data⟩) (by simp) rfl]
        refine ⟨_, rfl, ?_⟩
        intro k r hk
        simp only [GoMap.get_some, AL.get_put, List.length_set, List.length_append, List.length_singleton] at hk ⊢
        split at hk
        · cases hk; omega
        · have := h k r hk; omega

theorem addEdges_total : ∀ (es : List (Str × NodeDump)) {s : TS}, Valid s →
    (∃ s', addEdges es s = .ok s') ∨ ∃ e, addEdges es s = .err e
  | [], s, _ => Or.inl ⟨s, rfl⟩
  | (p, c) :: es, s, h => by
    simp only [addEdges]
    rcases C04_hex_decode_total p with ⟨pid, hp⟩ | ⟨e, hp⟩
    · rcases C04_hex_decode_total c.id with ⟨cid, hc⟩ | ⟨e, hc⟩
      · simp only [hp, hc, Res.mapErr, Res.bind]
        rcases addNew_total h (some pid) cid c.annotations c.data with ⟨s1, ha, h1⟩ | ⟨e, ha⟩
        · simp only [ha]; exact addEdges_total es h1
        · exact Or.inr ⟨.tree e, by simp [ha]⟩
      · exact Or.inr ⟨.nodeID, by simp [hp, hc, Res.mapErr]⟩
    · exact Or.inr ⟨.nodeID, by simp [hp, Res.mapErr]⟩

theorem loadNames_total {add : TS → Str → UID → Res TreeErr TS}
    (hadd : ∀ s n u, (∃ s', add s n u = .ok s') ∨ ∃ e, add s n u = .err e) :
    ∀ (es : List (Str × Str)) (s : TS), (∃ s', loadNames add es s = .ok s') ∨ ∃ e, loadNames add es s = .err e
  | [], s => Or.inl ⟨s, rfl⟩
  | (n, v) :: es, s => by
    simp only [loadNames]
    rcases C04_hex_decode_total v with ⟨u, hu⟩ | ⟨e, hu⟩
    · simp only [hu, Res.mapErr, Res.bind]
      rcases hadd s n u with ⟨s1, ha⟩ | ⟨e, ha⟩
      · simp only [ha]; exact loadNames_total hadd es s1
      · exact Or.inr ⟨.tree e, by simp [ha]⟩
    · exact Or.inr ⟨.nodeID, by simp [hu, Res.mapErr]⟩

theorem addBranch_total (s : TS) (n : Str) (u : UID) :
    (∃ s', s.addBranch n u = .ok s') ∨ ∃ e, s.addBranch n u = .err e := by
  simp only [addBranch, GoMap.assign_ensure]
  cases s.tree.nodes.get u.hex with
  | none => exact Or.inr ⟨_, rfl⟩
  | some r => exact Or.inl ⟨_, rfl⟩

theorem addTag_total (s : TS) (n : Str) (u : UID) :
    (∃ s', s.addTag n u = .ok s') ∨ ∃ e, s.addTag n u = .err e := by
  simp only [addTag, GoMap.assign_ensure]
  cases s.tree.nodes.get u.hex with
  | none => exact Or.inr ⟨_, rfl⟩
  | some r => exact Or.inl ⟨_, rfl⟩

/-- `Load` returns a tree or an error for every dump. -/
theorem load_total (d : TreeDump) : (∃ s, load d = .ok s) ∨ ∃ e, load d = .err e := by
  unfold load
  cases d.nodes with
  | none => exact Or.inl ⟨_, rfl⟩
  | some nd =>
    rcases C04_hex_decode_total nd.id with ⟨rid, hr⟩ | ⟨e, hr⟩
    · simp only [hr, Res.mapErr, Res.bind]
      have hv : Valid empty := by intro k r hk; simp [empty, GoMap.get, GoMap.entries] at hk
      rcases addNew_total hv none rid nd.annotations nd.data with ⟨s0, ha, h0⟩ | ⟨e, ha⟩
      · simp only [ha]
        rw [loadLoop_eq _ _ _ (by simp [dumpSizes]) (by simp; exact ⟨_, hr⟩)]
        rcases addEdges_total (bfs (dumpSize nd) [nd]) h0 with ⟨s1, h1⟩ | ⟨e, h1⟩
        · simp only [h1]
          rcases loadNames_total addBranch_total d.branches.entries s1 with ⟨s2, h2⟩ | ⟨e, h2⟩
          · simp only [h2]; exact loadNames_total addTag_total d.tags.entries s2
          · exact Or.inr ⟨e, by simp [h2]⟩
        · exact Or.inr ⟨e, by simp [h1]⟩
      · exact Or.inr ⟨.tree e, by simp [ha]⟩
    · exact Or.inr ⟨.rootID, by simp [hr, Res.mapErr]⟩

end TS
end Verif
