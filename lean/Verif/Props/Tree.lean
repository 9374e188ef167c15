import Verif.Tree.Exec
/-!
# C08–C14: the commit tree

`s.abs` is what the read methods (`Get`, `Parent`, `Annotations`, `Data`, `Root`, `GetByBranch`, `GetByTag`) show of a
tree. `Reach s` says that `s` is the result of any sequence of successful API calls on a new tree, with any number of
failed calls in between (they change nothing, `C09`–`C12`), where each added node has a new ID.
-/
set_option autoImplicit false
namespace Verif
open TS

/-- Specification: the children that `Children()` of the node with ID `u` lists. -/
def TS.Lists (s : TS) (u v : UID) : Prop :=
  ∃ r o c co, s.get u = some r ∧ s.heap[r]? = some o ∧ o.children.get v.hex = some c ∧ s.heap[c]? = some co ∧ co.id = v

/-- A tree with a root, two children, two tags and a branch: the running example. -/
def sampleIDs (k : Nat) : UID := ⟨List.replicate 15 0 ++ [UInt8.ofNat k], by simp⟩

def sampleOps : List Op :=
  [.add none (sampleIDs 0) none none, .addTag (lit "ROOT") (sampleIDs 0),
   .add (some (sampleIDs 0)) (sampleIDs 1) none none, .addBranch (lit "global/main") (sampleIDs 1),
   .add (some (sampleIDs 1)) (sampleIDs 2) (some [(lit "commit-message", lit "first")]) none,
   .add (some (sampleIDs 1)) (sampleIDs 3) none (some [(lit "k", some (lit "v"))]),
   .addTag (lit "v1") (sampleIDs 2), .updateBranch (lit "global/main") (sampleIDs 2) false]

/-- Run calls in order; failed calls change nothing. -/
def runOps (s : TS) : List Op → TS
  | [] => s
  | op :: ops => runOps (match s.call op with | .ok s' => s' | _ => s) ops

def sampleTree : TS := runOps .empty sampleOps

theorem has_of_get_isNone {s : TS} (h : WF s) {u : UID} (hg : s.get u = none) : ¬ s.abs.Has u := by
  intro hu
  obtain ⟨r, hr⟩ := (abs_has_iff_get h u).1 hu
  simp only [TS.get] at hg
  rw [hg] at hr; cases hr

/-- Legality that can be evaluated. -/
def Op.legalB (s : TS) : Op → Bool
  | .add _ id anno data => (s.get id).isNone && decide (AL.keys anno.entries).Nodup && decide (AL.keys data.entries).Nodup
  | _ => true

theorem legal_of_legalB {s : TS} (h : WF s) {op : Op} (hl : Op.legalB s op = true) : op.Legal s.abs := by
  cases op with
  | add p id anno data =>
    simp only [Op.legalB, Bool.and_eq_true, Option.isNone_iff_eq_none, decide_eq_true_eq] at hl
    exact ⟨has_of_get_isNone h hl.1.1, hl.1.2, hl.2⟩
  | _ => trivial

/-- Executable check that a run is legal. -/
def legalRun (s : TS) : List Op → Bool
  | [] => true
  | op :: ops => Op.legalB s op && legalRun (match s.call op with | .ok s' => s' | _ => s) ops

theorem reach_runOps {s : TS} (h : Reach s) : ∀ {ops : List Op}, legalRun s ops = true → Reach (runOps s ops)
  | [], _ => h
  | op :: ops, hl => by
    simp only [legalRun, Bool.and_eq_true] at hl
    simp only [runOps]
    have hleg := legal_of_legalB (wf_of_reach h) hl.1
    cases hc : s.call op with
    | ok s' =>
      simp only [hc] at hl ⊢
      exact reach_runOps (.ok h hleg hc) hl.2
    | err e => simp only [hc] at hl ⊢; exact reach_runOps h hl.2
    | panic => simp only [hc] at hl ⊢; exact reach_runOps h hl.2
    | diverge => simp only [hc] at hl ⊢; exact reach_runOps h hl.2

/-- The running example is reachable: the hypotheses below are not vacuous. -/
theorem sampleTree_reach : Reach sampleTree := reach_runOps .new (by decide)

/-! ## C08 -/

/-- **C08.** Every tree built by the API is one rooted tree: a unique parentless root from which every node descends in
finitely many steps. -/
theorem C08_single_rooted_tree {s : TS} (h : Reach s) : s.abs.Rooted := rooted_of_wf (wf_of_reach h)

/-- **C08.** `Children()` of `u` lists `v` exactly when `v` is a node whose `Parent()` is `u`. -/
theorem C08_children_iff_parent {s : TS} (h : Reach s) (u v : UID) :
    s.Lists u v ↔ ∃ n, s.abs.node v = some n ∧ n.parent = some u := by
  have hw := wf_of_reach h
  constructor
  · rintro ⟨r, o, c, co, h1, h2, h3, h4, rfl⟩
    obtain ⟨o', ho', hid⟩ := hw.idx _ _ h1
    rw [h2] at ho'; cases ho'
    have hou : o.id = u := C03_hex_injective hid
    obtain ⟨a, co', b, d⟩ := (hw.chi r o h2 (by rw [hid]; exact h1)).2 _ _ h3
    rw [h4] at b; cases b
    refine ⟨_, (abs_node_iff hw _ _).2 ⟨c, co, h4, a, rfl, rfl⟩, ?_⟩
    simp [absObj, d, idAt, h2, hou]
  · rintro ⟨n, hn, hp⟩
    obtain ⟨c, co, h1, h2, rfl, rfl⟩ := (abs_node_iff hw v n).1 hn
    obtain ⟨q, qo, a, b, rfl, e, f⟩ := (abs_parent_iff hw h1 h2 u).1 hp
    exact ⟨q, qo, c, co, e, b, f, h1, rfl⟩

/-- **C08.** A node is listed by one parent only. -/
theorem C08_one_parent {s : TS} (h : Reach s) {u u' v : UID} (h1 : s.Lists u v) (h2 : s.Lists u' v) : u = u' := by
  obtain ⟨n, hn, hp⟩ := (C08_children_iff_parent h u v).1 h1
  obtain ⟨n', hn', hp'⟩ := (C08_children_iff_parent h u' v).1 h2
  rw [hn] at hn'; cases hn'
  rw [hp] at hp'; exact Option.some.inj hp'

/-- **C08.** No call in any execution panics or runs forever. -/
theorem C08_calls_end {s : TS} (h : Reach s) {op : Op} (hl : op.Legal s.abs) :
    (∃ s', s.call op = .ok s') ∨ (∃ e, s.call op = .err e) := by
  rcases call_spec (wf_of_reach h) op hl with ⟨s', a, _⟩ | ⟨e, a, _⟩
  · exact Or.inl ⟨s', a⟩
  · exact Or.inr ⟨e, a⟩

example : sampleTree.tree.nodes.size = 4 ∧ sampleTree.abs.branch (lit "global/main") = some (sampleIDs 2) := by
  decide

/-- The duty to use new IDs is needed: adding a node whose ID is already there gives a node that its parent does not
list. -/
theorem C08_duplicate_id_breaks_tree :
    ∃ s, (TS.call sampleTree (.add (some (sampleIDs 2)) (sampleIDs 3) none none)) = .ok s ∧
      (s.abs.node (sampleIDs 3)).isSome ∧
      ∃ c, (s.heap[(s.get (sampleIDs 1)).getD 0]?).bind (fun o => o.children.get (sampleIDs 3).hex) = some c ∧
        s.get (sampleIDs 3) ≠ some c := by
  exact ⟨_, rfl, by decide, _, rfl, by decide⟩

/-! ## C09 -/

/-- **C09.** Adding under an existing parent: the exact effect. -/
theorem C09_add_child {s : TS} (h : Reach s) {p id : UID} {anno : GoMap Str} {data : GoMap (Option Str)}
    (hl : (Op.add (some p) id anno data).Legal s.abs) (hp : s.abs.Has p) :
    ∃ s', s.call (.add (some p) id anno data) = .ok s' ∧
      s'.abs.node id = some ⟨some p, anno.get, data.get⟩ ∧
      (∀ u, u ≠ id → s'.abs.node u = s.abs.node u) ∧
      s'.abs.root = s.abs.root ∧ (∀ b, s'.abs.branch b = s.abs.branch b) ∧ (∀ t, s'.abs.tag t = s.abs.tag t) := by
  rcases call_spec (wf_of_reach h) _ hl with ⟨s', a, _, c⟩ | ⟨e, a, c⟩
  · generalize ha : s'.abs = x at c
    cases c
    refine ⟨s', a, ?_, ?_, ?_, ?_, ?_⟩ <;> rw [ha] <;> simp [ATree.add]
    intro u hu; exact upd_ne _ _ hu
  · cases c; contradiction

/-- **C09.** Adding the first node makes it the root. -/
theorem C09_add_root {s : TS} (h : Reach s) {id : UID} {anno : GoMap Str} {data : GoMap (Option Str)}
    (hl : (Op.add none id anno data).Legal s.abs) (hr : s.abs.root = none) :
    ∃ s', s.call (.add none id anno data) = .ok s' ∧
      s'.abs.root = some id ∧ s'.abs.node id = some ⟨none, anno.get, data.get⟩ ∧
      (∀ u, u ≠ id → s'.abs.node u = s.abs.node u) ∧
      (∀ b, s'.abs.branch b = s.abs.branch b) ∧ (∀ t, s'.abs.tag t = s.abs.tag t) := by
  rcases call_spec (wf_of_reach h) _ hl with ⟨s', a, _, c⟩ | ⟨e, a, c⟩
  · generalize ha : s'.abs = x at c
    cases c
    refine ⟨s', a, ?_, ?_, ?_, ?_, ?_⟩ <;> rw [ha] <;> simp [ATree.add]
    intro u hu; exact upd_ne _ _ hu
  · cases c; simp_all

/-- **C09.** An unknown parent, or a second root, is refused. A refused call returns no new state. -/
theorem C09_add_refused {s : TS} (h : Reach s) {p : Option UID} {id : UID} {anno : GoMap Str}
    {data : GoMap (Option Str)} (hl : (Op.add p id anno data).Legal s.abs) :
    (s.call (.add p id anno data)).isErr = true ↔
      (p = none ∧ s.abs.root ≠ none) ∨ (∃ q, p = some q ∧ ¬ s.abs.Has q) := by
  rcases call_spec (wf_of_reach h) _ hl with ⟨s', a, _, c⟩ | ⟨e, a, c⟩
  · rw [a]
    simp only [Res.isErr, Bool.false_eq_true, false_iff, not_or, not_and, not_exists]
    generalize s'.abs = x at c
    cases c
    · refine ⟨fun _ => ?_, fun q hq => by simp at hq⟩
      simp_all
    · refine ⟨fun hq => by simp at hq, fun q hq => ?_⟩
      simp at hq; subst hq; simp_all
  · rw [a]
    simp only [Res.isErr, true_iff]
    cases c
    · left; simp_all
    · right; exact ⟨_, rfl, by assumption⟩

/-- **C09.** Once set, the root never changes, whatever calls follow. -/
theorem C09_root_stable {s s' : TS} {op : Op} (h : Reach s) (hl : op.Legal s.abs) (hc : s.call op = .ok s') {r : UID}
    (hr : s.abs.root = some r) : s'.abs.root = some r := by
  rcases call_spec (wf_of_reach h) _ hl with ⟨s1, a, _, c⟩ | ⟨e, a, _⟩
  · rw [a] at hc; cases hc
    generalize ha : s'.abs = x at c
    cases c <;> simp_all [ATree.add, ATree.setTag, ATree.delTag, ATree.setBranch, ATree.delBranch]
  · rw [a] at hc; cases hc

/-- **C09.** Nodes are never removed and never get another parent, whatever calls follow. -/
theorem C09_nodes_stable {s s' : TS} {op : Op} (h : Reach s) (hl : op.Legal s.abs) (hc : s.call op = .ok s') {u : UID}
    {n : ANode} (hn : s.abs.node u = some n) : ∃ n', s'.abs.node u = some n' ∧ n'.parent = n.parent := by
  rcases call_spec (wf_of_reach h) _ hl with ⟨s1, a, _, c⟩ | ⟨e, a, _⟩
  · rw [a] at hc; cases hc
    generalize ha : s'.abs = x at c
    have key : ∀ id nd, ¬ s.abs.Has id → upd s.abs.node id nd u = some n := by
      intro id nd hid
      rw [upd_ne]
      · exact hn
      · rintro rfl; exact hid ⟨n, hn⟩
    cases c with
    | addRoot _ => exact ⟨n, key _ _ hl.1, rfl⟩
    | addChild _ => exact ⟨n, key _ _ hl.1, rfl⟩
    | @annotate id k v nd hnd =>
      by_cases hu : u = id
      · subst hu; rw [hn] at hnd; cases hnd; exact ⟨_, upd_self _ _ _, rfl⟩
      · exact ⟨n, (upd_ne _ _ hu).trans hn, rfl⟩
    | @addData id k v nd hnd =>
      by_cases hu : u = id
      · subst hu; rw [hn] at hnd; cases hnd; exact ⟨_, upd_self _ _ _, rfl⟩
      · exact ⟨n, (upd_ne _ _ hu).trans hn, rfl⟩
    | _ => exact ⟨n, hn, rfl⟩
  · rw [a] at hc; cases hc

example : (Op.add (some (sampleIDs 2)) (sampleIDs 9) none none).Legal sampleTree.abs ∧ sampleTree.abs.Has (sampleIDs 2) := by
  refine ⟨legal_of_legalB (wf_of_reach sampleTree_reach) (by decide), ?_⟩
  exact (abs_has_iff_get (wf_of_reach sampleTree_reach) _).2 ⟨2, by decide⟩

/-! ## C10 -/

/-- **C10.** `AddTag` on a present node: the name resolves to it, nothing else changes. -/
theorem C10_add_tag {s : TS} (h : Reach s) (t : Str) {u : UID} (hu : s.abs.Has u) :
    ∃ s', s.addTag t u = .ok s' ∧ Reach s' ∧ s'.abs.tag t = some u ∧
      (∀ t', t' ≠ t → s'.abs.tag t' = s.abs.tag t') ∧ s'.abs.branch = s.abs.branch ∧ s'.abs.node = s.abs.node ∧
      s'.abs.root = s.abs.root := by
  obtain ⟨s', a, b, c, _⟩ := (addTag_spec (wf_of_reach h) t u).1 hu
  refine ⟨s', a, .ok (op := .addTag t u) h trivial a, ?_, ?_, ?_, ?_, ?_⟩ <;> rw [c] <;> simp [ATree.setTag]
  intro t' ht; exact upd_ne _ _ ht

/-- **C10.** `AddTag` on an unknown node fails. -/
theorem C10_add_tag_unknown {s : TS} (h : Reach s) (t : Str) {u : UID} (hu : ¬ s.abs.Has u) :
    s.addTag t u = .err .nodeNotFound := (addTag_spec (wf_of_reach h) t u).2 hu

/-- **C10.** `DeleteTag` removes the name, reports whether it existed, and changes nothing else. -/
theorem C10_delete_tag {s : TS} (h : Reach s) (t : Str) :
    ((s.deleteTag t).2 = true ↔ ∃ u, s.abs.tag t = some u) ∧ (s.deleteTag t).1.abs.tag t = none ∧
      (∀ t', t' ≠ t → (s.deleteTag t).1.abs.tag t' = s.abs.tag t') ∧
      (s.deleteTag t).1.abs.branch = s.abs.branch ∧ (s.deleteTag t).1.abs.node = s.abs.node ∧
      (s.deleteTag t).1.abs.root = s.abs.root ∧ Reach (s.deleteTag t).1 := by
  obtain ⟨_, b, _, d⟩ := deleteTag_spec (wf_of_reach h) t
  refine ⟨d, ?_, ?_, ?_, ?_, ?_, .ok (op := .deleteTag t) h trivial rfl⟩ <;> rw [b] <;> simp [ATree.delTag]
  intro t' ht; exact upd_ne _ _ ht

example : sampleTree.abs.tag (lit "v1") = some (sampleIDs 2) := by decide

/-! ## C11 -/

/-- **C11.** `AddBranch` on a present node: the name resolves to it, nothing else changes. -/
theorem C11_add_branch {s : TS} (h : Reach s) (b : Str) {u : UID} (hu : s.abs.Has u) :
    ∃ s', s.addBranch b u = .ok s' ∧ Reach s' ∧ s'.abs.branch b = some u ∧
      (∀ b', b' ≠ b → s'.abs.branch b' = s.abs.branch b') ∧ s'.abs.tag = s.abs.tag ∧ s'.abs.node = s.abs.node ∧
      s'.abs.root = s.abs.root := by
  obtain ⟨s', a, _, c, _⟩ := (addBranch_spec (wf_of_reach h) b u).1 hu
  refine ⟨s', a, .ok (op := .addBranch b u) h trivial a, ?_, ?_, ?_, ?_, ?_⟩ <;> rw [c] <;> simp [ATree.setBranch]
  intro t' ht; exact upd_ne _ _ ht

/-- **C11.** `AddBranch` on an unknown node fails. -/
theorem C11_add_branch_unknown {s : TS} (h : Reach s) (b : Str) {u : UID} (hu : ¬ s.abs.Has u) :
    s.addBranch b u = .err .nodeNotFound := (addBranch_spec (wf_of_reach h) b u).2 hu

/-- **C11.** `DeleteBranch` removes the name, reports whether it existed, and changes nothing else. -/
theorem C11_delete_branch {s : TS} (h : Reach s) (b : Str) :
    ((s.deleteBranch b).2 = true ↔ ∃ u, s.abs.branch b = some u) ∧ (s.deleteBranch b).1.abs.branch b = none ∧
      (∀ b', b' ≠ b → (s.deleteBranch b).1.abs.branch b' = s.abs.branch b') ∧
      (s.deleteBranch b).1.abs.tag = s.abs.tag ∧ (s.deleteBranch b).1.abs.node = s.abs.node ∧
      (s.deleteBranch b).1.abs.root = s.abs.root ∧ Reach (s.deleteBranch b).1 := by
  obtain ⟨_, c, _, d⟩ := deleteBranch_spec (wf_of_reach h) b
  refine ⟨d, ?_, ?_, ?_, ?_, ?_, .ok (op := .deleteBranch b) h trivial rfl⟩ <;> rw [c] <;> simp [ATree.delBranch]
  intro t' ht; exact upd_ne _ _ ht

/-! ## C12 -/

/-- **C12.** Without force a branch moves exactly when both exist and the target is its head or a descendant of it; with
force whenever both exist. -/
theorem C12_update_branch_iff {s : TS} (h : Reach s) (b : Str) (u : UID) (force : Bool) :
    (s.updateBranch b u force).isOk = true ↔
      s.abs.Has u ∧ ∃ hd, s.abs.branch b = some hd ∧ (force = true ∨ s.abs.Anc hd u) := by
  obtain ⟨h1, h2, h3, h4⟩ := updateBranch_spec (wf_of_reach h) b u force
  constructor
  · intro hok
    by_cases hu : s.abs.Has u
    · refine ⟨hu, ?_⟩
      cases hb : s.abs.branch b with
      | none => rw [h2 hu hb] at hok; simp at hok
      | some hd =>
        refine ⟨hd, rfl, ?_⟩
        by_cases hc : force = true ∨ s.abs.Anc hd u
        · exact hc
        · simp only [not_or, Bool.not_eq_true] at hc
          rw [h4 hd hu hb hc.1 hc.2] at hok; simp at hok
    · rw [h1 hu] at hok; simp at hok
  · rintro ⟨hu, hd, hb, hc⟩
    obtain ⟨s', a, _⟩ := h3 hd hu hb hc
    rw [a]; rfl

/-- **C12.** On success the head is the target and nothing else changed. -/
theorem C12_update_branch_effect {s s' : TS} (h : Reach s) {b : Str} {u : UID} {force : Bool}
    (hc : s.updateBranch b u force = .ok s') :
    s'.abs.branch b = some u ∧ (∀ b', b' ≠ b → s'.abs.branch b' = s.abs.branch b') ∧ s'.abs.tag = s.abs.tag ∧
      s'.abs.node = s.abs.node ∧ s'.abs.root = s.abs.root ∧ Reach s' := by
  obtain ⟨hu, hd, hb, hcond⟩ := (C12_update_branch_iff h b u force).1 (by rw [hc]; rfl)
  obtain ⟨s1, a, _, c, _⟩ := (updateBranch_spec (wf_of_reach h) b u force).2.2.1 hd hu hb hcond
  rw [hc] at a; cases a
  refine ⟨?_, ?_, ?_, ?_, ?_, .ok (op := .updateBranch b u force) h trivial hc⟩ <;> rw [c] <;> simp [ATree.setBranch]
  intro t' ht; exact upd_ne _ _ ht

/-- **C12.** The check always ends: the call returns or reports an error. -/
theorem C12_update_branch_ends {s : TS} (h : Reach s) (b : Str) (u : UID) (force : Bool) :
    (∃ s', s.updateBranch b u force = .ok s') ∨ (∃ e, s.updateBranch b u force = .err e) :=
  C08_calls_end (op := .updateBranch b u force) h trivial

/-- Both outcomes occur. -/
example : (sampleTree.updateBranch (lit "global/main") (sampleIDs 2) false).isOk = true ∧
    sampleTree.updateBranch (lit "global/main") (sampleIDs 3) false = .err .unreachable ∧
    (sampleTree.updateBranch (lit "global/main") (sampleIDs 3) true).isOk = true := by decide

/-! ## C13 -/

/-- **C13.** Every tag and branch points to a node that `Get` finds, under its own ID. -/
theorem C13_no_dangling {s : TS} (h : Reach s) {n : Str} {r : Ref}
    (hr : s.getByTag n = some r ∨ s.getByBranch n = some r) :
    ∃ o, s.heap[r]? = some o ∧ s.get o.id = some r := by
  rcases hr with hr | hr
  · exact (wf_of_reach h).tg n r hr
  · exact (wf_of_reach h).br n r hr

example : sampleTree.getByTag (lit "v1") = some 2 ∧ sampleTree.getByBranch (lit "global/main") = some 2 := by decide

/-! ## C14 -/

/-- Specification: the key spells the ID `u`, in hex of either case or in base32. -/
def Spells (key : Str) (u : UID) : Prop :=
  (key.length = 32 ∧ (∀ c ∈ key, c ∈ hexChars) ∧ u.hex = key.map Hex.lower) ∨
  (key.length = 26 ∧ (∀ c ∈ key, c ∈ base32Chars) ∧ u.base32 = key.take 25 ++ [canonLast (key.getD 25 0)])

theorem searchID_ok_iff (key : Str) (u : UID) : (TS.searchID key : Res Empty (Option UID)) = .ok (some u) ↔ Spells key u := by
  unfold TS.searchID Spells
  rw [← C04_hex_decode_iff, ← C05_base32_decode_iff]
  cases hd : UID.decodeHex key with
  | ok v =>
    have hl := ((C04_hex_decode_iff key v).1 hd).1
    simp only [Res.ok.injEq, Option.some.injEq]
    constructor
    · intro h; exact Or.inl h
    · rintro (h | h)
      · exact h
      · have := ((C05_base32_decode_iff key u).1 h).1; omega
  | err e =>
    simp only [reduceCtorEq, false_or]
    cases UID.decodeBase32 key <;> simp
  | panic => rcases C04_hex_decode_total key with ⟨v, hv⟩ | ⟨e, he⟩ <;> simp_all
  | diverge => rcases C04_hex_decode_total key with ⟨v, hv⟩ | ⟨e, he⟩ <;> simp_all

/-- What `Search` shows of its result: the ID of the node and the reported type. -/
def TS.searchView (s : TS) (key : Str) : Res Empty (Option (UID × KeyType)) :=
  (s.search key).bind fun x => .ok (x.bind fun rk => (idAt s.heap rk.1).map fun u => (u, rk.2))

/-- **C14.** An ID of a node, in any spelling, wins over every tag and branch. -/
theorem C14_search_id {s : TS} (h : Reach s) {key : Str} {u : UID} (hk : Spells key u) (hu : s.abs.Has u) :
    s.searchView key = .ok (some (u, .commit)) := by
  have h1 : (TS.searchID key : Res Empty (Option UID)) = .ok (some u) := (searchID_ok_iff key u).2 hk
  obtain ⟨r, o, ho, hi, rfl⟩ := (abs_has_iff (wf_of_reach h) u).1 hu
  simp [TS.searchView, TS.search, h1, TS.get, hi, idAt, ho]

theorem spells_unique {key : Str} {u v : UID} (h1 : Spells key u) (h2 : Spells key v) : u = v := by
  have a := (searchID_ok_iff key u).2 h1
  have b := (searchID_ok_iff key v).2 h2
  rw [a] at b; simpa using b

theorem searchID_not_diverge (key : Str) : (TS.searchID key : Res Empty (Option UID)) ≠ .diverge := by
  unfold TS.searchID
  rcases C04_hex_decode_total key with ⟨v, hv⟩ | ⟨e, he⟩
  · simp [hv]
  · simp only [he]
    unfold UID.decodeBase32 UID.ofSlice
    by_cases h1 : key.length ≠ 26
    · simp [h1]
    · simp only [h1, if_false]
      cases Base32.decode key with
      | none => simp
      | some b => by_cases h2 : 16 ≤ b.length <;> simp [h2]

/-- Reading the key as an ID in base32 does not crash. For which keys it does is C05: they have 26 bytes, among them a line break or
the byte 0xFF. -/
def PlainKey (key : Str) : Prop := UID.decodeBase32 key ≠ .panic

theorem plainKey_bytes {key : Str} (hn : (10 : UInt8) ∉ key) (hr : (13 : UInt8) ∉ key) (hf : (0xFF : UInt8) ∉ key) : PlainKey key :=
  C05_base32_no_panic_partial key hn hr hf

theorem plainKey_length {key : Str} (h : key.length ≠ 26) : PlainKey key := by
  unfold PlainKey UID.decodeBase32
  rw [if_pos h]
  nofun

theorem searchID_plain {key : Str} (hp : PlainKey key) :
    ∃ x, (TS.searchID key : Res Empty (Option UID)) = .ok x := by
  have hb := hp
  have hd := searchID_not_diverge key
  unfold TS.searchID at hd ⊢
  rcases C04_hex_decode_total key with ⟨v, hv⟩ | ⟨e, he⟩
  · exact ⟨_, by simp only [hv]; rfl⟩
  · simp only [he] at hd ⊢
    cases hx : UID.decodeBase32 key with
    | ok v => exact ⟨_, rfl⟩
    | err e => exact ⟨_, rfl⟩
    | panic => exact absurd hx hb
    | diverge => simp [hx] at hd

/-- Any other key crashes the search, whatever the tree is. -/
theorem searchID_odd {ε : Type} {key : Str} (hp : ¬ PlainKey key) : (TS.searchID key : Res ε (Option UID)) = .panic := by
  have hb : UID.decodeBase32 key = .panic := Classical.not_not.1 hp
  unfold TS.searchID
  rcases C04_hex_decode_total key with ⟨v, hv⟩ | ⟨e, he⟩
  · have h1 := ((C04_hex_decode_iff key v).1 hv).1
    exact absurd (plainKey_length (by omega)) hp
  · simp only [he, hb]

/-- **C14.** When the key is no ID of a node: tags, then branches, then nothing. -/
theorem C14_search_names {s : TS} (h : Reach s) {key : Str} (hp : PlainKey key)
    (hno : ∀ u, Spells key u → ¬ s.abs.Has u) :
    s.searchView key = .ok (match s.abs.tag key, s.abs.branch key with
      | some u, _ => some (u, .tag)
      | none, some u => some (u, .branch)
      | none, none => none) := by
  have hw := wf_of_reach h
  obtain ⟨x, hx⟩ := searchID_plain hp
  have hnone : x.bind s.get = none := by
    cases x with
    | none => rfl
    | some u =>
      have := hno u ((searchID_ok_iff key u).1 hx)
      cases hg : s.get u with
      | none => exact hg
      | some r => exact absurd ((abs_has_iff_get hw u).2 ⟨r, hg⟩) this
  simp only [TS.searchView, TS.search, hx, Res.bind, hnone]
  cases ht : s.getByTag key with
  | some r =>
    obtain ⟨o, ho, _⟩ := hw.tg key r ht
    simp [abs, ht, idAt, ho]
  | none =>
    cases hb : s.getByBranch key with
    | some r =>
      obtain ⟨o, ho, _⟩ := hw.br key r hb
      simp [abs, ht, hb, idAt, ho]
    | none => simp [abs, ht, hb]

/-- **C14** does not hold on every key: a 26-byte key with a line break crashes the program (the defect of C05). -/
theorem C14_violated_newline (s : TS) :
    (s.search (lit "AAAQEAYEAUDAOCAJBIFQYDIOB\n") : Res Empty _) = .panic := by
  have : (TS.searchID (lit "AAAQEAYEAUDAOCAJBIFQYDIOB\n") : Res Empty (Option UID)) = .panic := by decide
  simp [TS.search, this]

example : sampleTree.searchView (lit "00000000000000000000000000000002") = .ok (some (sampleIDs 2, .commit)) ∧
    sampleTree.searchView (lit "v1") = .ok (some (sampleIDs 2, .tag)) ∧
    sampleTree.searchView (lit "global/main") = .ok (some (sampleIDs 2, .branch)) ∧
    sampleTree.searchView (lit "nope") = .ok none := by decide

end Verif
