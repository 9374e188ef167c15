import Verif.Ws.Model
import Verif.Props.Branch
import Verif.Props.Tree
/-!
# C21-C26: listings, history and names in a workspace
-/
set_option autoImplicit false
namespace Verif
open TS BranchInfo

/-! ## Sorting -/

section Sorting
variable {α : Type} {less : α → α → Bool} {key : α → Str}

theorem sortsTo_iff (hl : ∀ a b, less a b = strLt (key a) (key b)) (l out : List α) :
    SortsTo less l out ↔ out.Perm l ∧ Sorted key out := by
  simp only [SortsTo, Sorted, strLe, hl, Bool.not_eq_true']

theorem sortsTo_exists (hl : ∀ a b, less a b = strLt (key a) (key b)) (l : List α) : ∃ out, SortsTo less l out :=
  ⟨sortBy key l, (sortsTo_iff hl _ _).2 ⟨sortBy_perm key l, sorted_sortBy key l⟩⟩

theorem sortsTo_unique (hl : ∀ a b, less a b = strLt (key a) (key b)) {l l' out out' : List α} (hp : l.Perm l')
    (hn : (l.map key).Nodup) (h : SortsTo less l out) (h' : SortsTo less l' out') : out = out' := by
  rw [sortsTo_iff hl] at h h'
  have hp' : out.Perm out' := h.1.trans (hp.trans h'.1.symm)
  exact sorted_unique key hp' ((h.1.map key).nodup_iff.2 hn) h.2 h'.2

theorem sortsTo_strict (hl : ∀ a b, less a b = strLt (key a) (key b)) {l out : List α}
    (hn : (l.map key).Nodup) (h : SortsTo less l out) : out.Pairwise fun a b => strLt (key a) (key b) = true := by
  have hn' : (out.map key).Nodup := (h.1.map key).nodup_iff.2 hn
  have h2 := h.2
  rw [List.nodup_iff_pairwise_ne, List.pairwise_map] at hn'
  refine (List.Pairwise.and hn' h2).imp ?_
  rintro a b ⟨hne, hab⟩
  rw [hl] at hab
  rcases strLt_total hne with h | h
  · exact h
  · rw [h] at hab; cases hab

theorem nodup_filterMap_key {β : Type} {l : List (Str × β)} {f : Str × β → Option α} (hn : (AL.keys l).Nodup)
    (hf : ∀ e e' x y, f e = some x → f e' = some y → key x = key y → e.1 = e'.1) : ((l.filterMap f).map key).Nodup := by
  rw [List.nodup_iff_pairwise_ne, List.pairwise_map, List.pairwise_filterMap]
  rw [AL.keys, List.nodup_iff_pairwise_ne, List.pairwise_map] at hn
  refine hn.imp ?_
  intro e e' hne x hx y hy hk
  exact hne (hf e e' x y hx hy hk)

end Sorting

/-! ## The hypotheses on a workspace and its tree -/

/-- Every branch of the tree has been stored under the full name of some branch. All commands store them so. -/
def ATree.ProperNames (a : ATree) : Prop := ∀ n u, a.branch n = some u → ∃ b : BranchInfo, n = b.fullName

/-- The head of the workspace is the node `u` with parent `p`. -/
def Ws.HeadAt (s : TS) (w : Ws) (u p : UID) : Prop :=
  s.get u = some w.head ∧ ∃ n, s.abs.node u = some n ∧ n.parent = some p

namespace Ws

theorem parse_full_iff (c b : BranchInfo) : parseFullName c.fullName = .ok b ↔ c = b ∧ (10 : UInt8) ∉ b.name := by
  by_cases h : (10 : UInt8) ∈ c.name
  · rw [C20_violated_newline c h]
    constructor
    · intro h; cases h
    · rintro ⟨rfl, h2⟩; exact absurd h h2
  · rw [C20_parse_full_name_partial c h]
    constructor
    · intro h2; cases h2; exact ⟨rfl, h⟩
    · rintro ⟨rfl, _⟩; rfl

theorem parse_of_proper {a : ATree} (hp : a.ProperNames) {n : Str} {u : UID} (hn : a.branch n = some u) {b : BranchInfo} :
    parseFullName n = .ok b ↔ n = b.fullName ∧ (10 : UInt8) ∉ b.name := by
  obtain ⟨c, rfl⟩ := hp n u hn
  rw [parse_full_iff]
  constructor
  · rintro ⟨rfl, h⟩; exact ⟨rfl, h⟩
  · rintro ⟨h, h2⟩; exact ⟨C20_full_name_injective h, h2⟩

theorem pickAll_iff (w : Ws) (e : Str × Ref) (x : HBranch) :
    w.pickAll e = some x ↔ parseFullName e.1 = .ok x.info ∧ e.2 = x.head ∧ (x.info.ws = none ∨ x.info.ws = some w.id) := by
  obtain ⟨b, r⟩ := x
  unfold pickAll
  cases hp : parseFullName e.1 with
  | ok c =>
    simp only [Res.ok.injEq]
    cases hw : c.ws with
    | none =>
      simp only [Option.some.injEq, HBranch.mk.injEq]
      constructor
      · rintro ⟨rfl, h⟩; exact ⟨rfl, h, Or.inl hw⟩
      · rintro ⟨rfl, h, _⟩; exact ⟨rfl, h⟩
    | some v =>
      simp only
      split
      · rename_i hv
        have hv := C03_base32_injective hv
        subst hv
        simp only [Option.some.injEq, HBranch.mk.injEq]
        constructor
        · rintro ⟨rfl, h⟩; exact ⟨rfl, h, Or.inr hw⟩
        · rintro ⟨rfl, h, _⟩; exact ⟨rfl, h⟩
      · rename_i hv
        constructor
        · intro h; cases h
        · rintro ⟨rfl, h, h2⟩
          rw [hw] at h2
          rcases h2 with h2 | h2 <;> cases h2
          exact absurd rfl hv
  | _ => simp

theorem pickLocal_iff (w : Ws) (e : Str × Ref) (x : HBranch) :
    w.pickLocal e = some x ↔ parseFullName e.1 = .ok x.info ∧ e.2 = x.head ∧ x.info.ws = some w.id := by
  obtain ⟨b, r⟩ := x
  unfold pickLocal
  cases hp : parseFullName e.1 with
  | ok c =>
    simp only [Res.ok.injEq]
    cases hw : c.ws with
    | none =>
      constructor
      · intro h; cases h
      · rintro ⟨rfl, h, h2⟩; rw [hw] at h2; cases h2
    | some v =>
      simp only
      split
      · rename_i hv
        have hv := C03_base32_injective hv
        subst hv
        simp only [Option.some.injEq, HBranch.mk.injEq]
        constructor
        · rintro ⟨rfl, h⟩; exact ⟨rfl, h, hw⟩
        · rintro ⟨rfl, h, _⟩; exact ⟨rfl, h⟩
      · rename_i hv
        constructor
        · intro h; cases h
        · rintro ⟨rfl, h, h2⟩
          rw [hw] at h2
          cases h2
          exact absurd rfl hv
  | _ => simp

theorem pickRemote_iff (e : Str × Ref) (x : HBranch) :
    pickRemote e = some x ↔ parseFullName e.1 = .ok x.info ∧ e.2 = x.head ∧ x.info.ws = none := by
  obtain ⟨b, r⟩ := x
  unfold pickRemote
  cases hp : parseFullName e.1 with
  | ok c =>
    simp only [Res.ok.injEq]
    cases hw : c.ws with
    | none =>
      simp only [Option.some.injEq, HBranch.mk.injEq]
      constructor
      · rintro ⟨rfl, h⟩; exact ⟨rfl, h, hw⟩
      · rintro ⟨rfl, h, _⟩; exact ⟨rfl, h⟩
    | some v =>
      constructor
      · intro h; cases h
      · rintro ⟨rfl, h, h2⟩; rw [hw] at h2; cases h2
  | _ => simp

/-! ## C21 -/

/-- What a listing shows: branches with the IDs of their heads. -/
def Shows (s : TS) (out : List HBranch) (b : BranchInfo) (u : UID) : Prop :=
  ∃ x ∈ out, x.info = b ∧ idAt s.heap x.head = some u

/-- What is wanted of a listing of the branches that satisfy `P`, ordered by `lt`. -/
structure Listing (s : TS) (P : BranchInfo → Prop) (lt : BranchInfo → BranchInfo → Prop) (out : List HBranch) : Prop where
  /-- A branch is shown with exactly its current head, and nothing else is shown. -/
  exact : ∀ b u, Shows s out b u ↔ P b ∧ s.abs.branch b.fullName = some u
  /-- Every line shows a branch with its head. -/
  head : ∀ x ∈ out, ∃ u, idAt s.heap x.head = some u
  /-- The order is strict, so that no branch is shown twice. -/
  order : out.Pairwise fun x y => lt x.info y.info

/-- Byte order of names. -/
def ByName (a b : BranchInfo) : Prop := strLt a.name b.name = true
/-- Local branches first, then byte order of names. -/
def LocalFirst (a b : BranchInfo) : Prop :=
  (a.ws.isSome = true ∧ b.ws = none) ∨ (a.ws.isSome = b.ws.isSome ∧ strLt a.name b.name = true)

/-- A sort key for `lessAll`. -/
def allKey (x : HBranch) : Str := (if x.info.ws.isSome then 0 else 1) :: x.info.name

theorem lessAll_key (a b : HBranch) : lessAll a b = strLt (allKey a) (allKey b) := by
  obtain ⟨⟨aw, an⟩, ar⟩ := a
  obtain ⟨⟨bw, bn⟩, br⟩ := b
  cases aw <;> cases bw <;> simp [lessAll, allKey, isLocal, isGlobal, strLt]

theorem listing_of_pick {s : TS} (h : WF s) (hn : s.abs.ProperNames) {P : BranchInfo → Prop}
    {lt : BranchInfo → BranchInfo → Prop} {pick : Str × Ref → Option HBranch} {less : HBranch → HBranch → Bool}
    {key : HBranch → Str} (hl : ∀ a b, less a b = strLt (key a) (key b))
    (hpick : ∀ e x, pick e = some x ↔ parseFullName e.1 = .ok x.info ∧ e.2 = x.head ∧ P x.info)
    (hkey : ∀ x y, P x.info → P y.info → key x = key y → x.info = y.info)
    (hlt : ∀ x y, P x.info → P y.info → strLt (key x) (key y) = true → lt x.info y.info) :
    (∃ order out, Ranges s.tree.branches order ∧ SortsTo less (order.filterMap pick) out) ∧
    (∀ order out, Ranges s.tree.branches order → SortsTo less (order.filterMap pick) out →
      Listing s (fun b => P b ∧ (10 : UInt8) ∉ b.name) lt out) ∧
    (∀ order out order' out', Ranges s.tree.branches order → SortsTo less (order.filterMap pick) out →
      Ranges s.tree.branches order' → SortsTo less (order'.filterMap pick) out' → out = out') := by
  have hent : ∀ k r, (k, r) ∈ s.tree.branches.entries → ∃ u, s.abs.branch k = some u ∧ idAt s.heap r = some u := by
    intro k r hm
    have hg := (GoMap.mem_iff_get h.branchesNd).1 hm
    obtain ⟨o, ho, _⟩ := h.br k r hg
    exact ⟨o.id, by simp [abs, getByBranch, hg, idAt, ho], by simp [idAt, ho]⟩
  have hpk : ∀ e x, e ∈ s.tree.branches.entries → pick e = some x → e.1 = x.info.fullName ∧ (10 : UInt8) ∉ x.info.name ∧
      e.2 = x.head ∧ P x.info := by
    intro e x hm hx
    obtain ⟨u, hu, _⟩ := hent e.1 e.2 hm
    obtain ⟨h1, h2, h3⟩ := (hpick e x).1 hx
    obtain ⟨h4, h5⟩ := (parse_of_proper hn hu).1 h1
    exact ⟨h4, h5, h2, h3⟩
  have hnd : ((s.tree.branches.entries.filterMap pick).map key).Nodup := by
    have hb := h.branchesNd
    unfold GoMap.Nodup at hb
    rw [List.nodup_iff_pairwise_ne, List.pairwise_map, List.pairwise_filterMap]
    rw [AL.keys, List.nodup_iff_pairwise_ne, List.pairwise_map] at hb
    refine hb.imp_of_mem ?_
    intro e e' he he' hne x hx y hy hk
    obtain ⟨a1, a2, a3, a4⟩ := hpk e x he hx
    obtain ⟨b1, b2, b3, b4⟩ := hpk e' y he' hy
    exact hne (by rw [a1, b1, hkey x y a4 b4 hk])
  refine ⟨?_, ?_, ?_⟩
  · obtain ⟨out, ho⟩ := sortsTo_exists hl (s.tree.branches.entries.filterMap pick)
    exact ⟨_, out, List.Perm.refl _, ho⟩
  · intro order out ho hs
    have hperm : (order.filterMap pick).Perm (s.tree.branches.entries.filterMap pick) := List.Perm.filterMap _ ho
    have hmem : ∀ x, x ∈ out ↔ ∃ e ∈ s.tree.branches.entries, pick e = some x := by
      intro x
      rw [hs.1.mem_iff, hperm.mem_iff, List.mem_filterMap]
    constructor
    · intro b u
      constructor
      · rintro ⟨x, hx, rfl, hid⟩
        obtain ⟨e, he, hp⟩ := (hmem x).1 hx
        obtain ⟨a1, a2, a3, a4⟩ := hpk e x he hp
        obtain ⟨u', hu', hid'⟩ := hent e.1 e.2 he
        rw [a3, hid] at hid'
        cases hid'
        exact ⟨⟨a4, a2⟩, a1 ▸ hu'⟩
      · rintro ⟨⟨hP, hnl⟩, hb⟩
        have hb' := hb
        simp only [abs, getByBranch, Option.bind_eq_some_iff] at hb'
        obtain ⟨r, hr, hid⟩ := hb'
        refine ⟨⟨b, r⟩, (hmem _).2 ⟨(b.fullName, r), GoMap.mem_of_get hr, (hpick _ _).2 ⟨?_, rfl, hP⟩⟩, rfl, hid⟩
        exact C20_parse_full_name_partial b hnl
    · intro x hx
      obtain ⟨e, he, hp⟩ := (hmem x).1 hx
      obtain ⟨_, _, a3, _⟩ := hpk e x he hp
      obtain ⟨u', _, hid'⟩ := hent e.1 e.2 he
      exact ⟨u', a3 ▸ hid'⟩
    · have := sortsTo_strict hl ((hperm.map key).nodup_iff.2 hnd) hs
      refine this.imp_of_mem ?_
      intro x y hx hy hxy
      obtain ⟨e, he, hp⟩ := (hmem x).1 hx
      obtain ⟨e', he', hp'⟩ := (hmem y).1 hy
      exact hlt x y (hpk e x he hp).2.2.2 (hpk e' y he' hp').2.2.2 hxy
  · intro order out order' out' ho hs ho' hs'
    have hperm : (order.filterMap pick).Perm (s.tree.branches.entries.filterMap pick) := List.Perm.filterMap _ ho
    have hperm' : (order'.filterMap pick).Perm (s.tree.branches.entries.filterMap pick) := List.Perm.filterMap _ ho'
    exact sortsTo_unique hl (hperm.trans hperm'.symm) ((hperm.map key).nodup_iff.2 hnd) hs hs'

theorem allKey_lt {w : UID} (x y : HBranch) (hx : x.info.ws = none ∨ x.info.ws = some w)
    (hy : y.info.ws = none ∨ y.info.ws = some w) (h : strLt (allKey x) (allKey y) = true) : LocalFirst x.info y.info := by
  obtain ⟨⟨aw, an⟩, ar⟩ := x
  obtain ⟨⟨bw, bn⟩, br⟩ := y
  cases aw <;> cases bw <;> simp_all [LocalFirst, allKey, strLt]

/-- **C21 (partial).** What `AllBranches` shows: exactly the branches of this workspace and the global ones with their
heads, local ones first, by name, each once, in every iteration order of the map. Missing from the full claim: branches
whose name contains a line feed (see `C21_violated_newline`). -/
theorem C21_all_branches_partial {s : TS} (h : WF s) (hn : s.abs.ProperNames) (w : Ws) :
    (∃ out, w.AllBranches s out) ∧
    ∀ out, w.AllBranches s out →
      Listing s (fun b => (b.ws = none ∨ b.ws = some w.id) ∧ (10 : UInt8) ∉ b.name) LocalFirst out ∧
      ∀ out', w.AllBranches s out' → out' = out := by
  obtain ⟨h1, h2, h3⟩ := listing_of_pick (P := fun b => b.ws = none ∨ b.ws = some w.id) (lt := LocalFirst) h hn
    lessAll_key (pickAll_iff w) (by
      rintro ⟨⟨aw, an⟩, ar⟩ ⟨⟨bw, bn⟩, br⟩ hx hy hk
      cases aw <;> cases bw <;> simp_all [allKey]) (fun x y hx hy => allKey_lt x y hx hy)
  refine ⟨?_, ?_⟩
  · obtain ⟨order, out, a, b⟩ := h1; exact ⟨out, order, a, b⟩
  · rintro out ⟨order, a, b⟩
    refine ⟨h2 order out a b, ?_⟩
    rintro out' ⟨order', a', b'⟩
    exact h3 _ _ _ _ a' b' a b

/-- **C21 (partial).** `LocalBranches` shows exactly the branches of this workspace. -/
theorem C21_local_branches_partial {s : TS} (h : WF s) (hn : s.abs.ProperNames) (w : Ws) :
    (∃ out, w.LocalBranches s out) ∧
    ∀ out, w.LocalBranches s out →
      Listing s (fun b => b.ws = some w.id ∧ (10 : UInt8) ∉ b.name) ByName out ∧
      ∀ out', w.LocalBranches s out' → out' = out := by
  obtain ⟨h1, h2, h3⟩ := listing_of_pick (P := fun b => b.ws = some w.id) (lt := ByName) (less := lessName)
    (key := fun x => x.info.name) h hn (fun _ _ => rfl) (pickLocal_iff w) (by
      rintro ⟨⟨aw, an⟩, ar⟩ ⟨⟨bw, bn⟩, br⟩ hx hy hk
      simp_all) (fun x y _ _ h => h)
  refine ⟨?_, ?_⟩
  · obtain ⟨order, out, a, b⟩ := h1; exact ⟨out, order, a, b⟩
  · rintro out ⟨order, a, b⟩
    refine ⟨h2 order out a b, ?_⟩
    rintro out' ⟨order', a', b'⟩
    exact h3 _ _ _ _ a' b' a b

/-- **C21 (partial).** `RemoteBranches` shows exactly the global branches. -/
theorem C21_remote_branches_partial {s : TS} (h : WF s) (hn : s.abs.ProperNames) :
    (∃ out, RemoteBranches s out) ∧
    ∀ out, RemoteBranches s out →
      Listing s (fun b => b.ws = none ∧ (10 : UInt8) ∉ b.name) ByName out ∧
      ∀ out', RemoteBranches s out' → out' = out := by
  obtain ⟨h1, h2, h3⟩ := listing_of_pick (P := fun b => b.ws = none) (lt := ByName) (less := lessName)
    (key := fun x => x.info.name) h hn (fun _ _ => rfl) pickRemote_iff (by
      rintro ⟨⟨aw, an⟩, ar⟩ ⟨⟨bw, bn⟩, br⟩ hx hy hk
      simp_all) (fun x y _ _ h => h)
  refine ⟨?_, ?_⟩
  · obtain ⟨order, out, a, b⟩ := h1; exact ⟨out, order, a, b⟩
  · rintro out ⟨order, a, b⟩
    refine ⟨h2 order out a b, ?_⟩
    rintro out' ⟨order', a', b'⟩
    exact h3 _ _ _ _ a' b' a b

/-- **C21.** No listing of a workspace ever shows a branch of another workspace. This needs no hypothesis on names. -/
theorem C21_isolated {s : TS} (w : Ws) {out : List HBranch} {x : HBranch} (hx : x ∈ out) {v : UID} (hv : x.info.ws = some v) :
    (w.AllBranches s out → v = w.id) ∧ (w.LocalBranches s out → v = w.id) ∧ ¬ RemoteBranches s out := by
  refine ⟨?_, ?_, ?_⟩
  · rintro ⟨order, _, hs⟩
    obtain ⟨e, _, he⟩ := List.mem_filterMap.1 (hs.1.mem_iff.1 hx)
    obtain ⟨_, _, h3⟩ := (pickAll_iff w e x).1 he
    rw [hv] at h3
    rcases h3 with h3 | h3 <;> cases h3
    rfl
  · rintro ⟨order, _, hs⟩
    obtain ⟨e, _, he⟩ := List.mem_filterMap.1 (hs.1.mem_iff.1 hx)
    obtain ⟨_, _, h3⟩ := (pickLocal_iff w e x).1 he
    rw [hv] at h3
    cases h3
    rfl
  · rintro ⟨order, _, hs⟩
    obtain ⟨e, _, he⟩ := List.mem_filterMap.1 (hs.1.mem_iff.1 hx)
    obtain ⟨_, _, h3⟩ := (pickRemote_iff e x).1 he
    rw [hv] at h3
    cases h3

/-- **C21 is violated** for names with a line feed: such a branch exists, is never listed, and yet can be used. -/
theorem C21_violated_newline {s : TS} (h : WF s) (hn : s.abs.ProperNames) (w : Ws) (name : Str) (hnl : (10 : UInt8) ∈ name)
    (u : UID) (_ : s.abs.branch (fullName ⟨some w.id, name⟩) = some u) {out : List HBranch} :
    (w.AllBranches s out ∨ w.LocalBranches s out) → ¬ ∃ v, Shows s out ⟨some w.id, name⟩ v := by
  rintro hl ⟨v, hv⟩
  rcases hl with hl | hl
  · have := (((C21_all_branches_partial h hn w).2 out hl).1.exact _ _).1 hv
    exact this.1.2 hnl
  · have := (((C21_local_branches_partial h hn w).2 out hl).1.exact _ _).1 hv
    exact this.1.2 hnl

/-! ## C22 -/

/-- **C22.** `Tags` shows every tag but ROOT, once, in byte order, in every iteration order of the map. -/
theorem C22_tags {s : TS} (h : WF s) :
    (∃ out, Tags s out) ∧
    ∀ out, Tags s out →
      (∀ t, t ∈ out ↔ t ≠ lit "ROOT" ∧ ∃ u, s.abs.tag t = some u) ∧
      out.Pairwise (fun a b => strLt a b = true) ∧
      ∀ out', Tags s out' → out' = out := by
  let f : List (Str × Ref) → List Str := fun l => (l.map Prod.fst).filter fun t => t ≠ rootTag
  have hperm : ∀ {order : List (Str × Ref)}, Ranges s.tree.tags order → (f order).Perm (f s.tree.tags.entries) :=
    fun ho => (List.Perm.map _ ho).filter _
  have hnd : (f s.tree.tags.entries).Nodup := List.Nodup.sublist List.filter_sublist h.tagsNd
  have hl : ∀ a b : Str, strLt a b = strLt (_root_.id a) (_root_.id b) := fun _ _ => rfl
  have hmem : ∀ t, t ∈ f s.tree.tags.entries ↔ t ≠ lit "ROOT" ∧ ∃ u, s.abs.tag t = some u := by
    intro t
    rw [abs_tag_iff h]
    simp only [f, List.mem_filter, decide_eq_true_iff]
    rw [and_comm]
    refine and_congr_right fun _ => ?_
    exact AL.mem_keys_iff (l := s.tree.tags.entries)
  by_cases hz : s.tree.tags.size = 0
  · have he : s.tree.tags.entries = [] := List.length_eq_zero_iff.1 hz
    refine ⟨⟨[], _, List.Perm.refl _, by simp [hz]⟩, ?_⟩
    rintro out ⟨order, _, hs⟩
    rw [if_pos hz] at hs
    subst hs
    refine ⟨fun t => ?_, List.Pairwise.nil, ?_⟩
    · rw [← hmem, he]; simp [f]
    · rintro out' ⟨_, _, hs'⟩; rw [if_pos hz] at hs'; exact hs'
  · refine ⟨?_, ?_⟩
    · obtain ⟨out, ho⟩ := sortsTo_exists hl (f s.tree.tags.entries)
      exact ⟨out, _, List.Perm.refl _, by rw [if_neg hz]; exact ho⟩
    · rintro out ⟨order, ho, hs⟩
      rw [if_neg hz] at hs
      refine ⟨fun t => ?_, ?_, ?_⟩
      · rw [hs.1.mem_iff, ← hmem]; exact (hperm ho).mem_iff
      · exact sortsTo_strict hl (by rw [List.map_id]; exact (hperm ho).nodup_iff.2 hnd) hs
      · rintro out' ⟨order', ho', hs'⟩
        rw [if_neg hz] at hs'
        exact sortsTo_unique hl ((hperm ho').trans (hperm ho).symm) (by rw [List.map_id]; exact (hperm ho').nodup_iff.2 hnd) hs' hs

/-! ## C26 -/

/-- What a reference means in a workspace `wid` whose last commit is `last`. -/
inductive Resolves (a : ATree) (wid last : UID) : Str → UID → KeyType → Prop where
  /-- HEAD is the last commit. -/
  | head : Resolves a wid last (lit "HEAD") last .commit
  /-- The ID of a node, in any spelling. -/
  | id {ref : Str} {u : UID} : ref ≠ lit "HEAD" → Spells ref u → a.Has u → Resolves a wid last ref u .commit
  /-- A tag, unless it is the ID of a node. -/
  | tag {ref : Str} {u : UID} : ref ≠ lit "HEAD" → (∀ v, Spells ref v → ¬ a.Has v) → a.tag ref = some u →
      Resolves a wid last ref u .tag
  /-- The full name of a branch. -/
  | full {ref : Str} {u : UID} : ref ≠ lit "HEAD" → (∀ v, Spells ref v → ¬ a.Has v) → a.tag ref = none →
      a.branch ref = some u → Resolves a wid last ref u .branch
  /-- A branch of this workspace. -/
  | own {ref : Str} {u : UID} : ref ≠ lit "HEAD" → (∀ v, Spells ref v → ¬ a.Has v) → a.tag ref = none →
      a.branch ref = none → a.branch (wid.base32 ++ lit "/" ++ ref) = some u → Resolves a wid last ref u .branch
  /-- A global branch, written `origin/name`. -/
  | global {ref name : Str} {u : UID} : ref ≠ lit "HEAD" → (∀ v, Spells ref v → ¬ a.Has v) → a.tag ref = none →
      a.branch ref = none → a.branch (wid.base32 ++ lit "/" ++ ref) = none → ref = lit "origin/" ++ name →
      a.branch (lit "global/" ++ name) = some u → Resolves a wid last ref u .branch

theorem resolves_unique {a : ATree} {wid last u v : UID} {ref : Str} {k l : KeyType} (h : Resolves a wid last ref u k)
    (h' : Resolves a wid last ref v l) : u = v ∧ k = l := by
  cases h <;> cases h' <;> try (exact ⟨rfl, rfl⟩)
  all_goals first
    | (rename_i h1 _ _ ; exact absurd rfl h1)
    | skip
  all_goals simp_all
  all_goals exact spells_unique ‹Spells ref u› ‹Spells ref v›

theorem headAt_obj {s : TS} (h : WF s) {w : Ws} {u p : UID} (hh : w.HeadAt s u p) :
    ∃ o q po, s.heap[w.head]? = some o ∧ o.id = u ∧ s.tree.nodes.get o.id.hex = some w.head ∧ o.parent = some q ∧
      s.heap[q]? = some po ∧ po.id = p ∧ s.tree.nodes.get po.id.hex = some q := by
  obtain ⟨hg, n, hn, hp⟩ := hh
  obtain ⟨r, o, ho, hi, rfl, rfl⟩ := (abs_node_iff h u n).1 hn
  have : r = w.head := by rw [TS.get, hi] at hg; exact Option.some.inj hg
  subst this
  obtain ⟨q, qo, a, b, c, d, _⟩ := (abs_parent_iff h ho hi p).1 hp
  exact ⟨o, q, qo, ho, rfl, hi, a, b, c, d⟩

theorem searchID_poly {ε : Type} (key : Str) {x : Option UID} (h : (TS.searchID key : Res Empty _) = .ok x) :
    (TS.searchID key : Res ε _) = .ok x := by
  unfold TS.searchID at h ⊢
  split <;> simp_all
  split <;> simp_all

theorem branch_in {s : TS} (h : WF s) {b : Str} {r : Ref} (hb : s.tree.branches.get b = some r) :
    ∃ o, s.heap[r]? = some o ∧ s.tree.nodes.get o.id.hex = some r ∧ s.abs.branch b = some o.id := by
  obtain ⟨o, ho, hi⟩ := h.br b r hb
  exact ⟨o, ho, hi, by simp [abs, getByBranch, hb, idAt, ho]⟩

theorem branch_none {s : TS} (h : WF s) {b : Str} : s.abs.branch b = none ↔ s.tree.branches.get b = none := by
  cases hb : s.tree.branches.get b with
  | none => simp [abs, getByBranch, hb]
  | some r => obtain ⟨o, _, _, hx⟩ := branch_in h hb; simp [hx]

theorem tag_in {s : TS} (h : WF s) {b : Str} {r : Ref} (hb : s.tree.tags.get b = some r) :
    ∃ o, s.heap[r]? = some o ∧ s.tree.nodes.get o.id.hex = some r ∧ s.abs.tag b = some o.id := by
  obtain ⟨o, ho, hi⟩ := h.tg b r hb
  exact ⟨o, ho, hi, by simp [abs, getByTag, hb, idAt, ho]⟩

theorem tag_none {s : TS} (h : WF s) {b : Str} : s.abs.tag b = none ↔ s.tree.tags.get b = none := by
  cases hb : s.tree.tags.get b with
  | none => simp [abs, getByTag, hb]
  | some r => obtain ⟨o, _, _, hx⟩ := tag_in h hb; simp [hx]

theorem search_spec {ε : Type} {s : TS} (h : WF s) {w : Ws} {u p : UID} (hh : w.HeadAt s u p) {ref : Str}
    (hp : PlainKey ref) :
    (∃ r o k, (w.search s ref : Res ε _) = .ok (some (some r, k)) ∧ s.heap[r]? = some o ∧
      s.tree.nodes.get o.id.hex = some r ∧ Resolves s.abs w.id p ref o.id k) ∨
    ((w.search s ref : Res ε _) = .ok none ∧ ∀ v k, ¬ Resolves s.abs w.id p ref v k) := by
  obtain ⟨o, q, po, h1, h2, h3, h4, h5, h6, h7⟩ := headAt_obj h hh
  by_cases hH : ref = lit "HEAD"
  · subst hH
    refine Or.inl ⟨q, po, .commit, by simp [search, headTag, h1, h4], h5, h7, h6 ▸ .head⟩
  · have hH' : ref ≠ headTag := hH
    obtain ⟨x, hx⟩ := searchID_plain hp
    have hx' : (TS.searchID ref : Res ε _) = .ok x := searchID_poly ref hx
    have hsp : ∀ v, Spells ref v ↔ x = some v := by
      intro v; rw [← searchID_ok_iff, hx]; simp
    simp only [search, hH', if_false, TS.search, hx', Res.bind]
    cases hb : x.bind s.get with
    | some r =>
      obtain ⟨v, hv, hr⟩ := Option.bind_eq_some_iff.1 hb
      obtain ⟨o', ho', hid⟩ := h.idx _ _ hr
      have hid' := C03_hex_injective hid
      subst hid'
      refine Or.inl ⟨r, o', .commit, rfl, ho', hr, .id hH ((hsp _).2 hv) ((abs_has_iff_get h _).2 ⟨r, hr⟩)⟩
    | none =>
      have hno : ∀ v, Spells ref v → ¬ s.abs.Has v := by
        intro v hv hhas
        rw [(hsp v).1 hv] at hb
        obtain ⟨r, hr⟩ := (abs_has_iff_get h v).1 hhas
        simp [TS.get, hr] at hb
      cases ht : s.tree.tags.get ref with
      | some r =>
        obtain ⟨o', ho', hi', hq⟩ := tag_in h ht
        exact Or.inl ⟨r, o', .tag, by simp [getByTag, ht], ho', hi', .tag hH hno hq⟩
      | none =>
        have ht' := (tag_none h).2 ht
        cases hbr : s.tree.branches.get ref with
        | some r =>
          obtain ⟨o', ho', hi', hq⟩ := branch_in h hbr
          exact Or.inl ⟨r, o', .branch, by simp [getByTag, getByBranch, ht, hbr], ho', hi', .full hH hno ht' hq⟩
        | none =>
          have hbr' := (branch_none h).2 hbr
          simp only [getByTag, getByBranch, ht, hbr]
          cases hown : s.tree.branches.get (w.id.base32 ++ lit "/" ++ ref) with
          | some r =>
            obtain ⟨o', ho', hi', hq⟩ := branch_in h hown
            refine Or.inl ⟨r, o', .branch, ?_, ho', hi', .own hH hno ht' hbr' hq⟩
            simp only [parseLocalName, List.findSome?_cons, fullName, hown]
          | none =>
            have hown' := (branch_none h).2 hown
            simp only [parseLocalName, List.findSome?_cons, fullName, hown]
            by_cases ho : ref.take 7 = lit "origin/"
            · have href : ref = lit "origin/" ++ ref.drop 7 := by rw [← ho, List.take_append_drop]
              simp only [ho, if_true, List.findSome?_cons]
              cases hg : s.tree.branches.get (lit "global/" ++ ref.drop 7) with
              | some r =>
                obtain ⟨o', ho', hi', hq⟩ := branch_in h hg
                exact Or.inl ⟨r, o', .branch, rfl, ho', hi', .global hH hno ht' hbr' hown' href hq⟩
              | none =>
                have hg' := (branch_none h).2 hg
                refine Or.inr ⟨rfl, ?_⟩
                intro v k hr
                cases hr with
                | head => exact hH rfl
                | id _ a b => exact hno _ a b
                | tag _ _ a => rw [ht'] at a; cases a
                | full _ _ _ a => rw [hbr'] at a; cases a
                | own _ _ _ _ a => rw [hown'] at a; cases a
                | global _ _ _ _ _ a b =>
                  rw [href] at a
                  rw [← List.append_cancel_left a, hg'] at b
                  cases b
            · refine Or.inr ⟨by simp [ho], ?_⟩
              intro v k hr
              cases hr with
              | head => exact hH rfl
              | id _ a b => exact hno _ a b
              | tag _ _ a => rw [ht'] at a; cases a
              | full _ _ _ a => rw [hbr'] at a; cases a
              | own _ _ _ _ a => rw [hown'] at a; cases a
              | global _ _ _ _ _ a b => exact ho (by rw [a]; rfl)

/-- A search result with IDs instead of pointers. -/
def searchView (s : TS) (w : Ws) (ref : Str) : Res Empty (Option (UID × KeyType)) :=
  (w.search s ref).bind fun x => .ok (x.bind fun rk => (rk.1.bind (idAt s.heap)).map fun u => (u, rk.2))

/-- **C26.** A reference is found exactly when it means something, and then `Search` gives that node and kind. The
hypothesis on the bytes of the reference excludes the crash of C05. -/
theorem C26_search {s : TS} (h : WF s) {w : Ws} {u p : UID} (hh : w.HeadAt s u p) {ref : Str} (hp : PlainKey ref) :
    (∀ v k, w.searchView s ref = .ok (some (v, k)) ↔ Resolves s.abs w.id p ref v k) ∧
    (w.searchView s ref = .ok none ↔ ∀ v k, ¬ Resolves s.abs w.id p ref v k) := by
  rcases search_spec (ε := Empty) h hh hp with ⟨r, o, k, h1, h2, h3, h4⟩ | ⟨h1, h2⟩
  · have hv : w.searchView s ref = .ok (some (o.id, k)) := by simp [searchView, h1, idAt, h2]
    rw [hv]
    refine ⟨fun v l => ?_, ?_⟩
    · constructor
      · intro h; cases h; exact h4
      · intro h; obtain ⟨rfl, rfl⟩ := resolves_unique h4 h; rfl
    · constructor
      · intro h; cases h
      · intro h; exact absurd h4 (h _ _)
  · have hv : w.searchView s ref = .ok none := by simp [searchView, h1]
    rw [hv]
    refine ⟨fun v l => ?_, ?_⟩
    · constructor
      · intro h; cases h
      · intro h; exact absurd h (h2 _ _)
    · exact ⟨fun _ => h2, fun _ => rfl⟩

/-! ## C23 -/

theorem path_unique {a : ATree} {u : UID} {l l' : List UID} (h : a.Path u l) (h' : a.Path u l') : l = l' := by
  induction h generalizing l' with
  | root hn hp => cases h' with
    | root => rfl
    | step hn' hp' _ => rw [hn] at hn'; cases hn'; rw [hp] at hp'; cases hp'
  | step hn hp _ ih => cases h' with
    | root hn' hp' => rw [hn] at hn'; cases hn'; rw [hp] at hp'; cases hp'
    | step hn' hp' hr =>
      rw [hn] at hn'; cases hn'; rw [hp] at hp'; cases hp'
      rw [ih hr]

theorem historyLoop_spec {s : TS} (h : WF s) {d : Ref → Nat}
    (hd : ∀ r o, s.heap[r]? = some o → s.tree.nodes.get o.id.hex = some r → ∀ p, o.parent = some p → d r = d p + 1) :
    ∀ (fuel : Nat) (r : Ref) (o : NodeObj), s.heap[r]? = some o → s.tree.nodes.get o.id.hex = some r → d r < fuel →
      ∃ l ids, historyLoop s.heap fuel r = .ok l ∧ s.abs.Path o.id ids ∧
        l.map (idAt s.heap) = ids.dropLast.map some ∧ ∀ r ∈ l, s.In r
  | 0, _, _, _, _, hlt => absurd hlt (Nat.not_lt_zero _)
  | n + 1, r, o, ho, hi, hlt => by
    rw [historyLoop]
    have hnode := (abs_node_iff h o.id _).2 ⟨r, o, ho, hi, rfl, rfl⟩
    simp only [ho]
    rcases h.par r o ho hi with ⟨hn, hroot⟩ | ⟨q, qo, h1, h2, h3, h4⟩
    · refine ⟨[], [o.id], by simp only [hn], .root hnode (by simp [absObj, hn]), rfl, nofun⟩
    · have hlt' : d q < n := by have := hd r o ho hi q h1; omega
      obtain ⟨l, ids, e1, e2, e3, e4⟩ := historyLoop_spec h hd n q qo h2 h3 hlt'
      refine ⟨r :: l, o.id :: ids, by simp only [h1, e1, Res.bind], .step hnode (by simp [absObj, h1, idAt, h2]) e2, ?_, fun x hx => ?_⟩
      rotate_left
      · rcases List.mem_cons.1 hx with rfl | hx
        · exact ⟨o, ho, hi⟩
        · exact e4 x hx
      have : ids ≠ [] := by cases e2 <;> simp
      rw [List.dropLast_cons_of_ne_nil this]
      simp [e3, idAt, ho]

theorem history_in {s : TS} (h : WF s) {w : Ws} {u p : UID} (hh : w.HeadAt s u p) {ref : Str} (hp : PlainKey ref) {v : UID} {k : KeyType}
    (hv : Resolves s.abs w.id p ref v k) :
    ∃ l ids, w.history s ref = .ok l ∧ s.abs.Path v ids ∧ l.map (idAt s.heap) = ids.dropLast.map some ∧ ∀ r ∈ l, s.In r := by
  rcases search_spec (ε := Err) h hh hp with ⟨r, o, k', h1, h2, h3, h4⟩ | ⟨h1, h2⟩
  · obtain ⟨rfl, rfl⟩ := resolves_unique h4 hv
    obtain ⟨d, hd⟩ := h.depth
    have hlt : d r < s.walkFuel := by have := (hd r o h2 h3).1; unfold walkFuel; omega
    obtain ⟨l, ids, e1, e2, e3, e4⟩ := historyLoop_spec h (fun r o a b => (hd r o a b).2) _ r o h2 h3 hlt
    exact ⟨l, ids, by simp only [history, h1, Res.bind, e1], e2, e3, e4⟩
  · exact absurd hv (h2 _ _)

/-- **C23.** The history of a reference that means node `v` is the path from `v` to the root without the root, newest
first; a reference that means nothing is an error. -/
theorem C23_history {s : TS} (h : WF s) {w : Ws} {u p : UID} (hh : w.HeadAt s u p) {ref : Str} (hp : PlainKey ref) :
    (∀ v k, Resolves s.abs w.id p ref v k →
      ∃ l ids, w.history s ref = .ok l ∧ s.abs.Path v ids ∧ l.map (idAt s.heap) = ids.dropLast.map some) ∧
    ((∀ v k, ¬ Resolves s.abs w.id p ref v k) → w.history s ref = .err .revisionNotFound) := by
  rcases search_spec (ε := Err) h hh hp with ⟨r, o, k, h1, h2, h3, h4⟩ | ⟨h1, h2⟩
  · refine ⟨fun v l hv => ?_, fun hno => absurd h4 (hno _ _)⟩
    obtain ⟨l, ids, e1, e2, e3, _⟩ := history_in h hh hp hv
    exact ⟨l, ids, e1, e2, e3⟩
  · exact ⟨fun v k hv => absurd hv (h2 _ _), fun _ => by simp [history, h1]⟩

/-- **C23.** In the history of `v` every ID occurs once, `v` itself comes first unless it is the root, and the IDs are
exactly the non-root nodes that are `v` or an ancestor of `v`. -/
theorem C23_history_members {a : ATree} (hr : a.Rooted) {v : UID} {ids : List UID} (hpath : a.Path v ids) :
    ids.Nodup ∧ ids.head? = some v ∧ (∀ x, x ∈ ids.dropLast ↔ a.Anc x v ∧ a.root ≠ some x) := by
  have hmem : ∀ x, x ∈ ids ↔ a.Anc x v := by
    intro x
    constructor
    · intro hx
      induction hpath with
      | root hn hp => simp at hx; subst hx; exact .refl hn
      | step hn hp _ ih =>
        rcases List.mem_cons.1 hx with rfl | hx
        · exact .refl hn
        · exact .step hn hp (ih hx)
    · intro hx
      induction hpath with
      | root hn hp =>
        cases hx with
        | refl => simp
        | step hn' hp' _ => rw [hn] at hn'; cases hn'; rw [hp] at hp'; cases hp'
      | step hn hp _ ih =>
        cases hx with
        | refl => simp
        | step hn' hp' hx =>
          rw [hn] at hn'; cases hn'; rw [hp] at hp'; cases hp'
          exact List.mem_cons_of_mem _ (ih hx)
  have hlast : ∃ r, a.root = some r ∧ ids.getLast? = some r := by
    clear hmem
    induction hpath with
    | root hn hp => exact ⟨_, hr.unique _ _ hn hp, rfl⟩
    | step hn hp hl ih =>
      obtain ⟨r, h1, h2⟩ := ih
      refine ⟨r, h1, ?_⟩
      rw [List.getLast?_cons, h2]; rfl
  have hnd : ids.Nodup := by
    have key : ∀ n (v : UID) (ids : List UID), a.Path v ids → ids.length = n → ids.Nodup := by
      intro n
      induction n with
      | zero => intro v ids hp hl; cases hp <;> simp at hl
      | succ n ih =>
        intro v ids hp hl
        cases hp with
        | root => simp
        | step hn hp hrest =>
          rename_i q nd l
          refine List.nodup_cons.2 ⟨?_, ih _ _ hrest (by simpa using hl)⟩
          intro hm
          -- a suffix of `l` starts at `v`, hence has the length of the whole path
          have suffix : ∀ (x : UID) (l : List UID), a.Path x l → v ∈ l → ∃ l', a.Path v l' ∧ l'.length ≤ l.length := by
            intro x l hx
            induction hx with
            | root h1 h2 => intro hm; simp at hm; subst hm; exact ⟨_, .root h1 h2, Nat.le_refl _⟩
            | step h1 h2 h3 ih =>
              intro hm
              rcases List.mem_cons.1 hm with rfl | hm
              · exact ⟨_, .step h1 h2 h3, Nat.le_refl _⟩
              · obtain ⟨l', a1, a2⟩ := ih hm
                exact ⟨l', a1, Nat.le_succ_of_le a2⟩
          obtain ⟨l', a1, a2⟩ := suffix _ _ hrest hm
          have := path_unique a1 (.step hn hp hrest)
          subst this
          simp at a2
          omega
    exact key _ _ _ hpath rfl
  refine ⟨hnd, by cases hpath <;> rfl, ?_⟩
  intro x
  obtain ⟨r, h1, h2⟩ := hlast
  have hsplit : ids = ids.dropLast ++ [r] := by
    have hne : ids ≠ [] := by rintro rfl; simp at h2
    rw [List.getLast?_eq_some_getLast hne, Option.some.injEq] at h2
    rw [← h2, List.dropLast_concat_getLast hne]
  rw [← hmem, h1]
  constructor
  · intro hx
    refine ⟨by rw [hsplit]; exact List.mem_append_left _ hx, ?_⟩
    intro he; cases he
    rw [hsplit, List.nodup_append] at hnd
    exact hnd.2.2 _ hx _ (List.mem_singleton.2 rfl) rfl
  · rintro ⟨hx, hne⟩
    rw [hsplit] at hx
    rcases List.mem_append.1 hx with hx | hx
    · exact hx
    · simp at hx; subst hx; exact absurd rfl hne

/-! ## C24 -/

/-- **C24.** `AddBranch`: what happens in each case. On success only the one branch of this workspace changes. -/
theorem C24_add_branch {s : TS} (h : WF s) {w : Ws} {u p : UID} (hh : w.HeadAt s u p) {name ref : Str} (hp : PlainKey ref)
    (force : Bool) :
    ((∀ v k, ¬ Resolves s.abs w.id p ref v k) → w.addBranch s name ref force = .err .badRef) ∧
    (∀ v k, Resolves s.abs w.id p ref v k →
      (s.abs.branch (fullName ⟨some w.id, name⟩) ≠ none ∧ force = false → w.addBranch s name ref force = .err .branchExists) ∧
      (s.abs.branch (fullName ⟨some w.id, name⟩) = none ∨ force = true →
        ∃ s', w.addBranch s name ref force = .ok s' ∧ WF s' ∧ s'.heap = s.heap ∧
          s'.abs = s.abs.setBranch (fullName ⟨some w.id, name⟩) v)) := by
  rcases search_spec (ε := Err) h hh hp with ⟨r, o, k, h1, h2, h3, h4⟩ | ⟨h1, h2⟩
  · refine ⟨fun hno => absurd h4 (hno _ _), fun v l hv => ?_⟩
    obtain ⟨rfl, rfl⟩ := resolves_unique h4 hv
    have hhas : s.abs.Has o.id := (abs_has_iff h _).2 ⟨r, o, h2, h3, rfl⟩
    have hex : (s.getByBranch (fullName ⟨some w.id, name⟩)).isSome = true ↔
        s.abs.branch (fullName ⟨some w.id, name⟩) ≠ none := by
      rw [ne_eq, branch_none h, getByBranch]
      cases s.tree.branches.get (fullName ⟨some w.id, name⟩) <;> simp
    simp only [addBranch, h1, Res.bind, Option.bind_some, h2]
    constructor
    · rintro ⟨hne, hf⟩
      rw [if_pos (by simp [hex.2 hne, hf])]
    · intro hc
      rw [if_neg]
      · obtain ⟨s', a, b, c, d⟩ := (addBranch_spec h (fullName ⟨some w.id, name⟩) o.id).1 hhas
        exact ⟨s', by rw [a]; rfl, b, d, c⟩
      · rw [Bool.and_eq_true]
        rintro ⟨hx, hf⟩
        rcases hc with hc | hc
        · exact hex.1 hx hc
        · rw [hc] at hf; cases hf
  · exact ⟨fun _ => by simp [addBranch, h1], fun v k hv => absurd hv (h2 _ _)⟩

/-- **C24.** `AddTag`: what happens in each case. -/
theorem C24_add_tag {s : TS} (h : WF s) {w : Ws} {u p : UID} (hh : w.HeadAt s u p) {name ref : Str} (hp : PlainKey ref)
    (force : Bool) :
    ((∀ v k, ¬ Resolves s.abs w.id p ref v k) → w.addTag s name ref force = .err .badRef) ∧
    (∀ v k, Resolves s.abs w.id p ref v k →
      (s.abs.tag name ≠ none ∧ force = false → w.addTag s name ref force = .err .tagExists) ∧
      (s.abs.tag name = none ∨ force = true →
        ∃ s', w.addTag s name ref force = .ok s' ∧ WF s' ∧ s'.heap = s.heap ∧ s'.abs = s.abs.setTag name v)) := by
  rcases search_spec (ε := Err) h hh hp with ⟨r, o, k, h1, h2, h3, h4⟩ | ⟨h1, h2⟩
  · refine ⟨fun hno => absurd h4 (hno _ _), fun v l hv => ?_⟩
    obtain ⟨rfl, rfl⟩ := resolves_unique h4 hv
    have hhas : s.abs.Has o.id := (abs_has_iff h _).2 ⟨r, o, h2, h3, rfl⟩
    have hex : (s.getByTag name).isSome = true ↔ s.abs.tag name ≠ none := by
      rw [ne_eq, tag_none h, getByTag]
      cases s.tree.tags.get name <;> simp
    simp only [addTag, h1, Res.bind, Option.bind_some, h2]
    constructor
    · rintro ⟨hne, hf⟩
      rw [if_pos (by simp [hex.2 hne, hf])]
    · intro hc
      rw [if_neg]
      · obtain ⟨s', a, b, c, d⟩ := (addTag_spec h name o.id).1 hhas
        exact ⟨s', by rw [a]; rfl, b, d, c⟩
      · rw [Bool.and_eq_true]
        rintro ⟨hx, hf⟩
        rcases hc with hc | hc
        · exact hex.1 hx hc
        · rw [hc] at hf; cases hf
  · exact ⟨fun _ => by simp [addTag, h1], fun v k hv => absurd hv (h2 _ _)⟩

/-! ## C25 -/

/-- **C25.** The branch that is checked out is refused. -/
theorem C25_checked_out (s : TS) (w : Ws) : w.deleteBranch s w.branch false = .err .checkedOut := by
  simp [deleteBranch]

/-- **C25.** `DeleteBranch` in all other cases: it fails exactly when the branch does not exist, and else removes exactly
that name. -/
theorem C25_delete_branch {s : TS} (h : WF s) (w : Ws) (name : Str) (isGlobal : Bool) (hc : isGlobal = true ∨ name ≠ w.branch) :
    let b : BranchInfo := ⟨if isGlobal then none else some w.id, name⟩
    (s.abs.branch b.fullName = none → w.deleteBranch s name isGlobal = .err .branchNotFound) ∧
    (s.abs.branch b.fullName ≠ none → ∃ s', w.deleteBranch s name isGlobal = .ok s' ∧ WF s' ∧ s'.heap = s.heap ∧
      s'.abs = s.abs.delBranch b.fullName) := by
  intro b
  have hb : (if isGlobal = true then (⟨none, name⟩ : BranchInfo) else ⟨some w.id, name⟩) = b := by
    cases isGlobal <;> rfl
  have hcond : ¬ ((!isGlobal && decide (name = w.branch)) = true) := by
    rw [Bool.and_eq_true, decide_eq_true_eq]
    rintro ⟨h1, h2⟩
    rcases hc with hc | hc
    · rw [hc] at h1; cases h1
    · exact hc h2
  simp only [deleteBranch, hb]
  rw [if_neg hcond]
  obtain ⟨h1, h2, h3, h4⟩ := deleteBranch_spec h b.fullName
  generalize hd : s.deleteBranch b.fullName = x at h1 h2 h3 h4
  obtain ⟨s', ok⟩ := x
  simp only at h1 h2 h3 h4
  constructor
  · intro hn
    have : ok = false := by
      cases ok with
      | false => rfl
      | true => obtain ⟨u, hu⟩ := h4.1 rfl; rw [hn] at hu; cases hu
    subst this
    rfl
  · intro hn
    have : ok = true := h4.2 (Option.ne_none_iff_exists'.1 hn)
    subst this
    exact ⟨s', rfl, h1, h3, h2⟩

/-- **C25.** Whatever name is given, a successful deletion leaves every branch of every other workspace alone, leaves the
checked-out branch alone, and leaves global branches alone unless it was told to delete a global one. -/
theorem C25_confined {s s' : TS} (h : WF s) (w : Ws) (name : Str) (isGlobal : Bool)
    (hok : w.deleteBranch s name isGlobal = .ok s') :
    (∀ (v : UID) (n : Str), v ≠ w.id → s'.abs.branch (fullName ⟨some v, n⟩) = s.abs.branch (fullName ⟨some v, n⟩)) ∧
    s'.abs.branch w.branchInfo.fullName = s.abs.branch w.branchInfo.fullName ∧
    (isGlobal = false → ∀ n, s'.abs.branch (fullName ⟨none, n⟩) = s.abs.branch (fullName ⟨none, n⟩)) ∧
    s'.abs.node = s.abs.node ∧ s'.abs.tag = s.abs.tag ∧ s'.abs.root = s.abs.root := by
  have hc : isGlobal = true ∨ name ≠ w.branch := by
    cases isGlobal with
    | true => exact Or.inl rfl
    | false =>
      refine Or.inr ?_
      rintro rfl
      rw [C25_checked_out] at hok; cases hok
  obtain ⟨h1, h2⟩ := C25_delete_branch h w name isGlobal hc
  by_cases hn : s.abs.branch (fullName ⟨if isGlobal then none else some w.id, name⟩) = none
  · rw [h1 hn] at hok; cases hok
  · obtain ⟨s1, a, _, _, c⟩ := h2 hn
    rw [hok] at a; cases a
    rw [c]
    refine ⟨?_, ?_, ?_, rfl, rfl, rfl⟩
    · intro v n hv
      refine upd_ne _ _ ?_
      intro he
      have := C20_full_name_injective he
      cases isGlobal <;> simp at this
      exact hv this.1
    · refine upd_ne _ _ ?_
      intro he
      have := C20_full_name_injective he
      cases isGlobal <;> simp [branchInfo] at this hc
      exact hc this.symm
    · rintro rfl n
      refine upd_ne _ _ ?_
      intro he
      have := C20_full_name_injective he
      simp at this

/-! ## Names stay proper -/

/-- **C21.** Workspace operations keep the names proper that the listings depend on. -/
theorem C21_names_stay_proper {s s' : TS} (h : WF s) (hn : s.abs.ProperNames) {w : Ws} :
    (∀ name ref force, w.addBranch s name ref force = .ok s' → s'.abs.ProperNames) ∧
    (∀ name g, w.deleteBranch s name g = .ok s' → s'.abs.ProperNames) ∧
    (∀ b : BranchInfo, ∀ u force, s.updateBranch b.fullName u force = .ok s' → s'.abs.ProperNames) := by
  have set : ∀ (b : BranchInfo) (v : UID), (s.abs.setBranch b.fullName v).ProperNames := by
    intro b v n u hu
    by_cases hb : n = b.fullName
    · exact ⟨b, hb⟩
    · exact hn n u (by simpa [ATree.setBranch, upd_ne _ _ hb] using hu)
  refine ⟨?_, ?_, ?_⟩
  · intro name ref force hok
    unfold addBranch at hok
    generalize hq : (w.search s ref : Res Err _) = q at hok
    cases q with
    | ok x =>
      simp only [Res.bind] at hok
      cases x with
      | none => cases hok
      | some y =>
        obtain ⟨y, k⟩ := y
        simp only at hok
        split at hok
        · cases hok
        · split at hok
          · cases hok
          · rename_i o _
            by_cases hhas : s.abs.Has o.id
            · obtain ⟨s1, a, b, c, d⟩ := (addBranch_spec h (fullName ⟨some w.id, name⟩) o.id).1 hhas
              rw [a] at hok
              cases hok
              rw [c]; exact set _ _
            · rw [(addBranch_spec h (fullName ⟨some w.id, name⟩) o.id).2 hhas] at hok
              cases hok
    | _ => cases hok
  · intro name g hok
    have hc : g = true ∨ name ≠ w.branch := by
      cases g with
      | true => exact Or.inl rfl
      | false =>
        refine Or.inr ?_
        rintro rfl
        rw [C25_checked_out] at hok; cases hok
    obtain ⟨h1, h2⟩ := C25_delete_branch h w name g hc
    by_cases hnn : s.abs.branch (fullName ⟨if g then none else some w.id, name⟩) = none
    · rw [h1 hnn] at hok; cases hok
    · obtain ⟨s1, a, _, _, c⟩ := h2 hnn
      rw [hok] at a; cases a
      rw [c]
      intro n u hu
      refine hn n u ?_
      by_cases hb : n = fullName ⟨if g then none else some w.id, name⟩
      · subst hb; simp [ATree.delBranch] at hu
      · simpa [ATree.delBranch, upd_ne _ _ hb] using hu
  · intro b u force hok
    obtain ⟨h1, h2, h3, h4⟩ := updateBranch_spec h b.fullName u force
    by_cases hu : s.abs.Has u
    · cases hb : s.abs.branch b.fullName with
      | none => rw [h2 hu hb] at hok; cases hok
      | some hd =>
        by_cases hcond : force = true ∨ s.abs.Anc hd u
        · obtain ⟨s1, a, _, c, _⟩ := h3 hd hu hb hcond
          rw [hok] at a; cases a
          rw [c]; exact set _ _
        · rw [not_or] at hcond
          rw [h4 hd hu hb (by simpa using hcond.1) hcond.2] at hok
          cases hok
    · rw [h1 hu] at hok; cases hok

/-! ## A case that meets the hypotheses -/

theorem proper_of_entries {s : TS} (h : ∀ e ∈ s.tree.branches.entries, ∃ b : BranchInfo, e.1 = b.fullName) :
    s.abs.ProperNames := by
  intro n u hu
  simp only [abs, getByBranch, Option.bind_eq_some_iff] at hu
  obtain ⟨r, hr, _⟩ := hu
  exact h _ (GoMap.mem_of_get hr)

/-- Two workspaces in one tree. Node 3 is the working layer of the first, on branch `main` at node 1. -/
def sampleWsTree : TS := runOps sampleTree
  [.addBranch (fullName ⟨some UID.sample, lit "main"⟩) (sampleIDs 1), .addBranch (fullName ⟨some UID.sample, lit "dev"⟩) (sampleIDs 2),
   .addBranch (fullName ⟨some (sampleIDs 77), lit "main"⟩) (sampleIDs 2),
   .addBranch (fullName ⟨some UID.sample, lit "a\nb"⟩) (sampleIDs 1)]

def sampleWs : Ws := ⟨UID.sample, lit "/w", 3, lit "main"⟩

theorem sampleWsTree_wf : WF sampleWsTree := wf_of_reach (reach_runOps sampleTree_reach (by decide))

theorem sampleWsTree_proper : sampleWsTree.abs.ProperNames := by
  refine proper_of_entries fun e he => ?_
  have : e.1 ∈ sampleWsTree.tree.branches.entries.map Prod.fst := List.mem_map.2 ⟨e, he, rfl⟩
  rw [show sampleWsTree.tree.branches.entries.map Prod.fst =
    [fullName ⟨none, lit "main"⟩, fullName ⟨some UID.sample, lit "main"⟩, fullName ⟨some UID.sample, lit "dev"⟩,
      fullName ⟨some (sampleIDs 77), lit "main"⟩, fullName ⟨some UID.sample, lit "a\nb"⟩] from by decide] at this
  simp only [List.mem_cons, List.not_mem_nil, or_false] at this
  rcases this with h | h | h | h | h <;> exact ⟨_, h⟩

theorem sampleWs_head : sampleWs.HeadAt sampleWsTree (sampleIDs 3) (sampleIDs 1) :=
  ⟨by decide, _, rfl, by decide⟩

/-- The listing of this workspace: two local branches before the global one; the branch of the other workspace is missing,
and so is the one with a line feed. -/
example : sampleWs.AllBranches sampleWsTree
    [⟨⟨some UID.sample, lit "dev"⟩, 2⟩, ⟨⟨some UID.sample, lit "main"⟩, 1⟩, ⟨⟨none, lit "main"⟩, 2⟩] :=
  ⟨sampleWsTree.tree.branches.entries, List.Perm.refl _, by decide, by decide⟩

/-- The witness of `C21_violated_newline`. -/
example : sampleWsTree.abs.branch (fullName ⟨some sampleWs.id, lit "a\nb"⟩) = some (sampleIDs 1) := by decide

example : Tags sampleWsTree [lit "v1"] := ⟨sampleWsTree.tree.tags.entries, List.Perm.refl _, by
  rw [if_neg (by decide)]; exact ⟨by decide, by decide⟩⟩

example : PlainKey (lit "origin/main") ∧
    sampleWs.searchView sampleWsTree (lit "origin/main") = .ok (some (sampleIDs 2, .branch)) ∧
    sampleWs.searchView sampleWsTree (lit "main") = .ok (some (sampleIDs 1, .branch)) ∧
    sampleWs.searchView sampleWsTree (lit "HEAD") = .ok (some (sampleIDs 1, .commit)) ∧
    sampleWs.searchView sampleWsTree (lit "nope") = .ok none ∧
    sampleWs.history sampleWsTree (lit "origin/main") = .ok [2, 1] := by
  refine ⟨by unfold PlainKey; decide, ?_⟩
  decide

example : sampleWs.addBranch sampleWsTree (lit "dev") (lit "HEAD") false = .err .branchExists ∧
    (sampleWs.addBranch sampleWsTree (lit "dev") (lit "HEAD") true).isOk = true ∧
    sampleWs.addTag sampleWsTree (lit "v1") (lit "HEAD") false = .err .tagExists ∧
    (sampleWs.deleteBranch sampleWsTree (lit "dev") false).isOk = true ∧
    (sampleWs.deleteBranch sampleWsTree (lit "main") true).isOk = true ∧
    sampleWs.deleteBranch sampleWsTree (lit "main") false = .err .checkedOut := by decide

end Ws
end Verif
