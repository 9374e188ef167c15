import Verif.Tree.LoadProofs
/-! # `Load` undoes `Dump` -/
set_option autoImplicit false
namespace Verif
namespace TS

/-- `a` is `x` or one of its ancestors, by references. -/
inductive RAnc (heap : List NodeObj) (a : Ref) : Ref → Prop where
  | refl : RAnc heap a a
  | step {x p : Ref} {o : NodeObj} : heap[x]? = some o → o.parent = some p → RAnc heap a p → RAnc heap a x

theorem ranc_trans {heap : List NodeObj} {a b c : Ref} (h1 : RAnc heap a b) (h2 : RAnc heap b c) : RAnc heap a c := by
  induction h2 with
  | refl => exact h1
  | step h3 h4 _ ih => exact .step h3 h4 ih

/-- A depth function of a well-formed tree. -/
def IsDepth (s : TS) (d : Ref → Nat) : Prop :=
  ∀ r o, s.heap[r]? = some o → s.tree.nodes.get o.id.hex = some r →
    d r < s.tree.nodes.size ∧ ∀ p, o.parent = some p → d r = d p + 1

theorem in_parent {s : TS} (h : WF s) {x p : Ref} {o : NodeObj} (hx : s.In x) (ho : s.heap[x]? = some o)
    (hp : o.parent = some p) : s.In p := by
  obtain ⟨o', ho', hn⟩ := hx
  rw [ho] at ho'; cases ho'
  rcases h.par x o ho hn with ⟨h1, _⟩ | ⟨q, qo, h1, h2, h3, _⟩
  · rw [hp] at h1; cases h1
  · rw [hp] at h1; cases h1; exact ⟨qo, h2, h3⟩

theorem depth_le_of_ranc {s : TS} (h : WF s) {d : Ref → Nat} (hd : IsDepth s d) {a x : Ref}
    (hr : RAnc s.heap a x) (hx : s.In x) : d a ≤ d x ∧ (d a = d x → a = x) := by
  induction hr with
  | refl => exact ⟨Nat.le_refl _, fun _ => rfl⟩
  | @step x p o h1 h2 _ ih =>
    have hp := in_parent h hx h1 h2
    obtain ⟨o', ho', hn⟩ := hx
    rw [h1] at ho'; cases ho'
    have := (hd x o h1 hn).2 p h2
    have := (ih hp).1
    exact ⟨by omega, fun _ => by omega⟩

/-- A node has at most one ancestor at each depth. -/
theorem ranc_unique {s : TS} (h : WF s) {d : Ref → Nat} (hd : IsDepth s d) {a b x : Ref} (ha : RAnc s.heap a x)
    (hb : RAnc s.heap b x) (hx : s.In x) (he : d a = d b) : a = b := by
  induction ha with
  | refl => exact ((depth_le_of_ranc h hd hb hx).2 he.symm).symm
  | @step x p o h1 h2 h3 ih =>
    cases hb with
    | refl =>
      have hp := in_parent h hx h1 h2
      have h4 := (depth_le_of_ranc h hd h3 hp).1
      obtain ⟨o', ho', hn⟩ := hx
      rw [h1] at ho'; cases ho'
      have := (hd _ o h1 hn).2 p h2
      omega
    | step h1' h2' h3' =>
      rw [h1] at h1'; cases h1'
      rw [h2] at h2'; cases h2'
      exact ih h3' (in_parent h hx h1 h2)

/-- The edge `e` of a dump shows the node `x` and its parent, a descendant of `a`. -/
def Shows (s : TS) (a : Ref) (e : Str × NodeDump) (x : Ref) : Prop :=
  DumpsTo s.heap x e.2 ∧ s.In x ∧ ∃ o p po, s.heap[x]? = some o ∧ o.parent = some p ∧ s.heap[p]? = some po ∧
    e.1 = po.id.hex ∧ RAnc s.heap a p

theorem dumpsTo_id {heap : List NodeObj} {r : Ref} {d : NodeDump} (h : DumpsTo heap r d) :
    ∃ o, heap[r]? = some o ∧ d.id = o.id.hex ∧ GoMap.Copy o.annotations d.annotations ∧ GoMap.Copy o.data d.data := by
  cases h with
  | mk h1 h2 h3 h4 h5 => exact ⟨_, h1, rfl, h4, h5⟩

/-- The references in the children map are children of the node. -/
theorem children_refs {s : TS} (h : WF s) {r : Ref} {o : NodeObj} (ho : s.heap[r]? = some o) (hr : s.In r)
    {es : List (Str × Ref)} (hp : es.Perm o.children.entries) :
    (es.map Prod.snd).Nodup ∧ ∀ c ∈ es.map Prod.snd, s.In c ∧ ∃ co, s.heap[c]? = some co ∧ co.parent = some r := by
  obtain ⟨o', ho', hn⟩ := hr
  rw [ho] at ho'; cases ho'
  obtain ⟨hnd, hch⟩ := h.chi r o ho hn
  have hget : ∀ e ∈ es, o.children.get e.1 = some e.2 := by
    intro e he
    exact (GoMap.mem_iff_get hnd).1 (hp.mem_iff.1 he)
  have hnd' : (es.map Prod.fst).Nodup := (hp.map Prod.fst).nodup_iff.2 hnd
  constructor
  · -- the value determines the key
    have key : ∀ (l : List (Str × Ref)), (l.map Prod.fst).Nodup → (∀ e ∈ l, o.children.get e.1 = some e.2) →
        (l.map Prod.snd).Nodup := by
      intro l
      induction l with
      | nil => intros; simp
      | cons e l ih =>
        intro h1 h2
        simp only [List.map_cons, List.nodup_cons] at h1 ⊢
        refine ⟨?_, ih h1.2 (fun e' he' => h2 e' (by simp [he']))⟩
        intro hm
        obtain ⟨e', he', heq⟩ := List.mem_map.1 hm
        have a := (hch _ _ (h2 e (by simp))).1
        have b := (hch _ _ (h2 e' (by simp [he']))).1
        obtain ⟨o1, g1, g2⟩ := h.idx _ _ a
        obtain ⟨o2, g3, g4⟩ := h.idx _ _ b
        rw [heq, g1] at g3; cases g3
        exact h1.1 (List.mem_map.2 ⟨e', he', by rw [← g2, ← g4]⟩)
    exact key es hnd' hget
  · intro c hc
    obtain ⟨e, he, rfl⟩ := List.mem_map.1 hc
    obtain ⟨a, co, b, c⟩ := hch _ _ (hget e he)
    obtain ⟨o1, g1, g2⟩ := h.idx _ _ a
    rw [b] at g1; cases g1
    exact ⟨⟨co, b, g2 ▸ a⟩, co, b, c⟩

theorem shows_id {s : TS} {a x : Ref} {e : Str × NodeDump} (h : Shows s a e x) :
    ∃ o, s.heap[x]? = some o ∧ e.2.id = o.id.hex ∧ s.tree.nodes.get o.id.hex = some x := by
  obtain ⟨h1, ⟨o, h2, h3⟩, _⟩ := h
  obtain ⟨o', a, b, _⟩ := dumpsTo_id h1
  rw [h2] at a; cases a
  exact ⟨o, h2, b, h3⟩

mutual
theorem dumpsTo_edges {s : TS} (h : WF s) {d : Ref → Nat} (hd : IsDepth s d) :
    ∀ {r : Ref} {nd : NodeDump}, DumpsTo s.heap r nd → s.In r →
      (∀ e ∈ desc nd, ∃ x, Shows s r e x) ∧ ((desc nd).map fun e => e.2.id).Nodup
  | r, _, .mk (o := o) (es := es) (ds := ds) ho hp hds _ _, hr => by
    obtain ⟨h1, h2⟩ := children_refs h ho hr hp
    have := dumpsList_edges h hd hds (p := r) (po := o) ho h1 h2
    exact ⟨fun e he => by
      obtain ⟨x, c, hc, hx, hcx⟩ := this.1 e he
      exact ⟨x, hx⟩, this.2⟩
theorem dumpsList_edges {s : TS} (h : WF s) {d : Ref → Nat} (hd : IsDepth s d) :
    ∀ {rs : List Ref} {ds : List NodeDump}, DumpsList s.heap rs ds → ∀ {p : Ref} {po : NodeObj}, s.heap[p]? = some po →
      rs.Nodup → (∀ c ∈ rs, s.In c ∧ ∃ co, s.heap[c]? = some co ∧ co.parent = some p) →
      (∀ e ∈ descKids po.id.hex ds, ∃ x c, c ∈ rs ∧ Shows s p e x ∧ RAnc s.heap c x) ∧
      ((descKids po.id.hex ds).map fun e => e.2.id).Nodup
  | _, _, .nil, p, po, _, _, _ => by simp [descKids]
  | _, _, .cons (r := r) (d := nd) (rs := rs) (ds := ds) h1 h2, p, po, hpo, hnd, hc => by
    obtain ⟨hrin, ro, hro, hrp⟩ := hc r (by simp)
    obtain ⟨a1, a2⟩ := dumpsTo_edges h hd h1 hrin
    simp only [List.nodup_cons] at hnd
    obtain ⟨b1, b2⟩ := dumpsList_edges h hd h2 hpo hnd.2 (fun c hc' => hc c (by simp [hc']))
    have hpr : RAnc s.heap p r := .step hro hrp .refl
    have hshow : Shows s p (po.id.hex, nd) r := ⟨h1, hrin, ro, p, po, hro, hrp, hpo, rfl, .refl⟩
    have hdr : d r = d p + 1 := by
      obtain ⟨ro', hro', hn⟩ := hrin
      rw [hro] at hro'; cases hro'
      exact (hd r ro hro hn).2 p hrp
    have A : ∀ e ∈ desc nd, ∃ x, Shows s p e x ∧ RAnc s.heap r x ∧ x ≠ r := by
      intro e he
      obtain ⟨x, c1, c2, o, q, qo, c3, c4, c5, c6, c7⟩ := a1 e he
      refine ⟨x, ⟨c1, c2, o, q, qo, c3, c4, c5, c6, ranc_trans hpr c7⟩, .step c3 c4 c7, ?_⟩
      rintro rfl
      have hq := in_parent h c2 c3 c4
      have hle := (depth_le_of_ranc h hd c7 hq).1
      obtain ⟨o', ho', hn⟩ := c2
      rw [c3] at ho'; cases ho'
      have := (hd _ o c3 hn).2 q c4
      omega
    have B : ∀ e ∈ descKids po.id.hex ds, ∃ x, Shows s p e x ∧ ¬ RAnc s.heap r x := by
      intro e he
      obtain ⟨x, c, hcm, hs, hcx⟩ := b1 e he
      refine ⟨x, hs, fun hrx => ?_⟩
      obtain ⟨hcin, co, hco, hcp⟩ := hc c (by simp [hcm])
      have hdc : d c = d p + 1 := by
        obtain ⟨co', hco', hn⟩ := hcin
        rw [hco] at hco'; cases hco'
        exact (hd c co hco hn).2 p hcp
      have : r = c := ranc_unique h hd hrx hcx hs.2.1 (by omega)
      subst this
      exact hnd.1 hcm
    have same : ∀ {e e' : Str × NodeDump} {x x' : Ref}, Shows s p e x → Shows s p e' x' → e.2.id = e'.2.id → x = x' := by
      intro e e' x x' g1 g2 g3
      obtain ⟨o1, i1, i2, i3⟩ := shows_id g1
      obtain ⟨o2, j1, j2, j3⟩ := shows_id g2
      rw [i2, j2] at g3
      rw [g3, j3] at i3; exact (Option.some.inj i3).symm
    simp only [descKids]
    constructor
    · intro e he
      rcases List.mem_cons.1 he with rfl | he
      · exact ⟨r, r, by simp, hshow, .refl⟩
      · rcases List.mem_append.1 he with he | he
        · obtain ⟨x, g1, g2, _⟩ := A e he
          exact ⟨x, r, by simp, g1, g2⟩
        · obtain ⟨x, c, g1, g2, g3⟩ := b1 e he
          exact ⟨x, c, by simp [g1], g2, g3⟩
    · simp only [List.map_cons, List.map_append, List.nodup_cons, List.mem_append, List.nodup_append]
      refine ⟨?_, a2, b2, ?_⟩
      · rintro (hm | hm)
        · obtain ⟨e, he, heq⟩ := List.mem_map.1 hm
          obtain ⟨x, g1, _, g3⟩ := A e he
          exact g3 (same g1 hshow heq)
        · obtain ⟨e, he, heq⟩ := List.mem_map.1 hm
          obtain ⟨x, g1, g2⟩ := B e he
          exact g2 ((same g1 hshow heq) ▸ .refl)
      · intro i hi j hj hij
        obtain ⟨e, he, rfl⟩ := List.mem_map.1 hi
        obtain ⟨e', he', rfl⟩ := List.mem_map.1 hj
        obtain ⟨x, g1, g2, _⟩ := A e he
        obtain ⟨x', g1', g2'⟩ := B e' he'
        exact g2' ((same g1 g1' hij) ▸ g2)
end

/-! ## Every node is shown -/

theorem mem_descKids {p : Str} {cs : List NodeDump} {c : NodeDump} (h : c ∈ cs) : (p, c) ∈ descKids p cs := by
  induction cs with
  | nil => cases h
  | cons x xs ih =>
    simp only [descKids, List.mem_cons, List.mem_append]
    rcases List.mem_cons.1 h with rfl | h
    · exact Or.inl rfl
    · exact Or.inr (Or.inr (ih h))

mutual
theorem desc_trans : ∀ (d : NodeDump) {e e' : Str × NodeDump}, e ∈ desc d → e' ∈ desc e.2 → e' ∈ desc d
  | .mk i cs _ _, e, e', h, h' => descKids_trans i cs h h'
theorem descKids_trans (p : Str) : ∀ (cs : List NodeDump) {e e' : Str × NodeDump}, e ∈ descKids p cs → e' ∈ desc e.2 →
    e' ∈ descKids p cs
  | [], _, _, h, _ => by simp [descKids] at h
  | c :: cs, e, e', h, h' => by
    simp only [descKids, List.mem_cons, List.mem_append] at h ⊢
    rcases h with rfl | h | h
    · exact Or.inr (Or.inl h')
    · exact Or.inr (Or.inl (desc_trans c h h'))
    · exact Or.inr (Or.inr (descKids_trans p cs h h'))
end

theorem dumpsList_mem {heap : List NodeObj} {rs : List Ref} {ds : List NodeDump} (h : DumpsList heap rs ds) {r : Ref}
    (hr : r ∈ rs) : ∃ d ∈ ds, DumpsTo heap r d := by
  induction rs generalizing ds with
  | nil => cases hr
  | cons x xs ih =>
    cases h with
    | cons h1 h2 =>
      rcases List.mem_cons.1 hr with rfl | hr
      · exact ⟨_, by simp, h1⟩
      · obtain ⟨d, hd, h3⟩ := ih h2 hr
        exact ⟨d, by simp [hd], h3⟩

/-- A child of a dumped node is dumped below it. -/
theorem dumpsTo_child {s : TS} (h : WF s) {p x : Ref} {nd : NodeDump} (hd : DumpsTo s.heap p nd) {o : NodeObj}
    (hx : s.In x) (ho : s.heap[x]? = some o) (hp : o.parent = some p) :
    ∃ e ∈ desc nd, DumpsTo s.heap x e.2 := by
  cases hd with
  | @mk _ po es ds _ _ h1 h2 h3 _ _ =>
    obtain ⟨o', ho', hn⟩ := hx
    rw [ho] at ho'; cases ho'
    rcases h.par x o ho hn with ⟨g1, _⟩ | ⟨q, qo, g1, g2, g3, g4⟩
    · rw [hp] at g1; cases g1
    · rw [hp] at g1; cases g1
      rw [h1] at g2; cases g2
      have hm : x ∈ es.map Prod.snd :=
        List.mem_map.2 ⟨(o.id.hex, x), h2.mem_iff.2 (GoMap.mem_of_get g4), rfl⟩
      obtain ⟨d, hd, hdx⟩ := dumpsList_mem h3 hm
      exact ⟨_, mem_descKids hd, hdx⟩

theorem dumpsTo_covers {s : TS} (h : WF s) {r : Ref} {nd : NodeDump} (hd : DumpsTo s.heap r nd) {x : Ref}
    (ha : RAnc s.heap r x) (hx : s.In x) (hne : x ≠ r) : ∃ e ∈ desc nd, DumpsTo s.heap x e.2 := by
  induction ha with
  | refl => exact absurd rfl hne
  | @step x p o h1 h2 h3 ih =>
    by_cases hp : p = r
    · subst hp; exact dumpsTo_child h hd hx h1 h2
    · obtain ⟨e, he, hde⟩ := ih (in_parent h hx h1 h2) hp
      obtain ⟨e', he', hde'⟩ := dumpsTo_child h hde hx h1 h2
      exact ⟨e', desc_trans nd he he', hde'⟩

theorem ranc_root {s : TS} (h : WF s) {d : Ref → Nat} (hd : IsDepth s d) {r : Ref} (hr : s.tree.root = some r) :
    ∀ (n : Nat) {x : Ref}, d x = n → s.In x → RAnc s.heap r x := by
  intro n
  induction n with
  | zero =>
    intro x hn hx
    obtain ⟨o, ho, hin⟩ := hx
    rcases h.par x o ho hin with ⟨_, g⟩ | ⟨q, qo, g1, _⟩
    · rw [hr] at g; cases g; exact .refl
    · have := (hd x o ho hin).2 q g1; omega
  | succ n ih =>
    intro x hn hx
    have hx' := hx
    obtain ⟨o, ho, hin⟩ := hx
    rcases h.par x o ho hin with ⟨_, g⟩ | ⟨q, qo, g1, _⟩
    · rw [hr] at g; cases g; exact .refl
    · have := (hd x o ho hin).2 q g1
      exact .step ho g1 (ih (by omega) (in_parent h hx' ho g1))

/-! ## A dump exists -/

theorem dumpsTo_exists {s : TS} (h : WF s) {d : Ref → Nat} (hd : IsDepth s d) :
    ∀ (n : Nat) {x : Ref}, s.In x → s.tree.nodes.size ≤ d x + n → ∃ nd, DumpsTo s.heap x nd := by
  intro n
  induction n with
  | zero =>
    intro x hx hle
    obtain ⟨o, ho, hin⟩ := hx
    have := (hd x o ho hin).1; omega
  | succ n ih =>
    intro x hx hle
    have hx' := hx
    obtain ⟨o, ho, hin⟩ := hx
    obtain ⟨_, h2⟩ := children_refs h ho hx' (List.Perm.refl _)
    have key : ∀ (rs : List Ref), (∀ c ∈ rs, s.In c ∧ ∃ co, s.heap[c]? = some co ∧ co.parent = some x) →
        ∃ ds, DumpsList s.heap rs ds := by
      intro rs
      induction rs with
      | nil => intro _; exact ⟨[], .nil⟩
      | cons c cs ihc =>
        intro hc
        obtain ⟨ds, hds⟩ := ihc (fun c' hc' => hc c' (by simp [hc']))
        obtain ⟨hcin, co, hco, hcp⟩ := hc c (by simp)
        have hcin' := hcin
        obtain ⟨co', hco', hn⟩ := hcin
        rw [hco] at hco'; cases hco'
        have := (hd c co hco hn).2 x hcp
        obtain ⟨nd, hnd⟩ := ih hcin' (by omega)
        exact ⟨nd :: ds, .cons hnd hds⟩
    obtain ⟨ds, hds⟩ := key _ h2
    exact ⟨_, .mk ho (List.Perm.refl _) hds (.refl _) (.refl _)⟩

theorem dumpsNames_exists (s : TS) (m : GoMap Ref) (hn : m.Nodup) (hin : ∀ k r, m.get k = some r → s.In r) :
    ∃ m', DumpsNames s.heap m m' := by
  cases m with
  | none => exact ⟨none, .nil⟩
  | some l =>
    refine ⟨some (l.map fun e => (e.1, ((idAt s.heap e.2).map UID.hex).getD [])), .mk ?_ ?_⟩
    · simpa [AL.keys, Function.comp_def, GoMap.Nodup] using hn
    · intro k v
      have := AL.get_map (fun r => ((idAt s.heap r).map UID.hex).getD []) l k
      rw [this]
      constructor
      · intro hv
        obtain ⟨r, hr, rfl⟩ := Option.map_eq_some_iff.1 hv
        obtain ⟨o, ho, _⟩ := hin k r hr
        exact ⟨r, o, hr, ho, by simp [idAt, ho]⟩
      · rintro ⟨r, o, hr, ho, rfl⟩
        simp [hr, idAt, ho]

theorem dumps_exists {s : TS} (h : WF s) : ∃ d, Dumps s d := by
  obtain ⟨b, hb⟩ := dumpsNames_exists s _ h.branchesNd h.br
  obtain ⟨t, ht⟩ := dumpsNames_exists s _ h.tagsNd h.tg
  obtain ⟨d, hd⟩ := h.depth
  cases hr : s.tree.root with
  | none => exact ⟨⟨none, b, t⟩, by simp [hr], hb, ht⟩
  | some r =>
    obtain ⟨o, ho, hin, _⟩ := h.root r hr
    obtain ⟨nd, hnd⟩ := dumpsTo_exists h hd s.tree.nodes.size ⟨o, ho, hin⟩ (by omega)
    exact ⟨⟨some nd, b, t⟩, by simp [hr, hnd], hb, ht⟩

/-! ## The round trip -/

theorem canon_hex (u : UID) : canon u.hex = u.hex := (canon_of_decode (C01_hex_roundtrip u)).symm

theorem added_perm {a b : List (Str × NodeDump)} {s s' : TS} (hp : a.Perm b) (h : Added a s s') : Added b s s' :=
  ⟨h.wf, fun e he => h.edge e (hp.mem_iff.2 he), fun u hu => h.other u (fun e he => hu e (hp.mem_iff.1 he)),
    h.root, h.branch, h.tag⟩

theorem newIDs_perm {a b : List (Str × NodeDump)} {s : TS} (hp : a.Perm b) (h : NewIDs a s) : NewIDs b s :=
  ⟨(hp.map _).nodup_iff.1 h.nodup, fun e he => h.fresh e (hp.mem_iff.2 he), fun e he => h.maps e (hp.mem_iff.2 he)⟩

theorem dumpsNames_spec {s : TS} {m : GoMap Ref} {m' : GoMap Str} (hd : DumpsNames s.heap m m')
    (hin : ∀ k r, m.get k = some r → s.In r) :
    (AL.keys m'.entries).Nodup ∧
    (∀ e ∈ m'.entries, ∃ r o, m.get e.1 = some r ∧ s.heap[r]? = some o ∧ s.In r ∧ e.2 = o.id.hex) ∧
    (∀ k, k ∉ AL.keys m'.entries → m.get k = none) := by
  cases hd with
  | nil => simp [AL.keys]
  | @mk l l' h1 h2 =>
    refine ⟨h1, ?_, ?_⟩
    · rintro ⟨k, v⟩ he
      obtain ⟨r, o, a, b, c⟩ := (h2 k v).1 (AL.get_of_mem h1 he)
      exact ⟨r, o, a, b, hin k r a, c⟩
    · intro k hk
      cases hg : GoMap.get (some l : GoMap Ref) k with
      | none => rfl
      | some r =>
        obtain ⟨o, ho, _⟩ := hin k r hg
        exact absurd (AL.mem_keys_iff.2 ⟨_, (h2 k o.id.hex).2 ⟨r, o, hg, ho, rfl⟩⟩) hk

theorem load_of_dumps {s : TS} (h : WF s) {d : TreeDump} (hd : Dumps s d) :
    ∃ s', load d = .ok s' ∧ Reach s' ∧ s'.abs = s.abs := by
  obtain ⟨hn, hb, ht⟩ := hd
  cases hr : s.tree.root with
  | none =>
    rw [hr] at hn
    simp only at hn
    refine ⟨empty, by simp [load, hn], .new, ?_⟩
    rw [abs_empty]
    obtain ⟨b1, b2⟩ := no_names_without_root h hr
    apply atree_ext
    · intro u; simp [ATree.empty, abs, get, h.rootNone hr]
    · simp [ATree.empty, abs, hr]
    · intro b
      simp only [ATree.empty, abs, getByBranch]
      cases hg : s.tree.branches.get b with
      | none => rfl
      | some r =>
        obtain ⟨o, _, hi⟩ := h.br _ _ hg
        rw [h.rootNone hr] at hi; cases hi
    · intro t
      simp only [ATree.empty, abs, getByTag]
      cases hg : s.tree.tags.get t with
      | none => rfl
      | some r =>
        obtain ⟨o, _, hi⟩ := h.tg _ _ hg
        rw [h.rootNone hr] at hi; cases hi
  | some r =>
    rw [hr] at hn
    obtain ⟨nd, hnd, hdt⟩ := hn
    obtain ⟨ro, hro, hrin, hrp⟩ := h.root r hr
    obtain ⟨dep, hdep⟩ := h.depth
    obtain ⟨e1, e2⟩ := dumpsTo_edges h hdep hdt ⟨ro, hro, hrin⟩
    obtain ⟨o', ho', hid, han, hda⟩ := dumpsTo_id hdt
    rw [hro] at ho'; cases ho'
    have hrm := h.maps r ro hro hrin
    -- the root
    obtain ⟨s0, hs0, hw0, habs0, hre0⟩ : ∃ s0, empty.addNew none ro.id nd.annotations nd.data = .ok s0 ∧ WF s0 ∧
        s0.abs = ATree.empty.add none ro.id ro.annotations.get ro.data.get ∧ Reach s0 := by
      have hnh : ¬ empty.abs.Has ro.id := by rw [abs_empty]; rintro ⟨n, hn⟩; cases hn
      rcases addNew_cases (p := none) wf_empty hnh (han.nodup hrm.1) (hda.nodup hrm.2) with
        ⟨s0, a, b, c, _⟩ | ⟨e, a, ⟨_, b⟩ | ⟨q, b, _⟩⟩
      · exact ⟨s0, a, b, by rw [c, abs_empty, han.get, hda.get],
          .ok (op := .add none ro.id nd.annotations nd.data) .new ⟨hnh, han.nodup hrm.1, hda.nodup hrm.2⟩ a⟩
      · rw [abs_empty] at b; exact absurd rfl b
      · cases b
    -- facts about the edges
    have hdec : ∀ e ∈ desc nd, ∃ x o, s.heap[x]? = some o ∧ s.tree.nodes.get o.id.hex = some x ∧
        UID.decodeHex e.2.id = .ok o.id ∧ GoMap.Copy o.annotations e.2.annotations ∧ GoMap.Copy o.data e.2.data ∧
        ∃ p po, o.parent = some p ∧ s.heap[p]? = some po ∧ UID.decodeHex e.1 = .ok po.id := by
      intro e he
      obtain ⟨x, g1, ⟨o, g2, g3⟩, o2, p, po, g4, g5, g6, g7, _⟩ := e1 e he
      rw [g2] at g4; cases g4
      obtain ⟨o3, i1, i2, i3, i4⟩ := dumpsTo_id g1
      rw [g2] at i1; cases i1
      exact ⟨x, o, g2, g3, by rw [i2]; exact C01_hex_roundtrip _, i3, i4, p, po, g5, g6, by
        rw [g7]; exact C01_hex_roundtrip _⟩
    have hnew : NewIDs (desc nd) s0 := by
      refine ⟨?_, ?_, ?_⟩
      · have : (desc nd).map (fun e => canon e.2.id) = (desc nd).map (fun e => e.2.id) := by
          apply List.map_congr_left
          intro e he
          obtain ⟨x, o, _, _, g, _⟩ := hdec e he
          obtain ⟨x', g1, ⟨o', g2, g3⟩, _⟩ := e1 e he
          obtain ⟨o3, i1, i2, i3, i4⟩ := dumpsTo_id g1
          rw [i2, canon_hex]
        rw [this]; exact e2
      · intro e he u hu hhas
        obtain ⟨x, o, g1, g2, g3, _, _, p, po, g4, _⟩ := hdec e he
        rw [g3] at hu; cases hu
        rw [habs0] at hhas
        obtain ⟨n, hn⟩ := hhas
        simp only [ATree.add, upd, ATree.empty] at hn
        split at hn
        · rename_i heq
          have := in_inj g1 g2 hro hrin heq
          subst this
          rw [hro] at g1; cases g1
          rw [hrp] at g4; cases g4
        · cases hn
      · intro e he
        obtain ⟨x, o, g1, g2, g3, g4, g5, _⟩ := hdec e he
        have := h.maps x o g1 g2
        exact ⟨g4.nodup this.1, g5.nodup this.2⟩
    have hperm : (bfs (dumpSize nd) [nd]).Perm (desc nd) := by
      have := bfs_perm (dumpSize nd) [nd] (by simp [dumpSizes])
      simpa [descs] using this
    have hnewb := newIDs_perm hperm.symm hnew
    have hidec : UID.decodeHex nd.id = .ok ro.id := by rw [hid]; exact C01_hex_roundtrip _
    have hrootHas : s0.abs.Has ro.id := by rw [habs0]; exact ⟨_, upd_self _ _ _⟩
    obtain ⟨s1, hs1⟩ : ∃ s1, addEdges (bfs (dumpSize nd) [nd]) s0 = .ok s1 := by
      apply addEdges_bfs_ok _ hw0 _ hnewb
      · intro e he
        obtain ⟨x, o, _, _, g, _⟩ := hdec e (hperm.mem_iff.1 he)
        exact ⟨_, g⟩
      · intro d hm
        simp only [List.mem_singleton] at hm; subst hm
        exact ⟨_, hidec, hrootHas⟩
    have had : Added (desc nd) s0 s1 := by
      rcases addEdges_cases hw0 hnewb with ⟨s1', a, b⟩ | ⟨e, a⟩
      · rw [hs1] at a; cases a; exact added_perm hperm b
      · rw [hs1] at a; cases a
    have hnode : s1.abs.node = s.abs.node := by
      funext u
      by_cases hx : ∃ e ∈ desc nd, UID.decodeHex e.2.id = .ok u
      · obtain ⟨e, he, hu⟩ := hx
        obtain ⟨p', c', i1, i2, i3⟩ := had.edge e he
        rw [hu] at i2; cases i2
        obtain ⟨x, o, g1, g2, g3, g4, g5, p, po, g6, g7, g8⟩ := hdec e he
        rw [hu] at g3; cases g3
        rw [g8] at i1; cases i1
        rw [i3]
        symm
        refine (abs_node_iff h _ _).2 ⟨x, o, g1, g2, rfl, ?_⟩
        simp [absObj, g4.get, g5.get, g6, idAt, g7]
      · have hx' : ∀ e ∈ desc nd, UID.decodeHex e.2.id ≠ .ok u := fun e he hu => hx ⟨e, he, hu⟩
        rw [had.other u hx', habs0]
        by_cases hu : u = ro.id
        · subst hu
          simp only [ATree.add, upd_self]
          symm
          refine (abs_node_iff h _ _).2 ⟨r, ro, hro, hrin, rfl, ?_⟩
          simp [absObj, hrp]
        · simp only [ATree.add, upd_ne _ _ hu, ATree.empty]
          symm
          cases hs : s.abs.node u with
          | none => rfl
          | some n =>
            exfalso
            obtain ⟨x, o, g1, g2, g3, _⟩ := (abs_node_iff h _ _).1 hs
            have hne : x ≠ r := by
              rintro rfl
              rw [hro] at g1; cases g1; exact hu g3.symm
            obtain ⟨e, he, hde⟩ := dumpsTo_covers h hdt (ranc_root h hdep hr _ rfl ⟨o, g1, g2⟩) ⟨o, g1, g2⟩ hne
            obtain ⟨o3, i1, i2, _⟩ := dumpsTo_id hde
            rw [g1] at i1; cases i1
            exact hx' e he (by rw [i2, g3]; exact C01_hex_roundtrip _)
    have hHas : ∀ u, s1.abs.Has u ↔ s.abs.Has u := by intro u; simp [ATree.Has, hnode]
    have hInHas : ∀ {x : Ref} {o : NodeObj}, s.heap[x]? = some o → s.In x → s.abs.Has o.id := by
      intro x o hxo hx
      obtain ⟨o', g1, g2⟩ := hx
      rw [hxo] at g1; cases g1
      exact (abs_has_iff h _).2 ⟨x, o, hxo, g2, rfl⟩
    obtain ⟨bn1, bn2, bn3⟩ := dumpsNames_spec hb h.br
    obtain ⟨tn1, tn2, tn3⟩ := dumpsNames_spec ht h.tg
    rcases loadBranches_cases had.wf bn1 with ⟨s2, b1, b2, b3, b4, b5, b6, b7⟩ | ⟨e, _, x, hx, hx'⟩
    · rcases loadTags_cases b2 tn1 with ⟨s3, t1, t2, t3, t4, t5, t6, t7⟩ | ⟨e, _, x, hx, hx'⟩
      · refine ⟨s3, ?_, loadTags_reach (loadBranches_reach (addEdges_reach hre0 hnewb hs1) b1) t1, ?_⟩
        · simp only [load, hnd, hidec, Res.mapErr, Res.bind, hs0]
          rw [loadLoop_eq _ _ _ (by simp [dumpSizes]) (by simp; exact ⟨_, hidec⟩), hs1]
          simp only [b1, t1]
        · apply atree_ext
          · intro u; rw [t3, b3, hnode]
          · rw [t4, b4, had.root, habs0]
            simp [ATree.add, abs, hr, idAt, hro]
          · intro b
            rw [t5]
            by_cases hk : b ∈ AL.keys d.branches.entries
            · obtain ⟨e, he, rfl⟩ := List.mem_map.1 hk
              obtain ⟨u, g1, g2, g3⟩ := b6 e he
              obtain ⟨r', o', i1, i2, i3, i4⟩ := bn2 e he
              rw [i4, C01_hex_roundtrip] at g1; cases g1
              rw [g3]; simp [abs, getByBranch, i1, idAt, i2]
            · rw [b7 b hk, had.branch, habs0]
              simp [ATree.add, ATree.empty, abs, getByBranch, bn3 b hk]
          · intro b
            by_cases hk : b ∈ AL.keys d.tags.entries
            · obtain ⟨e, he, rfl⟩ := List.mem_map.1 hk
              obtain ⟨u, g1, g2, g3⟩ := t6 e he
              obtain ⟨r', o', i1, i2, i3, i4⟩ := tn2 e he
              rw [i4, C01_hex_roundtrip] at g1; cases g1
              rw [g3]; simp [abs, getByTag, i1, idAt, i2]
            · rw [t7 b hk, b5, had.tag, habs0]
              simp [ATree.add, ATree.empty, abs, getByTag, tn3 b hk]
      · exfalso
        obtain ⟨r', o', i1, i2, i3, i4⟩ := tn2 x hx
        apply hx' o'.id (by rw [i4]; exact C01_hex_roundtrip _)
        have := (hHas o'.id).2 (hInHas i2 i3)
        simpa [ATree.Has, b3] using this
    · exfalso
      obtain ⟨r', o', i1, i2, i3, i4⟩ := bn2 x hx
      exact hx' o'.id (by rw [i4]; exact C01_hex_roundtrip _) ((hHas o'.id).2 (hInHas i2 i3))

end TS
end Verif
