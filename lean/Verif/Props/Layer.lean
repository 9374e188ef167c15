import Verif.Layer.Model
import Verif.Props.Uid
import Verif.Tree.Spec
/-!
# C40: the layer store is a set of layers

The specification of a store is a map from IDs to what the layer holds. `Content` of a layer: `none` is a layer without a
`diff` directory.
-/
set_option autoImplicit false
namespace Verif
namespace Layer

/-- The layers of a store: what is in the directory of the ID. -/
def layers (s : Store) (u : UID) : Option (Option Diff) :=
  match AL.get s u.base32 with
  | some (.dir d) => some d
  | _ => none

/-- The directory holds nothing but layers. -/
structure Own (s : Store) : Prop where
  nodup : (AL.keys s).Nodup
  ent : ∀ n e, AL.get s n = some e → ∃ u d, n = UID.base32 u ∧ e = .dir d

theorem layers_iff {s : Store} {u : UID} {d : Option Diff} : layers s u = some d ↔ AL.get s u.base32 = some (.dir d) := by
  unfold layers
  split <;> simp_all

theorem layers_none {s : Store} (h : Own s) {u : UID} : layers s u = none ↔ AL.get s u.base32 = none := by
  unfold layers
  split
  · simp_all
  · rename_i hne
    refine ⟨fun _ => ?_, fun _ => rfl⟩
    cases hg : AL.get s u.base32 with
    | none => rfl
    | some e =>
      obtain ⟨_, d, _, rfl⟩ := h.ent _ _ hg
      exact absurd hg (hne d)

theorem layers_put (s : Store) (u : UID) (d : Option Diff) : layers (AL.put s u.base32 (.dir d)) = upd (layers s) u (some d) := by
  funext v
  unfold layers
  rw [AL.get_put]
  by_cases hv : v = u
  · subst hv; simp
  · rw [upd_ne _ _ hv, if_neg (fun hb => hv (C03_base32_injective hb).symm)]

theorem layers_del (s : Store) (u : UID) : layers (AL.del s u.base32) = upd (layers s) u none := by
  funext v
  unfold layers
  rw [AL.get_del]
  by_cases hv : v = u
  · subst hv; simp
  · rw [upd_ne _ _ hv, if_neg (fun hb => hv (C03_base32_injective hb).symm)]

theorem own_put {s : Store} (h : Own s) (u : UID) (d : Option Diff) : Own (AL.put s u.base32 (.dir d)) := by
  refine ⟨AL.nodup_put h.nodup _ _, fun n e hg => ?_⟩
  rw [AL.get_put] at hg
  split at hg
  · rename_i hn; cases hg; exact ⟨u, d, hn.symm, rfl⟩
  · exact h.ent n e hg

theorem own_del {s : Store} (h : Own s) (u : UID) : Own (AL.del s u.base32) := by
  refine ⟨AL.nodup_del h.nodup _, fun n e hg => ?_⟩
  rw [AL.get_del] at hg
  split at hg
  · cases hg
  · exact h.ent n e hg

theorem put_put_self {s : Store} {k : Str} {a b : LEnt} (h : AL.get s k = none) : AL.put (AL.put s k a) k b = AL.put s k b := by
  rw [AL.put_new h, AL.put_new h]
  induction s with
  | nil => simp [AL.put]
  | cons e l ih =>
    obtain ⟨k1, v1⟩ := e
    rw [AL.get_cons] at h
    split at h
    · cases h
    · rename_i hk
      simp only [List.cons_append, AL.put, hk, if_false, List.cons.injEq, true_and]
      exact ih h

/-- What `create` does, in one equation per case. -/
theorem create_eq (s : Store) (id : UID) (mk st mkDiff : Bool) :
    create s id mk st mkDiff =
      match AL.get s id.base32 with
      | some _ => (s, .err .mkdir)
      | none =>
        if mk then
          if mkDiff then (AL.put s id.base32 (.dir (some (.dir .empty))), .ok id)
          else (AL.put s id.base32 (.dir none), .err .diff)
        else (s, .err .mkdir) := by
  unfold create
  cases hg : AL.get s id.base32 with
  | some e => rfl
  | none =>
    cases mk with
    | false => rfl
    | true =>
      cases mkDiff with
      | false => simp [save]
      | true => simp [save, put_put_self hg]

theorem own_call {s : Store} (h : Own s) (op : Op) : Own (call s op).1 := by
  cases op with
  | create id mk st mkDiff =>
    simp only [call, create_eq]
    split
    · exact h
    · cases mk <;> cases mkDiff <;> first | exact h | exact own_put h _ _
  | delete id st rm left =>
    simp only [call, delete]
    split
    · cases st <;> cases rm <;> first | exact h | exact own_put h _ _ | exact own_del h _
    · cases st <;> cases rm <;> first | exact h | exact own_del h _
    · exact h
  | write id c =>
    simp only [call, write]
    split
    · exact own_put h _ _
    · exact h

theorem own_run {l : List (Op × Res LayerErr UID)} {s : Store} (h : Run l s) : Own s := by
  induction h with
  | new => exact ⟨by simp [AL.keys], fun n e hg => by simp at hg⟩
  | step op _ ih => exact own_call ih op

/-- **C40.** `Create` in a store made by any sequence of calls, whatever the random generator gives and whichever system calls
fail: it succeeds only with an ID that was not there, and then adds one empty layer; with an ID that is there it fails and
changes nothing; if the directory of the layer cannot be made nothing changes; without failures and with a new ID it succeeds. -/
theorem C40_create {l : List (Op × Res LayerErr UID)} {s s' : Store} (h : Run l s) {id : UID} {mk st mkDiff : Bool} {r : Res LayerErr UID}
    (hc : create s id mk st mkDiff = (s', r)) :
    (∀ v, r = .ok v → v = id ∧ layers s id = none ∧ layers s' = upd (layers s) id (some (some (.dir .empty)))) ∧
    (layers s id ≠ none → r = .err .mkdir ∧ s' = s) ∧
    (mk = false → s' = s) ∧
    (layers s id = none → mk = true → mkDiff = true → r = .ok id) ∧
    (∀ v, v ≠ id → layers s' v = layers s v) ∧ ((∃ v, r = .ok v) ∨ ∃ e, r = .err e) := by
  have ho := own_run h
  rw [create_eq] at hc
  cases hg : AL.get s id.base32 with
  | some e =>
    obtain ⟨u, d, hu, rfl⟩ := ho.ent _ _ hg
    rw [hg] at hc
    cases hc
    have hl : layers s id ≠ none := by rw [Ne, layers_none ho, hg]; simp
    exact ⟨fun v hv => (nomatch hv), fun _ => ⟨rfl, rfl⟩, fun _ => rfl, fun h0 => absurd h0 hl, fun _ _ => rfl, Or.inr ⟨_, rfl⟩⟩
  | none =>
    have hl : layers s id = none := (layers_none ho).2 hg
    rw [hg] at hc
    cases mk with
    | false =>
      cases hc
      exact ⟨fun v hv => (nomatch hv), fun h0 => absurd hl h0, fun _ => rfl, fun _ h1 => (nomatch h1), fun _ _ => rfl, Or.inr ⟨_, rfl⟩⟩
    | true =>
      cases mkDiff with
      | true =>
        simp only [if_true, Prod.mk.injEq] at hc
        obtain ⟨rfl, rfl⟩ := hc
        refine ⟨fun v hv => ?_, fun h0 => absurd hl h0, fun h1 => (nomatch h1), fun _ _ _ => rfl, fun v hv => ?_, Or.inl ⟨_, rfl⟩⟩
        · cases hv; exact ⟨rfl, hl, layers_put _ _ _⟩
        · rw [layers_put, upd_ne _ _ hv]
      | false =>
        simp only [if_true, Bool.false_eq_true, if_false, Prod.mk.injEq] at hc
        obtain ⟨rfl, rfl⟩ := hc
        refine ⟨fun v hv => (nomatch hv), fun h0 => absurd hl h0, fun h1 => (nomatch h1), fun _ _ h2 => (nomatch h2), fun v hv => ?_, Or.inr ⟨_, rfl⟩⟩
        rw [layers_put, upd_ne _ _ hv]

/-- **C40.** `Get` finds exactly the layers, under the ID asked for. -/
theorem C40_get {l : List (Op × Res LayerErr UID)} {s : Store} (h : Run l s) (id : UID) :
    (layers s id ≠ none → get s id true = .ok id) ∧ (layers s id = none → get s id true = .err .notFound) := by
  have ho := own_run h
  cases hg : AL.get s id.base32 with
  | none => simp [layers, get, hg, statDir]
  | some e =>
    obtain ⟨u, d, hu, rfl⟩ := ho.ent _ _ hg
    simp [layers, get, hg, statDir]

theorem listLoop_own : ∀ (es : Store), (∀ e ∈ es, ∃ u d, e = (UID.base32 u, LEnt.dir d)) →
    ∃ l, listLoop es = .ok l ∧ l.map UID.base32 = es.map Prod.fst
  | [], _ => ⟨[], rfl, rfl⟩
  | e :: es, h => by
    obtain ⟨u, d, rfl⟩ := h e List.mem_cons_self
    obtain ⟨l, hl, hm⟩ := listLoop_own es fun x hx => h x (List.mem_cons_of_mem _ hx)
    refine ⟨u :: l, ?_, by simp [hm]⟩
    simp [listLoop, C02_base32_roundtrip, hl]

/-- **C40.** `List` returns every layer once and nothing else, sorted by the names of the directories. -/
theorem C40_list {l : List (Op × Res LayerErr UID)} {s : Store} (h : Run l s) :
    ∃ ids, list s true = .ok ids ∧ ids.Nodup ∧ (∀ u, u ∈ ids ↔ layers s u ≠ none) ∧
      ids.Pairwise fun a b => strLt b.base32 a.base32 = false := by
  have ho := own_run h
  have hp := sortBy_perm (Prod.fst : Str × LEnt → Str) s
  obtain ⟨ids, hl, hm⟩ := listLoop_own (sortBy Prod.fst s) (by
    intro e he
    have hmem := hp.mem_iff.1 he
    obtain ⟨u, d, h1, h2⟩ := ho.ent e.1 e.2 (AL.get_of_mem ho.nodup hmem)
    exact ⟨u, d, Prod.ext h1 h2⟩)
  have hnd : (ids.map UID.base32).Nodup := by
    rw [hm]; exact (List.Perm.nodup_iff (hp.map _)).2 ho.nodup
  refine ⟨ids, by simp [list, hl], ?_, ?_, ?_⟩
  · exact List.Pairwise.imp (fun hne he => hne (congrArg _ he)) (List.pairwise_map.1 hnd)
  · intro u
    have h1 : u ∈ ids ↔ u.base32 ∈ AL.keys s := by
      constructor
      · intro hu
        have : u.base32 ∈ (sortBy Prod.fst s).map Prod.fst := hm ▸ List.mem_map.2 ⟨u, hu, rfl⟩
        exact (hp.map _).mem_iff.1 this
      · intro hu
        have : u.base32 ∈ ids.map UID.base32 := hm ▸ (hp.map _).mem_iff.2 hu
        obtain ⟨v, hv, he⟩ := List.mem_map.1 this
        rwa [← C03_base32_injective he]
    rw [h1, AL.mem_keys_iff]
    rw [Ne, layers_none ho]
    cases AL.get s u.base32 <;> simp
  · have hs := sorted_sortBy (Prod.fst : Str × LEnt → Str) s
    unfold Sorted at hs
    have h2 : (ids.map UID.base32).Pairwise fun a b => strLe a b = true := by
      rw [hm, List.pairwise_map]; exact hs
    refine List.Pairwise.imp ?_ (List.pairwise_map.1 h2)
    intro a b hab
    simpa [strLe] using hab

theorem listLoop_any : ∀ (es : List (Str × LEnt)) (ids : List UID), listLoop es = .ok ids →
    ∀ u, u ∈ ids ↔ ∃ n d, (n, LEnt.dir d) ∈ es ∧ UID.decodeBase32 n = .ok u
  | [], ids, h, u => by
    simp only [listLoop, Res.ok.injEq] at h
    simp [← h]
  | (n, .dir d) :: es, ids, h, u => by
    simp only [listLoop] at h
    split at h
    · rename_i id hid
      cases hl : listLoop es with
      | ok l =>
        rw [hl] at h
        simp only [Res.bind, Res.ok.injEq] at h
        rw [← h, List.mem_cons, listLoop_any es l hl u]
        constructor
        · rintro (rfl | ⟨m, e, h1, h2⟩)
          · exact ⟨n, d, .head _, hid⟩
          · exact ⟨m, e, .tail _ h1, h2⟩
        · rintro ⟨m, e, h1, h2⟩
          rcases List.mem_cons.1 h1 with h1 | h1
          · cases h1; rw [hid] at h2; cases h2; exact .inl rfl
          · exact .inr ⟨m, e, h1, h2⟩
      | err => rw [hl] at h; cases h
      | panic => rw [hl] at h; cases h
      | diverge => rw [hl] at h; cases h
    · rename_i x hx
      rw [listLoop_any es ids h u]
      constructor
      · rintro ⟨m, e, h1, h2⟩; exact ⟨m, e, .tail _ h1, h2⟩
      · rintro ⟨m, e, h1, h2⟩
        rcases List.mem_cons.1 h1 with h1 | h1
        · cases h1; rw [hx] at h2; cases h2
        · exact ⟨m, e, h1, h2⟩
    · cases h
    · cases h
  | (n, .linkDir) :: es, ids, h, u => by
    rw [listLoop_any es ids (by simpa [listLoop] using h) u]
    simp
  | (n, .other) :: es, ids, h, u => by
    rw [listLoop_any es ids (by simpa [listLoop] using h) u]
    simp

theorem listLoop_total : ∀ es : List (Str × LEnt), (∃ ids, listLoop es = .ok ids) ∨
    (listLoop es = .panic ∧ ∃ n d, (n, LEnt.dir d) ∈ es ∧ UID.decodeBase32 n = .panic) ∨
    (listLoop es = .diverge ∧ ∃ n d, (n, LEnt.dir d) ∈ es ∧ UID.decodeBase32 n = .diverge)
  | [] => .inl ⟨[], rfl⟩
  | (n, .dir d) :: es => by
    cases hn : UID.decodeBase32 n with
    | ok id =>
      rcases listLoop_total es with ⟨l, h⟩ | ⟨h, m, e, h1, h2⟩ | ⟨h, m, e, h1, h2⟩
      · exact .inl ⟨id :: l, by simp [listLoop, hn, h]⟩
      · exact .inr (.inl ⟨by simp [listLoop, hn, h], m, e, .tail _ h1, h2⟩)
      · exact .inr (.inr ⟨by simp [listLoop, hn, h], m, e, .tail _ h1, h2⟩)
    | err x =>
      rcases listLoop_total es with ⟨l, h⟩ | ⟨h, m, e, h1, h2⟩ | ⟨h, m, e, h1, h2⟩
      · exact .inl ⟨l, by simp [listLoop, hn, h]⟩
      · exact .inr (.inl ⟨by simp [listLoop, hn, h], m, e, .tail _ h1, h2⟩)
      · exact .inr (.inr ⟨by simp [listLoop, hn, h], m, e, .tail _ h1, h2⟩)
    | panic => exact .inr (.inl ⟨by simp [listLoop, hn], n, d, .head _, hn⟩)
    | diverge => exact .inr (.inr ⟨by simp [listLoop, hn], n, d, .head _, hn⟩)
  | (n, .linkDir) :: es => by
    rcases listLoop_total es with ⟨l, h⟩ | ⟨h, m, e, h1, h2⟩ | ⟨h, m, e, h1, h2⟩
    · exact .inl ⟨l, by simp [listLoop, h]⟩
    · exact .inr (.inl ⟨by simp [listLoop, h], m, e, .tail _ h1, h2⟩)
    · exact .inr (.inr ⟨by simp [listLoop, h], m, e, .tail _ h1, h2⟩)
  | (n, .other) :: es => by
    rcases listLoop_total es with ⟨l, h⟩ | ⟨h, m, e, h1, h2⟩ | ⟨h, m, e, h1, h2⟩
    · exact .inl ⟨l, by simp [listLoop, h]⟩
    · exact .inr (.inl ⟨by simp [listLoop, h], m, e, .tail _ h1, h2⟩)
    · exact .inr (.inr ⟨by simp [listLoop, h], m, e, .tail _ h1, h2⟩)

/-- **C40.** Files and directories that do not belong into the store hide no layer: whatever is there, `List` returns exactly the
IDs that name a directory, unless a name makes the decoder panic (`C40_violated_panic`). -/
theorem C40_list_foreign (s : Store) (hs : ∀ n d, (n, LEnt.dir d) ∈ s → (∃ u, UID.decodeBase32 n = .ok u) ∨ ∃ e, UID.decodeBase32 n = .err e) :
    ∃ ids, list s true = .ok ids ∧ (∀ u, u ∈ ids ↔ ∃ n d, (n, LEnt.dir d) ∈ s ∧ UID.decodeBase32 n = .ok u) ∧
      ∀ u, layers s u ≠ none → u ∈ ids := by
  have hp := sortBy_perm (Prod.fst : Str × LEnt → Str) s
  obtain ⟨ids, h⟩ : ∃ ids, listLoop (sortBy Prod.fst s) = .ok ids := by
    rcases listLoop_total (sortBy Prod.fst s) with h | ⟨_, n, d, h1, h2⟩ | ⟨_, n, d, h1, h2⟩
    · exact h
    · rcases hs n d (hp.mem_iff.1 h1) with ⟨u, hu⟩ | ⟨e, he⟩
      · rw [hu] at h2; cases h2
      · rw [he] at h2; cases h2
    · rcases hs n d (hp.mem_iff.1 h1) with ⟨u, hu⟩ | ⟨e, he⟩
      · rw [hu] at h2; cases h2
      · rw [he] at h2; cases h2
  have hm : ∀ u, u ∈ ids ↔ ∃ n d, (n, LEnt.dir d) ∈ s ∧ UID.decodeBase32 n = .ok u := fun u => by
    rw [listLoop_any _ _ h u]
    constructor
    · rintro ⟨n, d, h1, h2⟩; exact ⟨n, d, hp.mem_iff.1 h1, h2⟩
    · rintro ⟨n, d, h1, h2⟩; exact ⟨n, d, hp.mem_iff.2 h1, h2⟩
  refine ⟨ids, by simp [list, h], hm, fun u hu => (hm u).2 ?_⟩
  cases hl : layers s u with
  | none => exact absurd hl hu
  | some d => exact ⟨_, d, AL.mem_of_get (layers_iff.1 hl), C02_base32_roundtrip u⟩

/-- **C40**, `Get` with anything else in the directory: it gives the ID if there is a directory with the name of the layer, or a link to
one; a file or nothing is no layer. -/
theorem C40_get_foreign (s : Store) (u : UID) :
    (get s u true = .ok u ↔ AL.get s u.base32 = some .linkDir ∨ ∃ d, AL.get s u.base32 = some (.dir d)) ∧
    (get s u true = .err .notFound ↔ AL.get s u.base32 = some .other ∨ AL.get s u.base32 = none) := by
  cases hg : AL.get s u.base32 with
  | none => simp [get, hg, statDir]
  | some e => cases e <;> simp [get, hg, statDir]

/-- A store with a stray file, a stray directory in front, and a layer. -/
example : ∃ s : Store, s.length = 3 ∧ (∃ u, layers s u ≠ none) ∧
    ∀ n d, (n, LEnt.dir d) ∈ s → (∃ u, UID.decodeBase32 n = .ok u) ∨ ∃ e, UID.decodeBase32 n = .err e := by
  refine ⟨[(lit "A", .dir none), (lit "B", .other), (UID.sample.base32, .dir none)], rfl, ⟨UID.sample, by simp [layers, AL.get, show lit "A" ≠ UID.sample.base32 by decide, show lit "B" ≠ UID.sample.base32 by decide]⟩, fun n d h => ?_⟩
  simp only [List.mem_cons, Prod.mk.injEq, List.not_mem_nil, or_false, reduceCtorEq, and_false, false_or] at h
  rcases h with ⟨rfl, _⟩ | ⟨rfl, _⟩
  · exact .inr (by
      have : (match UID.decodeBase32 (lit "A") with | .err _ => true | _ => false) = true := by decide
      split at this
      · rename_i e he; exact ⟨e, he⟩
      · cases this)
  · exact .inl ⟨_, C02_base32_roundtrip _⟩

/-- **C40.** `Delete` removes exactly the named layer; an unknown one is refused; a removal that fails half way leaves every
other layer alone. -/
theorem C40_delete {l : List (Op × Res LayerErr UID)} {s s' : Store} (h : Run l s) {id : UID} {st rm : Bool} {left : Option Diff}
    {r : Res LayerErr UID} (hc : delete s id st rm left = (s', r)) :
    (∀ v, r = .ok v → v = id ∧ layers s id ≠ none ∧ layers s' = upd (layers s) id none) ∧
    (layers s id = none → r = .err .notFound ∧ s' = s) ∧
    (layers s id ≠ none → st = true → rm = true → r = .ok id) ∧
    (∀ e, r = .err e → layers s id ≠ none → layers s' id ≠ none) ∧
    (∀ v, v ≠ id → layers s' v = layers s v) ∧ ((∃ v, r = .ok v) ∨ ∃ e, r = .err e) := by
  have ho := own_run h
  unfold delete at hc
  cases hg : AL.get s id.base32 with
  | none =>
    have hl : layers s id = none := (layers_none ho).2 hg
    rw [hg] at hc
    cases hc
    exact ⟨fun v hv => (nomatch hv), fun _ => ⟨rfl, rfl⟩, fun h0 => absurd hl h0, fun _ _ h0 => absurd hl h0, fun _ _ => rfl, Or.inr ⟨_, rfl⟩⟩
  | some e =>
    obtain ⟨u, d, hu, rfl⟩ := ho.ent _ _ hg
    have hl : layers s id ≠ none := by rw [Ne, layers_none ho, hg]; simp
    rw [hg] at hc
    cases st with
    | false =>
      cases hc
      exact ⟨fun v hv => (nomatch hv), fun h0 => absurd h0 hl, fun _ h1 => (nomatch h1), fun _ _ h0 => h0, fun _ _ => rfl, Or.inr ⟨_, rfl⟩⟩
    | true =>
      cases rm with
      | true =>
        simp only [if_true, Prod.mk.injEq] at hc
        obtain ⟨rfl, rfl⟩ := hc
        refine ⟨fun v hv => ?_, fun h0 => absurd h0 hl, fun _ _ _ => rfl, fun _ he => (nomatch he), fun v hv => ?_, Or.inl ⟨_, rfl⟩⟩
        · cases hv; exact ⟨rfl, hl, layers_del _ _⟩
        · rw [layers_del, upd_ne _ _ hv]
      | false =>
        simp only [if_true, Bool.false_eq_true, if_false, Prod.mk.injEq] at hc
        obtain ⟨rfl, rfl⟩ := hc
        refine ⟨fun v hv => (nomatch hv), fun h0 => absurd h0 hl, fun _ _ h2 => (nomatch h2), fun _ _ _ => ?_, fun v hv => ?_, Or.inr ⟨_, rfl⟩⟩
        · rw [layers_put]; simp
        · rw [layers_put, upd_ne _ _ hv]

/-- The layers that were created and not deleted, read off the calls and their results alone (the last call first). -/
def Alive : List (Op × Res LayerErr UID) → UID → Prop
  | [], _ => False
  | (.create _ _ _ _, .ok v) :: l, u => u = v ∨ Alive l u
  | (.delete _ _ _ _, .ok v) :: l, u => u ≠ v ∧ Alive l u
  | _ :: l, u => Alive l u

/-- No `Create` failed between making the directory of the layer and making `diff`. -/
def Whole (l : List (Op × Res LayerErr UID)) : Prop := ∀ op, (op, Res.err LayerErr.diff) ∉ l

theorem layers_write (s : Store) (id : UID) (c : Content) (u : UID) : layers (write s id c) u = none ↔ layers s u = none := by
  unfold write
  split
  · rename_i hg
    rw [layers_put]
    by_cases hu : u = id
    · subst hu; simp [layers, hg]
    · rw [upd_ne _ _ hu]
  · exact Iff.rfl

theorem alive_listed {l : List (Op × Res LayerErr UID)} {s : Store} (h : Run l s) (u : UID) : Alive l u → layers s u ≠ none := by
  induction h with
  | new => exact fun h => h.elim
  | @step l s op h ih =>
    cases op with
    | create id mk st mkDiff =>
      obtain ⟨h1, _, _, _, h5, h6⟩ := C40_create h (s' := (create s id mk st mkDiff).1) (r := (create s id mk st mkDiff).2) rfl
      simp only [call] at *
      intro ha
      by_cases hu : u = id
      · subst hu
        rcases h6 with ⟨v, hv⟩ | ⟨e, he⟩
        · rw [(h1 v hv).2.2]; simp
        · rw [he] at ha
          have h0 := ih ha
          rw [create_eq] at he ⊢
          cases hg : AL.get s u.base32 with
          | none => exact absurd ((layers_none (own_run h)).2 hg) h0
          | some x => simp only; exact h0
      · rw [h5 u hu]
        rcases h6 with ⟨v, hv⟩ | ⟨e, he⟩
        · rw [hv] at ha
          rcases ha with ha | ha
          · exact absurd (ha.trans (h1 v hv).1) hu
          · exact ih ha
        · rw [he] at ha; exact ih ha
    | delete id st rm left =>
      obtain ⟨h1, _, _, h4, h5, h6⟩ := C40_delete h (s' := (delete s id st rm left).1) (r := (delete s id st rm left).2) rfl
      simp only [call] at *
      intro ha
      rcases h6 with ⟨v, hv⟩ | ⟨e, he⟩
      · rw [hv] at ha
        rw [h5 u (fun hu => ha.1 (hu.trans (h1 v hv).1.symm))]
        exact ih ha.2
      · rw [he] at ha
        by_cases hu : u = id
        · subst hu; exact h4 e he (ih ha)
        · rw [h5 u hu]; exact ih ha
    | write id c =>
      simp only [call] at *
      intro ha
      rw [Ne, layers_write]
      exact ih ha

theorem listed_alive {l : List (Op × Res LayerErr UID)} {s : Store} (h : Run l s) (hw : Whole l) (u : UID) : layers s u ≠ none → Alive l u := by
  induction h with
  | new => intro h; exact absurd rfl h
  | @step l s op h ih =>
    have ih := ih fun op hm => hw op (List.mem_cons_of_mem _ hm)
    cases op with
    | create id mk st mkDiff =>
      obtain ⟨h1, _, _, _, h5, h6⟩ := C40_create h (s' := (create s id mk st mkDiff).1) (r := (create s id mk st mkDiff).2) rfl
      have hne : (create s id mk st mkDiff).2 ≠ .err .diff := fun he => hw (.create id mk st mkDiff) (by simp [call, he])
      simp only [call] at *
      intro ha
      rcases h6 with ⟨v, hv⟩ | ⟨e, he⟩
      · rw [hv]
        by_cases hu : u = id
        · exact Or.inl (hu.trans (h1 v hv).1.symm)
        · exact Or.inr (ih (by rwa [h5 u hu] at ha))
      · rw [he]
        refine ih ?_
        rw [create_eq] at ha hne
        cases hg : AL.get s id.base32 with
        | some x => rw [hg] at ha; exact ha
        | none =>
          rw [hg] at ha hne
          cases mk with
          | false => exact ha
          | true =>
            cases mkDiff with
            | false => exact absurd rfl hne
            | true => rw [create_eq, hg] at he; cases he
    | delete id st rm left =>
      obtain ⟨h1, h2, _, _, h5, h6⟩ := C40_delete h (s' := (delete s id st rm left).1) (r := (delete s id st rm left).2) rfl
      simp only [call] at *
      intro ha
      rcases h6 with ⟨v, hv⟩ | ⟨e, he⟩
      · rw [hv]
        have hu : u ≠ id := by
          rintro rfl
          rw [(h1 v hv).2.2] at ha
          simp at ha
        exact ⟨fun hu' => hu (hu'.trans (h1 v hv).1), ih (by rwa [h5 u hu] at ha)⟩
      · rw [he]
        refine ih ?_
        by_cases hu : u = id
        · subst hu
          intro h0
          rw [(h2 h0).2] at ha
          exact ha h0
        · rwa [h5 u hu] at ha
    | write id c =>
      simp only [call] at *
      intro ha
      rw [Ne, layers_write] at ha
      exact ih ha

/-- **C40.** `List` returns exactly the layers that were created and not deleted, for every sequence of calls with any random
choices and any failures, as long as no `Create` failed after it had made its directory. -/
theorem C40_history_partial {l : List (Op × Res LayerErr UID)} {s : Store} (h : Run l s) (hw : Whole l) :
    ∃ ids, list s true = .ok ids ∧ ids.Nodup ∧ ∀ u, u ∈ ids ↔ Alive l u := by
  obtain ⟨ids, h1, h2, h3, _⟩ := C40_list h
  exact ⟨ids, h1, h2, fun u => (h3 u).trans ⟨listed_alive h hw u, alive_listed h u⟩⟩

/-- **C40.** Whatever fails, no layer that was created and not deleted is ever missing from the list. -/
theorem C40_none_missing {l : List (Op × Res LayerErr UID)} {s : Store} (h : Run l s) :
    ∃ ids, list s true = .ok ids ∧ ∀ u, Alive l u → u ∈ ids := by
  obtain ⟨ids, h1, _, h3, _⟩ := C40_list h
  exact ⟨ids, h1, fun u hu => (h3 u).2 (alive_listed h u hu)⟩

/-- **C40** is violated: a `Create` that fails to make `diff` leaves a layer behind that `Get` and `List` report although it
was never created, and which has no `diff` directory. -/
theorem C40_violated_half (id : UID) (st : Bool) : ∃ l s, Run l s ∧ (∀ u, ¬ Alive l u) ∧ list s true = .ok [id] ∧
    get s id true = .ok id ∧ layers s id = some none := by
  refine ⟨_, _, Run.step (.create id true st false) .new, ?_, ?_, ?_, ?_⟩
  · intro u hu; simp [call, create_eq, Alive] at hu
  · simp [call, create_eq, list, sortBy, insertBy, AL.put, listLoop, C02_base32_roundtrip]
  · simp [call, create_eq, get, statDir, AL.put, AL.get]
  · simp [call, create_eq, layers, AL.put, AL.get]

/-- **C40** is violated in a directory that holds other names: `List` reports an ID for a directory whose name is not the one
`Get` looks for. -/
theorem C40_violated_alias : ∃ (s : Store) (u : UID), list s true = .ok [u] ∧ get s u true = .err .notFound := by
  refine ⟨[(lit "AAAQEAYEAUDAOCAJBIFQYDIOB7", .dir none)], UID.sample, ?_, ?_⟩
  · have : UID.decodeBase32 (lit "AAAQEAYEAUDAOCAJBIFQYDIOB7") = .ok UID.sample := by decide
    simp [list, sortBy, insertBy, listLoop, this]
  · have : UID.sample.base32 ≠ lit "AAAQEAYEAUDAOCAJBIFQYDIOB7" := by decide
    simp [get, AL.get, statDir, this.symm]

/-- **C40** is violated in a directory that holds other names: a name with a line feed makes `List` panic. -/
theorem C40_violated_panic : ∃ s : Store, list s true = .panic := by
  refine ⟨[(lit "AAAQEAYEAUDAOCAJBIFQYDIOB\n", .dir none)], ?_⟩
  simp [list, sortBy, insertBy, listLoop, C05_violated_newline]

/-- A case with two layers of which one is deleted, a repeated ID, and a failed deletion. -/
example : ∃ l s, Run l s ∧ Whole l ∧ Alive l UID.sample ∧ ¬ Alive l (UID.new 0 0) ∧ l.length = 5 := by
  have hne : UID.sample ≠ UID.new 0 0 := by decide
  have hb : UID.sample.base32 ≠ (UID.new 0 0).base32 := fun h => hne (C03_base32_injective h)
  refine ⟨_, _, .step (.delete (UID.new 0 0) true true none) (.step (.delete UID.sample true false none) (.step (.create UID.sample true true true)
    (.step (.create (UID.new 0 0) true true true) (.step (.create UID.sample true true true) .new)))), ?_, ?_, ?_, rfl⟩
  · intro op hm
    simp [call, create_eq, delete, AL.put, AL.get, hb] at hm
  · simp [call, create_eq, delete, AL.put, AL.get, hb, Alive, hne]
  · simp [call, create_eq, delete, AL.put, AL.get, hb, Alive]

end Layer
end Verif
