import Verif.World.SeqInit
/-!
# Edits of branches and tags, run alone
-/
set_option autoImplicit false
namespace Verif
open M TS Json

/-- The names in the edit can be looked up without trouble (`PlainKey`). -/
def Edit.Plain : Edit → Prop
  | .addBranch _ ref _ => PlainKey ref
  | .addTag _ ref _ => PlainKey ref
  | _ => True

/-- What an edit in the workspace `w` with the last commit `p` does to the tree. -/
inductive Edits (a : ATree) (w : Ws) (p : UID) : Edit → ATree → Prop where
  | addBranch {name ref : Str} {force : Bool} {v : UID} {k : KeyType} : Ws.Resolves a w.id p ref v k →
      (a.branch (w.id.base32 ++ lit "/" ++ name) = none ∨ force = true) →
      Edits a w p (.addBranch name ref force) (a.setBranch (w.id.base32 ++ lit "/" ++ name) v)
  | deleteOwn {name : Str} : name ≠ w.branch → a.branch (w.id.base32 ++ lit "/" ++ name) ≠ none →
      Edits a w p (.deleteBranch name false) (a.delBranch (w.id.base32 ++ lit "/" ++ name))
  | deleteGlobal {name : Str} : a.branch (lit "global/" ++ name) ≠ none →
      Edits a w p (.deleteBranch name true) (a.delBranch (lit "global/" ++ name))
  | addTag {name ref : Str} {force : Bool} {v : UID} {k : KeyType} : Ws.Resolves a w.id p ref v k →
      (a.tag name = none ∨ force = true) → Edits a w p (.addTag name ref force) (a.setTag name v)
  | deleteTag {name : Str} : a.tag name ≠ none → Edits a w p (.deleteTag name) (a.delTag name)

theorem mapErr_ok {ε ε' α : Type} {r : Res ε α} {g : ε → ε'} {a : α} (h : r.mapErr g = .ok a) : r = .ok a := by
  cases r <;> simp_all [Res.mapErr]

theorem edit_reach {s s' : TS} {w : Ws} {e : Edit} (hr : Reach s) (h : e.apply s w = .ok s') : Reach s' ∧ s'.tree.nodes = s.tree.nodes := by
  cases e with
  | addBranch name ref force =>
    simp only [Edit.apply, Ws.addBranch, Res.bind] at h
    split at h <;> try cases h
    split at h
    · cases h
    split at h
    · cases h
    split at h
    · cases h
    have h' := mapErr_ok h
    exact ⟨.ok (op := .addBranch _ _) hr trivial h', addBranch_nodes h'⟩
  | deleteBranch name g =>
    simp only [Edit.apply, Ws.deleteBranch] at h
    split at h
    · cases h
    split at h
    · rename_i x s1 hx
      injection h with h
      subst h
      have : s1 = (s.deleteBranch (if g = true then (⟨none, name⟩ : BranchInfo) else ⟨some w.id, name⟩).fullName).1 := by rw [hx]
      rw [this]
      refine ⟨.ok (op := .deleteBranch _) hr trivial rfl, ?_⟩
      simp only [TS.deleteBranch]
      split <;> rfl
    · cases h
  | addTag name ref force =>
    simp only [Edit.apply, Ws.addTag, Res.bind] at h
    split at h <;> try cases h
    split at h
    · cases h
    split at h
    · cases h
    split at h
    · cases h
    have h' := mapErr_ok h
    refine ⟨.ok (op := .addTag _ _) hr trivial h', ?_⟩
    unfold TS.addTag at h'
    split at h'
    · cases h'
    split at h'
    · cases h'
    · injection h' with h'; rw [← h']
  | deleteTag name =>
    simp only [Edit.apply, Ws.deleteTag] at h
    split at h
    · rename_i x s1 hx
      injection h with h
      subst h
      have : s1 = (s.deleteTag name).1 := by rw [hx]
      rw [this]
      refine ⟨.ok (op := .deleteTag _) hr trivial rfl, ?_⟩
      simp only [TS.deleteTag]
      split <;> rfl
    · cases h

/-- One edit: it either does what `Edits` says, or `Edits` allows nothing and it is refused. -/
theorem edit_spec {s : TS} {w : Ws} {u p : UID} {e : Edit} (hr : Reach s) (hh : w.HeadAt s u p) (hp : e.Plain) :
    (∃ s', e.apply s w = .ok s' ∧ Reach s' ∧ w.HeadAt s' u p ∧ Edits s.abs w p e s'.abs ∧ s'.abs.node = s.abs.node) ∨
    (∃ err, e.apply s w = .err err ∧ ∀ a', ¬ Edits s.abs w p e a') := by
  have hw := wf_of_reach hr
  have fin : ∀ s' : TS, e.apply s w = .ok s' → Edits s.abs w p e s'.abs → s'.abs.node = s.abs.node →
      (∃ s', e.apply s w = .ok s' ∧ Reach s' ∧ w.HeadAt s' u p ∧ Edits s.abs w p e s'.abs ∧ s'.abs.node = s.abs.node) := by
    intro s' h1 h2 h3
    obtain ⟨g1, g2⟩ := edit_reach hr h1
    refine ⟨s', h1, g1, ⟨?_, ?_⟩, h2, h3⟩
    · rw [TS.get, g2]; exact hh.1
    · rw [h3]; exact hh.2
  cases e with
  | addBranch name ref force =>
    obtain ⟨h1, h2⟩ := Ws.C24_add_branch hw hh (name := name) (ref := ref) hp force
    by_cases hres : ∃ v k, Ws.Resolves s.abs w.id p ref v k
    · obtain ⟨v, k, hv⟩ := hres
      obtain ⟨g1, g2⟩ := h2 v k hv
      by_cases hc : s.abs.branch (BranchInfo.fullName ⟨some w.id, name⟩) = none ∨ force = true
      · obtain ⟨s', a, b, c, d⟩ := g2 hc
        left
        refine fin s' a ?_ (by rw [d]; rfl)
        rw [d]; exact .addBranch hv hc
      · have hc' : s.abs.branch (BranchInfo.fullName ⟨some w.id, name⟩) ≠ none ∧ force = false :=
          ⟨fun h => hc (Or.inl h), by cases force <;> simp_all⟩
        right
        refine ⟨_, g1 hc', ?_⟩
        intro a' ha
        cases ha with
        | addBranch _ h => exact hc h
    · right
      refine ⟨_, h1 fun v k hv => hres ⟨v, k, hv⟩, ?_⟩
      intro a' ha
      cases ha with
      | addBranch h _ => exact hres ⟨_, _, h⟩
  | addTag name ref force =>
    obtain ⟨h1, h2⟩ := Ws.C24_add_tag hw hh (name := name) (ref := ref) hp force
    by_cases hres : ∃ v k, Ws.Resolves s.abs w.id p ref v k
    · obtain ⟨v, k, hv⟩ := hres
      obtain ⟨g1, g2⟩ := h2 v k hv
      by_cases hc : s.abs.tag name = none ∨ force = true
      · obtain ⟨s', a, b, c, d⟩ := g2 hc
        left
        refine fin s' a ?_ (by rw [d]; rfl)
        rw [d]; exact .addTag hv hc
      · have hc' : s.abs.tag name ≠ none ∧ force = false :=
          ⟨fun h => hc (Or.inl h), by cases force <;> simp_all⟩
        right
        refine ⟨_, g1 hc', ?_⟩
        intro a' ha
        cases ha with
        | addTag _ h => exact hc h
    · right
      refine ⟨_, h1 fun v k hv => hres ⟨v, k, hv⟩, ?_⟩
      intro a' ha
      cases ha with
      | addTag h _ => exact hres ⟨_, _, h⟩
  | deleteBranch name g =>
    by_cases hc : g = true ∨ name ≠ w.branch
    · obtain ⟨h1, h2⟩ := Ws.C25_delete_branch hw w name g hc
      by_cases hb : s.abs.branch (BranchInfo.fullName ⟨if g then none else some w.id, name⟩) = none
      · right
        refine ⟨_, h1 hb, ?_⟩
        intro a' ha
        cases ha with
        | deleteOwn _ h => exact h hb
        | deleteGlobal h => exact h hb
      · obtain ⟨s', a, b, c, d⟩ := h2 hb
        left
        refine fin s' a ?_ (by rw [d]; rfl)
        rw [d]
        cases g with
        | true => exact .deleteGlobal hb
        | false => exact .deleteOwn (hc.resolve_left nofun) hb
    · have hg : g = false := by cases g <;> simp_all
      have hn : name = w.branch := Classical.byContradiction fun h => hc (Or.inr h)
      subst hg hn
      right
      refine ⟨_, Ws.C25_checked_out s w, ?_⟩
      intro a' ha
      cases ha with
      | deleteOwn h _ => exact h rfl
  | deleteTag name =>
    obtain ⟨h1, h2, h3, h4⟩ := deleteTag_spec hw name
    by_cases ht : s.abs.tag name = none
    · right
      have : (s.deleteTag name).2 = false := by
        cases hx : (s.deleteTag name).2 with
        | false => rfl
        | true =>
          obtain ⟨u, hu⟩ := h4.1 hx
          rw [ht] at hu; cases hu
      refine ⟨.tagNotFound, ?_, ?_⟩
      · simp only [Edit.apply, Ws.deleteTag]
        generalize s.deleteTag name = x at this
        obtain ⟨x1, x2⟩ := x
        simp only at this; subst this; rfl
      · intro a' ha
        cases ha with
        | deleteTag h => exact h ht
    · left
      have : (s.deleteTag name).2 = true := h4.2 (Option.ne_none_iff_exists'.1 ht)
      refine fin (s.deleteTag name).1 ?_ (by rw [h2]; exact .deleteTag ht) (by rw [h2]; rfl)
      simp only [Edit.apply, Ws.deleteTag]
      generalize s.deleteTag name = x at this
      obtain ⟨x1, x2⟩ := x
      simp only at this; subst this; rfl

/-- Several edits one after the other. -/
inductive EditsAll (w : Ws) (p : UID) : List Edit → ATree → ATree → Prop where
  | nil {a : ATree} : EditsAll w p [] a a
  | cons {a b c : ATree} {e : Edit} {es : List Edit} : Edits a w p e b → EditsAll w p es b c → EditsAll w p (e :: es) a c

theorem editsAll_snoc {w : Ws} {p : UID} {es : List Edit} {e : Edit} {a b c : ATree} (h : EditsAll w p es a b) (h' : Edits b w p e c) :
    EditsAll w p (es ++ [e]) a c := by
  induction h with
  | nil => exact .cons h' .nil
  | cons h1 _ ih => exact .cons h1 (ih h')

theorem editsAll_node {w : Ws} {p : UID} {es : List Edit} {a b : ATree} (h : EditsAll w p es a b) : b.node = a.node ∧ b.root = a.root := by
  induction h with
  | nil => exact ⟨rfl, rfl⟩
  | cons h1 _ ih => cases h1 <;> exact ih

section
variable {E : Env} {f : Faults}

/-- The disk `d` where the space `dir` has this tree file. -/
def Shelved (E : Env) (dir : Str) (a : ATree) (d d' : Disk) : Prop :=
  ∃ T b, Reach T ∧ T.abs = a ∧ SavesAs E.sh T b ∧ d' = d.setSpace dir (some (some b))

/-- What a list of edits may leave wherever it stops. -/
def EditMid (E : Env) (dir : Str) (w : Ws) (p : UID) (es : List Edit) (a : ATree) (d d' : Disk) : Prop :=
  d' = d ∨ ∃ es1 T b q, es1 ≠ [] ∧ es1 <+: es ∧ Reach T ∧ EditsAll w p es1 a T.abs ∧ SavesAs E.sh T b ∧ q <+: b ∧
    d' = d.setSpace dir (some (some q))

/-- From the disk `dc`, where the edits `done` have been made, do the edits `es`. -/
theorem editAll_wp {dir : Str} {w : Ws} {u p : UID} {d : Disk} {a : ATree} (hd : d.space dir ≠ none) :
    ∀ (es done : List Edit) (s : TS) (dc : Disk), Reach s → w.HeadAt s u p → (∀ e ∈ es, e.Plain) →
      EditsAll w p done a s.abs → (done = [] ∧ dc = d ∨ done ≠ [] ∧ Shelved E dir s.abs d dc) →
    wpm E f (EditMid E dir w p (done ++ es) a d) (editAll dir w es s)
      (fun s' d' => Reach s' ∧ EditsAll w p (done ++ es) a s'.abs ∧ (done ++ es = [] ∧ d' = d ∨ Shelved E dir s'.abs d d'))
      (fun e d' =>
        (∃ es1 e1 b, done ++ es1 ++ [e1] <+: done ++ es ∧ EditsAll w p (done ++ es1) a b ∧ (∀ c, ¬ Edits b w p e1 c) ∧
          (done ++ es1 = [] ∧ d' = d ∨ done ++ es1 ≠ [] ∧ Shelved E dir b d d') ∧ e.early = true) ∨
        (EditMid E dir w p (done ++ es) a d d' ∧ e.early = false ∧ f.io = true)) dc := by
  intro es
  induction es with
  | nil =>
    intro done s dc hr hh _ hE hdc
    rw [editAll]
    refine wpm_pure ⟨hr, by rw [List.append_nil]; exact hE, ?_⟩
    rcases hdc with ⟨h1, h2⟩ | ⟨h1, h2⟩
    · exact Or.inl ⟨by rw [h1]; rfl, h2⟩
    · exact Or.inr h2
  | cons e es ih =>
    intro done s dc hr hh hp hE hdc
    rw [editAll]
    rcases edit_spec hr hh (hp e List.mem_cons_self) with ⟨s', h1, h2, h3, h4, h5⟩ | ⟨err, h1, h2⟩
    rotate_left
    · refine wpm_bind (wpm_lift_err h1 (Or.inl ⟨[], e, s.abs, ?_, by rw [List.append_nil]; exact hE, h2, ?_, rfl⟩))
      · rw [List.append_nil]
        exact ⟨es, by simp⟩
      · rw [List.append_nil]
        exact hdc
    have hE' := editsAll_snoc hE h4
    have hpre : done ++ [e] <+: done ++ e :: es := ⟨es, by simp⟩
    have hdcs : dc.space dir ≠ none := by
      rcases hdc with ⟨_, h⟩ | ⟨_, T, b, _, _, _, h⟩
      · rw [h]; exact hd
      · rw [h]; simp [Disk.setSpace]
    have hsave : ∀ x, SavingTree E dir s' dc x → EditMid E dir w p (done ++ e :: es) a d x := by
      rintro x (rfl | ⟨b, q, g1, g2, rfl⟩)
      · rcases hdc with ⟨_, h⟩ | ⟨hne, T, b, hT1, hT2, hT3, h⟩
        · exact Or.inl h
        · exact Or.inr ⟨done, T, b, b, hne, ⟨e :: es, rfl⟩, hT1, by rw [hT2]; exact hE, hT3, List.prefix_refl b, h⟩
      · refine Or.inr ⟨done ++ [e], s', b, q, by simp, hpre, h2, hE', g1, g2, ?_⟩
        rcases hdc with ⟨_, h⟩ | ⟨_, T, b', _, _, _, h⟩
        · rw [h]
        · rw [h, setSpace_setSpace]
    refine wpm_bind (wpm_lift_ok h1 (wpm_bind (wpm_weaken (spaceSave_wp h2 hdcs) hsave (fun _ d1 g1 => ?_) fun er d1 g1 => ?_)))
    rotate_left
    · exact Or.inr ⟨hsave _ g1.1, g1.2.1, g1.2.2⟩
    obtain ⟨b, hb, hd1⟩ := g1
    have hsh : Shelved E dir s'.abs d d1 := by
      refine ⟨s', b, h2, rfl, hb, ?_⟩
      rcases hdc with ⟨_, h⟩ | ⟨_, T, b', _, _, _, h⟩
      · rw [hd1, h]
      · rw [hd1, h, setSpace_setSpace]
    have hassoc : done ++ [e] ++ es = done ++ e :: es := by simp
    have := ih (done ++ [e]) s' d1 h2 h3 (fun e' he => hp e' (List.mem_cons_of_mem _ he)) hE' (Or.inr ⟨by simp, hsh⟩)
    rw [hassoc] at this
    refine wpm_mono this (fun s2 d2 g => g) fun er d2 g => ?_
    rcases g with ⟨es1, e1, b1, g1, g2, g3, g4, g5⟩ | g
    · refine Or.inl ⟨e :: es1, e1, b1, ?_, ?_, g3, ?_, g5⟩
      · simpa using g1
      · simpa using g2
      · simpa using g4
    · exact Or.inr g

/-- `branch` and `tag` with changes, on a workspace that opens. -/
theorem editCmd_wp {d : Disk} {cwd : Str} {w : OpenWs} {u p : UID} {es : List Edit} (ho : Opens E d cwd (lit ".") w u p) (hp : ∀ e ∈ es, e.Plain) :
    wpm E f (EditMid E w.spaceDir w.ws p es w.tree.abs d) (editCmd E cwd es)
      (fun s' d' => Reach s' ∧ EditsAll w.ws p es w.tree.abs s'.abs ∧ (es = [] ∧ d' = d ∨ Shelved E w.spaceDir s'.abs d d'))
      (fun e d' =>
        (∃ es1 e1 b, es1 ++ [e1] <+: es ∧ EditsAll w.ws p es1 w.tree.abs b ∧ (∀ c, ¬ Edits b w.ws p e1 c) ∧
          (es1 = [] ∧ d' = d ∨ es1 ≠ [] ∧ Shelved E w.spaceDir b d d') ∧ e.early = true) ∨
        (EditMid E w.spaceDir w.ws p es w.tree.abs d d' ∧ f.io = true)) d := by
  unfold editCmd
  refine wpm_bind (wpm_weaken (getWorkspace_wp ho) (fun _ h => Or.inl h) (fun w0 d0 h0 => ?_) fun e d0 h0 => Or.inr ⟨Or.inl h0.1, h0.2.2⟩)
  obtain ⟨rfl, rfl⟩ := h0
  have hsp : d0.space w0.spaceDir ≠ none := by
    obtain ⟨T, b, _, _, h, _⟩ := ho.tree
    rw [h]; simp
  refine wpm_mono (editAll_wp (E := E) (f := f) (a := w0.tree.abs) hsp es [] w0.tree d0 (opens_reach ho) ho.head hp .nil (Or.inl ⟨rfl, rfl⟩))
    (fun s' d' h => by simpa using h) fun e d' h => ?_
  rcases h with h | h
  · exact Or.inl (by simpa using h)
  · exact Or.inr ⟨by simpa using h.1, h.2.2⟩

end
end Verif
