import Verif.World.Wpm
import Verif.Props.Ws
import Verif.Props.Json
/-!
# Making layers and mounts, run alone

What `CreateMount` leaves on disk and in the tree, and that nothing that existed before is touched.
-/
set_option autoImplicit false
namespace Verif
open M TS Json

/-! ## The tree -/

/-- Adding the node of a new layer (pkg/spaces/default.go:142-147). -/
theorem addLayer_spec {s : TS} (h : Reach s) {base u : UID} (hb : s.abs.Has base) (hu : ¬ s.abs.Has u) :
    ∃ s', (s.newNode u).2.addNode (some base) (s.newNode u).1 = .ok s' ∧ Reach s' ∧
      s'.abs = s.abs.add (some base) u (fun _ => none) (fun _ => none) ∧ s'.get u = some (s.newNode u).1 := by
  have hw := wf_of_reach h
  have hl : Op.Legal s.abs (.add (some base) u none none) := ⟨hu, by simp [GoMap.Nodup, GoMap.entries, AL.keys], by simp [GoMap.Nodup, GoMap.entries, AL.keys]⟩
  have he : s.call (.add (some base) u none none) = (s.newNode u).2.addNode (some base) (s.newNode u).1 := by
    simp only [TS.call, mkNode_eq, newNode]
  rcases call_spec hw _ hl with ⟨s', h1, h2, h3⟩ | ⟨e, h1, h2⟩
  · refine ⟨s', by rw [← he, h1], .ok h hl h1, ?_, ?_⟩
    · generalize ha : s'.abs = x at h3
      cases h3 with
      | addChild _ => rfl
    · obtain ⟨s1, a1, a2, a3, a4, a5⟩ := mkNode_spec hw (anno := none) (data := none) hl.2.1 hl.2.2 hu
      obtain ⟨p, hp⟩ := (abs_has_iff_get hw base).1 hb
      obtain ⟨po, b1, b2, b3, b4, b5⟩ := addNode_child_eq a2 (by rw [a4]; exact hp) a5
      have : s' = addedChild s1 p s.heap.length po ⟨u, none, none, none, none⟩ := by
        simp only [TS.call, a1] at h1
        rw [b5] at h1
        exact (Res.ok.inj h1).symm
      rw [this]
      simp [TS.get, addedChild, GoMap.get_some, AL.get_put, newNode]
  · exfalso
    cases h2 with
    | addChildErr hc => exact hc hb

theorem add_has {a : ATree} {p : Option UID} {u v : UID} {x : Str → Option Str} {y : Str → Option (Option Str)} :
    (a.add p u x y).Has v ↔ v = u ∨ a.Has v := by
  unfold ATree.Has ATree.add
  by_cases h : v = u
  · subst h; simp
  · simp [upd_ne _ _ h, h]

theorem path_agree {a b : ATree} {v : UID} {l : List UID} (h : a.Path v l) (he : ∀ x ∈ l, b.node x = a.node x) : b.Path v l := by
  induction h with
  | root hn hp => exact .root (by rw [he _ (by simp)]; exact hn) hp
  | step hn hp _ ih => exact .step (by rw [he _ (by simp)]; exact hn) hp (ih fun x hx => he x (by simp [hx]))

theorem path_has {a : ATree} {v : UID} {l : List UID} (h : a.Path v l) : ∀ x ∈ l, a.Has x := by
  induction h with
  | root hn _ => intro x hx; rw [List.mem_singleton] at hx; subst hx; exact ⟨_, hn⟩
  | step hn _ _ ih =>
    intro x hx
    rcases List.mem_cons.1 hx with rfl | hx
    · exact ⟨_, hn⟩
    · exact ih x hx

theorem path_cons {a : ATree} {v : UID} {l : List UID} (h : a.Path v l) : ∃ tl, l = v :: tl := by
  cases h <;> exact ⟨_, rfl⟩

/-- The path of a node that is added below `base`. -/
theorem path_add {a : ATree} {base u : UID} {ls : List UID} (hu : ¬ a.Has u) (h : a.Path base ls) (x : Str → Option Str)
    (y : Str → Option (Option Str)) : (a.add (some base) u x y).Path u (u :: ls) := by
  refine .step (n := ⟨some base, x, y⟩) (by simp [ATree.add]) rfl (path_agree h fun v hv => ?_)
  have : v ≠ u := fun e => hu (e ▸ path_has h v hv)
  simp [ATree.add, upd_ne _ _ this]

/-! ## The disk -/

/-- Every name in use comes from an ID that was drawn. -/
structure Tracked (d : Disk) : Prop where
  layer : ∀ u, d.layer u ≠ none → u ∈ d.used
  space : ∀ n, d.space n ≠ none → ∃ u ∈ d.used, n = u.base32
  mdir : ∀ n, d.mdir n ≠ none → ∃ u ∈ d.used, n = u.base32
  info : ∀ n, d.info n ≠ none → ∃ u ∈ d.used, n = u.base32
  mnt : ∀ n, d.mnt n ≠ none → ∃ u ∈ d.used, n = u.base32

/-- Nothing goes wrong by itself. -/
def Calm (f : Faults) (d : Disk) : Prop := f.io = false ∧ f.rep = false ∧ Tracked d

/-- Only things that no record or tree mentions were added. -/
structure Litter (d d' : Disk) : Prop where
  layer : ∀ u, d'.layer u = d.layer u ∨ (d.layer u = none ∧ (d'.layer u = some none ∨ d'.layer u = some (some .empty)))
  space : ∀ n, d'.space n = d.space n ∨ (d.space n = none ∧ d'.space n = some none)
  mdir : ∀ n, d'.mdir n = d.mdir n ∨ (d.mdir n = none ∧ d'.mdir n = some ⟨none, false⟩)
  info : d'.info = d.info
  mnt : d'.mnt = d.mnt
  user : d'.user = d.user
  used : ∀ u ∈ d.used, u ∈ d'.used
  tracked : Tracked d → Tracked d'

theorem litter_refl (d : Disk) : Litter d d :=
  ⟨fun _ => Or.inl rfl, fun _ => Or.inl rfl, fun _ => Or.inl rfl, rfl, rfl, rfl, fun _ h => h, _root_.id⟩

theorem litter_trans {d d1 d2 : Disk} (h : Litter d d1) (h' : Litter d1 d2) : Litter d d2 := by
  refine ⟨fun u => ?_, fun n => ?_, fun n => ?_, h'.info.trans h.info, h'.mnt.trans h.mnt, h'.user.trans h.user,
    fun u hu => h'.used u (h.used u hu), fun ht => h'.tracked (h.tracked ht)⟩
  · rcases h'.layer u with e | ⟨e, e'⟩
    · rw [e]; exact h.layer u
    · rcases h.layer u with g | ⟨_, g | g⟩
      · right; rw [← g]; exact ⟨e, e'⟩
      · rw [g] at e; cases e
      · rw [g] at e; cases e
  · rcases h'.space n with e | ⟨e, e'⟩
    · rw [e]; exact h.space n
    · rcases h.space n with g | ⟨_, g⟩
      · right; rw [← g]; exact ⟨e, e'⟩
      · rw [g] at e; cases e
  · rcases h'.mdir n with e | ⟨e, e'⟩
    · rw [e]; exact h.mdir n
    · rcases h.mdir n with g | ⟨_, g⟩
      · right; rw [← g]; exact ⟨e, e'⟩
      · rw [g] at e; cases e

/-- Every node of the tree has its layer on disk. -/
def Stored (d : Disk) (a : ATree) : Prop := ∀ u, a.Has u → d.HasDiff u

theorem litter_hasDiff {d d' : Disk} (h : Litter d d') {u : UID} (hu : d.HasDiff u) : d'.HasDiff u := by
  obtain ⟨c, hc⟩ := hu
  rcases h.layer u with e | ⟨e, _⟩
  · exact ⟨c, by rw [e, hc]⟩
  · rw [hc] at e; cases e

theorem litter_stored {d d' : Disk} (h : Litter d d') {a : ATree} (hs : Stored d a) : Stored d' a := fun u hu => litter_hasDiff h (hs u hu)

section
variable {E : Env} {f : Faults}

theorem rand_litter {d d' : Disk} {u : UID} (h : Step E f .rand d u d') : Litter d d' ∧ u ∈ d'.used ∧ d'.layer = d.layer ∧ d'.space = d.space ∧ d'.mdir = d.mdir ∧
    (Calm f d → u ∉ d.used) := by
  obtain ⟨hu, rfl⟩ := h
  refine ⟨⟨fun _ => Or.inl rfl, fun _ => Or.inl rfl, fun _ => Or.inl rfl, rfl, rfl, rfl, fun _ h => List.mem_cons_of_mem _ h, fun ht => ?_⟩,
    List.mem_cons_self, rfl, rfl, rfl, fun hc => ?_⟩
  · exact ⟨fun v hv => List.mem_cons_of_mem _ (ht.layer v hv), fun n hn => (ht.space n hn).imp fun _ h => ⟨List.mem_cons_of_mem _ h.1, h.2⟩,
      fun n hn => (ht.mdir n hn).imp fun _ h => ⟨List.mem_cons_of_mem _ h.1, h.2⟩, fun n hn => (ht.info n hn).imp fun _ h => ⟨List.mem_cons_of_mem _ h.1, h.2⟩,
      fun n hn => (ht.mnt n hn).imp fun _ h => ⟨List.mem_cons_of_mem _ h.1, h.2⟩⟩
  · rcases hu with hu | hu
    · exact hu
    · rw [hc.2.1] at hu; cases hu

/-- What `layers.Manager.Create` leaves: a new empty layer. -/
structure NewLayer (d d' : Disk) (u : UID) : Prop where
  litter : Litter d d'
  new : d.layer u = none
  layer : d'.layer = upd d.layer u (some (some .empty))
  space : d'.space = d.space
  mdir : d'.mdir = d.mdir

theorem litter_layer {d d' : Disk} {u : UID} {x : Option Content} (h : Litter d d') (hu : u ∈ d'.used) (hl : d'.layer u = none ∨ d'.layer u = some none)
    (hn : d.layer u = none) (hx : x = none ∨ x = some .empty) : Litter d (d'.setLayer u (some x)) := by
  refine ⟨fun v => ?_, h.space, h.mdir, h.info, h.mnt, h.user, h.used, fun ht => ?_⟩
  · by_cases hv : v = u
    · subst hv
      right
      refine ⟨hn, ?_⟩
      simp only [Disk.setLayer, upd_self]
      rcases hx with rfl | rfl
      · exact Or.inl rfl
      · exact Or.inr rfl
    · simp only [Disk.setLayer, upd_ne _ _ hv]; exact h.layer v
  · have ht' := h.tracked ht
    refine ⟨fun v hv => ?_, ht'.space, ht'.mdir, ht'.info, ht'.mnt⟩
    by_cases hvu : v = u
    · subst hvu; exact hu
    · simp only [Disk.setLayer, upd_ne _ _ hvu] at hv
      exact ht'.layer v hv

theorem upd_upd {α β : Type} [DecidableEq α] (g : α → β) (a : α) (b c : β) : upd (upd g a b) a c = upd g a c := by
  funext x
  by_cases h : x = a
  · subst h; simp
  · simp [upd_ne _ _ h]

theorem upd_id {α β : Type} [DecidableEq α] {g : α → β} {a : α} {b : β} (h : g a = b) : upd g a b = g := by
  funext x
  by_cases hx : x = a
  · subst hx; simp [h]
  · simp [upd_ne _ _ hx]

theorem upd_comm {α β : Type} [DecidableEq α] (g : α → β) {a a' : α} (b b' : β) (h : a ≠ a') :
    upd (upd g a b) a' b' = upd (upd g a' b') a b := by
  funext x
  by_cases h1 : x = a
  · subst h1; rw [upd_ne _ _ h, upd_self, upd_self]
  · rw [upd_ne _ _ h1]
    by_cases h2 : x = a'
    · subst h2; rw [upd_self, upd_self]
    · rw [upd_ne _ _ h2, upd_ne _ _ h2, upd_ne _ _ h1]

theorem layerCreate_wp (d : Disk) :
    wpm E f (Litter d) layerCreate (fun u d' => NewLayer d d' u) (fun e d' => Litter d d' ∧ e.early = true ∧ ¬ Calm f d) d := by
  unfold layerCreate
  refine wpm_call fun u d1 h1 => ?_
  obtain ⟨l1, hu, e1, e2, e3, hc⟩ := rand_litter h1
  refine ⟨l1, wpm_must fun a d2 h2 => ?_⟩
  rcases h2 with ⟨rfl, hn, rfl⟩ | ⟨rfl, hn, rfl⟩
  · have hn' : d.layer u = none := by rw [← e1]; exact hn
    have l2 := litter_layer (x := none) l1 hu (Or.inl hn) hn' (Or.inl rfl)
    refine ⟨l2, fun _ => wpm_call fun b d3 h3 => ?_, nofun⟩
    obtain ⟨rfl, ⟨rfl, c, hc'⟩ | ⟨rfl, -⟩⟩ := h3
    · simp [Disk.setLayer] at hc'
    · refine ⟨l2, ?_⟩
      simp only [Bool.false_eq_true, if_false]
      refine wpm_must fun a d4 h4 => ?_
      rcases h4 with ⟨rfl, hn4, rfl⟩ | ⟨rfl, hn4, rfl⟩
      · have l4 := litter_layer (x := some .empty) l2 hu (Or.inr hn4) hn' (Or.inr rfl)
        refine ⟨l4, fun _ => wpm_pure ⟨l4, hn', ?_, ?_, ?_⟩, nofun⟩
        · simp only [Disk.setLayer, upd_upd, e1]
        · exact e2
        · exact e3
      · refine ⟨l2, nofun, fun _ => ⟨l2, rfl, fun hcalm => ?_⟩⟩
        rcases hn4 with hn4 | hn4
        · exact hn4 (by simp [Disk.setLayer])
        · rw [hcalm.1] at hn4; cases hn4
  · refine ⟨l1, nofun, fun _ => ⟨l1, rfl, fun hcalm => ?_⟩⟩
    rcases hn with hn | hn
    · rw [e1] at hn
      exact hc hcalm (hcalm.2.2.layer u hn)
    · rw [hcalm.1] at hn; cases hn

/-! ## A new layer in a space -/

theorem wpm_trans {α : Type} {x : M α} {R : α → Disk → Prop} {F : CErr → Disk → Prop} {d d1 : Disk} (hl : Litter d d1)
    (h : wpm E f (Litter d1) x R F d1) : wpm E f (Litter d) x R F d1 :=
  wp_monoI h fun _ h' => litter_trans hl h'

theorem calm_litter {d d1 : Disk} (hl : Litter d d1) (h : Calm f d) : Calm f d1 := ⟨h.1, h.2.1, hl.tracked h.2.2⟩

theorem createLayer_wp {d : Disk} {s : TS} {base : UID} (hr : Reach s) (hb : s.abs.Has base) (hs : Stored d s.abs) :
    wpm E f (Litter d) (createLayer s base)
      (fun p d' => ∃ u, NewLayer d d' u ∧ ¬ s.abs.Has u ∧ Reach p.1 ∧
        p.1.abs = s.abs.add (some base) u (fun _ => none) (fun _ => none) ∧ p.1.get u = some p.2)
      (fun e d' => Litter d d' ∧ e.early = true ∧ ¬ Calm f d) d := by
  unfold createLayer
  obtain ⟨r, o, ho, hi, hid⟩ := (abs_has_iff (wf_of_reach hr) base).1 hb
  have hg : s.get base = some r := by rw [← hid]; exact hi
  rw [hg, Option.bind_some, ho]
  refine wpm_bind (wpm_mono (layerCreate_wp d) (fun u d1 hu => ?_) fun e d1 he => he)
  have hnew : ¬ s.abs.Has u := by
    intro hh
    obtain ⟨c, hc⟩ := hs u hh
    rw [hu.new] at hc; cases hc
  obtain ⟨s', e1, e2, e3, e4⟩ := addLayer_spec hr hb hnew
  rw [hid]
  exact wpm_bind (wpm_lift_ok e1 (wpm_pure ⟨u, hu, hnew, e2, e3, e4⟩))

theorem layerChain_wp {d : Disk} {s : TS} (h : WF s) (hs : Stored d s.abs) {dep : Nat → Nat}
    (hd : ∀ r o, s.heap[r]? = some o → s.tree.nodes.get o.id.hex = some r → ∀ p, o.parent = some p → dep r = dep p + 1) :
    ∀ (fuel : Nat) (r : Nat) (o : NodeObj), s.heap[r]? = some o → s.tree.nodes.get o.id.hex = some r → dep r < fuel →
      wpm E f (fun d' => d' = d) (layerChain s.heap fuel (some r)) (fun l d' => d' = d ∧ s.abs.Path o.id l)
        (fun e d' => d' = d ∧ e.early = true ∧ f.io = true) d
  | 0, _, _, _, _, hlt => absurd hlt (Nat.not_lt_zero _)
  | n + 1, r, o, ho, hi, hlt => by
    rw [layerChain]
    have hnode := (abs_node_iff h o.id _).2 ⟨r, o, ho, hi, rfl, rfl⟩
    simp only [ho]
    obtain ⟨c, hc⟩ := hs o.id ⟨_, hnode⟩
    refine wpm_must fun a d1 h1 => ?_
    obtain ⟨rfl, ⟨rfl, _⟩ | ⟨rfl, hx⟩⟩ := h1
    · refine ⟨rfl, fun _ => ?_, nofun⟩
      rcases h.par r o ho hi with ⟨hn, hroot⟩ | ⟨q, qo, h1, h2, h3, h4⟩
      · rw [hn]
        have : layerChain s.heap n none = (Pure.pure [] : M _) := by cases n <;> rfl
        rw [this]
        exact wpm_bind (wpm_pure (wpm_pure ⟨rfl, .root hnode (by simp [absObj, hn])⟩))
      · rw [h1]
        have hlt' : dep q < n := by have := hd r o ho hi q h1; omega
        refine wpm_bind (wpm_mono (layerChain_wp h hs hd n q qo h2 h3 hlt') (fun l d2 hl => ?_) fun _ _ h => h)
        obtain ⟨rfl, hl⟩ := hl
        exact wpm_pure ⟨rfl, .step hnode (by simp [absObj, h1, idAt, h2]) hl⟩
    · refine ⟨rfl, nofun, fun _ => ⟨rfl, rfl, ?_⟩⟩
      rcases hx with hx | hx
      · exact absurd (by rw [hc]; simp) hx
      · exact hx

/-- What `createMount` gives: the tree with a new empty layer `u` on `base`, and an unused mount directory. -/
structure NewMount (d d' : Disk) (s s' : TS) (base : UID) (m : MountObj) (r : Nat) (u : UID) (ls : List UID) : Prop where
  litter : Litter d d'
  reach : Reach s'
  newNode : ¬ s.abs.Has u
  abs : s'.abs = s.abs.add (some base) u (fun _ => none) (fun _ => none)
  head : s'.get u = some r
  path : s.abs.Path base ls
  mount : m = ⟨m.id, m.id.base32, some ⟨u, ls⟩⟩
  newLayer : d.layer u = none
  layer : d'.layer = upd d.layer u (some (some .empty))
  newMdir : d.mdir m.id.base32 = none
  drawn : m.id ∈ d'.used
  unused : Calm f d → m.id ∉ d.used
  mdir : d'.mdir = upd d.mdir m.id.base32 (some ⟨none, false⟩)
  space : d'.space = d.space

theorem base32_inj {u v : UID} (h : u.base32 = v.base32) : u = v := C03_base32_injective h

theorem createMount_wp {d : Disk} {s : TS} {base : UID} (hr : Reach s) (hb : s.abs.Has base) (hs : Stored d s.abs) :
    wpm E f (Litter d) (createMount s base) (fun p d' => ∃ u ls, NewMount (f := f) d d' s p.1 base p.2.1 p.2.2 u ls)
      (fun e d' => Litter d d' ∧ e.early = true ∧ ¬ Calm f d) d := by
  unfold createMount
  refine wpm_call fun m d1 h1 => ?_
  obtain ⟨l1, hm, e1, e2, e3, hc⟩ := rand_litter h1
  refine ⟨l1, wpm_must fun a d2 h2 => ?_⟩
  rcases h2 with ⟨rfl, hn, rfl⟩ | ⟨rfl, hn, rfl⟩
  · have hn' : d.mdir m.base32 = none := by rw [← e3]; exact hn
    have l2 : Litter d (d1.setMdir m.base32 (some ⟨none, false⟩)) := by
      refine ⟨l1.layer, l1.space, fun n => ?_, l1.info, l1.mnt, l1.user, l1.used, fun ht => ?_⟩
      · by_cases hv : n = m.base32
        · subst hv; right; exact ⟨hn', by simp [Disk.setMdir]⟩
        · simp only [Disk.setMdir, upd_ne _ _ hv]; exact l1.mdir n
      · have ht' := l1.tracked ht
        refine ⟨ht'.layer, ht'.space, fun n hx => ?_, ht'.info, ht'.mnt⟩
        by_cases hv : n = m.base32
        · exact ⟨m, hm, hv⟩
        · simp only [Disk.setMdir, upd_ne _ _ hv] at hx; exact ht'.mdir n hx
    refine ⟨l2, fun _ => ?_, nofun⟩
    unfold spaceCreateMount
    refine wpm_bind (wpm_weaken (createLayer_wp hr hb (litter_stored l2 hs)) (fun _ h => litter_trans l2 h) (fun p d3 h3 => ?_)
      fun e d3 h3 => ⟨litter_trans l2 h3.1, h3.2.1, fun hcalm => h3.2.2 (calm_litter l2 hcalm)⟩)
    obtain ⟨u, n1, n2, n3, n4, n5⟩ := h3
    obtain ⟨s', r⟩ := p
    simp only at n3 n4 n5 ⊢
    have hw' := wf_of_reach n3
    have l3 := litter_trans l2 n1.litter
    have hst : Stored d3 s'.abs := by
      intro v hv
      rw [n4, add_has] at hv
      rcases hv with rfl | hv
      · exact ⟨_, by rw [n1.layer, upd_self]⟩
      · exact litter_stored l3 hs v hv
    have hnew : ¬ s.abs.Has u := n2
    have hu : s'.abs.Has u := by rw [n4, add_has]; exact Or.inl rfl
    obtain ⟨r', o, ho, hi, hid⟩ := (abs_has_iff hw' u).1 hu
    have hrr : r' = r := by rw [TS.get, ← hid, hi] at n5; exact Option.some.inj n5
    subst hrr
    obtain ⟨dep, hdep⟩ := hw'.depth
    have hlt : dep r' < s'.walkFuel := by have := (hdep r' o ho hi).1; unfold walkFuel; omega
    refine wpm_bind (wpm_weaken (layerChain_wp hw' hst (fun r o a b => (hdep r o a b).2) s'.walkFuel r' o ho hi hlt)
      (fun d' hd => by rw [hd]; exact l3) (fun l d4 hl => ?_) fun e d4 hd => ⟨by rw [hd.1]; exact l3, hd.2.1, fun hcalm => ?_⟩)
    · obtain ⟨rfl, hpath⟩ := hl
      rw [hid] at hpath
      obtain ⟨ls, hls⟩ := (rooted_of_wf (wf_of_reach hr)).path base hb
      have hp2 := path_add (x := fun _ => none) (y := fun _ => none) hnew hls
      rw [← n4] at hp2
      have := Ws.path_unique hpath hp2
      subst this
      obtain ⟨tl, rfl⟩ := path_cons hls
      refine wpm_pure ⟨u, base :: tl, l3, n3, hnew, n4, n5, hls, rfl, ?_, ?_, hn', n1.litter.used _ hm, hc, ?_, ?_⟩
      · rw [← e1]; exact n1.new
      · rw [n1.layer]; rw [← e1]; rfl
      · rw [n1.mdir, ← e3]; rfl
      · rw [n1.space, ← e2]; rfl
    · rw [hcalm.1] at hd; cases hd.2.2
  · refine ⟨l1, nofun, fun _ => ⟨l1, rfl, fun hcalm => ?_⟩⟩
    rcases hn with hn | hn
    · rw [e3] at hn
      obtain ⟨v, hv, he⟩ := hcalm.2.2.mdir _ hn
      rw [base32_inj he] at hc
      exact hc hcalm hv
    · rw [hcalm.1] at hn; cases hn

end
end Verif
