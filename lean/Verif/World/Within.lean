import Verif.World.Together
import Verif.World.After
/-!
# The part of the disk that a command uses

A command on a workspace uses the space, the mount and the path of the workspace. `init` uses only its path.
-/
set_option autoImplicit false
namespace Verif
open M TS Json

section
variable {α β : Type} {E : Env} {G : Trace → Cmd → Prop}

theorem gwp_mono {p : Prog α} {Q Q' : α → Trace → Disk → Prop} {tr : Trace} {d : Disk} (h : gwp E G p Q tr d) (hq : ∀ a tr d, Q a tr d → Q' a tr d) :
    gwp E G p Q' tr d := by
  induction p generalizing tr d with
  | ret a => exact hq _ _ _ h
  | op c k ih => exact ⟨h.1, fun x d' hs => ih x (h.2 x d' hs)⟩

theorem gwp_bind {p : Prog α} {g : α → Prog β} {Q : β → Trace → Disk → Prop} {tr : Trace} {d : Disk}
    (h : gwp E G p (fun a tr' d' => gwp E G (g a) Q tr' d') tr d) : gwp E G (p.bind g) Q tr d := by
  induction p generalizing tr d with
  | ret a => exact h
  | op c k ih => exact ⟨h.1, fun x d' hs => ih x (h.2 x d' hs)⟩

/-- What is known of the disk can be used. -/
theorem gwp_wp {p : Prog α} {I : Disk → Prop} {R : α → Disk → Prop} {Q : α → Trace → Disk → Prop} {tr : Trace} {d : Disk} (h : wp E Faults.none I p R d)
    (h' : gwp E G p Q tr d) : gwp E G p (fun a tr d => R a d ∧ Q a tr d) tr d := by
  induction p generalizing tr d with
  | ret a => exact ⟨h, h'⟩
  | op c k ih => exact ⟨h'.1, fun x d' hs => ih x (h x d' hs).2 (h'.2 x d' hs)⟩

/-- The postcondition that is only about success. -/
def onDone (R : α → Trace → Disk → Prop) : Res CErr α → Trace → Disk → Prop := fun r tr d => ∀ a, r = .ok a → R a tr d

/-- The calls of `x` alone satisfy the guard, and if `x` succeeds then `R` holds. -/
def gok (E : Env) (G : Trace → Cmd → Prop) (x : M α) (R : α → Trace → Disk → Prop) (tr : Trace) (d : Disk) : Prop := gwp E G x (onDone R) tr d

theorem gok_bind {x : M α} {g : α → M β} {R : β → Trace → Disk → Prop} {tr : Trace} {d : Disk}
    (h : gok E G x (fun a tr d => gok E G (g a) R tr d) tr d) : gok E G (x >>= g) R tr d := by
  refine gwp_bind (gwp_mono h fun r tr d hr => ?_)
  cases r with
  | ok a => exact hr a rfl
  | _ => intro b hb; cases hb

theorem gok_mono {x : M α} {R R' : α → Trace → Disk → Prop} {tr : Trace} {d : Disk} (h : gok E G x R tr d) (hr : ∀ a tr d, R a tr d → R' a tr d) :
    gok E G x R' tr d := gwp_mono h fun _ tr d ho a ha => hr a tr d (ho a ha)

theorem gok_wpm {x : M α} {I : Disk → Prop} {R : α → Disk → Prop} {F : CErr → Disk → Prop} {Q : α → Trace → Disk → Prop} {tr : Trace} {d : Disk}
    (h : wpm E Faults.none I x R F d) (h' : gok E G x Q tr d) : gok E G x (fun a tr d => R a d ∧ Q a tr d) tr d := by
  refine gwp_mono (gwp_wp h h') ?_
  rintro r tr d ⟨h1, h2⟩ a rfl
  exact ⟨h1, h2 a rfl⟩

theorem gok_pure {a : α} {R : α → Trace → Disk → Prop} {tr : Trace} {d : Disk} (h : R a tr d) : gok E G (Pure.pure a : M α) R tr d := by
  intro b hb; cases hb; exact h

theorem gok_fail {e : CErr} {R : α → Trace → Disk → Prop} {tr : Trace} {d : Disk} : gok E G (M.fail e : M α) R tr d := by
  intro b hb; cases hb

theorem gok_panic {R : α → Trace → Disk → Prop} {tr : Trace} {d : Disk} : gok E G (Prog.ret .panic : M α) R tr d := by
  intro b hb; cases hb

theorem gok_diverge {R : α → Trace → Disk → Prop} {tr : Trace} {d : Disk} : gok E G (Prog.ret .diverge : M α) R tr d := by
  intro b hb; cases hb

theorem gok_lift {ε : Type} {g : ε → CErr} {r : Res ε α} {R : α → Trace → Disk → Prop} {tr : Trace} {d : Disk} (h : ∀ a, r = .ok a → R a tr d) :
    gok E G (M.lift g r) R tr d := by
  cases r with
  | ok a => intro b hb; cases hb; exact h a rfl
  | _ => intro b hb; cases hb

theorem gok_ask {c : Cmd} {R : c.Ans → Trace → Disk → Prop} {tr : Trace} {d : Disk} (hg : G tr c)
    (h : ∀ x d', Step E Faults.none c d x d' → R x (⟨c, x⟩ :: tr) d') : gok E G (M.ask c) R tr d := by
  refine ⟨hg, fun x d' hx => ?_⟩
  intro b hb; cases hb; exact h x d' hx

theorem gok_need {b : Bool} {e : CErr} {R : Unit → Trace → Disk → Prop} {tr : Trace} {d : Disk} (h : b = true → R () tr d) :
    gok E G (M.need b e) R tr d := by
  unfold M.need
  cases b with
  | true => intro b hb; cases hb; exact h rfl
  | false => intro b hb; cases hb

/-- A call and a test of its answer. -/
theorem gok_must {c : Cmd} {g : c.Ans → Bool} {e : CErr} {m : Unit → M β} {R : β → Trace → Disk → Prop} {tr : Trace} {d : Disk}
    (hg : G tr c) (h : ∀ x d', g x = true → gok E G (m ()) R (⟨c, x⟩ :: tr) d') :
    gok E G (M.ask c >>= fun x => M.need (g x) e >>= m) R tr d :=
  gok_bind (gok_ask hg fun x d' _ => gok_bind (gok_need fun hb => h x d' hb))

end

section
variable {E : Env} {z : Zone} {L : UID → Prop} {tr : Trace} {d : Disk}

/-- What has been drawn stays drawn. -/
def More (tr tr' : Trace) : Prop := ∀ u, Drew tr u → Drew tr' u

theorem more_refl (tr : Trace) : More tr tr := fun _ => _root_.id
theorem more_cons {tr tr' : Trace} {ev : Ev} (h : More tr tr') : More tr (ev :: tr') := fun u hu => (drew_cons u).2 (Or.inr (h u hu))
theorem more_trans {a b c : Trace} (h : More a b) (h' : More b c) : More a c := fun u hu => h' u (h u hu)
theorem more_spaces {tr tr' : Trace} (h : More tr tr') {n : Str} (hn : z.spaces tr n) : z.spaces tr' n :=
  hn.imp _root_.id fun ⟨u, hu, he⟩ => ⟨u, h u hu, he⟩
theorem more_mounts {tr tr' : Trace} (h : More tr tr') {n : Str} (hn : z.mounts tr n) : z.mounts tr' n :=
  hn.imp _root_.id fun ⟨u, hu, he⟩ => ⟨u, h u hu, he⟩
theorem drew_self (u : UID) (tr : Trace) : Drew (⟨.rand, u⟩ :: tr) u := (drew_cons u).2 (Or.inl rfl)

theorem layerCreate_inner (tr : Trace) (d : Disk) : gok E (Inner E z L) layerCreate (fun u tr' _ => More tr tr' ∧ Drew tr' u) tr d := by
  unfold layerCreate
  refine gok_bind (gok_ask trivial fun u d1 _ => ?_)
  have h0 : Drew (⟨.rand, u⟩ :: tr) u := drew_self u tr
  refine gok_must h0 fun x d2 _ => ?_
  have h1 : Drew (⟨.mkdirLayer u, x⟩ :: ⟨.rand, u⟩ :: tr) u := more_cons (more_refl _) u h0
  refine gok_bind (gok_ask h1 fun b d3 _ => ?_)
  split
  · exact gok_pure ⟨more_cons (more_cons (more_cons (more_refl _))), more_cons (more_refl _) u h1⟩
  · refine gok_must (more_cons (more_refl _) u h1) fun x d4 _ => ?_
    exact gok_pure ⟨more_cons (more_cons (more_cons (more_cons (more_refl _)))), more_cons (more_cons (more_refl _)) u h1⟩

/-- Every layer of the tree is known or drawn. -/
def Good (L : UID → Prop) (tr : Trace) (s : TS) : Prop := ∀ u, s.abs.Has u → Drew tr u ∨ L u

theorem good_more {tr tr' : Trace} {s : TS} (h : More tr tr') (hg : Good L tr s) : Good L tr' s := fun u hu => (hg u hu).imp (h u) _root_.id

theorem layerChain_inner {s : TS} (h : WF s) : ∀ (fuel : Nat) (r : Nat) (o : NodeObj) (tr : Trace) (d : Disk), s.heap[r]? = some o →
    s.tree.nodes.get o.id.hex = some r → Good L tr s →
      gok E (Inner E z L) (layerChain s.heap fuel (some r)) (fun l tr' _ => More tr tr' ∧ (∀ v ∈ l, s.abs.Has v) ∧ ∃ t, l = o.id :: t) tr d
  | 0, _, _, _, _, _, _, _ => by rw [layerChain]; exact gok_diverge
  | n + 1, r, o, tr, d, ho, hi, hg => by
    rw [layerChain]
    simp only [ho]
    have hu : s.abs.Has o.id := (abs_has_iff h o.id).2 ⟨r, o, ho, hi, rfl⟩
    refine gok_must (hg o.id hu) fun x d1 _ => ?_
    rcases h.par r o ho hi with ⟨hn, _⟩ | ⟨q, qo, h1, h2, h3, _⟩
    · rw [hn]
      have : layerChain s.heap n none = (Pure.pure [] : M _) := by cases n <;> rfl
      rw [this]
      refine gok_bind (gok_pure (gok_pure ⟨more_cons (more_refl _), fun v hv => ?_, [], rfl⟩))
      rw [List.mem_singleton] at hv
      exact hv ▸ hu
    · rw [h1]
      refine gok_bind (gok_mono (layerChain_inner h n q qo _ d1 h2 h3 (good_more (more_cons (more_refl _)) hg)) fun l tr1 d2 hl => ?_)
      refine gok_pure ⟨more_trans (more_cons (more_refl _)) hl.1, fun v hv => ?_, l, rfl⟩
      rcases List.mem_cons.1 hv with rfl | hv
      · exact hu
      · exact hl.2.1 v hv

theorem createLayer_inner {s : TS} {base : UID} (hr : Reach s) (hs : Stored d s.abs) (hg : Good L tr s) :
    gok E (Inner E z L) (createLayer s base) (fun p tr' _ => More tr tr' ∧ ∃ u, Drew tr' u ∧ Reach p.1 ∧ p.1.get u = some p.2 ∧ Good L tr' p.1) tr d := by
  have hw := wf_of_reach hr
  unfold createLayer
  split
  · exact gok_fail
  · rename_i o ho
    obtain ⟨r, h1, h2⟩ := Option.bind_eq_some_iff.1 ho
    have hb : s.abs.Has base := (abs_has_iff_get hw base).2 ⟨r, h1⟩
    obtain ⟨r', o', g1, g2, g3⟩ := (abs_has_iff hw base).1 hb
    have hrr : r' = r := by
      have h1' : s.tree.nodes.get base.hex = some r := h1
      rw [← g3, g2] at h1'
      exact Option.some.inj h1'
    subst hrr
    rw [g1] at h2; cases h2
    refine gok_bind (gok_mono (gok_wpm (layerCreate_wp d) (layerCreate_inner tr d)) fun u tr1 d1 h => ?_)
    obtain ⟨hn, h1, h2⟩ := h
    have hnew : ¬ s.abs.Has u := by
      intro hh
      obtain ⟨c, hc⟩ := hs u hh
      rw [hn.new] at hc; cases hc
    obtain ⟨s', e1, e2, e3, e4⟩ := addLayer_spec hr hb hnew
    refine gok_bind (gok_lift fun s2 hs2 => ?_)
    have he : s2 = s' := by
      rw [g3] at hs2
      exact Res.ok.inj (hs2.symm.trans e1)
    subst he
    refine gok_pure ⟨h1, u, h2, e2, e4, fun v hv => ?_⟩
    rw [e3, add_has] at hv
    rcases hv with rfl | hv
    · exact Or.inl h2
    · exact good_more h1 hg v hv

/-- A new mount of the zone. -/
def NewIn (L : UID → Prop) (tr : Trace) (m : MountObj) : Prop :=
  Drew tr m.id ∧ m.dir = m.id.base32 ∧ ∃ u ls, m.layers = some ⟨u, ls⟩ ∧ Drew tr u ∧ ∀ v ∈ ls, Drew tr v ∨ L v

theorem newIn_more {tr tr' : Trace} {m : MountObj} (h : More tr tr') (hm : NewIn L tr m) : NewIn L tr' m := by
  obtain ⟨a, b, u, ls, c, e, f⟩ := hm
  exact ⟨h _ a, b, u, ls, c, h _ e, fun v hv => (f v hv).imp (h v) _root_.id⟩

theorem createMount_inner {s : TS} {base : UID} (hr : Reach s) (hs : Stored d s.abs) (hg : Good L tr s) :
    gok E (Inner E z L) (createMount s base) (fun p tr' _ => More tr tr' ∧ NewIn L tr' p.2.1) tr d := by
  unfold createMount
  refine gok_bind (gok_ask trivial fun m d1 h1 => ?_)
  have hm : Drew (⟨.rand, m⟩ :: tr) m := drew_self m tr
  refine gok_bind (gok_ask (Or.inr ⟨m, hm, rfl⟩) fun x d2 h2 => gok_bind (gok_need fun _ => ?_))
  have l2 : d2.layer = d.layer := by
    obtain ⟨_, rfl⟩ := h1
    rcases h2 with ⟨_, _, rfl⟩ | ⟨_, _, rfl⟩ <;> rfl
  have hs2 : Stored d2 s.abs := fun u hu => by unfold Disk.HasDiff; rw [l2]; exact hs u hu
  have m2 : More tr (⟨.mkdirMount m.base32, x⟩ :: ⟨.rand, m⟩ :: tr) := more_cons (more_cons (more_refl _))
  unfold spaceCreateMount
  refine gok_bind (gok_mono (createLayer_inner hr hs2 (good_more m2 hg)) ?_)
  rintro ⟨s', r⟩ tr3 d3 ⟨g1, u, g2, g3, g4, g5⟩
  have hw := wf_of_reach g3
  obtain ⟨r', o, ho, hi, hid⟩ := (abs_has_iff hw u).1 ((abs_has_iff_get hw u).2 ⟨r, g4⟩)
  have hrr : r' = r := by
    have g4' : s'.tree.nodes.get u.hex = some r := g4
    rw [← hid, hi] at g4'
    exact Option.some.inj g4'
  subst hrr
  refine gok_bind (gok_mono (layerChain_inner hw s'.walkFuel r' o tr3 d3 ho hi g5) fun l tr4 d4 hl => ?_)
  obtain ⟨m4, h5, t, rfl⟩ := hl
  cases t with
  | nil => exact gok_fail
  | cons l ls =>
    refine gok_pure ⟨more_trans m2 (more_trans g1 m4), m4 _ (g1 _ (more_cons (more_refl _) m hm)), rfl, o.id, l :: ls, rfl, ?_, fun v hv => ?_⟩
    · rw [hid]; exact m4 _ g2
    · exact good_more m4 g5 v (h5 v (List.mem_cons_of_mem _ hv))

theorem spaceSave_inner {name : Str} {s : TS} (hn : z.spaces tr name) : gok E (Inner E z L) (spaceSave name s) (fun _ tr' _ => More tr tr') tr d := by
  unfold spaceSave
  refine gok_bind (gok_ask trivial fun b d1 _ => ?_)
  refine gok_must (spaces_mono hn) fun x d2 _ => ?_
  exact gok_bind (gok_ask (spaces_mono (spaces_mono hn)) fun y d3 _ => gok_need fun _ => more_cons (more_cons (more_cons (more_refl _))))

theorem saveAll_inner {w : OpenWs} (hn : z.spaces tr w.spaceDir) (hm : NewIn L tr w.mount) :
    gok E (Inner E z L) (saveAll E w) (fun w' tr' _ => w' = w ∧ More tr tr') tr d := by
  unfold saveAll
  refine gok_bind (gok_mono (spaceSave_inner hn) fun _ tr1 d1 h1 => ?_)
  have hz : z.mounts tr1 w.mount.id.base32 := Or.inr ⟨_, h1 _ hm.1, rfl⟩
  unfold saveInfo
  refine gok_bind ?_
  split
  · exact gok_panic
  · refine gok_must hz fun x d2 _ => ?_
    refine gok_bind (gok_ask (mounts_mono hz) fun y d3 _ => gok_need fun _ => gok_pure ⟨rfl, more_trans h1 (more_cons (more_cons (more_refl _)))⟩)

theorem mountP_inner {m : MountObj} (hm : NewIn L tr m) : gok E (Inner E z L) (mountP m) (fun _ tr' _ => More tr tr') tr d := by
  obtain ⟨h1, h2, u, ls, h3, h4, h5⟩ := hm
  have key : ∀ {tr'}, More tr tr' → ∃ v, Drew tr' v ∧ m.dir = v.base32 := fun h => ⟨_, h _ h1, h2⟩
  have key' : ∀ {tr'}, More tr tr' → z.mounts tr' m.dir := fun h => Or.inr (key h)
  unfold mountP
  rw [h3]
  have fin : ∀ {tr'} (d' : Disk), More tr tr' → gok E (Inner E z L) (do
      need (← ask (.mountOverlay m.dir u ls)) .mount
      need (← ask (.chownMerged m.dir)) .mount) (fun _ tr' _ => More tr tr') tr' d' := by
    intro tr' d' h
    refine gok_must ⟨key h, h _ h4, fun v hv => (h5 v hv).imp (h v) _root_.id⟩ fun x d2 _ => ?_
    exact gok_bind (gok_ask (key (more_cons h)) fun y d3 _ => gok_need fun _ => more_cons (more_cons h))
  have mid : ∀ {tr'} (d' : Disk), More tr tr' → gok E (Inner E z L) (do
      if !(← ask (.isDirWork m.dir)) then
        need (okMkdir (← ask (.mkdirWork m.dir))) .mount
      need (← ask (.mountOverlay m.dir u ls)) .mount
      need (← ask (.chownMerged m.dir)) .mount) (fun _ tr' _ => More tr tr') tr' d' := by
    intro tr' d' h
    refine gok_bind (gok_ask (key' h) fun b d2 _ => ?_)
    split
    · exact gok_must (key' (more_cons h)) fun x d3 _ => fin d3 (more_cons (more_cons h))
    · exact fin d2 (more_cons h)
  refine gok_bind (gok_ask (key' (more_refl _)) fun b d2 _ => ?_)
  split
  · exact gok_must (key' (more_cons (more_refl _))) fun x d3 _ => mid d3 (more_cons (more_cons (more_refl _)))
  · exact mid d2 (more_cons (more_refl _))

theorem expand_inner {w : OpenWs} (hm : NewIn L tr w.mount) (hp : z.path w.ws.path) (ho : E.Off w.ws.path) :
    gok E (Inner E z L) (expand E w) (fun _ tr' _ => More tr tr') tr d := by
  unfold expand
  refine gok_bind (gok_mono (mountP_inner hm) fun _ tr1 d1 h1 => ?_)
  refine gok_must trivial fun x d2 _ => ?_
  refine gok_must trivial fun x d3 _ => ?_
  have fin : ∀ {tr'} (d' : Disk), More tr tr' → gok E (Inner E z L) (do
      need (← ask (.symlink (E.mountPath w.mount.dir) w.ws.path)) .symlink
      need (← ask (.lchown w.ws.path)) .symlink
      need (← ask (.sys .chdirBack)) .cwd) (fun _ tr' _ => More tr tr') tr' d' := by
    intro tr' d' h
    refine gok_must ⟨hp, ho, fun n hn => ?_⟩ fun x d2 _ => ?_
    · rw [← mountPath_inj hn]
      exact Or.inr ⟨_, h _ hm.1, hm.2.1⟩
    · refine gok_must ⟨hp, ho⟩ fun x d3 _ => ?_
      exact gok_bind (gok_ask trivial fun y d4 _ => gok_need fun _ => more_cons (more_cons (more_cons h)))
  refine gok_bind (gok_ask ⟨hp, ho⟩ fun b d4 _ => ?_)
  split
  · exact gok_must ⟨hp, ho⟩ fun x d5 _ => fin d5 (more_cons (more_cons (more_cons (more_cons h1))))
  · exact fin d4 (more_cons (more_cons (more_cons h1)))

theorem removeMount_inner {m : MountObj} (hm : z.mount m.id.base32) (hd : m.dir = m.id.base32) :
    gok E (Inner E z L) (removeMount m) (fun _ _ _ => True) tr d := by
  unfold removeMount
  rw [hd]
  refine gok_must trivial fun x d1 _ => ?_
  refine gok_must trivial fun x d2 _ => ?_
  refine gok_bind (gok_ask (Or.inl hm) fun x d3 _ => ?_)
  refine gok_must ⟨Or.inl hm, x, _, rfl⟩ fun y d4 _ => ?_
  refine gok_bind (gok_ask (Or.inl hm) fun a d5 _ => ?_)
  cases a with
  | fail => exact gok_fail
  | _ => exact gok_bind (gok_ask trivial fun y d6 _ => gok_need fun _ => trivial)

theorem linkOf_inner {p : Str} (hp : z.path p) (ho : E.Off p) : gok E (Inner E z L) (linkOf p) (fun _ _ _ => True) tr d := by
  unfold linkOf
  refine gok_bind (gok_ask ⟨hp, ho⟩ fun x d1 _ => ?_)
  split
  · refine gok_bind (gok_ask ⟨hp, ho⟩ fun y d2 _ => ?_)
    cases y with
    | some t => exact gok_pure trivial
    | none => exact gok_fail
  · exact gok_pure trivial

theorem getWorkspace_inner {cwd path : Str} {w : OpenWs} {u p : UID} (h : Opens E d cwd path w u p) (hp : z.path (Path.abs cwd path)) (hs : z.space w.spaceDir)
    (hm : z.mount w.mount.id.base32) : gok E (Inner E z L) (getWorkspace E cwd path) (fun w' _ d' => w' = w ∧ d' = d) tr d := by
  refine gok_mono (gok_wpm (getWorkspace_wp h) (Q := fun _ _ _ => True) ?_) fun a tr' d' h => h.1
  unfold getWorkspace
  refine gok_bind (gok_mono (gok_wpm (linkOf_wp (off_of_outside h.out)) (linkOf_inner hp (off_of_outside h.out))) fun l tr1 d1 h1 => ?_)
  obtain ⟨⟨rfl, rfl | ⟨hx, _⟩⟩, -⟩ := h1
  · obtain ⟨t, e1, e2⟩ := h.link
    refine gok_bind (gok_lift fun m hm' => ?_)
    rw [e1] at hm'
    have : m = w.mount.id := Res.ok.inj (hm'.symm.trans e2)
    subst this
    unfold loadInfo
    refine gok_bind (gok_bind (gok_ask (Or.inl hm) fun r d2 h2 => ?_))
    obtain ⟨rfl, h2⟩ := h2
    obtain ⟨i, i1, i2, i3, i4, i5, i6⟩ := h.info
    rw [i1] at h2
    cases r with
    | ok b =>
      simp only [Option.some.injEq] at h2
      subst h2
      refine gok_lift fun x hx => ?_
      rw [C17_info_roundtrip] at hx
      cases hx
      refine gok_bind (gok_lift fun wid _ => gok_bind (gok_lift fun sid _ => ?_))
      refine gok_bind (gok_ask (Or.inl ?_) fun r d3 _ => ?_)
      · show z.space (sanitize i.spaceID)
        rw [i3, sanitize_base32, ← h.dir]; exact hs
      · refine gok_bind (gok_lift fun s _ => gok_bind (gok_lift fun x _ => ?_))
        split
        · exact gok_fail
        · exact gok_pure trivial
    | notExist => exact gok_fail
    | failed b => exact gok_fail
  · cases hx

theorem createSpace_inner (tr : Trace) (d : Disk) : gok E (Inner E z L) createSpace (fun p tr' _ => More tr tr' ∧ Drew tr' p.1 ∧ Good L tr' p.2) tr d := by
  unfold createSpace
  refine gok_bind (gok_ask trivial fun i d1 _ => ?_)
  have hi : Drew (⟨.rand, i⟩ :: tr) i := drew_self i tr
  refine gok_must (Or.inr ⟨i, hi, rfl⟩) fun x d2 _ => ?_
  unfold spaceInitP
  refine gok_bind (gok_bind (gok_mono (layerCreate_inner _ d2) fun u tr1 d3 h1 => gok_lift fun s hs => ?_))
  obtain ⟨s', g1, g2, g3⟩ := spaceInit_spec u
  have he : s = s' := Res.ok.inj (hs.symm.trans g1)
  subst he
  refine gok_pure ⟨more_trans (more_cons (more_cons (more_refl _))) h1.1, h1.1 _ (more_cons (more_refl _) i hi), fun v hv => ?_⟩
  rw [g3] at hv
  obtain ⟨n, hn⟩ := hv
  by_cases hx : v = u
  · exact hx ▸ Or.inl h1.2
  · simp only [ATree.first, ATree.setTag, ATree.add, upd_ne _ _ hx] at hn
    cases hn

/-- What a command uses. -/
structure Uses (E : Env) (d : Disk) (z : Zone) (cwd path : Str) (w : OpenWs) (u p : UID) : Prop where
  opens : Opens E d cwd path w u p
  path : z.path (Path.abs cwd path)
  space : z.space w.spaceDir
  mount : z.mount w.mount.id.base32

theorem opened_good {cwd path : Str} {w : OpenWs} {u p : UID} (h : Opens E d cwd path w u p) (hL : ∀ v, d.HasDiff v → L v) : Good L tr w.tree :=
  fun v hv => Or.inr (hL v (h.stored v hv))

theorem commitCmd_inner {cwd : Str} {ci : CommitInfo} {w : OpenWs} {u p : UID} (h : Uses E d z cwd (lit ".") w u p) (hL : ∀ v, d.HasDiff v → L v) :
    gok E (Inner E z L) (commitCmd E cwd ci) (fun _ _ _ => True) tr d := by
  have ho := h.opens
  have hoff := off_of_outside ho.out
  unfold commitCmd
  refine gok_bind (gok_mono (getWorkspace_inner ho h.path h.space h.mount) ?_)
  rintro w' tr1 d1 ⟨rfl, rfl⟩
  obtain ⟨s1, g1, g2, g3, ⟨o, g4, g5⟩, g6⟩ := setToNode_spec (opens_reach ho) ho.head.1 ci
  have hst : Stored d1 s1.abs := fun v hv => by
    rw [g6, note_has, note_has] at hv
    exact ho.stored v hv
  have hgood : Good L tr1 s1 := fun v hv => Or.inr (hL v (hst v hv))
  unfold commitP
  rw [g1]
  simp only
  rw [g4]
  simp only
  refine gok_bind (gok_bind (gok_mono (createMount_inner g2 hst hgood) ?_))
  rintro ⟨s2, m, r⟩ tr2 d2 ⟨h1, h2⟩
  refine gok_bind ?_
  have mb : gok E (Inner E z L) (moveBranch s2 (Ws.branchInfo w'.ws) r) (fun _ tr' _ => tr' = tr2) tr2 d2 := by
    unfold moveBranch
    split
    · exact gok_bind (gok_lift fun _ _ => gok_lift fun _ _ => rfl)
    · exact gok_pure rfl
  refine gok_mono mb ?_
  rintro s3 _ d3 rfl
  refine gok_mono (saveAll_inner (Or.inl h.space) h2) ?_
  rintro w2 tr3 d4 ⟨rfl, h3⟩
  refine gok_bind (gok_mono (expand_inner (newIn_more h3 h2) (by show z.path w'.ws.path; rw [ho.path]; exact h.path) (by show E.Off w'.ws.path; rw [ho.path]; exact hoff)) fun _ tr4 d5 _ => ?_)
  exact gok_bind (gok_mono (removeMount_inner h.mount (by rw [ho.mount])) fun _ _ _ _ => gok_pure trivial)

theorem checkoutCmd_inner {cwd key : Str} {w : OpenWs} {u p : UID} (h : Uses E d z cwd (lit ".") w u p) (hL : ∀ v, d.HasDiff v → L v) :
    gok E (Inner E z L) (checkoutCmd E cwd key) (fun _ _ _ => True) tr d := by
  have ho := h.opens
  have hoff := off_of_outside ho.out
  unfold checkoutCmd
  refine gok_bind (gok_mono (getWorkspace_inner ho h.path h.space h.mount) ?_)
  rintro w' tr1 d1 ⟨rfl, rfl⟩
  unfold checkoutP
  refine gok_bind (gok_bind (gok_lift fun x _ => ?_))
  split
  · exact gok_fail
  rename_i n kt
  split
  · exact gok_panic
  rename_i o ho'
  refine gok_bind (gok_mono (createMount_inner (opens_reach ho) ho.stored (opened_good ho hL)) ?_)
  rintro ⟨s2, m, r⟩ tr2 d2 ⟨h1, h2⟩
  refine gok_mono (saveAll_inner (Or.inl h.space) h2) ?_
  rintro w2 tr3 d4 ⟨rfl, h3⟩
  refine gok_bind (gok_mono (expand_inner (newIn_more h3 h2) (by show z.path w'.ws.path; rw [ho.path]; exact h.path) (by show E.Off w'.ws.path; rw [ho.path]; exact hoff)) fun _ tr4 d5 _ => ?_)
  exact gok_bind (gok_mono (removeMount_inner h.mount (by rw [ho.mount])) fun _ _ _ _ => gok_pure trivial)

theorem cloneCmd_inner {cwd source target : Str} {w : OpenWs} {u p : UID} (h : Uses E d z cwd source w u p) (hL : ∀ v, d.HasDiff v → L v)
    (ht : z.path target) (hoff : E.Off target) : gok E (Inner E z L) (cloneCmd E cwd source target) (fun _ _ _ => True) tr d := by
  have ho := h.opens
  unfold cloneCmd
  refine gok_bind (gok_mono (getWorkspace_inner ho h.path h.space h.mount) ?_)
  rintro w' tr1 d1 ⟨rfl, rfl⟩
  unfold cloneP
  refine gok_bind (gok_bind (gok_lift fun x _ => ?_))
  refine gok_bind (gok_mono (createMount_inner (opens_reach ho) ho.stored (opened_good ho hL)) ?_)
  rintro ⟨s2, m, r⟩ tr2 d2 ⟨h1, h2⟩
  refine gok_bind (gok_ask trivial fun wid d3 _ => ?_)
  have h2' := newIn_more (more_cons (more_refl _) : More tr2 (⟨.rand, wid⟩ :: tr2)) h2
  refine gok_mono (saveAll_inner (Or.inl h.space) h2') ?_
  rintro w2 tr3 d4 ⟨rfl, h3⟩
  exact gok_bind (gok_mono (expand_inner (newIn_more h3 h2') ht hoff) fun _ tr4 d5 _ => gok_pure trivial)

theorem editAll_inner {dir : Str} {w : Ws} (hs : z.space dir) : ∀ (es : List Edit) (s : TS) (tr : Trace) (d : Disk),
    gok E (Inner E z L) (editAll dir w es s) (fun _ _ _ => True) tr d
  | [], s, tr, d => by rw [editAll]; exact gok_pure trivial
  | e :: es, s, tr, d => by
    rw [editAll]
    exact gok_bind (gok_lift fun s' _ => gok_bind (gok_mono (spaceSave_inner (Or.inl hs)) fun _ tr1 d1 _ => editAll_inner hs es s' tr1 d1))

theorem editCmd_inner {cwd : Str} {es : List Edit} {w : OpenWs} {u p : UID} (h : Uses E d z cwd (lit ".") w u p) :
    gok E (Inner E z L) (editCmd E cwd es) (fun _ _ _ => True) tr d := by
  unfold editCmd
  refine gok_bind (gok_mono (getWorkspace_inner h.opens h.path h.space h.mount) ?_)
  rintro w' tr1 d1 ⟨rfl, rfl⟩
  exact editAll_inner h.space es _ _ _

theorem setBranch_path {s s' : TS} {w w' : Ws} {b : Str} (h : Ws.setBranch s w b = .ok (s', w')) : w'.path = w.path := by
  unfold Ws.setBranch at h
  split at h
  · cases h
  · split at h
    · cases h
    · rename_i p _
      cases ha : s.addBranch (BranchInfo.fullName ⟨some w.id, b⟩) p.id with
      | ok s1 => rw [ha] at h; cases h; rfl
      | _ => rw [ha] at h; cases h

theorem initCmd_inner {path branch : Str} (hp : z.path path) (ho : E.Off path) (hz : ∀ n, ¬ z.mount n) :
    gok E (Inner E z L) (initCmd E path branch) (fun _ _ _ => True) [] d := by
  have fin : ∀ (tr : Trace) (d : Disk), gok E (Inner E z L) (do
      let w ← createWorkspace E path branch
      expand E w
      return w) (fun _ _ _ => True) tr d := by
    intro tr d
    unfold createWorkspace
    refine gok_bind (gok_bind (gok_mono (gok_wpm (createSpace_wp d) (createSpace_inner tr d)) ?_))
    rintro ⟨i, s⟩ tr1 d1 ⟨⟨root, g1, g2, g3, _⟩, h1, h2, h3⟩
    simp only at g1 g2 g3 h2 h3 ⊢
    have hst : Stored d1 s.abs := by
      intro v hv
      rw [g3] at hv
      obtain ⟨n, hn⟩ := hv
      by_cases hx : v = root
      · subst hx
        exact ⟨.empty, by rw [g1.layer, upd_self]⟩
      · simp only [ATree.first, ATree.setTag, ATree.add, upd_ne _ _ hx] at hn
        cases hn
    split
    · exact gok_panic
    rename_i o _
    refine gok_bind (gok_mono (createMount_inner g2 hst h3) ?_)
    rintro ⟨s2, m, r⟩ tr2 d2 ⟨h4, h5⟩
    refine gok_bind (gok_ask trivial fun wid d3 _ => ?_)
    refine gok_bind (gok_lift ?_)
    rintro ⟨s3, w⟩ hw
    have h5' := newIn_more (more_cons (more_refl _) : More tr2 (⟨.rand, wid⟩ :: tr2)) h5
    refine gok_mono (saveAll_inner (Or.inr ⟨i, more_cons h4 _ h2, rfl⟩) h5') ?_
    rintro w2 tr3 d4 ⟨rfl, h6⟩
    have hpath : w.path = path := setBranch_path hw
    exact gok_bind (gok_mono (expand_inner (newIn_more h6 h5') (by show z.path w.path; rw [hpath]; exact hp) (by show E.Off w.path; rw [hpath]; exact ho)) fun _ _ _ _ => gok_pure trivial)
  unfold initCmd
  refine gok_bind (gok_ask ⟨hp, ho⟩ fun b d1 _ => ?_)
  split
  · refine gok_must ⟨hp, ho, ?_⟩ fun x d2 _ => fin _ d2
    rintro n (hn | ⟨v, hv, _⟩)
    · exact hz n hn
    · rcases (drew_cons v).1 hv with hv | hv
      · cases hv
      · exact drew_nil hv
  · exact fin _ d1

end
end Verif
