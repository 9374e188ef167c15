import Verif.Props.AgainDelete
import Verif.Props.Twice
import Verif.Props.InnerEdit
/-!
# The order of two changes of branches and tags (C117)

Two changes of different names, in one workspace or in two of a space, can be made in either order: the same ones are accepted, and the history is the same in the end.
-/
set_option autoImplicit false
namespace Verif
open M TS Json

/-- A place in a history where a name stands. -/
inductive NameSlot where
  | tag (t : Str)
  | branch (b : Str)

namespace ATree

/-- What stands there. -/
def slot (a : ATree) : NameSlot → Option UID
  | .tag t => a.tag t
  | .branch b => a.branch b

/-- The history with something else there. -/
def setSlot (a : ATree) (s : NameSlot) (x : Option UID) : ATree :=
  match s with
  | .tag t => { a with tag := upd a.tag t x }
  | .branch b => { a with branch := upd a.branch b x }

theorem setSlot_comm {a : ATree} {s t : NameSlot} (h : s ≠ t) (x y : Option UID) : (a.setSlot s x).setSlot t y = (a.setSlot t y).setSlot s x := by
  have hc : ∀ {f : Str → Option UID} {i j : Str}, i ≠ j → upd (upd f i x) j y = upd (upd f j y) i x := fun {f i j} hij => by
    funext z
    simp only [upd]
    split
    · split
      · rename_i h1 h2; exact absurd (h2.symm.trans h1) hij
      · rfl
    · rfl
  cases s <;> cases t
  · simp only [setSlot]; rw [hc fun e => h (by rw [e])]
  · rfl
  · rfl
  · simp only [setSlot]; rw [hc fun e => h (by rw [e])]

theorem slot_setSlot {a : ATree} {s t : NameSlot} (h : t ≠ s) (x : Option UID) : (a.setSlot s x).slot t = a.slot t := by
  cases s <;> cases t
  · exact upd_ne _ _ fun e => h (by rw [e])
  · rfl
  · rfl
  · exact upd_ne _ _ fun e => h (by rw [e])

theorem node_setSlot {a : ATree} {s : NameSlot} (x : Option UID) : (a.setSlot s x).node = a.node := by cases s <;> rfl

end ATree

/-- The name that a change of the workspace `i` changes. -/
def Edit.sets (i : UID) : Edit → NameSlot
  | .addBranch name _ _ => .branch (i.base32 ++ lit "/" ++ name)
  | .deleteBranch name false => .branch (i.base32 ++ lit "/" ++ name)
  | .deleteBranch name true => .branch (lit "global/" ++ name)
  | .addTag name _ _ => .tag name
  | .deleteTag name => .tag name

/-- The names that a reference given in the workspace `i` can mean. -/
def MayMean (i : UID) (ref : Str) (s : NameSlot) : Prop :=
  s = .tag ref ∨ s = .branch ref ∨ s = .branch (i.base32 ++ lit "/" ++ ref) ∨ ∃ n, ref = lit "origin/" ++ n ∧ s = .branch (lit "global/" ++ n)

/-- The names that the reference in a change can mean. -/
def Edit.MayUse (i : UID) : Edit → NameSlot → Prop
  | .addBranch _ ref _ => MayMean i ref
  | .addTag _ ref _ => MayMean i ref
  | _ => fun _ => False

/-- Two changes have to do with different names. -/
structure Unrelated (i : UID) (e : Edit) (j : UID) (e' : Edit) : Prop where
  sets : e.sets i ≠ e'.sets j
  left : ¬ e.MayUse i (e'.sets j)
  right : ¬ e'.MayUse j (e.sets i)

theorem resolves_slots {a b : ATree} {i p v : UID} {ref : Str} {k : KeyType} (h : Ws.Resolves a i p ref v k) (hn : b.node = a.node)
    (hs : ∀ s, MayMean i ref s → b.slot s = a.slot s) : Ws.Resolves b i p ref v k := by
  have hh : ∀ u, b.Has u ↔ a.Has u := fun u => by simp only [ATree.Has, hn]
  have t : b.tag ref = a.tag ref := hs (.tag ref) (Or.inl rfl)
  have f : b.branch ref = a.branch ref := hs (.branch ref) (Or.inr (Or.inl rfl))
  have o : b.branch (i.base32 ++ lit "/" ++ ref) = a.branch (i.base32 ++ lit "/" ++ ref) := hs (.branch _) (Or.inr (Or.inr (Or.inl rfl)))
  cases h with
  | head => exact .head
  | id h1 h2 h3 => exact .id h1 h2 ((hh _).2 h3)
  | tag h1 h2 h3 => exact .tag h1 (fun v h => fun h' => h2 v h ((hh _).1 h')) (t.trans h3)
  | full h1 h2 h3 h4 => exact .full h1 (fun v h => fun h' => h2 v h ((hh _).1 h')) (t.trans h3) (f.trans h4)
  | own h1 h2 h3 h4 h5 => exact .own h1 (fun v h => fun h' => h2 v h ((hh _).1 h')) (t.trans h3) (f.trans h4) (o.trans h5)
  | @global _ n _ h1 h2 h3 h4 h5 h6 h7 =>
    have g : b.branch (lit "global/" ++ n) = a.branch (lit "global/" ++ n) := hs (.branch _) (Or.inr (Or.inr (Or.inr ⟨n, h6, rfl⟩)))
    exact .global h1 (fun v h => fun h' => h2 v h ((hh _).1 h')) (t.trans h3) (f.trans h4) (o.trans h5) h6 (g.trans h7)

/-- A change changes one name, and what it does depends on that name and on those its reference can mean. -/
theorem edits_slots {a b : ATree} {w : Ws} {p : UID} {e : Edit} (h : Edits a w p e b) : ∃ x, b = a.setSlot (e.sets w.id) x ∧
    ∀ c : ATree, c.node = a.node → c.slot (e.sets w.id) = a.slot (e.sets w.id) → (∀ s, e.MayUse w.id s → c.slot s = a.slot s) → Edits c w p e (c.setSlot (e.sets w.id) x) := by
  cases h with
  | addBranch h1 h2 => exact ⟨_, rfl, fun c hn hs hu => .addBranch (resolves_slots h1 hn hu) (h2.imp_left fun h => hs.trans h)⟩
  | deleteOwn h1 h2 => exact ⟨_, rfl, fun c hn hs hu => .deleteOwn h1 fun h => h2 (hs.symm.trans h)⟩
  | deleteGlobal h1 => exact ⟨_, rfl, fun c hn hs hu => .deleteGlobal fun h => h1 (hs.symm.trans h)⟩
  | addTag h1 h2 => exact ⟨_, rfl, fun c hn hs hu => .addTag (resolves_slots h1 hn hu) (h2.imp_left fun h => hs.trans h)⟩
  | deleteTag h1 => exact ⟨_, rfl, fun c hn hs hu => .deleteTag fun h => h1 (hs.symm.trans h)⟩

/-- What is there after a change was asked for: it is made, or it is not allowed and nothing has changed. -/
def Asked (a : ATree) (w : Ws) (p : UID) (e : Edit) (b : ATree) : Prop := Edits a w p e b ∨ (∀ c, ¬ Edits a w p e c) ∧ b = a

theorem asked_rest {a b : ATree} {w : Ws} {p : UID} {e : Edit} (h : Asked a w p e b) : b.node = a.node ∧ ∀ s, s ≠ e.sets w.id → b.slot s = a.slot s := by
  rcases h with h | ⟨_, rfl⟩
  · obtain ⟨x, rfl, _⟩ := edits_slots h
    exact ⟨ATree.node_setSlot x, fun s hs => ATree.slot_setSlot hs x⟩
  · exact ⟨rfl, fun _ _ => rfl⟩

/-- Whether a change is allowed, and what it does, does not depend on an unrelated one. -/
theorem asked_frame {a b c : ATree} {w v : Ws} {p q : UID} {e e' : Edit} (hU : Unrelated w.id e v.id e') (h : Asked a w p e b) (h' : Edits a v q e' c) :
    ∃ x, c = a.setSlot (e'.sets v.id) x ∧ Edits b v q e' (b.setSlot (e'.sets v.id) x) := by
  obtain ⟨h1, h2⟩ := asked_rest h
  obtain ⟨x, e1, e2⟩ := edits_slots h'
  exact ⟨x, e1, e2 b h1 (h2 _ hU.sets.symm) fun s hs => h2 s fun e => hU.right (e ▸ hs)⟩

theorem asked_frame' {a b c : ATree} {w v : Ws} {p q : UID} {e e' : Edit} (hU : Unrelated w.id e v.id e') (h : Asked a w p e b) (h' : Edits b v q e' c) :
    ∃ c', Edits a v q e' c' := by
  obtain ⟨h1, h2⟩ := asked_rest h
  obtain ⟨x, _, e2⟩ := edits_slots h'
  exact ⟨_, e2 a h1.symm (h2 _ hU.sets.symm).symm fun s hs => (h2 s fun e => hU.right (e ▸ hs)).symm⟩

theorem Unrelated.symm {i j : UID} {e e' : Edit} (h : Unrelated i e j e') : Unrelated j e' i e := ⟨h.sets.symm, h.right, h.left⟩

/-- Unrelated changes have the same result in either order. -/
theorem asked_comm {a b c b' c' : ATree} {w v : Ws} {p q : UID} {e e' : Edit} (hU : Unrelated w.id e v.id e') (h1 : Asked a w p e b) (h2 : Asked b v q e' c)
    (h3 : Asked a v q e' b') (h4 : Asked b' w p e c') : c' = c := by
  rcases id h1 with k1 | ⟨k1, rfl⟩
  · obtain ⟨x, rfl, m1⟩ := asked_frame hU.symm h3 k1
    rcases id h3 with k3 | ⟨k3, rfl⟩
    · obtain ⟨y, rfl, m2⟩ := asked_frame hU h1 k3
      have e1 : c = _ := h2.elim (fun h => edits_unique m2 h) fun h => absurd m2 (h.1 _)
      have e2 : c' = _ := h4.elim (fun h => edits_unique m1 h) fun h => absurd m1 (h.1 _)
      rw [e1, e2, ATree.setSlot_comm hU.sets]
    · have e2 : c' = _ := h4.elim (fun h => edits_unique m1 h) fun h => absurd m1 (h.1 _)
      rcases h2 with h | ⟨_, rfl⟩
      · obtain ⟨c', hc⟩ := asked_frame' hU h1 h
        exact absurd hc (k3 _)
      · exact e2
  · rcases h4 with h | ⟨_, rfl⟩
    · obtain ⟨c', hc⟩ := asked_frame' hU.symm h3 h
      exact absurd hc (k1 _)
    · rcases h3 with h3 | ⟨n3, rfl⟩ <;> rcases h2 with h2 | ⟨n2, rfl⟩
      · exact edits_unique h2 h3
      · exact absurd h3 (n2 _)
      · exact absurd h2 (n3 _)
      · rfl

section
variable {E : Env}

/-- What one change does that is asked for on a working system, as two workspaces of the space see it. -/
theorem asked_step {d d1 : Disk} (hd : Reachable E d) {cwd cwd2 : Str} (hout : E.Outside (Path.abs cwd (lit "."))) (hout2 : E.Outside (Path.abs cwd2 (lit "."))) {w v : OpenWs}
    (hg : Gets E d cwd (lit ".") w) (hg2 : Gets E d cwd2 (lit ".") v) (hsp : v.spaceID = w.spaceID) {u p u' q : UID} (hh : w.ws.HeadAt w.tree u p) (hh2 : v.ws.HeadAt v.tree u' q)
    {e : Edit} (hpl : e.Plain) (hu : e.Utf8) {r : Res CErr TS} (he : Exec E Faults.none (editCmd E cwd [e]) d r d1) :
    v.tree = w.tree ∧ Reachable E d1 ∧ ((∃ s, r = .ok s) ↔ ∃ b, Edits w.tree.abs w.ws p e b) ∧ OnlySpace w.spaceDir d d1 ∧
    ∃ w1 v1, Gets E d1 cwd (lit ".") w1 ∧ Gets E d1 cwd2 (lit ".") v1 ∧ SameWs w w1 ∧ SameWs v v1 ∧ w1.ws.HeadAt w1.tree u p ∧
      v1.ws.HeadAt v1.tree u' q ∧ v1.tree = w1.tree ∧ Asked w.tree.abs w.ws p e w1.tree.abs := by
  obtain ⟨g, hs⟩ := steady_reachable hd
  obtain ⟨T, hF⟩ := gets_found hs hout hg hh
  obtain ⟨T2, hF2⟩ := gets_found hs hout2 hg2 hh2
  have htree : v.tree = w.tree := tree_of_dir hF.opens hF2.opens (by rw [hF2.opens.dir, hF.opens.dir, hsp])
  have hok := C24_accepted_iff hd hout hg hh rfl hpl he
  refine ⟨htree, reachable_next hd rfl (a := .edit cwd [e]) hout (.edit he), hok, ?_⟩
  by_cases h : ∃ b, Edits w.tree.abs w.ws p e b
  · obtain ⟨s, rfl⟩ := hok.2 h
    obtain ⟨wx, x1, _, _, x4, x5⟩ := edit_effect hd hout hg hh hu he
    obtain ⟨hE, g', w2, b, c1, rfl, c3, c4, c5, hc, c6, c7⟩ := after_edit_grew hs (List.cons_ne_nil _ _) hF he
    obtain ⟨v2, o, e1, e3, e4, e5, e6⟩ := others_open hs c1 c6 c7 hF2 rfl rfl
    have hr1 : Reachable E (d.setSpace w.spaceDir (some (some b))) := reachable_next hd rfl (a := .edit cwd [e]) hout (.edit he)
    obtain rfl := gets_unique hr1 hout x1 (gets_of_opens c3)
    exact ⟨x5, _, v2, x1, gets_of_opens o, c4, ⟨e1, e5, e3⟩, c3.head, o.head, tree_of_dir c3 o (by rw [o.dir, c3.dir, e3, hsp, c4.2.2]), Or.inl x4⟩
  · obtain ⟨_, rfl⟩ := edit_first_refused hd rfl hout hg hh (es := []) (by simpa using hpl) (fun c hc => h ⟨c, hc⟩) he
    exact ⟨⟨rfl, rfl, rfl, rfl, rfl, fun _ _ => rfl⟩, w, v, hg, hg2, ⟨rfl, rfl, rfl⟩, ⟨rfl, rfl, rfl⟩, hh, hh2, htree, Or.inr ⟨fun c hc => h ⟨c, hc⟩, rfl⟩⟩

theorem asked_ws {w w1 : OpenWs} {p : UID} {e : Edit} {a b : ATree} (h : SameWs w w1) (hA : Asked a w1.ws p e b) : Asked a w.ws p e b := by
  have h' : SameWs w1 w := ⟨h.1.symm, h.2.1.symm, h.2.2.symm⟩
  exact hA.imp (fun x => C113_edit_repeated.edits_ws h' x) fun x => ⟨fun c hc => x.1 c (C113_edit_repeated.edits_ws h hc), x.2⟩

/-- **C117.** Two changes of branches or tags that have to do with different names, in one workspace or in two of a space, are asked for one after the other. In the other order the
same ones are accepted, and the history is the same in the end, as both workspaces see it. Neither workspace has moved, and nothing else has changed on the disk. -/
theorem C117_either_order {d d1 d2 d3 d4 : Disk} (hd : Reachable E d) {cwd cwd2 : Str} (hout : E.Outside (Path.abs cwd (lit "."))) (hout2 : E.Outside (Path.abs cwd2 (lit ".")))
    {w v : OpenWs} (hg : Gets E d cwd (lit ".") w) (hg2 : Gets E d cwd2 (lit ".") v) (hsp : v.spaceID = w.spaceID) {u p u' q : UID} (hh : w.ws.HeadAt w.tree u p)
    (hh2 : v.ws.HeadAt v.tree u' q) {e e' : Edit} (hpl : e.Plain) (hu : e.Utf8) (hpl' : e'.Plain) (hu' : e'.Utf8) (hU : Unrelated w.ws.id e v.ws.id e') {r1 r2 r3 r4 : Res CErr TS}
    (he1 : Exec E Faults.none (editCmd E cwd [e]) d r1 d1) (he2 : Exec E Faults.none (editCmd E cwd2 [e']) d1 r2 d2)
    (he3 : Exec E Faults.none (editCmd E cwd2 [e']) d r3 d3) (he4 : Exec E Faults.none (editCmd E cwd [e]) d3 r4 d4) :
    ((∃ s, r1 = .ok s) ↔ ∃ s, r4 = .ok s) ∧ ((∃ s, r2 = .ok s) ↔ ∃ s, r3 = .ok s) ∧ OnlySpace w.spaceDir d d2 ∧ OnlySpace w.spaceDir d d4 ∧
    ∃ wa va wb vb, Gets E d2 cwd (lit ".") wa ∧ Gets E d2 cwd2 (lit ".") va ∧ Gets E d4 cwd (lit ".") wb ∧ Gets E d4 cwd2 (lit ".") vb ∧ SameWs w wa ∧ SameWs w wb ∧ SameWs v va ∧ SameWs v vb ∧
      wa.ws.HeadAt wa.tree u p ∧ wb.ws.HeadAt wb.tree u p ∧ va.ws.HeadAt va.tree u' q ∧ vb.ws.HeadAt vb.tree u' q ∧ wb.tree.abs = wa.tree.abs ∧ va.tree = wa.tree ∧ vb.tree = wb.tree := by
  obtain ⟨t0, hr1, k1, o1, w1, v1, a1, a2, a3, a4, a5, a6, a7, a8⟩ := asked_step hd hout hout2 hg hg2 hsp hh hh2 hpl hu he1
  obtain ⟨_, hr2, k2, o2, va, wa, b1, b2, b3, b4, b5, b6, b7, b8⟩ := asked_step hr1 hout2 hout a2 a1 (by rw [a3.2.2, a4.2.2, hsp]) a6 a5 hpl' hu' he2
  obtain ⟨_, hr3, k3, o3, v3, w3, c1, c2, c3, c4, c5, c6, c7, c8⟩ := asked_step hd hout2 hout hg2 hg hsp.symm hh2 hh hpl' hu' he3
  obtain ⟨_, hr4, k4, o4, wb, vb, d1', d2', d3', d4', d5, d6, d7, d8⟩ := asked_step hr3 hout hout2 c2 c1 (by rw [c3.2.2, c4.2.2, hsp]) c6 c5 hpl hu he4
  have dw : w.spaceDir = w.spaceID.base32 := C114_forced.gets_dir hd hout hg
  have e2 : v1.spaceDir = w.spaceDir := by rw [C114_forced.gets_dir hr1 hout2 a2, dw, a4.2.2, hsp]
  have e3 : v.spaceDir = w.spaceDir := by rw [C114_forced.gets_dir hd hout2 hg2, dw, hsp]
  have e4 : w3.spaceDir = w.spaceDir := by rw [C114_forced.gets_dir hr3 hout c2, dw, c4.2.2]
  rw [e2] at o2
  rw [e3] at o3
  rw [e4] at o4
  have only : ∀ {x y z : Disk}, OnlySpace w.spaceDir x y → OnlySpace w.spaceDir y z → OnlySpace w.spaceDir x z := by
    rintro x y z ⟨l1, l2, l3, l4, l5, l6⟩ ⟨m1, m2, m3, m4, m5, m6⟩
    exact ⟨m1.trans l1, m2.trans l2, m3.trans l3, m4.trans l4, m5.trans l5, fun m hm => (m6 m hm).trans (l6 m hm)⟩
  rw [a7] at b8
  rw [t0] at c8
  rw [← c7] at c8
  have A1 := a8
  have A2 := asked_ws a4 b8
  have A3 := c8
  have A4 := asked_ws c4 d8
  rw [← b7] at A2
  have inv : ∀ {x y : OpenWs}, SameWs x y → SameWs y x := fun h => ⟨h.1.symm, h.2.1.symm, h.2.2.symm⟩
  refine ⟨?_, ?_, only o1 o2, only o3 o4, wa, va, wb, vb, b2, b1, d1', d2', ⟨b4.1.trans a3.1, b4.2.1.trans a3.2.1, b4.2.2.trans a3.2.2⟩,
    ⟨d3'.1.trans c4.1, d3'.2.1.trans c4.2.1, d3'.2.2.trans c4.2.2⟩, ⟨b3.1.trans a4.1, b3.2.1.trans a4.2.1, b3.2.2.trans a4.2.2⟩,
    ⟨d4'.1.trans c3.1, d4'.2.1.trans c3.2.1, d4'.2.2.trans c3.2.2⟩, b6, d5, b5, d6, asked_comm hU A1 A2 A3 A4, b7.symm, d7⟩
  · rw [k1, k4]
    constructor
    · rintro ⟨b, hb⟩
      obtain ⟨x, _, h⟩ := asked_frame hU.symm A3 hb
      exact ⟨_, C113_edit_repeated.edits_ws c4 h⟩
    · rintro ⟨b, hb⟩
      exact asked_frame' hU.symm A3 (C113_edit_repeated.edits_ws (inv c4) hb)
  · rw [k2, k3]
    constructor
    · rintro ⟨b, hb⟩
      rw [a7] at hb
      rw [t0]
      exact asked_frame' hU A1 (C113_edit_repeated.edits_ws (inv a4) hb)
    · rintro ⟨b, hb⟩
      rw [t0] at hb
      obtain ⟨x, _, h⟩ := asked_frame hU A1 hb
      rw [a7]
      exact ⟨_, C113_edit_repeated.edits_ws a4 h⟩

end
end Verif
