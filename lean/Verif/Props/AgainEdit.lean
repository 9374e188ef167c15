import Verif.Props.Again
import Verif.Props.Edits
/-!
# Repeating a change of a branch or a tag that was cut short (C113)
-/
set_option autoImplicit false
namespace Verif
open M TS Json

section
variable {E : Env} {f : Faults}

theorem edits_unique {a b c : ATree} {w : Ws} {p : UID} {e : Edit} (h : Edits a w p e b) (h' : Edits a w p e c) : c = b := by
  cases h <;> cases h'
  all_goals first
    | rfl
    | (rename_i h1 _ _ _ h2 _; rw [(Ws.resolves_unique h1 h2).1])

/-- **C113.** `branch` or `tag`, with one change that is allowed, is killed at any moment, or any call of it fails. If the workspace opens then, it is the same one, and no other
file has changed. The change is made, and nothing else in the history, or the history is as it was; then repeating the command makes the change on a system that works. -/
theorem C113_edit_repeated {d d1 : Disk} (hd : Legacy E d) (hf : f.rep = false) {cwd : Str} (hout : E.Outside (Path.abs cwd (lit "."))) {w : OpenWs}
    (hg : Gets E d cwd (lit ".") w) {u p : UID} (hh : w.ws.HeadAt w.tree u p) {e : Edit} (hpl : e.Plain) (hu : e.Utf8) {a : ATree} (hE : Edits w.tree.abs w.ws p e a)
    (h : Stops E f (editCmd E cwd [e]) d d1) {w1 : OpenWs} (hg1 : Gets E d1 cwd (lit ".") w1) :
    SameWs w w1 ∧ w1.ws.HeadAt w1.tree u p ∧ OnlySpace w.spaceDir d d1 ∧
    (w1.tree.abs = a ∨ w1.tree.abs = w.tree.abs ∧ ∀ r d2, Exec E Faults.none (editCmd E cwd [e]) d1 r d2 → (∃ s, r = .ok s) ∧
      ∃ w2, Gets E d2 cwd (lit ".") w2 ∧ SameWs w w2 ∧ w2.ws.HeadAt w2.tree u p ∧ w2.tree.abs = a ∧ OnlySpace w.spaceDir d d2) := by
  have hr := reachable_legacy hd
  obtain ⟨g, hs⟩ := steady_reachable hr
  obtain ⟨T, hF⟩ := gets_found hs hout hg hh
  have hM := wp_stops (editCmd_wp (f := f) hF.opens (es := [e]) (by simpa using hpl)) (Or.inl rfl) h
  have hO : OnlySpace w.spaceDir d d1 := by
    rcases hM with rfl | ⟨_, _, _, q, _, _, _, _, _, _, rfl⟩
    · exact ⟨rfl, rfl, rfl, rfl, rfl, fun _ _ => rfl⟩
    · exact ⟨rfl, rfl, rfl, rfl, rfl, fun m hm => upd_ne _ _ hm⟩
  obtain ⟨_, o2, o3, _, o5, _⟩ := id hO
  have hst : Stops E f ((Command.edit cwd [e]).prog E) d d1 := stops_bind h
  have hord : ∀ n b i, d1.info n = some b → unmarshalInfo b = some i → d1.mdir n ≠ none := by
    rw [o2, o3]
    obtain ⟨_, _, _, _, _, _, _, rfl, ho⟩ := hd
    exact ho.mdir
  have hr1 := reachable_legacy (C77_killed hd hf hst hord)
  obtain ⟨g1, hs1⟩ := steady_reachable hr1
  obtain ⟨u1, p1, T1, hF1⟩ := found_of_gets hs1 hout hg1
  obtain ⟨a1, _, a7⟩ := gets_reads hout hg
  obtain ⟨b1, _, b7⟩ := gets_reads hout hg1
  have hid : w1.mount.id = w.mount.id := by
    rw [o5, a1] at b1; exact (Res.ok.inj b1).symm
  obtain ⟨r, r1, r2, r3, r4, r5, r6⟩ := rec_of_opens hs hF.opens
  obtain ⟨r', s1, s2, s3, s4, s5, s6⟩ := rec_of_opens hs1 hF1.opens
  rw [hid, o3, r1] at s1
  obtain ⟨c1, c2, _, c4, _, c6⟩ := rec_bytes_inj (Option.some.inj s1)
  have hsame : SameWs w w1 := ⟨(s2.symm.trans c1.symm).trans r2, (s6.symm.trans c6.symm).trans r6, (s3.symm.trans c2.symm).trans r3⟩
  have hu1 : u1 = u := (s5.symm.trans c4.symm).trans r5
  subst hu1
  have hdir : w1.spaceDir = w.spaceDir := by rw [hF1.opens.dir, hF.opens.dir, hsame.2.2]
  rw [hdir] at b7
  -- the history
  have htree : w1.tree.abs = w.tree.abs ∨ w1.tree.abs = a := by
    rcases hM with rfl | ⟨es1, T', b, q, k0, k1, k2, k3, k4, k5, rfl⟩
    · rw [a7] at b7; rw [← Res.ok.inj b7]; exact Or.inl rfl
    · right
      have hl : (d.setSpace w.spaceDir (some (some q))).loads w.spaceDir = spaceLoad (.ok q) := by simp only [Disk.loads, Disk.setSpace, upd_self]
      rw [hl] at b7
      have hes : es1 = [e] := by
        rcases es1 with _ | ⟨x, _ | ⟨y, t⟩⟩
        · exact absurd rfl k0
        · obtain ⟨t, ht⟩ := k1; simp only [List.cons_append, List.cons.injEq] at ht; rw [ht.1]
        · have := k1.length_le; simp at this
      subst hes
      have h8 := utf8_edits k3 (by simpa using hu) (found_utf8 hF)
      rcases loads_prefix k2 k4 k5 with ⟨_, x⟩ | ⟨s', x1, x2⟩
      · rw [x] at b7; cases b7
      · rw [x1] at b7
        rw [← Res.ok.inj b7, comesBack_named x2 (utf8_named h8), tidy_utf8 h8]
        cases k3 with
        | cons y1 y2 => cases y2; exact edits_unique hE y1
  have hnode : w1.tree.abs.node = w.tree.abs.node := by
    rcases htree with x | x
    · rw [x]
    · rw [x]; exact (editsAll_node (.cons hE .nil)).1
  have hp1 : p1 = p := by
    obtain ⟨_, m, x1, x2⟩ := hh
    obtain ⟨_, m', y1, y2⟩ := hF1.opens.head
    rw [hnode, x1] at y1; cases y1
    rw [x2] at y2; simpa using y2.symm
  subst hp1
  refine ⟨hsame, hF1.opens.head, hO, ?_⟩
  rcases htree with x | x
  · right
    refine ⟨x, fun r d2 he => ?_⟩
    have hE1 : Edits w1.tree.abs w1.ws p1 e a := by
      rw [x]; exact edits_ws hsame hE
    obtain ⟨s, rfl⟩ := (C24_accepted_iff hr1 hout hg1 hF1.opens.head rfl hpl he).2 ⟨a, hE1⟩
    obtain ⟨w2, z1, z2, z3, z4, z5⟩ := edit_effect hr1 hout hg1 hF1.opens.head hu he
    refine ⟨⟨s, rfl⟩, w2, z1, ⟨z2.1.trans hsame.1, z2.2.1.trans hsame.2.1, z2.2.2.trans hsame.2.2⟩, z3, edits_unique hE1 z4, ?_⟩
    rw [hdir] at z5
    obtain ⟨l1, l2, l3, l4, l5, l6⟩ := hO
    obtain ⟨m1, m2, m3, m4, m5, m6⟩ := z5
    exact ⟨m1.trans l1, m2.trans l2, m3.trans l3, m4.trans l4, m5.trans l5, fun m hm => (m6 m hm).trans (l6 m hm)⟩
  · exact Or.inl x
where
  edits_ws {w w1 : OpenWs} {p : UID} {e : Edit} {a b : ATree} (h : SameWs w w1) (hE : Edits a w.ws p e b) : Edits a w1.ws p e b := by
    obtain ⟨h1, h2, _⟩ := h
    cases hE with
    | addBranch x y => rw [← h1] at x y ⊢; exact .addBranch x y
    | deleteOwn x y => rw [← h1] at y ⊢; exact .deleteOwn (by rw [h2]; exact x) y
    | deleteGlobal x => exact .deleteGlobal x
    | addTag x y => rw [← h1] at x; exact .addTag x y
    | deleteTag x => exact .deleteTag x

end
end Verif
