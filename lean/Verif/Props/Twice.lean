import Verif.Props.AgainEdit
import Verif.Props.Branches
/-!
# The same change of a branch or a tag twice (C114)

`branch -f` and `tag -f` can be repeated: the reference may be the name that is set, but it means the same commit afterwards. Without `-f`, and for `-d`, the second command is
refused and changes nothing.
-/
set_option autoImplicit false
namespace Verif
open M TS Json

/-- Where a tag has been put on what a reference means, the reference means the same. -/
theorem resolves_setTag {a : ATree} {wid p v : UID} {name ref : Str} {k : KeyType} (h : Ws.Resolves a wid p ref v k) : ∃ k', Ws.Resolves (a.setTag name v) wid p ref v k' := by
  have hh : ∀ u, (a.setTag name v).Has u ↔ a.Has u := fun _ => Iff.rfl
  by_cases e : ref = name
  · subst e
    have ht : (a.setTag ref v).tag ref = some v := by simp only [ATree.setTag, upd_self]
    cases h with
    | head => exact ⟨_, .head⟩
    | id h1 h2 h3 => exact ⟨_, .id h1 h2 h3⟩
    | tag h1 h2 _ => exact ⟨_, .tag h1 h2 ht⟩
    | full h1 h2 _ _ => exact ⟨_, .tag h1 h2 ht⟩
    | own h1 h2 _ _ _ => exact ⟨_, .tag h1 h2 ht⟩
    | global h1 h2 _ _ _ _ _ => exact ⟨_, .tag h1 h2 ht⟩
  · have ht : (a.setTag name v).tag ref = a.tag ref := by simp only [ATree.setTag]; exact upd_ne _ _ e
    cases h with
    | head => exact ⟨_, .head⟩
    | id h1 h2 h3 => exact ⟨_, .id h1 h2 h3⟩
    | tag h1 h2 h3 => exact ⟨_, .tag h1 h2 (ht.trans h3)⟩
    | full h1 h2 h3 h4 => exact ⟨_, .full h1 h2 (ht.trans h3) h4⟩
    | own h1 h2 h3 h4 h5 => exact ⟨_, .own h1 h2 (ht.trans h3) h4 h5⟩
    | global h1 h2 h3 h4 h5 h6 h7 => exact ⟨_, .global h1 h2 (ht.trans h3) h4 h5 h6 h7⟩

/-- And where a branch has. -/
theorem resolves_setBranch {a : ATree} {wid p v : UID} {name ref : Str} {k : KeyType} (h : Ws.Resolves a wid p ref v k) :
    ∃ k', Ws.Resolves (a.setBranch (wid.base32 ++ lit "/" ++ name) v) wid p ref v k' := by
  let b := wid.base32 ++ lit "/" ++ name
  have hs : (a.setBranch b v).branch b = some v := by simp only [ATree.setBranch, upd_self]
  have hn : ∀ x, x ≠ b → (a.setBranch b v).branch x = a.branch x := fun x hx => by simp only [ATree.setBranch]; exact upd_ne _ _ hx
  cases h with
  | head => exact ⟨_, .head⟩
  | id h1 h2 h3 => exact ⟨_, .id h1 h2 h3⟩
  | tag h1 h2 h3 => exact ⟨_, .tag h1 h2 h3⟩
  | full h1 h2 h3 h4 =>
    by_cases e : ref = b
    · exact ⟨_, .full h1 h2 h3 (by rw [e]; exact hs)⟩
    · exact ⟨_, .full h1 h2 h3 ((hn _ e).trans h4)⟩
  | own h1 h2 h3 h4 h5 =>
    by_cases e : ref = b
    · exact ⟨_, .full h1 h2 h3 (by rw [e]; exact hs)⟩
    · by_cases e' : wid.base32 ++ lit "/" ++ ref = b
      · exact ⟨_, .own h1 h2 h3 ((hn _ e).trans h4) (by rw [e']; exact hs)⟩
      · exact ⟨_, .own h1 h2 h3 ((hn _ e).trans h4) ((hn _ e').trans h5)⟩
  | global h1 h2 h3 h4 h5 h6 h7 =>
    by_cases e : ref = b
    · exact ⟨_, .full h1 h2 h3 (by rw [e]; exact hs)⟩
    · by_cases e' : wid.base32 ++ lit "/" ++ ref = b
      · exact ⟨_, .own h1 h2 h3 ((hn _ e).trans h4) (by rw [e']; exact hs)⟩
      · exact ⟨_, .global h1 h2 h3 ((hn _ e).trans h4) ((hn _ e').trans h5) h6 ((hn _ fun x => own_ne_global x.symm).trans h7)⟩

/-- The change is `branch -f NAME REF` or `tag -f NAME REF`. -/
def Edit.Forced : Edit → Prop
  | .addBranch _ _ force => force = true
  | .addTag _ _ force => force = true
  | _ => False

theorem edits_twice {a b : ATree} {w : Ws} {p : UID} {e : Edit} (h : Edits a w p e b) (hf : e.Forced) : Edits b w p e b := by
  have same : ∀ {f : Str → Option UID} {k : Str} {v : UID}, upd (upd f k (some v)) k (some v) = upd f k (some v) := fun {f k v} => by
    funext x
    by_cases hx : x = k
    · subst hx; rw [upd_self, upd_self]
    · rw [upd_ne _ _ hx]
  cases h with
  | @addBranch name _ _ _ _ h1 _ =>
    obtain ⟨k', h2⟩ := resolves_setBranch (name := name) h1
    have := Edits.addBranch (name := name) h2 (Or.inr hf)
    simp only [ATree.setBranch, same] at this
    exact this
  | @addTag name _ _ _ _ h1 _ =>
    obtain ⟨k', h2⟩ := resolves_setTag (name := name) h1
    have := Edits.addTag (name := name) h2 (Or.inr hf)
    simp only [ATree.setTag, same] at this
    exact this
  | deleteOwn => exact hf.elim
  | deleteGlobal => exact hf.elim
  | deleteTag => exact hf.elim

theorem edits_once {a b c : ATree} {w : Ws} {p : UID} {e : Edit} (h : Edits a w p e b) (hf : ¬ e.Forced) : ¬ Edits b w p e c := by
  intro h'
  cases h with
  | addBranch =>
    cases h' with
    | addBranch _ h2 => exact h2.elim (fun h2 => by simp only [ATree.setBranch, upd_self] at h2; cases h2) hf
  | deleteOwn =>
    cases h' with
    | deleteOwn _ h2 => exact h2 (by simp only [ATree.delBranch, upd_self])
  | deleteGlobal =>
    cases h' with
    | deleteGlobal h2 => exact h2 (by simp only [ATree.delBranch, upd_self])
  | addTag =>
    cases h' with
    | addTag _ h2 => exact h2.elim (fun h2 => by simp only [ATree.setTag, upd_self] at h2; cases h2) hf
  | deleteTag =>
    cases h' with
    | deleteTag h2 => exact h2 (by simp only [ATree.delTag, upd_self])

section
variable {E : Env} {f : Faults}

/-- **C114.** After `branch -f NAME REF` or `tag -f NAME REF`, the same command succeeds, and the history is the same afterwards. -/
theorem C114_forced {d d1 d2 : Disk} (hd : Reachable E d) (hf : f.io = false) {cwd : Str} (hout : E.Outside (Path.abs cwd (lit "."))) {w : OpenWs}
    (hg : Gets E d cwd (lit ".") w) {e : Edit} (hu : e.Utf8) (hfo : e.Forced) {s : TS} (he : Exec E f (editCmd E cwd [e]) d (.ok s) d1)
    {r : Res CErr TS} (he2 : Exec E Faults.none (editCmd E cwd [e]) d1 r d2) :
    (∃ s2, r = .ok s2) ∧ ∃ w1 w2, Gets E d1 cwd (lit ".") w1 ∧ Gets E d2 cwd (lit ".") w2 ∧ SameWs w1 w2 ∧ w2.tree.abs = w1.tree.abs ∧ OnlySpace w.spaceDir d1 d2 := by
  obtain ⟨g, hs⟩ := steady_reachable hd
  obtain ⟨u, p, T, hF⟩ := found_of_gets hs hout hg
  have hr1 : Reachable E d1 := reachable_next hd hf (a := .edit cwd [e]) hout (.edit he)
  obtain ⟨w1, a1, a2, a3, a4, _⟩ := edit_effect hd hout hg hF.opens.head hu he
  have hE := C113_edit_repeated.edits_ws a2 (edits_twice a4 hfo)
  obtain ⟨s2, rfl⟩ := (C24_accepted_iff hr1 hout a1 a3 rfl (plain_of_edit he e (by simp)) he2).2 ⟨_, hE⟩
  obtain ⟨w2, b1, b2, _, b4, b5⟩ := edit_effect hr1 hout a1 a3 hu he2
  have hdir : w1.spaceDir = w.spaceDir := by rw [gets_dir hr1 hout a1, gets_dir hd hout hg, a2.2.2]
  exact ⟨⟨s2, rfl⟩, w1, w2, a1, b1, b2, edits_unique hE b4, hdir ▸ b5⟩
where
  gets_dir {d : Disk} {cwd : Str} {w : OpenWs} (hd : Reachable E d) (hout : E.Outside (Path.abs cwd (lit "."))) (hg : Gets E d cwd (lit ".") w) : w.spaceDir = w.spaceID.base32 := by
    obtain ⟨g, hs⟩ := steady_reachable hd
    obtain ⟨u, p, T, hF⟩ := found_of_gets hs hout hg
    exact hF.opens.dir

/-- **C114.** After `branch NAME REF`, `tag NAME REF`, `branch -d NAME` or `tag -d NAME`, the same command is refused, and changes nothing. -/
theorem C114_refused {d d1 d2 : Disk} (hd : Reachable E d) (hf : f.io = false) {cwd : Str} (hout : E.Outside (Path.abs cwd (lit "."))) {w : OpenWs}
    (hg : Gets E d cwd (lit ".") w) {e : Edit} (hu : e.Utf8) (hfo : ¬ e.Forced) {s : TS} (he : Exec E f (editCmd E cwd [e]) d (.ok s) d1)
    {r : Res CErr TS} (he2 : Exec E Faults.none (editCmd E cwd [e]) d1 r d2) : (∃ x, r = .err x) ∧ d2 = d1 := by
  obtain ⟨g, hs⟩ := steady_reachable hd
  obtain ⟨u, p, T, hF⟩ := found_of_gets hs hout hg
  have hr1 : Reachable E d1 := reachable_next hd hf (a := .edit cwd [e]) hout (.edit he)
  obtain ⟨w1, a1, a2, a3, a4, _⟩ := edit_effect hd hout hg hF.opens.head hu he
  have hpl := plain_of_edit he e (by simp)
  have hno : ¬ ∃ s2, r = .ok s2 := fun h => by
    obtain ⟨b, hb⟩ := (C24_accepted_iff hr1 hout a1 a3 rfl hpl he2).1 h
    exact edits_once a4 hfo (C113_edit_repeated.edits_ws ⟨a2.1.symm, a2.2.1.symm, a2.2.2.symm⟩ hb)
  obtain ⟨g1, hs1⟩ := steady_reachable hr1
  obtain ⟨T1, hF1⟩ := gets_found hs1 hout a1 a3
  have hw := wpm_exec (editCmd_wp (f := Faults.none) hF1.opens (es := [e]) (by simpa using hpl)) he2
  cases r with
  | ok x => exact absurd ⟨x, rfl⟩ hno
  | err x => exact ⟨⟨x, rfl⟩, C82_edit_partial hr1 rfl hout a1 a3 he2⟩
  | panic => exact hw.elim
  | diverge => exact hw.elim

/-- **C113.** `branch -f` and `tag -f` can be repeated in any case: killed at any moment, or with any call failing, if the workspace opens then, the repetition makes the change. -/
theorem C113_forced_repeated {d d1 d2 : Disk} (hd : Legacy E d) (hf : f.rep = false) {cwd : Str} (hout : E.Outside (Path.abs cwd (lit "."))) {w : OpenWs}
    (hg : Gets E d cwd (lit ".") w) {u p : UID} (hh : w.ws.HeadAt w.tree u p) {e : Edit} (hpl : e.Plain) (hu : e.Utf8) (hfo : e.Forced) {a : ATree}
    (hE : Edits w.tree.abs w.ws p e a) (h : Stops E f (editCmd E cwd [e]) d d1) {w1 : OpenWs} (hg1 : Gets E d1 cwd (lit ".") w1) {r : Res CErr TS}
    (he : Exec E Faults.none (editCmd E cwd [e]) d1 r d2) :
    (∃ s, r = .ok s) ∧ ∃ w2, Gets E d2 cwd (lit ".") w2 ∧ SameWs w w2 ∧ w2.ws.HeadAt w2.tree u p ∧ w2.tree.abs = a := by
  obtain ⟨k1, k2, k3, k4 | ⟨_, k5⟩⟩ := C113_edit_repeated hd hf hout hg hh hpl hu hE h hg1
  · have hst : Stops E f ((Command.edit cwd [e]).prog E) d d1 := stops_bind h
    have hr1 : Reachable E d1 := reachable_legacy (C77_killed hd hf hst (by
      rw [k3.2.1, k3.2.2.1]
      obtain ⟨_, _, _, _, _, _, _, rfl, ho⟩ := hd
      exact ho.mdir))
    have hE1 : Edits w1.tree.abs w1.ws p e w1.tree.abs := C113_edit_repeated.edits_ws k1 (by rw [k4]; exact edits_twice hE hfo)
    obtain ⟨s2, rfl⟩ := (C24_accepted_iff hr1 hout hg1 k2 rfl hpl he).2 ⟨_, hE1⟩
    obtain ⟨w2, b1, b2, b3, b4, _⟩ := edit_effect hr1 hout hg1 k2 hu he
    exact ⟨⟨s2, rfl⟩, w2, b1, ⟨b2.1.trans k1.1, b2.2.1.trans k1.2.1, b2.2.2.trans k1.2.2⟩, b3, (edits_unique hE1 b4).trans k4⟩
  · obtain ⟨a1, w2, a2, a3, a4, a5, _⟩ := k5 r d2 he
    exact ⟨a1, w2, a2, a3, a4, a5⟩

end
end Verif
