import Verif.Props.Branches
/-!
# Branch and tag commands (C46, C59)

What `branch` and `tag` with changes have done is what the next command on the same space sees.
-/

set_option autoImplicit false
namespace Verif
open M TS Json

section
variable {E : Env} {f : Faults}

/-- What finished changes leave. -/
theorem after_edit_grew {d d' : Disk} {g : Str → Option TS} (h : Steady E d g) {cwd : Str} {es : List Edit} (hne : es ≠ [])
    {w : OpenWs} {u p : UID} {T : TS} (hF : Found E d g cwd (lit ".") w u p T) {s : TS} (he : Exec E f (editCmd E cwd es) d (.ok s) d') :
    EditsAll w.ws p es w.tree.abs s.abs ∧ ∃ g' w2 b, Steady E d' g' ∧ d' = d.setSpace w.spaceDir (some (some b)) ∧ Opens E d' cwd (lit ".") w2 u p ∧ SameWs w w2 ∧
      w2.mount = w.mount ∧ ComesBack s.abs w2.tree.abs ∧ Grew E d g d' g' ∧ Kept g g' := by
  have hes := plain_of_edit he
  obtain ⟨_, hE, ⟨e, _⟩ | ⟨T', b, h1, e, h2, rfl⟩⟩ := wpm_exec (editCmd_wp (f := f) hF.opens hes) he
  · exact absurd e hne
  refine ⟨hE, ?_⟩
  rw [← e] at hE ⊢
  have hn := (editsAll_node hE).1
  have hx : Extends (Head E d) T.abs T'.abs := extends_trans (extends_comesBack hF.back (h.keys _ _ hF.tree)) (extends_node hn)
  have hs' := steady_shelved h hF.tree h1 h2 hx (fun v n hv => nodeKeys_back hF.back v n (by rw [← hn]; exact hv)) (fun v hv => hF.opens.stored v (by
    rw [ATree.Has, hn] at hv; exact hv)) (fun v hv => comesBack_has hF.back (by rw [ATree.Has, hn] at hv; exact hv))
  obtain ⟨r, r1, r2, r3, r4, r5, r6⟩ := rec_of_opens h hF.opens
  obtain ⟨w2, q, o, e1, e2, e3, e4, e5, e6⟩ := reopen (r := r) (cwd := cwd) (path := lit ".") hs' hF.opens.out (by rw [r4]; exact hF.opens.link) (by rw [r4]; exact r1)
    (by rw [r3, ← hF.opens.dir]; exact upd_self _ _ _) (shallow_congr hn (comesBack_shallow hF.back hF.shallow))
    (by rw [r5]; exact extends_has hx (by obtain ⟨n, hn, _⟩ := found_below hF; exact ⟨n, hn⟩))
  have hq : q = p := by
    obtain ⟨_, m, a1, a2⟩ := hF.opens.head
    obtain ⟨m', b1, b2⟩ := e6
    rw [r5, hn, a1] at b1; cases b1
    rw [a2] at b2; simpa using b2.symm
  subst hq
  rw [r5] at o
  refine ⟨_, w2, b, hs', rfl, o, ⟨e1.trans r2, e4.trans r6, e2.trans r3⟩, ?_, e5,
    ⟨fun n T0 hT0 => ?_, fun _ hv _ => hv, fun _ _ _ => rfl, fun _ hv => hv⟩, kept_upd (shallow_congr hn (comesBack_shallow hF.back hF.shallow))⟩
  · rw [o.mount, hF.opens.mount, e3, r4]
  · by_cases he : n = w.spaceDir
    · subst he; rw [hF.tree] at hT0; cases hT0; exact ⟨T', upd_self _ _ _, hx⟩
    · exact ⟨T0, by rw [upd_ne _ _ he]; exact hT0, extends_refl _⟩

theorem after_edit {d d' : Disk} {g : Str → Option TS} (h : Steady E d g) {cwd : Str} {es : List Edit} (hne : es ≠ [])
    {w : OpenWs} {u p : UID} {T : TS} (hF : Found E d g cwd (lit ".") w u p T) {s : TS} (he : Exec E f (editCmd E cwd es) d (.ok s) d') :
    EditsAll w.ws p es w.tree.abs s.abs ∧ ∃ g' w2 b, Steady E d' g' ∧ d' = d.setSpace w.spaceDir (some (some b)) ∧ Opens E d' cwd (lit ".") w2 u p ∧ SameWs w w2 ∧
      w2.mount = w.mount ∧ ComesBack s.abs w2.tree.abs := by
  obtain ⟨h1, g', w2, b, h2, h3, h4, h5, h6, h7, _⟩ := after_edit_grew h hne hF he
  exact ⟨h1, g', w2, b, h2, h3, h4, h5, h6, h7⟩

/-- The names in the edit are valid UTF-8. -/
def Edit.Utf8 : Edit → Prop
  | .addBranch name _ _ => validUtf8 name
  | .addTag name _ _ => validUtf8 name
  | _ => True

theorem valid_own (i : UID) {x : Str} (h : validUtf8 x) : validUtf8 (i.base32 ++ lit "/" ++ x) := by
  rw [valid_iff_sanitize, sanitize_own, sanitize_valid h]

theorem utf8_edits {a a' : ATree} {w : Ws} {p : UID} {es : List Edit} (h : EditsAll w p es a a') (hs : ∀ e ∈ es, e.Utf8) (ho : a.Utf8) : a'.Utf8 := by
  induction h with
  | nil => exact ho
  | cons h1 _ ih =>
    refine ih (fun e he => hs e (by simp [he])) ?_
    have h0 := hs _ List.mem_cons_self
    cases h1 with
    | addBranch =>
      refine ⟨fun b v hb => ?_, ho.tag, ho.anno, ho.data⟩
      simp only [ATree.setBranch, upd] at hb
      split at hb
      · rename_i e; rw [e]; exact valid_own _ h0
      · exact ho.branch b v hb
    | deleteOwn =>
      refine ⟨fun b v hb => ?_, ho.tag, ho.anno, ho.data⟩
      simp only [ATree.delBranch, upd] at hb
      split at hb
      · cases hb
      · exact ho.branch b v hb
    | deleteGlobal =>
      refine ⟨fun b v hb => ?_, ho.tag, ho.anno, ho.data⟩
      simp only [ATree.delBranch, upd] at hb
      split at hb
      · cases hb
      · exact ho.branch b v hb
    | addTag =>
      refine ⟨ho.branch, fun b v hb => ?_, ho.anno, ho.data⟩
      simp only [ATree.setTag, upd] at hb
      split at hb
      · rename_i e; rw [e]; exact h0
      · exact ho.tag b v hb
    | deleteTag =>
      refine ⟨ho.branch, fun b v hb => ?_, ho.anno, ho.data⟩
      simp only [ATree.delTag, upd] at hb
      split at hb
      · cases hb
      · exact ho.tag b v hb

/-- At most the tree file of the space `n` differs. -/
def OnlySpace (n : Str) (d d' : Disk) : Prop :=
  d'.layer = d.layer ∧ d'.mdir = d.mdir ∧ d'.info = d.info ∧ d'.mnt = d.mnt ∧ d'.user = d.user ∧ ∀ m, m ≠ n → d'.space m = d.space m

theorem edit_effect {d d' : Disk} (hd : Reachable E d) {cwd : Str} (hout : E.Outside (Path.abs cwd (lit "."))) {w : OpenWs}
    (hg : Gets E d cwd (lit ".") w) {u p : UID} (hh : w.ws.HeadAt w.tree u p) {e : Edit} (hu : e.Utf8)
    {s : TS} (he : Exec E f (editCmd E cwd [e]) d (.ok s) d') :
    ∃ w2, Gets E d' cwd (lit ".") w2 ∧ SameWs w w2 ∧ w2.ws.HeadAt w2.tree u p ∧ Edits w.tree.abs w.ws p e w2.tree.abs ∧ OnlySpace w.spaceDir d d' := by
  obtain ⟨g, hs⟩ := steady_reachable hd
  obtain ⟨T, hF⟩ := gets_found hs hout hg hh
  obtain ⟨hE, g', w2, b, _, rfl, ho, hsame, _, hc⟩ := after_edit hs (List.cons_ne_nil _ _) hF he
  have h8 := utf8_edits hE (by simpa using hu) (found_utf8 hF)
  have e2 : w2.tree.abs = s.abs := by rw [comesBack_named hc (utf8_named h8), tidy_utf8 h8]
  refine ⟨w2, gets_of_opens ho, hsame, ho.head, ?_, rfl, rfl, rfl, rfl, rfl, fun m hm => upd_ne _ _ hm⟩
  rw [e2]
  cases hE with
  | cons h1 h2 => cases h2; exact h1

/-- **C59**, `tag [-f] NAME REF`: the next command sees the tag at the commit that REF meant, and everything else as before. -/
theorem C59_tag {d d' : Disk} (hd : Reachable E d) {cwd : Str} (hout : E.Outside (Path.abs cwd (lit "."))) {w : OpenWs}
    (hg : Gets E d cwd (lit ".") w) {u p : UID} (hh : w.ws.HeadAt w.tree u p) {name ref : Str} {force : Bool} (hu : validUtf8 name)
    {s : TS} (he : Exec E f (editCmd E cwd [.addTag name ref force]) d (.ok s) d') :
    ∃ w2 v k, Gets E d' cwd (lit ".") w2 ∧ SameWs w w2 ∧ w2.ws.HeadAt w2.tree u p ∧ Ws.Resolves w.tree.abs w.ws.id p ref v k ∧
      (w.tree.abs.tag name = none ∨ force = true) ∧ w2.tree.abs.tag name = some v ∧ (∀ t, t ≠ name → w2.tree.abs.tag t = w.tree.abs.tag t) ∧
      w2.tree.abs.branch = w.tree.abs.branch ∧ w2.tree.abs.node = w.tree.abs.node ∧ w2.tree.abs.root = w.tree.abs.root ∧ OnlySpace w.spaceDir d d' := by
  obtain ⟨w2, h1, h2, h3, h4, h5⟩ := edit_effect hd hout hg hh (e := .addTag name ref force) hu he
  generalize ha : w2.tree.abs = a2 at h4
  cases h4 with
  | addTag hR hf => exact ⟨w2, _, _, h1, h2, h3, hR, hf, by rw [ha]; exact upd_self _ _ _, fun t ht => by rw [ha]; exact upd_ne _ _ ht, by rw [ha]; rfl, by rw [ha]; rfl, by rw [ha]; rfl, h5⟩

/-- **C59**, `tag -d NAME`. -/
theorem C59_untag {d d' : Disk} (hd : Reachable E d) {cwd : Str} (hout : E.Outside (Path.abs cwd (lit "."))) {w : OpenWs}
    (hg : Gets E d cwd (lit ".") w) {u p : UID} (hh : w.ws.HeadAt w.tree u p) {name : Str}
    {s : TS} (he : Exec E f (editCmd E cwd [.deleteTag name]) d (.ok s) d') :
    ∃ w2, Gets E d' cwd (lit ".") w2 ∧ SameWs w w2 ∧ w2.ws.HeadAt w2.tree u p ∧ w.tree.abs.tag name ≠ none ∧ w2.tree.abs.tag name = none ∧
      (∀ t, t ≠ name → w2.tree.abs.tag t = w.tree.abs.tag t) ∧
      w2.tree.abs.branch = w.tree.abs.branch ∧ w2.tree.abs.node = w.tree.abs.node ∧ w2.tree.abs.root = w.tree.abs.root ∧ OnlySpace w.spaceDir d d' := by
  obtain ⟨w2, h1, h2, h3, h4, h5⟩ := edit_effect hd hout hg hh (e := .deleteTag name) trivial he
  generalize ha : w2.tree.abs = a2 at h4
  cases h4 with
  | deleteTag hf => exact ⟨w2, h1, h2, h3, hf, by rw [ha]; exact upd_self _ _ _, fun t ht => by rw [ha]; exact upd_ne _ _ ht, by rw [ha]; rfl, by rw [ha]; rfl, by rw [ha]; rfl, h5⟩

/-- **C59**, `branch [-f] NAME REF`. -/
theorem C59_branch {d d' : Disk} (hd : Reachable E d) {cwd : Str} (hout : E.Outside (Path.abs cwd (lit "."))) {w : OpenWs}
    (hg : Gets E d cwd (lit ".") w) {u p : UID} (hh : w.ws.HeadAt w.tree u p) {name ref : Str} {force : Bool} (hu : validUtf8 name)
    {s : TS} (he : Exec E f (editCmd E cwd [.addBranch name ref force]) d (.ok s) d') :
    ∃ w2 v k, Gets E d' cwd (lit ".") w2 ∧ SameWs w w2 ∧ w2.ws.HeadAt w2.tree u p ∧ Ws.Resolves w.tree.abs w.ws.id p ref v k ∧
      (w.tree.abs.branch (w.ws.id.base32 ++ lit "/" ++ name) = none ∨ force = true) ∧ w2.tree.abs.branch (w.ws.id.base32 ++ lit "/" ++ name) = some v ∧
      (∀ b, b ≠ w.ws.id.base32 ++ lit "/" ++ name → w2.tree.abs.branch b = w.tree.abs.branch b) ∧
      w2.tree.abs.tag = w.tree.abs.tag ∧ w2.tree.abs.node = w.tree.abs.node ∧ w2.tree.abs.root = w.tree.abs.root ∧ OnlySpace w.spaceDir d d' := by
  obtain ⟨w2, h1, h2, h3, h4, h5⟩ := edit_effect hd hout hg hh (e := .addBranch name ref force) hu he
  generalize ha : w2.tree.abs = a2 at h4
  cases h4 with
  | addBranch hR hf => exact ⟨w2, _, _, h1, h2, h3, hR, hf, by rw [ha]; exact upd_self _ _ _, fun t ht => by rw [ha]; exact upd_ne _ _ ht, by rw [ha]; rfl, by rw [ha]; rfl, by rw [ha]; rfl, h5⟩

/-- **C59**, `branch -d NAME`: a branch of this workspace, not the one it is on. -/
theorem C59_unbranch {d d' : Disk} (hd : Reachable E d) {cwd : Str} (hout : E.Outside (Path.abs cwd (lit "."))) {w : OpenWs}
    (hg : Gets E d cwd (lit ".") w) {u p : UID} (hh : w.ws.HeadAt w.tree u p) {name : Str}
    {s : TS} (he : Exec E f (editCmd E cwd [.deleteBranch name false]) d (.ok s) d') :
    ∃ w2, Gets E d' cwd (lit ".") w2 ∧ SameWs w w2 ∧ w2.ws.HeadAt w2.tree u p ∧ name ≠ w.ws.branch ∧
      w.tree.abs.branch (w.ws.id.base32 ++ lit "/" ++ name) ≠ none ∧ w2.tree.abs.branch (w.ws.id.base32 ++ lit "/" ++ name) = none ∧
      (∀ b, b ≠ w.ws.id.base32 ++ lit "/" ++ name → w2.tree.abs.branch b = w.tree.abs.branch b) ∧
      w2.tree.abs.tag = w.tree.abs.tag ∧ w2.tree.abs.node = w.tree.abs.node ∧ w2.tree.abs.root = w.tree.abs.root ∧ OnlySpace w.spaceDir d d' := by
  obtain ⟨w2, h1, h2, h3, h4, h5⟩ := edit_effect hd hout hg hh (e := .deleteBranch name false) trivial he
  generalize ha : w2.tree.abs = a2 at h4
  cases h4 with
  | deleteOwn h6 h7 => exact ⟨w2, h1, h2, h3, h6, h7, by rw [ha]; exact upd_self _ _ _, fun t ht => by rw [ha]; exact upd_ne _ _ ht, by rw [ha]; rfl, by rw [ha]; rfl, by rw [ha]; rfl, h5⟩

/-- **C24**, on disk: a change that is refused changes nothing. Of several changes (`branch -d A B`), those before the refused
one are kept. -/
theorem C24_refused {d d' : Disk} (hd : Reachable E d) {cwd : Str} (hout : E.Outside (Path.abs cwd (lit ".")))
    (hio : f.io = false) {e : Edit} {err : CErr} (he : Exec E f (editCmd E cwd [e]) d (.err err) d') : d' = d := by
  obtain ⟨g, hs⟩ := steady_reachable hd
  rcases plain_of_refused he with hpl | h
  rotate_left
  · exact (opens_or_not hs hout h).1
  rcases run_opens hs hout he with ⟨e, _⟩ | ⟨w, u, p, T, hF⟩
  · exact e
  · rcases wpm_exec (editCmd_wp (f := f) hF.opens (by simpa using hpl)) he with ⟨es1, e1, b, hpre, _, _, ⟨_, e⟩ | ⟨hne, _⟩, _⟩ | hh
    · exact e
    · have := hpre.length_le
      cases es1 with
      | nil => exact absurd rfl hne
      | cons => simp at this
    · rw [hio] at hh; cases hh.2

/-- Without faults, a change is made exactly when it is allowed. -/
theorem C24_accepted_iff {d : Disk} (hd : Reachable E d) {cwd : Str} (hout : E.Outside (Path.abs cwd (lit "."))) {w : OpenWs}
    (hg : Gets E d cwd (lit ".") w) {u p : UID} (hh : w.ws.HeadAt w.tree u p) (hio : f.io = false) {e : Edit} (hpl : e.Plain)
    {r : Res CErr TS} {d' : Disk} (he : Exec E f (editCmd E cwd [e]) d r d') :
    (∃ s, r = .ok s) ↔ ∃ a, Edits w.tree.abs w.ws p e a := by
  obtain ⟨g, hs⟩ := steady_reachable hd
  obtain ⟨T, hF⟩ := gets_found hs hout hg hh
  have hp := wpm_exec (editCmd_wp (f := f) hF.opens (es := [e]) (by simpa using hpl)) he
  cases r with
  | ok s =>
    refine ⟨fun _ => ?_, fun _ => ⟨s, rfl⟩⟩
    cases hp.2.1 with
    | cons h1 _ => exact ⟨_, h1⟩
  | err er =>
    refine ⟨nofun, ?_⟩
    rintro ⟨a, ha⟩
    rcases hp with ⟨es1, e1, b, hpre, hE, hno, _, _⟩ | h
    · have hl := hpre.length_le
      cases es1 with
      | nil =>
        obtain ⟨t, ht⟩ := hpre
        cases ht
        cases hE
        exact absurd ha (hno a)
      | cons => simp at hl
    · rw [hio] at h; cases h.2
  | panic => exact hp.elim
  | diverge => exact hp.elim

/-- **C46**, violated: `tag -d ROOT`, once finished, leaves ROOT without a meaning, unless a branch has that name. -/
theorem C46_violated_delete {d d' : Disk} (hd : Reachable E d) {cwd : Str} (hout : E.Outside (Path.abs cwd (lit "."))) {w : OpenWs}
    (hg : Gets E d cwd (lit ".") w) {u p : UID} (hh : w.ws.HeadAt w.tree u p) (hb : w.tree.abs.branch (w.ws.id.base32 ++ lit "/" ++ lit "ROOT") = none)
    {s : TS} (he : Exec E f (editCmd E cwd [.deleteTag (lit "ROOT")]) d (.ok s) d') :
    ∃ w2, Gets E d' cwd (lit ".") w2 ∧ SameWs w w2 ∧ w2.ws.HeadAt w2.tree u p ∧ ∀ v k, ¬ Ws.Resolves w2.tree.abs w2.ws.id p (lit "ROOT") v k := by
  obtain ⟨w2, h1, h2, h3, h4, h5, h6, h7, _⟩ := C59_untag hd hout hg hh he
  refine ⟨w2, h1, h2, h3, fun v k hR => ?_⟩
  have hn : ∀ v, ¬ Spells (lit "ROOT") v := fun v hv => by rcases hv with ⟨h, _⟩ | ⟨h, _⟩ <;> exact absurd h (by decide)
  rw [h2.1] at hR
  generalize hr : lit "ROOT" = r at hR
  cases hR with
  | head => exact absurd hr (by decide)
  | id _ h _ => rw [← hr] at h; exact hn _ h
  | tag _ _ h => rw [← hr, h5] at h; cases h
  | full _ _ _ h =>
    rw [h7] at h
    obtain ⟨i, x, _, e⟩ := gets_owned hd hout hg _ _ h
    have := congrArg List.length e
    rw [← hr] at this
    simp only [List.length_append, C02_base32_length] at this
    exact absurd (show (lit "ROOT").length = 4 by decide) (by omega)
  | own _ _ _ _ h => rw [← hr, h7, hb] at h; cases h
  | global _ _ _ _ _ h => rw [← hr] at h; exact absurd (congrArg List.head? h) (by simp [lit])

/-- **C46**, violated: `tag -f ROOT REF`, once finished, makes ROOT mean what REF meant. -/
theorem C46_violated_move {d d' : Disk} (hd : Reachable E d) {cwd : Str} (hout : E.Outside (Path.abs cwd (lit "."))) {w : OpenWs}
    (hg : Gets E d cwd (lit ".") w) {u p : UID} (hh : w.ws.HeadAt w.tree u p) {ref : Str}
    {s : TS} (he : Exec E f (editCmd E cwd [.addTag (lit "ROOT") ref true]) d (.ok s) d') :
    ∃ w2 v k, Gets E d' cwd (lit ".") w2 ∧ SameWs w w2 ∧ w2.ws.HeadAt w2.tree u p ∧ Ws.Resolves w.tree.abs w.ws.id p ref v k ∧
      Ws.Resolves w2.tree.abs w2.ws.id p (lit "ROOT") v .tag ∧ w2.tree.abs.root = w.tree.abs.root := by
  obtain ⟨w2, v, k, h1, h2, h3, h4, h5, h6, h7, _, _, h8, _⟩ := C59_tag hd hout hg hh (valid_ascii (by decide)) he
  exact ⟨w2, v, k, h1, h2, h3, h4, .tag (by decide) (fun v hv => by rcases hv with ⟨h, _⟩ | ⟨h, _⟩ <;> exact absurd h (by decide)) h6, h8⟩

end
end Verif
