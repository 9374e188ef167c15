import Verif.Props.Cli
import Verif.Props.MoreExamples
/-!
# The command line and the disk (C64, C65, C69, C70)
-/
set_option autoImplicit false
namespace Verif
namespace Cli
open M TS Json

section
variable {E : Env} {f : Faults}

/-- Changes that were saved are what the next command sees. -/
theorem edits_open {d d' : Disk} {g : Str → Option TS} (h : Steady E d g) {cwd : Str} {es : List Edit} {w : OpenWs} {u p : UID} {T : TS}
    (hF : Found E d g cwd (lit ".") w u p T) {b : ATree} (hE : EditsAll w.ws p es w.tree.abs b) (h8 : ∀ e ∈ es, e.Utf8)
    (hd : es = [] ∧ d' = d ∨ Shelved E w.spaceDir b d d') :
    ∃ w2, Gets E d' cwd (lit ".") w2 ∧ SameWs w w2 ∧ w2.ws.HeadAt w2.tree u p ∧ w2.tree.abs = b ∧ OnlySpace w.spaceDir d d' := by
  rcases hd with ⟨rfl, rfl⟩ | ⟨T', q, h1, rfl, h2, rfl⟩
  · cases hE
    exact ⟨w, gets_of_opens hF.opens, ⟨rfl, rfl, rfl⟩, hF.opens.head, rfl, rfl, rfl, rfl, rfl, rfl, fun _ _ => rfl⟩
  · have hn := (editsAll_node hE).1
    have hx : Extends (Head E d) T.abs T'.abs := extends_trans (extends_comesBack hF.back (h.keys _ _ hF.tree)) (extends_node hn)
    have hs' := steady_shelved h hF.tree h1 h2 hx (fun v n hv => nodeKeys_back hF.back v n (by rw [← hn]; exact hv)) (fun v hv => hF.opens.stored v (by
      rw [ATree.Has, hn] at hv; exact hv)) (fun v hv => comesBack_has hF.back (by rw [ATree.Has, hn] at hv; exact hv))
    obtain ⟨r, r1, r2, r3, r4, r5, r6⟩ := rec_of_opens h hF.opens
    obtain ⟨w2, q', o, e1, e2, e3, e4, e5, e6⟩ := reopen (r := r) (cwd := cwd) (path := lit ".") hs' hF.opens.out (by rw [r4]; exact hF.opens.link) (by rw [r4]; exact r1)
      (by rw [r3, ← hF.opens.dir]; exact upd_self _ _ _) (shallow_congr hn (comesBack_shallow hF.back hF.shallow))
      (by rw [r5]; exact extends_has hx (by obtain ⟨n, hn, _⟩ := found_below hF; exact ⟨n, hn⟩))
    have hq : q' = p := by
      obtain ⟨_, m, a1, a2⟩ := hF.opens.head
      obtain ⟨m', b1, b2⟩ := e6
      rw [r5, hn, a1] at b1; cases b1
      rw [a2] at b2; simpa using b2.symm
    subst hq
    rw [r5] at o
    have hU := utf8_edits hE h8 (found_utf8 hF)
    refine ⟨w2, gets_of_opens o, ⟨e1.trans r2, e4.trans r6, e2.trans r3⟩, o.head, ?_, rfl, rfl, rfl, rfl, rfl, fun m hm => upd_ne _ _ hm⟩
    rw [comesBack_named e5 (utf8_named hU), tidy_utf8 hU]

/-! ## C70: several names -/

/-- The tags without those in `names`. -/
structure TagsGone (names : List Str) (a a' : ATree) : Prop where
  gone : ∀ t ∈ names, a'.tag t = none
  kept : ∀ t, t ∉ names → a'.tag t = a.tag t
  branch : a'.branch = a.branch
  node : a'.node = a.node
  root : a'.root = a.root

theorem tagsGone_of {w : Ws} {p : UID} {names : List Str} {a a' : ATree} (h : EditsAll w p (names.map .deleteTag) a a') :
    TagsGone names a a' ∧ names.Nodup ∧ ∀ t ∈ names, a.tag t ≠ none := by
  induction names generalizing a with
  | nil => cases h; exact ⟨⟨nofun, fun _ _ => rfl, rfl, rfl, rfl⟩, .nil, nofun⟩
  | cons n ns ih =>
    cases h with
    | @cons _ b _ _ _ h1 h2 =>
      obtain ⟨hG, hN, hA⟩ := ih h2
      cases h1 with
      | deleteTag hn =>
        have hb : (a.delTag n).tag n = none := upd_self _ _ _
        have hnn : n ∉ ns := fun hm => hA n hm hb
        refine ⟨⟨fun t ht => ?_, fun t ht => ?_, hG.branch, hG.node, hG.root⟩, List.nodup_cons.2 ⟨hnn, hN⟩, fun t ht => ?_⟩
        · rcases List.mem_cons.1 ht with rfl | ht
          · rw [hG.kept _ hnn]; exact hb
          · exact hG.gone t ht
        · rw [hG.kept t (fun hm => ht (List.mem_cons_of_mem _ hm))]
          exact upd_ne _ _ (fun e => ht (by rw [e]; exact List.mem_cons_self))
        · rcases List.mem_cons.1 ht with rfl | ht
          · exact hn
          · have := hA t ht
            intro e
            refine this ?_
            have hne : t ≠ n := fun e => hnn (e ▸ ht)
            exact (upd_ne _ _ hne).trans e

/-- The branches of the workspace `i` without those in `names`. -/
structure BranchesGone (i : UID) (names : List Str) (a a' : ATree) : Prop where
  gone : ∀ t ∈ names, a'.branch (i.base32 ++ lit "/" ++ t) = none
  kept : ∀ b, (∀ t ∈ names, b ≠ i.base32 ++ lit "/" ++ t) → a'.branch b = a.branch b
  tag : a'.tag = a.tag
  node : a'.node = a.node
  root : a'.root = a.root

theorem branchesGone_of {w : Ws} {p : UID} {names : List Str} {a a' : ATree} (h : EditsAll w p (names.map fun n => .deleteBranch n false) a a') :
    BranchesGone w.id names a a' ∧ names.Nodup ∧ w.branch ∉ names ∧ ∀ t ∈ names, a.branch (w.id.base32 ++ lit "/" ++ t) ≠ none := by
  induction names generalizing a with
  | nil => cases h; exact ⟨⟨nofun, fun _ _ => rfl, rfl, rfl, rfl⟩, .nil, nofun, nofun⟩
  | cons n ns ih =>
    cases h with
    | @cons _ b _ _ _ h1 h2 =>
      obtain ⟨hG, hN, hW, hA⟩ := ih h2
      cases h1 with
      | deleteOwn hw hn =>
        have hb : (a.delBranch (w.id.base32 ++ lit "/" ++ n)).branch (w.id.base32 ++ lit "/" ++ n) = none := upd_self _ _ _
        have hnn : n ∉ ns := fun hm => hA n hm hb
        refine ⟨⟨fun t ht => ?_, fun t ht => ?_, hG.tag, hG.node, hG.root⟩, List.nodup_cons.2 ⟨hnn, hN⟩, ?_, fun t ht => ?_⟩
        · rcases List.mem_cons.1 ht with rfl | ht
          · rw [hG.kept _ (fun x hx e => hnn (by rw [(own_inj e).2]; exact hx))]; exact hb
          · exact hG.gone t ht
        · rw [hG.kept t (fun x hx => ht x (List.mem_cons_of_mem _ hx))]
          exact upd_ne _ _ (ht n List.mem_cons_self)
        · intro hm
          rcases List.mem_cons.1 hm with e | hm
          · exact hw e.symm
          · exact hW hm
        · rcases List.mem_cons.1 ht with rfl | ht
          · exact hn
          · have := hA t ht
            intro e
            refine this ?_
            have hne : w.id.base32 ++ lit "/" ++ t ≠ w.id.base32 ++ lit "/" ++ n := fun e => hnn ((own_inj e).2 ▸ ht)
            exact (upd_ne _ _ hne).trans e

/-- A list of edits that fails part of the way, when nothing else goes wrong. -/
theorem edits_part {d d' : Disk} (hd : Reachable E d) (hio : f.io = false) {cwd : Str} (hout : E.Outside (Path.abs cwd (lit "."))) {w : OpenWs}
    (hg : Gets E d cwd (lit ".") w) {u p : UID} (hh : w.ws.HeadAt w.tree u p) {es : List Edit} (hpl : ∀ e ∈ es, e.Plain) (h8 : ∀ e ∈ es, e.Utf8) {err : CErr}
    (he : Exec E f (editCmd E cwd es) d (.err err) d') :
    ∃ es1 e1 rest w2, es = es1 ++ e1 :: rest ∧ EditsAll w.ws p es1 w.tree.abs w2.tree.abs ∧ (∀ c, ¬ Edits w2.tree.abs w.ws p e1 c) ∧
      Gets E d' cwd (lit ".") w2 ∧ SameWs w w2 ∧ w2.ws.HeadAt w2.tree u p ∧ OnlySpace w.spaceDir d d' := by
  obtain ⟨g, hs⟩ := steady_reachable hd
  obtain ⟨T, hF⟩ := gets_found hs hout hg hh
  rcases wpm_exec (editCmd_wp (f := f) hF.opens hpl) he with ⟨es1, e1, b, ⟨rest, hpre⟩, h1, h2, h3, _⟩ | h3
  · rw [List.append_assoc] at hpre
    obtain ⟨w2, k1, k2, k3, rfl, k5⟩ := edits_open hs hF h1 (fun e he => h8 e (by rw [← hpre]; simp [he])) (by
      rcases h3 with h | h
      · exact Or.inl h
      · exact Or.inr h.2)
    exact ⟨es1, e1, rest, w2, hpre.symm, h1, h2, k1, k2, k3, k5⟩
  · rw [hio] at h3; cases h3.2

theorem edits_whole {d d' : Disk} (hd : Reachable E d) {cwd : Str} (hout : E.Outside (Path.abs cwd (lit "."))) {w : OpenWs}
    (hg : Gets E d cwd (lit ".") w) {u p : UID} (hh : w.ws.HeadAt w.tree u p) {es : List Edit} (h8 : ∀ e ∈ es, e.Utf8) {s : TS}
    (he : Exec E f (editCmd E cwd es) d (.ok s) d') :
    ∃ w2, EditsAll w.ws p es w.tree.abs w2.tree.abs ∧ Gets E d' cwd (lit ".") w2 ∧ SameWs w w2 ∧ w2.ws.HeadAt w2.tree u p ∧ OnlySpace w.spaceDir d d' := by
  have hpl := plain_of_edit he
  obtain ⟨g, hs⟩ := steady_reachable hd
  obtain ⟨T, hF⟩ := gets_found hs hout hg hh
  obtain ⟨_, h1, h2⟩ := wpm_exec (editCmd_wp (f := f) hF.opens hpl) he
  obtain ⟨w2, k1, k2, k3, k4, k5⟩ := edits_open hs hF h1 h8 h2
  exact ⟨w2, by rw [k4]; exact h1, k1, k2, k3, k5⟩

theorem map_split {α β : Type} {g : α → β} {names : List α} {l1 : List β} {x : β} {l2 : List β} (h : names.map g = l1 ++ x :: l2) :
    ∃ pre y rest, names = pre ++ y :: rest ∧ pre.map g = l1 ∧ g y = x := by
  obtain ⟨pre, r, rfl, h1, h2⟩ := List.map_eq_append_iff.1 h
  obtain ⟨y, rest, rfl, h3, _⟩ := List.map_eq_cons_iff.1 h2
  exact ⟨pre, y, rest, rfl, h1, h3⟩

/-- **C70.** `tag -d` with several names that succeeds deletes exactly these tags; they all existed and no name was given twice. -/
theorem C70_tags {d d' : Disk} (hd : Reachable E d) {cwd : Str} (hout : E.Outside (Path.abs cwd (lit "."))) {w : OpenWs}
    (hg : Gets E d cwd (lit ".") w) {u p : UID} (hh : w.ws.HeadAt w.tree u p) {names : List Str} {date : Str} {r : Out}
    (he : Exec E f (((Order.deleteTags names).command cwd date).prog E) d (.ok r) d') :
    names.Nodup ∧ (∀ t ∈ names, w.tree.abs.tag t ≠ none) ∧
      ∃ w2, Gets E d' cwd (lit ".") w2 ∧ SameWs w w2 ∧ w2.ws.HeadAt w2.tree u p ∧ TagsGone names w.tree.abs w2.tree.abs ∧ OnlySpace w.spaceDir d d' := by
  obtain ⟨s, he⟩ := edit_ok he
  obtain ⟨w2, h1, h2, h3, h4, h5⟩ := edits_whole hd hout hg hh (by simp [Edit.Utf8]) he
  obtain ⟨k1, k2, k3⟩ := tagsGone_of h1
  exact ⟨k2, k3, w2, h2, h3, h4, k1, h5⟩
where
  edit_ok {d d' : Disk} {cwd : Str} {es : List Edit} {r : Out} (he : Exec E f ((Command.edit cwd es).prog E) d (.ok r) d') : ∃ s, Exec E f (editCmd E cwd es) d (.ok s) d' := by
    obtain ⟨a, d1, h1, h2⟩ := exec_bind he
    cases a with
    | ok s => cases h2; exact ⟨s, h1⟩
    | _ => cases h2

theorem edit_err {d d' : Disk} {cwd : Str} {es : List Edit} {e : CErr} (he : Exec E f ((Command.edit cwd es).prog E) d (.err e) d') : Exec E f (editCmd E cwd es) d (.err e) d' := by
  obtain ⟨a, d1, h1, h2⟩ := exec_bind he
  cases a with
  | ok s => cases h2
  | err e' => cases h2; exact h1
  | _ => cases h2

/-- **C70.** `tag -d` with several names stops at the first name that is not (or no longer) a tag: the tags before it are deleted, everything else is as it was. -/
theorem C70_tags_stop {d d' : Disk} (hd : Reachable E d) (hio : f.io = false) {cwd : Str} (hout : E.Outside (Path.abs cwd (lit "."))) {w : OpenWs}
    (hg : Gets E d cwd (lit ".") w) {u p : UID} (hh : w.ws.HeadAt w.tree u p) {names : List Str} {date : Str} {err : CErr}
    (he : Exec E f (((Order.deleteTags names).command cwd date).prog E) d (.err err) d') :
    ∃ pre x rest, names = pre ++ x :: rest ∧ (x ∈ pre ∨ w.tree.abs.tag x = none) ∧ pre.Nodup ∧ (∀ t ∈ pre, w.tree.abs.tag t ≠ none) ∧
      ∃ w2, Gets E d' cwd (lit ".") w2 ∧ SameWs w w2 ∧ w2.ws.HeadAt w2.tree u p ∧ TagsGone pre w.tree.abs w2.tree.abs ∧ OnlySpace w.spaceDir d d' := by
  obtain ⟨es1, e1, rest, w2, h0, h1, hno, h2, h3, h4, h5⟩ := edits_part hd hio hout hg hh (by simp [Edit.Plain]) (by simp [Edit.Utf8]) (edit_err he)
  obtain ⟨pre, x, rest', rfl, rfl, rfl⟩ := map_split h0
  obtain ⟨k1, k2, k3⟩ := tagsGone_of h1
  refine ⟨pre, x, rest', rfl, ?_, k2, k3, w2, h2, h3, h4, k1, h5⟩
  by_cases hx : x ∈ pre
  · exact Or.inl hx
  · refine Or.inr ?_
    rw [← k1.kept x hx]
    cases ht : w2.tree.abs.tag x with
    | none => rfl
    | some v => exact absurd (Edits.deleteTag (by rw [ht]; simp)) (hno _)

/-- **C70.** `branch -d` with several names. -/
theorem C70_branches {d d' : Disk} (hd : Reachable E d) {cwd : Str} (hout : E.Outside (Path.abs cwd (lit "."))) {w : OpenWs}
    (hg : Gets E d cwd (lit ".") w) {u p : UID} (hh : w.ws.HeadAt w.tree u p) {names : List Str} {date : Str} {r : Out}
    (he : Exec E f (((Order.deleteBranches names false).command cwd date).prog E) d (.ok r) d') :
    names.Nodup ∧ w.ws.branch ∉ names ∧ (∀ t ∈ names, w.tree.abs.branch (w.ws.id.base32 ++ lit "/" ++ t) ≠ none) ∧
      ∃ w2, Gets E d' cwd (lit ".") w2 ∧ SameWs w w2 ∧ w2.ws.HeadAt w2.tree u p ∧ BranchesGone w.ws.id names w.tree.abs w2.tree.abs ∧ OnlySpace w.spaceDir d d' := by
  obtain ⟨s, he⟩ := C70_tags.edit_ok he
  obtain ⟨w2, h1, h2, h3, h4, h5⟩ := edits_whole hd hout hg hh (by simp [Edit.Utf8]) he
  obtain ⟨k1, k2, k3, k4⟩ := branchesGone_of h1
  exact ⟨k2, k3, k4, w2, h2, h3, h4, k1, h5⟩

/-- **C70.** `branch -d` with several names stops at the first that is the current branch or no branch of the workspace. -/
theorem C70_branches_stop {d d' : Disk} (hd : Reachable E d) (hio : f.io = false) {cwd : Str} (hout : E.Outside (Path.abs cwd (lit "."))) {w : OpenWs}
    (hg : Gets E d cwd (lit ".") w) {u p : UID} (hh : w.ws.HeadAt w.tree u p) {names : List Str} {date : Str} {err : CErr}
    (he : Exec E f (((Order.deleteBranches names false).command cwd date).prog E) d (.err err) d') :
    ∃ pre x rest, names = pre ++ x :: rest ∧ (x ∈ pre ∨ x = w.ws.branch ∨ w.tree.abs.branch (w.ws.id.base32 ++ lit "/" ++ x) = none) ∧ pre.Nodup ∧ w.ws.branch ∉ pre ∧
      (∀ t ∈ pre, w.tree.abs.branch (w.ws.id.base32 ++ lit "/" ++ t) ≠ none) ∧
      ∃ w2, Gets E d' cwd (lit ".") w2 ∧ SameWs w w2 ∧ w2.ws.HeadAt w2.tree u p ∧ BranchesGone w.ws.id pre w.tree.abs w2.tree.abs ∧ OnlySpace w.spaceDir d d' := by
  obtain ⟨es1, e1, rest, w2, h0, h1, hno, h2, h3, h4, h5⟩ := edits_part hd hio hout hg hh (by simp [Edit.Plain]) (by simp [Edit.Utf8]) (edit_err he)
  obtain ⟨pre, x, rest', rfl, rfl, rfl⟩ := map_split h0
  obtain ⟨k1, k2, k3, k4⟩ := branchesGone_of h1
  refine ⟨pre, x, rest', rfl, ?_, k2, k3, k4, w2, h2, h3, h4, k1, h5⟩
  by_cases hx : x ∈ pre
  · exact Or.inl hx
  · by_cases hc : x = w.ws.branch
    · exact Or.inr (Or.inl hc)
    · refine Or.inr (Or.inr ?_)
      rw [← k1.kept _ (fun t ht e => hx (by rw [(own_inj e).2]; exact ht))]
      cases ht : w2.tree.abs.branch (w.ws.id.base32 ++ lit "/" ++ x) with
      | none => rfl
      | some v => exact absurd (Edits.deleteOwn hc (by rw [ht]; simp)) (hno _)

/-- **C64 does not hold**, on disk: a user's `tag -d -- NAME` deletes the tag and then fails (unless there is a tag `--uid`). -/
theorem C64_violated_untag_disk {d d' : Disk} (hd : Reachable E d) (hio : f.io = false) {cwd : Str} (hout : E.Outside (Path.abs cwd (lit "."))) {w : OpenWs}
    (hg : Gets E d cwd (lit ".") w) {u p : UID} (hh : w.ws.HeadAt w.tree u p) {uid gid : Nat} (h0 : uid ≠ 0) {name date : Str} (hn : w.tree.abs.tag name ≠ none)
    (hu : w.tree.abs.tag (lit "--uid") = none) {r : Res CErr Out} :
    ∃ j, asUser uid gid cwd [lit "tag", lit "-d", lit "--", name] = .ok j ∧
      (Exec E f ((j.order.command cwd date).prog E) d r d' →
        (∃ e, r = .err e) ∧ ∃ w2, Gets E d' cwd (lit ".") w2 ∧ w2.tree.abs.tag name = none) := by
  obtain ⟨j, h1, h2⟩ := C64_violated_untag (gid := gid) h0 cwd name
  refine ⟨j, h1, fun he => ?_⟩
  rw [h2] at he
  obtain ⟨g, hs⟩ := steady_reachable hd
  obtain ⟨T, hF⟩ := gets_found hs hout hg hh
  have hne : name ≠ lit "--uid" := fun e => hn (e ▸ hu)
  obtain ⟨a, d1, e1, e2⟩ := exec_bind he
  cases a with
  | panic => exact (wpm_exec (editCmd_wp (f := f) hF.opens (by simp [Edit.Plain])) e1).elim
  | diverge => exact (wpm_exec (editCmd_wp (f := f) hF.opens (by simp [Edit.Plain])) e1).elim
  | ok s =>
    cases e2
    obtain ⟨_, h3, _⟩ := C70_tags hd hout hg hh he
    exact absurd hu (h3 _ (by simp))
  | err e =>
    cases e2
    refine ⟨⟨e, rfl⟩, ?_⟩
    obtain ⟨pre, x, rest, k1, k2, _, k4, w2, k5, _, _, k6, _⟩ := C70_tags_stop hd hio hout hg hh he
    refine ⟨w2, k5, k6.gone name ?_⟩
    cases pre with
    | nil =>
      rcases k2 with h | h
      · cases h
      · simp only [List.nil_append, List.cons.injEq] at k1
        rw [← k1.1] at h
        exact absurd h hn
    | cons y pre =>
      simp only [List.cons_append, List.cons.injEq] at k1
      rw [k1.1]
      exact List.mem_cons_self

/-! ## C69: the text of a listing -/

/-- `n` is a line of the text. -/
def IsLine (n out : Str) : Prop := (10 : UInt8) ∉ n ∧ ∃ a b, out = a ++ n ++ 10 :: b ∧ (a = [] ∨ a.getLast? = some 10)

theorem split_lf {x y a b : Str} (hx : (10 : UInt8) ∉ x) (h : x ++ 10 :: y = a ++ 10 :: b) : (a = x ∧ b = y) ∨ ∃ c, a = x ++ 10 :: c ∧ y = c ++ 10 :: b := by
  induction x generalizing a with
  | nil =>
    cases a with
    | nil => exact Or.inl ⟨rfl, by simpa using h.symm⟩
    | cons c a =>
      simp only [List.nil_append, List.cons_append, List.cons.injEq] at h
      exact Or.inr ⟨a, by rw [h.1]; rfl, h.2⟩
  | cons c x ih =>
    cases a with
    | nil =>
      simp only [List.cons_append, List.nil_append, List.cons.injEq] at h
      exact absurd List.mem_cons_self (h.1 ▸ hx)
    | cons c' a =>
      simp only [List.cons_append, List.cons.injEq] at h
      rcases ih (fun hm => hx (List.mem_cons_of_mem _ hm)) h.2 with ⟨h1, h2⟩ | ⟨e, h1, h2⟩
      · exact Or.inl ⟨by rw [h.1, h1], h2⟩
      · exact Or.inr ⟨e, by rw [h.1, h1]; rfl, h2⟩

/-- The lines of the text are the names, if no name has a line feed. -/
theorem isLine_printLines {l : List Str} (hl : ∀ m ∈ l, (10 : UInt8) ∉ m) {n : Str} : IsLine n (printLines l) ↔ n ∈ l := by
  induction l with
  | nil =>
    constructor
    · rintro ⟨_, a, b, h, _⟩
      have := congrArg List.length h
      simp [printLines] at this
    · nofun
  | cons m l ih =>
    have ih := ih fun x hx => hl x (List.mem_cons_of_mem _ hx)
    have hm := hl m List.mem_cons_self
    have hp : printLines (m :: l) = m ++ 10 :: printLines l := by simp [printLines]
    rw [hp]
    constructor
    · rintro ⟨hn, a, b, h, ha⟩
      rcases split_lf hm h with ⟨h1, _⟩ | ⟨c, h1, h2⟩
      · rcases ha with rfl | ha
        · exact List.mem_cons.2 (Or.inl (by simpa using h1))
        · obtain ⟨a', rfl⟩ := List.getLast?_eq_some_iff.1 ha
          exact absurd (by rw [← h1]; simp) hm
      · refine List.mem_cons_of_mem _ (ih.1 ⟨hn, ?_⟩)
        rcases ha with rfl | ha
        · simp only [List.nil_append] at h1
          exact absurd (by rw [h1]; simp) hn
        · obtain ⟨a', rfl⟩ := List.getLast?_eq_some_iff.1 ha
          rw [List.append_assoc, List.singleton_append] at h1
          rcases split_lf hm h1.symm with ⟨e1, e2⟩ | ⟨e, e1, e2⟩
          · refine ⟨[], b, ?_, Or.inl rfl⟩
            rw [h2, ← e2]; rfl
          · refine ⟨e ++ [10], b, ?_, Or.inr (by simp)⟩
            rw [h2, e2]
            simp
    · intro hn
      rcases List.mem_cons.1 hn with rfl | hn
      · exact ⟨hm, [], printLines l, rfl, Or.inl rfl⟩
      · obtain ⟨h1, a, b, h2, h3⟩ := ih.2 hn
        refine ⟨h1, m ++ 10 :: a, b, by rw [h2]; simp, Or.inr ?_⟩
        rcases h3 with rfl | h3
        · simp
        · obtain ⟨a', rfl⟩ := List.getLast?_eq_some_iff.1 h3
          rw [← List.cons_append, ← List.append_assoc]
          exact List.getLast?_concat

/-- **C69.** The lines that `branch` prints are exactly the names of the branches of the workspace that have no line feed. -/
theorem C69_branches {d : Disk} (hd : Reachable E d) {cwd : Str} (hout : E.Outside (Path.abs cwd (lit "."))) {w : OpenWs} (hg : Gets E d cwd (lit ".") w) {out : Str}
    (h : Shows w (.listBranches .here) out) (n : Str) :
    IsLine n out ↔ (10 : UInt8) ∉ n ∧ ∃ v, w.tree.abs.branch (w.ws.id.base32 ++ lit "/" ++ n) = some v := by
  obtain ⟨bs, hb, rfl⟩ := h
  have hL := ((Ws.C21_local_branches_partial (wf_of_reach (gets_reach hd hout hg)) (C21_reachable_names hd hout hg) w.ws).2 bs hb).1
  have hmem : ∀ m, m ∈ bs.map (fun b => b.info.localName) ↔ (10 : UInt8) ∉ m ∧ ∃ v, w.tree.abs.branch (w.ws.id.base32 ++ lit "/" ++ m) = some v := by
    intro m
    rw [List.mem_map]
    constructor
    · rintro ⟨x, hx, rfl⟩
      obtain ⟨v, hv⟩ := hL.head x hx
      obtain ⟨⟨h1, h2⟩, h3⟩ := (hL.exact x.info v).1 ⟨x, hx, rfl, hv⟩
      have hn : x.info.localName = x.info.name := by simp only [BranchInfo.localName, h1]
      have hf : x.info.fullName = w.ws.id.base32 ++ lit "/" ++ x.info.name := by simp only [BranchInfo.fullName, h1]
      rw [hn]
      exact ⟨h2, v, by rw [← hf]; exact h3⟩
    · rintro ⟨h1, v, hv⟩
      obtain ⟨x, hx, hi, _⟩ := (hL.exact ⟨some w.ws.id, m⟩ v).2 ⟨⟨rfl, h1⟩, hv⟩
      exact ⟨x, hx, by rw [hi]; rfl⟩
  rw [isLine_printLines (fun m hm => ((hmem m).1 hm).1)]
  exact hmem n

/-- **C69.** `branch -r` prints nothing: no command makes a branch that belongs to no workspace. -/
theorem C69_remotes {d : Disk} (hd : Reachable E d) {cwd : Str} (hout : E.Outside (Path.abs cwd (lit "."))) {w : OpenWs} (hg : Gets E d cwd (lit ".") w) {out : Str}
    (h : Shows w (.listBranches .remotes) out) : out = [] := by
  obtain ⟨bs, hb, rfl⟩ := h
  rw [C60_no_remote_branches hd hout hg hb]
  rfl

/-- **C69.** `branch -a` prints the same lines as `branch`. -/
theorem C69_all {d : Disk} (hd : Reachable E d) {cwd : Str} (hout : E.Outside (Path.abs cwd (lit "."))) {w : OpenWs} (hg : Gets E d cwd (lit ".") w) {out : Str}
    (h : Shows w (.listBranches .all) out) (n : Str) :
    IsLine n out ↔ (10 : UInt8) ∉ n ∧ ∃ v, w.tree.abs.branch (w.ws.id.base32 ++ lit "/" ++ n) = some v := by
  obtain ⟨bs, hb, rfl⟩ := h
  have hL := ((Ws.C21_all_branches_partial (wf_of_reach (gets_reach hd hout hg)) (C21_reachable_names hd hout hg) w.ws).2 bs hb).1
  have hown : ∀ x ∈ bs, ∃ v, (x.info.ws = some w.ws.id ∧ (10 : UInt8) ∉ x.info.name) ∧ w.tree.abs.branch x.info.fullName = some v := by
    intro x hx
    obtain ⟨v, hv⟩ := hL.head x hx
    obtain ⟨⟨h1, h2⟩, h3⟩ := (hL.exact x.info v).1 ⟨x, hx, rfl, hv⟩
    rcases h1 with h1 | h1
    · have hf : x.info.fullName = lit "global/" ++ x.info.name := by simp only [BranchInfo.fullName, h1]
      rw [hf, C60_no_global_branch hd hout hg] at h3
      cases h3
    · exact ⟨v, ⟨h1, h2⟩, h3⟩
  have hmem : ∀ m, m ∈ bs.map (fun b => b.info.localName) ↔ (10 : UInt8) ∉ m ∧ ∃ v, w.tree.abs.branch (w.ws.id.base32 ++ lit "/" ++ m) = some v := by
    intro m
    rw [List.mem_map]
    constructor
    · rintro ⟨x, hx, rfl⟩
      obtain ⟨v, ⟨h1, h2⟩, h3⟩ := hown x hx
      have hn : x.info.localName = x.info.name := by simp only [BranchInfo.localName, h1]
      have hf : x.info.fullName = w.ws.id.base32 ++ lit "/" ++ x.info.name := by simp only [BranchInfo.fullName, h1]
      rw [hn]
      exact ⟨h2, v, by rw [← hf]; exact h3⟩
    · rintro ⟨h1, v, hv⟩
      obtain ⟨x, hx, hi, _⟩ := (hL.exact ⟨some w.ws.id, m⟩ v).2 ⟨⟨Or.inr rfl, h1⟩, hv⟩
      exact ⟨x, hx, by rw [hi]; rfl⟩
  rw [isLine_printLines fun m hm => ((hmem m).1 hm).1]
  exact hmem n

/-- **C69, part.** The lines that `tag` prints are exactly the tags except ROOT. Missing: tags with a line feed. -/
theorem C69_tags_partial {d : Disk} (hd : Reachable E d) {cwd : Str} (hout : E.Outside (Path.abs cwd (lit "."))) {w : OpenWs} (hg : Gets E d cwd (lit ".") w) {out : Str}
    (h : Shows w .listTags out) (hlf : ∀ t v, w.tree.abs.tag t = some v → (10 : UInt8) ∉ t) (n : Str) :
    IsLine n out ↔ n ≠ lit "ROOT" ∧ ∃ v, w.tree.abs.tag n = some v := by
  obtain ⟨ts, ht, rfl⟩ := h
  have hm := ((Ws.C22_tags (wf_of_reach (gets_reach hd hout hg))).2 ts ht).1
  rw [isLine_printLines (fun m hm' => by obtain ⟨_, v, hv⟩ := (hm m).1 hm'; exact hlf m v hv)]
  exact hm n

/-- **C69 does not hold.** A tag with a line feed is shown as two tags. -/
theorem C69_violated_tags {d : Disk} (hd : Reachable E d) {cwd : Str} (hout : E.Outside (Path.abs cwd (lit "."))) {w : OpenWs} (hg : Gets E d cwd (lit ".") w) {out : Str}
    (h : Shows w .listTags out) {x y : Str} (hx : (10 : UInt8) ∉ x) (hy : (10 : UInt8) ∉ y) {v : UID} (ht : w.tree.abs.tag (x ++ 10 :: y) = some v) : IsLine x out ∧ IsLine y out := by
  obtain ⟨ts, hts, rfl⟩ := h
  have hm := ((Ws.C22_tags (wf_of_reach (gets_reach hd hout hg))).2 ts hts).1
  have hin : x ++ 10 :: y ∈ ts := by
    refine (hm _).2 ⟨fun e => ?_, v, ht⟩
    have : (10 : UInt8) ∈ lit "ROOT" := by rw [← e]; simp
    revert this
    decide
  obtain ⟨l1, l2, rfl⟩ := List.append_of_mem hin
  have hp : printLines (l1 ++ (x ++ 10 :: y) :: l2) = printLines l1 ++ (x ++ 10 :: (y ++ 10 :: printLines l2)) := by simp [printLines]
  have hend : printLines l1 = [] ∨ (printLines l1).getLast? = some 10 := by
    rcases List.eq_nil_or_concat l1 with rfl | ⟨l, z, rfl⟩
    · exact Or.inl rfl
    · refine Or.inr ?_
      have : printLines (l.concat z) = (printLines l ++ z) ++ [10] := by simp [printLines]
      rw [this, List.getLast?_concat]
  rw [hp]
  exact ⟨⟨hx, _, _, by rw [List.append_assoc], hend⟩, hy, printLines l1 ++ x ++ [10], printLines l2, by simp, Or.inr List.getLast?_concat⟩

/-! ## C65 after a checkout -/

/-- **C65, part**, after a checkout of a branch: its name is printed. -/
theorem C65_checkout_partial {d d' : Disk} (hd : Reachable E d) {cwd : Str} (hout : E.Outside (Path.abs cwd (lit "."))) {w : OpenWs}
    (hg : Gets E d cwd (lit ".") w) {u p : UID} (hh : w.ws.HeadAt w.tree u p) {key : Str} (h8 : validUtf8 key) {v : UID}
    (hR : Ws.Resolves w.tree.abs w.ws.id p key v .branch) {r : OpenWs × OpenWs} (he : Exec E f (checkoutCmd E cwd key) d (.ok r) d') :
    ∃ w2, Gets E d' cwd (lit ".") w2 ∧ ∀ out, Shows w2 .showCurrent out ↔ out = key ++ lit "\n" := by
  obtain ⟨g, hs⟩ := steady_reachable hd
  obtain ⟨T, hF⟩ := gets_found hs hout hg hh
  obtain ⟨_, v', kt, u', ls, g', w2, hR', _, _, _, _, ho, _, _, hb, _⟩ := after_checkout hs hF he
  obtain ⟨rfl, rfl⟩ := Ws.resolves_unique hR' hR
  refine ⟨w2, gets_of_opens ho, fun out => ?_⟩
  rw [branchAfter, sanitize_valid h8] at hb
  simp only [Shows, printLines, BranchInfo.localName, List.map_cons, List.map_nil, List.flatten_cons, List.flatten_nil, List.append_nil, hb]
  exact Iff.rfl

/-- **C65 does not hold**: after every checkout of something that is not a branch (a tag, an ID, `HEAD`), `branch --show-current` prints an empty line. -/
theorem C65_violated_checkout {d d' : Disk} (hd : Reachable E d) {cwd : Str} (hout : E.Outside (Path.abs cwd (lit "."))) {w : OpenWs}
    (hg : Gets E d cwd (lit ".") w) {u p : UID} (hh : w.ws.HeadAt w.tree u p) {key : Str} {v : UID} {kt : KeyType} (hkt : kt ≠ .branch)
    (hR : Ws.Resolves w.tree.abs w.ws.id p key v kt) {r : OpenWs × OpenWs} (he : Exec E f (checkoutCmd E cwd key) d (.ok r) d') :
    ∃ w2, Gets E d' cwd (lit ".") w2 ∧ ∀ out, Shows w2 .showCurrent out ↔ out = lit "\n" := by
  obtain ⟨g, hs⟩ := steady_reachable hd
  obtain ⟨T, hF⟩ := gets_found hs hout hg hh
  obtain ⟨_, v', kt', u', ls, g', w2, hR', _, _, _, _, ho, _, _, hb, _⟩ := after_checkout hs hF he
  obtain ⟨rfl, rfl⟩ := Ws.resolves_unique hR' hR
  refine ⟨w2, gets_of_opens ho, fun out => C65_violated w2 out ?_⟩
  rw [hb]
  cases kt' with
  | branch => exact absurd rfl hkt
  | _ => rfl

end

/-! ## Concrete cases -/
open Story

/-- `C65_violated_checkout`: after `checkout HEAD`. -/
example : ∃ d w, Calmly E0 d ∧ Gets E0 d cv (lit ".") w ∧ Shows w .showCurrent (lit "\n") := by
  obtain ⟨d, w, u, root, d', w', u', d3, w1, w2, u2, d4, w1', w2', u2', hB, hS, hT, hF⟩ := fourth
  exact ⟨d4, w2', hF.live2.past, hF.live2.gets, (C65_violated w2' _ hF.detached).2 rfl⟩

/-- `C65_on_branch_partial`, `C69_branches`: after `init`, on `main`. -/
example : ∃ d w, Calmly E0 d ∧ Gets E0 d cw (lit ".") w ∧ Shows w .showCurrent (lit "main\n") ∧ ∀ out, Shows w (.listBranches .here) out → IsLine (lit "main") out := by
  obtain ⟨d, w, u, root, hB⟩ := begun
  refine ⟨d, w, hB.live.past, hB.live.gets, (C65_on_branch_partial w _ (by rw [hB.branch]; decide)).2 (by rw [hB.branch]; decide), fun out h => ?_⟩
  exact (C69_branches hB.live.past.reachable outw hB.live.gets h _).2 ⟨by decide, root, (hB.new.branches _ root).2 ⟨rfl, rfl⟩⟩

/-- A tag with a line feed can be made. -/
theorem tag_lf : ∃ d d' w2 v, Calmly E0 d ∧ (∃ s, Exec E0 Faults.none (editCmd E0 cw [.addTag (lit "a\nb") (lit "HEAD") false]) d (.ok s) d') ∧ Reachable E0 d' ∧ Gets E0 d' cw (lit ".") w2 ∧
    w2.tree.abs.tag (lit "a\nb") = some v ∧ w2.tree.abs.tag (lit "a") = none := by
  obtain ⟨d, w, u, root, hB⟩ := begun
  have := hB.used
  have hno : ∀ t, t ≠ lit "ROOT" → w.tree.abs.tag t = none := by
    intro t ht
    cases h : w.tree.abs.tag t with
    | none => rfl
    | some v => exact absurd ((hB.new.tags _ _).1 h).1 ht
  obtain ⟨r, d', he⟩ := exec_total (E := E0) (f := Faults.none) (editCmd_draws E0 cw [.addTag (lit "a\nb") (lit "HEAD") false]) d (by omega)
  obtain ⟨s, rfl⟩ := (C24_accepted_iff hB.live.past.reachable outw hB.live.gets hB.live.opens.head rfl (e := .addTag (lit "a\nb") (lit "HEAD") false) plainHEAD he).2
    ⟨_, .addTag (v := root) (k := .commit) .head (Or.inl (hno _ (by decide)))⟩
  obtain ⟨w2, v, k, h1, _, _, _, _, h6, h7, _⟩ := C59_tag hB.live.past.reachable outw hB.live.gets hB.live.opens.head (valid_ascii (by decide)) he
  exact ⟨d, d', w2, v, hB.live.past, ⟨s, he⟩, reachable_next hB.live.past.reachable rfl (a := .edit cw [.addTag (lit "a\nb") (lit "HEAD") false])
    outw (.edit he), h1, h6, by rw [h7 _ (by decide)]; exact hno _ (by decide)⟩

/-- `C69_violated_tags`: the listing shows `a`, which is no tag. -/
example : ∃ d w, Reachable E0 d ∧ Gets E0 d cw (lit ".") w ∧ w.tree.abs.tag (lit "a") = none ∧ ∀ out, Shows w .listTags out → IsLine (lit "a") out := by
  obtain ⟨d, d', w2, v, _, _, h1, h2, h3, h4⟩ := tag_lf
  exact ⟨d', w2, h1, h2, h4, fun out h => (C69_violated_tags h1 outw h2 h (x := lit "a") (y := lit "b") (by decide) (by decide) (v := v) (by rw [← h3]; rfl)).1⟩

/-- `C69_tags_partial`, `C70_tags_stop`: `tag -d ROOT v1` deletes ROOT and fails. -/
example : ∃ d d' e w2, Calmly E0 d ∧ Exec E0 Faults.none (((Order.deleteTags [lit "ROOT", lit "v1"]).command cw []).prog E0) d (.err e) d' ∧ Gets E0 d' cw (lit ".") w2 ∧
    w2.tree.abs.tag (lit "ROOT") = none := by
  obtain ⟨d, w, u, root, hB⟩ := begun
  have := hB.used
  have hno : w.tree.abs.tag (lit "v1") = none := by
    cases h : w.tree.abs.tag (lit "v1") with
    | none => rfl
    | some v => exact absurd ((hB.new.tags _ _).1 h).1 (by decide)
  obtain ⟨r, d', he⟩ := exec_total (E := E0) (f := Faults.none) (editCmd_draws E0 cw [.deleteTag (lit "ROOT"), .deleteTag (lit "v1")]) d (by omega)
  rcases C57_edit_partial hB.live.past.reachable outw (hB.live.plain neat) (by simp [Edit.Plain]) he with ⟨s, rfl⟩ | ⟨e, rfl⟩
  · have hx : Exec E0 Faults.none (((Order.deleteTags [lit "ROOT", lit "v1"]).command cw []).prog E0) d (.ok (.edited s)) d' := exec_trans he (.ret _ _)
    obtain ⟨_, h2, _⟩ := C70_tags hB.live.past.reachable outw hB.live.gets hB.live.opens.head hx
    exact absurd hno (h2 _ (by simp))
  · have hx : Exec E0 Faults.none (((Order.deleteTags [lit "ROOT", lit "v1"]).command cw []).prog E0) d (.err e) d' := exec_trans he (.ret _ _)
    obtain ⟨pre, x, rest, k1, k2, _, _, w2, k5, _, _, k6, _⟩ := C70_tags_stop hB.live.past.reachable rfl outw hB.live.gets hB.live.opens.head hx
    refine ⟨d, d', e, w2, hB.live.past, hx, k5, k6.gone _ ?_⟩
    cases pre with
    | nil =>
      rcases k2 with h | h
      · cases h
      · simp only [List.nil_append, List.cons.injEq] at k1
        rw [← k1.1, (hB.new.tags (lit "ROOT") root).2 ⟨rfl, rfl⟩] at h
        cases h
    | cons y pre =>
      simp only [List.cons_append, List.cons.injEq] at k1
      rw [k1.1]
      exact List.mem_cons_self

end Cli
end Verif
