import Verif.Ws.Commit
import Verif.Props.Ws
import Verif.Props.Time
/-!
# C49, C50, C63: what the log shows
-/
set_option autoImplicit false
namespace Verif
open TS

namespace Ws
variable {lenient : Str → Option Time} {ansic : Time → Str}

theorem tag_order_exists (s : TS) : ∃ order, Ranges s.tree.tags order := ⟨_, List.Perm.refl _⟩

theorem commitsOf_exists {s : TS} (h : WF s) (hn : s.abs.ProperNames) (w : Ws) : ∀ l : List Ref, (∀ r ∈ l, s.In r) → ∃ cs, w.CommitsOf lenient s l cs
  | [], _ => ⟨[], .nil⟩
  | r :: l, hl => by
    obtain ⟨cs, hcs⟩ := commitsOf_exists h hn w l fun x hx => hl x (.tail _ hx)
    obtain ⟨o, ho, _⟩ := hl r (.head _)
    obtain ⟨bs, hbs⟩ := (C21_all_branches_partial h hn w).1
    obtain ⟨order, hor⟩ := tag_order_exists s
    exact ⟨_, .cons ⟨o, bs, order, ho, hbs, hor, rfl⟩ hcs⟩

/-- What a commit says about its node. -/
structure Tells (lenient : Str → Option Time) (a : ATree) (c : Commit) : Prop where
  node : ∃ n, a.node c.id = some n ∧ c.date = dateOf lenient n.anno ∧ c.message = (n.anno (lit "commit-message")).getD []

theorem commitOf_tells {s : TS} (h : WF s) {w : Ws} {r : Ref} (hr : s.In r) {c : Commit} (hc : w.CommitOf lenient s r c) :
    Tells lenient s.abs c ∧ idAt s.heap r = some c.id := by
  obtain ⟨o, bs, order, ho, _, _, rfl⟩ := hc
  obtain ⟨o', ho', hi⟩ := hr
  rw [ho] at ho'; cases ho'
  exact ⟨⟨absObj s.heap o, (abs_node_iff h o.id _).2 ⟨r, o, ho, hi, rfl, rfl⟩, rfl, rfl⟩, by simp [idAt, ho]⟩

theorem commitsOf_tell {s : TS} (h : WF s) {w : Ws} {l : List Ref} {cs : List Commit} (hc : w.CommitsOf lenient s l cs) (hl : ∀ r ∈ l, s.In r) :
    (∀ c ∈ cs, Tells lenient s.abs c) ∧ l.map (idAt s.heap) = (cs.map Commit.id).map some := by
  induction hc with
  | nil => exact ⟨nofun, rfl⟩
  | cons h1 _ ih =>
    obtain ⟨i1, i2⟩ := ih fun x hx => hl x (.tail _ hx)
    obtain ⟨e1, e2⟩ := commitOf_tells h (hl _ (.head _)) h1
    refine ⟨fun x hx => ?_, by rw [List.map_cons, List.map_cons, List.map_cons, e2, i2]⟩
    rcases List.mem_cons.1 hx with rfl | hx
    · exact e1
    · exact i1 x hx

/-- **C50.** `GetHistory` returns one commit for each node of the path without the root, newest first, each with the message and
the date that its node carries. -/
theorem C50_history {s : TS} (h : WF s) (hn : s.abs.ProperNames) {w : Ws} {u p : UID} (hh : w.HeadAt s u p) {ref : Str} (hp : PlainKey ref) {v : UID}
    {k : KeyType} (hv : Resolves s.abs w.id p ref v k) :
    ∃ l ids, w.history s ref = .ok l ∧ s.abs.Path v ids ∧ (∃ cs, w.CommitsOf lenient s l cs) ∧
      ∀ cs, w.CommitsOf lenient s l cs → cs.map Commit.id = ids.dropLast ∧
        ∀ c ∈ cs, ∃ n, s.abs.node c.id = some n ∧ c.date = dateOf lenient n.anno ∧ c.message = (n.anno (lit "commit-message")).getD [] := by
  obtain ⟨l, ids, h1, h2, h3, h4⟩ := history_in h hh hp hv
  refine ⟨l, ids, h1, h2, commitsOf_exists h hn w l h4, fun cs hcs => ?_⟩
  obtain ⟨e1, e2⟩ := commitsOf_tell h hcs h4
  refine ⟨?_, fun c hc => (e1 c hc).node⟩
  rw [e2] at h3
  exact (List.map_inj_right fun x y e => Option.some.inj e).1 h3

/-! ### How a message looks -/

/-- A message with the lines `ls`. -/
def onLines : List Str → Str
  | [] => []
  | [x] => x
  | x :: y :: l => x ++ 10 :: onLines (y :: l)

/-- Spaces and line ends. -/
def BlankByte (c : UInt8) : Prop := c = 13 ∨ c = 10 ∨ c = 32

theorem indent_line {x : Str} (h : (10 : UInt8) ∉ x) : indent x = x := by
  induction x with
  | nil => rfl
  | cons c x ih =>
    have h1 : c ≠ 10 := fun e => h (e ▸ .head _)
    have h2 := ih fun e => h (.tail _ e)
    simp only [indent, List.flatMap_cons] at h2 ⊢
    rw [if_neg h1, h2]; rfl

theorem indent_append (x y : Str) : indent (x ++ y) = indent x ++ indent y := by simp [indent]

theorem indent_lines : ∀ (x : Str) (ls : List Str), (∀ l ∈ x :: ls, (10 : UInt8) ∉ l) →
    indent (onLines (x :: ls)) ++ [10] = x ++ 10 :: ls.flatMap fun l => lit "    " ++ l ++ [10]
  | x, [], h => by simp [onLines, indent_line (h x (.head _))]
  | x, y :: ls, h => by
    have h2 := indent_lines y ls fun l hl => h l (.tail _ hl)
    rw [onLines, indent_append, indent_line (h x (.head _))]
    have : indent (10 :: onLines (y :: ls)) = lit "\n    " ++ indent (onLines (y :: ls)) := by simp [indent]
    rw [this, List.append_assoc, List.append_assoc, h2, show lit "\n    " = 10 :: lit "    " from rfl]
    simp only [List.flatMap_cons, List.cons_append, List.append_assoc, List.nil_append]

theorem trimEnd_append {x t : Str} (ht : ∀ c ∈ t, BlankByte c) (hx : ∀ c, x.getLast? = some c → ¬ BlankByte c) : trimEnd (x ++ t) = x := by
  unfold trimEnd
  have hd : ∀ (p : UInt8 → Bool) (a b : Str), (∀ c ∈ a, p c = true) → (a ++ b).dropWhile p = b.dropWhile p := by
    intro p a b ha
    induction a with
    | nil => rfl
    | cons c a ih => simp [ha c (.head _), ih fun x hx => ha x (.tail _ hx)]
  rw [List.reverse_append, hd _ _ _ (fun c hc => by
    rcases ht c (List.mem_reverse.1 hc) with rfl | rfl | rfl <;> rfl)]
  have hr : ∀ y : Str, (∀ c, y.head? = some c → ¬ BlankByte c) → y.dropWhile (fun c => c == 13 || c == 10 || c == 32) = y := by
    intro y hy
    cases y with
    | nil => rfl
    | cons c y =>
      have := hy c rfl
      simp only [BlankByte, not_or] at this
      simp [this.1, this.2.1, this.2.2]
  rw [hr _ (fun c hc => hx c (by rwa [List.head?_reverse] at hc)), List.reverse_reverse]

/-- **C50.** How the log shows a message: behind the line with the date comes a free line, then each line of the message with four
blanks before it, then a free line. Blanks and line ends at the end of the message are left out, everything else is kept. -/
theorem C50_printed {w : Ws} {c : Commit} {date : Time} (hd : c.date = some date) {x : Str} {ls : List Str} {t : Str}
    (hm : c.message = onLines (x :: ls) ++ t) (hl : ∀ l ∈ x :: ls, (10 : UInt8) ∉ l) (ht : ∀ c ∈ t, BlankByte c)
    (hx : ∀ c, (onLines (x :: ls)).getLast? = some c → ¬ BlankByte c) (hne : c.message ≠ []) :
    ∃ first, Mark.esc "[33m" ++ lit "commit " ++ c.id.hex ++ Mark.esc "[0m" <+: first ∧
      c.print ansic w = .ok (first ++ lit "Date:  " ++ ansic date ++ lit "\n\n" ++ ((x :: ls).flatMap fun l => lit "    " ++ l ++ [10]) ++ lit "\n") := by
  refine ⟨if c.marks w ≠ [] then Mark.esc "[33m" ++ lit "commit " ++ c.id.hex ++ Mark.esc "[0m" ++ lit " (" ++ joinWith (Mark.esc "[33m" ++ lit ", " ++ Mark.esc "[0m") ((c.marks w).map Mark.text) ++ lit ")\n"
    else Mark.esc "[33m" ++ lit "commit " ++ c.id.hex ++ Mark.esc "[0m" ++ lit "\n", ?_, ?_⟩
  · split
    · exact ⟨lit " (" ++ joinWith (Mark.esc "[33m" ++ lit ", " ++ Mark.esc "[0m") ((c.marks w).map Mark.text) ++ lit ")\n", by simp only [List.append_assoc]⟩
    · exact ⟨_, rfl⟩
  · simp only [Commit.print, hd, hne, ne_eq, not_false_eq_true, if_true]
    have h1 : indent (trimEnd c.message) ++ lit "\n\n" = x ++ 10 :: (ls.flatMap fun l => lit "    " ++ l ++ [10]) ++ lit "\n" := by
      have := indent_lines x ls hl
      rw [hm, trimEnd_append ht hx, show lit "\n\n" = [10] ++ lit "\n" from rfl, ← List.append_assoc, this]
    rw [List.append_assoc (lit "\n    "), h1]
    simp [lit, List.append_assoc]

/-- A message of two lines with blanks and line ends behind them. -/
example : ∃ (m x y t : Str), m = onLines [x, y] ++ t ∧ t ≠ [] ∧ (∀ l ∈ [x, y], (10 : UInt8) ∉ l) ∧ (∀ c ∈ t, BlankByte c) ∧
    ∀ c, (onLines [x, y]).getLast? = some c → ¬ BlankByte c :=
  ⟨_, lit "one", lit "  two", lit " \r\n", rfl, by decide, by decide, by unfold BlankByte; decide, by
    intro c hc
    have : c = 111 := by simpa [onLines, lit] using hc.symm
    rw [this]; unfold BlankByte; decide⟩

theorem printAll_parts {w : Ws} : ∀ {cs : List Commit} {text : Str}, printAll ansic w cs = .ok text →
    ∃ parts : List Str, parts.length = cs.length ∧ text = parts.flatten ∧ ∀ x ∈ cs.zip parts, x.1.print ansic w = .ok x.2
  | [], text, h => ⟨[], rfl, (Res.ok.inj h).symm, nofun⟩
  | c :: cs, text, h => by
    unfold printAll at h
    cases hx : c.print ansic w with
    | ok x =>
      rw [hx] at h
      cases hy : printAll ansic w cs with
      | ok y =>
        rw [Res.bind, hy] at h
        obtain ⟨ps, h1, h2, h3⟩ := printAll_parts hy
        refine ⟨x :: ps, by simp [h1], by rw [List.flatten_cons, ← h2]; exact (Res.ok.inj h).symm, fun z hz => ?_⟩
        rw [List.zip_cons_cons] at hz
        rcases List.mem_cons.1 hz with rfl | hz
        · exact hx
        · exact h3 z hz
      | _ => rw [Res.bind, hy] at h; cases h
    | _ => rw [hx] at h; cases h

/-- What `log` prints for the commit `id`: a line with the ID and marks, the date, and the message with each line moved to the right; nothing of an empty message. -/
structure LogEntry (lenient : Str → Option Time) (ansic : Time → Str) (a : ATree) (id : UID) (text : Str) : Prop where
  shows : ∃ n date marks body, a.node id = some n ∧ dateOf lenient n.anno = some date ∧
    text = Mark.esc "[33m" ++ lit "commit " ++ id.hex ++ Mark.esc "[0m" ++ marks ++ lit "\nDate:  " ++ ansic date ++ lit "\n" ++ body ∧
    ((n.anno (lit "commit-message")).getD [] = [] → body = []) ∧
    ∀ (x : Str) (ls : List Str) (t : Str), (n.anno (lit "commit-message")).getD [] = onLines (x :: ls) ++ t → (n.anno (lit "commit-message")).getD [] ≠ [] →
      (∀ l ∈ x :: ls, (10 : UInt8) ∉ l) → (∀ c ∈ t, BlankByte c) → (∀ c, (onLines (x :: ls)).getLast? = some c → ¬ BlankByte c) →
      body = lit "\n" ++ ((x :: ls).flatMap fun l => lit "    " ++ l ++ [10]) ++ lit "\n"

/-- **C50.** The log of `v` shows each commit of the history of `v` once, in that order, and nothing else. -/
theorem C50_output {s : TS} (h : WF s) (hn : s.abs.ProperNames) {w : Ws} {u p : UID} (hh : w.HeadAt s u p) {ref : Str} (hp : PlainKey ref) {v : UID} {k : KeyType}
    (hv : Resolves s.abs w.id p ref v k) {text : Str} (hl : w.Logs lenient ansic s ref (.ok text)) :
    ∃ ids parts, s.abs.Path v ids ∧ parts.length = ids.dropLast.length ∧ text = parts.flatten ∧ ∀ x ∈ ids.dropLast.zip parts, LogEntry lenient ansic s.abs x.1 x.2 := by
  obtain ⟨l, ids, h1, h2, _, h3⟩ := C50_history (lenient := lenient) h hn hh hp hv
  generalize hr : Res.ok text = r at hl
  cases hl with
  | @ok l' cs e1 e2 =>
    rw [h1] at e1; cases e1
    obtain ⟨g1, g2⟩ := h3 cs e2
    obtain ⟨parts, p1, p2, p3⟩ := printAll_parts hr.symm
    refine ⟨ids, parts, h2, by rw [← g1, List.length_map]; exact p1, p2, fun x hx => ?_⟩
    rw [← g1, List.zip_map_left, List.mem_map] at hx
    obtain ⟨⟨c, y⟩, hc, rfl⟩ := hx
    have hpr := p3 _ hc
    have hmem := (List.of_mem_zip hc).1
    obtain ⟨n, k1, k2, k3⟩ := g2 c hmem
    cases hd : c.date with
    | none => rw [Commit.print, hd] at hpr; cases hpr
    | some date =>
      have hpr' := hpr
      simp only [Commit.print, hd] at hpr
      have hpr := Res.ok.inj hpr
      refine ⟨n, date, if c.marks w ≠ [] then lit " (" ++ joinWith (Mark.esc "[33m" ++ lit ", " ++ Mark.esc "[0m") ((c.marks w).map Mark.text) ++ lit ")" else [],
        if c.message ≠ [] then lit "\n    " ++ indent (trimEnd c.message) ++ lit "\n\n" else [], k1, k2 ▸ hd, ?_, ?_, ?_⟩
      · show y = _
        rw [← hpr]
        split <;> simp [lit, List.append_assoc]
      · intro hm
        have : c.message = [] := k3.trans hm
        simp [this]
      · intro x ls t hm hne hl ht hx
        have e : c.message = (n.anno (lit "commit-message")).getD [] := k3
        rw [← e] at hm hne
        rw [if_pos hne]
        have := indent_lines x ls hl
        rw [hm, trimEnd_append ht hx, show lit "\n\n" = [10] ++ lit "\n" from rfl, ← List.append_assoc, List.append_assoc (lit "\n    "), this]
        simp [lit, List.append_assoc]
  | err e => cases hr
  | panic e => cases hr
  | diverge e => cases hr

/-! ## C49 -/

theorem printAll_cases (w : Ws) : ∀ cs : List Commit,
    (printAll ansic w cs = .panic ∧ ∃ c ∈ cs, c.date = none) ∨ ((∃ x, printAll ansic w cs = .ok x) ∧ ∀ c ∈ cs, c.date ≠ none)
  | [] => Or.inr ⟨⟨[], rfl⟩, nofun⟩
  | c :: cs => by
    unfold printAll
    cases hd : c.date with
    | none => exact Or.inl ⟨by simp [Commit.print, hd, Res.bind], c, .head _, hd⟩
    | some t =>
      have : ∃ x, c.print ansic w = .ok x := ⟨_, by unfold Commit.print; rw [hd]⟩
      obtain ⟨x, hx⟩ := this
      rw [hx]
      rcases printAll_cases w cs with ⟨h1, c', h2, h3⟩ | ⟨⟨y, h1⟩, h2⟩
      · exact Or.inl ⟨by simp [Res.bind, h1], c', .tail _ h2, h3⟩
      · refine Or.inr ⟨⟨x ++ y, by simp [Res.bind, h1]⟩, fun c' hc' => ?_⟩
        rcases List.mem_cons.1 hc' with rfl | hc'
        · rw [hd]; exact nofun
        · exact h2 c' hc'

/-- A node of the history of `v` that has no date, or none that can be read. -/
def Undated (lenient : Str → Option Time) (a : ATree) (v x : UID) : Prop :=
  a.Anc x v ∧ a.root ≠ some x ∧ ∃ n, a.node x = some n ∧ dateOf lenient n.anno = none

/-- **C49.** The log of a reference that means `v` always comes to an end. It panics exactly if some commit in the history of `v`
has no date that can be read, and otherwise prints everything. -/
theorem C49_log_panics_iff {s : TS} (h : WF s) (hr : s.abs.Rooted) (hn : s.abs.ProperNames) {w : Ws} {u p : UID} (hh : w.HeadAt s u p) {ref : Str}
    (hp : PlainKey ref) {v : UID} {k : KeyType} (hv : Resolves s.abs w.id p ref v k) :
    (∃ out, w.Logs lenient ansic s ref out) ∧
    ∀ out, w.Logs lenient ansic s ref out →
      ((∃ x, Undated lenient s.abs v x) ∧ out = .panic) ∨ ((¬ ∃ x, Undated lenient s.abs v x) ∧ ∃ text, out = .ok text) := by
  obtain ⟨l, ids, h1, h2, ⟨cs, hcs⟩, h3⟩ := C50_history (lenient := lenient) h hn hh hp hv
  refine ⟨⟨_, .ok h1 hcs⟩, fun out hout => ?_⟩
  have hmem := (C23_history_members hr h2).2.2
  cases hout with
  | @ok l' cs' e1 e2 =>
    rw [h1] at e1; cases e1
    obtain ⟨g1, g2⟩ := h3 cs' e2
    rcases printAll_cases (ansic := ansic) w cs' with ⟨i1, c, i2, i3⟩ | ⟨i1, i2⟩
    · refine Or.inl ⟨⟨c.id, ?_⟩, i1⟩
      obtain ⟨n, j1, j2, _⟩ := g2 c i2
      obtain ⟨j4, j5⟩ := (hmem c.id).1 (g1 ▸ List.mem_map_of_mem i2)
      exact ⟨j4, j5, n, j1, j2 ▸ i3⟩
    · refine Or.inr ⟨?_, i1⟩
      rintro ⟨x, j1, j2, n, j3, j4⟩
      have hx := (hmem x).2 ⟨j1, j2⟩
      rw [← g1] at hx
      obtain ⟨c, hc, rfl⟩ := List.mem_map.1 hx
      obtain ⟨n', k1, k2, _⟩ := g2 c hc
      rw [j3] at k1; cases k1
      exact i2 c hc (k2.trans j4)
  | err e => rw [h1] at e; cases e
  | panic e => rw [h1] at e; cases e
  | diverge e => rw [h1] at e; cases e

/-- **C49.** A reference that means nothing is an error. -/
theorem C49_log_unknown {s : TS} (h : WF s) {w : Ws} {u p : UID} (hh : w.HeadAt s u p) {ref : Str} (hp : PlainKey ref)
    (hv : ∀ v k, ¬ Resolves s.abs w.id p ref v k) {out : Res Err Str} : w.Logs lenient ansic s ref out ↔ out = .err .revisionNotFound := by
  have h1 := (C23_history h hh hp).2 hv
  constructor
  · intro hl
    cases hl with
    | ok e => rw [h1] at e; cases e
    | err e => rw [h1] at e; cases e; rfl
    | panic e => rw [h1] at e; cases e
    | diverge e => rw [h1] at e; cases e
  · rintro rfl; exact .err h1

/-! ## C63 -/

/-- The mark of a branch. -/
def markOf (cur : Str) (b : HBranch) : Mark :=
  if cur = b.info.fullName then .head b.info.localName else if b.info.isLocal then .own b.info.localName else .remote b.info.localName

theorem foldl_perm (cur : Str) : ∀ (bs : List HBranch) (ps : List Mark), (bs.foldl (addMark cur) ps).Perm (ps ++ bs.map (markOf cur))
  | [], ps => by simp
  | b :: bs, ps => by
    rw [List.foldl_cons]
    refine (foldl_perm cur bs _).trans ?_
    unfold addMark markOf
    by_cases h1 : cur = b.info.fullName
    · simp only [h1, if_true, List.map_cons]
      exact List.perm_middle.symm
    · simp only [h1, if_false, List.map_cons]
      cases b.info.isLocal <;> simp [markOf, List.append_assoc]

theorem foldl_head {cur nm : Str} : ∀ (bs : List HBranch) (ps : List Mark), (∀ b ∈ bs, cur = b.info.fullName → b.info.localName = nm) →
    (∀ n, .head n ∈ ps → ps.head? = some (.head nm)) → ∀ n, .head n ∈ bs.foldl (addMark cur) ps → (bs.foldl (addMark cur) ps).head? = some (.head nm)
  | [], ps, _, h, n, hn => h n hn
  | b :: bs, ps, hb, h, n, hn => by
    rw [List.foldl_cons] at hn ⊢
    refine foldl_head bs _ (fun x hx => hb x (.tail _ hx)) (fun m hm => ?_) n hn
    unfold addMark at hm ⊢
    split
    · rename_i h1
      rw [hb b (.head _) h1]; rfl
    · rename_i h1
      rw [if_neg h1] at hm
      split
      · rename_i h2
        rw [if_pos h2] at hm
        have hm' : Mark.head m ∈ ps := by simpa using hm
        rw [List.head?_append, h m hm']; rfl
      · rename_i h2
        rw [if_neg h2] at hm
        have hm' : Mark.head m ∈ ps := by simpa using hm
        rw [List.head?_append, h m hm']; rfl

theorem localFirst_irrefl (b : BranchInfo) : ¬ LocalFirst b b := by
  rintro (⟨h1, h2⟩ | ⟨_, h⟩)
  · rw [h2] at h1; cases h1
  · rw [strLt_irrefl] at h; cases h

/-- **C63.** The marks of a commit `v`: each once, and
* a tag exactly if it is at `v`,
* `HEAD -> b` exactly if the branch `b` that is checked out is at `v`, and then it comes first,
* another branch of this workspace, and `origin/b` for a global branch `b`, exactly if it is at `v`;
nothing of another workspace. Left out are branches whose name has a line feed, which no listing shows (C21). -/
theorem C63_marks_partial {s : TS} (h : WF s) (hn : s.abs.ProperNames) {w : Ws} {r : Ref} {c : Commit} (hc : w.CommitOf lenient s r c) :
    (c.marks w).Nodup ∧
    (∀ t, .tag t ∈ c.marks w ↔ s.abs.tag t = some c.id) ∧
    (∀ b, .head b ∈ c.marks w ↔ b = w.branch ∧ (10 : UInt8) ∉ b ∧ s.abs.branch (w.id.base32 ++ lit "/" ++ b) = some c.id) ∧
    (∀ b, .own b ∈ c.marks w ↔ b ≠ w.branch ∧ (10 : UInt8) ∉ b ∧ s.abs.branch (w.id.base32 ++ lit "/" ++ b) = some c.id) ∧
    (∀ x, .remote x ∈ c.marks w ↔ ∃ b, x = lit "origin/" ++ b ∧ (10 : UInt8) ∉ b ∧ s.abs.branch (lit "global/" ++ b) = some c.id) ∧
    ∀ b, .head b ∈ c.marks w → (c.marks w).head? = some (.head b) := by
  obtain ⟨o, bs, order, ho, hbs, hor, rfl⟩ := hc
  have hL := ((C21_all_branches_partial h hn w).2 bs hbs).1
  simp only [Commit.marks]
  generalize hcur : w.branchInfo.fullName = cur
  generalize hbs' : (bs.filter fun b => (idAt s.heap b.head).map UID.hex = some o.id.hex) = bs'
  generalize hts : (order.filter fun e => (idAt s.heap e.2).map UID.hex = some o.id.hex) = es
  have hid : ∀ x : Ref, ((idAt s.heap x).map UID.hex = some o.id.hex) ↔ idAt s.heap x = some o.id := by
    intro x
    constructor
    · intro hx
      obtain ⟨y, h1, h2⟩ := Option.map_eq_some_iff.1 hx
      rw [h1, C03_hex_injective h2]
    · intro hx; rw [hx]; rfl
  have hmb : ∀ b : BranchInfo, (∃ x ∈ bs', x.info = b) ↔ ((b.ws = none ∨ b.ws = some w.id) ∧ (10 : UInt8) ∉ b.name) ∧ s.abs.branch b.fullName = some o.id := by
    intro b
    rw [← hL.exact b o.id, ← hbs']
    constructor
    · rintro ⟨x, hx, e⟩
      obtain ⟨hx1, hx2⟩ := List.mem_filter.1 hx
      exact ⟨x, hx1, e, (hid _).1 (by simpa using hx2)⟩
    · rintro ⟨x, hx, e, e2⟩
      exact ⟨x, List.mem_filter.2 ⟨hx, by simpa using (hid _).2 e2⟩, e⟩
  have hvis : ∀ x ∈ bs', x.info.ws = none ∨ x.info.ws = some w.id := fun x hx => ((hmb x.info).1 ⟨x, hx, rfl⟩).1.1
  have hmt : ∀ t, t ∈ es.map Prod.fst ↔ s.abs.tag t = some o.id := by
    intro t
    rw [← hts]
    simp only [List.mem_map, List.mem_filter, decide_eq_true_eq, hid, abs, getByTag]
    constructor
    · rintro ⟨⟨k, x⟩, ⟨h1, h2⟩, rfl⟩
      rw [(GoMap.mem_iff_get h.tagsNd).1 (hor.mem_iff.1 h1)]
      exact h2
    · intro ht
      obtain ⟨x, h1, h2⟩ := Option.bind_eq_some_iff.1 ht
      exact ⟨(t, x), ⟨hor.mem_iff.2 (GoMap.mem_of_get h1), h2⟩, rfl⟩
  have hperm := foldl_perm cur bs' (es.map (Mark.tag ∘ Prod.fst))
  have hcurw : ∀ {b : HBranch}, cur = b.info.fullName → b.info = ⟨some w.id, w.branch⟩ := fun e => (C20_full_name_injective (hcur.trans e)).symm
  rw [List.map_map]
  have hmem : ∀ m, m ∈ bs'.foldl (addMark cur) (es.map (Mark.tag ∘ Prod.fst)) ↔ m ∈ es.map (Mark.tag ∘ Prod.fst) ∨ ∃ b ∈ bs', markOf cur b = m := by
    intro m
    rw [hperm.mem_iff, List.mem_append, List.mem_map (l := bs')]
  have hnotag : ∀ m, (∀ t, m ≠ .tag t) → m ∉ es.map (Mark.tag ∘ Prod.fst) := by
    intro m hm hx
    obtain ⟨e, _, rfl⟩ := List.mem_map.1 hx
    exact hm _ rfl
  have hmark : ∀ b, b ∈ bs' → (markOf cur b = .head w.branch ∧ b.info = ⟨some w.id, w.branch⟩) ∨
      (∃ n, n ≠ w.branch ∧ markOf cur b = .own n ∧ b.info = ⟨some w.id, n⟩) ∨ ∃ n, markOf cur b = .remote (lit "origin/" ++ n) ∧ b.info = ⟨none, n⟩ := by
    intro b hb
    unfold markOf
    by_cases h1 : cur = b.info.fullName
    · have := hcurw h1
      rw [if_pos h1, this]
      exact Or.inl ⟨rfl, rfl⟩
    · rw [if_neg h1]
      obtain ⟨⟨bw, bn⟩, br⟩ := b
      rcases hvis _ hb with e | e <;> simp only at e <;> subst e
      · exact Or.inr (Or.inr ⟨bn, rfl, rfl⟩)
      · refine Or.inr (Or.inl ⟨bn, ?_, rfl, rfl⟩)
        rintro rfl
        exact h1 (hcur.symm.trans rfl)
  refine ⟨?_, ?_, ?_, ?_, ?_, ?_⟩
  · rw [hperm.nodup_iff, List.nodup_append]
    refine ⟨?_, ?_, ?_⟩
    · have h1 : (order.map Prod.fst).Nodup := ((hor.map Prod.fst).nodup_iff).2 h.tagsNd
      have h2 : (es.map Prod.fst).Nodup := h1.sublist (by rw [← hts]; exact (List.filter_sublist).map _)
      rw [← List.map_map]
      rw [List.nodup_iff_pairwise_ne, List.pairwise_map]
      rw [List.nodup_iff_pairwise_ne] at h2
      exact h2.imp fun hne e => hne (by cases e; rfl)
    · have ho2 : bs'.Pairwise fun x y => LocalFirst x.info y.info := by rw [← hbs']; exact hL.order.filter _
      rw [List.nodup_iff_pairwise_ne, List.pairwise_map]
      refine ho2.imp_of_mem fun {x y} hx hy hlt e => ?_
      have : x.info = y.info := by
        rcases hmark x hx with ⟨a, b⟩ | ⟨n, _, a, b⟩ | ⟨n, a, b⟩ <;> rcases hmark y hy with ⟨a', b'⟩ | ⟨n', _, a', b'⟩ | ⟨n', a', b'⟩ <;>
          rw [a, a'] at e <;> cases e <;> rw [b, b']
      rw [this] at hlt
      exact localFirst_irrefl _ hlt
    · intro m hm m' hm' e
      subst e
      obtain ⟨b, hb, e⟩ := List.mem_map.1 hm'
      refine hnotag m (fun t ht => ?_) hm
      rw [ht] at e
      rcases hmark b hb with ⟨a, _⟩ | ⟨_, _, a, _⟩ | ⟨_, a, _⟩ <;> rw [a] at e <;> cases e
  · intro t
    rw [hmem, ← hmt t]
    constructor
    · rintro (hx | ⟨b, hb, e⟩)
      · obtain ⟨e, he, he2⟩ := List.mem_map.1 hx
        cases he2
        exact List.mem_map_of_mem he
      · rcases hmark b hb with ⟨a, _⟩ | ⟨_, _, a, _⟩ | ⟨_, a, _⟩ <;> rw [a] at e <;> cases e
    · intro hx
      obtain ⟨e, he, rfl⟩ := List.mem_map.1 hx
      exact Or.inl (List.mem_map.2 ⟨e, he, rfl⟩)
  · intro b
    rw [hmem]
    constructor
    · rintro (hx | ⟨x, hx, e⟩)
      · exact absurd hx (hnotag _ (by intro t; exact nofun))
      · rcases hmark x hx with ⟨a, a2⟩ | ⟨_, _, a, _⟩ | ⟨_, a, _⟩ <;> rw [a] at e <;> cases e
        obtain ⟨g1, g2⟩ := (hmb _).1 ⟨x, hx, a2⟩
        exact ⟨rfl, g1.2, g2⟩
    · rintro ⟨rfl, h1, h2⟩
      obtain ⟨x, hx, e⟩ := (hmb ⟨some w.id, w.branch⟩).2 ⟨⟨Or.inr rfl, h1⟩, h2⟩
      refine Or.inr ⟨x, hx, ?_⟩
      rcases hmark x hx with ⟨a, _⟩ | ⟨n, hne, a, b⟩ | ⟨n, a, b⟩
      · exact a
      · rw [e] at b; cases b; exact absurd rfl hne
      · rw [e] at b; cases b
  · intro b
    rw [hmem]
    constructor
    · rintro (hx | ⟨x, hx, e⟩)
      · exact absurd hx (hnotag _ (by intro t; exact nofun))
      · rcases hmark x hx with ⟨a, a2⟩ | ⟨_, hne, a, a2⟩ | ⟨_, a, _⟩ <;> rw [a] at e <;> cases e
        obtain ⟨g1, g2⟩ := (hmb _).1 ⟨x, hx, a2⟩
        exact ⟨hne, g1.2, g2⟩
    · rintro ⟨hne, h1, h2⟩
      obtain ⟨x, hx, e⟩ := (hmb ⟨some w.id, b⟩).2 ⟨⟨Or.inr rfl, h1⟩, h2⟩
      refine Or.inr ⟨x, hx, ?_⟩
      rcases hmark x hx with ⟨a, b⟩ | ⟨n, hne', a, b⟩ | ⟨n, a, b⟩
      · rw [e] at b; cases b; exact absurd rfl hne
      · rw [e] at b; cases b; exact a
      · rw [e] at b; cases b
  · intro x
    rw [hmem]
    constructor
    · rintro (hx | ⟨b, hb, e⟩)
      · exact absurd hx (hnotag _ (by intro t; exact nofun))
      · rcases hmark b hb with ⟨a, _⟩ | ⟨_, _, a, _⟩ | ⟨n, a, a2⟩ <;> rw [a] at e <;> cases e
        obtain ⟨g1, g2⟩ := (hmb _).1 ⟨b, hb, a2⟩
        exact ⟨n, rfl, g1.2, g2⟩
    · rintro ⟨b, rfl, h1, h2⟩
      obtain ⟨x, hx, e⟩ := (hmb ⟨none, b⟩).2 ⟨⟨Or.inl rfl, h1⟩, h2⟩
      refine Or.inr ⟨x, hx, ?_⟩
      rcases hmark x hx with ⟨a, b⟩ | ⟨n, hne', a, b⟩ | ⟨n, a, b⟩
      · rw [e] at b; cases b
      · rw [e] at b; cases b
      · rw [e] at b; cases b; exact a
  · intro b hb
    have hb' : b = w.branch := by
      rcases (hmem _).1 hb with hx | ⟨x, hx, e⟩
      · exact absurd hx (hnotag _ (by intro t; exact nofun))
      · rcases hmark x hx with ⟨a, a2⟩ | ⟨_, hne, a, a2⟩ | ⟨_, a, _⟩ <;> rw [a] at e <;> cases e
        rfl
    subst hb'
    exact foldl_head (nm := w.branch) bs' _ (fun x hx e => by rw [hcurw e]; rfl) (fun n hn' => absurd hn' (hnotag _ (by intro t; exact nofun))) _ hb


/-! ## The marks as text -/

/-- The name in a mark. -/
def markName : Mark → Str
  | .head n | .tag n | .own n | .remote n => n

theorem esc_cut {b : UInt8} : ∀ {n n' x y : Str}, b ∉ n → b ∉ n' → n ++ b :: x = n' ++ b :: y → n = n' ∧ x = y
  | [], [], _, _, _, _, h => ⟨rfl, (List.cons.inj h).2⟩
  | [], c :: n', _, _, _, h2, h => absurd (List.cons.inj h).1 fun e => h2 (by rw [e]; exact .head _)
  | c :: n, [], _, _, h1, _, h => absurd (List.cons.inj h).1 fun e => h1 (by rw [← e]; exact .head _)
  | c :: n, c' :: n', _, _, h1, h2, h => by
    obtain ⟨e1, e2⟩ := List.cons.inj h
    obtain ⟨e3, e4⟩ := esc_cut (fun m => h1 (.tail _ m)) (fun m => h2 (.tail _ m)) e2
    exact ⟨by rw [e1, e3], e4⟩

/-- The texts of two marks are different from the start on. -/
theorem text_cut {m m' : Mark} {x y : Str} (h1 : (27 : UInt8) ∉ markName m) (h2 : (27 : UInt8) ∉ markName m') (h : m.text ++ x = m'.text ++ y) : m = m' ∧ x = y := by
  have a1 : lit "[31m" = [91, 51, 49, 109] := by decide
  have a2 : lit "[32m" = [91, 51, 50, 109] := by decide
  have a3 : lit "[33m" = [91, 51, 51, 109] := by decide
  have a4 : lit "[34m" = [91, 51, 52, 109] := by decide
  have a0 : lit "[0m" = [91, 48, 109] := by decide
  have b1 : lit "tag: " = [116, 97, 103, 58, 32] := by decide
  have b2 : lit "HEAD -> " = [72, 69, 65, 68, 32, 45, 62, 32] := by decide
  cases m <;> cases m' <;> simp only [markName] at h1 h2 <;>
    simp only [Mark.text, Mark.esc, a0, a1, a2, a3, a4, b1, b2, List.append_assoc, List.cons_append, List.nil_append, List.cons.injEq, true_and] at h
  all_goals first
    | exact absurd h.1 (by decide)
    | (obtain ⟨e1, e2⟩ := esc_cut h1 h2 h
       simp only [List.cons.injEq, true_and] at e2
       exact ⟨by rw [e1], e2⟩)

theorem marks_cut {x y : Str} : ∀ {ms ms' : List Mark}, (∀ m ∈ ms, (27 : UInt8) ∉ markName m) → (∀ m ∈ ms', (27 : UInt8) ∉ markName m) → ms ≠ [] → ms' ≠ [] →
    joinWith (Mark.esc "[33m" ++ lit ", " ++ Mark.esc "[0m") (ms.map Mark.text) ++ 41 :: x = joinWith (Mark.esc "[33m" ++ lit ", " ++ Mark.esc "[0m") (ms'.map Mark.text) ++ 41 :: y →
    ms = ms' ∧ x = y
  | [], _, _, _, h, _, _ => absurd rfl h
  | _ :: _, [], _, _, _, h, _ => absurd rfl h
  | [m], [m'], h1, h2, _, _, h => by
    obtain ⟨e1, e2⟩ := text_cut (h1 m (.head _)) (h2 m' (.head _)) h
    exact ⟨by rw [e1], (List.cons.inj e2).2⟩
  | [m], m' :: k' :: l', h1, h2, _, _, h => by
    simp only [List.map_cons, List.map_nil, joinWith, List.append_assoc] at h
    obtain ⟨_, e2⟩ := text_cut (h1 m (.head _)) (h2 m' (.head _)) h
    exact absurd (List.cons.inj e2).1 (by decide)
  | m :: k :: l, [m'], h1, h2, _, _, h => by
    simp only [List.map_cons, List.map_nil, joinWith, List.append_assoc] at h
    obtain ⟨_, e2⟩ := text_cut (h1 m (.head _)) (h2 m' (.head _)) h
    exact absurd (List.cons.inj e2).1 (by decide)
  | m :: k :: l, m' :: k' :: l', h1, h2, _, _, h => by
    simp only [List.map_cons, joinWith] at h
    rw [List.append_assoc (m.text ++ _), List.append_assoc m.text, List.append_assoc (m'.text ++ _), List.append_assoc m'.text] at h
    obtain ⟨e1, e2⟩ := text_cut (h1 m (.head _)) (h2 m' (.head _)) h
    obtain ⟨e3, e4⟩ := marks_cut (ms := k :: l) (ms' := k' :: l') (fun x hx => h1 x (.tail _ hx)) (fun x hx => h2 x (.tail _ hx)) (List.cons_ne_nil _ _) (List.cons_ne_nil _ _) (List.append_cancel_left e2)
    exact ⟨by rw [e1, e3], e4⟩

theorem print_front {w : Ws} {c : Commit} {t : Str} (h : c.print ansic w = .ok t) : ∃ y, t = Mark.esc "[33m" ++ (lit "commit " ++ (c.id.hex ++ (Mark.esc "[0m" ++
    ((if c.marks w ≠ [] then lit " (" ++ (joinWith (Mark.esc "[33m" ++ lit ", " ++ Mark.esc "[0m") ((c.marks w).map Mark.text) ++ lit ")\n") else lit "\n") ++ y)))) := by
  simp only [Commit.print] at h
  split at h
  · cases h
  · rename_i d _
    refine ⟨lit "Date:  " ++ (ansic d ++ (lit "\n" ++ (if c.message ≠ [] then lit "\n    " ++ indent (trimEnd c.message) ++ lit "\n\n" else []))), ?_⟩
    rw [← Res.ok.inj h]
    by_cases hm : c.marks w = []
    · simp only [hm, ne_eq, not_true_eq_false, if_false, List.append_assoc]
    · simp only [hm, ne_eq, not_false_eq_true, if_true, List.append_assoc]

/-- **C63.** What the log prints for a commit tells the commit and its marks: printed for two commits, possibly in two workspaces, it
is only the same if they have the same ID and the same marks in the same order, that is, the same names, each as tag, checked
out branch, own branch or global branch. Names are assumed to have no escape character. -/
theorem C63_tells_partial {w w' : Ws} {c c' : Commit} {t : Str} (h : c.print ansic w = .ok t) (h' : c'.print ansic w' = .ok t)
    (hn : ∀ m ∈ c.marks w, (27 : UInt8) ∉ markName m) (hn' : ∀ m ∈ c'.marks w', (27 : UInt8) ∉ markName m) : c.id = c'.id ∧ c.marks w = c'.marks w' := by
  have b1 : lit " (" = [32, 40] := by decide
  have b2 : lit "\n" = [10] := by decide
  have b3 : lit ")\n" = [41, 10] := by decide
  obtain ⟨y, e1⟩ := print_front h
  obtain ⟨y', e2⟩ := print_front h'
  rw [e2] at e1
  have e := List.append_cancel_left (List.append_cancel_left e1.symm)
  obtain ⟨g1, g2⟩ := List.append_inj e (by rw [C01_hex_length, C01_hex_length])
  have hid : c.id = c'.id := C03_hex_injective g1
  have h := List.append_cancel_left g2
  refine ⟨hid, ?_⟩
  by_cases hm : c.marks w = [] <;> by_cases hm' : c'.marks w' = []
  · rw [hm, hm']
  · rw [if_neg (by simp [hm]), if_pos hm', b1, b2] at h
    exact absurd (List.cons.inj h).1 (by decide)
  · rw [if_pos hm, if_neg (by simp [hm']), b1, b2] at h
    exact absurd (List.cons.inj h).1 (by decide)
  · rw [if_pos hm, if_pos hm', b3, List.append_assoc (lit " ("), List.append_assoc (lit " ("), List.append_assoc (joinWith _ _), List.append_assoc (joinWith _ ((c'.marks w').map _))] at h
    exact (marks_cut hn hn' hm hm' (List.append_cancel_left h)).1

/-- Two prints that differ only in a mark: a branch `x` of the workspace, and the tag `x`. -/
example : ∃ (w : Ws) (c c' : Commit) (t t' : Str), c.print (fun _ => []) w = .ok t ∧ c'.print (fun _ => []) w = .ok t' ∧ c.id = c'.id ∧ t ≠ t' ∧
    (∀ m ∈ c.marks w, (27 : UInt8) ∉ markName m) ∧ (∀ m ∈ c'.marks w, (27 : UInt8) ∉ markName m) ∧ c.marks w = [.own (lit "x")] ∧ c'.marks w = [.tag (lit "x")] := by
  refine ⟨⟨UID.sample, [], 0, lit "main"⟩, ⟨UID.sample, some (⟨0, 0, 0, 0, 0, 0, 0⟩ : Time), [], [⟨⟨some UID.sample, lit "x"⟩, 0⟩], []⟩, ⟨UID.sample, some ⟨0, 0, 0, 0, 0, 0, 0⟩, [], [], [lit "x"]⟩, _, _, rfl, rfl, rfl, ?_, ?_, ?_, ?_, ?_⟩ <;> decide +kernel

end Ws
end Verif
