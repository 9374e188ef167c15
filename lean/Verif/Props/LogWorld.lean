import Verif.Props.Log
import Verif.World.Mono
import Verif.Props.Frames
import Verif.Props.Branches
/-!
# C49, C50: the log of every history
-/
set_option autoImplicit false
namespace Verif
open M TS Json

theorem hex_spells (u : UID) : Spells u.hex u := Or.inl ((C04_hex_decode_iff _ _).1 (C01_hex_roundtrip u))

theorem hex_ne_head (u : UID) : u.hex ≠ lit "HEAD" := by
  intro h
  have := congrArg List.length h
  rw [C01_hex_length] at this
  exact absurd this (by decide)

theorem hex_plain (u : UID) : PlainKey u.hex := by
  refine plainKey_bytes (fun h => ?_) (fun h => ?_) (fun h => ?_) <;> exact absurd (C01_hex_alphabet u _ h) (by decide)

theorem head_plain : PlainKey (lit "HEAD") := by unfold PlainKey; decide

theorem dateOf_none (lenient : Str → Option Time) : dateOf lenient (fun _ => none) = none := rfl

theorem dateOf_format {lenient : Str → Option Time} {anno : Str → Option Str} {t : Time} (h : t.Valid) (ha : anno (lit "commit-date") = some t.format) :
    dateOf lenient anno = some t.toMinute := by
  have hne : t.format ≠ [] := by
    intro he
    have := Time.C50_date_round_trip h fun _ => none
    rw [he] at this
    cases this
  simp only [dateOf, ha, Option.getD_some, if_neg hne, Time.C50_date_round_trip h]

section
variable {E : Env} {f : Faults} {lenient : Str → Option Time} {ansic : Time → Str}

theorem gets_reach {d : Disk} (hd : Reachable E d) {cwd path : Str} (hout : E.Outside (Path.abs cwd path)) {w : OpenWs} (hg : Gets E d cwd path w) : Reach w.tree := by
  obtain ⟨g, hs⟩ := steady_reachable hd
  obtain ⟨u, p, T, hF⟩ := found_of_gets hs hout hg
  exact opens_reach hF.opens

theorem gets_head {d : Disk} (hd : Reachable E d) {cwd path : Str} (hout : E.Outside (Path.abs cwd path)) {w : OpenWs} (hg : Gets E d cwd path w) :
    ∃ u p, w.ws.HeadAt w.tree u p := by
  obtain ⟨g, hs⟩ := steady_reachable hd
  obtain ⟨u, p, T, hF⟩ := found_of_gets hs hout hg
  exact ⟨u, p, hF.opens.head⟩

theorem reachable_next {d d' : Disk} {a : Act} (hd : Reachable E d) (hio : f.io = false) (hpl : a.Plain E) (hh : Happens E f a d d') : Reachable E d' := by
  obtain ⟨f0, d0, h1, h2, h3⟩ := hd
  exact ⟨f0.join f, d0, by simp [Faults.join, h1, hio], h2, .step (past_mono (le_join_left f0 f) h3) hpl (happens_mono (le_join_right f0 f) hh)⟩

theorem proper_commit {a a' : ATree} {w : Ws} {u u2 : UID} {ci : CommitInfo} (h : CommitEffect a w u u2 ci a') (hn : a.ProperNames) : a'.ProperNames := by
  intro b v hb
  by_cases hx : w.branch = [] ∨ b ≠ w.id.base32 ++ lit "/" ++ w.branch
  · rw [h.branches b hx] at hb; exact hn b v hb
  · rw [not_or, Classical.not_not] at hx
    exact ⟨⟨some w.id, w.branch⟩, hx.2⟩

theorem proper_add {a : ATree} {q : Option UID} {u : UID} {x : Str → Option Str} {y : Str → Option (Option Str)} (h : a.ProperNames) : (a.add q u x y).ProperNames := h

/-- What a successful commit leaves, for the log. -/
theorem committed {d d' : Disk} (hd : Reachable E d) {cwd : Str} (hout : E.Outside (Path.abs cwd (lit "."))) {w : OpenWs}
    (hg : Gets E d cwd (lit ".") w) {u p : UID} (hh : w.ws.HeadAt w.tree u p) {ci : CommitInfo} {r : OpenWs × OpenWs}
    (he : Exec E f (commitCmd E cwd ci) d (.ok r) d') :
    ∃ w2 u2 g', Gets E d' cwd (lit ".") w2 ∧ SameWs w w2 ∧ w2.ws.HeadAt w2.tree u2 u ∧ Reach w2.tree ∧ w2.tree.abs.ProperNames ∧
      CommitEffect w.tree.abs w.ws u u2 ci w2.tree.abs ∧ ¬ Head E d' u ∧ Steady E d' g' := by
  obtain ⟨g, hs⟩ := steady_reachable hd
  obtain ⟨T, hF⟩ := gets_found hs hout hg hh
  obtain ⟨_, _, u2, ls, g', w2, h1, h2, _, h3, h4, h5, h6, h7, h8, h9, _, h11⟩ := after_commit hs hF he
  have hce : CommitEffect w.tree.abs w.ws u u2 ci w2.tree.abs := by
    rw [h9]
    obtain ⟨_, n, hn, _⟩ := hh
    exact commitEffect ⟨n, hn⟩ h8
  exact ⟨w2, u2, g', gets_of_opens h4, ⟨h5, h7, h6⟩, h4.head, opens_reach h4, proper_commit hce (C21_reachable_names hd hout hg), hce, h11, h1⟩

theorem below_not_root {s : TS} (h : Reach s) {u p : UID} (hb : Below s.abs u p) : s.abs.root ≠ some u := by
  intro hr
  obtain ⟨n, h1, h2⟩ := (reach_rooted h).root u hr
  obtain ⟨n', h3, h4⟩ := hb
  rw [h1] at h3; cases h3
  rw [h2] at h4; cases h4

/-! ## C50 -/

/-- **C50 (partial).** After a successful commit the history of the workspace begins with an entry for it: with its ID, with the
date to the second and the offset to the minute, and with the message, if that is valid UTF-8. Missing from the full claim are
messages that are not, see `C50_violated_utf8`. -/
theorem C50_commit_partial {d d' : Disk} (hd : Reachable E d) {cwd : Str} (hout : E.Outside (Path.abs cwd (lit "."))) {w : OpenWs}
    (hg : Gets E d cwd (lit ".") w) {u p : UID} (hh : w.ws.HeadAt w.tree u p) {ci : CommitInfo} {t : Time} (ht : t.Valid) (hci : ci.date = t.format)
    (hmsg : validUtf8 ci.message) {r : OpenWs × OpenWs} (he : Exec E f (commitCmd E cwd ci) d (.ok r) d') :
    ∃ w2 l, Gets E d' cwd (lit ".") w2 ∧ SameWs w w2 ∧ w2.ws.history w2.tree (lit "HEAD") = .ok l ∧ (∃ cs, w2.ws.CommitsOf lenient w2.tree l cs) ∧
      ∀ cs, w2.ws.CommitsOf lenient w2.tree l cs →
        ∃ c rest, cs = c :: rest ∧ c.id = u ∧ c.date = some t.toMinute ∧ c.message = ci.message := by
  obtain ⟨w2, u2, _, h1, h2, h3, hr, hn, h4, _⟩ := committed hd hout hg hh he
  obtain ⟨l, ids, g1, g2, g3, g4⟩ := Ws.C50_history (lenient := lenient) (wf_of_reach hr) hn h3 head_plain (.head)
  refine ⟨w2, l, h1, h2, g1, g3, fun cs hcs => ?_⟩
  obtain ⟨i1, i2⟩ := g4 cs hcs
  obtain ⟨n, n', j0, j1, j2, _, j3, j4, _⟩ := h4.commit
  have hb : Below w2.tree.abs u p := ⟨n', j1, by
    obtain ⟨_, nn, nn1, nn2⟩ := hh
    rw [j0] at nn1; cases nn1
    rw [j2]; exact nn2⟩
  obtain ⟨ls, rfl⟩ : ∃ ls, ids = u :: ls := by cases g2 <;> exact ⟨_, rfl⟩
  have hls : ls ≠ [] := by
    rintro rfl
    cases g2 with
    | root m1 m2 =>
      obtain ⟨m, m3, m4⟩ := hb
      rw [m1] at m3; cases m3
      rw [m2] at m4; cases m4
    | step _ _ m => cases m
  rw [List.dropLast_cons_of_ne_nil hls] at i1
  cases cs with
  | nil => cases i1
  | cons c rest =>
    simp only [List.map_cons, List.cons.injEq] at i1
    obtain ⟨m, m1, m2, m3⟩ := i2 c (.head _)
    rw [i1.1, j1] at m1
    cases m1
    rw [hci, sanitize_ascii (Time.format_ascii ht)] at j3
    refine ⟨c, rest, rfl, i1.1, m2.trans (dateOf_format ht j3), ?_⟩
    rw [m3, j4, Option.getD_some, sanitize_valid hmsg]

/-- **C50.** Any later history, seen from any workspace of the space, shows the same date and message for the commit. -/
theorem C50_stays {d d' d2 : Disk} (hd : Reachable E d) (hd2 : Reachable E d') {cwd : Str} (hout : E.Outside (Path.abs cwd (lit "."))) {w : OpenWs}
    (hg : Gets E d cwd (lit ".") w) {u p : UID} (hh : w.ws.HeadAt w.tree u p) {ci : CommitInfo} {t : Time} (ht : t.Valid) (hci : ci.date = t.format)
    {r : OpenWs × OpenWs} (he : Exec E f (commitCmd E cwd ci) d (.ok r) d') {f2 : Faults} (hio : f2.io = false) (hp : Past E f2 d' d2) {cwd2 path2 : Str}
    (hout2 : E.Outside (Path.abs cwd2 path2)) {v : OpenWs} (hg2 : Gets E d2 cwd2 path2 v) (hsp : v.spaceID = w.spaceID) {ref : Str} {l : List Ref}
    (hl : v.ws.history v.tree ref = .ok l) (hpk : PlainKey ref) {cs : List Commit} (hcs : v.ws.CommitsOf lenient v.tree l cs) {c : Commit} (hc : c ∈ cs) (hcu : c.id = u) :
    c.date = some t.toMinute ∧ c.message = sanitize ci.message ∧ (validUtf8 ci.message → c.message = ci.message) := by
  obtain ⟨w2, u2, g', h1, h2, h3, hr, hn, h4, h5, _⟩ := committed hd hout hg hh he
  obtain ⟨n, n', j0, j1, j2, _, j3, j4, _⟩ := h4.commit
  obtain ⟨m, m1, _, m2⟩ := C31_append_only hd2 hio hp hout hout2 h1 hg2 (hsp.trans h2.2.2.symm) j1
  obtain ⟨rfl, _⟩ := m2 h5
  have hd3 : Reachable E d2 := by
    obtain ⟨f0, d0, a1, a2, a3⟩ := hd2
    exact ⟨f0.join f2, d0, by simp [Faults.join, a1, hio], a2, past_trans (past_mono (le_join_left f0 f2) a3) (past_mono (le_join_right f0 f2) hp)⟩
  have hrv := gets_reach hd3 hout2 hg2
  obtain ⟨x, y, hxy⟩ := gets_head hd3 hout2 hg2
  have hres : ∃ z k, Ws.Resolves v.tree.abs v.ws.id y ref z k := by
    refine Classical.byContradiction fun hno => ?_
    have := (Ws.C23_history (wf_of_reach hrv) hxy hpk).2 fun z k hz => hno ⟨z, k, hz⟩
    rw [this] at hl; cases hl
  obtain ⟨z, k, hz⟩ := hres
  obtain ⟨l', ids, g1, _, _, g4⟩ := Ws.C50_history (lenient := lenient) (wf_of_reach hrv) (C21_reachable_names hd3 hout2 hg2) hxy hpk hz
  rw [g1] at hl; cases hl
  obtain ⟨_, i2⟩ := g4 cs hcs
  obtain ⟨q, q1, q2, q3⟩ := i2 c hc
  rw [hcu, m1] at q1; cases q1
  rw [hci, sanitize_ascii (Time.format_ascii ht)] at j3
  rw [j4, Option.getD_some] at q3
  exact ⟨q2.trans (dateOf_format ht j3), q3, fun hv => by rw [q3, sanitize_valid hv]⟩

/-- **C50 is violated** for a message that is not valid UTF-8: what comes back is different. -/
theorem C50_violated_utf8 {d d' : Disk} (hd : Reachable E d) {cwd : Str} (hout : E.Outside (Path.abs cwd (lit "."))) {w : OpenWs}
    (hg : Gets E d cwd (lit ".") w) {u p : UID} (hh : w.ws.HeadAt w.tree u p) {ci : CommitInfo}
    (hmsg : ¬ validUtf8 ci.message) {r : OpenWs × OpenWs} (he : Exec E f (commitCmd E cwd ci) d (.ok r) d') :
    ∃ w2 l, Gets E d' cwd (lit ".") w2 ∧ w2.ws.history w2.tree (lit "HEAD") = .ok l ∧
      ∀ cs, w2.ws.CommitsOf lenient w2.tree l cs → ∀ c ∈ cs, c.id = u → c.message ≠ ci.message := by
  obtain ⟨w2, u2, _, h1, h2, h3, hr, hn, h4, _⟩ := committed hd hout hg hh he
  obtain ⟨l, ids, g1, g2, g3, g4⟩ := Ws.C50_history (lenient := lenient) (wf_of_reach hr) hn h3 head_plain (.head)
  refine ⟨w2, l, h1, g1, fun cs hcs c hc hcu hm => ?_⟩
  obtain ⟨_, i2⟩ := g4 cs hcs
  obtain ⟨n, n', j0, j1, j2, _, j3, j4, _⟩ := h4.commit
  obtain ⟨q, q1, _, q3⟩ := i2 c hc
  rw [hcu, j1] at q1; cases q1
  rw [j4, Option.getD_some, hm] at q3
  exact hmsg (valid_iff_sanitize.2 q3.symm)

/-! ## C49 -/

/-- **C49 is violated**: after every successful commit, `log` with the ID of the new working layer panics. -/
theorem C49_violated_working_layer {d d' : Disk} (hd : Reachable E d) {cwd : Str} (hout : E.Outside (Path.abs cwd (lit "."))) {w : OpenWs}
    (hg : Gets E d cwd (lit ".") w) {u p : UID} (hh : w.ws.HeadAt w.tree u p) {ci : CommitInfo} {r : OpenWs × OpenWs}
    (he : Exec E f (commitCmd E cwd ci) d (.ok r) d') :
    ∃ w2 u2, Gets E d' cwd (lit ".") w2 ∧ w2.ws.HeadAt w2.tree u2 u ∧ ∀ out, w2.ws.Logs lenient ansic w2.tree u2.hex out ↔ out = .panic := by
  obtain ⟨w2, u2, _, h1, h2, h3, hr, hn, h4, _⟩ := committed hd hout hg hh he
  refine ⟨w2, u2, h1, h3, fun out => ?_⟩
  have hp := Ws.C49_log_panics_iff (lenient := lenient) (ansic := ansic) (wf_of_reach hr) (reach_rooted hr) hn h3 (hex_plain u2)
    (.id (hex_ne_head u2) (hex_spells u2) ⟨_, h4.next⟩)
  have hun : Ws.Undated lenient w2.tree.abs u2 u2 :=
    ⟨.refl h4.next, below_not_root hr ⟨_, h4.next, rfl⟩, _, h4.next, dateOf_none _⟩
  have hall : ∀ out, w2.ws.Logs lenient ansic w2.tree u2.hex out → out = .panic := fun o ho => by
    rcases hp.2 o ho with ⟨_, e⟩ | ⟨hno, _⟩
    · exact e
    · exact absurd ⟨_, hun⟩ hno
  constructor
  · exact hall out
  · rintro rfl
    obtain ⟨o, ho⟩ := hp.1
    rwa [hall o ho] at ho

/-- **C49 is violated**: after checking out an undated node, such as the working layer of another workspace by its ID, plain `log`
panics. -/
theorem C49_violated_after_checkout {d d' : Disk} (hd : Reachable E d) {cwd : Str} (hout : E.Outside (Path.abs cwd (lit "."))) {w : OpenWs}
    (hg : Gets E d cwd (lit ".") w) {u p : UID} (hh : w.ws.HeadAt w.tree u p) {key : Str} {v : UID} {kt : KeyType}
    (hv : Ws.Resolves w.tree.abs w.ws.id p key v kt) (hun : Ws.Undated lenient w.tree.abs v v) {r : OpenWs × OpenWs}
    (he : Exec E f (checkoutCmd E cwd key) d (.ok r) d') :
    ∃ w2, Gets E d' cwd (lit ".") w2 ∧ ∀ out, w2.ws.Logs lenient ansic w2.tree (lit "HEAD") out ↔ out = .panic := by
  obtain ⟨g, hs⟩ := steady_reachable hd
  obtain ⟨T, hF⟩ := gets_found hs hout hg hh
  obtain ⟨_, v', kt', u2, ls, g', w2, h0, h1, h2, _, h3, h4, h5, h6, h7, h8, h9, _⟩ := after_checkout hs hF he
  obtain ⟨rfl, rfl⟩ := Ws.resolves_unique h0 hv
  have hr := opens_reach h4
  refine ⟨w2, gets_of_opens h4, fun out => ?_⟩
  have hn : w2.tree.abs.ProperNames := by rw [h9]; exact C21_reachable_names hd hout hg
  have hp := Ws.C49_log_panics_iff (lenient := lenient) (ansic := ansic) (wf_of_reach hr) (reach_rooted hr) hn h4.head head_plain (.head)
  have hun2 : Ws.Undated lenient w2.tree.abs v' v' := by
    obtain ⟨_, e1, n, e2, e3⟩ := hun
    have hne : v' ≠ u2 := by rintro rfl; exact h8 ⟨n, e2⟩
    have e4 : w2.tree.abs.node v' = some n := by rw [h9]; simp only [ATree.add, upd_ne _ _ hne]; exact e2
    exact ⟨.refl e4, by rw [h9]; exact e1, n, e4, e3⟩
  have hall : ∀ out, w2.ws.Logs lenient ansic w2.tree (lit "HEAD") out → out = .panic := fun o ho => by
    rcases hp.2 o ho with ⟨_, e⟩ | ⟨hno, _⟩
    · exact e
    · exact absurd ⟨_, hun2⟩ hno
  constructor
  · exact hall out
  · rintro rfl
    obtain ⟨o, ho⟩ := hp.1
    rwa [hall o ho] at ho

/-- A node that is the root or carries a date as `commit` writes it. -/
def IsCommit (a : ATree) (v : UID) : Prop := a.root = some v ∨ ∃ (n : ANode) (t : Time), a.node v = some n ∧ t.Valid ∧ n.anno (lit "commit-date") = some t.format

/-- No reference is the ID of a node that is not a commit. -/
def NamesCommits (d : Disk) (ref : Str) : Prop :=
  ∀ n b s v, d.space n = some (some b) → spaceLoad (.ok b) = .ok s → Spells ref v → s.abs.Has v → IsCommit s.abs v

/-- The commands are used as intended: commits are dated, and nothing but commits is named by ID. -/
def Intended (d : Disk) : Act → Prop
  | .commit _ ci => ∃ t : Time, t.Valid ∧ ci.date = t.format
  | .checkout _ key => NamesCommits d key
  | .edit _ es => ∀ e ∈ es, match e with
    | .addBranch _ ref _ => NamesCommits d ref
    | .addTag _ ref _ => NamesCommits d ref
    | _ => True
  | _ => True

/-- Everything with a child, a branch or a tag is a commit or the root. -/
structure AllCommits (a : ATree) : Prop where
  keys : NodeKeys a
  parent : ∀ u p, Below a u p → IsCommit a p
  branch : ∀ b v, a.branch b = some v → IsCommit a v
  tag : ∀ t v, a.tag t = some v → IsCommit a v

theorem settled_resolves {a : ATree} (h : AllCommits a) {i x p : UID} (hb : Below a x p) {ref : Str} {v : UID} {k : KeyType} (hv : Ws.Resolves a i p ref v k)
    (hid : ∀ v, Spells ref v → a.Has v → IsCommit a v) : IsCommit a v := by
  cases hv with
  | head => exact h.parent x _ hb
  | id _ h1 h2 => exact hid v h1 h2
  | tag _ _ h1 => exact h.tag _ _ h1
  | full _ _ _ h1 => exact h.branch _ _ h1
  | own _ _ _ _ h1 => exact h.branch _ _ h1
  | global _ _ _ _ _ _ h1 => exact h.branch _ _ h1

theorem settled_same {a b : ATree} (hn : b.node = a.node) (hr : b.root = a.root) {v : UID} : IsCommit b v ↔ IsCommit a v := by
  unfold IsCommit; rw [hn, hr]

theorem settled_add {a : ATree} {q u v : UID} (hu : ¬ a.Has u) (h : IsCommit a v) : IsCommit (a.add (some q) u (fun _ => none) (fun _ => none)) v := by
  rcases h with h | ⟨n, t, h1, h2, h3⟩
  · exact Or.inl h
  · exact Or.inr ⟨n, t, by simp only [ATree.add]; rw [upd_ne _ _ (by rintro rfl; exact hu ⟨n, h1⟩)]; exact h1, h2, h3⟩

theorem allSettled_add {a : ATree} {q u : UID} (hu : ¬ a.Has u) (h : AllCommits a) (hq : IsCommit a q) : AllCommits (a.add (some q) u (fun _ => none) (fun _ => none)) where
  keys := nodeKeys_add h.keys
  parent x p hb := by
    obtain ⟨n, h1, h2⟩ := hb
    by_cases hx : x = u
    · subst hx
      simp only [ATree.add, upd_self, Option.some.injEq] at h1
      subst h1
      cases h2
      exact settled_add hu hq
    · simp only [ATree.add, upd_ne _ _ hx] at h1
      exact settled_add hu (h.parent x p ⟨n, h1, h2⟩)
  branch b v hb := settled_add hu (h.branch b v hb)
  tag b v hb := settled_add hu (h.tag b v hb)

theorem settled_note {a : ATree} {u v : UID} {k x : Str} (hk : k ≠ lit "commit-date") (h : IsCommit a v) : IsCommit (a.note u k x) v := by
  rcases h with h | ⟨n, t, h1, h2, h3⟩
  · exact Or.inl h
  · refine Or.inr ?_
    by_cases hv : v = u
    · subst hv
      exact ⟨_, t, by simp only [ATree.note, upd_self, h1]; rfl, h2, by simp only [upd_ne _ _ (Ne.symm hk)]; exact h3⟩
    · exact ⟨n, t, by simp only [ATree.note, upd_ne _ _ hv]; exact h1, h2, h3⟩

theorem settled_date {a : ATree} {u v : UID} {t : Time} (ht : t.Valid) (h : IsCommit a v ∨ v = u ∧ a.Has u) : IsCommit (a.note u (lit "commit-date") t.format) v := by
  by_cases hv : v = u
  · subst hv
    rcases h with (h | ⟨n, t', h1, _⟩) | ⟨_, n, h1⟩
    · exact Or.inl h
    · exact Or.inr ⟨_, t, by simp only [ATree.note, upd_self, h1]; rfl, ht, by simp only [upd_self]⟩
    · exact Or.inr ⟨_, t, by simp only [ATree.note, upd_self, h1]; rfl, ht, by simp only [upd_self]⟩
  · rcases h with (h | ⟨n, t', h1, h2, h3⟩) | ⟨h, _⟩
    · exact Or.inl h
    · exact Or.inr ⟨n, t', by simp only [ATree.note, upd_ne _ _ hv]; exact h1, h2, h3⟩
    · exact absurd h hv

theorem below_note {a : ATree} {u x p : UID} {k v : Str} (h : Below (a.note u k v) x p) : Below a x p := by
  obtain ⟨n, h1, h2⟩ := h
  have := note_parent (a := a) (u := u) (k := k) (v := v) x
  rw [h1] at this
  obtain ⟨n', h3, h4⟩ := Option.map_eq_some_iff.1 this.symm
  exact ⟨n', h3, h4.trans h2⟩

theorem allSettled_edits {a a' : ATree} {w : Ws} {x p : UID} {es : List Edit} (h : EditsAll w p es a a') (hb : Below a x p)
    (hid : ∀ e ∈ es, ∀ name ref force, e = .addBranch name ref force ∨ e = .addTag name ref force → ∀ v, Spells ref v → a.Has v → IsCommit a v)
    (hs : AllCommits a) : AllCommits a' := by
  induction h with
  | nil => exact hs
  | @cons a b c e es h1 _ ih =>
    have hn : b.node = a.node ∧ b.root = a.root := by cases h1 <;> exact ⟨rfl, rfl⟩
    have hS : ∀ v, IsCommit b v ↔ IsCommit a v := fun v => settled_same hn.1 hn.2
    have hB : ∀ x p, Below b x p ↔ Below a x p := fun x p => by unfold Below; rw [hn.1]
    have hH : ∀ v, b.Has v ↔ a.Has v := fun v => by unfold ATree.Has; rw [hn.1]
    refine ih ((hB _ _).2 hb) (fun e' he' name ref force hf v h2 h3 => (hS v).2 (hid e' (.tail _ he') name ref force hf v h2 ((hH v).1 h3))) ?_
    have hk : NodeKeys b := by unfold NodeKeys; rw [hn.1]; exact hs.keys
    have hpar : ∀ u p, Below b u p → IsCommit b p := fun u p hx => (hS p).2 (hs.parent u p ((hB _ _).1 hx))
    cases h1 with
    | @addBranch name ref force v k hres _ =>
      refine ⟨hk, hpar, fun y v' hy => (hS _).2 ?_, fun t v' ht => (hS _).2 (hs.tag t v' ht)⟩
      simp only [ATree.setBranch, upd] at hy
      split at hy
      · cases hy
        exact settled_resolves hs hb hres (hid _ (.head _) name ref force (Or.inl rfl))
      · exact hs.branch y v' hy
    | @addTag name ref force v k hres _ =>
      refine ⟨hk, hpar, fun y v' hy => (hS _).2 (hs.branch y v' hy), fun t v' ht => (hS _).2 ?_⟩
      simp only [ATree.setTag, upd] at ht
      split at ht
      · cases ht
        exact settled_resolves hs hb hres (hid _ (.head _) name ref force (Or.inr rfl))
      · exact hs.tag t v' ht
    | deleteOwn =>
      refine ⟨hk, hpar, fun y v' hy => (hS _).2 ?_, fun t v' ht => (hS _).2 (hs.tag t v' ht)⟩
      simp only [ATree.delBranch, upd] at hy
      split at hy
      · cases hy
      · exact hs.branch y v' hy
    | deleteGlobal =>
      refine ⟨hk, hpar, fun y v' hy => (hS _).2 ?_, fun t v' ht => (hS _).2 (hs.tag t v' ht)⟩
      simp only [ATree.delBranch, upd] at hy
      split at hy
      · cases hy
      · exact hs.branch y v' hy
    | deleteTag =>
      refine ⟨hk, hpar, fun y v' hy => (hS _).2 (hs.branch y v' hy), fun t v' ht => (hS _).2 ?_⟩
      simp only [ATree.delTag, upd] at ht
      split at ht
      · cases ht
      · exact hs.tag t v' ht

theorem settled_back {a a' : ATree} (hc : ComesBack a a') (hk : NodeKeys a) {v : UID} (h : IsCommit a v) : IsCommit a' v := by
  rcases h with h | ⟨n, t, h1, h2, h3⟩
  · exact Or.inl (hc.root.trans h)
  · obtain ⟨n', g1, g2, g3, _⟩ := hc.node v n h1
    refine Or.inr ⟨n', t, g1, h2, (g3 _ _).2 ⟨_, _, h3, (sanitize_ascii (Time.format_ascii h2)).symm, sanitize_ascii (by decide), fun k1 v1 e1 e2 => ?_⟩⟩
    rw [sanitize_valid ((hk v n h1).1 k1 v1 e1)] at e2
    subst e2
    exact strLe_refl _

theorem keeps_settled : KeepsIf Intended (fun _ => AllCommits) where
  mono _ h := h
  back {U a a'} hc h := by
    refine ⟨fun u n hn => ?_, fun u p hb => ?_, fun b v hb => ?_, fun b v hb => ?_⟩
    · have := comesBack_is_utf8 hc
      exact ⟨fun k v hk => (this.anno u n k v hn hk).1, fun k v hk => this.data u n k v hn hk⟩
    · obtain ⟨n', h1, h2⟩ := hb
      cases hx : a.node u with
      | none => rw [hc.gone u hx] at h1; cases h1
      | some n =>
        obtain ⟨n2, g1, g2, _⟩ := hc.node u n hx
        rw [h1] at g1; cases g1
        exact settled_back hc h.keys (h.parent u p ⟨n, hx, g2 ▸ h2⟩)
    · obtain ⟨k0, v0, h1, rfl, _⟩ := (hc.branch b v).1 hb
      exact settled_back hc h.keys (h.branch _ _ h1)
    · obtain ⟨k0, v0, h1, rfl, _⟩ := (hc.tag b v).1 hb
      exact settled_back hc h.keys (h.tag _ _ h1)
  init {d U path branch root u' id} _ _ hne := by
    have hroot : (ATree.initial root u' id branch).root = some root := rfl
    refine ⟨fun u n hn => ?_, fun u p hb => ?_, fun b v hb => ?_, fun b v hb => ?_⟩
    · simp only [ATree.initial, ATree.setBranch, ATree.add, ATree.first, ATree.setTag, ATree.empty, upd] at hn
      split at hn
      · cases hn; exact ⟨nofun, nofun⟩
      · split at hn
        · cases hn; exact ⟨nofun, nofun⟩
        · cases hn
    · obtain ⟨n, hn, hp⟩ := hb
      simp only [ATree.initial, ATree.setBranch, ATree.add, ATree.first, ATree.setTag, ATree.empty, upd] at hn
      split at hn
      · cases hn; cases hp; exact Or.inl hroot
      · split at hn
        · cases hn; cases hp
        · cases hn
    · simp only [ATree.initial, ATree.setBranch, ATree.add, ATree.first, ATree.setTag, ATree.empty, upd] at hb
      split at hb
      · cases hb; exact Or.inl hroot
      · cases hb
    · simp only [ATree.initial, ATree.setBranch, ATree.add, ATree.first, ATree.setTag, ATree.empty, upd] at hb
      split at hb
      · cases hb; exact Or.inl hroot
      · cases hb
  turn {d U act n b s a'} hA hsp hld hQ ht := by
    generalize hx : s.abs = x at ht
    cases ht with
    | clone hb _ hu => subst hx; exact allSettled_add hu hQ (hQ.parent _ _ hb)
    | checkout hb hres _ hu =>
      subst hx
      exact allSettled_add hu hQ (settled_resolves hQ hb hres fun v h1 h2 => hA n b s v hsp hld h1 h2)
    | @commit cwd ci _ w u u' _ hu hu' _ =>
      subst hx
      obtain ⟨t, ht, hci⟩ := hA
      rw [hci]
      have hm : AllCommits ((s.abs.note u (lit "commit-date") t.format).note u (lit "commit-message") ci.message) := by
        have hS : ∀ v, IsCommit s.abs v → IsCommit ((s.abs.note u (lit "commit-date") t.format).note u (lit "commit-message") ci.message) v :=
          fun v hv => settled_note (by decide) (settled_date ht (Or.inl hv))
        exact ⟨nodeKeys_note (nodeKeys_note hQ.keys (valid_ascii (by decide))) (valid_ascii (by decide)),
          fun x p hb => hS p (hQ.parent x p (below_note (below_note hb))), fun y v hy => hS v (hQ.branch y v hy), fun y v hy => hS v (hQ.tag y v hy)⟩
      have hus : IsCommit ((s.abs.note u (lit "commit-date") t.format).note u (lit "commit-message") ci.message) u :=
        settled_note (by decide) (settled_date ht (Or.inr ⟨rfl, hu⟩))
      have hu2 : ¬ ((s.abs.note u (lit "commit-date") t.format).note u (lit "commit-message") ci.message).Has u' := by rw [note_has, note_has]; exact hu'
      have hadd := allSettled_add hu2 hm hus
      have hadds := settled_add (q := u) hu2 hus
      cases hbr : w.onBranch with
      | none => exact hadd
      | some y =>
        refine ⟨hadd.keys, hadd.parent, fun z v hz => ?_, hadd.tag⟩
        simp only [ATree.commit, ATree.setBranch, upd] at hz
        split at hz
        · cases hz; exact hadds
        · exact hadd.branch z v hz
    | edit hb _ hes he =>
      subst hx
      refine allSettled_edits he hb (fun e he' name ref force hf v h1 h2 => ?_) hQ
      have := hA e (hes.subset he')
      rcases hf with rfl | rfl
      · exact this n b s v hsp hld h1 h2
      · exact this n b s v hsp hld h1 h2

/-- **C49 (partial).** As long as commits are dated and nothing but commits is named by ID, `log` with any reference that is not
the ID of a working layer prints its history without panicking. Missing from the full claim are the cases of
`C49_violated_working_layer` and `C49_violated_after_checkout`. -/
theorem C49_log_partial {d0 d : Disk} (h0 : Untouched d0) (hio : f.io = false) (hp : PastIf E f Intended d0 d) {cwd path : Str}
    (hout : E.Outside (Path.abs cwd path)) {w : OpenWs} (hg : Gets E d cwd path w) {u p : UID} (hh : w.ws.HeadAt w.tree u p) {ref : Str} (hk : PlainKey ref)
    {v : UID} {k : KeyType} (hv : Ws.Resolves w.tree.abs w.ws.id p ref v k) (hid : NamesCommits d ref) :
    (∃ out, w.ws.Logs lenient ansic w.tree ref out) ∧ ∀ out, w.ws.Logs lenient ansic w.tree ref out → ∃ text, out = .ok text := by
  have hd : Reachable E d := reachable_untouched hio h0 (past_of_pastIf hp)
  obtain ⟨g, hs⟩ := steady_reachable hd
  obtain ⟨T, hF⟩ := gets_found hs hout hg hh
  have hr := opens_reach hF.opens
  obtain ⟨_, b, _, _, h1, h2⟩ := hF.opens.tree
  have hQ := (allTrees_pastIf (Q := fun _ => AllCommits) keeps_settled hio h0 hp).2 _ b w.tree h1 h2
  obtain ⟨e1, e2⟩ := Ws.C49_log_panics_iff (lenient := lenient) (ansic := ansic) (wf_of_reach hr) (reach_rooted hr) (C21_reachable_names hd hout hg) hh hk hv
  refine ⟨e1, fun out ho => ?_⟩
  rcases e2 out ho with ⟨⟨x, i1, i2, n, i3, i4⟩, _⟩ | ⟨_, e⟩
  · have hx : IsCommit w.tree.abs x := by
      have hsv : IsCommit w.tree.abs v := settled_resolves hQ hh.2 hv fun z z1 z2 => hid _ b w.tree z h1 h2 z1 z2
      clear e1 e2 hv
      induction i1 with
      | refl => exact hsv
      | step g1 g2 _ ih => exact ih (hQ.parent _ _ ⟨_, g1, g2⟩)
    rcases hx with hx | ⟨n', t, g1, g2, g3⟩
    · exact absurd hx i2
    · rw [i3] at g1; cases g1
      rw [dateOf_format g2 g3] at i4
      cases i4
  · exact e

end
end Verif
