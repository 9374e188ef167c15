import Verif.Props.EitherOrder
/-!
# Changes of branches and tags, and whether commits are accepted (C119)

A change of a branch or tag decides about the commits of one workspace at most: the one whose own branch it moves. `branch -f` can move it to a place from which no commit is accepted,
and back.
-/
set_option autoImplicit false
namespace Verif
open M TS Json

/-- The change moves the branch that the workspace is on; deleting it is refused. -/
def Edit.MovesCurrent (w : Ws) : Edit → Prop
  | .addBranch name _ _ => name = w.branch
  | _ => False

theorem may_same {v v1 : OpenWs} {x : UID} (h : SameWs v v1) (hn : v1.tree.abs.node = v.tree.abs.node)
    (hb : v.ws.branch ≠ [] → v1.tree.abs.branch (v.ws.id.base32 ++ lit "/" ++ v.ws.branch) = v.tree.abs.branch (v.ws.id.base32 ++ lit "/" ++ v.ws.branch)) : MayCommit v1 x ↔ MayCommit v x := by
  unfold MayCommit
  rw [h.1, h.2.1]
  have ha : ∀ y z, v1.tree.abs.Anc y z ↔ v.tree.abs.Anc y z := fun y z => ⟨anc_congr fun t => by rw [hn], anc_congr fun t => by rw [hn]⟩
  by_cases e : v.ws.branch = []
  · simp only [e, true_or]
  · simp only [hb e, ha]

section
variable {E : Env} {d d1 : Disk} {cwd cwd2 : Str} {w v : OpenWs} {u p u' q : UID}

/-- **C119.** A change of a branch or tag in one workspace does not decide about the commits of another workspace of the space: it accepts the same ones before and after. -/
theorem C119_others (hd : Reachable E d) (hout : E.Outside (Path.abs cwd (lit "."))) (hout2 : E.Outside (Path.abs cwd2 (lit "."))) (hg : Gets E d cwd (lit ".") w)
    (hg2 : Gets E d cwd2 (lit ".") v) (hsp : v.spaceID = w.spaceID) (hid : v.ws.id ≠ w.ws.id) (hh : w.ws.HeadAt w.tree u p) (hh2 : v.ws.HeadAt v.tree u' q) {e : Edit} (hpl : e.Plain)
    (hu : e.Utf8) {r : Res CErr TS} (he : Exec E Faults.none (editCmd E cwd [e]) d r d1) :
    ∃ v1, Gets E d1 cwd2 (lit ".") v1 ∧ SameWs v v1 ∧ v1.ws.HeadAt v1.tree u' q ∧ (MayCommit v1 u' ↔ MayCommit v u') := by
  obtain ⟨t0, _, _, _, w1, v1, _, a2, _, a4, _, a6, a7, a8⟩ := asked_step hd hout hout2 hg hg2 hsp hh hh2 hpl hu he
  obtain ⟨b1, b2⟩ := asked_rest a8
  refine ⟨v1, a2, a4, a6, may_same a4 (by rw [a7, t0]; exact b1) fun _ => ?_⟩
  rw [a7, t0]
  refine b2 (.branch _) fun h => ?_
  cases e with
  | addBranch name ref force => exact hid (own_inj (NameSlot.branch.inj h)).1
  | deleteBranch name g =>
    cases g with
    | false => exact hid (own_inj (NameSlot.branch.inj h)).1
    | true => exact own_ne_global (NameSlot.branch.inj h)
  | addTag => cases h
  | deleteTag => cases h

/-- **C119.** And in the workspace itself only moving the branch that it is on does. -/
theorem C119_same (hd : Reachable E d) (hout : E.Outside (Path.abs cwd (lit "."))) (hg : Gets E d cwd (lit ".") w) (hh : w.ws.HeadAt w.tree u p) {e : Edit} (hpl : e.Plain)
    (hu : e.Utf8) (hcur : ¬ e.MovesCurrent w.ws) {r : Res CErr TS} (he : Exec E Faults.none (editCmd E cwd [e]) d r d1) :
    ∃ w1, Gets E d1 cwd (lit ".") w1 ∧ SameWs w w1 ∧ w1.ws.HeadAt w1.tree u p ∧ (MayCommit w1 u ↔ MayCommit w u) := by
  obtain ⟨_, _, _, _, w1, _, a1, _, a3, _, a5, _, _, a8⟩ := asked_step hd hout hout hg hg rfl hh hh hpl hu he
  obtain ⟨b1, b2⟩ := asked_rest a8
  refine ⟨w1, a1, a3, a5, ?_⟩
  by_cases hno : ∃ c, Edits w.tree.abs w.ws p e c
  · obtain ⟨c, hc⟩ := hno
    refine may_same a3 b1 fun _ => b2 (.branch _) fun h => ?_
    cases hc with
    | addBranch => exact hcur (own_inj (NameSlot.branch.inj h)).2.symm
    | deleteOwn hne => exact hne (own_inj (NameSlot.branch.inj h)).2.symm
    | deleteGlobal => exact own_ne_global (NameSlot.branch.inj h)
    | addTag => cases h
    | deleteTag => cases h
  · have h : w1.tree.abs = w.tree.abs := a8.elim (fun h => absurd ⟨_, h⟩ hno) fun h => h.2
    exact may_same a3 b1 fun _ => by rw [h]

/-- **C119.** After `branch [-f] NAME REF` with the name of the branch that the workspace is on, its commits are accepted exactly if what REF meant is among the ancestors of its
working layer. -/
theorem C119_current (hd : Reachable E d) (hout : E.Outside (Path.abs cwd (lit "."))) (hg : Gets E d cwd (lit ".") w) (hh : w.ws.HeadAt w.tree u p) (hb : w.ws.branch ≠ [])
    (hu : validUtf8 w.ws.branch) {ref : Str} {force : Bool} {x : UID} {k : KeyType} (hR : Ws.Resolves w.tree.abs w.ws.id p ref x k) {s : TS} {f : Faults}
    (he : Exec E f (editCmd E cwd [.addBranch w.ws.branch ref force]) d (.ok s) d1) :
    ∃ w1, Gets E d1 cwd (lit ".") w1 ∧ SameWs w w1 ∧ w1.ws.HeadAt w1.tree u p ∧ w1.tree.abs.node = w.tree.abs.node ∧ (MayCommit w1 u ↔ w.tree.abs.Anc x u) := by
  obtain ⟨w1, x', k', a1, a2, a3, a4, _, a6, _, _, a9, _⟩ := C59_branch hd hout hg hh hu he
  obtain ⟨rfl, _⟩ := Ws.resolves_unique a4 hR
  have ha : ∀ y z, w1.tree.abs.Anc y z ↔ w.tree.abs.Anc y z := fun y z => ⟨anc_congr fun t => by rw [a9], anc_congr fun t => by rw [a9]⟩
  refine ⟨w1, a1, a2, a3, a9, ?_⟩
  unfold MayCommit
  rw [a2.1, a2.2.1, a6]
  constructor
  · rintro (h | ⟨y, h1, h2⟩)
    · exact absurd h hb
    · cases h1; exact (ha _ _).1 h2
  · exact fun h => Or.inr ⟨x', rfl, (ha _ _).2 h⟩

/-- **C119 does not hold** for the branch that the workspace is on: after `branch -f NAME REF` with that name and a REF that is not an ancestor of the working layer, every commit is
refused. -/
theorem C119_violated (hd : Reachable E d) (hout : E.Outside (Path.abs cwd (lit "."))) (hg : Gets E d cwd (lit ".") w) (hh : w.ws.HeadAt w.tree u p) (hb : w.ws.branch ≠ [])
    (hu : validUtf8 w.ws.branch) {ref : Str} (hpl : PlainKey ref) {x : UID} {k : KeyType} (hR : Ws.Resolves w.tree.abs w.ws.id p ref x k) (hno : ¬ w.tree.abs.Anc x u)
    {r : Res CErr TS} (he : Exec E Faults.none (editCmd E cwd [.addBranch w.ws.branch ref true]) d r d1) :
    (∃ s, r = .ok s) ∧ ∀ f ci r2 d2, Exec E f (commitCmd E cwd ci) d1 r2 d2 → ∃ e, r2 = .err e := by
  obtain ⟨s, rfl⟩ := (C24_accepted_iff hd hout hg hh rfl (e := .addBranch w.ws.branch ref true) hpl he).2 ⟨_, .addBranch hR (Or.inr rfl)⟩
  have hr1 : Reachable E d1 := reachable_next hd rfl (a := .edit cwd [.addBranch w.ws.branch ref true]) hout (.edit he)
  obtain ⟨w1, a1, _, a3, _, a5⟩ := C119_current hd hout hg hh hb hu hR he
  exact ⟨⟨s, rfl⟩, fun f ci r2 d2 h => (C28_refused hr1 hout a1 a3 (fun h => hno (a5.1 h)) h).1⟩

/-- **C119.** Whatever was the reason that a workspace on a branch accepted no commits, `branch -f NAME HEAD` with the name of the branch helps: the next commit is accepted, and the
branch points to it. -/
theorem C119_repair (hd : Reachable E d) (hout : E.Outside (Path.abs cwd (lit "."))) (hg : Gets E d cwd (lit ".") w) (hh : w.ws.HeadAt w.tree u p) (hb : w.ws.branch ≠ [])
    (hu : validUtf8 w.ws.branch) (hlink : ∃ n m c, d.user w.ws.path = .link (E.mountPath n) ∧ d.mdir n = some m ∧ m.merged = some c) {ls : List UID}
    (hls : w.tree.abs.Path u ls) (hfit : E.Fits ls.length) {r : Res CErr TS} (he : Exec E Faults.none (editCmd E cwd [.addBranch w.ws.branch (lit "HEAD") true]) d r d1)
    {ci : CommitInfo} {r2 : Res CErr (OpenWs × OpenWs)} {d2 : Disk} (he2 : Exec E Faults.none (commitCmd E cwd ci) d1 r2 d2) :
    (∃ s, r = .ok s) ∧ (∃ y, r2 = .ok y) ∧ ∃ w2 u2, Gets E d2 cwd (lit ".") w2 ∧ SameWs w w2 ∧ w2.ws.HeadAt w2.tree u2 u ∧
      w2.tree.abs.branch (w.ws.id.base32 ++ lit "/" ++ w.ws.branch) = some u := by
  obtain ⟨s, rfl⟩ := (C24_accepted_iff hd hout hg hh rfl (e := .addBranch w.ws.branch (lit "HEAD") true) (show PlainKey (lit "HEAD") by unfold PlainKey; decide) he).2 ⟨_, .addBranch .head (Or.inr rfl)⟩
  have hr1 : Reachable E d1 := reachable_next hd rfl (a := .edit cwd [.addBranch w.ws.branch (lit "HEAD") true]) hout (.edit he)
  obtain ⟨w1, a1, a2, a3, a4, a5⟩ := C119_current hd hout hg hh hb hu .head he
  obtain ⟨_, _, _, _, _, o⟩ := edit_effect hd hout hg hh (e := .addBranch w.ws.branch (lit "HEAD") true) hu he
  obtain ⟨_, o2, _, _, o5, _⟩ := o
  obtain ⟨g, hs⟩ := steady_reachable hd
  obtain ⟨T, hF⟩ := gets_found hs hout hg hh
  obtain ⟨g1, hs1⟩ := steady_reachable hr1
  obtain ⟨T1, hF1⟩ := gets_found hs1 hout a1 a3
  obtain ⟨n, hn, hp⟩ := hh.2
  have hmay : MayCommit w1 u := a5.2 (.step hn hp (anc_self hF hls hn hp))
  obtain ⟨y, rfl⟩ := (C28_accepted_iff hr1 hout a1 a3 (path_nodes a4 hls) hfit (by rw [hF1.opens.path, ← hF.opens.path, o5, o2]; exact hlink) he2).2 hmay
  obtain ⟨w2, u2, c1, c2, c3, c4⟩ := C27_commit_effect hr1 hout a1 a3 he2
  have hm := c4.moved (by rw [a2.2.1]; exact hb)
  rw [a2.1, a2.2.1] at hm
  exact ⟨⟨s, rfl⟩, ⟨y, rfl⟩, w2, u2, c1, ⟨c2.1.trans a2.1, c2.2.1.trans a2.2.1, c2.2.2.trans a2.2.2⟩, c3, hm⟩
where
  anc_self {d : Disk} {g : Str → Option TS} {cwd : Str} {w : OpenWs} {u p : UID} {T : TS} (_ : Found E d g cwd (lit ".") w u p T) {ls : List UID} (hls : w.tree.abs.Path u ls)
      {n : ANode} (hn : w.tree.abs.node u = some n) (hp : n.parent = some p) : w.tree.abs.Anc p p := by
    cases hls with
    | root h1 h2 => rw [hn] at h1; cases h1; rw [hp] at h2; cases h2
    | step h1 h2 h3 =>
      rw [hn] at h1; cases h1; rw [hp] at h2; cases h2
      obtain ⟨m, hm⟩ := path_has h3 p (by cases h3 <;> simp)
      exact .refl hm

end
end Verif
