import Verif.Props.Stories
/-!
# Concrete cases for the theorems about commands

One concrete history: `init /w main`, a file is written, a commit with the message `first`, a clone to `/v`, a checkout of HEAD in the
clone. It exists (`story_*`), and the examples below show for each theorem about commands that its hypotheses are met in it.
-/
set_option autoImplicit false
namespace Verif
open M TS Json

namespace Story

/-- Data root `/d`. -/
def E0 : Env := ⟨lit "/d", true, 0⟩
/-- A disk on which the program never ran, with room for new entries everywhere. -/
def disk0 : Disk := ⟨fun _ => none, fun _ => none, fun _ => none, fun _ => none, fun _ => none, fun _ => .none, []⟩
def cw : Str := lit "/w"
def cv : Str := lit "/v"
/-- One file `f` with the content `x`. -/
def one : Content := fun p => if p = [] then some (.dir false .new) else if p = [lit "f"] then some (.file (lit "x")) else none
def ci : CommitInfo := ⟨lit "2024-01-02T03:04:05Z", lit "first"⟩


theorem neat : E0.Neat := by unfold Env.Neat; decide
theorem fits {n : Nat} (h : n ≤ 50) : E0.Fits n := by
  have : ((Path.comps E0.root).map fun a => a.length + 1).sum = 2 := by decide
  unfold Env.Fits
  rw [this]; omega
theorem absw : Path.abs cw (lit ".") = lit "/w" := by decide
theorem absv : Path.abs cv (lit ".") = lit "/v" := by decide
theorem outw : E0.Outside (Path.abs cw (lit ".")) := by
  intro rest h
  have h1 : Path.comps (Path.abs cw (lit ".")) = [lit "w"] := by decide
  have h2 : Path.comps E0.root = [lit "d"] := by decide
  rw [h1, h2] at h
  exact absurd (List.cons.inj h).1 (by decide)
theorem outv : E0.Outside (Path.abs cv (lit ".")) := by
  intro rest h
  have h1 : Path.comps (Path.abs cv (lit ".")) = [lit "v"] := by decide
  have h2 : Path.comps E0.root = [lit "d"] := by decide
  rw [h1, h2] at h
  exact absurd (List.cons.inj h).1 (by decide)
theorem vw : Path.abs cv (lit ".") ≠ Path.abs cw (lit ".") := by decide
theorem main_clean : sanitize (lit "main") = lit "main" := by decide

theorem untouched0 : Untouched disk0 := ⟨rfl, rfl, rfl, rfl, rfl⟩

/-- The workspace `/w` on the branch `main` with one file, before its first commit. -/
structure Begun (d : Disk) (w : OpenWs) (u root : UID) : Prop where
  live : Live E0 d cw w u root [root]
  used : d.used.length ≤ 5
  branch : w.ws.branch = lit "main"
  new : NewHistory w.tree.abs w.ws.id root u (lit "main")
  shows : d.lists w [lit "f"] = some (.file (lit "x"))
  free : ∀ p, p ≠ Path.abs cw (lit ".") → d.user p = .none
  base : ¬ Head E0 d root

theorem Begun.may {d : Disk} {w : OpenWs} {u root : UID} (h : Begun d w u root) : MayCommit w u := by
  refine Or.inr ⟨root, ?_, .step h.new.work rfl (.refl h.new.first)⟩
  rw [h.branch]
  exact (h.new.branches _ _).2 ⟨rfl, rfl⟩

theorem begun : ∃ d w u root, Begun d w u root := by
  obtain ⟨d1, r, w, u, root, he, hL, hus, hb, hN, hfr, hhd⟩ := live_init (E := E0) (d := disk0) ⟨disk0, untouched0, .refl⟩ (cwd := cw) (branch := lit "main")
    outw rfl (fits (by decide)) (by decide)
  rw [main_clean] at hb hN
  obtain ⟨hL2, hu2, hc2⟩ := live_write hL one
  refine ⟨d1.put u one, w, u, root, hL2, by rw [hu2]; exact hus, hb, hN, ?_, ?_, ?_⟩
  · rw [lists_mounted hL2.mnt, List.map_cons, hc2]
    simp only [files, view, stack, merge, topEnt, one]
    rfl
  · have hst : w.tree.abs.Has u := by obtain ⟨_, n, hn, _⟩ := hL.opens.head; exact ⟨n, hn⟩
    obtain ⟨c', hc'⟩ := hL.opens.stored u hst
    simp only [Disk.put, hc']
    exact fun p hp => hfr p hp
  · have hst : w.tree.abs.Has u := by obtain ⟨_, n, hn, _⟩ := hL.opens.head; exact ⟨n, hn⟩
    obtain ⟨c', hc'⟩ := hL.opens.stored u hst
    simp only [Disk.put, hc']
    rintro ⟨n, rc, hn, hr⟩
    rcases hhd root ⟨n, rc, hn, hr⟩ with e | ⟨_, _, h, _⟩
    · have h1 := hN.first
      have h2 := hN.work
      rw [← e, h1] at h2
      simp at h2
    · cases h

/-- The same workspace after the commit. -/
structure Second (d : Disk) (w : OpenWs) (u : UID) (d' : Disk) (w' : OpenWs) (u' root : UID) : Prop where
  live : Live E0 d' cw w' u' u [u, root]
  used : d'.used.length ≤ 7
  run : ∃ r, Exec E0 Faults.none (commitCmd E0 cw ci) d (.ok r) d'
  same : SameWs w w'
  may : MayCommit w' u'
  effect : CommitEffect w.tree.abs w.ws u u' ci w'.tree.abs
  free : ∀ p, p ≠ Path.abs cw (lit ".") → d'.user p = .none

theorem second : ∃ d w u root d' w' u', Begun d w u root ∧ Second d w u d' w' u' root := by
  obtain ⟨d, w, u, root, hB⟩ := begun
  have := hB.used
  obtain ⟨d', r, w', u', he, hL, hus, hsame, hmay, heff, _, hfr, _⟩ := live_commit neat hB.live hB.may (fits (by simp)) (by omega) ci
  exact ⟨d, w, u, root, d', w', u', hB, hL, by omega, ⟨r, he⟩, hsame, hmay, heff, fun p hp => (hfr p hp).trans (hB.free p hp)⟩

/-- Then the clone at `/v`. -/
structure Third (d : Disk) (w : OpenWs) (u p root : UID) (d' : Disk) (w1 w2 : OpenWs) (u2 : UID) : Prop where
  run : ∃ r, Exec E0 Faults.none (cloneCmd E0 cw (lit ".") (Path.abs cv (lit "."))) d (.ok r) d'
  live1 : Live E0 d' cw w1 u p [p, root]
  live2 : Live E0 d' cv w2 u2 p [p, root]
  used : d'.used.length ≤ 12
  same : SameWs w w1
  may : MayCommit w1 u
  branch : w2.ws.branch = lit "main"
  space : w1.spaceID = w2.spaceID
  mount : w1.mount.id ≠ w2.mount.id
  free : ∀ p, p ≠ Path.abs cw (lit ".") → p ≠ Path.abs cv (lit ".") → d'.user p = .none

theorem third : ∃ d w u root d' w' u' d3 w1 w2 u2, Begun d w u root ∧ Second d w u d' w' u' root ∧ Third d' w' u' u root d3 w1 w2 u2 := by
  obtain ⟨d, w, u, root, d', w', u', hB, hS⟩ := second
  have := hS.used
  obtain ⟨d3, r, w2, u2, he, hL, hus, hsp, hbr, hfr, w1, hL1, hsame, hid, hne, hmay⟩ := live_clone neat hS.live outv (hS.free _ vw) (fits (by simp)) (by omega)
  exact ⟨d, w, u, root, d', w', u', d3, w1, w2, u2, hB, hS, ⟨r, he⟩, hL1, hL, by omega, hsame, hmay hS.may, hbr.trans (hS.same.2.1.trans hB.branch), hsame.2.2.trans hsp.symm, hne,
    fun p h1 h2 => (hfr p h2).trans (hS.free p h1)⟩

/-- Then HEAD is checked out in the clone, which detaches it. -/
structure Fourth (d : Disk) (w1 w2 : OpenWs) (u1 p root : UID) (d' : Disk) (w1' w2' : OpenWs) (u2 : UID) : Prop where
  run : ∃ r, Exec E0 Faults.none (checkoutCmd E0 cv (lit "HEAD")) d (.ok r) d'
  live1 : Live E0 d' cw w1' u1 p [p, root]
  live2 : Live E0 d' cv w2' u2 p [p, root]
  used : d'.used.length ≤ 14
  may1 : MayCommit w1' u1
  may2 : MayCommit w2' u2
  space : w1'.spaceID = w2'.spaceID
  mount : w1'.mount.id ≠ w2'.mount.id
  detached : w2'.ws.branch = []
  free : ∀ p, p ≠ Path.abs cw (lit ".") → p ≠ Path.abs cv (lit ".") → d'.user p = .none

theorem plainHEAD : PlainKey (lit "HEAD") := by unfold PlainKey; decide

theorem fourth : ∃ d w u root d' w' u' d3 w1 w2 u2 d4 w1' w2' u2', Begun d w u root ∧ Second d w u d' w' u' root ∧ Third d' w' u' u root d3 w1 w2 u2 ∧
    Fourth d3 w1 w2 u' u root d4 w1' w2' u2' := by
  obtain ⟨d, w, u, root, d', w', u', d3, w1, w2, u2, hB, hS, hT⟩ := third
  have := hT.used
  obtain ⟨d4, r, w2', u2', he, hL, hus, hid, hsp, hbr, hfr, hoth⟩ := live_checkout neat plainHEAD hT.live2 (v := u) (kt := .commit) .head hT.live2.path (fits (by simp)) (by omega)
  obtain ⟨w1', hL1, hsame, hm1, hm2, hx, hb⟩ := hoth cw w1 u' u [u, root] hT.live1 hT.mount (Ne.symm vw)
  refine ⟨d, w, u, root, d', w', u', d3, w1, w2, u2, d4, w1', w2', u2', hB, hS, hT, ⟨r, he⟩, hL1, hL, by omega, ?_, Or.inl hbr, ?_, hm2, hbr,
    fun p h1 h2 => (hfr p h2).trans (hT.free p h1 h2)⟩
  · rcases hT.may with h | ⟨x, h1, h2⟩
    · exact Or.inl (hsame.2.1.trans h)
    · exact Or.inr ⟨x, by rw [hsame.1, hsame.2.1, hb hT.space]; exact h1, extends_anc hx h2⟩
  · rw [hsame.2.2, hT.space, hsp]


/-! ## C27, C28, C58: the commit of `first` -/

/-- `C27_commit_effect`: the commit carries its message and the branch `main` moves to it. -/
example : ∃ d d' w w2 u, Gets E0 d cw (lit ".") w ∧ Gets E0 d' cw (lit ".") w2 ∧ (∃ r, Exec E0 Faults.none (commitCmd E0 cw ci) d (.ok r) d') ∧
    w2.tree.abs.branch (w2.ws.id.base32 ++ lit "/main") = some u ∧ ∃ n, w2.tree.abs.node u = some n ∧ n.anno (lit "commit-message") = some (lit "first") := by
  obtain ⟨d, w, u, root, d', w', u', hB, hS⟩ := second
  obtain ⟨r, he⟩ := hS.run
  obtain ⟨w2, u2, h1, h2, h3, h4⟩ := C27_commit_effect hB.live.past.reachable outw hB.live.gets hB.live.opens.head he
  obtain ⟨_, n', _, e2, _, _, _, e4, _⟩ := h4.commit
  refine ⟨d, d', w, w2, u, hB.live.gets, h1, ⟨r, he⟩, ?_, n', e2, e4.trans (by decide)⟩
  have := h4.moved (by rw [hB.branch]; decide)
  rw [hB.branch] at this
  rw [h2.1]
  simpa [lit, List.append_assoc] using this

/-- `C27_commit_keeps_files`, `C58_mounted`: the file `f` is in the commit. -/
example : ∃ (d : Disk) (w : OpenWs) (u : UID) (d' : Disk) (w2 : OpenWs) (ls : List UID), Gets E0 d' cw (lit ".") w2 ∧ d.lists w [lit "f"] = some (.file (lit "x")) ∧ w2.tree.abs.Path u ls ∧
    files (ls.map d'.content) [lit "f"] = some (.file (lit "x")) := by
  obtain ⟨d, w, u, root, d', w', u', hB, hS⟩ := second
  obtain ⟨r, he⟩ := hS.run
  obtain ⟨w2, h1, _, _, ls, h4, h5⟩ := C27_commit_keeps_files hB.live.past.reachable outw hB.live.gets hB.live.mounted hB.live.opens.head he
  exact ⟨d, w, u, d', w2, ls, h1, hB.shows, h4, by rw [h5]; exact hB.shows⟩

/-- `C28_accepted_iff`: both sides are true here, ... -/
example : ∃ d w u ls, Reachable E0 d ∧ Gets E0 d cw (lit ".") w ∧ w.tree.abs.Path u ls ∧ E0.Fits ls.length ∧ MayCommit w u ∧
    (∃ n m c, d.user w.ws.path = .link (E0.mountPath n) ∧ d.mdir n = some m ∧ m.merged = some c) ∧
    ∀ r d', Exec E0 Faults.none (commitCmd E0 cw ci) d r d' → ∃ x, r = .ok x := by
  obtain ⟨d, w, u, root, hB⟩ := begun
  exact ⟨d, w, u, _, hB.live.past.reachable, hB.live.gets, hB.live.full, fits (by simp), hB.may, hB.live.clearable, fun r d' he =>
    (C28_accepted_iff hB.live.past.reachable outw hB.live.gets hB.live.opens.head hB.live.full (fits (by simp)) hB.live.clearable he).2 hB.may⟩

/-- ... and false in a clone (`C28_refused`, `C29_violated_on_branch`, `C42_commit`): its first commit fails. -/
example : ∃ d w u p, Reachable E0 d ∧ Gets E0 d cv (lit ".") w ∧ w.ws.HeadAt w.tree u p ∧ ¬ MayCommit w u ∧
    (∃ r d', Exec E0 Faults.none (commitCmd E0 cv ci) d r d') ∧ ∀ r d', Exec E0 Faults.none (commitCmd E0 cv ci) d r d' → ∃ e, r = .err e := by
  obtain ⟨d0, w0, u0, root, d, w, u, d3, w1, w2, u2, hB, hS, hT⟩ := third
  obtain ⟨r, he⟩ := hT.run
  obtain ⟨w2', u2', p2, h1, h2, h3⟩ := C29_violated_on_branch hS.live.past.reachable outw hS.live.gets (by rw [hS.same.2.1, hB.branch]; decide) outv rfl rfl he
  have := hT.used
  exact ⟨d3, w2', u2', p2, hT.live2.past.reachable, h1, h2, h3, exec_total (commitCmd_draws _ _ _) _ (by omega), fun r d' he' =>
    (C28_refused hT.live2.past.reachable outv h1 h2 h3 he').1⟩

/-! ## C29 to C34 and C60: checkouts and clones -/

theorem absx : Path.abs (lit "/x") (lit ".") = lit "/x" := by decide
theorem outx : E0.Outside (Path.abs (lit "/x") (lit ".")) := by
  intro rest h
  have h1 : Path.comps (Path.abs (lit "/x") (lit ".")) = [lit "x"] := by decide
  have h2 : Path.comps E0.root = [lit "d"] := by decide
  rw [h1, h2] at h
  exact absurd (List.cons.inj h).1 (by decide)

/-- `C29_detached_partial`, `C62_clone_accepted_iff`: a clone of a detached workspace can commit. -/
example : ∃ d w d' w' w2 u2, Reachable E0 d ∧ Gets E0 d cv (lit ".") w ∧ w.ws.branch = [] ∧
    Exec E0 Faults.none (cloneCmd E0 cv (lit ".") (Path.abs (lit "/x") (lit "."))) d (.ok w') d' ∧ Gets E0 d' (lit "/x") (lit ".") w2 ∧ MayCommit w2 u2 := by
  obtain ⟨d0, w0, u0, root, d, w, u, d3, w1, w2, u2, d4, w1', w2', u2', hB, hS, hT, hF⟩ := fourth
  have := hF.used
  obtain ⟨d', r, w', u', he, _⟩ := live_clone neat hF.live2 outx (hF.free _ (by decide) (by decide)) (fits (by simp)) (by omega)
  obtain ⟨w5, u5, p5, h1, _, h2⟩ := C29_detached_partial hF.live2.past.reachable outv hF.live2.gets hF.detached outx he
  exact ⟨d4, w2', d', r, w5, u5, hF.live2.past.reachable, hF.live2.gets, hF.detached, he, h1, h2⟩

/-- `C29_detached_commits`: and does. -/
example : ∃ d w d' w' d2 x, Gets E0 d cv (lit ".") w ∧ w.ws.branch = [] ∧
    Exec E0 Faults.none (cloneCmd E0 cv (lit ".") (Path.abs (lit "/x") (lit "."))) d (.ok w') d' ∧ Exec E0 Faults.none (commitCmd E0 (lit "/x") ci) d' (.ok x) d2 := by
  obtain ⟨d0, w0, u0, root, d, w, u, d3, w1, w2, u2, d4, w1', w2', u2', hB, hS, hT, hF⟩ := fourth
  have := hF.used
  obtain ⟨d', r, w', u', he, _, hu, _⟩ := live_clone neat hF.live2 outx (hF.free _ (by decide) (by decide)) (fits (by simp)) (by omega)
  obtain ⟨r2, d2, h2⟩ := exec_total (E := E0) (f := Faults.none) (commitCmd_draws E0 (lit "/x") ci) d' (by omega)
  obtain ⟨x, rfl⟩ := C29_detached_commits hF.live2.past.reachable outv hF.live2.gets hF.detached hF.live2.opens.head hF.live2.path (fits (by simp)) outx he h2
  exact ⟨d4, w2', d', r, d2, x, hF.live2.gets, hF.detached, he, h2⟩

/-- `C30_own_branch`, `C30_next_commit`, `C61_checkout_accepted_iff`: `main` is checked out again in `/w`, and the next commit is accepted and moves it. -/
example : ∃ d d' w r w2 u2 d2 r2 w3 c, Reachable E0 d ∧ Gets E0 d cw (lit ".") w ∧ Exec E0 Faults.none (checkoutCmd E0 cw (lit "main")) d (.ok r) d' ∧
    Gets E0 d' cw (lit ".") w2 ∧ w2.ws.branch = lit "main" ∧ MayCommit w2 u2 ∧ Exec E0 Faults.none (commitCmd E0 cw ci) d' (.ok r2) d2 ∧
    Gets E0 d2 cw (lit ".") w3 ∧ w3.tree.abs.branch (w.ws.id.base32 ++ lit "/" ++ lit "main") = some c ∧ ¬ w.tree.abs.Has c := by
  obtain ⟨d, w, u, root, hB⟩ := begun
  have := hB.used
  have hk : PlainKey (lit "main") := by unfold PlainKey; decide
  have hown := (hB.new.branches _ root).2 ⟨rfl, rfl⟩
  have hR : Ws.Resolves w.tree.abs w.ws.id root (lit "main") root .branch := by
    refine .own (by decide) (fun v hv => ?_) ?_ ?_ hown
    · rcases hv with ⟨h, _⟩ | ⟨h, _⟩ <;> exact absurd h (by decide)
    · cases h : w.tree.abs.tag (lit "main") with
      | none => rfl
      | some v => exact absurd ((hB.new.tags _ _).1 h).1 (by decide)
    · cases h : w.tree.abs.branch (lit "main") with
      | none => rfl
      | some v =>
        have h1 := congrArg List.length ((hB.new.branches _ _).1 h).1
        simp [C02_base32_length] at h1
        exact absurd h1 (by decide)
  obtain ⟨d', r, w', u', he, hL1, hu1, _⟩ := live_checkout neat hk hB.live hR hB.live.path (fits (by simp)) (by omega)
  obtain ⟨w2, u2, h1, h2, _, h4, h5⟩ := C30_own_branch hB.live.past.reachable outw hB.live.gets (by decide) hB.live.opens.head hR hown he
  obtain rfl := gets_unique hL1.past.reachable outw hL1.gets h1
  obtain ⟨rfl, _⟩ := headAt_unique (wf_of_reach (opens_reach hL1.opens)) hL1.opens.head h2
  obtain ⟨d2, r2, _, _, he2, _⟩ := live_commit neat hL1 h5 (fits (by simp)) (by omega) ci
  obtain ⟨w3, u3, c, n, k1, _, k2, k3, _⟩ := C30_next_commit hB.live.past.reachable outw hB.live.gets (by decide) hB.live.opens.head hR hown he he2
  exact ⟨d, d', w, r, _, _, d2, r2, w3, c, hB.live.past.reachable, hB.live.gets, he, h1, h4, h5, he2, k1, k2, k3⟩


/-- The tag and branch facts of a new history for keys that name nothing. -/
theorem Begun.unresolved {d : Disk} {w : OpenWs} {u root : UID} (hB : Begun d w u root) {key : Str} (h1 : key ≠ lit "HEAD") (h2 : key ≠ lit "ROOT") (h3 : key ≠ lit "main")
    (h4 : ∀ v, ¬ Spells key v) (h5 : w.tree.abs.branch key = none) (h6 : ¬ (lit "origin/") <+: key) (v : UID) (k : KeyType) :
    ¬ Ws.Resolves w.tree.abs w.ws.id root key v k := by
  intro h
  cases h with
  | head => exact h1 rfl
  | id _ h => exact h4 _ h
  | tag _ _ h => exact h2 ((hB.new.tags _ _).1 h).1
  | full _ _ _ h => rw [h5] at h; cases h
  | own _ _ _ _ h => exact h3 (List.append_cancel_left ((hB.new.branches _ _).1 h).1)
  | global _ _ _ _ _ h _ => exact h6 ⟨_, h.symm⟩

/-- `C61_checkout_refused`, `C42_checkout`: `nothing` names nothing. -/
example : ∃ d w u p, Reachable E0 d ∧ Gets E0 d cw (lit ".") w ∧ w.ws.HeadAt w.tree u p ∧ (∀ v kt, ¬ Ws.Resolves w.tree.abs w.ws.id p (lit "nothing") v kt) ∧
    ∃ e d', Exec E0 Faults.none (checkoutCmd E0 cw (lit "nothing")) d (.err e) d' := by
  obtain ⟨d, w, u, root, hB⟩ := begun
  have := hB.used
  have hk : PlainKey (lit "nothing") := by unfold PlainKey; decide
  have hno := hB.unresolved (key := lit "nothing") (by decide) (by decide) (by decide)
    (fun v hv => by rcases hv with ⟨h, _⟩ | ⟨h, _⟩ <;> exact absurd h (by decide)) (by
      cases h : w.tree.abs.branch (lit "nothing") with
      | none => rfl
      | some v =>
        have h1 := congrArg List.length ((hB.new.branches _ _).1 h).1
        simp only [List.length_append, C02_base32_length] at h1
        exact absurd h1 (by decide)) (by decide)
  obtain ⟨r, d', he⟩ := exec_total (E := E0) (f := Faults.none) (checkoutCmd_draws E0 cw (lit "nothing")) d (by omega)
  obtain ⟨e, rfl⟩ := (C61_checkout_refused hB.live.past.reachable outw hB.live.gets hB.live.opens.head hno he).2.1 hk
  exact ⟨d, w, u, root, hB.live.past.reachable, hB.live.gets, hB.live.opens.head, hno, e, d', he⟩

/-- `C30_violated_refused`: after a checkout of `main` by its full name, no commit is accepted. -/
example : ∃ d d' w r w2 u2, Reachable E0 d ∧ Gets E0 d cw (lit ".") w ∧ Exec E0 Faults.none (checkoutCmd E0 cw (w.ws.id.base32 ++ lit "/" ++ lit "main")) d (.ok r) d' ∧
    Gets E0 d' cw (lit ".") w2 ∧ ¬ MayCommit w2 u2 := by
  obtain ⟨d, w, u, root, hB⟩ := begun
  have := hB.used
  have hb32 := (C05_base32_decode_iff w.ws.id.base32 w.ws.id).1 (C02_base32_roundtrip w.ws.id)
  have hk : PlainKey (w.ws.id.base32 ++ lit "/" ++ lit "main") := by
    have h1 : ∀ b ∈ base32Chars, b ≠ 10 ∧ b ≠ 13 ∧ b ≠ 0xFF := by decide
    have h2 : ∀ b ∈ lit "/" ++ lit "main", b ≠ 10 ∧ b ≠ 13 ∧ b ≠ 0xFF := by decide
    have h3 : ∀ b ∈ w.ws.id.base32 ++ lit "/" ++ lit "main", b ≠ 10 ∧ b ≠ 13 ∧ b ≠ 0xFF := by
      intro b hb
      rw [List.append_assoc] at hb
      rcases List.mem_append.1 hb with hb | hb
      · exact h1 b (hb32.2.1 b hb)
      · exact h2 b hb
    exact plainKey_bytes (fun h => (h3 _ h).1 rfl) (fun h => (h3 _ h).2.1 rfl) (fun h => (h3 _ h).2.2 rfl)
  have hown := (hB.new.branches _ root).2 ⟨rfl, rfl⟩
  have hR : Ws.Resolves w.tree.abs w.ws.id root (w.ws.id.base32 ++ lit "/" ++ lit "main") root .branch := by
    refine .full ?_ (fun v hv => ?_) ?_ hown
    · intro h
      have := congrArg List.length h
      simp only [List.length_append, C02_base32_length] at this
      exact absurd this (by decide)
    · rcases hv with ⟨h, _⟩ | ⟨h, _⟩ <;> simp only [List.length_append, C02_base32_length] at h <;> exact absurd h (by decide)
    · cases h : w.tree.abs.tag (w.ws.id.base32 ++ lit "/" ++ lit "main") with
      | none => rfl
      | some v =>
        have := congrArg List.length ((hB.new.tags _ _).1 h).1
        simp only [List.length_append, C02_base32_length] at this
        exact absurd this (by decide)
  have hno : w.tree.abs.branch (w.ws.id.base32 ++ lit "/" ++ (w.ws.id.base32 ++ lit "/" ++ lit "main")) = none := by
    cases h : w.tree.abs.branch (w.ws.id.base32 ++ lit "/" ++ (w.ws.id.base32 ++ lit "/" ++ lit "main")) with
    | none => rfl
    | some v =>
      have := congrArg List.length ((hB.new.branches _ _).1 h).1
      simp only [List.length_append, C02_base32_length] at this
      exact absurd this (by decide)
  obtain ⟨d', r, w', u', he, _⟩ := live_checkout neat hk hB.live hR hB.live.path (fits (by simp)) (by omega)
  obtain ⟨w2, u2, h1, _, _, _, h5⟩ := C30_violated_refused hB.live.past.reachable outw hB.live.gets hB.live.opens.head hR hown hno he
  exact ⟨d, d', w, r, w2, u2, hB.live.past.reachable, hB.live.gets, he, h1, h5⟩

end Story
end Verif
