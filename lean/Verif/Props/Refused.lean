import Verif.Props.LinesWorld
import Verif.World.Mono
/-!
# What a refused command leaves (C82), and which `init` succeeds (C55)

One would expect that a command that is refused for what was asked of it leaves everything as it was. This holds for what is refused before the first call that
writes. It does not hold for `commit` on a branch that cannot follow, for `clone` to a path that is taken, and for `init` and `clone` below a directory that does not exist or to a
link that leads nowhere.
-/
set_option autoImplicit false
namespace Verif
open M TS Json

section
variable {E : Env} {f : Faults}

/-! ## Refused without a trace -/

theorem no_workspace {α : Type} {d d' : Disk} {g : Str → Option TS} (hs : Steady E d g) {cwd path : Str} (hout : E.Outside (Path.abs cwd path))
    (hno : ∀ w, ¬ Gets E d cwd path w) {k : OpenWs → M α} {r : Res CErr α} (he : Exec E f (M.bind (getWorkspace E cwd path) k) d r d') :
    ((∀ x, r ≠ .ok x) ∧ (PlainLink d cwd path → ∃ e, r = .err e)) ∧ d' = d := by
  rcases run_opens hs hout he with ⟨h1, h2, _⟩ | ⟨w, u, p, T, hF⟩
  · refine ⟨⟨h2, fun hpk => ?_⟩, h1⟩
    rcases run_cases hs hout hpk he with ⟨e, h1, _⟩ | ⟨w, u, p, T, hF⟩
    · exact ⟨e, h1⟩
    · exact absurd (gets_of_opens hF.opens) (hno w)
  · exact absurd (gets_of_opens hF.opens) (hno w)

/-- **C82, part.** A command in a directory that is no workspace changes nothing and does not succeed. It fails with an error,
unless what is at the path crashes the program (C44). -/
theorem C82_no_workspace_partial {d d' : Disk} (hd : Reachable E d) {cwd : Str} (hout : E.Outside (Path.abs cwd (lit ".")))
    (hno : ∀ w, ¬ Gets E d cwd (lit ".") w) :
    (∀ ci r, Exec E f (commitCmd E cwd ci) d r d' → ((∀ x, r ≠ .ok x) ∧ (PlainLink d cwd (lit ".") → ∃ e, r = .err e)) ∧ d' = d) ∧
    (∀ key r, Exec E f (checkoutCmd E cwd key) d r d' → ((∀ x, r ≠ .ok x) ∧ (PlainLink d cwd (lit ".") → ∃ e, r = .err e)) ∧ d' = d) ∧
    (∀ es r, Exec E f (editCmd E cwd es) d r d' → ((∀ x, r ≠ .ok x) ∧ (PlainLink d cwd (lit ".") → ∃ e, r = .err e)) ∧ d' = d) := by
  obtain ⟨g, hs⟩ := steady_reachable hd
  exact ⟨fun _ _ he => no_workspace hs hout hno he, fun _ _ he => no_workspace hs hout hno he, fun _ _ he => no_workspace hs hout hno he⟩

/-- **C82, part.** Neither does a clone of a directory that is no workspace. -/
theorem C82_no_source_partial {d d' : Disk} (hd : Reachable E d) {cwd source target : Str} (hout : E.Outside (Path.abs cwd source))
    (hno : ∀ w, ¬ Gets E d cwd source w) {r : Res CErr OpenWs} (he : Exec E f (cloneCmd E cwd source target) d r d') :
    ((∀ x, r ≠ .ok x) ∧ (PlainLink d cwd source → ∃ e, r = .err e)) ∧ d' = d := by
  obtain ⟨g, hs⟩ := steady_reachable hd
  exact no_workspace hs hout hno he

/-- **C82, part.** A checkout of something that does not exist changes nothing, whatever goes wrong, and does not succeed. It fails
with an error, unless the name crashes the program (C05). -/
theorem C82_checkout_partial {d d' : Disk} (hd : Reachable E d) {cwd key : Str} (hout : E.Outside (Path.abs cwd (lit "."))) {w : OpenWs}
    (hg : Gets E d cwd (lit ".") w) {u p : UID} (hh : w.ws.HeadAt w.tree u p) (hno : ∀ v kt, ¬ Ws.Resolves w.tree.abs w.ws.id p key v kt)
    {r : Res CErr (OpenWs × OpenWs)} (he : Exec E f (checkoutCmd E cwd key) d r d') :
    ((∀ x, r ≠ .ok x) ∧ (PlainKey key → ∃ e, r = .err e)) ∧ d' = d := by
  by_cases hk : PlainKey key
  rotate_left
  · exact ⟨⟨(checkout_odd hk he).2, fun h => absurd h hk⟩, (checkout_odd hk he).1⟩
  obtain ⟨g, hs⟩ := steady_reachable hd
  obtain ⟨T, hF⟩ := gets_found hs hout hg hh
  have hw : wpm E f (· = d) (checkoutCmd E cwd key) (fun _ _ => False) (fun _ d' => d' = d) d := by
    unfold checkoutCmd
    refine wpm_bind (wpm_weaken (getWorkspace_wp hF.opens) (fun _ h => h) (fun w0 d0 h0 => ?_) fun e d0 h0 => h0.1)
    obtain ⟨rfl, rfl⟩ := h0
    unfold checkoutP
    rcases Ws.search_spec (ε := Empty) (wf_of_reach (opens_reach hF.opens)) hF.opens.head hk with ⟨r0, o, kt, g1, g2, g3, g4⟩ | ⟨g1, g2⟩
    · exact absurd g4 (hno _ _)
    · exact wpm_bind (wpm_bind (wpm_lift_ok g1 (wpm_fail rfl)))
  have := wpm_exec hw he
  cases r with
  | ok x => exact this.elim
  | err e => exact ⟨⟨nofun, fun _ => ⟨e, rfl⟩⟩, this⟩
  | panic => exact this.elim
  | diverge => exact this.elim

/-- **C82, part.** A single change to branches and tags that is refused changes nothing. -/
theorem C82_edit_partial {d d' : Disk} (hd : Reachable E d) (hio : f.io = false) {cwd : Str} (hout : E.Outside (Path.abs cwd (lit "."))) {w : OpenWs}
    (hg : Gets E d cwd (lit ".") w) {u p : UID} (hh : w.ws.HeadAt w.tree u p) {e : Edit} {err : CErr}
    (he : Exec E f (editCmd E cwd [e]) d (.err err) d') : d' = d := by
  have hpl : e.Plain := (plain_of_refused he).resolve_right fun h => by
    obtain ⟨g, hs⟩ := steady_reachable hd
    obtain ⟨T, hF⟩ := gets_found hs hout hg hh
    have := (wpm_exec (getWorkspace_wp (f := f) hF.opens) h).2.2
    rw [hio] at this; cases this
  obtain ⟨g, hs⟩ := steady_reachable hd
  obtain ⟨T, hF⟩ := gets_found hs hout hg hh
  rcases wpm_exec (editCmd_wp (f := f) hF.opens (by simpa using hpl)) he with ⟨es1, e1, b, hpre, _, _, h3, _⟩ | h3
  · rcases h3 with h | h
    · exact h.2
    · have hlen := hpre.length_le
      simp only [List.length_append, List.length_cons, List.length_nil] at hlen
      exact absurd (List.length_eq_zero_iff.1 (by omega)) h.1
  · rw [hio] at h3; cases h3.2

/-- **C82, part.** `init` where there is a file or a directory with something in it changes nothing. -/
theorem C82_init_partial {d d' : Disk} {path branch : Str} (hoff : E.Off path) (hio : f.io = false) (h : d.user path = .file ∨ d.user path = .dir)
    {r : Res CErr OpenWs} (he : Exec E f (initCmd E path branch) d r d') : (∃ e, r = .err e) ∧ d' = d := by
  have := wpm_exec (init_occupied hoff hio h) he
  cases r with
  | ok x => exact this.elim
  | err e => exact ⟨⟨e, rfl⟩, this.2⟩
  | panic => exact this.elim
  | diverge => exact this.elim

/-! ## Refused with a trace -/

/-- **C82 does not hold.** A commit on a branch that does not exist in the workspace, or that cannot move to the new commit, is refused after a new layer and a new mount
directory have been made; nothing ever uses or removes them. -/
theorem C82_violated_commit {d d' : Disk} (hd : Reachable E d) {cwd : Str} (hout : E.Outside (Path.abs cwd (lit "."))) {w : OpenWs}
    (hg : Gets E d cwd (lit ".") w) {u p : UID} (hh : w.ws.HeadAt w.tree u p) (hno : ¬ MayCommit w u)
    {ci : CommitInfo} {r : Res CErr (OpenWs × OpenWs)} (he : Exec E Faults.none (commitCmd E cwd ci) d r d') :
    (∃ e, r = .err e) ∧ (∃ v, d.layer v = none ∧ d'.layer = upd d.layer v (some (some .empty))) ∧ (∃ n, d.mdir n = none ∧ d'.mdir = upd d.mdir n (some ⟨none, false⟩)) ∧
      d'.space = d.space ∧ d'.info = d.info ∧ d'.mnt = d.mnt ∧ d'.user = d.user := by
  obtain ⟨g, hs⟩ := steady_reachable hd
  obtain ⟨T, hF⟩ := gets_found hs hout hg hh
  rw [← follows_iff] at hno
  have hw : wpm E Faults.none (fun _ => True) (commitCmd E cwd ci) (fun _ _ => False) (fun _ d' =>
      (∃ v, d.layer v = none ∧ d'.layer = upd d.layer v (some (some .empty))) ∧ (∃ n, d.mdir n = none ∧ d'.mdir = upd d.mdir n (some ⟨none, false⟩)) ∧
      d'.space = d.space ∧ d'.info = d.info ∧ d'.mnt = d.mnt ∧ d'.user = d.user) d := by
    unfold commitCmd
    refine wpm_bind (wpm_weaken (getWorkspace_wp hF.opens) (fun _ _ => trivial) (fun w0 d0 h0 => ?_) fun e d0 h0 => (nomatch h0.2.2))
    obtain ⟨rfl, rfl⟩ := h0
    obtain ⟨s1, g1, g2, g3, ⟨o, g4, g5⟩, g6⟩ := setToNode_spec (opens_reach hF.opens) hh.1 ci
    have hA : ∀ x, s1.abs.Has x ↔ w0.tree.abs.Has x := fun x => by rw [g6, note_has, note_has]
    have hst : Stored d0 s1.abs := fun x hx => hF.opens.stored x ((hA x).1 hx)
    have hu : s1.abs.Has u := (abs_has_iff_get (wf_of_reach g2) u).2 ⟨_, g3⟩
    have hcp : commitP E w0 ci = (do
        let (s2, mount, head) ← createMount s1 o.id
        let s3 ← moveBranch s2 (Ws.branchInfo w0.ws) head
        saveAll E { w0 with tree := s3, mount := mount, ws := ⟨w0.ws.id, w0.ws.path, head, (Ws.branchInfo w0.ws).localName⟩ }) := by
      unfold commitP
      simp only [g1, g4]
    rw [hcp, g5]
    refine wpm_bind (wpm_bind (wpm_weaken (createMount_wp g2 hu hst) (fun _ _ => trivial) (fun q d1 h1 => ?_) fun e d1 h1 => absurd ⟨rfl, rfl, hs.tracked⟩ h1.2.2))
    obtain ⟨u', ls, hm⟩ := h1
    obtain ⟨s2, mo, r⟩ := q
    simp only at hm ⊢
    have hnode : s2.abs.node u' = some ⟨some u, fun _ => none, fun _ => none⟩ := by rw [hm.abs]; simp [ATree.add]
    have hhead : (⟨w0.ws.id, w0.ws.path, r, w0.ws.branch⟩ : Ws).HeadAt s2 u' u := ⟨hm.head, _, hnode, rfl⟩
    have hfol : Follows s2.abs w0.ws u ↔ Follows w0.tree.abs w0.ws u := by
      unfold Follows
      have e1 : s2.abs.branch = w0.tree.abs.branch := by rw [hm.abs, g6]; rfl
      have e2 : ∀ h, s2.abs.Anc h u ↔ w0.tree.abs.Anc h u := by
        intro h
        rw [hm.abs, add_anc (reach_rooted g2) hm.newNode hu, g6, note_anc, note_anc]
      simp only [e1, e2]
    refine wpm_bind (wpm_weaken (moveBranch_wp (I := fun _ => True) hm.reach hhead) (fun _ _ => trivial) (fun s3 d2 h2 => ?_) fun e d2 h2 => ?_)
    · exact absurd (hfol.1 h2.2.1) hno
    · obtain ⟨rfl, _⟩ := h2
      exact ⟨⟨u', hm.newLayer, hm.layer⟩, ⟨_, hm.newMdir, hm.mdir⟩, hm.space, hm.litter.info, hm.litter.mnt, hm.litter.user⟩
  have := wpm_exec hw he
  cases r with
  | ok x => exact this.elim
  | err e => exact ⟨⟨e, rfl⟩, this⟩
  | panic => exact this.elim
  | diverge => exact this.elim

/-- **C82 does not hold.** A clone to a directory with something in it, below a directory that does not exist, or to a link to a mount that is gone, is refused after the
history has got a new working layer and the new workspace has been recorded; both stay. -/
theorem C82_violated_clone {d d' : Disk} (hd : Reachable E d) {cwd source target : Str} (hout : E.Outside (Path.abs cwd source)) (hoff : E.Off target) {w : OpenWs}
    (hg : Gets E d cwd source w) {u p : UID} (hh : w.ws.HeadAt w.tree u p) {ls : List UID} (hls : w.tree.abs.Path p ls) (hfit : E.Fits ls.length)
    (h : d.user target = .dir ∨ d.user target = .noParent ∨ Stale E d target) {r : Res CErr OpenWs} (he : Exec E Faults.none (cloneCmd E cwd source target) d r d') :
    (∃ e, r = .err e) ∧ ∃ v n i s, d.layer v = none ∧ d'.layer v ≠ none ∧ d.mdir n = none ∧ d'.mdir n ≠ none ∧ d'.info n = some (Json.marshalInfo E.sh i) ∧ i.path = target ∧
      ¬ w.tree.abs.Has v ∧ d'.loads w.spaceDir = .ok s ∧ s.abs.Has v := by
  obtain ⟨g, hs⟩ := steady_reachable hd
  obtain ⟨T, hF⟩ := gets_found hs hout hg hh
  have hp := wpm_exec (cloneCmd_wp hF.opens hoff) he
  cases r with
  | ok x =>
    obtain ⟨u', ls', hC, hP, hnew, _, hL⟩ := hp
    have := hL.clear
    rw [hC.path] at this
    rcases h with h | h | ⟨id, h1, h2, h3⟩
    · exact absurd h this.1
    · exact absurd h this.2
    · refine absurd (hL.solid _ (fun e => ?_) (by rw [hC.path]; exact h2)) h3
      exact (hnew ⟨rfl, rfl, hs.tracked⟩).1 (base32_inj e ▸ h1)
  | err e =>
    refine ⟨⟨e, rfl⟩, ?_⟩
    cases hee : e.early with
    | true => exact absurd ⟨rfl, rfl, hs.tracked⟩ (hp.1 hee).2
    | false =>
      obtain ⟨_, h | ⟨w', u', ls', hC, hP, _, _, hL, _⟩⟩ := hp.2 hee
      · cases h
      · obtain ⟨c, _, hc⟩ := hL.upper
        obtain ⟨b, hb, hsp⟩ := hL.space
        have hSh : w'.tree.abs.Shallow := by
          rw [hC.tree]
          exact shallow_add (reach_rooted (opens_reach hF.opens)) (comesBack_shallow hF.back hF.shallow) hC.newNode hP (fits_small (by rw [Ws.path_unique hP hls]; exact hfit))
        obtain ⟨s, e1, _, e2⟩ := (load_saved hC.reach hb).1 hSh
        have hhas : w'.tree.abs.Has u' := by rw [hC.tree]; exact add_has.2 (Or.inl rfl)
        obtain ⟨n, hn⟩ := hhas
        obtain ⟨n', hn', _⟩ := e2.node _ _ hn
        refine ⟨u', w'.mount.id.base32, infoOf w' u', s, hL.newLayer, by rw [hc]; simp, hL.newMdir, hL.mdirNew, by rw [hL.info]; exact upd_self _ _ _, hC.path, hC.newNode, ?_, n', hn'⟩
        rw [← hC.spaceDir, Disk.loads, hsp, upd_self]
        exact e1
  | panic => exact hp.elim
  | diverge => exact hp.elim

/-- **C82 does not hold.** `init` below a directory that does not exist, or on a link to a mount that is gone, is refused after a new space with two layers has been made, and a workspace has been recorded for it. -/
theorem C82_violated_init {d d' : Disk} (hd : Reachable E d) {path branch : Str} (hoff : E.Off path) (h : d.user path = .noParent ∨ Stale E d path)
    {r : Res CErr OpenWs} (he : Exec E Faults.none (initCmd E path branch) d r d') :
    (∃ e, r = .err e) ∧ ∃ dir b n i v u, d.space dir = none ∧ d'.space dir = some (some b) ∧ d.mdir n = none ∧ d'.info n = some (Json.marshalInfo E.sh i) ∧ i.path = path ∧ u ≠ v ∧
      d.layer v = none ∧ d'.layer v ≠ none ∧ d.layer u = none ∧ d'.layer u ≠ none := by
  obtain ⟨g, hs⟩ := steady_reachable hd
  have hp := wpm_exec (initCmd_wp hoff) he
  cases r with
  | ok x =>
    obtain ⟨_, root, u', dp, hFo, hI, hnew, _, hL⟩ := hp
    have := hL.clear
    rw [hI.path, hFo.litter.user] at this
    rcases h with h | ⟨id, h1, h2, h3⟩
    · exact absurd h this.2
    · refine absurd (hL.solid _ (fun e => ?_) (by rw [hI.path, hFo.litter.user]; exact h2)) (by rw [hFo.mdir]; exact h3)
      exact (hnew ⟨rfl, rfl, hs.tracked⟩).1 (base32_inj e ▸ h1)
  | err e =>
    refine ⟨⟨e, rfl⟩, ?_⟩
    cases hee : e.early with
    | true =>
      rcases (hp.1 hee).2 with h1 | h1 | ⟨t, h1, _⟩
      · exact absurd ⟨rfl, rfl, hs.tracked⟩ h1
      · rcases h with h | ⟨id, _, h2, h3⟩
        · exact absurd (by rw [FreeFor, h]; trivial) h1
        · refine absurd ?_ h1
          rw [FreeFor, h2]
          intro n e hn
          rw [← mountPath_inj e] at hn
          exact absurd hn h3
      · rcases h with h | ⟨id, _, h2, h3⟩
        · rw [h] at h1; cases h1
        · rw [h2] at h1; cases h1; rename_i h4; exact absurd rfl (h4 _)
    | false =>
      obtain ⟨_, h1 | ⟨w', root, u', dp, hFo, hI, _, hL, _⟩⟩ := hp.2 hee
      · cases h1
      · obtain ⟨c, _, hc⟩ := hL.upper
        obtain ⟨b, hb, hsp⟩ := hL.space
        refine ⟨w'.spaceDir, b, w'.mount.id.base32, infoOf w' u', root, u', hFo.newSpace, by rw [hsp]; exact upd_self _ _ _, by rw [← hFo.mdir]; exact hL.newMdir,
          by rw [hL.info]; exact upd_self _ _ _, hI.path, hI.newNode, hFo.newLayer, ?_, ?_, by rw [hc]; simp⟩
        · rw [hL.layer root (Ne.symm hI.newNode), hFo.layer, upd_self]; simp
        · have := hL.newLayer
          rwa [hFo.layer, upd_ne _ _ hI.newNode] at this
  | panic => exact hp.elim
  | diverge => exact hp.elim

/-! ## C45: errors taken for answers -/

/-- **C45 does not hold for `init` if looking at the path can fail**, since `IsExists` takes every error for "nothing there": a run in which only this first look fails
makes a workspace, and the file that was at the path is gone. -/
theorem C45_violated_init {d : Disk} (hd : Reachable E d) (hu : d.used.length + 5 < 2 ^ 128) {path branch : Str} (hoff : E.Off path) (hfile : d.user path = .file)
    (hfit : E.Fits 1) (hio : f.io = true) :
    ∃ w d', Exec E f (initCmd E path branch) d (.ok w) d' ∧ d'.user path = .link (E.mountPath w.mount.id.base32) := by
  obtain ⟨g, hs⟩ := steady_reachable hd
  have hdr : Draws (α := Res CErr OpenWs) (M.bind (createWorkspace E path branch) fun w => M.bind (expand E w) fun _ => M.pure w) 5 :=
    draws_seq (m := 0) (createWorkspace_draws E path branch) fun w => draws_fix (expand_draws E w) fun _ => .ret
  obtain ⟨r, d', he⟩ := exec_total (E := E) (f := Faults.none) hdr d hu
  have hp := wpm_exec (createWorkspace_wp hoff) he
  have hx : ∀ w, r = .ok w → Exec E f (initCmd E path branch) d (.ok w) d' := by
    rintro w rfl
    exact Exec.op (c := .exists_ path) (x := false) ⟨rfl, Or.inr (Or.inr ⟨rfl, hio⟩)⟩ (exec_mono (none_le f) he)
  cases r with
  | ok w =>
    obtain ⟨root, u', dp, hFo, hI, _, _, hL⟩ := hp
    refine ⟨w, d', hx w rfl, ?_⟩
    rw [hL.user, hI.path]
    exact upd_self _ _ _
  | err e =>
    exfalso
    cases hee : e.early with
    | true => exact (hp.1 hee).2 ⟨rfl, rfl, hs.tracked⟩
    | false =>
      obtain ⟨_, h | ⟨w', root, u', dp, _, _, _, _, h | h⟩⟩ := hp.2 hee
      · cases h
      · exact h hfit
      · exact h (Or.inr (Or.inr (Or.inl hfile)))
  | panic => exact hp.elim
  | diverge => exact hp.elim

/-! ## C55: which `init` succeeds -/

/-- A path where `init` may make a workspace: nothing is there but the directory above, an empty directory, or a link to a mounted workspace without files. -/
inductive FreePath (E : Env) (d : Disk) (path : Str) : Prop where
  | nothing : d.user path = .none → FreePath E d path
  | empty : d.user path = .emptyDir → FreePath E d path
  | bare {n : Str} : d.user path = .link (E.mountPath n) → (∃ m c, d.mdir n = some m ∧ m.merged = some c) → (∀ x, d.shows n [x] = none) → FreePath E d path

/-- **C55.** On a working system `init` succeeds if and only if the path is free (and one layer fits into the mount options). -/
theorem C55_accepted_iff {d d' : Disk} (hd : Reachable E d) {path branch : Str} (hoff : E.Off path)
    (hlink : ∀ t, d.user path = .link t → ∃ id ∈ d.used, t = E.mountPath id.base32)
    {r : Res CErr OpenWs} (he : Exec E Faults.none (initCmd E path branch) d r d') : (∃ w, r = .ok w) ↔ FreePath E d path ∧ E.Fits 1 := by
  constructor
  · rintro ⟨w, rfl⟩
    obtain ⟨hfree, root, u', dp, hFo, hI, hnew, _, hL⟩ := wpm_exec (initCmd_wp hoff) he
    have hfree := hfree rfl
    have hc := hL.clear
    rw [hI.path, hFo.litter.user] at hc
    refine ⟨?_, hL.fits⟩
    unfold FreeFor at hfree
    cases hu : d.user path with
    | noParent => exact absurd hu hc.2
    | none => exact .nothing hu
    | emptyDir => exact .empty hu
    | dir => exact absurd hu hc.1
    | file => rw [hu] at hfree; exact hfree.elim
    | link t =>
      rw [hu] at hfree
      obtain ⟨id, h1, rfl⟩ := hlink t hu
      have hm := hL.solid _ (fun e => (hnew ⟨rfl, rfl, (steady_reachable hd).choose_spec.tracked⟩).1 (base32_inj e ▸ h1)) (by rw [hI.path, hFo.litter.user]; exact hu)
      rw [hFo.mdir] at hm
      exact .bare hu hm (hfree _ rfl hm)
  · rintro ⟨hf, hfit⟩
    refine C55_accepted hd hoff ?_ ?_ hfit he
    · unfold FreeFor
      cases hf with
      | nothing h => rw [h]; trivial
      | empty h => rw [h]; trivial
      | bare h _ h1 =>
        rw [h]
        intro n' hn' _ x
        rw [← mountPath_inj hn']
        exact h1 x
    · cases hf with
      | nothing h => exact Or.inl h
      | empty h => exact Or.inr (Or.inl h)
      | bare h h1 _ =>
        obtain ⟨m, c, h2⟩ := h1
        exact Or.inr (Or.inr (Or.inr ⟨_, m, c, h, h2⟩))

end
end Verif
