import Verif.Props.Moved
/-!
# How often a workspace can be committed to

Every commit adds a layer, and the directories of all layers of a workspace are in the options of its mount, which may not be longer than a page (C39). The
theorems below say after how many commits a workspace is full, and what a commit in a full workspace does.
-/
set_option autoImplicit false
namespace Verif
open M TS Json

/-- `n` commits in the directory `cwd` that succeed, one after the other, and any writes through any mounts in between. -/
inductive CommitsIn (E : Env) (f : Faults) (cwd : Str) : Nat → Disk → Disk → Prop where
  | none {d : Disk} : CommitsIn E f cwd 0 d d
  | write {n : Nat} {d d1 : Disk} {k : Str} {m : Mnt} (c : Content) : CommitsIn E f cwd n d d1 → d1.mnt k = some m → CommitsIn E f cwd n d (d1.put m.upper c)
  | commit {n : Nat} {d d1 d2 : Disk} {ci : CommitInfo} {x : OpenWs × OpenWs} : CommitsIn E f cwd n d d1 → Exec E f (commitCmd E cwd ci) d1 (.ok x) d2 →
      CommitsIn E f cwd (n + 1) d d2

/-- Any number of attempts to commit in the directory `cwd`, with whatever outcome. -/
inductive TriesIn (E : Env) (f : Faults) (cwd : Str) : Nat → Disk → Disk → Prop where
  | none {d : Disk} : TriesIn E f cwd 0 d d
  | commit {n : Nat} {d d1 d2 : Disk} {ci : CommitInfo} {r : Res CErr (OpenWs × OpenWs)} : TriesIn E f cwd n d d1 → Exec E f (commitCmd E cwd ci) d1 r d2 →
      TriesIn E f cwd (n + 1) d d2

/-- The workspace `w` at `cwd` with the working layer `u` on top of the layers `ls`: it follows its branch and its path leads to a mount that is there. -/
structure Committable (E : Env) (d : Disk) (cwd : Str) (w : OpenWs) (u : UID) (ls : List UID) : Prop where
  reach : Reachable E d
  out : E.Outside (Path.abs cwd (lit "."))
  gets : Gets E d cwd (lit ".") w
  head : ∃ p, w.ws.HeadAt w.tree u p
  path : w.tree.abs.Path u (u :: ls)
  may : MayCommit w u
  link : ∃ n m c, d.user w.ws.path = .link (E.mountPath n) ∧ d.mdir n = some m ∧ m.merged = some c

section
variable {E : Env} {f : Faults}

theorem fits_mono {a b : Nat} (h : a ≤ b) (hb : E.Fits b) : E.Fits a := by
  unfold Env.Fits at *
  have := Nat.mul_le_mul_right (((Path.comps E.root).map fun a => a.length + 1).sum + 41) h
  omega

/-- Writes change no workspace. -/
theorem committable_write {d : Disk} {cwd : Str} {w : OpenWs} {u : UID} {ls : List UID} (h : Committable E d cwd w u ls) {k : Str} {m : Mnt} (c : Content)
    (hm : d.mnt k = some m) : Committable E (d.put m.upper c) cwd w u ls := by
  obtain ⟨p, hh⟩ := h.head
  obtain ⟨g, hs⟩ := steady_reachable h.reach
  obtain ⟨T, hF⟩ := gets_found hs h.out h.gets hh
  have hr : Reachable E (d.put m.upper c) := reachable_next (f := Faults.none) h.reach rfl (a := .write k c) trivial (.write hm)
  have ho := hF.opens
  have e : ∀ v, d.layer v ≠ none → (∃ c, d.layer v = some (some c)) → ∃ c', (d.put m.upper c).layer v = some (some c') := by
    intro v _ ⟨c0, h0⟩
    unfold Disk.put
    split
    · by_cases e : v = m.upper
      · subst e; exact ⟨c, upd_self _ _ _⟩
      · exact ⟨c0, (upd_ne _ _ e).trans h0⟩
    · exact ⟨c0, h0⟩
  obtain ⟨e1, e2, e3⟩ := put_eqs d m.upper c
  have hu : (d.put m.upper c).user = d.user := by unfold Disk.put; split <;> rfl
  have hmd : (d.put m.upper c).mdir = d.mdir := by unfold Disk.put; split <;> rfl
  have hin : (d.put m.upper c).info = d.info := by unfold Disk.put; split <;> rfl
  have hsp : (d.put m.upper c).space = d.space := by unfold Disk.put; split <;> rfl
  refine ⟨hr, h.out, gets_of_opens ⟨ho.out, by rw [hu]; exact ho.link, ho.path, by rw [hin]; exact ho.info, ho.mount, ho.dir, by rw [hsp]; exact ho.tree, ho.head,
    fun v hv => ?_⟩, h.head, h.path, h.may, by rw [hu, hmd]; exact h.link⟩
  obtain ⟨c0, h0⟩ := ho.stored v hv
  exact e v (by rw [h0]; simp) ⟨c0, h0⟩

/-- After a commit the workspace is in the same situation with one layer more. -/
theorem committable_commit (hio : f.io = false) {d d' : Disk} {cwd : Str} {w : OpenWs} {u : UID} {ls : List UID} (h : Committable E d cwd w u ls) {ci : CommitInfo}
    {x : OpenWs × OpenWs} (he : Exec E f (commitCmd E cwd ci) d (.ok x) d') :
    E.Fits (u :: ls).length ∧ ∃ w' u', SameWs w w' ∧ Committable E d' cwd w' u' (u :: ls) ∧ d'.Mounted w' := by
  obtain ⟨p, hh⟩ := h.head
  obtain ⟨g, hs⟩ := steady_reachable h.reach
  obtain ⟨T, hF⟩ := gets_found hs h.out h.gets hh
  obtain ⟨_, _, u', ls', g', w', _, _, _, hP, ho, hid, hsp, hbr, hnew, htree, hfr, _⟩ := after_commit hs hF he
  obtain rfl := Ws.path_unique hP h.path
  have hEff : CommitEffect w.tree.abs w.ws u u' ci w'.tree.abs := by
    rw [htree]; obtain ⟨_, n, hn, _⟩ := hh; exact commitEffect ⟨n, hn⟩ hnew
  have hp' := commitEffect_path hEff h.path
  obtain ⟨n2, hn2⟩ : w'.tree.abs.Has u := by obtain ⟨_, n, _, h, _⟩ := hEff.commit; exact ⟨n, h⟩
  refine ⟨hfr.fits, w', u', ⟨hid, hbr, hsp⟩, ⟨reachable_next h.reach hio (a := .commit cwd ci) h.out (.commit he), h.out, gets_of_opens ho, ⟨u, ho.head⟩,
    .step hEff.next rfl hp', ?_, ?_⟩, by rw [Disk.Mounted, hfr.mnt]; simp⟩
  · by_cases hb : w.ws.branch = []
    · exact Or.inl (hbr.trans hb)
    · refine Or.inr ⟨u, ?_, .step hEff.next rfl (.refl hn2)⟩
      rw [hid, hbr]; exact hEff.moved hb
  · refine ⟨_, _, _, ?_, hfr.mdir, rfl⟩
    rw [ho.path, ← hF.opens.path]; exact hfr.link

theorem committable_all (hio : f.io = false) {n : Nat} {d d' : Disk} {cwd : Str} {w : OpenWs} {u : UID} {ls : List UID} (h : Committable E d cwd w u ls)
    (hc : CommitsIn E f cwd n d d') : ∃ w' u' ls', SameWs w w' ∧ Committable E d' cwd w' u' ls' ∧ ls'.length = ls.length + n ∧
      (d.Mounted w → d'.Mounted w') := by
  induction hc with
  | none => exact ⟨w, u, ls, ⟨rfl, rfl, rfl⟩, h, rfl, fun h => h⟩
  | write c _ hm ih =>
    obtain ⟨w', u', ls', a, b, e, k⟩ := ih h
    exact ⟨w', u', ls', a, committable_write b c hm, e, fun hx => by unfold Disk.put; split <;> exact k hx⟩
  | commit _ he ih =>
    obtain ⟨w1, u1, ls1, a, b, e, _⟩ := ih h
    obtain ⟨_, w', u', a', b', k⟩ := committable_commit hio b he
    exact ⟨w', u', _, ⟨a'.1.trans a.1, a'.2.1.trans a.2.1, a'.2.2.trans a.2.2⟩, b', by simp only [List.length_cons]; omega, fun _ => k⟩

/-- **C112.** A workspace in which nothing stands in the way of a commit, on top of `ls` layers. After any number `n` of commits there that succeed, with any writes in
between, the next one succeeds just if the options of a mount with all the layers fit. -/
theorem C112_next_iff (hio : f.io = false) {n : Nat} {d d1 d2 : Disk} {cwd : Str} {w : OpenWs} {u : UID} {ls : List UID} (h : Committable E d cwd w u ls)
    (hc : CommitsIn E f cwd n d d1) {ci : CommitInfo} {r : Res CErr (OpenWs × OpenWs)} (he : Exec E Faults.none (commitCmd E cwd ci) d1 r d2) :
    (∃ x, r = .ok x) ↔ E.Fits (ls.length + n + 1) := by
  obtain ⟨w1, u1, ls1, _, b, e, _⟩ := committable_all hio h hc
  obtain ⟨p, hh⟩ := b.head
  rw [← e]
  constructor
  · rintro ⟨x, rfl⟩
    exact (committable_commit (f := Faults.none) rfl b he).1
  · intro hfit
    exact (C28_accepted_iff b.reach b.out b.gets hh b.path hfit b.link he).2 b.may

/-- Two IDs are drawn for a commit. -/
theorem commitsIn_used {n : Nat} {d d' : Disk} {cwd : Str} (h : CommitsIn E f cwd n d d') : d'.used.length ≤ d.used.length + 2 * n := by
  induction h with
  | none => omega
  | @write _ _ d1 _ m c _ _ ih =>
    have : (d1.put m.upper c).used = d1.used := by unfold Disk.put; split <;> rfl
    rw [this]; exact ih
  | commit _ he ih => have := exec_used (commitCmd_draws E cwd _) he; omega

/-- **C112.** So `n` commits there are possible just if the options fit with the layers of the last of them (as long as IDs are left). -/
theorem C112_possible_iff {n : Nat} {d : Disk} {cwd : Str} {w : OpenWs} {u : UID} {ls : List UID} (h : Committable E d cwd w u ls)
    (hu : d.used.length + 2 * (n + 1) < 2 ^ 128) : (∃ d', CommitsIn E Faults.none cwd (n + 1) d d') ↔ E.Fits (ls.length + n + 1) := by
  constructor
  · rintro ⟨d', hc⟩
    generalize hk : n + 1 = k at hc
    induction hc with
    | none => cases hk
    | write _ _ _ ih => exact ih h hu hk
    | commit hc he _ =>
      cases hk
      exact (C112_next_iff (f := Faults.none) rfl h hc he).1 ⟨_, rfl⟩
  · intro hfit
    suffices hx : ∀ k, k ≤ n + 1 → ∃ d', CommitsIn E Faults.none cwd k d d' ∧ d'.used.length ≤ d.used.length + 2 * k by
      obtain ⟨d', h1, _⟩ := hx (n + 1) (Nat.le_refl _)
      exact ⟨d', h1⟩
    intro k
    induction k with
    | zero => intro _; exact ⟨d, .none, by omega⟩
    | succ k ih =>
      intro hk
      obtain ⟨d1, h1, h2⟩ := ih (by omega)
      obtain ⟨r, d2, he⟩ := exec_total (E := E) (f := Faults.none) (commitCmd_draws E cwd ⟨[], []⟩) d1 (by omega)
      obtain ⟨x, rfl⟩ := (C112_next_iff rfl h h1 he).2 (fits_mono (by omega) hfit)
      exact ⟨d2, .commit h1 he, by have := exec_used (commitCmd_draws E cwd _) he; omega⟩

/-- **C112.** In a new workspace, below the default data directory: 64 commits succeed, and the next one fails. -/
theorem C112_new {n : Nat} {d d0 d1 d2 : Disk} (hd : Reachable E d) (hroot : E.root = lit "/var/lib/stackcrisp") (hio : f.io = false) {cwd branch : Str}
    (hout : E.Outside (Path.abs cwd (lit "."))) {w : OpenWs} (hi : Exec E f (initCmd E (Path.abs cwd (lit ".")) branch) d (.ok w) d0)
    (hc : CommitsIn E f cwd n d0 d1) {ci : CommitInfo} {r : Res CErr (OpenWs × OpenWs)} (he : Exec E Faults.none (commitCmd E cwd ci) d1 r d2) :
    (∃ x, r = .ok x) ↔ n < 64 := by
  obtain ⟨g, hs⟩ := steady_reachable hd
  obtain ⟨root, u, dp, g', w2, _, _, _, _, hne, ho, _, hbr, htree, hfr, _⟩ := after_init hs hout hi
  have hN := newHistory (wid := w2.ws.id) (branch := sanitize branch) hne
  rw [← htree] at hN
  have hC : Committable E d0 cwd w2 u [root] := by
    obtain ⟨_, n, hn, hpp⟩ := ho.head
    refine ⟨reachable_next hd hio (a := .init _ branch) (off_of_outside hout) (.init hi), hout, gets_of_opens ho, ⟨root, ho.head⟩, .step hn hpp (.root hN.first rfl), ?_,
      ⟨_, _, _, by rw [ho.path]; exact hfr.link, hfr.mdir, rfl⟩⟩
    by_cases hb : w2.ws.branch = []
    · exact Or.inl hb
    · exact Or.inr ⟨root, by rw [htree, hbr]; simp [ATree.setBranch], .step hn hpp (.refl hN.first)⟩
  rw [C112_next_iff hio hC hc he]
  unfold Env.Fits
  have : ((Path.comps E.root).map fun a => a.length + 1).sum = 19 := by rw [hroot]; decide
  rw [this]
  simp only [List.length_cons, List.length_nil]
  omega

/-- **C112 (violated).** A commit in a full workspace fails, whatever else goes well or wrong. -/
theorem C112_violated_full {d d' : Disk} (hd : Reachable E d) {cwd : Str} (hout : E.Outside (Path.abs cwd (lit "."))) {w : OpenWs} (hg : Gets E d cwd (lit ".") w)
    {u p : UID} (hh : w.ws.HeadAt w.tree u p) {ls : List UID} (hls : w.tree.abs.Path u ls) (hno : ¬ E.Fits ls.length) {ci : CommitInfo}
    {r : Res CErr (OpenWs × OpenWs)} (he : Exec E f (commitCmd E cwd ci) d r d') : ∃ e, r = .err e := by
  obtain ⟨g, hs⟩ := steady_reachable hd
  obtain ⟨T, hF⟩ := gets_found hs hout hg hh
  cases r with
  | ok x =>
    obtain ⟨_, _, _, ls', _, _, _, _, _, hP, _, _, _, _, _, _, hfr, _⟩ := after_commit hs hF he
    obtain rfl := Ws.path_unique hP hls
    exact absurd hfr.fits hno
  | err e => exact ⟨e, rfl⟩
  | panic => exact (wpm_exec (commitCmd_wp (f := f) (ci := ci) hF.opens hF.mdir) he).elim
  | diverge => exact (wpm_exec (commitCmd_wp (f := f) (ci := ci) hF.opens hF.mdir) he).elim

/-- A mount that is kept shows the same files if no layer of the workspace has changed. -/
theorem lists_unchanged {d d' : Disk} {g : Str → Option TS} (hs : Steady E d g) {cwd path : Str} {w w2 : OpenWs} {u p : UID} {T : TS} (hF : Found E d g cwd path w u p T)
    (hid : w2.mount.id = w.mount.id) (hm : d'.mnt w.mount.id.base32 = d.mnt w.mount.id.base32) (hl : ∀ v, d.layer v ≠ none → d'.layer v = d.layer v)
    (hmo : d.Mounted w) : d'.lists w2 = d.lists w := by
  cases hx : d.mnt w.mount.id.base32 with
  | none => exact absurd hx hmo
  | some m =>
    obtain ⟨e1, e2⟩ := mnt_of_found hs hF hx
    rw [lists_mounted hx, lists_mounted (w := w2) (m := m) (by rw [hid, hm]; exact hx)]
    congr 1
    refine List.map_congr_left fun v hv => ?_
    have hst : d.HasDiff v := by
      rcases List.mem_cons.1 hv with rfl | hv
      · obtain ⟨_, n, hn, _⟩ := hF.opens.head
        rw [e1]; exact hF.opens.stored u ⟨n, hn⟩
      · exact path_stored hF.opens e2 v hv
    obtain ⟨c, hc⟩ := hst
    simp only [Disk.content, hl v (by rw [hc]; simp)]

/-- **C112 (violated).** What the failed commit leaves: the workspace is as it was, on the same layers, with the same mount and the same files; but if the workspace
follows its branch, the commit is in the history, and the branch points to it. So the next attempt fails again. -/
theorem C112_violated_left {d d' : Disk} (hd : Reachable E d) (hio : f.io = false) {cwd : Str} (hout : E.Outside (Path.abs cwd (lit "."))) {w : OpenWs}
    (hg : Gets E d cwd (lit ".") w) {u p : UID} (hh : w.ws.HeadAt w.tree u p) {ls : List UID} (hls : w.tree.abs.Path u ls) (hno : ¬ E.Fits ls.length)
    (hl : ls.length ≤ 97) {ci : CommitInfo} {r : Res CErr (OpenWs × OpenWs)} (he : Exec E f (commitCmd E cwd ci) d r d') :
    ∃ w2, Gets E d' cwd (lit ".") w2 ∧ SameWs w w2 ∧ w2.mount.id = w.mount.id ∧ w2.ws.HeadAt w2.tree u p ∧ w2.tree.abs.Path u ls ∧
      d'.user = d.user ∧ d'.mnt w.mount.id.base32 = d.mnt w.mount.id.base32 ∧ (d.Mounted w → d'.lists w2 = d.lists w) ∧
      (MayCommit w u → MayCommit w2 u ∧ (f.rep = false → ∃ u', CommitEffect w.tree.abs w.ws u u' ci w2.tree.abs)) := by
  obtain ⟨g, hs⟩ := steady_reachable hd
  obtain ⟨T, hF⟩ := gets_found hs hout hg hh
  obtain ⟨e, rfl⟩ := C112_violated_full hd hout hg hh hls hno he
  have hp := wpm_exec (commitCmd_wp (f := f) (ci := ci) hF.opens hF.mdir) he
  have ho := hF.opens
  cases hee : e.early with
  | true =>
    obtain ⟨hL, hno2⟩ := hp.1 hee
    have ho' : Opens E d' cwd (lit ".") w u p := by
      refine ⟨ho.out, by rw [hL.user]; exact ho.link, ho.path, by rw [hL.info]; exact ho.info, ho.mount, ho.dir, ?_, ho.head, litter_stored hL ho.stored⟩
      obtain ⟨T, b, t1, t2, t3, t4⟩ := ho.tree
      exact ⟨T, b, t1, t2, by rw [litter_space_eq hL (by rw [t3]; simp)]; exact t3, t4⟩
    refine ⟨w, gets_of_opens ho', ⟨rfl, rfl, rfl⟩, rfl, hh, hls, hL.user, by rw [hL.mnt], lists_unchanged hs hF rfl (by rw [hL.mnt]) fun v hv => litter_layer_eq hL hv,
      fun hmay => ⟨hmay, fun hrep => ?_⟩⟩
    rcases hno2 with h | h
    · exact absurd ⟨hio, hrep, hs.tracked⟩ h
    · exact absurd (follows_iff.2 hmay) h
  | false =>
    obtain ⟨hfo, hM, hh2⟩ := hp.2 hee
    rcases hh2 with h | ⟨w', u', ls', hC, hP, ⟨hL, _⟩ | ⟨d1, hL, _⟩⟩
    · rw [hio] at h; cases h
    · obtain rfl := Ws.path_unique hP hls
      have huser : d'.user w.ws.path = d.user w.ws.path := by
        rcases hM.entry with h | ⟨_, w3, u3, b, mt, n1, _, _, _, _, _, _, _, _, n8, n9, _⟩
        · exact h
        · exfalso
          have h3 : w3.tree.abs.Path u3 (u3 :: ls') := by
            obtain ⟨_, n, hn, hpp⟩ := n1.head
            refine .step hn hpp ?_
            rw [n1.tree]
            exact extends_path (extends_commit (S := fun _ => True) trivial n1.newNode) hls
          have h4 := Ws.path_unique n9 h3
          simp only [List.cons.injEq, true_and] at h4
          rw [h4] at n8
          exact hno n8
      have hall : d'.user = d.user := by
        funext x
        by_cases hx : x = w.ws.path
        · subst hx; exact huser
        · exact hM.user x hx
      have hne : w.mount.id.base32 ≠ w'.mount.id.base32 := by intro e; exact hF.mdir (by rw [e]; exact hL.newMdir)
      have hinfo : d'.info w.mount.id.base32 = d.info w.mount.id.base32 := by rw [hL.info]; exact upd_ne _ _ hne
      have hmnt : d'.mnt w.mount.id.base32 = d.mnt w.mount.id.base32 := hL.mnt _ hne
      have hsg := steady_moved hs hF hL hC.spaceID hC.spaceDir hC.reach (by rw [hC.tree]; exact extends_commit (found_head hs hF) hC.newNode)
        (by rw [hC.tree]; exact nodeKeys_commit (nodeKeys_back hF.back)) (fun v hv => by rw [hC.tree] at hv; exact commit_has hv) (headAt_below hC.head) hP
      have hSh : w'.tree.abs.Shallow := by
        rw [hC.tree]
        exact shallow_commit (opens_reach hF.opens) (comesBack_shallow hF.back hF.shallow) hC.newNode hP hl
      obtain ⟨r, r1, r2, r3, r4, r5, r6⟩ := rec_of_opens hs hF.opens
      obtain ⟨_, nu, hnu, _⟩ := hh
      have hx : Extends (fun _ => True) w.tree.abs w'.tree.abs := by rw [hC.tree]; exact extends_commit trivial hC.newNode
      obtain ⟨w2, q, o, a1, a2, a3, a4, a5, a6⟩ := reopen (r := r) (T := w'.tree) hsg.1 hout (by rw [hall, r4]; exact hF.opens.link) (by rw [r4, hinfo]; exact r1)
        (by rw [r3, ← hF.opens.dir]; exact upd_self _ _ _) hSh (by rw [r5]; exact extends_has hx ⟨nu, hnu⟩)
      rw [r5] at o a6
      have hq : q = p := by
        obtain ⟨n, b1, b2⟩ := extends_below hx hF.opens.head.2
        obtain ⟨n', c1, c2⟩ := a6
        rw [b1] at c1; cases c1
        rw [b2] at c2; simpa using c2.symm
      subst hq
      have hu8 := comesBack_is_utf8 hF.back
      have htree : w2.tree.abs = w.tree.abs.commit w.ws.onBranch u u' (sanitize ci.date) (sanitize ci.message) := by
        rw [hC.tree] at a5
        have hn : (w.tree.abs.commit w.ws.onBranch u u' ci.date ci.message).Named := by
          refine named_commit (utf8_named hu8) fun x hx => ?_
          obtain ⟨hd, hb, _⟩ := hfo x hx
          exact hu8.branch x hd hb
        rw [comesBack_named a5 hn, tidy_commit, tidy_utf8 hu8]
      have hEff : CommitEffect w.tree.abs w.ws u u' ci w2.tree.abs := by rw [htree]; exact commitEffect ⟨nu, hnu⟩ hC.newNode
      have hid : w2.ws.id = w.ws.id := a1.trans r2
      have hbr : w2.ws.branch = w.ws.branch := a4.trans r6
      refine ⟨w2, gets_of_opens o, ⟨hid, hbr, a2.trans r3⟩, a3.trans r4, o.head, commitEffect_path hEff hls, hall, hmnt,
        lists_unchanged hs hF (a3.trans r4) hmnt fun v hv => hL.layer v fun e => hv (by rw [e]; exact hL.newLayer), fun _ => ⟨?_, fun _ => ⟨u', hEff⟩⟩⟩
      by_cases hb : w.ws.branch = []
      · exact Or.inl (hbr.trans hb)
      · obtain ⟨n2, hn2⟩ : w2.tree.abs.Has u := by obtain ⟨_, n, _, h, _⟩ := hEff.commit; exact ⟨n, h⟩
        refine Or.inr ⟨u, ?_, .refl hn2⟩
        rw [hid, hbr]; exact hEff.moved hb
    · rw [Ws.path_unique hP hls] at hL
      exact absurd hL.fits hno

/-- **C112 (violated).** However often it is tried: every attempt fails, and the workspace stays as it is. -/
theorem C112_violated_always {n : Nat} {d d' : Disk} (hd : Reachable E d) (hio : f.io = false) {cwd : Str} (hout : E.Outside (Path.abs cwd (lit "."))) {w : OpenWs}
    (hg : Gets E d cwd (lit ".") w) {u p : UID} (hh : w.ws.HeadAt w.tree u p) {ls : List UID} (hls : w.tree.abs.Path u ls) (hno : ¬ E.Fits ls.length)
    (hl : ls.length ≤ 97) (ht : TriesIn E f cwd n d d') :
    (∃ w2, Reachable E d' ∧ Gets E d' cwd (lit ".") w2 ∧ SameWs w w2 ∧ w2.ws.HeadAt w2.tree u p ∧ w2.tree.abs.Path u ls ∧ (d.Mounted w → d'.Mounted w2 ∧ d'.lists w2 = d.lists w)) ∧
    ∀ ci x d2, ¬ Exec E f (commitCmd E cwd ci) d' (.ok x) d2 := by
  suffices hx : ∃ w2, Reachable E d' ∧ Gets E d' cwd (lit ".") w2 ∧ SameWs w w2 ∧ w2.ws.HeadAt w2.tree u p ∧ w2.tree.abs.Path u ls ∧
      (d.Mounted w → d'.Mounted w2 ∧ d'.lists w2 = d.lists w) by
    refine ⟨hx, fun ci x d2 he => ?_⟩
    obtain ⟨w2, k1, k2, _, k4, k5, _⟩ := hx
    obtain ⟨_, h⟩ := C112_violated_full k1 hout k2 k4 k5 hno he
    cases h
  induction ht with
  | none => exact ⟨w, hd, hg, ⟨rfl, rfl, rfl⟩, hh, hls, fun h => ⟨h, rfl⟩⟩
  | commit _ he ih =>
    obtain ⟨w1, k1, k2, k3, k4, k5, k6⟩ := ih hd hg
    obtain ⟨w2, j1, j2, j3, j4, j5, _, j7, j8, _⟩ := C112_violated_left k1 hio hout k2 k4 k5 hno hl he
    refine ⟨w2, reachable_next k1 hio (a := .commit cwd _) hout (.commit he), j1, ⟨j2.1.trans k3.1, j2.2.1.trans k3.2.1, j2.2.2.trans k3.2.2⟩, j4, j5, fun hm => ?_⟩
    obtain ⟨m1, m2⟩ := k6 hm
    exact ⟨by rw [Disk.Mounted, j3, j7]; exact m1, (j8 m1).trans m2⟩

/-- **C112 (violated).** And the commit is not finished: the workspace goes on writing into it. -/
theorem C112_violated_written {d d' : Disk} (hd : Reachable E d) (hio : f.io = false) (hrep : f.rep = false) {cwd : Str} (hout : E.Outside (Path.abs cwd (lit ".")))
    {w : OpenWs} (hg : Gets E d cwd (lit ".") w) (hm : d.Mounted w) {u p : UID} (hh : w.ws.HeadAt w.tree u p) (hmay : MayCommit w u) {ls : List UID}
    (hls : w.tree.abs.Path u ls) (hno : ¬ E.Fits ls.length) (hl : ls.length ≤ 97) {ci : CommitInfo} {r : Res CErr (OpenWs × OpenWs)}
    (he : Exec E f (commitCmd E cwd ci) d r d') (c : Content) :
    ∃ w2 m d2, Gets E d' cwd (lit ".") w2 ∧ SameWs w w2 ∧ (∃ n, w2.tree.abs.node u = some n ∧ n.anno (lit "commit-message") = some (sanitize ci.message)) ∧
      (w.ws.branch ≠ [] → w2.tree.abs.branch (w2.ws.id.base32 ++ lit "/" ++ w2.ws.branch) = some u) ∧
      d'.mnt w2.mount.id.base32 = some m ∧ Happens E f (.write w2.mount.id.base32 c) d' d2 ∧ Gets E d2 cwd (lit ".") w2 ∧ d2.content u = c := by
  obtain ⟨w2, j1, j2, j3, j4, j5, _, j7, _, j9⟩ := C112_violated_left hd hio hout hg hh hls hno hl he
  obtain ⟨_, j10⟩ := j9 hmay
  obtain ⟨u', hE⟩ := j10 hrep
  have hd' : Reachable E d' := reachable_next hd hio (a := .commit cwd ci) hout (.commit he)
  obtain ⟨g, hs⟩ := steady_reachable hd'
  obtain ⟨T, hF⟩ := gets_found hs hout j1 j4
  have hmo : d'.mnt w2.mount.id.base32 ≠ none := by rw [j3, j7]; exact hm
  obtain ⟨m, hx⟩ := Option.ne_none_iff_exists'.1 hmo
  obtain ⟨e1, _⟩ := mnt_of_found hs hF hx
  have hst : d'.HasDiff u := by
    obtain ⟨_, n, hn, _⟩ := j4
    exact hF.opens.stored u ⟨n, hn⟩
  obtain ⟨c0, hc0⟩ := hst
  obtain ⟨_, n', _, q1, _, _, _, q2, _⟩ := hE.commit
  have hput : d'.put m.upper c = d'.setLayer u (some (some c)) := by rw [e1]; simp only [Disk.put, hc0]
  have ho := hF.opens
  refine ⟨w2, m, d'.put m.upper c, j1, j2, ⟨n', q1, q2⟩, fun hb => ?_, hx, .write hx, ?_, ?_⟩
  · rw [j2.1, j2.2.1]; exact hE.moved hb
  · rw [hput]
    refine gets_of_opens ⟨ho.out, ho.link, ho.path, ho.info, ho.mount, ho.dir, ho.tree, ho.head, fun v hv => ?_⟩
    by_cases e : v = u
    · subst e; exact ⟨c, upd_self _ _ _⟩
    · obtain ⟨c', hc'⟩ := ho.stored v hv; exact ⟨c', (upd_ne _ _ e).trans hc'⟩
  · rw [hput]; simp [Disk.content, Disk.setLayer]

/-- **C112 (violated).** What such a commit holds is out of reach: whatever is done later, in whatever workspace of the space, and by whatever reference, nobody can check
it out. -/
theorem C112_violated_lost {d d2 d3 : Disk} (hd : Reachable E d) {cwd path : Str} (hout : E.Outside (Path.abs cwd path)) {w : OpenWs} (hg : Gets E d cwd path w)
    {v : UID} {ls : List UID} (hv : w.tree.abs.Path v ls) (hno : ¬ E.Fits ls.length) {f2 : Faults} (hio : f2.io = false)
    (hp : Past E f2 d d2) {cwd' key : Str} (hout' : E.Outside (Path.abs cwd' (lit "."))) {w' : OpenWs} (hg' : Gets E d2 cwd' (lit ".") w')
    (hsp : w'.spaceID = w.spaceID) {u p : UID} (hh : w'.ws.HeadAt w'.tree u p) {kt : KeyType} (hR : Ws.Resolves w'.tree.abs w'.ws.id p key v kt) (x : OpenWs × OpenWs) :
    w'.tree.abs.Path v ls ∧ ¬ Exec E f (checkoutCmd E cwd' key) d2 (.ok x) d3 := by
  obtain ⟨g, hs⟩ := steady_reachable hd
  obtain ⟨u0, p0, T, hF⟩ := found_of_gets hs hout hg
  obtain ⟨g2, s2, k2⟩ := steady_past hio hs hp
  obtain ⟨T', hF'⟩ := gets_found s2 hout' hg' hh
  have hn : w'.spaceDir = w.spaceDir := by rw [hF'.opens.dir, hF.opens.dir, hsp]
  obtain ⟨T2, c2, c3⟩ := k2.trees _ T hF.tree
  obtain rfl : T' = T2 := by have := hF'.tree; rw [hn, c2] at this; exact (Option.some.inj this).symm
  have hpath' := path_back hF'.back (extends_path c3 (comesBack_path hF.back hv))
  refine ⟨hpath', fun he => ?_⟩
  obtain ⟨_, v', kt', _, ls', _, _, b1, _, _, _, b5, _, _, _, _, _, _, b12⟩ := after_checkout s2 hF' he
  obtain ⟨rfl, _⟩ := Ws.resolves_unique b1 hR
  rw [Ws.path_unique b5 hpath'] at b12
  exact hno b12.fits

end
end Verif
