import Verif.Props.Initial
/-!
# Commands of one space, one after another and at the same time (C43)
-/
set_option autoImplicit false
namespace Verif
open M TS Json

section
variable {E : Env} {f : Faults}

/-! ## Running one process of the system -/

theorem prog_bind_assoc {α β γ : Type} (p : Prog α) (g : α → Prog β) (h : β → Prog γ) : (p.bind g).bind h = p.bind fun a => (g a).bind h := by
  induction p with
  | ret a => rfl
  | op c k ih => simp only [Prog.bind, ih]

theorem prog_bind_ret {α : Type} (p : Prog α) : p.bind .ret = p := by
  induction p with
  | ret a => rfl
  | op c k ih => simp only [Prog.bind, ih]

/-- A process runs the first part of its program while all others wait. -/
theorem steps_bind {α : Type} {x : Prog α} {d d1 : Disk} {a : α} (h : Exec E f x d a d1) (K : α → Prog (Res CErr Out)) (procs : Nat → Option Proc) (i : Nat)
    (st : Disk) (tr : Trace) :
    ∃ tr', Sys.Steps E f ⟨d, upd procs i (some ⟨st, tr, x.bind K⟩)⟩ ⟨d1, upd procs i (some ⟨st, tr', K a⟩)⟩ := by
  induction h generalizing tr with
  | ret a d => exact ⟨tr, .refl _⟩
  | @op c k d d2 d3 y a hs _ ih =>
    obtain ⟨tr', h'⟩ := ih (⟨c, y⟩ :: tr)
    refine ⟨tr', Sys.Steps.trans (.step (.refl _) ?_) h'⟩
    have := Sys.Next.run (E := E) (f := f) (w := ⟨d, upd procs i (some ⟨st, tr, .op c fun z => (k z).bind K⟩)⟩) (i := i) (upd_self _ _ _) rfl hs
    rwa [show ∀ q, upd (upd procs i (some ⟨st, tr, .op c fun z => (k z).bind K⟩)) i q = upd procs i q from fun q => upd_upd _ _ _ _] at this

theorem steps_exec {p : Prog (Res CErr Out)} {d d1 : Disk} {r : Res CErr Out} (h : Exec E f p d r d1) (procs : Nat → Option Proc) (i : Nat) (st : Disk) (tr : Trace) :
    ∃ tr', Sys.Steps E f ⟨d, upd procs i (some ⟨st, tr, p⟩)⟩ ⟨d1, upd procs i (some ⟨st, tr', .ret r⟩)⟩ := by
  have := steps_bind h .ret procs i st tr
  rwa [prog_bind_ret] at this

theorem steps_mbind {α : Type} {x : M α} {d d1 : Disk} {a : α} (h : Exec E f x d (.ok a) d1) (k : α → M Out) (procs : Nat → Option Proc) (i : Nat) (st : Disk)
    (tr : Trace) : ∃ tr', Sys.Steps E f ⟨d, upd procs i (some ⟨st, tr, M.bind x k⟩)⟩ ⟨d1, upd procs i (some ⟨st, tr', k a⟩)⟩ :=
  steps_bind h _ procs i st tr

theorem mbind_assoc {α β γ : Type} (x : M α) (g : α → M β) (h : β → M γ) : M.bind (M.bind x g) h = M.bind x fun a => M.bind (g a) h := by
  refine (prog_bind_assoc (α := Res CErr α) (β := Res CErr β) (γ := Res CErr γ) x _ _).trans ?_
  refine congrArg (Prog.bind (α := Res CErr α) (β := Res CErr γ) x) ?_
  funext r
  cases r <;> rfl

/-- The command of process `i` is done and was successful. -/
def Succeeded (w : World) (i : Nat) : Prop := ∃ p o, w.procs i = some p ∧ p.prog = .ret (.ok o)

/-! ## C43 -/

theorem loads_same {d : Disk} {cwd1 path1 cwd2 path2 : Str} {w1 w2 : OpenWs} (ho1 : E.Outside (Path.abs cwd1 path1)) (ho2 : E.Outside (Path.abs cwd2 path2))
    (h1 : Gets E d cwd1 path1 w1) (h2 : Gets E d cwd2 path2 w2) (hd : w1.spaceDir = w2.spaceDir) : w1.tree = w2.tree := by
  obtain ⟨_, _, a⟩ := gets_reads ho1 h1
  obtain ⟨_, _, b⟩ := gets_reads ho2 h2
  rw [hd, b] at a
  simpa using a.symm

/-- **C43 (violated).** Take any two workspaces of one space that may both commit. One command opens its workspace, the other
commits from beginning to end, then the first goes on. Both report success. Afterwards the second workspace cannot be opened any
more, and the history, as the first workspace has it, is what it would be if the second commit had never been made: its working
layer is not in it, and its message and date are not either. -/
theorem C43_violated_overlap {d : Disk} (hd : Reachable E d) (hu : d.used.length + 4 < 2 ^ 128) {cwd1 cwd2 : Str} (hout1 : E.Outside (Path.abs cwd1 (lit ".")))
    (hout2 : E.Outside (Path.abs cwd2 (lit "."))) {w1 w2 : OpenWs} (hg1 : Gets E d cwd1 (lit ".") w1) (hg2 : Gets E d cwd2 (lit ".") w2)
    (hspace : w1.spaceID = w2.spaceID) (hmount : w1.mount.id ≠ w2.mount.id) {u1 p1 u2 p2 : UID} (hh1 : w1.ws.HeadAt w1.tree u1 p1) (hh2 : w2.ws.HeadAt w2.tree u2 p2)
    (hmay1 : MayCommit w1 u1) (hmay2 : MayCommit w2 u2) {ls1 ls2 : List UID} (hls1 : w1.tree.abs.Path u1 ls1) (hls2 : w2.tree.abs.Path u2 ls2)
    (hfit1 : E.Fits ls1.length) (hfit2 : E.Fits ls2.length)
    (hlink1 : d.user w1.ws.path = .link (E.mountPath w1.mount.id.base32)) (hm1 : ∃ m c, d.mdir w1.mount.id.base32 = some m ∧ m.merged = some c)
    (hlink2 : d.user w2.ws.path = .link (E.mountPath w2.mount.id.base32)) (hm2 : ∃ m c, d.mdir w2.mount.id.base32 = some m ∧ m.merged = some c)
    (ci1 ci2 : CommitInfo) :
    ∃ W, Sys.Steps E Faults.none ⟨d, fun _ => none⟩ W ∧ Succeeded W 0 ∧ Succeeded W 1 ∧
      (∀ w, ¬ Gets E W.disk cwd2 (lit ".") w) ∧
      ∃ w1' u1', Gets E W.disk cwd1 (lit ".") w1' ∧ SameWs w1 w1' ∧ w1'.ws.HeadAt w1'.tree u1' u1 ∧ CommitEffect w1.tree.abs w1.ws u1 u1' ci1 w1'.tree.abs ∧
        w1'.tree.abs.node u2 = w2.tree.abs.node u2 := by
  obtain ⟨g, hs⟩ := steady_reachable hd
  obtain ⟨T1, hF1⟩ := gets_found hs hout1 hg1 hh1
  obtain ⟨T2, hF2⟩ := gets_found hs hout2 hg2 hh2
  have hdirs : w1.spaceDir = w2.spaceDir := by rw [hF1.opens.dir, hF2.opens.dir, hspace]
  have htree := loads_same hout1 hout2 hg1 hg2 hdirs
  have hmne : w1.mount.id.base32 ≠ w2.mount.id.base32 := fun e => hmount (base32_inj e)
  have hpne : w1.ws.path ≠ w2.ws.path := by
    intro e
    rw [e, hlink2] at hlink1
    have a := leads_mountPath (E := E) [] [] w1.mount.id
    have b := leads_mountPath (E := E) [] [] w2.mount.id
    rw [← UEnt.link.inj hlink1, b] at a
    exact hmount (by simpa using a.symm)
  have hune : u2 ≠ u1 := by
    rintro rfl
    obtain ⟨r1, a1, _, _, _, a5, _⟩ := rec_of_opens hs hF1.opens
    obtain ⟨r2, b1, _, _, _, b5, _⟩ := rec_of_opens hs hF2.opens
    exact hmne (hs.heads _ _ _ _ a1 b1 (a5.trans b5.symm))
  -- the second command, from beginning to end
  obtain ⟨r2, d1, he2⟩ := exec_total (E := E) (f := Faults.none) (commitCmd_draws E cwd2 ci2) d (by omega)
  obtain ⟨m2, c2, hm2, hc2⟩ := hm2
  obtain ⟨x2, rfl⟩ := (C28_accepted_iff hd hout2 hg2 hh2 hls2 hfit2 ⟨_, _, _, hlink2, hm2, hc2⟩ he2).2 hmay2
  obtain ⟨_, _, u2', ls2', g1, w2', hs1, _, _, _, ho2', _, hsp2', _, hnew2, _, hfr2, _⟩ := after_commit hs hF2 he2
  have hused : d1.used.length ≤ d.used.length + 2 := exec_used (commitCmd_draws E cwd2 ci2) he2
  have hF2' : d1.mdir w2'.mount.id.base32 ≠ none := by
    obtain ⟨_, _, _, h⟩ := found_of_gets hs1 hout2 (gets_of_opens ho2')
    exact h.mdir
  have hnm : w1.mount.id.base32 ≠ w2'.mount.id.base32 := by
    intro e; exact hF1.mdir (by rw [e]; exact hfr2.newMdir)
  have hoth := hfr2.others _ hnm hmne
  have hlay : ∀ v, d.HasDiff v → d1.HasDiff v := by
    rintro v ⟨c, hc⟩
    refine ⟨c, ?_⟩
    rw [hfr2.layer, upd_ne _ _ ?_]; exact hc
    rintro rfl; rw [hfr2.newLayer] at hc; cases hc
  have hH : Held E d1 w1 u1 p1 := by
    have h0 := held_of_opens hF1.opens
    refine ⟨h0.reach, h0.head, fun v hv => hlay v (h0.stored v hv), ?_, h0.mount, h0.off⟩
    obtain ⟨_, b, _, _, hb, _⟩ := ho2'.tree
    have : w2'.spaceDir = w1.spaceDir := by rw [ho2'.dir, hsp2', ← hF2.opens.dir, hdirs]
    rw [this] at hb; rw [hb]; simp
  have hmd1 : d1.mdir w1.mount.id.base32 ≠ none := by rw [hoth.2.2]; exact hF1.mdir
  -- the first command goes on
  have hdr : Draws (α := Res CErr (OpenWs × OpenWs)) (commitRest E ci1 w1) 2 :=
    draws_seq (m := 0) (commitP_draws E _ ci1) fun _ => draws_fix (expand_draws E _) fun _ => draws_fix (removeMount_draws _) fun _ => .ret
  obtain ⟨r1, d3, he1⟩ := exec_total (E := E) (f := Faults.none) hdr d1 (by omega)
  have hp := wpm_exec (commitRest_wp hH hmd1) he1
  obtain ⟨x1, rfl⟩ : ∃ x, r1 = .ok x := by
    cases r1 with
    | ok x => exact ⟨x, rfl⟩
    | err e =>
      exfalso
      cases hee : e.early with
      | true =>
        rcases (hp.1 hee).2 with h | h
        · exact h ⟨rfl, rfl, hs1.tracked⟩
        · exact h (follows_iff.2 hmay1)
      | false =>
        obtain ⟨_, _, h | ⟨w', u', ls', _, hP, ⟨_, h | h⟩ | ⟨d1, _, hw⟩⟩⟩ := hp.2 hee
        · cases h
        · rw [Ws.path_unique hP hls1] at h; exact h hfit1
        · obtain ⟨m, c, h1, h2⟩ := hm1
          refine h (Or.inr (Or.inr (Or.inr ⟨_, m, c, ?_, by rw [hoth.2.2]; exact h1, h2⟩)))
          rw [hfr2.user _ hpne]; exact hlink1
        · exact absurd hw.1 (by simp [Faults.none])
    | panic => exact hp.elim
    | diverge => exact hp.elim
  obtain ⟨hx1, hfo, u1', ls1', dx, hC, hP, _, hL, rfl⟩ := hp
  have hne13 : x1.2.mount.id.base32 ≠ w1.mount.id.base32 := fun e => hmd1 (by rw [← e]; exact hL.newMdir)
  have hne23 : w2'.mount.id.base32 ≠ x1.2.mount.id.base32 := fun e => hF2' (by rw [e]; exact hL.newMdir)
  have hu12 : u2' ≠ u1' := by
    rintro rfl
    have := hL.newLayer
    rw [hfr2.layer, upd_self] at this; cases this
  have hno2 : ¬ x1.2.tree.abs.Has u2' := by
    rw [hC.tree]
    intro h
    rcases commit_has h with h | h
    · exact hu12 h
    · rw [htree] at h; exact hnew2 h
  obtain ⟨b, hb1, hb2⟩ := hL.space
  have hSh : x1.2.tree.abs.Shallow := by
    rw [hC.tree]
    exact shallow_commit hH.reach (comesBack_shallow hF1.back hF1.shallow) hC.newNode hP (fits_small hL.fits)
  obtain ⟨s', k1, k2, k3⟩ := (load_saved hC.reach hb1).1 hSh
  have hdir : x1.2.spaceDir = x1.2.spaceID.base32 := by rw [hC.spaceDir, hC.spaceID]; exact hF1.opens.dir
  have hspc : (removed w1.mount.id.base32 dx).space x1.2.spaceDir = some (some b) := by
    show dx.space _ = _
    rw [hb2]; exact upd_self _ _ _
  have hpath1 : x1.2.ws.path = Path.abs cwd1 (lit ".") := by rw [hC.path]; exact hF1.opens.path
  -- the schedule
  let dz := removed w1.mount.id.base32 dx
  have hga : Exec E Faults.none (getWorkspace E cwd1 (lit ".")) d (.ok w1) d := hg1
  let k : OpenWs × OpenWs → M Out := fun x => return .moved x.1 x.2
  have hprog1 : Command.prog E (.commit cwd1 ci1) = M.bind (getWorkspace E cwd1 (lit ".")) fun a => M.bind (commitRest E ci1 a) k := mbind_assoc _ _ _
  have hexec2 : Exec E Faults.none (Command.prog E (.commit cwd2 ci2)) d (.ok (.moved x2.1 x2.2)) d1 := exec_ok he2 (.ret _ _)
  have hexec1 : Exec E Faults.none (M.bind (commitRest E ci1 w1) k) d1 (.ok (.moved x1.1 x1.2)) dz := exec_ok he1 (.ret _ _)
  obtain ⟨tr1, st1⟩ := steps_mbind hga (fun a => M.bind (commitRest E ci1 a) k) (fun _ => none) 0 d []
  rw [← hprog1] at st1
  obtain ⟨tr2, st2⟩ := steps_exec hexec2 (upd (fun _ => none) 0 (some ⟨d, tr1, M.bind (commitRest E ci1 w1) k⟩)) 1 d []
  obtain ⟨tr3, st3⟩ := steps_exec hexec1 (upd (fun _ => none) 1 (some ⟨d, tr2, .ret (.ok (.moved x2.1 x2.2))⟩)) 0 d tr1
  rw [upd_comm _ _ _ (show (1 : Nat) ≠ 0 by decide)] at st3
  have hW := ((Sys.Steps.step (.refl _) (Sys.Next.start (E := E) (f := Faults.none) (w := ⟨d, fun _ => none⟩) 0 (.commit cwd1 ci1) rfl)).trans st1).trans
    (((Sys.Steps.step (.refl _) (Sys.Next.start (E := E) (f := Faults.none) (w := ⟨d, upd (fun _ => none) 0 (some ⟨d, tr1, M.bind (commitRest E ci1 w1) k⟩)⟩) 1 (.commit cwd2 ci2) rfl)).trans st2).trans st3)
  refine ⟨_, hW, ⟨⟨d, tr3, .ret (.ok (.moved x1.1 x1.2))⟩, _, rfl, rfl⟩, ⟨⟨d, tr2, .ret (.ok (.moved x2.1 x2.2))⟩, _, rfl, rfl⟩, ?_, ?_⟩
  · -- the second workspace
    intro w hgw
    obtain ⟨a1, ⟨raw, i, a2, a3, a4, h, a5, a6⟩, _⟩ := gets_reads hout2 (gets_of_opens ho2')
    obtain ⟨b1, ⟨raw', i', b2, b3, b4, h', b5, b6⟩, b7⟩ := gets_reads hout2 hgw
    have hus : dz.user (Path.abs cwd2 (lit ".")) = d1.user (Path.abs cwd2 (lit ".")) := by
      show dx.user _ = _
      rw [hL.user, upd_ne _ _]
      rw [hC.path, ← hF2.opens.path]; exact Ne.symm hpne
    have hm : w.mount.id = w2'.mount.id := by
      rw [show (removed w1.mount.id.base32 dx).user = dz.user from rfl, hus, a1] at b1
      simpa using b1.symm
    have hin : dz.info w2'.mount.id.base32 = d1.info w2'.mount.id.base32 := by
      show (removed w1.mount.id.base32 dx).info _ = _
      simp only [removed, Disk.setInfo, Disk.setMdir, Disk.setMnt, upd_ne _ _ (Ne.symm hnm)]
      rw [hL.info, upd_ne _ _ hne23]
    rw [hm, show (removed w1.mount.id.base32 dx).info = dz.info from rfl, hin, a2] at b2
    cases b2
    rw [a3] at b3; cases b3
    rw [a5] at b5; cases b5
    have hh : h = u2' := by
      have hw := wf_of_reach (opens_reach ho2')
      obtain ⟨o, q1, q2⟩ := head_obj hw a6
      obtain ⟨o', q3, q4⟩ := head_obj hw ho2'.head.1
      rw [q1] at q3; cases q3
      rw [← q2, q4]
    subst hh
    have hdd : w.spaceDir = x1.2.spaceDir := by
      rw [← b4, a4, ho2'.dir, hsp2', ← hF2.opens.dir, ← hdirs, hC.spaceDir]
    rw [hdd] at b7
    unfold Disk.loads at b7
    rw [hspc] at b7
    simp only [k1, Res.ok.injEq] at b7
    subst b7
    have : w.tree.abs.Has h := (abs_has_iff_get (wf_of_reach k2) h).2 ⟨_, b6⟩
    exact hno2 (comesBack_has k3 this)
  · -- the first workspace
    obtain ⟨nd, n1, n2⟩ := hC.head.2
    obtain ⟨nd', n3, n4, _⟩ := k3.node u1' nd n1
    obtain ⟨q, hq⟩ := (abs_has_iff_get (wf_of_reach k2) u1').1 ⟨_, n3⟩
    have hu8 := comesBack_is_utf8 hF1.back
    have hta : s'.abs = w1.tree.abs.commit w1.ws.onBranch u1 u1' (sanitize ci1.date) (sanitize ci1.message) := by
      rw [hC.tree] at k3
      have hn : (w1.tree.abs.commit w1.ws.onBranch u1 u1' ci1.date ci1.message).Named := by
        refine named_commit (utf8_named hu8) fun x hx => ?_
        obtain ⟨hd, hb, _⟩ := hfo x hx
        exact hu8.branch x hd hb
      rw [comesBack_named k3 hn, tidy_commit, tidy_utf8 hu8]
    have hbr : sanitize w1.ws.branch = w1.ws.branch := by
      obtain ⟨i, _, _, _, _, _, i6⟩ := hF1.opens.info
      rw [← i6, sanitize_idem]
    let w1' : OpenWs := ⟨s', x1.2.spaceID, x1.2.spaceDir, ⟨x1.2.mount.id, x1.2.mount.id.base32, none⟩, ⟨x1.2.ws.id, Path.abs cwd1 (lit "."), q, sanitize x1.2.ws.branch⟩⟩
    have ho : Opens E dz cwd1 (lit ".") w1' u1' u1 := by
      refine ⟨hout1, ⟨_, ?_, leads_mountPath _ _ _⟩, rfl, ⟨infoOf x1.2 u1', ?_, rfl, ?_, rfl, rfl, rfl⟩, rfl, hdir, ⟨x1.2.tree, b, hC.reach, reads_saved hC.reach hb1, hspc, k1⟩,
        ⟨hq, nd', n3, by rw [n4]; exact n2⟩, ?_⟩
      · show dx.user _ = _
        rw [hL.user, ← hpath1]; exact upd_self _ _ _
      · show (removed w1.mount.id.base32 dx).info _ = _
        simp only [removed, Disk.setInfo, Disk.setMdir, Disk.setMnt, upd_ne _ _ hne13, w1']
        rw [hL.info]; exact upd_self _ _ _
      · rfl
      · intro v hv
        have hv := comesBack_has k3 hv
        rw [hC.tree] at hv
        show dx.HasDiff v
        rcases commit_has hv with rfl | hv
        · exact ⟨_, by rw [hL.layer]; exact upd_self _ _ _⟩
        · obtain ⟨c, hc⟩ := hH.stored v hv
          refine ⟨c, ?_⟩
          rw [hL.layer, upd_ne _ _ ?_]; exact hc
          rintro rfl; rw [hL.newLayer] at hc; cases hc
    have hE : CommitEffect w1.tree.abs w1.ws u1 u1' ci1 w1'.tree.abs := by
      show CommitEffect _ _ _ _ _ s'.abs
      rw [hta]
      obtain ⟨_, n, hn, _⟩ := hh1
      exact commitEffect ⟨n, hn⟩ hC.newNode
    refine ⟨w1', u1', gets_of_opens ho, ⟨hC.id, ?_, hC.spaceID⟩, ho.head, hE, ?_⟩
    · show sanitize x1.2.ws.branch = _
      rw [hC.branch, hbr]
    · rw [hE.others u2 hune ?_, htree]
      rintro rfl
      obtain ⟨_, n, hn, _⟩ := hh2
      rw [← htree] at hn
      exact hE.fresh ⟨n, hn⟩

/-- **C43.** One after the other, two commits in workspaces of one space are both there afterwards: both workspaces open, each
with its commit as the last one, both see the same history, and in it both commits carry their message and date. -/
theorem C43_sequential {d d1 d2 : Disk} (hd : Reachable E d) {cwd1 cwd2 : Str} (hout1 : E.Outside (Path.abs cwd1 (lit ".")))
    (hout2 : E.Outside (Path.abs cwd2 (lit "."))) {w1 w2 : OpenWs} (hg1 : Gets E d cwd1 (lit ".") w1) (hg2 : Gets E d cwd2 (lit ".") w2)
    (hspace : w1.spaceID = w2.spaceID) (hmount : w1.mount.id ≠ w2.mount.id) (hpath : Path.abs cwd1 (lit ".") ≠ Path.abs cwd2 (lit "."))
    {u1 p1 u2 p2 : UID} (hh1 : w1.ws.HeadAt w1.tree u1 p1) (hh2 : w2.ws.HeadAt w2.tree u2 p2)
    {ci1 ci2 : CommitInfo} {r1 r2 : OpenWs × OpenWs}
    (he1 : Exec E f (commitCmd E cwd1 ci1) d (.ok r1) d1) (he2 : Exec E f (commitCmd E cwd2 ci2) d1 (.ok r2) d2) :
    ∃ w1' w2' u1' u2' n1 n2, Gets E d2 cwd1 (lit ".") w1' ∧ Gets E d2 cwd2 (lit ".") w2' ∧ SameWs w1 w1' ∧ SameWs w2 w2' ∧
      w1'.ws.HeadAt w1'.tree u1' u1 ∧ w2'.ws.HeadAt w2'.tree u2' u2 ∧ w1'.tree = w2'.tree ∧
      w1'.tree.abs.node u1 = some n1 ∧ n1.anno (lit "commit-message") = some (sanitize ci1.message) ∧ n1.anno (lit "commit-date") = some (sanitize ci1.date) ∧
      w1'.tree.abs.node u2 = some n2 ∧ n2.anno (lit "commit-message") = some (sanitize ci2.message) ∧ n2.anno (lit "commit-date") = some (sanitize ci2.date) := by
  obtain ⟨g, hs⟩ := steady_reachable hd
  obtain ⟨T1, hF1⟩ := gets_found hs hout1 hg1 hh1
  obtain ⟨T2, hF2⟩ := gets_found hs hout2 hg2 hh2
  have hmne : w1.mount.id.base32 ≠ w2.mount.id.base32 := fun e => hmount (base32_inj e)
  obtain ⟨_, _, u1', ls1, g1, w1a, hs1, hG1, hK1, _, ho1, hi1, hsp1, hbr1, hnew1, htr1, hfr1, hnh⟩ := after_commit hs hF1 he1
  have hn1 : w2.mount.id.base32 ≠ w1a.mount.id.base32 := fun e => hF2.mdir (by rw [e]; exact hfr1.newMdir)
  obtain ⟨w2a, ho2, hi2, hsp2, hm2, hbr2, _⟩ := others_open hs hs1 hG1 hK1 hF2 (hfr1.user _ (by rw [hF1.opens.path]; exact Ne.symm hpath)) (hfr1.others _ hn1 (Ne.symm hmne)).2.1
  obtain ⟨T2a, hF2a⟩ := gets_found hs1 hout2 (gets_of_opens ho2) ho2.head
  obtain ⟨T1a, hF1a⟩ := gets_found hs1 hout1 (gets_of_opens ho1) ho1.head
  obtain ⟨_, _, u2', ls2, g2, w2b, hs2, hG2, hK2, _, ho2b, hi2b, hsp2b, hbr2b, hnew2, htr2, hfr2, _⟩ := after_commit hs1 hF2a he2
  have hn2 : w1a.mount.id.base32 ≠ w2b.mount.id.base32 := fun e => hF1a.mdir (by rw [e]; exact hfr2.newMdir)
  obtain ⟨w1b, ho1b, hi1b, hsp1b, hm1b, hbr1b, hx⟩ := others_open hs1 hs2 hG2 hK2 hF1a (hfr2.user _ (by rw [ho2.path]; exact hpath))
    (hfr2.others _ hn2 (by rw [hm2]; exact Ne.symm hn1)).2.1
  have hE1 : CommitEffect w1.tree.abs w1.ws u1 u1' ci1 w1a.tree.abs := by
    rw [htr1]; obtain ⟨_, n, hn, _⟩ := hh1; exact commitEffect ⟨n, hn⟩ hnew1
  have hE2 : CommitEffect w2a.tree.abs w2a.ws u2 u2' ci2 w2b.tree.abs := by
    rw [htr2]; obtain ⟨_, n, hn, _⟩ := ho2.head; exact commitEffect ⟨n, hn⟩ hnew2
  have htree : w1b.tree = w2b.tree := by
    refine loads_same hout1 hout2 (gets_of_opens ho1b) (gets_of_opens ho2b) ?_
    rw [ho1b.dir, ho2b.dir, hsp1b, hsp1, hspace, hsp2b, hsp2]
  obtain ⟨_, n1, _, a2, _, _, a3, a4, _⟩ := hE1.commit
  obtain ⟨_, n2, _, b2, _, _, b3, b4, _⟩ := hE2.commit
  obtain ⟨n1', c1, _, c3⟩ := hx u1 n1 a2
  obtain ⟨_, _, _, hF1b⟩ := found_of_gets hs2 hout1 (gets_of_opens ho1b)
  have hn1' : n1' = n1 := sameNode_utf8 (found_utf8 hF1a) (found_utf8 hF1b) a2 c1 (c3 hnh)
  subst hn1'
  exact ⟨w1b, w2b, u1', u2', n1', n2, gets_of_opens ho1b, gets_of_opens ho2b, ⟨hi1b.trans hi1, hbr1b.trans hbr1, hsp1b.trans hsp1⟩,
    ⟨hi2b.trans hi2, hbr2b.trans hbr2, hsp2b.trans hsp2⟩, ho1b.head, ho2b.head, htree, c1, a4, a3, by rw [htree]; exact b2, b4, b3⟩

end
end Verif
