import Verif.Props.InnerEdit
/-!
# A workspace inside another workspace: clones (C107)
-/
set_option autoImplicit false
namespace Verif
open M TS Json

/-- `p` is the path `xs` below the path `P` of the workspace `W`, which is mounted. -/
structure Within (E : Env) (d : Disk) (P : Str) (W : OpenWs) (p : Str) (xs : List Str) : Prop where
  absP : Path.abs P (lit ".") = P
  absp : Path.abs p (lit ".") = p
  outP : E.Outside P
  outp : E.Outside p
  path : Path.comps p = Path.comps P ++ xs
  proper : xs ≠ []
  outer : Gets E d P (lit ".") W
  mounted : d.Mounted W

section
variable {E : Env} {f : Faults} {lk : Str → Option Str} {P p cwd src : Str} {xs : List Str} {W w : OpenWs} {d d' : Disk}

theorem Within.ne (h : Within E d P W p xs) : P ≠ p := by
  rintro rfl
  have := h.path
  exact h.proper (by simpa using this)

theorem Within.place (h : Within E d P W p xs) : xs.reverse ≠ [] := by simpa using h.proper


section
variable {α β : Type} {n : Str} {q : List Str} {m : Mnt} {d0 : Disk}

/-- One part of a program after the other. -/
theorem via_then (hoff : E.Off p) (hq : q ≠ []) {x : Prog α} {g : α → Prog β} (hm : MildP p x) {I : Disk → Prop} (hI : ∀ y, I y → y.mnt n = some m) {Q : β → Disk → Prop}
    {d e d' : Disk} {b : β} (h : Mir lk p n q m d0 d e) (hw : wp E Faults.none I (x.bind g) Q e)
    (hg : ∀ a d1 e1, Exec E Faults.none x e a e1 → Mir lk p n q m d0 d1 e1 → wp E Faults.none I (g a) Q e1 → ExecVia E lk p n q (g a) d1 b d' →
      ∃ e', Exec E Faults.none (g a) e1 b e' ∧ Mir lk p n q m d0 d' e')
    (he : ExecVia E lk p n q (x.bind g) d b d') : ∃ e', Exec E Faults.none (x.bind g) e b e' ∧ Mir lk p n q m d0 d' e' := by
  obtain ⟨a, d1, h1, h2⟩ := execVia_bind he
  obtain ⟨e1, g1, k1, hw1⟩ := via_exec hoff hq hm hI h (wp_bind.1 hw) h1
  obtain ⟨e', g2, k2⟩ := hg a d1 e1 g1 k1 hw1 h2
  exact ⟨e', exec_trans g1 g2, k2⟩

theorem via_ret {a b : α} {d e d' : Disk} (h : Mir lk p n q m d0 d e) (he : ExecVia E lk p n q (.ret a) d b d') :
    ∃ e', Exec E Faults.none (.ret a) e b e' ∧ Mir lk p n q m d0 d' e' := by
  cases he
  exact ⟨e, .ret _ _, h⟩

theorem via_clone (hoff : E.Off p) (hq : q ≠ []) {d e d' : Disk} (h : Mir lk p n q m d0 d e) {I : Disk → Prop} (hI : ∀ y, I y → y.mnt n = some m) {Q : Res CErr OpenWs → Disk → Prop}
    (hw : wp E Faults.none I (α := Res CErr OpenWs) (cloneCmd E cwd src p) Q e) {r : Res CErr OpenWs} (he : ExecVia (α := Res CErr OpenWs) E lk p n q (cloneCmd E cwd src p) d r d') :
    ∃ e', Exec E Faults.none (cloneCmd E cwd src p) e r e' ∧ Mir lk p n q m d0 d' e' := by
  refine via_then hoff hq (mild_of_calm (A := fun _ => True) (getWorkspace_calms E cwd src trivial)) hI h hw (fun z d1 e1 g1 k1 hw1 he1 => ?_) he
  cases z with
  | ok w0 =>
    refine via_then (β := Res CErr OpenWs) hoff hq (mild_of_calm (cloneP_calms (A := fun _ => False) E w0 p)) hI k1 hw1 (fun z d2 e2 g2 k2 hw2 he2 => ?_) he1
    cases z with
    | ok w' =>
      refine via_then (β := Res CErr OpenWs) hoff hq (expand_mild (cloneP_dir g2).2) hI k2 hw2 (fun z d3 e3 g3 k3 hw3 he3 => ?_) he2
      cases z <;> exact via_ret k3 he3
    | _ => exact via_ret k2 he2
  | _ => exact via_ret k1 he1

theorem via_then_total (hoff : E.Off p) {y : Str} (hn : m.upper ∉ m.lowers) (hlk : ∀ t, ∃ data, lk data = some t) {x : Prog α} {k : Nat} (hdr : Draws x k) (hm : MildP p x)
    {g : α → Prog β} {I : Disk → Prop} (hI : ∀ y, I y → y.mnt n = some m) {Q : β → Disk → Prop} {d e : Disk} (h : Mir lk p n [y] m d0 d e) (hw : wp E Faults.none I (x.bind g) Q e) {j : Nat}
    (hused : e.used.length + (k + j) < 2 ^ 128)
    (hg : ∀ a d1 e1, Exec E Faults.none x e a e1 → Mir lk p n [y] m d0 d1 e1 → wp E Faults.none I (g a) Q e1 → e1.used.length + j < 2 ^ 128 → ∃ b d', ExecVia E lk p n [y] (g a) d1 b d') :
    ∃ b d', ExecVia E lk p n [y] (x.bind g) d b d' := by
  obtain ⟨a, d1, e1, h1, g1, k1, hw1⟩ := via_total hoff hn hlk hdr hm hI h (wp_bind.1 hw) (by omega)
  have := exec_used hdr g1
  obtain ⟨b, d', h2⟩ := hg a d1 e1 g1 k1 hw1 (by omega)
  exact ⟨b, d', execVia_trans h1 h2⟩

theorem via_clone_total (hoff : E.Off p) {y : Str} (hn : m.upper ∉ m.lowers) (hlk : ∀ t, ∃ data, lk data = some t) {d e : Disk} (h : Mir lk p n [y] m d0 d e)
    {I : Disk → Prop} (hI : ∀ y, I y → y.mnt n = some m) {Q : Res CErr OpenWs → Disk → Prop} (hw : wp E Faults.none I (α := Res CErr OpenWs) (cloneCmd E cwd src p) Q e)
    (hused : e.used.length + 3 < 2 ^ 128) : ∃ r d', ExecVia (α := Res CErr OpenWs) E lk p n [y] (cloneCmd E cwd src p) d r d' := by
  refine via_then_total hoff hn hlk (getWorkspace_draws E cwd src) (mild_of_calm (A := fun _ => True) (getWorkspace_calms E cwd src trivial)) hI h hw (j := 3) (by omega) fun z d1 e1 g1 k1 hw1 hu1 => ?_
  cases z with
  | ok w0 =>
    refine via_then_total (β := Res CErr OpenWs) hoff hn hlk (cloneP_draws E w0 p) (mild_of_calm (cloneP_calms (A := fun _ => False) E w0 p)) hI k1 hw1 (j := 0) (by omega) fun z d2 e2 g2 k2 hw2 hu2 => ?_
    cases z with
    | ok w' =>
      refine via_then_total (β := Res CErr OpenWs) hoff hn hlk (expand_draws E w') (expand_mild (cloneP_dir g2).2) hI k2 hw2 (j := 0) (by omega) fun z d3 e3 g3 k3 hw3 hu3 => ?_
      cases z <;> exact ⟨_, _, .ret _ _⟩
    | _ => exact ⟨_, _, .ret _ _⟩
  | _ => exact ⟨_, _, .ret _ _⟩

end

/-- `clone` to a path inside a workspace. -/
theorem clone_into_run (hd : Reachable E d) (hW : Within E d P W p xs) (hout : E.Outside (Path.abs cwd src)) (hsp : Path.abs cwd src ≠ p) (hg : Gets E d cwd src w) :
    ∃ m, d.mnt W.mount.id.base32 = some m ∧
    (∀ r d', ExecVia (α := Res CErr OpenWs) E lk p W.mount.id.base32 xs.reverse (cloneCmd E cwd src p) d r d' →
      ∃ e', Exec E Faults.none (cloneCmd E cwd src p) (d.seen lk p W.mount.id.base32 xs.reverse) r e' ∧ Mir lk p W.mount.id.base32 xs.reverse m d d' e') ∧
    ((∃ y, xs = [y]) → (∀ t, ∃ data, lk data = some t) → d.used.length + 3 < 2 ^ 128 →
      ∃ r d', ExecVia (α := Res CErr OpenWs) E lk p W.mount.id.base32 xs.reverse (cloneCmd E cwd src p) d r d') := by
  obtain ⟨g, hs⟩ := steady_reachable hd
  obtain ⟨U, Q, T, hF⟩ := found_of_gets hs (by rw [hW.absP]; exact hW.outP) hW.outer
  obtain ⟨u, pu, t, hf⟩ := found_of_gets hs hout hg
  cases hm : d.mnt W.mount.id.base32 with
  | none => exact absurd hm hW.mounted
  | some m =>
    have hM := mir_start (lk := lk) hs p xs.reverse hm
    have hoff := off_of_outside hW.outp
    have hup : m.upper ∉ m.lowers := by
      obtain ⟨e1, e2⟩ := mnt_of_found hs hF hm
      rw [e1]
      intro hmem
      obtain ⟨_, nd, hn, hp⟩ := hF.opens.head
      have := anc_shorter (lh := U :: m.lowers) (path_mem_anc e2 U hmem) (.step hn hp e2) e2
      simp at this
      omega
    have ho : Opens E (d.seen lk p W.mount.id.base32 xs.reverse) cwd src w u pu := opens_same hf.opens (upd_ne _ _ hsp) rfl rfl fun _ h => h
    have hw := cloneCmd_wp (f := Faults.none) ho hoff
    have hI : ∀ z, Mid E (Cloned w pu p) w.spaceDir p (fun _ => False) (fun _ => False) (d.seen lk p W.mount.id.base32 xs.reverse) z → z.mnt W.mount.id.base32 = some m := fun z hz => by
      rw [(hz.mounts W.mount.id.base32 hF.mdir (fun h => h)).2.2]; exact hm
    refine ⟨m, rfl, fun r d' he => via_clone hoff hW.place hM hI hw he, ?_⟩
    rintro ⟨y, rfl⟩ hlk hused
    exact via_clone_total hoff hup hlk hM hI hw hused

/-- **C107.** `clone` to a path inside a workspace, of that workspace or of any other one, makes a workspace inside it: a new workspace on the same commit, that shows the files of that commit. The
outer workspace keeps all its files but what was at that path. -/
theorem C107_clone_into (hd : Reachable E d) (hW : Within E d P W p xs) (hout : E.Outside (Path.abs cwd src)) (hsp : Path.abs cwd src ≠ p) (hg : Gets E d cwd src w)
    {u pu : UID} (hh : w.ws.HeadAt w.tree u pu) {r : OpenWs} (he : ExecVia (α := Res CErr OpenWs) E lk p W.mount.id.base32 xs.reverse (cloneCmd E cwd src p) d (.ok r) d') :
    Reachable E d' ∧ ∃ W2 w2 u2 ls, Nested E lk d' P W2 p xs w2 ∧ SameWs W W2 ∧ W2.mount.id = W.mount.id ∧ (∀ r, r ≠ xs.reverse → d'.lists W2 r = d.lists W r) ∧
      (∀ U Q, W.ws.HeadAt W.tree U Q → W2.ws.HeadAt W2.tree U Q) ∧ (∀ r, r ≠ p → d'.user r = d.user r) ∧ w2.ws.id ∉ d.used ∧ w2.spaceID = w.spaceID ∧ w2.ws.branch = w.ws.branch ∧
      w2.ws.HeadAt w2.tree u2 pu ∧ w.tree.abs.Path pu ls ∧ d'.Mounted w2 ∧
      ((∀ M, d.mnt W.mount.id.base32 = some M → M.upper ∉ ls) → d'.lists w2 = files (ls.map d.content)) := by
  obtain ⟨g, hs⟩ := steady_reachable hd
  have hse := seen_steady (lk := lk) hs p W.mount.id.base32 xs.reverse
  have hPp : Path.abs P (lit ".") ≠ p := by rw [hW.absP]; exact hW.ne
  obtain ⟨m, hm, h1, _⟩ := clone_into_run (lk := lk) hd hW hout hsp hg
  obtain ⟨e', h2, hM⟩ := h1 _ d' he
  obtain ⟨U, Q, T, hF⟩ := found_of_gets hs (by rw [hW.absP]; exact hW.outP) hW.outer
  have hFe : Found E (d.seen lk p W.mount.id.base32 xs.reverse) g P (lit ".") W U Q T :=
    ⟨opens_same hF.opens (upd_ne _ _ hPp) rfl rfl fun _ h => h, hF.mdir, hF.tree, hF.shallow, hF.back⟩
  obtain ⟨t, hf⟩ := gets_found hs hout hg hh
  have hfe : Found E (d.seen lk p W.mount.id.base32 xs.reverse) g cwd src w u pu t :=
    ⟨opens_same hf.opens (upd_ne _ _ hsp) rfl rfl fun _ h => h, hf.mdir, hf.tree, hf.shallow, hf.back⟩
  obtain ⟨u2, ls, g', w2, b1, b2, b3, b4, b5, b6, b7, b8, b9, b10, b11⟩ := after_clone hse hfe (cwd2 := p) (path2 := lit ".") (by rw [hW.absp]; exact hW.outp) (by rw [hW.absp]; exact h2)
  rw [hW.absp] at b11
  have h3 : W.mount.id.base32 ≠ w2.mount.id.base32 := fun e => hF.mdir (by rw [e]; exact b11.newMdir)
  obtain ⟨k1, k2, k3⟩ := b11.others _ h3 (fun h => h)
  obtain ⟨W2, o, e1, e2, e3, e4, e5⟩ := others_open hse b1 b2 b3 hFe (b11.user _ hPp) k2
  have hmt : d'.Mounted W2 := by rw [Disk.Mounted, e3, hM.mounted]; simp
  have hmn : d'.mnt w2.mount.id.base32 = some ⟨u2, ls⟩ := by rw [← hM.mnt]; exact b11.mnt
  refine ⟨mir_reachable hM ?_, W2, w2, u2, ls, ⟨hW.absP, hW.absp, hW.outP, hW.outp, hW.path, hW.proper, gets_of_opens (opens_beside hM hPp o), hmt, ?_, ?_⟩, ⟨e1, e4, e2⟩, e3, fun r hr => ?_,
    fun U' Q' h => ?_, fun r hr => by rw [← hM.user r hr]; exact (b11.user r hr).trans (upd_ne _ _ hr), b6 ⟨rfl, rfl, hse.tracked⟩, b7, b8, b5.head, b4, by rw [Disk.Mounted, hmn]; simp, fun hap => ?_⟩
  · exact reachable_next (seen_reachable (lk := lk) hd p W.mount.id.base32 xs.reverse) (f := Faults.none) rfl (a := .clone cwd src p) ⟨hout, off_of_outside hW.outp⟩ (.clone h2)
  · rw [e3]; exact gets_of_opens (opens_seen hM hW.absp b5)
  · rw [e3]; exact fun e => h3 (by rw [e])
  · simp only [Disk.lists, e3]
    split
    · rfl
    · rename_i hr'; exact hM.rest r hr hr'
  · obtain ⟨rfl, rfl⟩ := headAt_unique (wf_of_reach (opens_reach hF.opens)) hF.opens.head h
    exact o.head
  · have hst := path_stored hfe.opens b4
    have hl := lists_fresh b11 hst
    have hu2 : u2 ≠ m.upper := by
      rintro rfl
      obtain ⟨c, hc⟩ := head_stored hs (mnt_head hs hm)
      have : d.layer m.upper = none := b11.newLayer
      rw [hc] at this; cases this
    have h4 := hap m hm
    rw [lists_mounted b11.mnt] at hl
    rw [lists_mounted hmn]
    refine Eq.trans ?_ (hl.trans rfl)
    congr 1
    refine List.map_congr_left fun v hv => (mir_content hM ?_).symm
    rintro rfl
    rcases List.mem_cons.1 hv with e | e
    · exact hu2 e.symm
    · exact h4 e

/-- **C107.** If the clone is of the outer workspace itself, that is no condition. -/
theorem C107_clone_self (hd : Reachable E d) (hW : Within E d P W p xs) {U Q : UID} (hh : W.ws.HeadAt W.tree U Q) {ls : List UID} (hls : W.tree.abs.Path Q ls) :
    ∀ M, d.mnt W.mount.id.base32 = some M → M.upper ∉ ls := by
  intro M hM hmem
  obtain ⟨g, hs⟩ := steady_reachable hd
  obtain ⟨T, hF⟩ := gets_found hs (by rw [hW.absP]; exact hW.outP) hW.outer hh
  obtain ⟨e1, e2⟩ := mnt_of_found hs hF hM
  obtain rfl := Ws.path_unique hls e2
  rw [e1] at hmem
  obtain ⟨_, nd, hn, hp⟩ := hh
  have := anc_shorter (lh := U :: M.lowers) (path_mem_anc e2 U hmem) (.step hn hp e2) e2
  simp at this
  omega

/-- **C107.** Such a clone is refused only for reasons that hold anywhere: too many layers, or something at the path that is not to be replaced. -/
theorem C107_clone_accepted_iff (hd : Reachable E d) (hW : Within E d P W p xs) (hout : E.Outside (Path.abs cwd src)) (hsp : Path.abs cwd src ≠ p) (hg : Gets E d cwd src w)
    {u pu : UID} (hh : w.ws.HeadAt w.tree u pu) {ls : List UID} (hls : w.tree.abs.Path pu ls)
    (hlink : ∀ t, d.entryAt lk W.mount.id.base32 xs.reverse = .link t → ∃ id ∈ d.used, t = E.mountPath id.base32 ∧ ∃ m c, d.mdir id.base32 = some m ∧ m.merged = some c)
    {r : Res CErr OpenWs} (he : ExecVia (α := Res CErr OpenWs) E lk p W.mount.id.base32 xs.reverse (cloneCmd E cwd src p) d r d') :
    (∃ x, r = .ok x) ↔ E.Fits ls.length ∧ d.entryAt lk W.mount.id.base32 xs.reverse ≠ .dir ∧ d.entryAt lk W.mount.id.base32 xs.reverse ≠ .noParent := by
  obtain ⟨m, hm, h1, _⟩ := clone_into_run (lk := lk) hd hW hout hsp hg
  obtain ⟨e', h2, hM⟩ := h1 _ d' he
  obtain ⟨g, hs⟩ := steady_reachable hd
  obtain ⟨t, hf⟩ := gets_found hs hout hg hh
  have hu : (d.seen lk p W.mount.id.base32 xs.reverse).user p = d.entryAt lk W.mount.id.base32 xs.reverse := upd_self _ _ _
  have ho : Opens E (d.seen lk p W.mount.id.base32 xs.reverse) cwd src w u pu := opens_same hf.opens (upd_ne _ _ hsp) rfl rfl fun _ h => h
  have := C62_clone_accepted_iff (seen_reachable (lk := lk) hd p W.mount.id.base32 xs.reverse) hout (off_of_outside hW.outp) (gets_of_opens ho) hh hls
    (fun t ht => by rw [hu] at ht; obtain ⟨i, a, b, _⟩ := hlink t ht; exact ⟨i, a, b⟩) h2
  rw [this, hu]
  refine ⟨fun ⟨a, b, c, _⟩ => ⟨a, b, c⟩, fun ⟨a, b, c⟩ => ⟨a, b, c, ?_⟩⟩
  rintro ⟨i, j1, j2, j3⟩
  rw [hu] at j2
  obtain ⟨i2, _, k2, k3⟩ := hlink _ j2
  exact j3 (mountPath_inj k2 ▸ k3)

/-- **C107.** There are such runs. -/
theorem C107_clone_runs (hd : Reachable E d) {y : Str} (hW : Within E d P W p [y]) (hout : E.Outside (Path.abs cwd src)) (hsp : Path.abs cwd src ≠ p) (hg : Gets E d cwd src w)
    (hlk : ∀ t, ∃ data, lk data = some t) (hused : d.used.length + 3 < 2 ^ 128) : ∃ r d', ExecVia (α := Res CErr OpenWs) E lk p W.mount.id.base32 [y] (cloneCmd E cwd src p) d r d' := by
  obtain ⟨_, _, _, h⟩ := clone_into_run (lk := lk) hd hW hout hsp hg
  exact h ⟨y, rfl⟩ hlk hused

/-! ## A clone of the inner workspace to a path that is not inside the outer one -/

section
variable {α β : Type} {n : Str} {q : List Str} {m : Mnt} {d0 : Disk}

/-- The call is about a path of the user other than `p`, or about none. -/
def Cmd.Far (E : Env) (p : Str) : Cmd → Prop
  | .sys _ => True
  | .exists_ r => r ≠ p ∧ E.Off r
  | .remove r => r ≠ p ∧ E.Off r
  | .symlink _ r => r ≠ p ∧ E.Off r
  | .lchown r => r ≠ p ∧ E.Off r
  | _ => False

/-- The program makes such calls only. -/
def FarP (E : Env) (p : Str) : Prog α → Prop
  | .ret _ => True
  | .op c k => c.Far E p ∧ ∀ x, FarP E p (k x)

theorem mir_user {d e : Disk} (h : Mir lk p n q m d0 d e) {r : Str} (hr : r ≠ p) (z : UEnt) : Mir lk p n q m d0 (d.setUser r z) (e.setUser r z) :=
  ⟨h.used, h.space, h.mdir, h.info, h.mnt, h.layer, h.top, h.low, fun r' hr' => by
    show upd e.user r z r' = upd d.user r z r'
    by_cases e1 : r' = r
    · subst e1; rw [upd_self, upd_self]
    · rw [upd_ne _ _ e1, upd_ne _ _ e1]; exact h.user r' hr',
    (upd_ne e.user z (Ne.symm hr)).trans h.seen, h.mounted, h.rest⟩

theorem far_step {d e d' : Disk} (h : Mir lk p n q m d0 d e) {c : Cmd} (hc : c.Far E p) {a : c.Ans} (hs : Step E Faults.none c d a d') :
    ∃ e', Step E Faults.none c e a e' ∧ Mir lk p n q m d0 d' e' := by
  cases c with
  | sys _ => exact does_mir h Iff.rfl (fun _ => h) hs
  | exists_ r =>
    obtain ⟨rfl, hs⟩ := hs
    refine ⟨e, ⟨rfl, ?_⟩, h⟩
    unfold Exists at hs ⊢
    rw [h.user r hc.1, h.mdir]
    exact hs
  | remove r =>
    rcases hs with ⟨b1, b2⟩ | ⟨⟨k, b1⟩, _⟩
    · obtain ⟨e', h1, h2⟩ := does_mir h (P' := e.user r = .emptyDir ∨ e.user r = .file ∨ ∃ t, e.user r = .link t) (by rw [h.user r hc.1]) (fun _ => mir_user h hc.1 .none) b2
      exact ⟨e', Or.inl ⟨b1, h1⟩, h2⟩
    · exact absurd b1 (hc.2 k)
  | symlink t r =>
    rcases hs with ⟨b1, b2⟩ | ⟨⟨k, b1⟩, _⟩
    · obtain ⟨e', h1, h2⟩ := does_mir h (P' := e.user r = .none) (by rw [h.user r hc.1]) (fun _ => mir_user h hc.1 (.link t)) b2
      exact ⟨e', Or.inl ⟨b1, h1⟩, h2⟩
    · exact absurd b1 (hc.2 k)
  | lchown r =>
    rcases hs with ⟨b1, b2⟩ | ⟨⟨k, b1⟩, _⟩
    · obtain ⟨e', h1, h2⟩ := does_mir h (P' := e.user r ≠ .none ∧ e.user r ≠ .noParent) (by rw [h.user r hc.1]) (fun _ => h) b2
      exact ⟨e', Or.inl ⟨b1, h1⟩, h2⟩
    · exact absurd b1 (hc.2 k)
  | _ => exact hc.elim

theorem far_exec {x : Prog α} (hx : FarP E p x) {d e d' : Disk} {a : α} (h : Mir lk p n q m d0 d e) (he : Exec E Faults.none x d a d') :
    ∃ e', Exec E Faults.none x e a e' ∧ Mir lk p n q m d0 d' e' := by
  induction he generalizing e with
  | ret a d => exact ⟨e, .ret _ _, h⟩
  | op hs _ ih =>
    obtain ⟨e1, h1, h2⟩ := far_step h hx.1 hs
    obtain ⟨e', h3, h4⟩ := ih (hx.2 _) h2
    exact ⟨e', .op h1 h3, h4⟩

theorem far_off {x : Prog α} (hx : FarP E p x) : OffP p x := by
  induction x with
  | ret a => trivial
  | op c k ih =>
    refine ⟨?_, fun y => ih y (hx.2 y)⟩
    have := hx.1
    cases c <;> first | exact fun h => h | exact this.1 | exact this.elim

theorem far_draws {x : Prog α} (hx : FarP E p x) : Draws x 0 := by
  induction x with
  | ret a => exact .ret
  | op c k ih =>
    refine .op ?_ fun y => ih y (hx.2 y)
    rintro rfl
    exact hx.1

theorem relink_far {w : OpenWs} (h : w.ws.path ≠ p) (ho : E.Off w.ws.path) : FarP (α := Res CErr Unit) E p (relink E w) := by
  have h : w.ws.path ≠ p ∧ E.Off w.ws.path := ⟨h, ho⟩
  have tail : FarP (α := Res CErr Unit) E p (do
      need (← ask (.symlink (E.mountPath w.mount.dir) w.ws.path)) .symlink
      need (← ask (.lchown w.ws.path)) .symlink
      need (← ask (.sys .chdirBack)) .cwd : M Unit) := by
    refine ⟨h, fun a => ?_⟩
    cases a
    · exact trivial
    refine ⟨h, fun a => ?_⟩
    cases a
    · exact trivial
    exact ⟨trivial, fun a => by cases a <;> exact trivial⟩
  unfold relink
  refine ⟨trivial, fun a => ?_⟩
  cases a
  · exact trivial
  refine ⟨trivial, fun a => ?_⟩
  cases a
  · exact trivial
  refine ⟨h, fun a => ?_⟩
  cases a
  · exact tail
  refine ⟨h, fun a => ?_⟩
  cases a
  · exact trivial
  · exact tail

theorem via_expand (hoff : E.Off p) (hq : q ≠ []) {w : OpenWs} (hp : w.ws.path ≠ p) (ho : E.Off w.ws.path) {d e d' : Disk} (h : Mir lk p n q m d0 d e) {I : Disk → Prop}
    (hI : ∀ y, I y → y.mnt n = some m) {Q : Res CErr Unit → Disk → Prop} (hw : wp E Faults.none I (α := Res CErr Unit) (expand E w) Q e) {r : Res CErr Unit}
    (he : ExecVia (α := Res CErr Unit) E lk p n q (expand E w) d r d') : ∃ e', Exec E Faults.none (expand E w) e r e' ∧ Mir lk p n q m d0 d' e' := by
  rw [expand_eq] at hw he ⊢
  refine via_then hoff hq (mild_of_calm (A := fun _ => False) (mountP_calms _)) hI h hw (fun z d1 e1 g1 k1 hw1 he1 => ?_) he
  cases z with
  | ok _ => exact far_exec (relink_far hp ho) k1 (via_offP (far_off (relink_far hp ho)) he1)
  | _ => exact via_ret k1 he1

theorem via_clone_from (hoff : E.Off p) (hq : q ≠ []) {cwd src to : Str} (hto : to ≠ p) (hoffto : E.Off to) {d e d' : Disk} (h : Mir lk p n q m d0 d e) {I : Disk → Prop}
    (hI : ∀ y, I y → y.mnt n = some m) {Q : Res CErr OpenWs → Disk → Prop}
    (hw : wp E Faults.none I (α := Res CErr OpenWs) (cloneCmd E cwd src to) Q e) {r : Res CErr OpenWs} (he : ExecVia (α := Res CErr OpenWs) E lk p n q (cloneCmd E cwd src to) d r d') :
    ∃ e', Exec E Faults.none (cloneCmd E cwd src to) e r e' ∧ Mir lk p n q m d0 d' e' := by
  refine via_then hoff hq (mild_of_calm (A := fun _ => True) (getWorkspace_calms E cwd src trivial)) hI h hw (fun z d1 e1 g1 k1 hw1 he1 => ?_) he
  cases z with
  | ok w0 =>
    refine via_then (β := Res CErr OpenWs) hoff hq (mild_of_calm (cloneP_calms (A := fun _ => False) E w0 to)) hI k1 hw1 (fun z d2 e2 g2 k2 hw2 he2 => ?_) he1
    cases z with
    | ok w' =>
      have hpath := (cloneP_dir g2).2
      obtain ⟨z, d3, h3, he3⟩ := execVia_bind (α := Res CErr Unit) he2
      obtain ⟨e3, g3, k3⟩ := via_expand hoff hq (by rw [hpath]; exact hto) (by rw [hpath]; exact hoffto) k2 hI (wp_bind (α := Res CErr Unit).1 hw2) h3
      cases z <;>
      · obtain ⟨e4, g4, k4⟩ := via_ret k3 he3
        exact ⟨e4, exec_trans (α := Res CErr Unit) g3 g4, k4⟩
    | _ => exact via_ret k2 he2
  | _ => exact via_ret k1 he1

theorem via_clone_from_total (hoff : E.Off p) {cwd src to : Str} (hto : to ≠ p) (hoffto : E.Off to) {y : Str} (hn : m.upper ∉ m.lowers) (hlk : ∀ t, ∃ data, lk data = some t) {d e : Disk}
    (h : Mir lk p n [y] m d0 d e) {I : Disk → Prop} (hI : ∀ y, I y → y.mnt n = some m) {Q : Res CErr OpenWs → Disk → Prop}
    (hw : wp E Faults.none I (α := Res CErr OpenWs) (cloneCmd E cwd src to) Q e)
    (hused : e.used.length + 3 < 2 ^ 128) : ∃ r d', ExecVia (α := Res CErr OpenWs) E lk p n [y] (cloneCmd E cwd src to) d r d' := by
  refine via_then_total hoff hn hlk (getWorkspace_draws E cwd src) (mild_of_calm (A := fun _ => True) (getWorkspace_calms E cwd src trivial)) hI h hw (j := 3) (by omega) fun z d1 e1 g1 k1 hw1 hu1 => ?_
  cases z with
  | ok w0 =>
    refine via_then_total (β := Res CErr OpenWs) hoff hn hlk (cloneP_draws E w0 to) (mild_of_calm (cloneP_calms (A := fun _ => False) E w0 to)) hI k1 hw1 (j := 0) (by omega) fun z d2 e2 g2 k2 hw2 hu2 => ?_
    cases z with
    | ok w' =>
      have hpath := (cloneP_dir g2).2
      have hw2 := wp_bind (α := Res CErr Unit).1 hw2
      have : ∃ z d3, ExecVia (α := Res CErr Unit) E lk p n [y] (expand E w') d2 z d3 := by
        rw [expand_eq] at hw2 ⊢
        refine via_then_total hoff hn hlk (mountP_draws _) (mild_of_calm (A := fun _ => False) (mountP_calms _)) hI k2 hw2 (j := 0) (by omega) fun z d3 e3 g3 k3 hw3 hu3 => ?_
        cases z with
        | ok _ =>
          have hf := relink_far (p := p) (by rw [hpath]; exact hto) (by rw [hpath]; exact hoffto)
          obtain ⟨r, d4, h4⟩ := exec_total (E := E) (f := Faults.none) (far_draws hf) d3 (by rw [← k3.used]; omega)
          exact ⟨r, d4, offP_via (far_off hf) h4⟩
        | _ => exact ⟨_, _, .ret _ _⟩
      obtain ⟨z, d3, h3⟩ := this
      cases z <;> exact ⟨_, _, execVia_trans (α := Res CErr Unit) h3 (.ret _ _)⟩
    | _ => exact ⟨_, _, .ret _ _⟩
  | _ => exact ⟨_, _, .ret _ _⟩

end

theorem clone_from_run (hd : Reachable E d) (hN : Nested E lk d P W p xs w) {to : Str} (hto : to ≠ p) (hout : E.Outside to) :
    ∃ m, d.mnt W.mount.id.base32 = some m ∧
    (∀ r d', ExecVia (α := Res CErr OpenWs) E lk p W.mount.id.base32 xs.reverse (cloneCmd E p (lit ".") to) d r d' →
      ∃ e', Exec E Faults.none (cloneCmd E p (lit ".") to) (d.seen lk p W.mount.id.base32 xs.reverse) r e' ∧ Mir lk p W.mount.id.base32 xs.reverse m d d' e') ∧
    ((∃ y, xs = [y]) → (∀ t, ∃ data, lk data = some t) → d.used.length + 3 < 2 ^ 128 →
      ∃ r d', ExecVia (α := Res CErr OpenWs) E lk p W.mount.id.base32 xs.reverse (cloneCmd E p (lit ".") to) d r d') := by
  obtain ⟨g, hs⟩ := steady_reachable hd
  have hse := seen_steady (lk := lk) hs p W.mount.id.base32 xs.reverse
  obtain ⟨U, Q, T, hF⟩ := found_of_gets hs (by rw [hN.absP]; exact hN.outP) hN.outer
  obtain ⟨u, pu, t, hf⟩ := found_of_gets hse (by rw [hN.absp]; exact hN.outp) hN.inner
  cases hm : d.mnt W.mount.id.base32 with
  | none => exact absurd hm hN.mounted
  | some m =>
    have hM := mir_start (lk := lk) hs p xs.reverse hm
    have hoff := off_of_outside hN.outp
    have hup : m.upper ∉ m.lowers := by
      obtain ⟨e1, e2⟩ := mnt_of_found hs hF hm
      rw [e1]
      intro hmem
      obtain ⟨_, nd, hn, hp⟩ := hF.opens.head
      have := anc_shorter (lh := U :: m.lowers) (path_mem_anc e2 U hmem) (.step hn hp e2) e2
      simp at this
      omega
    have hw := cloneCmd_wp (f := Faults.none) hf.opens (off_of_outside hout)
    have hI : ∀ z, Mid E (Cloned w pu to) w.spaceDir to (fun _ => False) (fun _ => False) (d.seen lk p W.mount.id.base32 xs.reverse) z → z.mnt W.mount.id.base32 = some m := fun z hz => by
      rw [(hz.mounts W.mount.id.base32 hF.mdir (fun h => h)).2.2]; exact hm
    refine ⟨m, rfl, fun r d' he => via_clone_from hoff hN.place hto (off_of_outside hout) hM hI hw he, ?_⟩
    rintro ⟨y, rfl⟩ hlk hused
    exact via_clone_from_total hoff hto (off_of_outside hout) hup hlk hM hI hw hused

/-- **C107.** `clone` of the inner workspace to a path that is not inside the outer one: a new workspace on the same commit that shows its files, and both workspaces are as they were. -/
theorem C107_clone_from (hd : Reachable E d) (hN : Nested E lk d P W p xs w) {to : Str} (habs : Path.abs to (lit ".") = to) (hout : E.Outside to)
    (hfar : ∀ ys, Path.comps to ≠ Path.comps P ++ ys) {u pu : UID} (hh : w.ws.HeadAt w.tree u pu) {r : OpenWs}
    (he : ExecVia (α := Res CErr OpenWs) E lk p W.mount.id.base32 xs.reverse (cloneCmd E p (lit ".") to) d (.ok r) d') :
    Reachable E d' ∧ ∃ W2 w2, Nested E lk d' P W2 p xs w2 ∧ SameWs W W2 ∧ SameWs w w2 ∧ W2.mount.id = W.mount.id ∧ w2.mount.id = w.mount.id ∧
      (∀ r, r ≠ xs.reverse → d'.lists W2 r = d.lists W r) ∧ (d.Mounted w → Apart d W w → d'.lists w2 = d.lists w) ∧ (∀ r, r ≠ p → r ≠ to → d'.user r = d.user r) ∧
      ∃ w3 u3 ls, Gets E d' to (lit ".") w3 ∧ w3.ws.id ∉ d.used ∧ w3.spaceID = w.spaceID ∧ w3.ws.branch = w.ws.branch ∧ w3.ws.HeadAt w3.tree u3 pu ∧ w.tree.abs.Path pu ls ∧
        d'.Mounted w3 ∧ ((∀ M, d.mnt W.mount.id.base32 = some M → M.upper ∉ ls) → d'.lists w3 = files (ls.map d.content)) := by
  have hto : to ≠ p := fun e => hfar xs (by rw [e]; exact hN.path)
  have htoP : to ≠ P := fun e => hfar [] (by rw [e]; simp)
  obtain ⟨g, hs⟩ := steady_reachable hd
  have hse := seen_steady (lk := lk) hs p W.mount.id.base32 xs.reverse
  have hPp : Path.abs P (lit ".") ≠ p := by rw [hN.absP]; exact hN.ne
  obtain ⟨m, hm, h1, _⟩ := clone_from_run hd hN hto hout
  obtain ⟨e', h2, hM⟩ := h1 _ d' he
  obtain ⟨U, Q, T, hF⟩ := found_of_gets hs (by rw [hN.absP]; exact hN.outP) hN.outer
  have hFe : Found E (d.seen lk p W.mount.id.base32 xs.reverse) g P (lit ".") W U Q T :=
    ⟨opens_same hF.opens (upd_ne _ _ hPp) rfl rfl fun _ h => h, hF.mdir, hF.tree, hF.shallow, hF.back⟩
  obtain ⟨t, hf⟩ := gets_found hse (by rw [hN.absp]; exact hN.outp) hN.inner hh
  obtain ⟨u3, ls, g', w3, b1, b2, b3, b4, b5, b6, b7, b8, b9, b10, b11⟩ := after_clone hse hf (cwd2 := to) (path2 := lit ".") (by rw [habs]; exact hout) (by rw [habs]; exact h2)
  rw [habs] at b11
  have h3 : W.mount.id.base32 ≠ w3.mount.id.base32 := fun e => hF.mdir (by rw [e]; exact b11.newMdir)
  have h4 : w.mount.id.base32 ≠ w3.mount.id.base32 := fun e => hf.mdir (by rw [e]; exact b11.newMdir)
  obtain ⟨k1, k2, k3⟩ := b11.others _ h3 (fun h => h)
  obtain ⟨j1, j2, j3⟩ := b11.others _ h4 (fun h => h)
  obtain ⟨W2, o, e1, e2, e3, e4, e5⟩ := others_open hse b1 b2 b3 hFe (b11.user _ (by rw [hN.absP]; exact Ne.symm htoP)) k2
  obtain ⟨w2, o2, i1, i2, i3, i4, i5⟩ := others_open hse b1 b2 b3 hf (b11.user _ (by rw [hN.absp]; exact Ne.symm hto)) j2
  have hmt : d'.Mounted W2 := by rw [Disk.Mounted, e3, hM.mounted]; simp
  have hmn : d'.mnt w3.mount.id.base32 = some ⟨u3, ls⟩ := by rw [← hM.mnt]; exact b11.mnt
  refine ⟨mir_reachable hM ?_, W2, w2, ⟨hN.absP, hN.absp, hN.outP, hN.outp, hN.path, hN.proper, gets_of_opens (opens_beside hM hPp o), hmt, ?_, ?_⟩, ⟨e1, e4, e2⟩, ⟨i1, i4, i2⟩, e3, i3, fun r hr => ?_,
    fun hmw hap => ?_, fun r hr hr' => ?_, w3, u3, ls, gets_of_opens (opens_beside hM (by rw [habs]; exact hto) b5), b6 ⟨rfl, rfl, hse.tracked⟩, b7, b8, b5.head, b4,
    by rw [Disk.Mounted, hmn]; simp, fun hap => ?_⟩
  · exact reachable_next (seen_reachable (lk := lk) hd p W.mount.id.base32 xs.reverse) (f := Faults.none) rfl (a := .clone p (lit ".") to) ⟨by rw [hN.absp]; exact hN.outp, off_of_outside hout⟩ (.clone h2)
  · rw [e3]; exact gets_of_opens (opens_seen hM hN.absp o2)
  · rw [e3, i3]; exact hN.other
  · simp only [Disk.lists, e3]
    split
    · rfl
    · rename_i hr'; exact hM.rest r hr hr'
  · obtain ⟨lp, l1, l2, l3⟩ := nested_files hs hN hap hmw hh
    cases hx : d.mnt w.mount.id.base32 with
    | none => exact absurd hx hmw
    | some m2 =>
      have hx' : d'.mnt w2.mount.id.base32 = some m2 := by rw [← hM.mnt, i3, j1]; exact hx
      obtain ⟨a1, a2⟩ := mnt_of_found hse hf hx
      have : m2.lowers = lp := Ws.path_unique a2 l1
      obtain ⟨_, _, _, hl, _⟩ := hse.mnt _ _ hx
      rw [lists_mounted hx', l2, a1, this]
      congr 1
      refine List.map_congr_left fun v hv => ?_
      rw [← mir_content hM (by rintro rfl; exact l3 m hm hv)]
      refine (content_upd b11.layer ?_).trans rfl
      rintro rfl
      have : (d.seen lk p W.mount.id.base32 xs.reverse).HasDiff v := by
        rcases List.mem_cons.1 hv with rfl | hv
        · rw [← a1]; exact head_stored hse (mnt_head hse hx)
        · exact hl v (this ▸ hv)
      obtain ⟨c, hc⟩ := this
      rw [b11.newLayer] at hc; cases hc
  · rw [← hM.user r hr]; exact (b11.user r hr').trans (upd_ne _ _ hr)
  · have hst := path_stored hf.opens b4
    have hl := lists_fresh b11 hst
    have hu3 : u3 ≠ m.upper := by
      rintro rfl
      obtain ⟨c, hc⟩ := head_stored hs (mnt_head hs hm)
      have : d.layer m.upper = none := b11.newLayer
      rw [hc] at this; cases this
    have h5 := hap m hm
    rw [lists_mounted b11.mnt] at hl
    rw [lists_mounted hmn]
    refine Eq.trans ?_ (hl.trans rfl)
    congr 1
    refine List.map_congr_left fun v hv => (mir_content hM ?_).symm
    rintro rfl
    rcases List.mem_cons.1 hv with e | e
    · exact hu3 e.symm
    · exact h5 e

/-- **C107.** There are such runs. -/
theorem C107_clone_from_runs (hd : Reachable E d) {y : Str} (hN : Nested E lk d P W p [y] w) {to : Str} (hto : to ≠ p) (hout : E.Outside to) (hlk : ∀ t, ∃ data, lk data = some t)
    (hused : d.used.length + 3 < 2 ^ 128) : ∃ r d', ExecVia (α := Res CErr OpenWs) E lk p W.mount.id.base32 [y] (cloneCmd E p (lit ".") to) d r d' := by
  obtain ⟨_, _, _, h⟩ := clone_from_run hd hN hto hout
  exact h ⟨y, rfl⟩ hlk hused

/-- **C107.** Such a clone is refused only for reasons that hold anywhere. -/
theorem C107_clone_from_accepted_iff (hd : Reachable E d) (hN : Nested E lk d P W p xs w) {to : Str} (hto : to ≠ p) (hout : E.Outside to) {u pu : UID} (hh : w.ws.HeadAt w.tree u pu)
    {ls : List UID} (hls : w.tree.abs.Path pu ls) (hlink : ∀ t, d.user to = .link t → ∃ id ∈ d.used, t = E.mountPath id.base32) {r : Res CErr OpenWs}
    (he : ExecVia (α := Res CErr OpenWs) E lk p W.mount.id.base32 xs.reverse (cloneCmd E p (lit ".") to) d r d') :
    (∃ x, r = .ok x) ↔ E.Fits ls.length ∧ d.user to ≠ .dir ∧ d.user to ≠ .noParent ∧ ¬ Stale E d to := by
  obtain ⟨m, hm, h1, _⟩ := clone_from_run hd hN hto hout
  obtain ⟨e', h2, hM⟩ := h1 _ d' he
  have hu : (d.seen lk p W.mount.id.base32 xs.reverse).user to = d.user to := upd_ne _ _ hto
  have := C62_clone_accepted_iff (seen_reachable (lk := lk) hd p W.mount.id.base32 xs.reverse) (by rw [hN.absp]; exact hN.outp) (off_of_outside hout) hN.inner hh hls
    (fun t ht => by rw [hu] at ht; exact hlink t ht) h2
  rw [this, hu]
  have hst : Stale E (d.seen lk p W.mount.id.base32 xs.reverse) to ↔ Stale E d to := by
    unfold Stale
    rw [hu]
    exact Iff.rfl
  rw [hst]

end
end Verif
