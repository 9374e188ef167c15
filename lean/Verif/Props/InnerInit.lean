import Verif.Props.InnerClone
import Verif.Props.Initial
import Verif.Props.Refused
/-!
# A workspace inside another workspace: `init` (C107)

`init` at a path inside a workspace. A link there may lead anywhere but to a mount over the writable layer of the outer workspace.
-/
set_option autoImplicit false
namespace Verif
open M TS Json

section
variable {E : Env} {lk : Str → Option Str} {P p branch : Str} {xs : List Str} {W : OpenWs} {d d' : Disk}

section
variable {n : Str} {q : List Str} {m : Mnt} {d0 : Disk}

/-- A mount without the writable layer of the outer one shows the same. -/
theorem mir_shows {e : Disk} (h : Mir lk p n q m d0 d e) {k : Str} (hk : ∀ mk, e.mnt k = some mk → m.upper ≠ mk.upper ∧ m.upper ∉ mk.lowers) (r : List Str) : e.shows k r = d.shows k r := by
  simp only [Disk.shows, ← h.mnt, ← h.mdir]
  cases hm : e.mnt k with
  | none => rfl
  | some mk =>
    obtain ⟨h1, h2⟩ := hk mk hm
    have : (mk.upper :: mk.lowers).map e.content = (mk.upper :: mk.lowers).map d.content := List.map_congr_left fun v hv => by
      have : v ≠ m.upper := by
        rintro rfl
        exact (List.mem_cons.1 hv).elim h1 h2
      simp only [Disk.content, h.layer v this]
    simp only [this]

/-- Asking whether there is an empty directory. -/
theorem via_empty (hoff : E.Off p) {e : Disk} (h : Mir lk p n q m d0 d e)
    (hnl : ∀ k, e.user p = .link (E.mountPath k) → ∀ mk, e.mnt k = some mk → m.upper ≠ mk.upper ∧ m.upper ∉ mk.lowers) {a : Bool}
    (hs : StepVia E lk p n q (.isEmptyDir p) d a d') : Step E Faults.none (.isEmptyDir p) e a e ∧ Mir lk p n q m d0 d' e := by
  obtain ⟨e1, ⟨h1, h2⟩, h3⟩ := hs.1 rfl
  have hsu : (d.seen lk p n q).user p = e.user p := by rw [h.seen]; exact upd_self _ _ _
  have hex : ∃ b, Step E Faults.none (.exists_ p) (d.seen lk p n q) b e1 := by
    simp only [Step, Exists]
    cases hu : (d.seen lk p n q).user p with
    | link t =>
      obtain ⟨b, hb⟩ := leads_total (E := E) t fun k => ∃ m c, (d.seen lk p n q).mdir k = some m ∧ m.merged = some c
      exact ⟨b, h1, Or.inl hb⟩
    | _ => first | exact ⟨true, h1, Or.inl rfl⟩ | exact ⟨false, h1, Or.inl rfl⟩
  obtain ⟨b, hb⟩ := hex
  obtain ⟨e', g1, g2⟩ := via_on hoff h (c := .exists_ p) rfl rfl hb h3
  obtain rfl := g1.1
  refine ⟨⟨rfl, h2.imp_left fun h2 => ?_⟩, g2⟩
  unfold EmptyDir at h2 ⊢
  rw [hsu] at h2
  cases hu : e'.user p with
  | link t =>
    rw [hu] at h2
    intro k hk
    subst hk
    rw [h2 k rfl, h.mdir]
    have := mir_shows h (hnl k hu)
    simp only [this]
    exact Iff.rfl
  | _ => rw [hu] at h2; exact h2

/-- The part of `init` after looking at the path. -/
theorem via_create (hoff : E.Off p) (hq : q ≠ []) {e : Disk} (h : Mir lk p n q m d0 d e) {I : Disk → Prop} (hI : ∀ y, I y → y.mnt n = some m) {Q : Res CErr OpenWs → Disk → Prop}
    (hw : wp E Faults.none I (α := Res CErr OpenWs) (createWorkspace E p branch >>= fun w => expand E w >>= fun _ => Pure.pure w : M OpenWs) Q e) {r : Res CErr OpenWs}
    (he : ExecVia (α := Res CErr OpenWs) E lk p n q (createWorkspace E p branch >>= fun w => expand E w >>= fun _ => Pure.pure w : M OpenWs) d r d') :
    ∃ e', Exec (α := Res CErr OpenWs) E Faults.none (createWorkspace E p branch >>= fun w => expand E w >>= fun _ => Pure.pure w : M OpenWs) e r e' ∧ Mir lk p n q m d0 d' e' := by
  refine via_then hoff hq (mild_of_calm (createWorkspace_calms (A := fun _ => False) E p branch)) hI h hw (fun z d1 e1 g1 k1 hw1 he1 => ?_) he
  cases z with
  | ok w =>
    refine via_then (β := Res CErr OpenWs) hoff hq (expand_mild (createWorkspace_dir g1).2) hI k1 hw1 (fun z d3 e3 g3 k3 hw3 he3 => ?_) he1
    cases z <;> exact via_ret k3 he3
  | _ => exact via_ret k1 he1

theorem via_create_total (hoff : E.Off p) {y : Str} (hn : m.upper ∉ m.lowers) (hlk : ∀ t, ∃ data, lk data = some t) {e : Disk} (h : Mir lk p n [y] m d0 d e)
    {I : Disk → Prop} (hI : ∀ y, I y → y.mnt n = some m) {Q : Res CErr OpenWs → Disk → Prop}
    (hw : wp E Faults.none I (α := Res CErr OpenWs) (createWorkspace E p branch >>= fun w => expand E w >>= fun _ => Pure.pure w : M OpenWs) Q e)
    (hused : e.used.length + 5 < 2 ^ 128) :
    ∃ r d', ExecVia (α := Res CErr OpenWs) E lk p n [y] (createWorkspace E p branch >>= fun w => expand E w >>= fun _ => Pure.pure w : M OpenWs) d r d' := by
  refine via_then_total hoff hn hlk (createWorkspace_draws E p branch) (mild_of_calm (createWorkspace_calms (A := fun _ => False) E p branch)) hI h hw (j := 0) (by omega) fun z d1 e1 g1 k1 hw1 hu1 => ?_
  cases z with
  | ok w' =>
    refine via_then_total (β := Res CErr OpenWs) hoff hn hlk (expand_draws E w') (expand_mild (createWorkspace_dir g1).2) hI k1 hw1 (j := 0) (by omega) fun z d3 e3 g3 k3 hw3 hu3 => ?_
    cases z <;> exact ⟨_, _, .ret _ _⟩
  | _ => exact ⟨_, _, .ret _ _⟩

theorem ask_exists_mild : MildP (α := Res CErr Bool) p (ask (.exists_ p)) := ⟨rfl, fun _ => trivial⟩

theorem via_init (hoff : E.Off p) (hq : q ≠ []) {e : Disk} (h : Mir lk p n q m d0 d e) (hnl : ∀ k, e.user p = .link (E.mountPath k) → ∀ mk, e.mnt k = some mk → m.upper ≠ mk.upper ∧ m.upper ∉ mk.lowers) {I : Disk → Prop} (hI : ∀ y, I y → y.mnt n = some m)
    {Q : Res CErr OpenWs → Disk → Prop} (hw : wp E Faults.none I (α := Res CErr OpenWs) (initCmd E p branch) Q e) {r : Res CErr OpenWs}
    (he : ExecVia (α := Res CErr OpenWs) E lk p n q (initCmd E p branch) d r d') :
    ∃ e', Exec E Faults.none (initCmd E p branch) e r e' ∧ Mir lk p n q m d0 d' e' := by
  refine via_then hoff hq ask_exists_mild hI h hw (fun z d1 e1 g1 k1 hw1 he1 => ?_) he
  cases g1 with
  | op hs g1 =>
    obtain ⟨rfl, _⟩ := hs
    cases g1
    rename_i b _
    cases b with
    | false => exact via_create hoff hq k1 hI hw1 he1
    | true =>
      cases he1 with
      | op hs1 he1 =>
        rename_i b
        obtain ⟨j1, j2⟩ := via_empty hoff k1 hnl hs1
        have hw2 := (hw1 _ _ j1).2
        cases b with
        | true =>
          obtain ⟨e', j3, j4⟩ := via_create hoff hq j2 hI hw2 he1
          exact ⟨e', .op j1 j3, j4⟩
        | false =>
          obtain ⟨e', j3, j4⟩ := via_ret j2 he1
          exact ⟨e', .op j1 j3, j4⟩

theorem via_init_total (hoff : E.Off p) {y : Str} (hn : m.upper ∉ m.lowers) (hlk : ∀ t, ∃ data, lk data = some t) {e : Disk} (h : Mir lk p n [y] m d0 d e)
    (hnl : ∀ k, e.user p = .link (E.mountPath k) → ∀ mk, e.mnt k = some mk → m.upper ≠ mk.upper ∧ m.upper ∉ mk.lowers) {I : Disk → Prop} (hI : ∀ y, I y → y.mnt n = some m) {Q : Res CErr OpenWs → Disk → Prop}
    (hw : wp E Faults.none I (α := Res CErr OpenWs) (initCmd E p branch) Q e) (hused : e.used.length + 5 < 2 ^ 128) :
    ∃ r d', ExecVia (α := Res CErr OpenWs) E lk p n [y] (initCmd E p branch) d r d' := by
  have hdr : Draws (α := Res CErr Bool) (ask (.exists_ p)) 0 := .op (fun h => nomatch h) fun _ => .ret
  refine via_then_total hoff hn hlk hdr ask_exists_mild hI h hw (j := 5) (by omega) fun z d1 e1 g1 k1 hw1 hu1 => ?_
  cases g1 with
  | op hs g1 =>
    obtain ⟨rfl, _⟩ := hs
    cases g1
    rename_i b _
    cases b with
    | false => exact via_create_total hoff hn hlk k1 hI hw1 hu1
    | true =>
      have hst : ∃ b, StepVia E lk p n [y] (.isEmptyDir p) d1 b d1 := by
        have : ∃ b, Step E Faults.none (.isEmptyDir p) (d1.seen lk p n [y]) b (d1.seen lk p n [y]) := by
          simp only [Step, EmptyDir]
          cases hu : (d1.seen lk p n [y]).user p with
          | link t =>
            obtain ⟨b, hb⟩ := leads_total (E := E) t fun k => (∃ m c, (d1.seen lk p n [y]).mdir k = some m ∧ m.merged = some c) ∧ ∀ x, (d1.seen lk p n [y]).shows k [x] = none
            exact ⟨b, trivial, Or.inl hb⟩
          | _ => first | exact ⟨true, trivial, Or.inl rfl⟩ | exact ⟨false, trivial, Or.inl rfl⟩
        obtain ⟨b, hb⟩ := this
        exact ⟨b, fun _ => ⟨_, hb, mirrored_same k1.mounted rfl⟩, fun h => absurd rfl h⟩
      obtain ⟨b, hb⟩ := hst
      obtain ⟨j1, j2⟩ := via_empty hoff k1 hnl hb
      have hw2 := (hw1 _ _ j1).2
      cases b with
      | true =>
        obtain ⟨r, d', j3⟩ := via_create_total hoff hn hlk j2 hI hw2 hu1
        exact ⟨r, d', .op hb j3⟩
      | false => exact ⟨_, _, .op hb (.ret _ _)⟩

end

/-- A link at the place `q` in the workspace, if there is one there, does not lead to a mount over the writable layer of the workspace. -/
def FarLink (E : Env) (lk : Str → Option Str) (d : Disk) (W : OpenWs) (q : List Str) : Prop :=
  ∀ k, d.entryAt lk W.mount.id.base32 q = .link (E.mountPath k) → ∀ m, d.mnt W.mount.id.base32 = some m → ∀ mk, d.mnt k = some mk → m.upper ≠ mk.upper ∧ m.upper ∉ mk.lowers

theorem init_into_run (hd : Reachable E d) (hW : Within E d P W p xs) (hnl : FarLink E lk d W xs.reverse) :
    ∃ m, d.mnt W.mount.id.base32 = some m ∧
    (∀ r d', ExecVia (α := Res CErr OpenWs) E lk p W.mount.id.base32 xs.reverse (initCmd E p branch) d r d' →
      ∃ e', Exec E Faults.none (initCmd E p branch) (d.seen lk p W.mount.id.base32 xs.reverse) r e' ∧ Mir lk p W.mount.id.base32 xs.reverse m d d' e') ∧
    ((∃ y, xs = [y]) → (∀ t, ∃ data, lk data = some t) → d.used.length + 5 < 2 ^ 128 →
      ∃ r d', ExecVia (α := Res CErr OpenWs) E lk p W.mount.id.base32 xs.reverse (initCmd E p branch) d r d') := by
  obtain ⟨g, hs⟩ := steady_reachable hd
  obtain ⟨U, Q, T, hF⟩ := found_of_gets hs (by rw [hW.absP]; exact hW.outP) hW.outer
  cases hm : d.mnt W.mount.id.base32 with
  | none => exact absurd hm hW.mounted
  | some m =>
    have hM := mir_start (lk := lk) hs p xs.reverse hm
    have hoff := off_of_outside hW.outp
    have hup : m.upper ∉ m.lowers := by
      obtain ⟨e1, e2⟩ := mnt_of_found hs hF hm
      rw [e1]
      intro hmem
      obtain ⟨_, nd, hn, hp⟩ := hF.opens.head
      have := anc_shorter (lh := U :: m.lowers) (path_mem_anc e2 U hmem) (.step hn hp e2) e2
      simp at this
      omega
    have hu : ∀ k, (d.seen lk p W.mount.id.base32 xs.reverse).user p = .link (E.mountPath k) → ∀ mk, (d.seen lk p W.mount.id.base32 xs.reverse).mnt k = some mk →
        m.upper ≠ mk.upper ∧ m.upper ∉ mk.lowers := fun k hk mk hmk => by
      rw [show (d.seen lk p W.mount.id.base32 xs.reverse).user p = d.entryAt lk W.mount.id.base32 xs.reverse from upd_self _ _ _] at hk
      exact hnl k hk m hm mk hmk
    have hw := initCmd_wp (f := Faults.none) (d := d.seen lk p W.mount.id.base32 xs.reverse) (branch := branch) hoff
    have hI : ∀ z, MidInit E p branch (d.seen lk p W.mount.id.base32 xs.reverse) z → z.mnt W.mount.id.base32 = some m := fun z hz => by
      rcases hz with hz | ⟨_, _, hz⟩
      · rw [hz.mnt]; exact hm
      · rw [(hz.mounts W.mount.id.base32 hF.mdir (fun h => h)).2.2]; exact hm
    refine ⟨m, rfl, fun r d' he => via_init hoff hW.place hM hu hI hw he, ?_⟩
    rintro ⟨y, rfl⟩ hlk hused
    exact via_init_total hoff hup hlk hM hu hI hw hused

/-- **C107.** `init` at a path inside a workspace makes a workspace inside it: a new space with a new history, that shows no files. The outer workspace keeps all its
files but what was at that path. -/
theorem C107_init_into (hd : Reachable E d) (hW : Within E d P W p xs) (hnl : FarLink E lk d W xs.reverse) {r : OpenWs}
    (he : ExecVia (α := Res CErr OpenWs) E lk p W.mount.id.base32 xs.reverse (initCmd E p branch) d (.ok r) d') :
    Reachable E d' ∧ ∃ W2 w2 root u, Nested E lk d' P W2 p xs w2 ∧ SameWs W W2 ∧ W2.mount.id = W.mount.id ∧ (∀ r, r ≠ xs.reverse → d'.lists W2 r = d.lists W r) ∧
      (∀ U Q, W.ws.HeadAt W.tree U Q → W2.ws.HeadAt W2.tree U Q) ∧ (∀ r, r ≠ p → d'.user r = d.user r) ∧ w2.ws.id ∉ d.used ∧ d.space w2.spaceDir = none ∧ w2.ws.branch = sanitize branch ∧
      w2.ws.HeadAt w2.tree u root ∧ NewHistory w2.tree.abs w2.ws.id root u (sanitize branch) ∧ d'.Mounted w2 ∧ ∀ r, d'.lists w2 r = none := by
  obtain ⟨g, hs⟩ := steady_reachable hd
  have hse := seen_steady (lk := lk) hs p W.mount.id.base32 xs.reverse
  have hPp : Path.abs P (lit ".") ≠ p := by rw [hW.absP]; exact hW.ne
  obtain ⟨m, hm, h1, _⟩ := init_into_run (lk := lk) (branch := branch) hd hW hnl
  obtain ⟨e', h2, hM⟩ := h1 _ d' he
  obtain ⟨U, Q, T, hF⟩ := found_of_gets hs (by rw [hW.absP]; exact hW.outP) hW.outer
  have hFe : Found E (d.seen lk p W.mount.id.base32 xs.reverse) g P (lit ".") W U Q T :=
    ⟨opens_same hF.opens (upd_ne _ _ hPp) rfl rfl fun _ h => h, hF.mdir, hF.tree, hF.shallow, hF.back⟩
  obtain ⟨root, u2, dp, g', w2, b0, b1, b2, b3, bne, b5, b6, b8, b9, b11, _⟩ := after_init hse (cwd := p) (path := lit ".") (by rw [hW.absp]; exact hW.outp) (by rw [hW.absp]; exact h2)
  rw [hW.absp] at b11
  have h3 : W.mount.id.base32 ≠ w2.mount.id.base32 := fun e => hF.mdir (by rw [e, ← show dp.mdir = d.mdir from b0.mdir]; exact b11.newMdir)
  obtain ⟨k1, k2, k3⟩ := b11.others _ h3 (fun h => h)
  have k2' : e'.info W.mount.id.base32 = (d.seen lk p W.mount.id.base32 xs.reverse).info W.mount.id.base32 := k2.trans (by rw [b0.litter.info])
  have hus : ∀ r, r ≠ p → e'.user r = (d.seen lk p W.mount.id.base32 xs.reverse).user r := fun r hr => (b11.user r hr).trans (by rw [b0.litter.user])
  obtain ⟨W2, o, e1, e2, e3, e4, e5⟩ := others_open hse b1 b2 b3 hFe (hus _ hPp) k2'
  have hmt : d'.Mounted W2 := by rw [Disk.Mounted, e3, hM.mounted]; simp
  have hmn : d'.mnt w2.mount.id.base32 = some ⟨u2, [root]⟩ := by rw [← hM.mnt]; exact b11.mnt
  have hN := newHistory (wid := w2.ws.id) (branch := sanitize branch) bne
  rw [← b9] at hN
  have hre : Reachable E e' :=
    reachable_next (seen_reachable (lk := lk) hd p W.mount.id.base32 xs.reverse) (f := Faults.none) rfl (a := .init p branch) (off_of_outside hW.outp) (.init h2)
  refine ⟨mir_reachable hM hre, W2, w2, root, u2, ⟨hW.absP, hW.absp, hW.outP, hW.outp, hW.path, hW.proper, gets_of_opens (opens_beside hM hPp o), hmt, ?_, ?_⟩, ⟨e1, e4, e2⟩, e3, fun r hr => ?_,
    fun U' Q' h => ?_, fun r hr => by rw [← hM.user r hr]; exact (hus r hr).trans (upd_ne _ _ hr), b6 ⟨rfl, rfl, hse.tracked⟩, b0.newSpace, b8, b5.head, hN, by rw [Disk.Mounted, hmn]; simp, ?_⟩
  · rw [e3]; exact gets_of_opens (opens_seen hM hW.absp b5)
  · rw [e3]; exact fun e => h3 (by rw [e])
  · simp only [Disk.lists, e3]
    split
    · rfl
    · rename_i hr'; exact hM.rest r hr hr'
  · obtain ⟨rfl, rfl⟩ := headAt_unique (wf_of_reach (opens_reach hF.opens)) hF.opens.head h
    exact o.head
  · obtain ⟨w, _, _, c1, _, _, _, _, c5, _⟩ := C55_init (cwd := p) (path := lit ".") (f := Faults.none) (seen_reachable (lk := lk) hd p W.mount.id.base32 xs.reverse)
      (by rw [hW.absp]; exact hW.outp) (by rw [hW.absp]; exact h2)
    obtain rfl := gets_unique hre (by rw [hW.absp]; exact hW.outp) c1 (gets_of_opens b5)
    intro r
    rw [← c5 r, lists_mounted b11.mnt, lists_mounted hmn]
    have hnew : ∀ v, (d.seen lk p W.mount.id.base32 xs.reverse).layer v = none → v ≠ m.upper := by
      rintro v hv rfl
      obtain ⟨c, hc⟩ := head_stored hs (mnt_head hs hm)
      have : d.layer m.upper = none := hv
      rw [hc] at this; cases this
    have hu2 : u2 ≠ m.upper := hnew u2 (by
      have := b11.newLayer
      rwa [b0.layer, upd_ne _ _ bne] at this)
    have hr2 : root ≠ m.upper := hnew root b0.newLayer
    simp only [List.map_cons, List.map_nil]
    rw [mir_content hM hu2, mir_content hM hr2]

/-- **C107.** Such an `init` is accepted if and only if there is at the path nothing, an empty directory, or the link to a mount that shows no files. -/
theorem C107_init_accepted_iff (hd : Reachable E d) (hW : Within E d P W p xs) (hnl : FarLink E lk d W xs.reverse)
    (hlink : ∀ t, d.entryAt lk W.mount.id.base32 xs.reverse = .link t → ∃ id ∈ d.used, t = E.mountPath id.base32) {r : Res CErr OpenWs}
    (he : ExecVia (α := Res CErr OpenWs) E lk p W.mount.id.base32 xs.reverse (initCmd E p branch) d r d') :
    (∃ x, r = .ok x) ↔ (d.entryAt lk W.mount.id.base32 xs.reverse = .none ∨ d.entryAt lk W.mount.id.base32 xs.reverse = .emptyDir ∨
      ∃ k, d.entryAt lk W.mount.id.base32 xs.reverse = .link (E.mountPath k) ∧ (∃ m c, d.mdir k = some m ∧ m.merged = some c) ∧ ∀ x, d.shows k [x] = none) ∧ E.Fits 1 := by
  obtain ⟨m, hm, h1, _⟩ := init_into_run (lk := lk) (branch := branch) hd hW hnl
  obtain ⟨e', h2, hM⟩ := h1 _ d' he
  have hu : (d.seen lk p W.mount.id.base32 xs.reverse).user p = d.entryAt lk W.mount.id.base32 xs.reverse := upd_self _ _ _
  rw [C55_accepted_iff (seen_reachable (lk := lk) hd p W.mount.id.base32 xs.reverse) (off_of_outside hW.outp) (fun t ht => by rw [hu] at ht; exact hlink t ht) h2]
  refine and_congr_left fun _ => ?_
  rw [← hu]
  refine ⟨fun h => ?_, fun h => ?_⟩
  · cases h with
    | nothing h => exact Or.inl h
    | empty h => exact Or.inr (Or.inl h)
    | bare h h1 h2 => exact Or.inr (Or.inr ⟨_, h, h1, h2⟩)
  · rcases h with h | h | ⟨k, h, h1, h2⟩
    · exact .nothing h
    · exact .empty h
    · exact .bare h h1 h2

/-- **C107.** There are such runs. -/
theorem C107_init_runs (hd : Reachable E d) {y : Str} (hW : Within E d P W p [y]) (hnl : FarLink E lk d W [y]) (hlk : ∀ t, ∃ data, lk data = some t)
    (hused : d.used.length + 5 < 2 ^ 128) : ∃ r d', ExecVia (α := Res CErr OpenWs) E lk p W.mount.id.base32 [y] (initCmd E p branch) d r d' := by
  obtain ⟨_, _, _, h⟩ := init_into_run (lk := lk) (branch := branch) hd hW hnl
  exact h ⟨y, rfl⟩ hlk hused

end
end Verif
