import Verif.Props.Below
import Verif.Props.BelowExamples
import Verif.Props.MoreExamples
/-!
# Branches, tags and clones from a directory below the top of a workspace (C106)

Known by its real path, such a directory is taken for the workspace. The commands that do not touch the path of the workspace do there what they do at its top.
-/
set_option autoImplicit false
namespace Verif
open M TS Json

section
variable {α β : Type} {E : Env}

/-- The call is not about a path below the top of a mount. -/
def Cmd.Away (E : Env) : Cmd → Prop
  | .isSymlink p => E.Off p
  | .exists_ p => E.Off p
  | .remove p => E.Off p
  | .symlink _ p => E.Off p
  | .lchown p => E.Off p
  | _ => True

/-- The program makes such calls only. -/
def AwayP (E : Env) : Prog α → Prop
  | .ret _ => True
  | .op c k => c.Away E ∧ ∀ x, AwayP E (k x)

theorem away_of_flat {p : Prog α} (h : FlatP p) : AwayP E p := by
  induction p with
  | ret a => trivial
  | op c k ih =>
    refine ⟨?_, fun x => ih x (h.2 x)⟩
    have := h.1
    cases c <;> first | trivial | exact this.elim

/-- Whatever is answered, the program ends with such a value. -/
def RetsP (R : α → Prop) : Prog α → Prop
  | .ret a => R a
  | .op _ k => ∀ x, RetsP R (k x)

theorem away_bind_rets {R : α → Prop} {p : Prog α} {g : α → Prog β} (h : AwayP E p) (hr : RetsP R p) (h' : ∀ a, R a → AwayP E (g a)) : AwayP E (p.bind g) := by
  induction p with
  | ret a => exact h' a hr
  | op c k ih => exact ⟨h.1, fun x => ih x (h.2 x) (hr x)⟩

theorem rets_bind {R : β → Prop} {p : Prog α} {g : α → Prog β} (h' : ∀ a, RetsP R (g a)) : RetsP R (p.bind g) := by
  induction p with
  | ret a => exact h' a
  | op c k ih => exact fun x => ih x

theorem rets_all (p : Prog α) : RetsP (fun _ => True) p := by
  induction p with
  | ret a => trivial
  | op c k ih => exact fun x => ih x

/-- A workspace at the path, if there is one. -/
def AtTarget (target : Str) (r : Res CErr OpenWs) : Prop := ∀ w, r = .ok w → w.ws.path = target

theorem rets_m {target : Str} {x : M α} {g : α → M OpenWs} (h : ∀ a, RetsP (AtTarget target) (g a)) : RetsP (AtTarget target) (x >>= g : M OpenWs) := by
  refine rets_bind fun a => ?_
  cases a with
  | ok a => exact h a
  | err e => exact nofun
  | panic => exact nofun
  | diverge => exact nofun

theorem cloneP_rets (w : OpenWs) (target : Str) : RetsP (AtTarget target) (cloneP E w target) := by
  unfold cloneP
  refine rets_m fun p => rets_m fun x => rets_m fun wid => ?_
  unfold saveAll
  refine rets_m fun _ => rets_m fun _ => ?_
  rintro w' ⟨⟩
  rfl

theorem execBelow_of_away {p : Prog α} (h : AwayP E p) {d d' : Disk} {a : α} (he : Exec E Faults.none p d a d') : ExecBelow E p d a d' := by
  induction he with
  | ret a d => exact .ret a d
  | @op c k d d1 d2 x a hs _ ih =>
    refine .op (x := x) (d1 := d1) ?_ (ih (h.2 _))
    have ha := h.1
    cases c with
    | isSymlink p => exact ⟨hs, fun i xs hb => absurd (below_inside hb) (ha _)⟩
    | exists_ p => exact ⟨hs, fun i xs hb => absurd (below_inside hb) (ha _)⟩
    | remove p => exact ⟨hs, fun i xs m hb => absurd (below_inside hb) (ha _)⟩
    | symlink t p => exact ⟨hs, fun i xs m hb => absurd (below_inside hb) (ha _)⟩
    | lchown p => exact ⟨hs, fun i xs m hb => absurd (below_inside hb) (ha _)⟩
    | _ => exact hs

theorem relink_away {w : OpenWs} (h : E.Off w.ws.path) : AwayP (α := Res CErr Unit) E (relink E w) := by
  have tail : AwayP (α := Res CErr Unit) E (do
      need (← ask (.symlink (E.mountPath w.mount.dir) w.ws.path)) .symlink
      need (← ask (.lchown w.ws.path)) .symlink
      need (← ask (.sys .chdirBack)) .cwd : M Unit) := by
    refine ⟨h, fun a => ?_⟩
    cases a
    · exact trivial
    refine ⟨h, fun a => ?_⟩
    cases a
    · exact trivial
    exact ⟨trivial, fun a => by cases a <;> exact trivial⟩
  unfold relink
  refine ⟨trivial, fun a => ?_⟩
  cases a
  · exact trivial
  refine ⟨trivial, fun a => ?_⟩
  cases a
  · exact trivial
  refine ⟨h, fun a => ?_⟩
  cases a
  · exact tail
  refine ⟨h, fun a => ?_⟩
  cases a
  · exact trivial
  · exact tail

theorem edit_away {A : Str → Prop} (dir : Str) (w : Ws) : ∀ (es : List Edit) (s : TS), Calms A (editAll dir w es s)
  | [], _ => calms_pure
  | e :: es, s => by
    unfold editAll
    refine calms_bind calms_lift fun s' => calms_bind ?_ fun _ => edit_away dir w es s'
    unfold spaceSave
    exact calms_bind (calms_ask trivial) fun b => calms_must trivial (calms_last trivial)

theorem edit_path (w : Ws) (Q : Str) (e : Edit) (s : TS) : e.apply s { w with path := Q } = e.apply s w := by
  cases e <;> rfl

theorem editAll_path (dir : Str) (w : Ws) (Q : Str) : ∀ (es : List Edit) (s : TS), editAll dir { w with path := Q } es s = editAll dir w es s
  | [], _ => rfl
  | e :: es, s => by
    have ih : (fun s' => editAll dir { w with path := Q } es s') = fun s' => editAll dir w es s' := funext (editAll_path dir w Q es)
    rw [editAll, editAll, edit_path]
    congr 1
    funext s'
    congr 1
    funext _
    exact congrFun ih s'

/-- The same from below as at the top. -/
theorem below_same {d : Disk} (hd : Reachable E d) {P : Str} (hP : Path.abs P (lit ".") = P) (hout : E.Outside P) {w : OpenWs} (hg : Gets E d P (lit ".") w)
    {Q : Str} (hQ : Path.abs Q (lit ".") = Q) {xs : List Str} (hb : E.Below Q w.mount.id xs) (hdir : d.ShowsDir w.mount.id.base32 xs.reverse)
    {k : OpenWs → M α} (hk : k (w.atPath Q) = k w) (haw : AwayP (α := Res CErr α) E (k w)) (r : Res CErr α) (d' : Disk) :
    ExecBelow E (getWorkspace E Q (lit ".") >>= k : M α) d r d' ↔ Exec E Faults.none (getWorkspace E P (lit ".") >>= k : M α) d r d' := by
  obtain ⟨g, hS⟩ := steady_reachable hd
  obtain ⟨u, p, hh⟩ := gets_head hd (by rw [hP]; exact hout) hg
  obtain ⟨T, hF⟩ := gets_found hS (by rw [hP]; exact hout) hg hh
  have ho := hF.opens
  obtain ⟨o1, o2⟩ := getWorkspace_below ho hQ hb hdir
  constructor
  · intro he
    obtain ⟨a, d1, h1, h2⟩ := execBelow_bind he
    obtain ⟨rfl, rfl⟩ := o1 _ _ h1
    refine exec_trans hg ?_
    have h2 : ExecBelow (α := Res CErr α) E (k (w.atPath Q)) d1 r d' := h2
    rw [hk] at h2
    exact execBelow_exec h2
  · intro he
    obtain ⟨a, d1, h1, h2⟩ := exec_bind he
    have hq := wpm_exec (getWorkspace_wp (f := Faults.none) ho) h1
    cases a with
    | err e => exact absurd hq.2.2 (by simp [Faults.none])
    | panic => exact hq.elim
    | diverge => exact hq.elim
    | ok w' =>
      obtain ⟨rfl, rfl⟩ := hq
      refine execBelow_trans o2 ?_
      show ExecBelow (α := Res CErr α) E (k (w'.atPath Q)) d1 r d'
      rw [hk]
      exact execBelow_of_away haw h2

/-- **C106, violated.** In a directory below the top of a workspace, known by its real path, `branch` and `tag` are not refused: they do, for all their arguments, exactly what they do at the top of
the workspace. So does a clone of the directory: it is a clone of the workspace. -/
theorem C106_violated_edit {d : Disk} (hd : Reachable E d) {P : Str} (hP : Path.abs P (lit ".") = P) (hout : E.Outside P) {w : OpenWs} (hg : Gets E d P (lit ".") w)
    {Q : Str} (hQ : Path.abs Q (lit ".") = Q) {xs : List Str} (hb : E.Below Q w.mount.id xs) (hdir : d.ShowsDir w.mount.id.base32 xs.reverse) :
    (∀ es r d', ExecBelow E (editCmd E Q es) d r d' ↔ Exec E Faults.none (editCmd E P es) d r d') ∧
    ∀ target, E.Off target → ∀ r d', ExecBelow E (cloneCmd E Q (lit ".") target) d r d' ↔ Exec E Faults.none (cloneCmd E P (lit ".") target) d r d' := by
  refine ⟨fun es r d' => ?_, fun target ht r d' => ?_⟩
  · exact below_same hd hP hout hg hQ hb hdir (k := fun w => editAll w.spaceDir w.ws es w.tree) (editAll_path _ w.ws Q es w.tree) (away_of_flat (flat_of_calm (edit_away _ _ _ _))) r d'
  · refine below_same hd hP hout hg hQ hb hdir (k := fun w => cloneP E w target >>= fun w' => expand E w' >>= fun _ => Pure.pure w') rfl ?_ r d'
    refine away_bind_rets (away_of_flat (flat_of_calm (cloneP_calms E w target))) (cloneP_rets w target) fun a ha => ?_
    cases a with
    | err e => exact trivial
    | panic => exact trivial
    | diverge => exact trivial
    | ok w' =>
      refine away_bind_rets (R := fun _ => True) ?_ (rets_all _) fun b _ => ?_
      · rw [expand_eq]
        refine away_bind_rets (R := fun _ => True) (away_of_flat (flat_of_calm (mountP_calms w'.mount))) (rets_all _) fun b _ => ?_
        cases b with
        | ok b => exact relink_away (by rw [ha w' rfl]; exact ht)
        | err e => exact trivial
        | panic => exact trivial
        | diverge => exact trivial
      · cases b <;> exact trivial

end

open Story
namespace Story

/-- `C106_violated_edit`: in the directory `sub` of the workspace, known by its real path, `tag v1 HEAD` succeeds. -/
example : ∃ d d' w s, Gets E0 d cw (lit ".") w ∧ d.ShowsDir w.mount.id.base32 [lit "sub"] ∧
    ExecBelow E0 (editCmd E0 (E0.belowPath w.mount.id [lit "sub"]) [.addTag (lit "v1") (lit "HEAD") false]) d (.ok s) d' := by
  obtain ⟨d0, w, u, root, hB⟩ := begun
  obtain ⟨hL, hus, hc⟩ := live_write hB.live withFull
  have := hB.used
  have hs : ∀ r, (d0.put u withFull).shows w.mount.id.base32 r = view [withFull, (d0.put u withFull).content root] r := fun r => by
    simp only [Disk.shows, hL.mnt, List.map_cons, hc, List.map_nil]
  have hdir : (d0.put u withFull).ShowsDir w.mount.id.base32 [lit "sub"] := ⟨.new, by rw [hs]; simp [view, stack, topEnt, withFull]⟩
  obtain ⟨b1, b2⟩ := below_path (E := E0) (i := w.mount.id) (xs := [lit "sub"]) (by simp) sub_plain
  obtain ⟨r, d', he⟩ := exec_total (E := E0) (f := Faults.none) (editCmd_draws E0 cw [.addTag (lit "v1") (lit "HEAD") false]) (d0.put u withFull) (by rw [hus]; omega)
  have hno : w.tree.abs.tag (lit "v1") = none := by
    cases h : w.tree.abs.tag (lit "v1") with
    | none => rfl
    | some v => exact absurd ((hB.new.tags _ _).1 h).1 (by decide)
  obtain ⟨s, rfl⟩ := (C24_accepted_iff hL.past.reachable outw hL.gets hL.opens.head rfl (e := .addTag (lit "v1") (lit "HEAD") false) plainHEAD he).2
    ⟨_, .addTag (v := root) (k := .commit) .head (Or.inl hno)⟩
  exact ⟨_, d', w, s, hL.gets, hdir, ((C106_violated_edit hL.past.reachable (P := cw) (by decide) outw' hL.gets b2 b1 hdir).1 _ _ _).2 he⟩

end Story
end Verif
