import Verif.Props.Inner
import Verif.Props.CliWorld
/-!
# A workspace inside another workspace: branches and tags (C107)
-/
set_option autoImplicit false
namespace Verif
open M TS Json

section
variable {α : Type} {E : Env} {f : Faults} {lk : Str → Option Str} {P p : Str} {xs : List Str} {W w : OpenWs} {d d' : Disk}

theorem editAll_mnt (T : Str → Option Mnt) (dir : Str) (w : Ws) : ∀ (es : List Edit) (s : TS) (d : Disk), d.mnt = T →
    wp E f (fun y => y.mnt = T) (α := Res CErr TS) (editAll dir w es s) (fun _ _ => True) d
  | [], _, _, _ => trivial
  | e :: es, s, d, h => by
    unfold editAll
    refine wp_bind.2 ?_
    unfold lift
    cases e.apply s w with
    | panic => trivial
    | diverge => trivial
    | err _ => trivial
    | ok s' =>
      show wp E f _ (α := Res CErr TS) (spaceSave dir s' >>= fun _ => editAll dir w es s' : M TS) _ d
      refine wp_bind.2 ?_
      have h0 : wp E f (fun y => y.mnt = T) (α := Res CErr Unit) (spaceSave dir s') (fun _ y => y.mnt = T) d := by
        unfold spaceSave
        rintro b d1 ⟨rfl, _⟩
        refine ⟨h, ?_⟩
        intro a d2 h2
        have h2' : d2.mnt = T := by
          rcases h2 with ⟨_, _, rfl⟩ | ⟨_, _, rfl⟩ <;> exact h
        refine ⟨h2', ?_⟩
        cases a
        · exact h2'
        intro a d3 h3
        have h3' : d3.mnt = T := by
          simp only [Step] at h3
          split at h3
          · rcases h3 with ⟨_, rfl⟩ | ⟨_, _, _, _, rfl⟩ <;> exact h2'
          · rw [h3.1]; exact h2'
        exact ⟨h3', by cases a <;> exact h3'⟩
      refine wp_mono h0 ?_
      intro r d1 h1
      cases r with
      | ok _ => exact editAll_mnt T dir w es s' d1 h1
      | _ => trivial

theorem editCmd_mild (cwd : Str) (es : List Edit) : MildP (α := Res CErr TS) p (editCmd E cwd es) :=
  mild_of_calm (A := fun _ => True) (calms_bind (getWorkspace_calms E cwd (lit ".") trivial) fun w => edit_away w.spaceDir w.ws es w.tree)

theorem editCmd_mnt {cwd : Str} {es : List Edit} {u pu : UID} (ho : Opens E d cwd (lit ".") w u pu) :
    wp E f (fun y => y.mnt = d.mnt) (α := Res CErr TS) (editCmd E cwd es) (fun _ _ => True) d := by
  unfold editCmd
  refine wp_bind.2 (wp_mono (wp_monoI (getWorkspace_wp ho) fun _ h => by rw [h]) ?_)
  intro r d1 h1
  cases r with
  | ok w1 =>
    obtain ⟨rfl, rfl⟩ := h1
    exact editAll_mnt _ _ _ _ _ _ rfl
  | _ => trivial

/-- `branch` and `tag` with changes in the inner workspace. -/
theorem nested_edit (hd : Reachable E d) (hN : Nested E lk d P W p xs w) (es : List Edit) :
    ∃ m, d.mnt W.mount.id.base32 = some m ∧
    (∀ r d', ExecVia (α := Res CErr TS) E lk p W.mount.id.base32 xs.reverse (editCmd E p es) d r d' →
      ∃ e', Exec E Faults.none (editCmd E p es) (d.seen lk p W.mount.id.base32 xs.reverse) r e' ∧ Mir lk p W.mount.id.base32 xs.reverse m d d' e') ∧
    ((∃ y, xs = [y]) → (∀ t, ∃ data, lk data = some t) → d.used.length < 2 ^ 128 →
      ∃ r d', ExecVia (α := Res CErr TS) E lk p W.mount.id.base32 xs.reverse (editCmd E p es) d r d') := by
  obtain ⟨g, hs⟩ := steady_reachable hd
  have hse := seen_steady (lk := lk) hs p W.mount.id.base32 xs.reverse
  obtain ⟨U, Q, T, hF⟩ := found_of_gets hs (by rw [hN.absP]; exact hN.outP) hN.outer
  obtain ⟨u, pu, t, hf⟩ := found_of_gets hse (by rw [hN.absp]; exact hN.outp) hN.inner
  cases hm : d.mnt W.mount.id.base32 with
  | none => exact absurd hm hN.mounted
  | some m =>
    have hM := mir_start (lk := lk) hs p xs.reverse hm
    have hoff := off_of_outside hN.outp
    have hup : m.upper ∉ m.lowers := by
      obtain ⟨e1, e2⟩ := mnt_of_found hs hF hm
      rw [e1]
      intro hmem
      obtain ⟨_, nd, hn, hp⟩ := hF.opens.head
      have := anc_shorter (lh := U :: m.lowers) (path_mem_anc e2 U hmem) (.step hn hp e2) e2
      simp at this
      omega
    have hw := editCmd_mnt (f := Faults.none) (es := es) hf.opens
    have hI : ∀ y : Disk, y.mnt = (d.seen lk p W.mount.id.base32 xs.reverse).mnt → y.mnt W.mount.id.base32 = some m := fun y h => by rw [h]; exact hm
    refine ⟨m, rfl, fun r d' he => ?_, ?_⟩
    · obtain ⟨e', h1, h2, _⟩ := via_exec hoff hN.place (editCmd_mild p es) hI hM hw he
      exact ⟨e', h1, h2⟩
    · rintro ⟨y, rfl⟩ hlk hused
      obtain ⟨r, d', _, h1, _⟩ := via_total hoff hup hlk (editCmd_draws E p es) (editCmd_mild p es) hI hM hw hused
      exact ⟨r, d', h1⟩

/-- **C107.** `branch` and `tag` with changes in the inner workspace do what they do in a workspace on a path of its own: the same answer, and the same records, trees and mounts. -/
theorem C107_edit_same (hd : Reachable E d) (hN : Nested E lk d P W p xs w) {es : List Edit} {r : Res CErr TS}
    (he : ExecVia (α := Res CErr TS) E lk p W.mount.id.base32 xs.reverse (editCmd E p es) d r d') :
    Reachable E d' ∧ ∃ e', Exec E Faults.none (editCmd E p es) (d.seen lk p W.mount.id.base32 xs.reverse) r e' ∧ d'.used = e'.used ∧ d'.space = e'.space ∧ d'.info = e'.info ∧ d'.mnt = e'.mnt ∧
      d'.entryAt lk W.mount.id.base32 xs.reverse = e'.user p := by
  obtain ⟨m, hm, h1, _⟩ := nested_edit hd hN es
  obtain ⟨e', h2, h3⟩ := h1 r d' he
  refine ⟨mir_reachable h3 ?_, e', h2, h3.used.symm, h3.space.symm, h3.info.symm, h3.mnt.symm, h3.seen.symm⟩
  exact reachable_next (seen_reachable (lk := lk) hd p W.mount.id.base32 xs.reverse) (f := Faults.none) rfl (a := .edit p es) (by show E.Outside _; rw [hN.absp]; exact hN.outp) (.edit h2)

theorem tree_of_dir {e : Disk} {cwd path cwd2 path2 : Str} {w w2 : OpenWs} {u pu u2 pu2 : UID} (h : Opens E e cwd path w u pu) (h2 : Opens E e cwd2 path2 w2 u2 pu2)
    (he : w2.spaceDir = w.spaceDir) : w2.tree = w.tree := by
  obtain ⟨_, b, _, _, a1, a2⟩ := h.tree
  obtain ⟨_, b2, _, _, c1, c2⟩ := h2.tree
  rw [he, a1] at c1
  cases c1
  rw [a2] at c2
  exact (Res.ok.inj c2).symm

/-- **C107.** And they leave both workspaces where they are: the same mounts, the same heads, the same files in both. The names change as asked in the space of the inner workspace; the outer
workspace sees that if it is of the same space, and is as it was if it is of another one. -/
theorem C107_edit (hd : Reachable E d) (hN : Nested E lk d P W p xs w) {u pu : UID} (hh : w.ws.HeadAt w.tree u pu) {es : List Edit} (hne : es ≠ []) (h8 : ∀ e ∈ es, e.Utf8) {s : TS}
    (he : ExecVia (α := Res CErr TS) E lk p W.mount.id.base32 xs.reverse (editCmd E p es) d (.ok s) d') :
    ∃ W2 w2, Nested E lk d' P W2 p xs w2 ∧ SameWs W W2 ∧ SameWs w w2 ∧ W2.mount.id = W.mount.id ∧ w2.mount.id = w.mount.id ∧ EditsAll w.ws pu es w.tree.abs w2.tree.abs ∧
      (∀ U Q, W.ws.HeadAt W.tree U Q → W2.ws.HeadAt W2.tree U Q) ∧ w2.ws.HeadAt w2.tree u pu ∧
      (W.spaceID = w.spaceID → W2.tree.abs = w2.tree.abs) ∧ (W.spaceID ≠ w.spaceID → W2 = W) ∧
      (∀ r, r ≠ xs.reverse → d'.lists W2 r = d.lists W r) ∧ (d.Mounted w → Apart d W w → d'.lists w2 = d.lists w) ∧
      d'.mdir = d.mdir ∧ d'.mnt = d.mnt ∧ d'.info = d.info ∧ ∀ r, r ≠ p → d'.user r = d.user r := by
  obtain ⟨g, hs⟩ := steady_reachable hd
  have hse := seen_steady (lk := lk) hs p W.mount.id.base32 xs.reverse
  have hPp : Path.abs P (lit ".") ≠ p := by rw [hN.absP]; exact hN.ne
  obtain ⟨m, hm, h1, _⟩ := nested_edit hd hN es
  obtain ⟨e', h2, hM⟩ := h1 _ d' he
  obtain ⟨U, Q, T, hF⟩ := found_of_gets hs (by rw [hN.absP]; exact hN.outP) hN.outer
  have hFe : Found E (d.seen lk p W.mount.id.base32 xs.reverse) g P (lit ".") W U Q T :=
    ⟨opens_same hF.opens (upd_ne _ _ hPp) rfl rfl fun _ h => h, hF.mdir, hF.tree, hF.shallow, hF.back⟩
  obtain ⟨t, hf⟩ := gets_found hse (by rw [hN.absp]; exact hN.outp) hN.inner hh
  obtain ⟨hE, g', w2, b, c1, rfl, c3, c4, c5, hc, c6, c7⟩ := after_edit_grew hse hne hf h2
  have e2 : w2.tree.abs = s.abs := by
    have := utf8_edits hE h8 (found_utf8 hf)
    rw [comesBack_named hc (utf8_named this), tidy_utf8 this]
  obtain ⟨W2, o, e1, e3, e4, e5, e6⟩ := others_open hse c1 c6 c7 hFe rfl rfl
  have hmt : d'.Mounted W2 := by rw [Disk.Mounted, e4, hM.mounted]; simp
  refine ⟨W2, w2, ⟨hN.absP, hN.absp, hN.outP, hN.outp, hN.path, hN.proper, gets_of_opens (opens_beside hM hPp o), hmt, ?_, ?_⟩, ⟨e1, e5, e3⟩, c4, e4, by rw [c5], by rw [e2]; exact hE,
    fun U' Q' h => ?_, c3.head, fun h => ?_, fun h => ?_, fun r hr => ?_, fun hmw hap => ?_, hM.mdir.symm, hM.mnt.symm, hM.info.symm, fun r hr => ?_⟩
  · rw [e4]; exact gets_of_opens (opens_seen hM hN.absp c3)
  · rw [e4, c5]; exact hN.other
  · obtain ⟨rfl, rfl⟩ := headAt_unique (wf_of_reach (opens_reach hF.opens)) hF.opens.head h
    exact o.head
  · rw [tree_of_dir c3 o (by rw [o.dir, c3.dir, e3, h, c4.2.2])]
  · have ho := hFe.opens
    have hne : W.spaceDir ≠ w.spaceDir := by
      rw [ho.dir, hf.opens.dir]; exact fun e => h (base32_inj e)
    have o' : Opens E ((d.seen lk p W.mount.id.base32 xs.reverse).setSpace w.spaceDir (some (some b))) P (lit ".") W U Q :=
      ⟨ho.out, ho.link, ho.path, ho.info, ho.mount, ho.dir, by simpa only [Disk.setSpace, upd_ne _ _ hne] using ho.tree, ho.head, ho.stored⟩
    exact (wpm_exec_ok (getWorkspace_wp o) (gets_of_opens o')).1.symm
  · simp only [Disk.lists, e4]
    split
    · rfl
    · rename_i hr'; exact hM.rest r hr hr'
  · obtain ⟨lp, l1, l2, l3⟩ := nested_files hs hN hap hmw hh
    cases hx : d.mnt w.mount.id.base32 with
    | none => exact absurd hx hmw
    | some m2 =>
      have hx' : d'.mnt w2.mount.id.base32 = some m2 := by rw [← hM.mnt, c5]; exact hx
      obtain ⟨i1, i2⟩ := mnt_of_found hse hf hx
      have : m2.lowers = lp := Ws.path_unique i2 l1
      rw [lists_mounted hx', l2, i1, this]
      congr 1
      refine List.map_congr_left fun v hv => (mir_content hM ?_).symm
      rintro rfl
      exact l3 m hm hv
  · rw [← hM.user r hr]; exact upd_ne _ _ hr

/-- **C107.** And they are accepted and refused as anywhere else. -/
theorem C107_edit_accepted_iff (hd : Reachable E d) (hN : Nested E lk d P W p xs w) {u pu : UID} (hh : w.ws.HeadAt w.tree u pu) {e : Edit} (hp : e.Plain) {r : Res CErr TS}
    (he : ExecVia (α := Res CErr TS) E lk p W.mount.id.base32 xs.reverse (editCmd E p [e]) d r d') : (∃ s, r = .ok s) ↔ ∃ a', Edits w.tree.abs w.ws pu e a' := by
  obtain ⟨_, e', h2, _⟩ := C107_edit_same hd hN he
  exact C24_accepted_iff (seen_reachable (lk := lk) hd p W.mount.id.base32 xs.reverse) (by rw [hN.absp]; exact hN.outp) hN.inner hh rfl hp h2

/-- **C107.** There are such runs. -/
theorem C107_edit_runs (hd : Reachable E d) {y : Str} (hN : Nested E lk d P W p [y] w) (hlk : ∀ t, ∃ data, lk data = some t) (hused : d.used.length < 2 ^ 128) (es : List Edit) :
    ∃ r d', ExecVia (α := Res CErr TS) E lk p W.mount.id.base32 [y] (editCmd E p es) d r d' := by
  obtain ⟨_, _, _, h⟩ := nested_edit hd hN es
  exact h ⟨y, rfl⟩ hlk hused

end
end Verif
