import Verif.Props.Refused
/-!
# `init` and `clone` on the path of a workspace (C87)

One would expect that neither takes the path of a workspace away from it. `init` does if the workspace shows no files; `clone` always does.
-/
set_option autoImplicit false
namespace Verif
open M TS Json

section
variable {E : Env} {f : Faults}

/-- No path outside of the data directory leads to the mount `m`. -/
def Unlinked (E : Env) (d : Disk) (m : UID) : Prop := ∀ cwd path w, E.Outside (Path.abs cwd path) → Gets E d cwd path w → w.mount.id ≠ m

/-- `path` is the only one that leads to the mount `m`. -/
def OnlyLink (E : Env) (d : Disk) (path : Str) (m : UID) : Prop :=
  ∀ cwd p t, Path.abs cwd p ≠ path → d.user (Path.abs cwd p) = .link t → mountIDOf E.root cwd p (some t) ≠ .ok m

/-- The mount `m`, its record and the layer that it writes to are as they were. -/
def StillThere (d d' : Disk) (m : UID) : Prop :=
  d'.mnt m.base32 = d.mnt m.base32 ∧ d'.info m.base32 = d.info m.base32 ∧ d'.mdir m.base32 = d.mdir m.base32 ∧ ∀ v, d.layer v ≠ none → d'.layer v = d.layer v

/-! ## Proof -/

theorem fresh_unlinked {d d' : Disk} {g : Str → Option TS} (h : Steady E d' g) {m new : UID} {u : UID} {ls : List UID} {path : Str}
    (hF : Fresh E d d' new.base32 (fun _ => False) u ls path) (hm : d.mdir m.base32 ≠ none) (ho : OnlyLink E d path m) : Unlinked E d' m := by
  intro cwd p w hout hg e
  obtain ⟨_, _, _, hX⟩ := found_of_gets h hout hg
  obtain ⟨t, h1, h2⟩ := hX.opens.link
  rw [e] at h2
  by_cases hp : Path.abs cwd p = path
  · rw [hp, hF.link] at h1
    cases h1
    rw [leads_mountPath] at h2
    cases h2
    exact hm hF.newMdir
  · rw [hF.user _ hp] at h1
    exact ho cwd p t hp h1 h2

theorem fresh_stillThere {d d' : Disk} {m : UID} {n : Str} {u : UID} {ls : List UID} {path : Str} (hF : Fresh E d d' n (fun _ => False) u ls path)
    (hm : d.mdir m.base32 ≠ none) : StillThere d d' m := by
  obtain ⟨h1, h2, h3⟩ := hF.others m.base32 (fun e => hm (e ▸ hF.newMdir)) (fun x => x)
  refine ⟨h1, h2, h3, fun v hv => ?_⟩
  rw [hF.layer]
  exact upd_ne _ _ fun e => hv (e ▸ hF.newLayer)

/-- **C87, part.** `init` on a workspace that shows a file is refused and changes nothing, also if it is killed. Missing: workspaces that show nothing, and `clone`. -/
theorem C87_init_partial {d : Disk} {path branch n : Str} (hoff : E.Off path) (hio : f.io = false) (hl : d.user path = .link (E.mountPath n))
    (hm : ∃ m c, d.mdir n = some m ∧ m.merged = some c) {x : Str} (hx : d.shows n [x] ≠ none) :
    (∀ d', Stops E f (initCmd E path branch) d d' → d' = d) ∧ ∀ r d', Exec E f (initCmd E path branch) d r d' → r = .err .notEmpty ∧ d' = d := by
  have hw : wpm E f (· = d) (initCmd E path branch) (fun _ _ => False) (fun e d' => e = .notEmpty ∧ d' = d) d := by
    unfold initCmd
    refine wpm_call fun a d1 h1 => ?_
    obtain ⟨rfl, h1⟩ := h1
    have ha : a = true := by
      rcases h1 with h1 | h1 | h1
      · simp only [Exists, hl] at h1
        exact (h1 n rfl).2 hm
      · exact absurd h1 (fun ⟨n, hn⟩ => hoff n hn)
      · rw [hio] at h1; cases h1.2
    subst ha
    refine ⟨rfl, ?_⟩
    simp only [if_true]
    refine wpm_must fun b d2 h2 => ?_
    obtain ⟨rfl, h2⟩ := h2
    have hb : b = false := by
      rcases h2 with h2 | h2 | h2
      · simp only [EmptyDir, hl] at h2
        cases b with
        | false => rfl
        | true => exact absurd (((h2 n rfl).1 rfl).2 x) hx
      · exact absurd h2 (fun ⟨n, hn⟩ => hoff n hn)
      · exact h2.1
    subst hb
    exact ⟨rfl, nofun, fun _ => ⟨rfl, rfl⟩⟩
  refine ⟨fun d' h => wp_stops (I := (· = d)) hw rfl h, fun r d' he => ?_⟩
  have := wpm_exec hw he
  cases r with
  | ok a => exact this.elim
  | err e => exact ⟨by rw [this.1], this.2⟩
  | panic => exact this.elim
  | diverge => exact this.elim

/-- **C87 does not hold for `init`.** On a mounted workspace that shows no files (as after another `init`, or a commit that deleted them all) it succeeds: the path is now another
workspace with an empty history, and no path leads to the first one, though its record and mount are still there. -/
theorem C87_violated_init {d d' : Disk} (hd : Reachable E d) {cwd path branch : Str} (hout : E.Outside (Path.abs cwd path)) {w : OpenWs} (hg : Gets E d cwd path w)
    (hl : d.user (Path.abs cwd path) = .link (E.mountPath w.mount.id.base32)) (hm : ∃ m c, d.mdir w.mount.id.base32 = some m ∧ m.merged = some c)
    (hx : ∀ x, d.shows w.mount.id.base32 [x] = none) (hfit : E.Fits 1) (ho : OnlyLink E d (Path.abs cwd path) w.mount.id)
    {r : Res CErr OpenWs} (he : Exec E Faults.none (initCmd E (Path.abs cwd path) branch) d r d') :
    (∃ a, r = .ok a) ∧ (∃ w2 u root, Gets E d' cwd path w2 ∧ w2.spaceID ≠ w.spaceID ∧ NewHistory w2.tree.abs w2.ws.id root u (sanitize branch)) ∧
      Unlinked E d' w.mount.id ∧ StillThere d d' w.mount.id := by
  obtain ⟨g, hs⟩ := steady_reachable hd
  obtain ⟨u0, p0, T, hF⟩ := found_of_gets hs hout hg
  obtain ⟨m, c, hm1, hm2⟩ := hm
  have hacc := C55_accepted hd (off_of_outside hout) (by
    rw [FreeFor, hl]
    intro n e _ x
    rw [← mountPath_inj e]
    exact hx x) (Or.inr (Or.inr (Or.inr ⟨_, m, c, hl, hm1, hm2⟩))) hfit he
  obtain ⟨a, rfl⟩ := hacc
  obtain ⟨root, u', dp, g', w2, hFo, hs', _, _, hne, hop, _, hbr, htree, hfr, _⟩ := after_init hs hout he
  have hmd : dp.mdir w.mount.id.base32 ≠ none := by rw [hFo.mdir]; exact hF.mdir
  have hU := fresh_stillThere hfr hmd
  refine ⟨⟨a, rfl⟩, ⟨w2, u', root, gets_of_opens hop, fun e => ?_, by rw [htree]; exact newHistory hne⟩, fresh_unlinked hs' hfr hmd ?_, ?_⟩
  · obtain ⟨T, b, _, _, h3, _⟩ := hF.opens.tree
    rw [hF.opens.dir, ← e, ← hop.dir, hFo.newSpace] at h3
    cases h3
  · intro cwd' p t h1 h2
    rw [hFo.litter.user] at h2
    exact ho cwd' p t h1 h2
  · obtain ⟨h1, h2, h3, h4⟩ := hU
    rw [hFo.litter.mnt] at h1
    rw [hFo.litter.info] at h2
    rw [hFo.mdir] at h3
    refine ⟨h1, h2, h3, fun v hv => ?_⟩
    have := litter_layer_eq hFo.litter hv
    rw [h4 v (by rw [this]; exact hv), this]

/-- **C87 does not hold for `clone`.** A clone to the path of any mounted workspace succeeds: the path is now the clone, and no path leads to the workspace that was there, with all that
had not been committed in it. This may be the workspace that is cloned. -/
theorem C87_violated_clone {d d' : Disk} (hd : Reachable E d) {cwd source cwd2 path2 : Str} (hout : E.Outside (Path.abs cwd source)) (hout2 : E.Outside (Path.abs cwd2 path2))
    {w old : OpenWs} (hg : Gets E d cwd source w) {u p : UID} (hh : w.ws.HeadAt w.tree u p) {ls : List UID} (hls : w.tree.abs.Path p ls) (hfit : E.Fits ls.length)
    (ht : Gets E d cwd2 path2 old) (hl : d.user (Path.abs cwd2 path2) = .link (E.mountPath old.mount.id.base32))
    (hm : ∃ m c, d.mdir old.mount.id.base32 = some m ∧ m.merged = some c) (ho : OnlyLink E d (Path.abs cwd2 path2) old.mount.id)
    {r : Res CErr OpenWs} (he : Exec E Faults.none (cloneCmd E cwd source (Path.abs cwd2 path2)) d r d') :
    (∃ a, r = .ok a) ∧ (∃ w2, Gets E d' cwd2 path2 w2 ∧ w2.spaceID = w.spaceID ∧ ∃ u', w2.ws.HeadAt w2.tree u' p) ∧ Unlinked E d' old.mount.id ∧ StillThere d d' old.mount.id := by
  obtain ⟨g, hs⟩ := steady_reachable hd
  obtain ⟨T, hF⟩ := gets_found hs hout hg hh
  obtain ⟨_, _, _, hF2⟩ := found_of_gets hs hout2 ht
  obtain ⟨a, rfl⟩ := (C62_clone_accepted_iff hd hout (off_of_outside hout2) hg hh hls (fun t h => by
    obtain ⟨id, h1, h2⟩ := hs.tracked.mdir _ hF2.mdir
    rw [hl] at h
    cases h
    exact ⟨id, h1, by rw [h2]⟩) he).2 ⟨hfit, by rw [hl]; simp, by rw [hl]; simp, fun ⟨id, _, h1, h2⟩ => by
      rw [hl] at h1
      rw [UEnt.link.injEq] at h1
      rw [← mountPath_inj h1] at h2
      exact h2 hm⟩
  obtain ⟨u', ls', g', w2, hs', _, _, _, hop, _, hsp, _, _, _, hfr⟩ := after_clone hs hF hout2 he
  exact ⟨⟨a, rfl⟩, ⟨w2, gets_of_opens hop, hsp, u', hop.head⟩, fresh_unlinked hs' hfr hF2.mdir ho, fresh_stillThere hfr hF2.mdir⟩

end
end Verif
