import Verif.Props.Overlap
/-!
# Which commands succeed, and histories that exist (C61, C62)

With a working disk and no faults, `checkout` succeeds exactly for the references that resolve and `clone` succeeds for every
workspace that opens. Together with `C28_accepted_iff`, `C55_accepted` and `C57_progress` this shows that histories of every
shape exist, which the examples in `Verif.Props.Examples` use.
-/
set_option autoImplicit false
namespace Verif
open M TS Json

section
variable {E : Env} {f : Faults}

/-! ## C61 -/

/-- **C61.** With a working disk, for a key that does not crash the program (C05): if the layers below what it resolves to fit into
the mount options, and if the link of the workspace leads into its mount, then `checkout` succeeds if and only if the key
resolves. -/
theorem C61_checkout_accepted_iff {d d' : Disk} (hd : Reachable E d) {cwd key : Str} (hk : PlainKey key) (hout : E.Outside (Path.abs cwd (lit "."))) {w : OpenWs}
    (hg : Gets E d cwd (lit ".") w) {u p : UID} (hh : w.ws.HeadAt w.tree u p)
    (hfit : ∀ v kt ls, Ws.Resolves w.tree.abs w.ws.id p key v kt → w.tree.abs.Path v ls → E.Fits ls.length)
    (hlink : ∃ n m c, d.user w.ws.path = .link (E.mountPath n) ∧ d.mdir n = some m ∧ m.merged = some c)
    {r : Res CErr (OpenWs × OpenWs)} (he : Exec E Faults.none (checkoutCmd E cwd key) d r d') :
    (∃ x, r = .ok x) ↔ ∃ v kt, Ws.Resolves w.tree.abs w.ws.id p key v kt := by
  obtain ⟨g, hs⟩ := steady_reachable hd
  obtain ⟨T, hF⟩ := gets_found hs hout hg hh
  have hp := wpm_exec (checkoutCmd_wp hF.opens hk hF.mdir) he
  cases r with
  | ok x => obtain ⟨_, v, kt, _, _, _, h, _⟩ := hp; exact Iff.intro (fun _ => ⟨v, kt, h⟩) (fun _ => Exists.intro x rfl)
  | err e =>
    refine Iff.intro (fun ⟨_, h⟩ => nomatch h) fun ⟨v, kt, hR⟩ => ?_
    exfalso
    cases hee : e.early with
    | true =>
      rcases (hp.1 hee).2 with h | h
      · exact h ⟨rfl, rfl, hs.tracked⟩
      · exact h _ _ hR
    | false =>
      obtain ⟨_, v', kt', hR', h | ⟨w', u', ls', _, hP, ⟨_, h | h⟩ | ⟨d1, _, hw⟩⟩⟩ := hp.2 hee
      · cases h
      · exact h (hfit _ _ _ hR' hP)
      · exact h (Or.inr (Or.inr (Or.inr hlink)))
      · exact absurd hw.1 (by simp [Faults.none])
  | panic => exact hp.elim
  | diverge => exact hp.elim

/-- **C61.** Whatever goes wrong, `checkout` never succeeds for a key that does not resolve, and then changes no workspace, no
history and no committed content. -/
theorem C61_checkout_refused {d d' : Disk} (hd : Reachable E d) {cwd key : Str} (hout : E.Outside (Path.abs cwd (lit "."))) {w : OpenWs}
    (hg : Gets E d cwd (lit ".") w) {u p : UID} (hh : w.ws.HeadAt w.tree u p) (hno : ∀ v kt, ¬ Ws.Resolves w.tree.abs w.ws.id p key v kt)
    {r : Res CErr (OpenWs × OpenWs)} (he : Exec E f (checkoutCmd E cwd key) d r d') :
    (∀ x, r ≠ .ok x) ∧ (PlainKey key → ∃ e, r = .err e) ∧ d'.info = d.info ∧ d'.mnt = d.mnt ∧ d'.user = d.user ∧ (∀ n, d.space n ≠ none → d'.space n = d.space n) ∧
      ∀ v, d.layer v ≠ none → d'.layer v = d.layer v := by
  by_cases hk : PlainKey key
  rotate_left
  · obtain ⟨rfl, hno⟩ := checkout_odd hk he
    exact ⟨hno, (fun h => absurd h hk), rfl, rfl, rfl, fun _ _ => rfl, fun _ _ => rfl⟩
  obtain ⟨g, hs⟩ := steady_reachable hd
  obtain ⟨T, hF⟩ := gets_found hs hout hg hh
  have hp := wpm_exec (checkoutCmd_wp hF.opens hk hF.mdir) he
  cases r with
  | ok x => obtain ⟨_, v, kt, _, _, _, h, _⟩ := hp; exact absurd h (hno _ _)
  | err e =>
    cases hee : e.early with
    | true =>
      have hl := (hp.1 hee).1
      exact ⟨nofun, (fun _ => ⟨e, rfl⟩), hl.info, hl.mnt, hl.user, fun n hn => litter_space_eq hl hn, fun v hv => litter_layer_eq hl hv⟩
    | false => obtain ⟨_, v, kt, h, _⟩ := hp.2 hee; exact absurd h (hno _ _)
  | panic => exact hp.elim
  | diverge => exact hp.elim

/-! ## C62 -/

/-- At the path is a link to a mount point that is no longer there. -/
def Stale (E : Env) (d : Disk) (p : Str) : Prop :=
  ∃ id ∈ d.used, d.user p = .link (E.mountPath id.base32) ∧ ¬ ∃ m c, d.mdir id.base32 = some m ∧ m.merged = some c

/-- **C62.** With a working disk, `clone` of a workspace that opens succeeds if and only if the target can be replaced by a link
and the layers of its last commit fit into the mount options. -/
theorem C62_clone_accepted_iff {d d' : Disk} (hd : Reachable E d) {cwd source target : Str} (hout : E.Outside (Path.abs cwd source)) (hoff : E.Off target) {w : OpenWs}
    (hg : Gets E d cwd source w) {u p : UID} (hh : w.ws.HeadAt w.tree u p) {ls : List UID} (hls : w.tree.abs.Path p ls)
    (hlink : ∀ t, d.user target = .link t → ∃ id ∈ d.used, t = E.mountPath id.base32)
    {r : Res CErr OpenWs} (he : Exec E Faults.none (cloneCmd E cwd source target) d r d') :
    (∃ x, r = .ok x) ↔ E.Fits ls.length ∧ d.user target ≠ .dir ∧ d.user target ≠ .noParent ∧ ¬ Stale E d target := by
  obtain ⟨g, hs⟩ := steady_reachable hd
  obtain ⟨T, hF⟩ := gets_found hs hout hg hh
  have hp := wpm_exec (cloneCmd_wp hF.opens hoff) he
  cases r with
  | ok x =>
    obtain ⟨u', ls', hC, hP, hnew, _, hL⟩ := hp
    have hc := hL.clear
    rw [hC.path] at hc
    refine Iff.intro (fun _ => ⟨?_, hc.1, hc.2, ?_⟩) (fun _ => Exists.intro x rfl)
    · rw [Ws.path_unique hls hP]; exact hL.fits
    · rintro ⟨id, h1, h2, h3⟩
      refine h3 (hL.solid _ (fun e => ?_) (by rw [hC.path]; exact h2))
      exact (hnew ⟨rfl, rfl, hs.tracked⟩).1 (base32_inj e ▸ h1)
  | err e =>
    refine Iff.intro (fun ⟨_, h⟩ => nomatch h) fun ⟨hfit, hc1, hc2, hc3⟩ => ?_
    exfalso
    cases hee : e.early with
    | true => exact (hp.1 hee).2 ⟨rfl, rfl, hs.tracked⟩
    | false =>
      obtain ⟨_, h | ⟨w', u', ls', _, hP, _, _, _, h | h⟩⟩ := hp.2 hee
      · cases h
      · rw [Ws.path_unique hP hls] at h; exact h hfit
      · refine h ?_
        cases hu : d.user target with
        | noParent => exact absurd hu hc2
        | none => exact Or.inl hu
        | emptyDir => exact Or.inr (Or.inl hu)
        | dir => exact absurd hu hc1
        | file => exact Or.inr (Or.inr (Or.inl hu))
        | link t =>
          obtain ⟨id, h1, rfl⟩ := hlink t hu
          by_cases h2 : ∃ m c, d.mdir id.base32 = some m ∧ m.merged = some c
          · obtain ⟨m, c, h2⟩ := h2
            exact Or.inr (Or.inr (Or.inr ⟨_, m, c, hu, h2⟩))
          · exact absurd ⟨id, h1, hu, h2⟩ hc3
  | panic => exact hp.elim
  | diverge => exact hp.elim

end
end Verif
