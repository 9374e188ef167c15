import Verif.World.Within
import Verif.Props.Owner
/-!
# Commands of different spaces at the same time (C79)
-/
set_option autoImplicit false
namespace Verif
open M TS Json

/-! ## Specification -/

/-- The workspace that the command opens, as working directory and path. -/
def Command.source : Command → Option (Str × Str)
  | .init .. => none
  | .clone cwd source _ => some (cwd, source)
  | .commit cwd _ | .checkout cwd _ | .edit cwd _ | .look cwd => some (cwd, lit ".")

/-- The path where the command makes a new workspace. -/
def Command.target : Command → Option Str
  | .init path _ => some path
  | .clone _ _ target => some target
  | _ => none

/-- The command uses the path. -/
def Command.At (c : Command) (p : Str) : Prop := (∃ cwd path, c.source = some (cwd, path) ∧ p = Path.abs cwd path) ∨ c.target = some p

/-- One execution after another, with their results. -/
inductive Serially {ι α : Type} (F : ι → Env) (ps : ι → Prog α) (r : ι → α) : List ι → Disk → Disk → Prop where
  | nil (d : Disk) : Serially F ps r [] d d
  | cons {i : ι} {l : List ι} {d d1 e : Disk} : Exec (F i) Faults.none (ps i) d (r i) d1 → Serially F ps r l d1 e → Serially F ps r (i :: l) d e

/-- The commands and the workspaces that they open. -/
structure Separate {ι : Type} (E : Env) (d : Disk) (cs : ι → Command) (ws : ι → OpenWs) : Prop where
  /-- Each workspace opens. -/
  opens : ∀ i cwd path, (cs i).source = some (cwd, path) → E.Outside (Path.abs cwd path) ∧ Gets E d cwd path (ws i)
  /-- New workspaces are not made within a workspace, nor at a path that shows one. -/
  target : ∀ i t, (cs i).target = some t → E.Off t ∧ ∀ n, d.user t ≠ .link (E.mountPath n)
  /-- Different commands use different spaces. -/
  spaces : ∀ i j, i ≠ j → (cs i).source ≠ none → (cs j).source ≠ none → (ws i).spaceID ≠ (ws j).spaceID
  /-- Different commands use different paths. -/
  paths : ∀ i j, i ≠ j → ∀ p, (cs i).At p → ¬ (cs j).At p

section
variable {ι : Type} {E : Env}

/-! ## The part of the disk that a command uses -/

/-- What the command uses on the disk `d`. -/
def Command.zone (E : Env) (d : Disk) (c : Command) (w : OpenWs) : Zone where
  space n := c.source ≠ none ∧ n = w.spaceDir
  mount n := ∃ cwd path, c.source = some (cwd, path) ∧ (n = w.mount.id.base32 ∨ d.user (Path.abs cwd path) = .link (E.mountPath n))
  path p := c.At p

theorem opens_as {o : Nat} {d : Disk} {cwd path : Str} {w : OpenWs} {u p : UID} (h : Opens E d cwd path w u p) : Opens (E.as o) d cwd path w u p :=
  ⟨h.out, h.link, h.path, h.info, h.mount, h.dir, h.tree, h.head, h.stored⟩

/-- What the link of an opened workspace is named after. -/
theorem link_mount {d : Disk} {cwd path : Str} {w : OpenWs} {u p : UID} (h : Opens E d cwd path w u p) {v : UID}
    (hl : d.user (Path.abs cwd path) = .link (E.mountPath v.base32)) : v = w.mount.id := by
  obtain ⟨t, e1, e2⟩ := h.link
  rw [hl] at e1
  cases e1
  rw [leads_mountPath] at e2
  exact Res.ok.inj e2

theorem used_mount {d : Disk} {g : Str → Option TS} (hs : Steady E d g) {cwd path : Str} {w : OpenWs} {u p : UID} {T : TS} (h : Found E d g cwd path w u p T) : w.mount.id ∈ d.used := by
  obtain ⟨v, hv, he⟩ := hs.tracked.mdir _ h.mdir
  exact base32_inj he ▸ hv

theorem used_space {d : Disk} {g : Str → Option TS} (hs : Steady E d g) {cwd path : Str} {w : OpenWs} {u p : UID} (h : Opens E d cwd path w u p) : w.spaceID ∈ d.used := by
  obtain ⟨T, b, _, _, h1, _⟩ := h.tree
  obtain ⟨v, hv, he⟩ := hs.tracked.space w.spaceDir (by rw [h1]; simp)
  rw [h.dir] at he
  exact base32_inj he ▸ hv

/-- One mount belongs to one space. -/
theorem mount_space {d : Disk} {g : Str → Option TS} (hs : Steady E d g) {cwd path cwd' path' : Str} {w w' : OpenWs} {u p u' p' : UID}
    (h : Opens E d cwd path w u p) (h' : Opens E d cwd' path' w' u' p') (he : w.mount.id = w'.mount.id) : w.spaceID = w'.spaceID := by
  obtain ⟨r, a1, _, a2, _⟩ := rec_of_opens hs h
  obtain ⟨r', b1, _, b2, _⟩ := rec_of_opens hs h'
  rw [he, b1, Option.some.injEq] at a1
  obtain ⟨_, i2, _⟩ := rec_bytes_inj a1
  rw [← a2, ← b2, i2]

/-- The same link leads to the same mount. -/
theorem link_same {d : Disk} {cwd path cwd' path' : Str} {w w' : OpenWs} {u p u' p' : UID}
    (h : Opens E d cwd path w u p) (h' : Opens E d cwd' path' w' u' p') {n : Str} (hl : d.user (Path.abs cwd path) = .link (E.mountPath n))
    (hl' : d.user (Path.abs cwd' path') = .link (E.mountPath n)) : w.mount.id = w'.mount.id := by
  obtain ⟨t, e1, e2⟩ := h.link
  obtain ⟨t', e1', e2'⟩ := h'.link
  rw [hl] at e1
  rw [hl'] at e1'
  cases e1
  cases e1'
  have hab : Path.isAbs (E.mountPath n) = true := rfl
  unfold mountIDOf at e2 e2'
  simp only [Option.getD_some, Path.abs, hab, if_true] at e2 e2'
  exact Res.ok.inj (e2.symm.trans e2')

variable {d0 : Disk} {cs : ι → Command} {ws : ι → OpenWs}

/-- The workspaces of separate commands, on a sound disk. -/
theorem separate_found {g : Str → Option TS} (hs : Steady E d0 g) (h : Separate E d0 cs ws) {i : ι} {cwd path : Str} (hi : (cs i).source = some (cwd, path)) :
    ∃ u p T, Found E d0 g cwd path (ws i) u p T := found_of_gets hs (h.opens i cwd path hi).1 (h.opens i cwd path hi).2

theorem zone_old {g : Str → Option TS} (hs : Steady E d0 g) (h : Separate E d0 cs ws) (i : ι) : ((cs i).zone E d0 (ws i)).Old d0 := by
  refine ⟨?_, ?_⟩
  · rintro v ⟨hi, hv⟩
    cases hx : (cs i).source with
    | none => exact absurd hx hi
    | some x =>
      obtain ⟨u, p, T, hF⟩ := separate_found hs h hx
      rw [hF.opens.dir] at hv
      exact base32_inj hv ▸ used_space hs hF.opens
  · rintro v ⟨cwd, path, hi, hv⟩
    obtain ⟨u, p, T, hF⟩ := separate_found hs h hi
    rcases hv with hv | hv
    · exact base32_inj hv ▸ used_mount hs hF
    · exact link_mount hF.opens hv ▸ used_mount hs hF

theorem zone_apart {g : Str → Option TS} (hs : Steady E d0 g) (h : Separate E d0 cs ws) {i j : ι} (hij : i ≠ j) :
    ((cs i).zone E d0 (ws i)).Apart ((cs j).zone E d0 (ws j)) := by
  refine ⟨?_, ?_, fun p hp hp' => h.paths i j hij p hp hp'⟩
  · rintro n ⟨hi, rfl⟩ ⟨hj, hn⟩
    cases hx : (cs i).source with
    | none => exact hi hx
    | some x =>
      cases hy : (cs j).source with
      | none => exact hj hy
      | some y =>
        obtain ⟨u, p, T, hF⟩ := separate_found hs h hx
        obtain ⟨u', p', T', hF'⟩ := separate_found hs h hy
        rw [hF.opens.dir, hF'.opens.dir] at hn
        exact h.spaces i j hij hi hj (base32_inj hn)
  · rintro n ⟨cwd, path, hi, hn⟩ ⟨cwd', path', hj, hn'⟩
    obtain ⟨u, p, T, hF⟩ := separate_found hs h hi
    obtain ⟨u', p', T', hF'⟩ := separate_found hs h hj
    refine h.spaces i j hij (by rw [hi]; simp) (by rw [hj]; simp) (mount_space hs hF.opens hF'.opens ?_)
    rcases hn with rfl | hn
    · rcases hn' with hn' | hn'
      · exact base32_inj hn'
      · exact link_mount hF'.opens hn'
    · rcases hn' with rfl | hn'
      · exact (link_mount hF.opens hn).symm
      · exact link_same hF.opens hF'.opens hn hn'

theorem zone_homely (h : Separate E d0 cs ws) (i : ι) : Homely E ((cs i).zone E d0 (ws i)) [] d0 := by
  refine ⟨?_, fun _ _ hd => (drew_nil hd).elim, fun _ _ _ he => by cases he⟩
  rintro p (⟨cwd, path, hi, rfl⟩ | hp) n hn
  · exact Or.inl ⟨cwd, path, hi, Or.inr hn⟩
  · exact absurd hn ((h.target i p hp).2 n)

theorem command_inner {g : Str → Option TS} (hs : Steady E d0 g) (h : Separate E d0 cs ws) {o : Nat} (i : ι) :
    gwp (E.as o) (Inner (E.as o) ((cs i).zone E d0 (ws i)) d0.HasDiff) ((cs i).prog (E.as o)) (fun _ _ _ => True) [] d0 := by
  have fin : ∀ {x : M Out} {E' : Env} {z : Zone}, gok E' (Inner E' z d0.HasDiff) x (fun _ _ _ => True) [] d0 →
      gwp E' (Inner E' z d0.HasDiff) x (fun _ _ _ => True) [] d0 := fun h => gwp_mono h fun _ _ _ _ => trivial
  have uses : ∀ cwd path, (cs i).source = some (cwd, path) → ∃ u p, Uses (E.as o) d0 ((cs i).zone E d0 (ws i)) cwd path (ws i) u p := by
    intro cwd path hi
    obtain ⟨u, p, T, hF⟩ := separate_found hs h hi
    exact ⟨u, p, opens_as hF.opens, Or.inl ⟨cwd, path, hi, rfl⟩, ⟨by rw [hi]; simp, rfl⟩, ⟨cwd, path, hi, Or.inl rfl⟩⟩
  have targ : ∀ t, (cs i).target = some t → ((cs i).zone E d0 (ws i)).path t ∧ (E.as o).Off t := fun t ht => ⟨Or.inr ht, (h.target i t ht).1⟩
  have none_ : (cs i).source = none → ∀ n, ¬ ((cs i).zone E d0 (ws i)).mount n := by
    rintro hi n ⟨cwd, path, hx, _⟩
    rw [hi] at hx; cases hx
  refine fin ?_
  generalize (cs i).zone E d0 (ws i) = z at uses targ none_
  generalize cs i = c at uses targ none_
  cases c with
  | init path branch =>
    obtain ⟨h1, h2⟩ := targ path rfl
    exact gok_bind (gok_mono (initCmd_inner h1 h2 (none_ rfl)) fun _ _ _ _ => gok_pure trivial)
  | clone cwd source target =>
    obtain ⟨u, p, hu⟩ := uses cwd source rfl
    obtain ⟨h1, h2⟩ := targ target rfl
    exact gok_bind (gok_mono (cloneCmd_inner hu (fun _ => _root_.id) h1 h2) fun _ _ _ _ => gok_pure trivial)
  | commit cwd ci =>
    obtain ⟨u, p, hu⟩ := uses cwd (lit ".") rfl
    exact gok_bind (gok_mono (commitCmd_inner hu fun _ => _root_.id) fun _ _ _ _ => gok_pure trivial)
  | checkout cwd key =>
    obtain ⟨u, p, hu⟩ := uses cwd (lit ".") rfl
    exact gok_bind (gok_mono (checkoutCmd_inner hu fun _ => _root_.id) fun _ _ _ _ => gok_pure trivial)
  | edit cwd es =>
    obtain ⟨u, p, hu⟩ := uses cwd (lit ".") rfl
    exact gok_bind (gok_mono (editCmd_inner hu) fun _ _ _ _ => gok_pure trivial)
  | look cwd =>
    obtain ⟨u, p, hu⟩ := uses cwd (lit ".") rfl
    exact gok_bind (gok_mono (getWorkspace_inner hu.opens hu.path hu.space hu.mount) fun _ _ _ _ => gok_pure trivial)

/-! ## C79 -/

/-- **C79.** Commands of different spaces that use different paths and run at the same time, each until it is killed or done: whatever the
order of their calls, they have done what they do one after another, each stopped at the same point, in any order. -/
theorem C79_killed [DecidableEq ι] (hd : Reachable E d0) {own : ι → Nat} (h : Separate E d0 cs ws) {qs : ι → Prog (Res CErr Out)} {d : Disk}
    (ht : Together (fun i => E.as (own i)) (fun i => (cs i).prog (E.as (own i))) d0 qs d) {order : List ι} (hn : order.Nodup) (hall : ∀ i, i ∈ order) :
    ∃ d', InTurn (fun i => E.as (own i)) (fun i => (cs i).prog (E.as (own i))) qs order d0 d' ∧ Same d d' := by
  obtain ⟨g, hs⟩ := steady_reachable hd
  refine in_turn (Z := fun i => (cs i).zone E d0 (ws i)) (L := d0.HasDiff) hs.tracked (zone_old hs h) (fun i j hij => zone_apart hs h hij) (fun i => ?_) (fun _ => _root_.id)
    (fun i => command_inner hs h i) ht hn hall
  have := zone_homely h i
  exact ⟨this.link, this.upper, this.gone⟩

theorem serially_of_inTurn {α : Type} {F : ι → Env} {ps : ι → Prog α} {r : ι → α} {l : List ι} {d e : Disk} (h : InTurn F ps (fun i => .ret (r i)) l d e) :
    Serially F ps r l d e := by
  induction h with
  | nil d => exact .nil d
  | cons h1 _ ih => exact .cons (exec_of_runs h1) ih

/-- **C79.** Commands of different spaces that use different paths and run at the same time: whatever the order of their calls, they answer
and leave what they answer and leave when they run one after another, in any order. -/
theorem C79_serial [DecidableEq ι] (hd : Reachable E d0) {own : ι → Nat} (h : Separate E d0 cs ws) {r : ι → Res CErr Out} {d : Disk}
    (ht : Together (fun i => E.as (own i)) (fun i => (cs i).prog (E.as (own i))) d0 (fun i => .ret (r i)) d) {order : List ι} (hn : order.Nodup)
    (hall : ∀ i, i ∈ order) : ∃ d', Serially (fun i => E.as (own i)) (fun i => (cs i).prog (E.as (own i))) r order d0 d' ∧ Same d d' := by
  obtain ⟨d', h1, h2⟩ := C79_killed hd h ht hn hall
  exact ⟨d', serially_of_inTurn h1, h2⟩

/-- **C79.** Each of them answers what it can answer if it runs alone. -/
theorem C79_answers [DecidableEq ι] (hd : Reachable E d0) {own : ι → Nat} (h : Separate E d0 cs ws) {r : ι → Res CErr Out} {d : Disk}
    (ht : Together (fun i => E.as (own i)) (fun i => (cs i).prog (E.as (own i))) d0 (fun i => .ret (r i)) d) {order : List ι} (hn : order.Nodup)
    (hall : ∀ i, i ∈ order) (i : ι) : ∃ d', Exec (E.as (own i)) Faults.none ((cs i).prog (E.as (own i))) d0 (r i) d' := by
  obtain ⟨d', h1, _⟩ := C79_serial hd h ht (order := i :: order.erase i) (List.nodup_cons.2 ⟨fun hx => (List.Nodup.mem_erase_iff hn |>.1 hx).1 rfl, hn.erase i⟩) fun j => by
    by_cases hj : j = i
    · exact hj ▸ List.mem_cons_self ..
    · exact List.mem_cons_of_mem _ ((List.mem_erase_of_ne hj).2 (hall j))
  cases h1 with
  | cons he _ => exact ⟨_, he⟩

end
end Verif
