import Verif.Props.Refused
/-!
# Nothing is left over (C83)

`C82` shows commands that are refused and leave layers, mount directories and whole spaces. Here: nothing else does. As long as every command succeeds or changes
nothing, every layer on disk belongs to a history that can be read, every mount directory to a recorded workspace, and every space has a workspace.
-/
set_option autoImplicit false
namespace Verif
open M TS Json

/-! ## What is claimed -/

/-- Everything in the data directory is used. -/
structure Tidy (d : Disk) : Prop where
  layer : ∀ v, d.layer v ≠ none → ∃ dir s, d.loads dir = .ok s ∧ s.abs.Has v
  mdir : ∀ n, d.mdir n ≠ none → ∃ x i, d.info n = some x ∧ unmarshalInfo x = some i ∧ i.mountID = n
  info : ∀ n, d.info n ≠ none → d.mdir n ≠ none
  space : ∀ dir, d.space dir ≠ none → ∃ n x i, d.info n = some x ∧ unmarshalInfo x = some i ∧ i.spaceID = dir

/-- An act that does not come from a command. -/
def Act.ByUser : Act → Prop
  | .write _ _ => True
  | .files _ => True
  | .reboot => True
  | _ => False

/-- A command that succeeds, that changes branches and tags, or that changes nothing; or an act of the user. -/
inductive Smooth (E : Env) (f : Faults) : Act → Disk → Disk → Prop where
  | init {path branch : Str} {d d' : Disk} {w : OpenWs} : Exec E f (initCmd E path branch) d (.ok w) d' → Smooth E f (.init path branch) d d'
  | clone {cwd source target : Str} {d d' : Disk} {w : OpenWs} : Exec E f (cloneCmd E cwd source target) d (.ok w) d' → Smooth E f (.clone cwd source target) d d'
  | commit {cwd : Str} {ci : CommitInfo} {d d' : Disk} {r : OpenWs × OpenWs} : Exec E f (commitCmd E cwd ci) d (.ok r) d' → Smooth E f (.commit cwd ci) d d'
  | checkout {cwd key : Str} {d d' : Disk} {r : OpenWs × OpenWs} : Exec E f (checkoutCmd E cwd key) d (.ok r) d' → Smooth E f (.checkout cwd key) d d'
  | edit {cwd : Str} {es : List Edit} {d d' : Disk} {r : Res CErr TS} : Exec E f (editCmd E cwd es) d r d' → Smooth E f (.edit cwd es) d d'
  | same {a : Act} {d : Disk} : Happens E f a d d → Smooth E f a d d
  | user {a : Act} {d d' : Disk} : a.ByUser → Happens E f a d d' → Smooth E f a d d'

/-- Any number of such acts, each by any user. -/
inductive SmoothPast (E : Env) (f : Faults) : Disk → Disk → Prop where
  | refl {d : Disk} : SmoothPast E f d d
  | step {d d1 d2 : Disk} {a : Act} {o : Nat} : SmoothPast E f d d1 → a.Plain E → Smooth (E.as o) f a d1 d2 → SmoothPast E f d d2

/-! ## Proof -/

section
variable {E : Env} {f : Faults}

theorem happens_of_smooth {a : Act} {d d' : Disk} (h : Smooth E f a d d') : Happens E f a d d' := by
  cases h with
  | init h => exact .init h
  | clone h => exact .clone h
  | commit h => exact .commit h
  | checkout h => exact .checkout h
  | edit h => exact .edit h
  | same h => exact h
  | user _ h => exact h

theorem past_of_smooth {d d' : Disk} (h : SmoothPast E f d d') : Past E f d d' := by
  induction h with
  | refl => exact .refl
  | step _ h1 h2 ih => exact .step ih h1 (happens_of_smooth h2)

theorem first_has (root v : UID) : (ATree.first root).Has v ↔ v = root := by
  refine Iff.trans (add_has (a := ATree.empty) (p := none) (u := root)) ⟨fun h => h.elim _root_.id (fun ⟨_, hn⟩ => (nomatch hn)), Or.inl⟩

theorem shallow_init {root u' : UID} (h : u' ≠ root) : ((ATree.first root).add (some root) u' (fun _ => none) (fun _ => none)).Shallow := by
  have hfr : (ATree.first root).Path root [root] := .root (n := ⟨none, fun _ => none, fun _ => none⟩) (by simp [ATree.first, ATree.setTag, ATree.add]) rfl
  obtain ⟨s0, _, hr0, ha0⟩ := spaceInit_spec root
  refine shallow_add (by rw [← ha0]; exact reach_rooted hr0) ?_ (fun hx => h ((first_has _ _).1 hx)) hfr (by simp)
  intro x n l hx hp
  obtain rfl := (first_has _ _).1 ⟨n, hx⟩
  obtain rfl := Ws.path_unique hp hfr
  exact ⟨by simp, fun hc => by simp⟩

theorem info_names (w : OpenWs) (u : UID) : ∃ i, unmarshalInfo (marshalInfo E.sh (infoOf w u)) = some i ∧ i.spaceID = w.spaceID.base32 ∧ i.mountID = w.mount.id.base32 :=
  ⟨_, C17_info_roundtrip _ _, sanitize_base32 _, sanitize_base32 _⟩

theorem tidy_placed {d0 d d' : Disk} {w : OpenWs} {mid u : UID} {ls : List UID} (ht : Tidy d0) (hmid : mid = w.mount.id) (hP : Placed E d d' w mid u ls) (hS : w.tree.abs.Shallow) (hr : Reach w.tree)
    (hdir : w.spaceDir = w.spaceID.base32) (hu : w.tree.abs.Has u) (hlay : ∀ v, d.layer v ≠ none → d0.layer v ≠ none ∨ w.tree.abs.Has v)
    (hkeep : ∀ s, d0.loads w.spaceDir = .ok s → ∀ v, s.abs.Has v → w.tree.abs.Has v) (hsp : ∀ n, n ≠ w.spaceDir → d.space n = d0.space n)
    (hmd : d.mdir = d0.mdir) (hin : d.info = d0.info) (hfree : ∀ x i, d0.info mid.base32 = some x → unmarshalInfo x ≠ some i) : Tidy d' := by
  obtain ⟨b, hb, hspace⟩ := hP.space
  obtain ⟨s, e1, _, e2⟩ := (load_saved hr hb).1 hS
  have hl : d'.loads w.spaceDir = .ok s := by rw [Disk.loads, hspace, upd_self]; exact e1
  have hh : ∀ v, w.tree.abs.Has v → s.abs.Has v := fun v ⟨n, hn⟩ => (e2.node v n hn).imp fun _ h => h.1
  obtain ⟨i, hi, hi', hi2⟩ := info_names (E := E) w u
  refine ⟨fun v hv => ?_, fun n hn => ?_, fun n hn => ?_, fun dir hd => ?_⟩
  · by_cases hvu : v = u
    · subst hvu; exact ⟨_, s, hl, hh _ hu⟩
    · rw [hP.layer, upd_ne _ _ hvu] at hv
      rcases hlay v hv with h | h
      · obtain ⟨dir, s0, h1, h2⟩ := ht.layer v h
        by_cases hd : dir = w.spaceDir
        · subst hd; exact ⟨_, s, hl, hh _ (hkeep _ h1 v h2)⟩
        · refine ⟨dir, s0, ?_, h2⟩
          rw [loads_congr (d := d0), h1]
          rw [hspace, upd_ne _ _ hd, hsp _ hd]
      · exact ⟨_, s, hl, hh _ h⟩
  · by_cases hnm : n = mid.base32
    · exact ⟨_, i, by rw [hP.info, hnm, upd_self], hi, by rw [hi2, hnm, hmid]⟩
    · rw [hP.mdir, upd_ne _ _ hnm, hmd] at hn
      rw [hP.info, upd_ne _ _ hnm, hin]
      exact ht.mdir n hn
  · by_cases hnm : n = mid.base32
    · rw [hP.mdir, hnm, upd_self]; simp
    · rw [hP.info, upd_ne _ _ hnm, hin] at hn
      rw [hP.mdir, upd_ne _ _ hnm, hmd]
      exact ht.info n hn
  · by_cases hdd : dir = w.spaceDir
    · subst hdd
      exact ⟨mid.base32, _, i, by rw [hP.info, upd_self], hi, by rw [hi', hdir]⟩
    · rw [hspace, upd_ne _ _ hdd, hsp _ hdd] at hd
      obtain ⟨n, x, j, h1, h2, h3⟩ := ht.space dir hd
      refine ⟨n, x, j, ?_, h2, h3⟩
      have : n ≠ mid.base32 := by rintro rfl; exact hfree x j h1 h2
      rw [hP.info, upd_ne _ _ this, hin, h1]

/-- Removing the old mount of a workspace that has a new one. -/
theorem tidy_removed {d : Disk} (ht : Tidy d) {n n' : Str} (hne : n' ≠ n) {dir : Str} (hold : ∀ x i, d.info n = some x → unmarshalInfo x = some i → i.spaceID = dir)
    (hnew : ∃ x i, d.info n' = some x ∧ unmarshalInfo x = some i ∧ i.spaceID = dir) : Tidy (removed n d) := by
  refine ⟨fun v hv => ht.layer v hv, fun k hk => ?_, fun k hk => ?_, fun dir' hd => ?_⟩
  · have hkn : k ≠ n := by rintro rfl; exact hk (upd_self _ _ _)
    have : d.mdir k ≠ none := by
      have h : (removed n d).mdir k = d.mdir k := upd_ne _ _ hkn
      rwa [h] at hk
    have h : (removed n d).info k = d.info k := upd_ne _ _ hkn
    rw [h]; exact ht.mdir k this
  · have hkn : k ≠ n := by rintro rfl; exact hk (upd_self _ _ _)
    have h1 : (removed n d).info k = d.info k := upd_ne _ _ hkn
    have h2 : (removed n d).mdir k = d.mdir k := upd_ne _ _ hkn
    rw [h1] at hk
    rw [h2]; exact ht.info k hk
  · obtain ⟨k, x, i, h1, h2, h3⟩ := ht.space dir' hd
    by_cases hkn : k = n
    · subst hkn
      obtain ⟨x', i', g1, g2, g3⟩ := hnew
      have := hold x i h1 h2
      refine ⟨n', x', i', ?_, g2, by rw [g3, ← this, h3]⟩
      show upd d.info k none n' = _
      rw [upd_ne _ _ hne, g1]
    · exact ⟨k, x, i, by show upd d.info n none k = _; rw [upd_ne _ _ hkn, h1], h2, h3⟩

theorem unread_free {d : Disk} {g : Str → Option TS} (h : Steady E d g) {n : Str} (hn : d.mdir n = none) (x : Str) (i : WsInfo) (hx : d.info n = some x) : unmarshalInfo x ≠ some i := by
  intro hi
  rcases h.info n x hx with h1 | ⟨r, _, h1⟩
  · rw [hi] at h1; cases h1
  · exact h1.mdir hn

theorem opens_loads {d : Disk} {cwd path : Str} {w : OpenWs} {u p : UID} (ho : Opens E d cwd path w u p) : d.loads w.spaceDir = .ok w.tree := by
  obtain ⟨_, b, _, _, h1, h2⟩ := ho.tree
  rw [Disk.loads, h1]; exact h2

theorem opens_names {d : Disk} {cwd path : Str} {w : OpenWs} {u p : UID} (ho : Opens E d cwd path w u p) (x : Str) (i : WsInfo) (hx : d.info w.mount.id.base32 = some x)
    (hi : unmarshalInfo x = some i) : i.spaceID = w.spaceDir := by
  obtain ⟨j, h1, _, h3, _⟩ := ho.info
  rw [hx, Option.some.injEq] at h1
  subst h1
  rw [C17_info_roundtrip, Option.some.injEq] at hi
  subst hi
  show sanitize j.spaceID = _
  rw [h3, sanitize_base32, ho.dir]

theorem tidy_edit {d d' : Disk} {g : Str → Option TS} {cwd path : Str} {w : OpenWs} {u p : UID} {T : TS} (ht : Tidy d) (hF : Found E d g cwd path w u p T) {a : ATree}
    (ha : a.node = w.tree.abs.node) (h : Shelved E w.spaceDir a d d') : Tidy d' := by
  obtain ⟨T', b, h1, rfl, h3, rfl⟩ := h
  obtain ⟨s, e1, _, e2⟩ := (load_saved h1 h3).1 (shallow_congr ha (comesBack_shallow hF.back hF.shallow))
  refine ⟨fun v hv => ?_, ht.mdir, ht.info, fun dir hd => ?_⟩
  · obtain ⟨dir, s0, g1, g2⟩ := ht.layer v hv
    by_cases hdd : dir = w.spaceDir
    · subst hdd
      rw [opens_loads hF.opens, Res.ok.injEq] at g1
      subst g1
      obtain ⟨n, hn⟩ := g2
      obtain ⟨n', hn', _⟩ := e2.node v n (by rw [ha]; exact hn)
      exact ⟨w.spaceDir, s, by rw [Disk.loads]; simp only [Disk.setSpace, upd_self]; exact e1, n', hn'⟩
    · exact ⟨dir, s0, by rw [loads_congr (d := d) (by simp only [Disk.setSpace]; exact upd_ne _ _ hdd), g1], g2⟩
  · refine ht.space dir fun h => hd ?_
    have hne : dir ≠ w.spaceDir := by
      rintro rfl
      obtain ⟨_, b', _, _, h4, _⟩ := hF.opens.tree
      rw [h4] at h; cases h
    simp only [Disk.setSpace, upd_ne _ _ hne, h]

/-- A workspace moves to a new mount. -/
theorem tidy_moved {d d1 : Disk} {g : Str → Option TS} (hs : Steady E d g) (ht : Tidy d) {cwd path : Str} {w w' : OpenWs} {u p u' : UID} {ls : List UID} (ho : Opens E d cwd path w u p)
    (hmd : d.mdir w.mount.id.base32 ≠ none) (hL : Placed E d d1 w' w'.mount.id u' ls) (hid : w'.spaceID = w.spaceID) (hdir : w'.spaceDir = w.spaceDir)
    (hS : w'.tree.abs.Shallow) (hr : Reach w'.tree) (hkeep : ∀ v, w.tree.abs.Has v → w'.tree.abs.Has v) (hu : w'.tree.abs.Has u') : Tidy (removed w.mount.id.base32 d1) := by
  have hd : w'.spaceDir = w'.spaceID.base32 := by rw [hdir, hid, ho.dir]
  have hne : w'.mount.id.base32 ≠ w.mount.id.base32 := fun e => hmd (by rw [← e]; exact hL.newMdir)
  obtain ⟨i, hi, hi', _⟩ := info_names (E := E) w' u'
  refine tidy_removed (dir := w.spaceDir) (n' := w'.mount.id.base32) ?_ hne ?_ ⟨_, i, by rw [hL.info, upd_self], hi, by rw [hi', ← hd, hdir]⟩
  · refine tidy_placed ht rfl hL hS hr hd hu (fun v hv => Or.inl hv) ?_ (fun _ _ => rfl) rfl rfl (unread_free hs hL.newMdir)
    intro s h1 v h2
    rw [hdir, opens_loads ho, Res.ok.injEq] at h1
    subst h1
    exact hkeep v h2
  · intro x j hx hj
    rw [hL.info, upd_ne _ _ hne.symm] at hx
    exact opens_names ho x j hx hj

theorem tidy_smooth (hio : f.io = false) {d d' : Disk} {g : Str → Option TS} (hs : Steady E d g) (ht : Tidy d) {a : Act} (hpl : a.Plain E) (h : Smooth E f a d d') : Tidy d' := by
  cases h with
  | same _ => exact ht
  | user hu h =>
    cases h with
    | init _ => exact hu.elim
    | clone _ => exact hu.elim
    | commit _ => exact hu.elim
    | checkout _ => exact hu.elim
    | edit _ => exact hu.elim
    | write hm =>
      rename_i n m c
      obtain ⟨r, h1, h2, _⟩ := hs.mnt _ _ hm
      have hd := (backed_of_rec hs h1).head
      rw [← h2] at hd
      obtain ⟨c', hc'⟩ := hd
      have hput : d.put m.upper c = d.setLayer m.upper (some (some c)) := by unfold Disk.put; rw [hc']
      rw [hput]
      refine ⟨fun v hv => ht.layer v ?_, ht.mdir, ht.info, ht.space⟩
      by_cases hvu : v = m.upper
      · subst hvu; rw [hc']; simp
      · simpa only [Disk.setLayer, upd_ne _ _ hvu] using hv
    | stray h1 h2 h3 =>
      rename_i n m c0 c
      have hx : ∀ k, (d.setMdir n (some { m with merged := some c })).mdir k ≠ none ↔ d.mdir k ≠ none := by
        intro k
        by_cases hkn : k = n
        · subst hkn; simp [Disk.setMdir, h2]
        · simp only [Disk.setMdir, upd_ne _ _ hkn]
      exact ⟨ht.layer, fun k hk => ht.mdir k ((hx k).1 hk), fun k hk => (hx k).2 (ht.info k hk), ht.space⟩
    | files => exact ⟨ht.layer, ht.mdir, ht.info, ht.space⟩
    | reboot => exact ⟨ht.layer, ht.mdir, ht.info, ht.space⟩
  | init he =>
    rename_i path branch w
    obtain ⟨_, root, u', dp, hFo, hI, _, _, hL⟩ := wpm_exec (initCmd_wp hpl) he
    have hhas : ∀ v, w.tree.abs.Has v ↔ v = u' ∨ v = root := by
      intro v
      rw [hI.tree]
      exact Iff.trans (add_has (a := ATree.first root)) (or_congr_right (first_has root v))
    refine tidy_placed ht rfl hL ?_ hI.reach hI.spaceDir ((hhas _).2 (Or.inl rfl)) (fun v hv => ?_) ?_ (fun n hn => by rw [hFo.space, upd_ne _ _ hn]) hFo.mdir hFo.litter.info
      (unread_free hs (by rw [← hFo.mdir]; exact hL.newMdir))
    · exact shallow_congr (by rw [hI.tree]; rfl) (shallow_init hI.newNode)
    · by_cases hv' : v = root
      · exact Or.inr ((hhas _).2 (Or.inr hv'))
      · rw [hFo.layer, upd_ne _ _ hv'] at hv; exact Or.inl hv
    · intro s h1
      rw [Disk.loads, hFo.newSpace] at h1
      cases h1
  | clone he =>
    obtain ⟨ho, hoff⟩ := hpl
    rcases run_opens hs ho he with ⟨_, h1, _⟩ | ⟨w, u, p, T, hF⟩
    · exact absurd rfl (h1 _)
    obtain ⟨u', ls, hC, hP, _, _, hL⟩ := wpm_exec (cloneCmd_wp hF.opens hoff) he
    refine tidy_placed ht rfl hL ?_ hC.reach (by rw [hC.spaceDir, hC.spaceID, hF.opens.dir]) (by rw [hC.tree]; exact add_has.2 (Or.inl rfl)) (fun v hv => Or.inl hv) ?_ (fun _ _ => rfl) rfl rfl
      (unread_free hs hL.newMdir)
    · rw [hC.tree]
      exact shallow_add (reach_rooted (opens_reach hF.opens)) (comesBack_shallow hF.back hF.shallow) hC.newNode hP (fits_small hL.fits)
    · intro s h1 v h2
      rw [hC.spaceDir, opens_loads hF.opens, Res.ok.injEq] at h1
      subst h1
      rw [hC.tree]; exact add_has.2 (Or.inr h2)
  | commit he =>
    rcases run_opens hs hpl he with ⟨_, h1, _⟩ | ⟨w, u, p, T, hF⟩
    · exact absurd rfl (h1 _)
    obtain ⟨_, _, u', ls, d1, hC, hP, _, hL, rfl⟩ := wpm_exec (commitCmd_wp hF.opens hF.mdir) he
    have hhas : ∀ (date msg : Str) v, w.tree.abs.Has v ∨ v = u' → (w.tree.abs.commit w.ws.onBranch u u' date msg).Has v := by
      intro date msg v hv
      rw [ATree.Has, commit_node]
      exact add_has.2 (hv.symm.imp_right fun h => (note_has v).2 ((note_has v).2 h))
    refine tidy_moved hs ht hF.opens hF.mdir hL hC.spaceID hC.spaceDir ?_ hC.reach (fun v hv => by rw [hC.tree]; exact hhas _ _ v (Or.inl hv)) (by rw [hC.tree]; exact hhas _ _ _ (Or.inr rfl))
    rw [hC.tree]
    exact shallow_commit (opens_reach hF.opens) (comesBack_shallow hF.back hF.shallow) hC.newNode hP (fits_small hL.fits)
  | checkout he =>
    have hk := plain_of_checkout he
    rcases run_opens hs hpl he with ⟨_, h1, _⟩ | ⟨w, u, p, T, hF⟩
    · exact absurd rfl (h1 _)
    obtain ⟨_, v, kt, u', ls, d1, _, hC, hP, _, hL, rfl⟩ := wpm_exec (checkoutCmd_wp hF.opens hk hF.mdir) he
    refine tidy_moved hs ht hF.opens hF.mdir hL hC.spaceID hC.spaceDir ?_ hC.reach (fun v hv => by rw [hC.tree]; exact add_has.2 (Or.inr hv)) (by rw [hC.tree]; exact add_has.2 (Or.inl rfl))
    rw [hC.tree]
    exact shallow_add (reach_rooted (opens_reach hF.opens)) (comesBack_shallow hF.back hF.shallow) hC.newNode hP (fits_small hL.fits)
  | edit he =>
    obtain ⟨es1, r, _, hpe, he⟩ := edit_prefix he
    rcases run_opens hs hpl he with ⟨h2, _⟩ | ⟨w, u, p, T, hF⟩
    · rw [h2]; exact ht
    have := wpm_exec (editCmd_wp hF.opens hpe) he
    cases r with
    | ok s' =>
      obtain ⟨_, h1, ⟨_, h2⟩ | h2⟩ := this
      · rw [h2]; exact ht
      · exact tidy_edit ht hF (editsAll_node h1).1 h2
    | err e =>
      rcases this with ⟨es1, e1, b, _, h1, _, ⟨_, h2⟩ | ⟨_, h2⟩, _⟩ | ⟨_, h2⟩
      · rw [h2]; exact ht
      · exact tidy_edit ht hF (editsAll_node h1).1 h2
      · rw [hio] at h2; cases h2
    | panic => exact this.elim
    | diverge => exact this.elim

theorem tidy_past (hio : f.io = false) {d d' : Disk} {g : Str → Option TS} (hs : Steady E d g) (ht : Tidy d) (h : SmoothPast E f d d') : Tidy d' := by
  induction h with
  | refl => exact ht
  | step h1 hpl h2 ih =>
    obtain ⟨g1, hs1, _⟩ := steady_past hio hs (past_of_smooth h1)
    exact tidy_smooth hio (steady_as hs1) ih (plain_as hpl) h2

theorem loads_stored {d : Disk} {g : Str → Option TS} (hs : Steady E d g) {dir : Str} {s : TS} (h1 : d.loads dir = .ok s) {v : UID} (h2 : s.abs.Has v) : d.layer v ≠ none := by
  unfold Disk.loads at h1
  split at h1
  · rename_i b hb
    rcases hs.tree dir b hb with ⟨T, g1, g2⟩ | ⟨_, g2⟩
    · have hS : T.abs.Shallow := Classical.byContradiction fun hS => by
        obtain ⟨e, he⟩ := g2.deep hS
        rw [h1] at he; cases he
      obtain ⟨s', e1, _, e2⟩ := g2.ok hS
      rw [h1, Res.ok.injEq] at e1
      subst e1
      obtain ⟨c, hc⟩ := hs.stored dir T g1 v (comesBack_has e2 h2)
      rw [hc]; simp
    · obtain ⟨e, he⟩ := g2.1
      rw [h1] at he; cases he
  · cases h1

/-! ## The theorems -/

/-- **C83.** As long as every command succeeds or changes nothing, nothing is left over. -/
theorem C83_tidy (hio : f.io = false) {d0 d : Disk} (h0 : Untouched d0) (h : SmoothPast E f d0 d) : Tidy d :=
  tidy_past hio (steady_untouched h0) ⟨fun v hv => by rw [h0.layer] at hv; exact absurd rfl hv, fun n hn => by rw [h0.mdir] at hn; exact absurd rfl hn,
    fun n hn => by rw [h0.info] at hn; exact absurd rfl hn, fun n hn => by rw [h0.space] at hn; exact absurd rfl hn⟩ h

/-- **C83.** The layers on disk are then exactly those of the histories. -/
theorem C83_layers (hio : f.io = false) {d0 d : Disk} (h0 : Untouched d0) (h : SmoothPast E f d0 d) (v : UID) : d.layer v ≠ none ↔ ∃ dir s, d.loads dir = .ok s ∧ s.abs.Has v := by
  refine ⟨(C83_tidy hio h0 h).layer v, fun ⟨dir, s, h1, h2⟩ => ?_⟩
  obtain ⟨g, hs, _⟩ := steady_past hio (steady_untouched (E := E) h0) (past_of_smooth h)
  exact loads_stored hs h1 h2

/-- **C83.** A single commit that is refused since its branch cannot follow is enough for a layer that no history has. -/
theorem C83_refused {d d' : Disk} (hd : Reachable E d) {cwd : Str} (hout : E.Outside (Path.abs cwd (lit "."))) {w : OpenWs} (hg : Gets E d cwd (lit ".") w) {u p : UID}
    (hh : w.ws.HeadAt w.tree u p) (hno : ¬ MayCommit w u) {ci : CommitInfo} {r : Res CErr (OpenWs × OpenWs)} (he : Exec E Faults.none (commitCmd E cwd ci) d r d') : ¬ Tidy d' := by
  intro ht
  obtain ⟨_, ⟨v, h1, h2⟩, _, h3, _⟩ := C82_violated_commit hd hout hg hh hno he
  obtain ⟨g, hs⟩ := steady_reachable hd
  obtain ⟨dir, s, h4, h5⟩ := ht.layer v (by rw [h2, upd_self]; simp)
  rw [loads_congr (congrFun h3 dir)] at h4
  exact loads_stored hs h4 h5 h1

end
end Verif
