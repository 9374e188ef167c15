import Verif.World.SeqCommit
/-!
# Checkout, clone and init, run alone
-/
set_option autoImplicit false
namespace Verif
open M TS Json

section
variable {E : Env} {f : Faults}

/-- The workspace `w` has been checked out at the commit `v`, on the branch `b`. -/
structure CheckedOut (w : OpenWs) (v : UID) (b : Str) (w' : OpenWs) (u' : UID) : Prop where
  reach : Reach w'.tree
  newNode : ¬ w.tree.abs.Has u'
  tree : w'.tree.abs = w.tree.abs.add (some v) u' (fun _ => none) (fun _ => none)
  head : w'.ws.HeadAt w'.tree u' v
  id : w'.ws.id = w.ws.id
  path : w'.ws.path = w.ws.path
  branch : w'.ws.branch = b
  spaceID : w'.spaceID = w.spaceID
  spaceDir : w'.spaceDir = w.spaceDir

/-- The branch after a checkout of a key of this kind. -/
def branchAfter (key : Str) : KeyType → Str
  | .branch => key
  | _ => []

theorem branchAfter_eq (key : Str) (kt : KeyType) : (if kt = .branch then key else []) = branchAfter key kt := by
  cases kt <;> rfl

/-- What `checkout` of a key may save. -/
def CheckoutN (w : OpenWs) (p : UID) (key : Str) (w' : OpenWs) (u' : UID) : Prop :=
  ∃ v kt, Ws.Resolves w.tree.abs w.ws.id p key v kt ∧ CheckedOut w v (branchAfter key kt) w' u'

/-- `checkout` on a workspace that opens. -/
theorem checkoutCmd_wp {d : Disk} {cwd key : Str} {w : OpenWs} {u p : UID} (ho : Opens E d cwd (lit ".") w u p) (hk : PlainKey key)
    (hmd : d.mdir w.mount.id.base32 ≠ none) :
    wpm E f (Mid E (CheckoutN w p key) w.spaceDir w.ws.path (· = w.mount.id.base32) (Hurt f d w.mount.id.base32) d) (checkoutCmd E cwd key)
      (fun r d' => r.1 = w ∧ ∃ v kt u' ls d1, Ws.Resolves w.tree.abs w.ws.id p key v kt ∧ CheckedOut w v (branchAfter key kt) r.2 u' ∧
        w.tree.abs.Path v ls ∧ (Calm f d → r.2.mount.id ∉ d.used) ∧
        Placed E d d1 r.2 r.2.mount.id u' ls ∧ d' = removed w.mount.id.base32 d1)
      (fun e d' =>
        (e.early = true → Litter d d' ∧ (¬ Calm f d ∨ ∀ v kt, ¬ Ws.Resolves w.tree.abs w.ws.id p key v kt)) ∧
        (e.early = false →
          Mid E (CheckoutN w p key) w.spaceDir w.ws.path (· = w.mount.id.base32) (Hurt f d w.mount.id.base32) d d' ∧
          ∃ v kt, Ws.Resolves w.tree.abs w.ws.id p key v kt ∧
          (f.io = true ∨ ∃ w' u' ls, CheckedOut w v (branchAfter key kt) w' u' ∧ w.tree.abs.Path v ls ∧
            (Late E d d' w' w'.mount.id u' ls ∧ (¬ E.Fits ls.length ∨ ¬ Clearable E d w.ws.path) ∨
             ∃ d1, Placed E d d1 w' w'.mount.id u' ls ∧ Wiped f w.mount.id.base32 d1 d')))) d := by
  have hr := opens_reach ho
  have hmidL : ∀ d', Litter d d' → Mid E (CheckoutN w p key) w.spaceDir w.ws.path (· = w.mount.id.base32) (Hurt f d w.mount.id.base32) d d' :=
    fun _ h => mid_litter h
  have hmidM : ∀ d', Mid E (CheckoutN w p key) w.spaceDir w.ws.path (fun _ => False) (fun _ => False) d d' →
      Mid E (CheckoutN w p key) w.spaceDir w.ws.path (· = w.mount.id.base32) (Hurt f d w.mount.id.base32) d d' :=
    fun _ h => mid_mono h (fun _ _ h => h) (fun _ h => h.elim) (fun _ h => h.elim)
  unfold checkoutCmd
  refine wpm_bind (wpm_weaken (getWorkspace_wp ho) (fun _ h => by rw [h]; exact hmidL _ (litter_refl d)) (fun w0 d0 h0 => ?_) fun e d0 h0 => ?_)
  rotate_left
  · obtain ⟨rfl, h1, h2⟩ := h0
    exact ⟨fun _ => ⟨litter_refl d0, Or.inl fun hc => by rw [hc.1] at h2; cases h2⟩, fun h => by rw [h1] at h; cases h⟩
  obtain ⟨rfl, rfl⟩ := h0
  unfold checkoutP
  have hsp : d0.space w0.spaceDir ≠ none := by
    obtain ⟨T, b, _, _, h, _⟩ := ho.tree
    rw [h]; simp
  rcases Ws.search_spec (ε := Empty) (wf_of_reach hr) ho.head hk with ⟨r0, o, kt, g1, g2, g3, g4⟩ | ⟨g1, g2⟩
  rotate_left
  · refine wpm_bind (wpm_bind (wpm_lift_ok g1 ?_))
    exact wpm_fail ⟨fun _ => ⟨litter_refl d0, Or.inr g2⟩, nofun⟩
  refine wpm_bind (wpm_bind (wpm_lift_ok g1 ?_))
  simp only [Option.bind_some, g2]
  generalize hv : o.id = v at *
  have hu : w0.tree.abs.Has v := (abs_has_iff_get (wf_of_reach hr) v).2 ⟨_, g3⟩
  refine wpm_bind (wpm_weaken (createMount_wp hr hu ho.stored) hmidL (fun q d1 h1 => ?_) fun e d1 h1 => ?_)
  rotate_left
  · exact ⟨fun _ => ⟨h1.1, Or.inl h1.2.2⟩, fun h => by rw [h1.2.1] at h; cases h⟩
  obtain ⟨u', ls, hm⟩ := h1
  obtain ⟨s2, mo, r⟩ := q
  simp only at hm ⊢
  have hnode : s2.abs.node u' = some ⟨some v, fun _ => none, fun _ => none⟩ := by rw [hm.abs]; simp [ATree.add]
  rw [branchAfter_eq]
  let w' : OpenWs := { w0 with tree := s2, mount := mo, ws := ⟨w0.ws.id, w0.ws.path, r, branchAfter key kt⟩ }
  have hC : CheckedOut w0 v (branchAfter key kt) w' u' :=
    ⟨hm.reach, hm.newNode, hm.abs, ⟨hm.head, _, hnode, rfl⟩, rfl, rfl, rfl, rfl, rfl⟩
  have hoff : E.Off w'.ws.path := by
    show E.Off w0.ws.path
    rw [ho.path]; exact off_of_outside ho.out
  refine finish_wp (w := w') (N := CheckoutN w0 p key) (d0 := d0) (litter_refl d0) hm ho.stored rfl hm.reach ⟨v, kt, g4, hC⟩ hC.head.1 hsp hoff hm.newMdir (newMount_path hm) hmidM ?_ ?_
  · intro e d' h1 h2 h3
    refine ⟨fun h => (by rw [h2] at h; cases h), fun _ => ⟨hmidM _ h1, v, kt, g4, ?_⟩⟩
    exact h3.imp_right fun h => ⟨w', u', ls, hC, hm.path, Or.inl ⟨h.1, h.2.2⟩⟩
  · intro d' h1 h2 _
    have hne : w0.mount.id.base32 ≠ mo.id.base32 := by intro e; rw [e] at hmd; exact hmd hm.newMdir
    have hmn : d'.mnt w0.mount.id.base32 = d0.mnt w0.mount.id.base32 := by rw [h2.mnt]; exact upd_ne _ _ hne
    have hdir : w0.mount.dir = w0.mount.id.base32 := by rw [ho.mount]
    have hrem : ∀ x, Removing f w0.mount.id.base32 d' x →
        Mid E (CheckoutN w0 p key) w0.spaceDir w0.ws.path (· = w0.mount.id.base32) (Hurt f d0 w0.mount.id.base32) d0 x :=
      fun x hx => mid_removing h1 hmn hmd hx
    refine wpm_bind (wpm_weaken (removeMount_wp hdir) hrem (fun _ d3 h3 => ?_) fun e d3 h3 => ?_)
    · exact wpm_pure ⟨rfl, v, kt, u', ls, d', g4, hC, hm.path, hm.unused, h2, h3⟩
    · refine ⟨fun h => (by rw [h3.2.1] at h; cases h), fun _ => ⟨hrem _ h3.1, v, kt, g4, ?_⟩⟩
      exact h3.2.2.imp_right fun h => ⟨w', u', ls, hC, hm.path, Or.inr ⟨d', h2, h⟩⟩

/-! ## Clone -/

/-- The workspace `w` with the last commit `p` has been cloned to the path `target`. -/
structure Cloned (w : OpenWs) (p : UID) (target : Str) (w' : OpenWs) (u' : UID) : Prop where
  reach : Reach w'.tree
  newNode : ¬ w.tree.abs.Has u'
  tree : w'.tree.abs = w.tree.abs.add (some p) u' (fun _ => none) (fun _ => none)
  head : w'.ws.HeadAt w'.tree u' p
  path : w'.ws.path = target
  branch : w'.ws.branch = w.ws.branch
  spaceID : w'.spaceID = w.spaceID
  spaceDir : w'.spaceDir = w.spaceDir

theorem newMount_rand {d d1 d2 : Disk} {s s' : TS} {base : UID} {m : MountObj} {r : Nat} {u x : UID} {ls : List UID}
    (hm : NewMount (f := f) d d1 s s' base m r u ls) (h : Step E f .rand d1 x d2) : NewMount (f := f) d d2 s s' base m r u ls := by
  obtain ⟨l, _, e1, e2, e3, _⟩ := rand_litter h
  exact ⟨litter_trans hm.litter l, hm.reach, hm.newNode, hm.abs, hm.head, hm.path, hm.mount, hm.newLayer, e1.trans hm.layer, hm.newMdir,
    l.used _ hm.drawn, hm.unused, e3.trans hm.mdir, e2.trans hm.space⟩

/-- `clone` of a workspace that opens. -/
theorem cloneCmd_wp {d : Disk} {cwd source target : Str} {w : OpenWs} {u p : UID} (ho : Opens E d cwd source w u p) (hoff : E.Off target) :
    wpm E f (Mid E (Cloned w p target) w.spaceDir target (fun _ => False) (fun _ => False) d) (cloneCmd E cwd source target)
      (fun w' d' => ∃ u' ls, Cloned w p target w' u' ∧ w.tree.abs.Path p ls ∧
        (Calm f d → w'.mount.id ∉ d.used ∧ w'.ws.id ∉ d.used) ∧ w'.ws.id ∈ d'.used ∧ Placed E d d' w' w'.mount.id u' ls)
      (fun e d' => (e.early = true → Litter d d' ∧ ¬ Calm f d) ∧
        (e.early = false → Mid E (Cloned w p target) w.spaceDir target (fun _ => False) (fun _ => False) d d' ∧
          (f.io = true ∨ ∃ w' u' ls, Cloned w p target w' u' ∧ w.tree.abs.Path p ls ∧
            (Calm f d → w'.ws.id ∉ d.used) ∧ w'.ws.id ∈ d'.used ∧
            Late E d d' w' w'.mount.id u' ls ∧ (¬ E.Fits ls.length ∨ ¬ Clearable E d target)))) d := by
  have hr := opens_reach ho
  have hmidL : ∀ d', Litter d d' → Mid E (Cloned w p target) w.spaceDir target (fun _ => False) (fun _ => False) d d' :=
    fun _ h => mid_litter h
  unfold cloneCmd
  refine wpm_bind (wpm_weaken (getWorkspace_wp ho) (fun _ h => by rw [h]; exact hmidL _ (litter_refl d)) (fun w0 d0 h0 => ?_) fun e d0 h0 => ?_)
  rotate_left
  · obtain ⟨rfl, h1, h2⟩ := h0
    exact ⟨fun _ => ⟨litter_refl d0, fun hc => by rw [hc.1] at h2; cases h2⟩, fun h => by rw [h1] at h; cases h⟩
  obtain ⟨rfl, rfl⟩ := h0
  unfold cloneP
  have hsp : d0.space w0.spaceDir ≠ none := by
    obtain ⟨T, b, _, _, h, _⟩ := ho.tree
    rw [h]; simp
  refine wpm_bind (wpm_bind (wpm_lift_ok (parentID_spec (wf_of_reach hr) ho.head) ?_))
  have hu : w0.tree.abs.Has p := by
    obtain ⟨_, n, hn, hp⟩ := ho.head
    exact (reach_rooted hr).parent _ _ _ hn hp
  refine wpm_bind (wpm_weaken (createMount_wp hr hu ho.stored) hmidL (fun q d1 h1 => ?_) fun e d1 h1 => ?_)
  rotate_left
  · exact ⟨fun _ => ⟨h1.1, h1.2.2⟩, fun h => by rw [h1.2.1] at h; cases h⟩
  obtain ⟨u', ls, hm0⟩ := h1
  obtain ⟨s2, mo, r⟩ := q
  simp only at hm0 ⊢
  refine wpm_call fun wid d2 h2' => ?_
  have hm := newMount_rand hm0 h2'
  have hwid : Calm f d0 → wid ∉ d0.used := fun hc hx =>
    (rand_litter h2').2.2.2.2.2 (calm_litter hm0.litter hc) (hm0.litter.used _ hx)
  refine ⟨hmidL _ hm.litter, ?_⟩
  have hnode : s2.abs.node u' = some ⟨some p, fun _ => none, fun _ => none⟩ := by rw [hm.abs]; simp [ATree.add]
  let w' : OpenWs := { w0 with tree := s2, mount := mo, ws := ⟨wid, target, r, (Ws.branchInfo w0.ws).localName⟩ }
  have hC : Cloned w0 p target w' u' :=
    ⟨hm.reach, hm.newNode, hm.abs, ⟨hm.head, _, hnode, rfl⟩, rfl, rfl, rfl, rfl⟩
  refine finish_wp (w := w') (N := Cloned w0 p target) (d0 := d0) (litter_refl d0) hm ho.stored rfl hm.reach hC hC.head.1 hsp hoff hm.newMdir (newMount_path hm) (fun _ h => h) ?_ ?_
  · intro e d' h1 h2 h3
    refine ⟨fun h => (by rw [h2] at h; cases h), fun _ => ⟨h1, ?_⟩⟩
    exact h3.imp_right fun h => ⟨w', u', ls, hC, hm.path, hwid, by rw [h.2.1]; exact (rand_litter h2').2.1, h.1, h.2.2⟩
  · intro d' h1 h2 h3
    exact wpm_pure ⟨u', ls, hC, hm.path, fun hc => ⟨hm.unused hc, hwid hc⟩, by rw [h3]; exact (rand_litter h2').2.1, h2⟩

end
end Verif
