import Verif.World.SeqMove
/-!
# Init and edits of the names, run alone
-/
set_option autoImplicit false
namespace Verif
open M TS Json

/-- The tree of a new space. -/
def ATree.first (root : UID) : ATree := (ATree.empty.add none root (fun _ => none) (fun _ => none)).setTag (lit "ROOT") root

theorem spaceInit_spec (u : UID) : ∃ s, spaceInit u = .ok s ∧ Reach s ∧ s.abs = ATree.first u := by
  have hl : Op.Legal TS.empty.abs (.add none u none none) := by
    refine ⟨?_, ?_, ?_⟩
    · rw [abs_empty]; rintro ⟨n, hn⟩; cases hn
    · simp [GoMap.Nodup, GoMap.entries, AL.keys]
    · simp [GoMap.Nodup, GoMap.entries, AL.keys]
  rcases call_spec wf_empty (.add none u none none) hl with ⟨s1, h1, -, h2⟩ | ⟨e, h1, h2⟩
  rotate_left
  · rw [abs_empty] at h2
    cases h2 with
    | addRootErr h => cases h
  have hr1 : Reach s1 := .ok .new hl h1
  rw [abs_empty] at h2
  have ha : s1.abs = ATree.empty.add none u (fun _ => none) (fun _ => none) := by
    generalize hx : s1.abs = x at h2
    cases h2 with
    | addRoot _ => rfl
  have hu : s1.abs.Has u := by rw [ha]; exact ⟨_, upd_self _ _ _⟩
  obtain ⟨s2, g1, g2, g3, _⟩ := (addTag_spec (wf_of_reach hr1) rootTag u).1 hu
  have h1' : TS.empty.addNew none u none none = .ok s1 := h1
  refine ⟨s2, by rw [spaceInit, h1']; exact g1, .ok (op := .addTag rootTag u) hr1 trivial g1, ?_⟩
  rw [g3, ha]; rfl

theorem addBranch_nodes {s s' : TS} {b : Str} {u : UID} (h : s.addBranch b u = .ok s') : s'.tree.nodes = s.tree.nodes := by
  unfold addBranch at h
  split at h
  · cases h
  · split at h
    · cases h
    · injection h with h; rw [← h]

section
variable {E : Env} {f : Faults}

/-- A new workspace with the first layer `root`. -/
structure Inited (path branch : Str) (root : UID) (w' : OpenWs) (u' : UID) : Prop where
  reach : Reach w'.tree
  newNode : u' ≠ root
  tree : w'.tree.abs = ((ATree.first root).add (some root) u' (fun _ => none) (fun _ => none)).setBranch (w'.ws.id.base32 ++ lit "/" ++ branch) root
  head : w'.ws.HeadAt w'.tree u' root
  path : w'.ws.path = path
  branch : w'.ws.branch = branch
  spaceDir : w'.spaceDir = w'.spaceID.base32

/-- A new space `dir` with the layer `root`, nothing saved yet. -/
structure Founded (d d' : Disk) (dir : Str) (root : UID) : Prop where
  litter : Litter d d'
  newSpace : d.space dir = none
  newLayer : d.layer root = none
  layer : d'.layer = upd d.layer root (some (some .empty))
  space : d'.space = upd d.space dir (some none)
  mdir : d'.mdir = d.mdir

theorem createSpace_wp (d : Disk) :
    wpm E f (Litter d) createSpace
      (fun r d' => ∃ root, Founded d d' r.1.base32 root ∧ Reach r.2 ∧ r.2.abs = ATree.first root ∧ (Calm f d → r.1 ∉ d.used))
      (fun e d' => Litter d d' ∧ e.early = true ∧ ¬ Calm f d) d := by
  unfold createSpace
  refine wpm_call fun i d1 h1 => ?_
  obtain ⟨l1, hi, e1, e2, e3, hc⟩ := rand_litter h1
  refine ⟨l1, wpm_must fun a d2 h2 => ?_⟩
  rcases h2 with ⟨rfl, hn, rfl⟩ | ⟨rfl, hn, rfl⟩
  rotate_left
  · refine ⟨l1, nofun, fun _ => ⟨l1, rfl, fun hcalm => ?_⟩⟩
    rcases hn with hn | hn
    · refine hn ?_
      rw [e2]
      cases hx : d.space i.base32 with
      | none => rfl
      | some x =>
        obtain ⟨v, hv, e⟩ := hcalm.2.2.space i.base32 (by rw [hx]; simp)
        exact absurd (base32_inj e ▸ hv) (hc hcalm)
    · rw [hcalm.1] at hn; cases hn
  have hn' : d.space i.base32 = none := by rw [← e2]; exact hn
  have l2 : Litter d (d1.setSpace i.base32 (some none)) := by
    refine ⟨l1.layer, fun n => ?_, l1.mdir, l1.info, l1.mnt, l1.user, l1.used, fun ht => ?_⟩
    · by_cases hx : n = i.base32
      · right; subst hx; exact ⟨hn', by simp [Disk.setSpace]⟩
      · simp only [Disk.setSpace, upd_ne _ _ hx]; exact l1.space n
    · have ht1 := l1.tracked ht
      refine ⟨ht1.layer, fun n hx => ?_, ht1.mdir, ht1.info, ht1.mnt⟩
      by_cases hx' : n = i.base32
      · exact ⟨i, hi, hx'⟩
      · exact ht1.space n (by simpa only [Disk.setSpace, upd_ne _ _ hx'] using hx)
  refine ⟨l2, fun _ => ?_, nofun⟩
  unfold spaceInitP
  refine wpm_bind (wpm_bind (wpm_weaken (wpm_trans l2 (layerCreate_wp _)) (fun _ h => h) (fun u d3 h3 => ?_) fun e d3 h3 => ?_))
  rotate_left
  · exact ⟨litter_trans l2 h3.1, h3.2.1, fun hcalm => h3.2.2 (calm_litter l2 hcalm)⟩
  obtain ⟨s, g1, g2, g3⟩ := spaceInit_spec u
  refine wpm_lift_ok g1 (wpm_pure ⟨u, ⟨litter_trans l2 h3.litter, hn', ?_, ?_, ?_, ?_⟩, g2, g3, hc⟩)
  · have := h3.new; simp only [Disk.setSpace, e1] at this; exact this
  · rw [h3.layer]; simp only [Disk.setSpace, e1]
  · rw [h3.space]; simp only [Disk.setSpace, e2]
  · rw [h3.mdir]; simp only [Disk.setSpace, e3]

/-- What `init` may leave wherever it stops. -/
def MidInit (E : Env) (path branch : Str) (d d' : Disk) : Prop :=
  Litter d d' ∨ ∃ dir, d.space dir = none ∧
    Mid E (fun w' u' => ∃ root, d.layer root = none ∧ Inited path branch root w' u' ∧ w'.spaceDir = dir) dir path (fun _ => False) (fun _ => False) d d'

/-- What is at the path is free for `init`. -/
def FreeFor (E : Env) (d : Disk) (path : Str) : Prop :=
  match d.user path with
  | .noParent | .none | .emptyDir => True
  | .file | .dir => False
  | .link t => ∀ n, t = E.mountPath n → (∃ m c, d.mdir n = some m ∧ m.merged = some c) → ∀ x, d.shows n [x] = none

/-- There is a link to somewhere else. -/
def Foreign (E : Env) (d : Disk) (path : Str) : Prop := ∃ t, d.user path = .link t ∧ ∀ n, t ≠ E.mountPath n

theorem createWorkspace_wp {d : Disk} {path branch : Str} (hoff : E.Off path) :
    wpm E f (MidInit E path branch d) (do let w ← createWorkspace E path branch; expand E w; return w)
      (fun w' d' => ∃ root u' dp, Founded d dp w'.spaceDir root ∧ Inited path branch root w' u' ∧
        (Calm f d → w'.mount.id ∉ d.used ∧ w'.ws.id ∉ d.used ∧ w'.spaceID ∉ d.used) ∧ w'.ws.id ∈ d'.used ∧ Placed E dp d' w' w'.mount.id u' [root])
      (fun e d' => (e.early = true → Litter d d' ∧ ¬ Calm f d) ∧
        (e.early = false → MidInit E path branch d d' ∧ (f.io = true ∨ ∃ w' root u' dp, Founded d dp w'.spaceDir root ∧
          Inited path branch root w' u' ∧ w'.ws.id ∈ d'.used ∧ Late E dp d' w' w'.mount.id u' [root] ∧ (¬ E.Fits 1 ∨ ¬ Clearable E d path)))) d := by
  unfold createWorkspace
  have hL : ∀ d', Litter d d' → MidInit E path branch d d' := fun _ h => Or.inl h
  refine wpm_bind (wpm_bind (wpm_weaken (createSpace_wp d) hL (fun q d1 h1 => ?_) fun e d1 h1 => ?_))
  rotate_left
  · exact ⟨fun _ => ⟨h1.1, h1.2.2⟩, fun h => by rw [h1.2.1] at h; cases h⟩
  obtain ⟨root, hF, hr, ha, hiu⟩ := h1
  obtain ⟨i, s⟩ := q
  simp only at hF hr ha hiu ⊢
  have hw := wf_of_reach hr
  have hroot : s.abs.root = some root := by rw [ha]; rfl
  have hrootHas : s.abs.Has root := by
    obtain ⟨n, hn, _⟩ := (reach_rooted hr).root root hroot
    exact ⟨n, hn⟩
  have hob : ∃ o, s.tree.root.bind (s.heap[·]?) = some o ∧ o.id = root := by
    simp only [abs, idAt, Option.bind_eq_some_iff, Option.map_eq_some_iff] at hroot
    obtain ⟨r, h1, o, h2, h3⟩ := hroot
    exact ⟨o, by rw [h1]; exact h2, h3⟩
  obtain ⟨o, ho1, ho2⟩ := hob
  rw [ho1]
  simp only [ho2]
  have hst : Stored d1 s.abs := by
    intro v hv
    have : v = root := by
      rw [ha] at hv
      obtain ⟨n, hn⟩ := hv
      by_cases hx : v = root
      · exact hx
      · simp only [ATree.first, ATree.setTag, ATree.add, upd_ne _ _ hx, ATree.empty] at hn
        cases hn
    rw [this]
    exact ⟨_, by rw [hF.layer]; exact upd_self _ _ _⟩
  have hL1 : ∀ d', Litter d1 d' → MidInit E path branch d d' := fun _ h => Or.inl (litter_trans hF.litter h)
  refine wpm_bind (wpm_weaken (createMount_wp hr hrootHas hst) hL1 (fun q d2 h2 => ?_) fun e d2 h2 => ?_)
  rotate_left
  · exact ⟨fun _ => ⟨litter_trans hF.litter h2.1, fun hc => h2.2.2 (calm_litter hF.litter hc)⟩, fun h => by rw [h2.2.1] at h; cases h⟩
  obtain ⟨u', ls, hm0⟩ := h2
  obtain ⟨s2, mo, r⟩ := q
  simp only at hm0 ⊢
  refine wpm_call fun wid d3 h3' => ?_
  have hm := newMount_rand hm0 h3'
  refine ⟨hL1 _ hm.litter, ?_⟩
  have hls : ls = [root] := by
    have hp := hm.path
    have : s.abs.Path root [root] := by
      obtain ⟨n, hn, hp⟩ := (reach_rooted hr).root root hroot
      exact .root hn hp
    exact Ws.path_unique hp this
  have hw2 := wf_of_reach hm.reach
  have hnode : s2.abs.node u' = some ⟨some root, fun _ => none, fun _ => none⟩ := by rw [hm.abs]; simp [ATree.add]
  have hne : u' ≠ root := by rintro rfl; exact hm.newNode hrootHas
  have hhead : (⟨wid, path, r, []⟩ : Ws).HeadAt s2 u' root := ⟨hm.head, _, hnode, rfl⟩
  have hrt2 : s2.abs.Has root := by
    rw [hm.abs]
    obtain ⟨n, hn⟩ := hrootHas
    exact ⟨n, by simp only [ATree.add, upd_ne _ _ (Ne.symm hne)]; exact hn⟩
  obtain ⟨s3, g1, g2, g3, g4⟩ := (addBranch_spec hw2 (BranchInfo.fullName ⟨some wid, branch⟩) root).1 hrt2
  have hset : Ws.setBranch s2 ⟨wid, path, r, []⟩ branch = .ok (s3, ⟨wid, path, r, branch⟩) := by
    obtain ⟨o, q, po, a1, a2, a3, a4, a5, a6, a7⟩ := Ws.headAt_obj hw2 hhead
    simp only at a1
    simp only [Ws.setBranch, a1, a4, Option.bind_some, a5, a6, g1, Res.bind]
  refine wpm_bind (wpm_lift_ok hset ?_)
  simp only
  have hr3 : Reach s3 := .ok (op := .addBranch _ root) hm.reach trivial g1
  have hget : s3.get u' = some r := by
    rw [TS.get, addBranch_nodes g1]; exact hm.head
  let w' : OpenWs := ⟨s3, i, i.base32, mo, ⟨wid, path, r, branch⟩⟩
  have hC : Inited path branch root w' u' := by
    refine ⟨hr3, hne, ?_, ⟨hget, ⟨some root, fun _ => none, fun _ => none⟩, ?_, rfl⟩, rfl, rfl, rfl⟩
    · show s3.abs = _
      rw [g3, hm.abs, ha]; rfl
    · show s3.abs.node u' = _
      rw [g3]; exact hnode
  have hM : ∀ d', Mid E (fun w' u' => ∃ root, d.layer root = none ∧ Inited path branch root w' u' ∧ w'.spaceDir = i.base32) i.base32 path (fun _ => False) (fun _ => False) d d' →
      MidInit E path branch d d' := fun d' h => Or.inr ⟨i.base32, hF.newSpace, h⟩
  have hmd : d.mdir mo.id.base32 = none := by rw [← hF.mdir]; exact hm.newMdir
  refine finish_wp (w := w') (N := fun w' u' => ∃ root, d.layer root = none ∧ Inited path branch root w' u' ∧ w'.spaceDir = i.base32) (d0 := d) hF.litter hm hst rfl hr3 ⟨root, hF.newLayer, hC, rfl⟩
    hget (by rw [hF.space]; show upd _ _ _ i.base32 ≠ none; simp) hoff hmd
    (path_nodes (by show s3.abs.node = _; rw [g3]; rfl) (newMount_path hm)) hM ?_ ?_
  · intro e d' h1 h2 h3
    refine ⟨fun h => (by rw [h2] at h; cases h), fun _ => ⟨hM _ h1, ?_⟩⟩
    rcases h3 with h | ⟨h0, hus, h⟩
    · exact Or.inl h
    rw [hls] at h h0
    refine Or.inr ⟨w', root, u', d1, hF, hC, by rw [hus]; exact (rand_litter h3').2.1, h0, ?_⟩
    rcases h with h | h
    · exact Or.inl h
    · right
      intro hc
      refine h ?_
      unfold Clearable at hc ⊢
      rw [hF.litter.user, hF.mdir]; exact hc
  · intro d' h1 h2 h3
    rw [hls] at h2
    refine wpm_pure ⟨root, u', d1, hF, hC, fun hc => ⟨fun hx => ?_, fun hx => ?_, hiu hc⟩, by rw [h3]; exact (rand_litter h3').2.1, h2⟩
    · exact hm.unused (calm_litter hF.litter hc) (hF.litter.used _ hx)
    · have l := litter_trans hF.litter hm0.litter
      exact (rand_litter h3').2.2.2.2.2 (calm_litter l hc) (l.used _ hx)

/-- `init` on a path outside the data directory. -/
theorem initCmd_wp {d : Disk} {path branch : Str} (hoff : E.Off path) :
    wpm E f (MidInit E path branch d) (initCmd E path branch)
      (fun w' d' => (f.io = false → FreeFor E d path) ∧
        ∃ root u' dp, Founded d dp w'.spaceDir root ∧ Inited path branch root w' u' ∧
        (Calm f d → w'.mount.id ∉ d.used ∧ w'.ws.id ∉ d.used ∧ w'.spaceID ∉ d.used) ∧ w'.ws.id ∈ d'.used ∧ Placed E dp d' w' w'.mount.id u' [root])
      (fun e d' => (e.early = true → Litter d d' ∧ (¬ Calm f d ∨ ¬ FreeFor E d path ∨ Foreign E d path)) ∧
        (e.early = false → MidInit E path branch d d' ∧ (f.io = true ∨ ∃ w' root u' dp, Founded d dp w'.spaceDir root ∧
          Inited path branch root w' u' ∧ w'.ws.id ∈ d'.used ∧ Late E dp d' w' w'.mount.id u' [root] ∧ (¬ E.Fits 1 ∨ ¬ Clearable E d path)))) d := by
  have hL : ∀ d', Litter d d' → MidInit E path branch d d' := fun _ h => Or.inl h
  have hgo : (f.io = false → FreeFor E d path) → wpm E f (MidInit E path branch d) (do let w ← createWorkspace E path branch; expand E w; return w)
      (fun w' d' => (f.io = false → FreeFor E d path) ∧
        ∃ root u' dp, Founded d dp w'.spaceDir root ∧ Inited path branch root w' u' ∧
        (Calm f d → w'.mount.id ∉ d.used ∧ w'.ws.id ∉ d.used ∧ w'.spaceID ∉ d.used) ∧ w'.ws.id ∈ d'.used ∧ Placed E dp d' w' w'.mount.id u' [root])
      (fun e d' => (e.early = true → Litter d d' ∧ (¬ Calm f d ∨ ¬ FreeFor E d path ∨ Foreign E d path)) ∧
        (e.early = false → MidInit E path branch d d' ∧ (f.io = true ∨ ∃ w' root u' dp, Founded d dp w'.spaceDir root ∧
          Inited path branch root w' u' ∧ w'.ws.id ∈ d'.used ∧ Late E dp d' w' w'.mount.id u' [root] ∧ (¬ E.Fits 1 ∨ ¬ Clearable E d path)))) d := fun hfree =>
    wpm_mono (createWorkspace_wp hoff) (fun _ _ h => ⟨hfree, h⟩) fun e d' h => ⟨fun he => ⟨(h.1 he).1, Or.inl (h.1 he).2⟩, h.2⟩
  have hno := off_not hoff
  unfold initCmd
  refine wpm_call fun a d1 h1 => ?_
  obtain ⟨rfl, h1⟩ := h1
  refine ⟨hL _ (litter_refl d1), ?_⟩
  cases a with
  | false =>
    simp only [Bool.false_eq_true, if_false]
    refine hgo fun hio => ?_
    rcases h1 with h1 | h1 | h1
    · unfold Exists at h1
      unfold FreeFor
      split at h1
      · rename_i e; rw [e]; trivial
      · rename_i e; rw [e]; trivial
      · cases h1
      · cases h1
      · cases h1
      · rename_i t e
        rw [e]
        intro n hn hx
        exact absurd ((h1 n hn).2 hx) nofun
    · exact absurd h1 hno
    · rw [hio] at h1; cases h1.2
  | true =>
    simp only [if_true]
    refine wpm_must fun a d2 h2 => ?_
    obtain ⟨rfl, h2⟩ := h2
    refine ⟨hL _ (litter_refl d2), fun ha => hgo fun hio => ?_, fun ha => ⟨fun _ => ⟨litter_refl d2, ?_⟩, nofun⟩⟩
    · subst ha
      rcases h2 with h2 | h2 | h2
      · unfold EmptyDir at h2
        unfold FreeFor
        split at h2
        · rename_i e; rw [e]; trivial
        · rename_i t e
          rw [e]
          intro n hn hx
          exact ((h2 n hn).1 rfl).2
        · cases h2
      · exact absurd h2 hno
      · cases h2.1
    · subst ha
      rcases h2 with h2 | h2 | h2
      · right
        rcases h1 with h1 | h1 | h1
        · unfold EmptyDir at h2
          unfold Exists at h1
          cases hu : d2.user path with
          | link t =>
            rw [hu] at h1 h2
            simp only at h1 h2
            by_cases hf : ∃ n, t = E.mountPath n
            · obtain ⟨n, hn⟩ := hf
              left
              intro hfree
              rw [FreeFor, hu] at hfree
              have hm := (h1 n hn).1 trivial
              exact absurd ((h2 n hn).2 ⟨hm, hfree n hn hm⟩) nofun
            · exact Or.inr ⟨t, hu, fun n hn => hf ⟨n, hn⟩⟩
          | emptyDir => rw [hu] at h2; cases h2
          | none => rw [hu] at h1; cases h1
          | noParent => rw [hu] at h1; cases h1
          | dir => exact Or.inl (by rw [FreeFor, hu]; exact fun h => h)
          | file => exact Or.inl (by rw [FreeFor, hu]; exact fun h => h)
        · exact absurd h1 hno
        · cases h1.1
      · exact absurd h2 hno
      · exact Or.inl fun hc => by rw [hc.1] at h2; cases h2.2

end
end Verif
