import Verif.World.Beside
import Verif.Props.Between
import Verif.Props.Edits
/-!
# What a listing shows beside other commands (C103)

`log`, `branch` and `tag` read three files without a lock: the link, the record of the mount, the history. Here: beside one other command they show the workspace
as it was at one moment while they ran; beside several they may not.
-/
set_option autoImplicit false
namespace Verif
open M TS Json

section
variable {E : Env} {ι : Type} [DecidableEq ι]

/-! ## Proof -/

theorem onlyReads_look (cwd : Str) : OnlyReads ((Command.look cwd).prog E) :=
  onlyReads_bind (onlyReads_getWorkspace E cwd (lit ".")) fun _ => .ret _

theorem upd_other {α : Type} (g : ι → α) {i j : ι} (h : j ≠ i) (x : α) : upd g i x j = g j := upd_ne _ _ h

/-- While one program changes the disk and the others only read: what is left of each, and where the disk can be stopped. -/
theorem alongside_beside {α : Type} {F : ι → Env} {f : ι → Faults} {ps qs : ι → Prog α} {d e : Disk} {ms : List Disk} {i0 : ι} {n0 : Nat} (hp : Ph n0 3 (ps i0))
    (hr : ∀ i, i ≠ i0 → OnlyReads (ps i)) {i : ι} (hi : i ≠ i0) {Q : α → Sofar → Prop} (hw : Peeks Ticks Sofar.now (F i) (f i) Q (ps i) ⟨n0, [d], d⟩)
    (h : Alongside F f ps d ms qs e) :
    ∃ n, Ph n 3 (qs i0) ∧ (∀ j, j ≠ i0 → OnlyReads (qs j)) ∧ Peeks Ticks Sofar.now (F i) (f i) Q (qs i) ⟨n, ms, e⟩ ∧
      (∀ l, Stops (F i0) (f i0) (qs i0) e l → Stops (F i0) (f i0) (ps i0) d l) ∧ ∀ l ∈ ms, Stops (F i0) (f i0) (ps i0) d l := by
  induction h with
  | refl => exact ⟨n0, hp, hr, hw, fun _ h => h, fun l hl => by cases List.mem_singleton.1 hl; exact .here _ _⟩
  | @step ms qs e e' j c k x _ hq hs ih =>
    obtain ⟨n, h1, h2, h3, h4, h5⟩ := ih
    by_cases hj : j = i0
    · subst hj
      rw [hq] at h1 h4
      have hrun : ∀ l, Stops (F j) (f j) (k x) e' l → Stops (F j) (f j) (ps j) d l := fun l hl => h4 l (.op hs hl)
      have htick : Tick ⟨n, ms, e⟩ ⟨c.next n, e' :: ms, e'⟩ := by
        rcases step_change hs with ha | ⟨m, hm, hc⟩
        · refine .quiet _ ?_ ha
          unfold Cmd.next
          cases hc : c.rank with
          | none => exact Nat.le_refl _
          | some m => exact h1.1 m hc
        · have hn : c.next n = m := by rw [Cmd.next, hm]; rfl
          rw [hn]
          refine .change (h1.1 m hm) ?_ hc
          cases c <;> cases hm <;> decide
      refine ⟨c.next n, ?_, ?_, ?_, ?_, ?_⟩
      · rw [upd_self]; exact h1.2 x
      · intro j' hj'; rw [upd_other _ hj']; exact h2 j' hj'
      · rw [upd_other _ hi]; exact h3.later (fun _ _ _ => .trans) (.step (.refl _) htick)
      · rw [upd_self]; exact hrun
      · intro l hl
        rcases List.mem_cons.1 hl with rfl | hl
        · exact hrun _ (.here _ _)
        · exact h5 l hl
    · have ho := h2 j hj
      rw [hq] at ho
      obtain ⟨hro, hk⟩ : (∀ (E : Env) (f : Faults) d x d', Step E f c d x d' → d' = d) ∧ ∀ x, OnlyReads (k x) := by cases ho with | op a b => exact ⟨a, b⟩
      have he : e' = e := hro _ _ _ _ _ hs
      subst he
      have htick : Ticks ⟨n, ms, e'⟩ ⟨n, e' :: ms, e'⟩ := .step (.refl _) (.quiet _ (Nat.le_refl _) (.refl _))
      refine ⟨n, ?_, ?_, ?_, ?_, ?_⟩
      · rw [upd_other _ (Ne.symm hj)]; exact h1
      · intro j' hj'
        by_cases hjj : j' = j
        · subst hjj; rw [upd_self]; exact hk x
        · rw [upd_other _ hjj]; exact h2 j' hj'
      · by_cases hjj : i = j
        · subst hjj
          rw [upd_self]
          rw [hq] at h3
          exact (h3 _ (.refl _) _ _ hs).2.later (fun _ _ _ => .trans) htick
        · rw [upd_other _ hjj]; exact h3.later (fun _ _ _ => .trans) htick
      · rw [upd_other _ (Ne.symm hj)]; exact h4
      · intro l hl
        rcases List.mem_cons.1 hl with rfl | hl
        · exact h4 _ (.here _ _)
        · exact h5 l hl

/-- The rank of what is left of a program. -/
theorem alongside_left {α : Type} {F : ι → Env} {f : ι → Faults} {ps qs : ι → Prog α} {d e : Disk} {ms : List Disk} {i0 : ι} {n0 : Nat} (hp : Ph n0 3 (ps i0))
    (hr : ∀ i, i ≠ i0 → OnlyReads (ps i)) (h : Alongside F f ps d ms qs e) :
    ∃ n, Ph n 3 (qs i0) ∧ (∀ j, j ≠ i0 → OnlyReads (qs j)) ∧ ∀ l, Stops (F i0) (f i0) (qs i0) e l → Stops (F i0) (f i0) (ps i0) d l := by
  induction h with
  | refl => exact ⟨n0, hp, hr, fun _ h => h⟩
  | @step ms qs e e' j c k x _ hq hs ih =>
    obtain ⟨n, h1, h2, h4⟩ := ih
    by_cases hj : j = i0
    · subst hj
      rw [hq] at h1 h4
      exact ⟨c.next n, by rw [upd_self]; exact h1.2 x, fun j' hj' => by rw [upd_other _ hj']; exact h2 j' hj', by rw [upd_self]; exact fun l hl => h4 l (.op hs hl)⟩
    · have ho := h2 j hj
      rw [hq] at ho
      obtain ⟨hro, hk⟩ : (∀ (E : Env) (f : Faults) d x d', Step E f c d x d' → d' = d) ∧ ∀ x, OnlyReads (k x) := by cases ho with | op a b => exact ⟨a, b⟩
      have he : e' = e := hro _ _ _ _ _ hs
      subst he
      refine ⟨n, by rw [upd_other _ (Ne.symm hj)]; exact h1, fun j' hj' => ?_, by rw [upd_other _ (Ne.symm hj)]; exact h4⟩
      by_cases hjj : j' = j
      · subst hjj; rw [upd_self]; exact hk x
      · rw [upd_other _ hjj]; exact h2 j' hj'

theorem finds_look {σ : Type} {R : σ → σ → Prop} {now : σ → Disk} {f : Faults} {cwd : Str} {Q : OpenWs → σ → Prop} {s : σ} (hr : ∀ s, R s s) (hk : ∀ w s t, R s t → Q w s → Q w t)
    (h : Finds R now E f Q (getWorkspace E cwd (lit ".")) s) : Finds R now E f (fun o t => ∃ w, o = .read w ∧ Q w t) ((Command.look cwd).prog E) s :=
  Finds.bind hr h fun w t hq => fun t' ht o ho => by cases ho; exact ⟨w, rfl, hk w t t' ht hq⟩

/-! ## Theorems -/

variable {own : ι → Nat} {f : ι → Faults} {cs : ι → Command} {d d1 e : Disk} {ms1 ms : List Disk} {qs1 qs : ι → Prog (Res CErr Out)}

/-- **C103, beside one other command.** The command `i0` is any command, of which any call may fail and which may be killed at any call; all others are listings. The
listing `i` starts when the disk is `d1`. What it shows is what opening the workspace gives at one moment between its start and its end, that is, what it would show if
the other command was stopped there. -/
theorem C103_one_moment_partial {i0 i : ι} (hlook : ∀ j, j ≠ i0 → ∃ cwd, cs j = .look cwd) (hi : i ≠ i0) {cwd : Str} (hc : cs i = .look cwd)
    (hout : E.Outside (Path.abs cwd (lit "."))) (hf : (f i).io = false)
    (h1 : Alongside (fun i => E.as (own i)) f (fun i => (cs i).prog (E.as (own i))) d ms1 qs1 d1) (hs : qs1 i = (cs i).prog (E.as (own i)))
    (h2 : Alongside (fun i => E.as (own i)) f qs1 d1 ms qs e) {o : Out} (hq : qs i = .ret (.ok o)) :
    ∃ w l, o = .read w ∧ l ∈ ms ∧ Gets E l cwd (lit ".") w ∧ Stops (E.as (own i0)) (f i0) ((cs i0).prog (E.as (own i0))) d l := by
  obtain ⟨n, a1, a2, a3⟩ := alongside_left (i0 := i0) (command_ph (E := E.as (own i0)) (cs i0)) (fun j hj => by
    obtain ⟨c, hc⟩ := hlook j hj
    rw [hc]; exact onlyReads_look c) h1
  have hw : Finds Ticks Sofar.now (E.as (own i)) (f i) (fun o t => ∃ w, o = .read w ∧ ∃ v b tb, OpensWith (E.as (own i)) cwd (lit ".") v b tb w ∧
      ∃ l ∈ t.past, HasThree l (Path.abs cwd (lit ".")) v w.mount.id.base32 b w.spaceDir tb) (qs1 i) ⟨n, [d1], d1⟩ := by
    rw [hs, hc]
    exact finds_look (Q := fun w t => ∃ v b tb, OpensWith (E.as (own i)) cwd (lit ".") v b tb w ∧ ∃ l ∈ t.past, HasThree l (Path.abs cwd (lit ".")) v w.mount.id.base32 b w.spaceDir tb)
      Ticks.refl (fun w s t h ⟨v, b, tb, k, l, hl, k'⟩ => ⟨v, b, tb, k, l, ticks_past h hl, k'⟩)
      (finds_get (E := E.as (own i)) hout hf (learns_ticks _) (List.mem_singleton.2 rfl))
  unfold Finds at hw
  obtain ⟨n', _, _, b3, b4, b5⟩ := alongside_beside (F := fun i => E.as (own i)) (f := f) a1 a2 hi hw h2
  rw [hq] at b3
  obtain ⟨w, hw, v, b, tb, k1, l, hl, k2⟩ := b3 _ (.refl _) o rfl
  exact ⟨w, l, hw, hl, gets_of_three (E := E) ⟨k1.link, k1.record, k1.tree, k1.path, k1.mount⟩ k2, a3 _ (b5 l hl)⟩

/-- Half way through a commit or a checkout the path leads to the same space, if it leads to a workspace. -/
theorem half_dir {f : Faults} {N : OpenWs → UID → Prop} {d d' : Disk} {g : Str → Option TS} {cwd : Str} {w : OpenWs} {u p : UID} {T : TS} (hF : Found E d g cwd (lit ".") w u p T)
    (hN : ∀ w' u', N w' u' → ∃ q, Goes w u p w' u' q) (h : Half E f N w d d') {w1 : OpenWs} (hg : Gets E d' cwd (lit ".") w1) : w1.spaceDir = w.spaceDir := by
  have ho := hF.opens
  obtain ⟨v, b, tb, ⟨k1, ⟨info, _, k2, _, _, k3, _⟩, _, _, _⟩, h3⟩ := gets_three ho.out hg
  have new : ∀ w' u', N w' u' → d'.info w'.mount.id.base32 = some (marshalInfo E.sh (infoOf w' u')) → d'.user w.ws.path = .link (E.mountPath w'.mount.id.base32) →
      w1.spaceDir = w.spaceDir := by
    intro w' u' hn hi hu
    obtain ⟨q, hG⟩ := hN w' u' hn
    rw [ho.path, h3.user] at hu
    cases hu
    have e1 := Res.ok.inj (k1.symm.trans (leads_mountPath _ _ _))
    have e2 := h3.info
    rw [e1, hi] at e2
    cases e2
    rw [C17_info_roundtrip] at k2
    cases k2
    rw [← k3]
    show sanitize w'.spaceID.base32 = _
    rw [sanitize_base32, hG.spaceID, ho.dir]
  rcases h with hM | ⟨w', u', _, hn, _, _, _, hi, hu, _⟩
  rotate_left
  · exact new w' u' hn hi hu
  rcases hM.entry with hu | ⟨_, w', u', _, _, hn, _, _, _, _, hi, _, hu, _⟩
  rotate_left
  · rcases hu with hu | hu
    · rw [ho.path, h3.user] at hu; cases hu
    · exact new w' u' hn hi hu
  · obtain ⟨v0, b0, tb0, ⟨j1, ⟨info0, _, j2, _, _, j3, _⟩, _, _, _⟩, j4⟩ := gets_three ho.out (gets_of_opens ho)
    rw [ho.path, h3.user, j4.user] at hu
    cases hu
    have e1 := Res.ok.inj (k1.symm.trans j1)
    have e2 := h3.info
    rw [e1, (hM.mounts _ hF.mdir (fun x => x)).2.1, j4.info] at e2
    cases e2
    have e3 := k2.symm.trans j2
    cases e3
    rw [← k3, j3]

/-- Half way through a commit or a checkout the path leads to the workspace before, with the old history or with the new one, or to the workspace after. -/
theorem half_shows {f : Faults} {N : OpenWs → UID → Prop} {d d' : Disk} {g : Str → Option TS} (hs : Steady E d g) {cwd : Str} {w : OpenWs} {u p : UID} {T : TS}
    (hF : Found E d g cwd (lit ".") w u p T) (hN : ∀ w' u', N w' u' → ∃ q, Goes w u p w' u' q) (h : Half E f N w d d') {w1 : OpenWs} (hg : Gets E d' cwd (lit ".") w1) :
    w1 = w ∨ ∃ w' u', N w' u' ∧ ComesBack w'.tree.abs w1.tree.abs ∧ w1.ws.id = w.ws.id ∧ w1.spaceID = w.spaceID ∧
      (w1.ws.HeadAt w1.tree u p ∧ w1.ws.branch = w.ws.branch ∧ w1.mount = w.mount ∨ (∃ q, w1.ws.HeadAt w1.tree u' q) ∧ w1.ws.branch = sanitize w'.ws.branch ∧ w1.mount.id ≠ w.mount.id) := by
  have hout := hF.opens.out
  rcases half_open hs hF hN h with ⟨e, he⟩ | h1 | ⟨w2, w', u', hn, h1, h2⟩ | ⟨w2, w', u', q, hn, ⟨h1, h2, h3, h4, h5, _⟩, h6, h7⟩
  · obtain ⟨_, _, tb, k, k'⟩ := gets_three hout hg
    rw [Disk.loads, ← half_dir hF hN h hg, k'.space, k.tree] at he
    cases he
  · exact Or.inl (gets_one hout hg h1.1)
  · cases gets_one hout hg h1.1
    obtain ⟨_, ⟨i1, i2, i3⟩, i4, i5, _⟩ := h1
    exact Or.inr ⟨w', u', hn, h2, i1, i3, Or.inl ⟨i5, i2, i4⟩⟩
  · rcases h1 with h1 | ⟨h1, _⟩
    · cases gets_one hout hg h1
      exact Or.inr ⟨w', u', hn, h7, h2, h3, Or.inr ⟨⟨q, h5⟩, h6, h4⟩⟩
    · exact absurd hg (gap_closed hout (by rw [← hF.opens.path]; exact h1) w1)

/-- What a killed commit leaves at the path, if it opens. -/
theorem shows_commit {f : Faults} {d l : Disk} (hd : Reachable E d) {cwd : Str} (hout : E.Outside (Path.abs cwd (lit "."))) {w : OpenWs} (hg : Gets E d cwd (lit ".") w) {u p : UID}
    (hh : w.ws.HeadAt w.tree u p) {ci : CommitInfo} (h : Stops E f (commitCmd E cwd ci) d l) {w1 : OpenWs} (hl : Gets E l cwd (lit ".") w1) :
    w1 = w ∨ ∃ u', ¬ w.tree.abs.Has u' ∧ ComesBack (w.tree.abs.commit w.ws.onBranch u u' ci.date ci.message) w1.tree.abs ∧ SameWs w w1 ∧
      (w1.ws.HeadAt w1.tree u p ∧ w1.mount = w.mount ∨ w1.ws.HeadAt w1.tree u' u ∧ w1.mount.id ≠ w.mount.id) := by
  obtain ⟨g, hs⟩ := steady_reachable hd
  obtain ⟨T, hF⟩ := gets_found hs hout hg hh
  have hgoes : ∀ w' u', Committed w u ci w' u' → Goes w u p w' u' u := fun w' u' hC =>
    ⟨hC.reach, by rw [hC.tree]; exact extends_below (extends_commit (S := fun _ => True) trivial hC.newNode) hh.2, hC.head, hC.id, hC.path, hC.spaceID, hC.spaceDir, by
      obtain ⟨n, hn, _⟩ := hh.2
      obtain ⟨ls, hls⟩ := rooted_has_path (opens_reach hF.opens) ⟨n, hn⟩
      exact ⟨ls, hls, by rw [hC.tree]; exact extends_path (extends_commit (S := fun _ => True) trivial hC.newNode) hls⟩⟩
  rcases half_shows hs hF (fun w' u' hC => ⟨u, hgoes w' u' hC⟩) (wp_stops (commit_half hF.opens hF.mdir) (Or.inl (mid_litter (litter_refl d))) h) hl with
    h1 | ⟨w', u', hC, h1, h2, h3, ⟨h4, h5, h6⟩ | ⟨⟨q, h4⟩, h5, h6⟩⟩
  · exact Or.inl h1
  · exact Or.inr ⟨u', hC.newNode, by rw [← hC.tree]; exact h1, ⟨h2, h5, h3⟩, Or.inl ⟨h4, h6⟩⟩
  · have hq : q = u := (comesBack_below h1 hC.head.2 h4.2).symm
    subst hq
    obtain ⟨i, _, _, _, _, _, i6⟩ := hF.opens.info
    exact Or.inr ⟨u', hC.newNode, by rw [← hC.tree]; exact h1, ⟨h2, by rw [h5, hC.branch, ← i6, sanitize_idem], h3⟩, Or.inr ⟨h4, h6⟩⟩

/-- What a killed checkout leaves at the path, if it opens. -/
theorem shows_checkout {f : Faults} {d l : Disk} (hd : Reachable E d) {cwd key : Str} (hout : E.Outside (Path.abs cwd (lit "."))) {w : OpenWs} (hg : Gets E d cwd (lit ".") w) {u p : UID}
    (hh : w.ws.HeadAt w.tree u p) (h : Stops E f (checkoutCmd E cwd key) d l) {w1 : OpenWs} (hl : Gets E l cwd (lit ".") w1) :
    w1 = w ∨ ∃ v kt u', Ws.Resolves w.tree.abs w.ws.id p key v kt ∧ ¬ w.tree.abs.Has u' ∧ ComesBack (w.tree.abs.add (some v) u' (fun _ => none) (fun _ => none)) w1.tree.abs ∧
      w1.ws.id = w.ws.id ∧ w1.spaceID = w.spaceID ∧
      (w1.ws.HeadAt w1.tree u p ∧ w1.ws.branch = w.ws.branch ∨ w1.ws.HeadAt w1.tree u' v ∧ w1.ws.branch = sanitize (branchAfter key kt)) := by
  obtain ⟨g, hs⟩ := steady_reachable hd
  obtain ⟨T, hF⟩ := gets_found hs hout hg hh
  have hgoes : ∀ w' u', CheckoutN w p key w' u' → ∃ q, Goes w u p w' u' q := fun w' u' ⟨v, kt, _, hC⟩ =>
    ⟨v, hC.reach, by rw [hC.tree]; exact extends_below (extends_add (S := fun _ => True) hC.newNode) hh.2, hC.head, hC.id, hC.path, hC.spaceID, hC.spaceDir, by
      have hv : w.tree.abs.Has v := by
        obtain ⟨_, n, hn, hp⟩ := hC.head
        obtain ⟨n', hn'⟩ := (reach_rooted hC.reach).parent _ _ _ hn hp
        rw [hC.tree] at hn'
        have hne : v ≠ u' := by rintro rfl; exact below_ne hC.reach ⟨n, hn, hp⟩ rfl
        exact ⟨n', by simpa only [ATree.add, upd_ne _ _ hne] using hn'⟩
      obtain ⟨ls, hls⟩ := rooted_has_path (opens_reach hF.opens) hv
      exact ⟨ls, hls, by rw [hC.tree]; exact extends_path (extends_add (S := fun _ => True) hC.newNode) hls⟩⟩
  rcases half_shows hs hF hgoes (by
      by_cases hk : PlainKey key
      · exact wp_stops (checkout_half hk hF.opens hF.mdir) (Or.inl (mid_litter (litter_refl d))) h
      · rw [checkout_odd_stops hk h]
        exact Or.inl (mid_litter (litter_refl d))) hl with
    h1 | ⟨w', u', ⟨v, kt, hR, hC⟩, h1, h2, h3, ⟨h4, h5, _⟩ | ⟨⟨q, h4⟩, h5, _⟩⟩
  · exact Or.inl h1
  · exact Or.inr ⟨v, kt, u', hR, hC.newNode, by rw [← hC.tree]; exact h1, h2, h3, Or.inl ⟨h4, h5⟩⟩
  · have hq : q = v := (comesBack_below h1 hC.head.2 h4.2).symm
    subst hq
    exact Or.inr ⟨q, kt, u', hR, hC.newNode, by rw [← hC.tree]; exact h1, h2, h3, Or.inr ⟨h4, by rw [h5, hC.branch]⟩⟩

theorem stops_inner {α β : Type} {f : Faults} {x : M α} {g : α → Res CErr β} {d l : Disk} (h : Stops E f (M.bind x fun a => Prog.ret (g a)) d l) : Stops E f x d l := by
  rcases stops_split h with ⟨r, d2, k1, k2⟩ | h
  · cases k2; exact exec_stops k1
  · exact h

/-- **C103, beside a commit in the same workspace.** The listing shows the workspace `w` as before; or with the history that the commit makes, with `u` still the working
layer; or with this history and the new layer on the commit `u`. Never anything else. -/
theorem C103_commit_partial {i0 i : ι} (hlook : ∀ j, j ≠ i0 → ∃ cwd, cs j = .look cwd) (hi : i ≠ i0) {cwd : Str} (hc : cs i = .look cwd) {ci : CommitInfo} (h0 : cs i0 = .commit cwd ci)
    (hown : own i0 = E.owner) (hout : E.Outside (Path.abs cwd (lit "."))) (hf : (f i).io = false) (hd : Reachable E d) {w : OpenWs} (hg : Gets E d cwd (lit ".") w) {u p : UID}
    (hh : w.ws.HeadAt w.tree u p) (h1 : Alongside (fun i => E.as (own i)) f (fun i => (cs i).prog (E.as (own i))) d ms1 qs1 d1) (hs : qs1 i = (cs i).prog (E.as (own i)))
    (h2 : Alongside (fun i => E.as (own i)) f qs1 d1 ms qs e) {o : Out} (hq : qs i = .ret (.ok o)) :
    ∃ w1, o = .read w1 ∧ (w1 = w ∨ ∃ u', ¬ w.tree.abs.Has u' ∧ ComesBack (w.tree.abs.commit w.ws.onBranch u u' ci.date ci.message) w1.tree.abs ∧ SameWs w w1 ∧
      (w1.ws.HeadAt w1.tree u p ∧ w1.mount = w.mount ∨ w1.ws.HeadAt w1.tree u' u ∧ w1.mount.id ≠ w.mount.id)) := by
  obtain ⟨w1, l, ho, _, hl, hst⟩ := C103_one_moment_partial hlook hi hc hout hf h1 hs h2 hq
  rw [h0, hown] at hst
  exact ⟨w1, ho, shows_commit hd hout hg hh (stops_inner hst) hl⟩

/-- **C103, beside a checkout in the same workspace.** -/
theorem C103_checkout_partial {i0 i : ι} (hlook : ∀ j, j ≠ i0 → ∃ cwd, cs j = .look cwd) (hi : i ≠ i0) {cwd key : Str} (hc : cs i = .look cwd) (h0 : cs i0 = .checkout cwd key)
    (hown : own i0 = E.owner) (hout : E.Outside (Path.abs cwd (lit "."))) (hf : (f i).io = false) (hd : Reachable E d) {w : OpenWs} (hg : Gets E d cwd (lit ".") w) {u p : UID}
    (hh : w.ws.HeadAt w.tree u p) (h1 : Alongside (fun i => E.as (own i)) f (fun i => (cs i).prog (E.as (own i))) d ms1 qs1 d1) (hs : qs1 i = (cs i).prog (E.as (own i)))
    (h2 : Alongside (fun i => E.as (own i)) f qs1 d1 ms qs e) {o : Out} (hq : qs i = .ret (.ok o)) :
    ∃ w1, o = .read w1 ∧ (w1 = w ∨ ∃ v kt u', Ws.Resolves w.tree.abs w.ws.id p key v kt ∧ ¬ w.tree.abs.Has u' ∧
      ComesBack (w.tree.abs.add (some v) u' (fun _ => none) (fun _ => none)) w1.tree.abs ∧ w1.ws.id = w.ws.id ∧ w1.spaceID = w.spaceID ∧
      (w1.ws.HeadAt w1.tree u p ∧ w1.ws.branch = w.ws.branch ∨ w1.ws.HeadAt w1.tree u' v ∧ w1.ws.branch = sanitize (branchAfter key kt))) := by
  obtain ⟨w1, l, ho, _, hl, hst⟩ := C103_one_moment_partial hlook hi hc hout hf h1 hs h2 hq
  rw [h0, hown] at hst
  exact ⟨w1, ho, shows_checkout hd hout hg hh (stops_inner hst) hl⟩

theorem alongside_ok {α : Type} {F : ι → Env} {f : ι → Faults} {ps qs : ι → Prog α} {d e : Disk} {ms : List Disk} (h : Alongside F f ps d ms qs e) : e ∈ ms := by
  cases h with
  | refl => exact List.mem_singleton.2 rfl
  | step => exact List.mem_cons_self

/-- **C103, beside any commands.** What a listing shows is made of a link, a record and a tree file each of which was there at a moment while it ran. -/
theorem C103_files_partial {i : ι} {cwd : Str} (hc : cs i = .look cwd) (hout : E.Outside (Path.abs cwd (lit "."))) (hf : (f i).io = false)
    (hs : qs1 i = (cs i).prog (E.as (own i))) (h : Alongside (fun i => E.as (own i)) f qs1 d1 ms qs e) {o : Out} (hq : qs i = .ret (.ok o)) :
    ∃ w v b tb, o = .read w ∧ OpensWith E cwd (lit ".") v b tb w ∧ (∃ l ∈ ms, l.user (Path.abs cwd (lit ".")) = .link v) ∧ (∃ l ∈ ms, l.info w.mount.id.base32 = some b) ∧
      ∃ l ∈ ms, l.space w.spaceDir = some (some tb) := by
  have key : ∀ {Q : Res CErr Out → Sofar → Prop}, Peeks (fun s t : Sofar => (s.Ok → t.Ok) ∧ ∀ l ∈ s.past, l ∈ t.past) Sofar.now (E.as (own i)) (f i) Q (qs1 i) ⟨0, [d1], d1⟩ →
      Peeks (fun s t : Sofar => (s.Ok → t.Ok) ∧ ∀ l ∈ s.past, l ∈ t.past) Sofar.now (E.as (own i)) (f i) Q (qs i) ⟨0, ms, e⟩ := by
    intro Q h0
    clear hs hq
    induction h with
    | refl => exact h0
    | @step ms qs e e' j c k x _ hqj hst ih =>
      have hR : (Sofar.Ok ⟨0, ms, e⟩ → Sofar.Ok ⟨0, e' :: ms, e'⟩) ∧ ∀ l ∈ ms, l ∈ e' :: ms := ⟨fun _ => List.mem_cons_self, fun l hl => List.mem_cons_of_mem _ hl⟩
      by_cases hj : i = j
      · subst hj
        rw [upd_self]
        rw [hqj] at ih
        exact (ih _ ⟨fun h => h, fun _ h => h⟩ _ _ hst).2.later (learns_any []).trans hR
      · rw [upd_other _ hj]; exact ih.later (learns_any []).trans hR
  have hw : Finds (fun s t : Sofar => (s.Ok → t.Ok) ∧ ∀ l ∈ s.past, l ∈ t.past) Sofar.now (E.as (own i)) (f i) (fun o t => ∃ w, o = .read w ∧ ∃ v b tb,
      OpensWith (E.as (own i)) cwd (lit ".") v b tb w ∧ (∃ l ∈ t.past, l.user (Path.abs cwd (lit ".")) = .link v) ∧ (∃ l ∈ t.past, l.info w.mount.id.base32 = some b) ∧
      ∃ l ∈ t.past, l.space w.spaceDir = some (some tb)) (qs1 i) ⟨0, [d1], d1⟩ := by
    rw [hs, hc]
    refine finds_look (learns_any []).refl ?_ (finds_get (E := E.as (own i)) hout hf (learns_any _) (List.mem_singleton.2 rfl))
    rintro w s t h ⟨v, b, tb, k, h3⟩
    exact ⟨v, b, tb, k, (learns_any (Path.abs cwd (lit "."))).keep3 v _ b _ tb s t h h3⟩
  have := key hw
  rw [hq] at this
  obtain ⟨w, h1, v, b, tb, h2, h3⟩ := this _ ((learns_any []).refl _) o rfl
  exact ⟨w, v, b, tb, h1, ⟨h2.link, h2.record, h2.tree, h2.path, h2.mount⟩, h3⟩

end
end Verif
