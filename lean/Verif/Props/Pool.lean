import Verif.World.PoolRec
import Verif.Tree.Keyed
/-!
# Layers under any number of commands at once (C32, C35, C36)

The statements are about worlds and steps of worlds: a disk, running commands, and one call of one command at a time, with
kills, failing calls and people writing into mounted workspaces in between.
-/
set_option autoImplicit false
namespace Verif
open M TS Json

/-! ## C36: no two mounts share a writable layer -/

/-- In every execution, with any failures and even if random IDs repeat, different mounts have different upper layers. -/
theorem C36_upper_unique {E : Env} {f : Faults} {w0 w : World} (h0 : Idle w0) (hs : Sys.Steps E f w0 w) {n n' : Str} {m m' : Mnt}
    (hm : w.disk.mnt n = some m) (hm' : w.disk.mnt n' = some m') (hu : m.upper = m'.upper) : n = n' :=
  (inv_steps (inv_idle h0) hs).uniq n n' m m' hm hm' hu

/-- The layers of `d0` exist when a command starts. -/
structure Since (d0 : Disk) (w : World) : Prop where
  disk : ∀ u, d0.layer u ≠ none → w.disk.layer u ≠ none
  start : ∀ i p u, w.procs i = some p → d0.layer u ≠ none → p.start.layer u ≠ none
  mnt : ∀ n m, w.disk.mnt n = some m → d0.layer m.upper ≠ none → d0.mnt n = some m

theorem since_effect {E : Env} {d0 : Disk} {w : World} {e : Ev} {d' : Disk} (hi : Inv E w) (h : Since d0 w) (he : Effect e w.disk d')
    (hg : ∀ n u ls, e = ⟨.mountOverlay n u ls, true⟩ → ∃ i p, w.procs i = some p ∧ Made p.tr u) :
    (∀ u, d0.layer u ≠ none → d'.layer u ≠ none) ∧ ∀ n m, d'.mnt n = some m → d0.layer m.upper ≠ none → d0.mnt n = some m := by
  refine ⟨fun u hu => eff_exists he (h.disk u hu), fun n m hm hu => ?_⟩
  rcases eff_mnt he hm with h1 | ⟨h1, _, _⟩
  · exact h.mnt n m h1 hu
  · obtain ⟨i, p, hp, hmade⟩ := hg _ _ _ h1
    exact absurd (hi.fresh i p _ hp hmade) (h.start i p _ hp hu)

theorem since_next {E : Env} {f : Faults} {d0 : Disk} {w w' : World} (hi : Inv E w) (h : Since d0 w) (hn : Sys.Next E f w w') : Since d0 w' := by
  cases hn with
  | start i c h0 =>
    refine ⟨h.disk, fun j p u hp hu => ?_, h.mnt⟩
    rcases sub_start j p hp with h1 | ⟨_, h1, _⟩
    · exact h.start j p u h1 hu
    · rw [h1]; exact h.disk u hu
  | @run i p c k x d' _ hp hk hst =>
    obtain ⟨hg, _⟩ : Guard E p.tr c ∧ ∀ x, True → twp AnyAns (Guard E) (k x) (onOk fun o tr => OutOk tr o) (⟨c, x⟩ :: p.tr) := by
      have := hi.safe i p hp
      rw [hk] at this
      exact this
    have key := since_effect hi h (step_effect hst) (fun n u ls he => ⟨i, p, hp, by cases he; exact hg.1⟩)
    refine ⟨key.1, fun j q u hq hu => ?_, key.2⟩
    by_cases hj : j = i
    · subst hj
      simp only [upd_self, Option.some.injEq] at hq
      subst hq
      exact h.start j p u hp hu
    · exact h.start j q u (by simpa only [upd_ne _ _ hj] using hq) hu
  | kill i => exact ⟨h.disk, fun j p u hp hu => h.start j p u (sub_kill hp) hu, h.mnt⟩
  | outside ho =>
    rcases outside_effect ho with he | ⟨n, he⟩
    · have key := since_effect hi h he (fun n u ls he => by cases he)
      exact ⟨key.1, h.start, key.2⟩
    · have key := since_effect hi h he (fun n u ls he => by cases he)
      exact ⟨key.1, h.start, key.2⟩

theorem since_steps {E : Env} {f : Faults} {w0 w : World} (h0 : Idle w0) (hs : Sys.Steps E f w0 w) : Since w0.disk w := by
  induction hs with
  | refl => exact ⟨fun _ hu => hu, fun i p _ hp => (by rw [h0.idle i] at hp; cases hp), fun _ _ hm _ => hm⟩
  | step hs hn ih => exact since_next (inv_steps (inv_idle h0) hs) ih hn

/-- From a moment at which nothing runs, no execution makes a layer that existed then the upper layer of a new mount. -/
theorem C36_upper_new {E : Env} {f : Faults} {w0 w : World} (h0 : Idle w0) (hs : Sys.Steps E f w0 w) {n : Str} {m : Mnt}
    (hm : w.disk.mnt n = some m) (hu : w0.disk.layer m.upper ≠ none) : w0.disk.mnt n = some m :=
  (since_steps h0 hs).mnt n m hm hu

/-- Whenever a command mounts, the upper layer is one that did not exist when the command started, that this command created,
and that nothing was written to. -/
theorem C36_mount_fresh {E : Env} {f : Faults} {w0 w : World} (h0 : Idle w0) (hs : Sys.Steps E f w0 w) {i : Nat} {p : Proc} {n : Str}
    {u : UID} {ls : List UID} {k : Bool → Prog (Res CErr Out)} (hp : w.procs i = some p) (hk : p.prog = .op (.mountOverlay n u ls) k) :
    p.start.layer u = none ∧ (⟨.mkdirLayer u, true⟩ : Ev) ∈ p.tr ∧ w.disk.layer u = some (some .empty) := by
  have hi := inv_steps (inv_idle h0) hs
  have hg : Guard E p.tr (.mountOverlay n u ls) := by
    have := hi.safe i p hp
    rw [hk] at this
    exact this.1
  obtain ⟨h1, h2, _, _, h3⟩ := hg
  obtain ⟨c, hc⟩ := hi.based i p u hp h2
  exact ⟨hi.fresh i p u hp h1, h1, by rw [hc, hi.blank i p u c hp h1 h3 hc]⟩

/-! ## C32: committed content never changes -/

theorem unmarshal_empty : unmarshalInfo [] = none := by decide

/-- A record that can be read and that is sound names the layer it is bound to. -/
theorem bound_of_sound {E : Env} {w : World} {n b : Str} {i : WsInfo} {h : UID} (hb : Sound E w n b) (hi : unmarshalInfo b = some i)
    (hh : UID.decodeHex i.head = .ok h) : Bound w n h := by
  rcases hb with rfl | ⟨j, u, ⟨q, hq⟩, _, hj, hbound⟩
  · rw [unmarshal_empty] at hi; cases hi
  · by_cases hqe : q = []
    · subst hqe
      rw [List.append_nil] at hq
      subst hq
      rw [C17_info_roundtrip, Option.some.injEq] at hi
      subst hi
      simp only [hj, sanitize_hex, C01_hex_roundtrip] at hh
      cases hh
      exact hbound
    · rw [C18_info_torn E.sh j hq hqe] at hi; cases hi

/-- A workspace that a running command opened is the workspace of a record that is bound to the layer of its head. -/
theorem bound_of_opened {E : Env} {w : World} (hr : Rec E w) {i : Nat} {p : Proc} (hp : w.procs i = some p) {ow : OpenWs} (ho : Opened p.tr ow)
    {u : UID} (hu : idAt ow.tree.heap ow.ws.head = some u) : Bound w ow.mount.id.base32 u := by
  obtain ⟨b, j, h, h1, h2, _, _, h3, h4, ⟨t, h5⟩, _⟩ := ho
  have hb := bound_of_sound (hr.read i p _ b hp h1).1 h2 h3
  obtain ⟨o, ho, hk⟩ : ∃ o, ow.tree.heap[ow.ws.head]? = some o ∧ o.id.hex = h.hex := by
    have : Keyed ow.tree := spaceLoad_keyed h5
    exact this _ _ h4
  have : u = h := by
    simp only [idAt, ho, Option.map_some, Option.some.injEq] at hu
    rw [← hu]
    exact C03_hex_injective hk
  rw [this]; exact hb

/-- A command that has ended with this result. -/
def Ended (w : World) (i : Nat) (r : Res CErr Out) : Prop := ∃ p, w.procs i = some p ∧ p.prog = .ret r

/-- Once a commit (or a checkout) has ended without error, the layer that was the working layer never changes again: whatever
commands run at the same time or later, are killed, or fail, and whatever is written in any workspace. Assumed: the execution
started without workspaces, and random IDs do not repeat.
Partial: a commit that has saved the history but fails later is not covered, see `C32_violated_busy`. -/
theorem C32_layer_frozen_partial {E : Env} {f : Faults} (hf : f.rep = false) {w0 w1 w2 : World} (h0 : Clean w0) (h1 : Sys.Steps E f w0 w1)
    {i : Nat} {ow ow' : OpenWs} (he : Ended w1 i (.ok (.moved ow ow'))) {u : UID} (hu : idAt ow.tree.heap ow.ws.head = some u)
    (h2 : Sys.Steps E f w1 w2) : w2.disk.layer u = w1.disk.layer u ∧ w1.disk.HasDiff u := by
  have hr := rec_steps hf (rec_clean h0) h1
  obtain ⟨p, hp, hret⟩ := he
  have hmoved : Moved p.tr ow := by
    have := hr.inv.safe i p hp
    rw [hret] at this
    exact this _ rfl
  have hsealed := sealed_of_bound (bound_of_opened hr hp hmoved.1 hu) (hr.removed i p _ hp hmoved.2)
  exact ⟨(sealed_steps hf hr hsealed h2).2, hsealed.has⟩

/-- Whenever no command is running, every layer that no mount writes to keeps its content for ever, whatever fails and even if
random IDs repeat. -/
theorem C32_idle_frozen {E : Env} {f : Faults} {w0 w1 w2 : World} (h0 : Idle w0) (h1 : Sys.Steps E f w0 w1) (hidle : ∀ i, w1.procs i = none)
    {u : UID} (hu : w1.disk.HasDiff u) (hw : ∀ n m, w1.disk.mnt n = some m → m.upper ≠ u) (h2 : Sys.Steps E f w1 w2) :
    w2.disk.layer u = w1.disk.layer u := by
  refine (settled_steps (inv_steps (inv_idle h0) h1) ⟨hu, hw, fun i p hp => ?_⟩ h2).2
  rw [hidle i] at hp; cases hp

/-- The content of a commit is made of the layers from the commit down to the root. If each of them was the working layer of
a commit that has ended well, or is not written to at a moment when nothing runs, then what a mount of the commit shows never
changes. -/
theorem C32_content_frozen_partial {E : Env} {f : Faults} (hf : f.rep = false) {w0 w1 w2 : World} (h0 : Clean w0) (h1 : Sys.Steps E f w0 w1)
    {ls : List UID} (hls : ∀ u ∈ ls, (∃ i ow ow', Ended w1 i (.ok (.moved ow ow')) ∧ idAt ow.tree.heap ow.ws.head = some u) ∨
      ((∀ i, w1.procs i = none) ∧ w1.disk.HasDiff u ∧ ∀ n m, w1.disk.mnt n = some m → m.upper ≠ u))
    (h2 : Sys.Steps E f w1 w2) : view (ls.map w2.disk.content) = view (ls.map w1.disk.content) := by
  congr 1
  refine List.map_congr_left fun u hu => ?_
  have : w2.disk.layer u = w1.disk.layer u := by
    rcases hls u hu with ⟨i, ow, ow', he, hx⟩ | ⟨hx, hy, hz⟩
    · exact (C32_layer_frozen_partial hf h0 h1 he hx h2).1
    · exact C32_idle_frozen h0.idle h1 hx hy hz h2
  simp only [Disk.content, this]

/-- A layer that hides everything below it. -/
def hideAll (c : Content) : Content
  | [] => c []
  | [_] => some .whiteout
  | _ => none

theorem view_hideAll (c : Content) (ls : List Content) (x : Str) (p : List Str) : view (hideAll c :: ls) (x :: p) = none := by
  cases p with
  | nil => rfl
  | cons y p =>
    have key : ∀ (q : List Str) (y : Str), stack (hideAll c :: ls) (y :: q) = [] := by
      intro q
      induction q with
      | nil => intro y; rfl
      | cons z q ih => intro y; rw [stack, ih z]; rfl
    rw [view, key]; rfl

/-- **Violation.** `commit` saves the history, mounts the new layer, and then removes the old mount. If the old mount is busy then
unmounting fails, which is ignored, and the recursive delete empties the layer that was just committed: nothing of the commit
is left. The command reports an error, but the commit is in the saved history. -/
theorem C32_violated_busy {E : Env} {f : Faults} (hb : f.busy = true) {o : MountObj} (hdir : o.dir = o.id.base32) {d : Disk} {m : Mnt}
    (hm : d.mnt o.dir = some m) (hu : d.HasDiff m.upper) :
    ∃ d', Exec E f (removeMount o) d (.err .removeData) d' ∧ d'.space = d.space ∧ d'.info = d.info ∧
      ∀ x p, view ((m.upper :: m.lowers).map d'.content) (x :: p) = none := by
  obtain ⟨c0, hc0⟩ := hu
  refine ⟨(d.put m.upper (hideAll (d.content m.upper))).setMdir o.id.base32 ((d.mdir o.id.base32).map fun x => { x with work := true }), ?_, ?_, ?_, ?_⟩
  · refine .op (x := true) (Or.inl ⟨rfl, trivial, rfl⟩) ?_
    refine .op (x := true) (Or.inl ⟨rfl, trivial, rfl⟩) ?_
    refine .op (x := false) (Or.inr ⟨rfl, rfl, Or.inr (Or.inl hb)⟩) ?_
    refine .op (x := false) (d1 := (d.put m.upper (hideAll (d.content m.upper))).setMdir o.id.base32 ((d.mdir o.id.base32).map fun x => { x with work := true })) ?_ (.ret _ _)
    simp only [Step, ← hdir, hm]
    exact ⟨trivial, hideAll (d.content m.upper), true, fun x p => Or.inl (view_hideAll _ _ x p), rfl⟩
  · simp only [Disk.setMdir]; exact (put_rest d _ _).1
  · simp only [Disk.setMdir]; exact (put_rest d _ _).2.2.1
  · intro x p
    have h1 : ∀ c, ((d.put m.upper c).setMdir o.id.base32 ((d.mdir o.id.base32).map fun x => { x with work := true })).content m.upper = c := by
      intro c; simp [Disk.content, Disk.put, hc0, Disk.setMdir, Disk.setLayer]
    rw [List.map_cons, h1]
    exact view_hideAll _ _ x p

/-! ## C35: isolation -/

/-- A write in one workspace shows in another one only if the layer written to is among the lower layers of the other. -/
theorem C35_write_partial {E : Env} {f : Faults} {w0 w : World} (h0 : Idle w0) (hs : Sys.Steps E f w0 w) {n n' : Str} {m m' : Mnt}
    (hm : w.disk.mnt n = some m) (hm' : w.disk.mnt n' = some m') (hne : n ≠ n') (hl : m.upper ∉ m'.lowers) (c : Content) :
    (w.disk.put m.upper c).shows n' = w.disk.shows n' := by
  have hmnt : (w.disk.put m.upper c).mnt n' = some m' := by rw [(put_rest w.disk m.upper c).2.2.2.1]; exact hm'
  simp only [Disk.shows, hmnt, hm']
  congr 1
  refine List.map_congr_left fun u hu => ?_
  have hu' : u ≠ m.upper := by
    rintro rfl
    rcases List.mem_cons.1 hu with h1 | h1
    · exact hne (C36_upper_unique h0 hs hm hm' h1)
    · exact hl h1
  have : (w.disk.put m.upper c).layer u = w.disk.layer u := by
    rcases put_layer w.disk m.upper u c with h1 | ⟨h1, _⟩
    · exact h1
    · exact absurd h1 hu'
  simp only [Disk.content, this]

/-- If it is among them then a write shows through, unless a higher layer hides it. -/
theorem C35_violated_shared {d : Disk} {n' : Str} {m' : Mnt} {u : UID} {x : Str} {data : Str} (hm' : d.mnt n' = some m') (hl : m'.lowers = [u])
    (hne : m'.upper ≠ u) (hu : d.HasDiff u) (hblank : d.content m'.upper [x] = none) :
    ∃ c, (d.put u c).shows n' [x] = some (.file data) := by
  refine ⟨fun p => if p = [x] then some (.file data) else none, ?_⟩
  have hmnt : ∀ c, (d.put u c).mnt n' = some m' := fun c => by rw [(put_rest d u c).2.2.2.1]; exact hm'
  obtain ⟨c0, hc0⟩ := hu
  have h1 : ∀ c, (d.put u c).content u = c := fun c => by simp [Disk.put, hc0, Disk.content, Disk.setLayer]
  have h2 : ∀ c, (d.put u c).content m'.upper = d.content m'.upper := fun c => by
    simp only [Disk.put, hc0, Disk.content, Disk.setLayer, upd_ne _ _ hne]
  simp only [Disk.shows, hmnt, hl, List.map_cons, List.map_nil, h1, h2, view, stack, topEnt, hblank, if_true]

/-- What is seen in a workspace whose lower layers were all committed by commands that have ended well changes only through
its own working layer. -/
theorem C35_own_layer_partial {E : Env} {f : Faults} (hf : f.rep = false) {w0 w1 w2 : World} (h0 : Clean w0) (h1 : Sys.Steps E f w0 w1)
    {n : Str} {m : Mnt} (hm : w1.disk.mnt n = some m) (hm2 : w2.disk.mnt n = some m)
    (hls : ∀ u ∈ m.lowers, (∃ i ow ow', Ended w1 i (.ok (.moved ow ow')) ∧ idAt ow.tree.heap ow.ws.head = some u) ∨
      ((∀ i, w1.procs i = none) ∧ w1.disk.HasDiff u ∧ ∀ n m, w1.disk.mnt n = some m → m.upper ≠ u))
    (h2 : Sys.Steps E f w1 w2) (hown : w2.disk.layer m.upper = w1.disk.layer m.upper) : w2.disk.shows n = w1.disk.shows n := by
  simp only [Disk.shows, hm, hm2]
  congr 1
  refine List.map_congr_left fun u hu => ?_
  have : w2.disk.layer u = w1.disk.layer u := by
    rcases List.mem_cons.1 hu with rfl | hu
    · exact hown
    rcases hls u hu with ⟨i, ow, ow', he, hx⟩ | ⟨hx, hy, hz⟩
    · exact (C32_layer_frozen_partial hf h0 h1 he hx h2).1
    · exact C32_idle_frozen h0.idle h1 hx hy hz h2
  simp only [Disk.content, this]

end Verif
