import Verif.World.History
/-!
# Calls that stay within a part of the disk

The part of the disk that one command uses: one space, one mount, some paths of the user, and what has the name of an ID that it has
drawn. A call within this part does the same on every disk that has the same there.
-/
set_option autoImplicit false
namespace Verif
open M TS Json

/-- The part of the disk that a command uses from the beginning. -/
structure Zone where
  space : Str → Prop
  mount : Str → Prop
  path : Str → Prop

/-- The ID has been drawn. -/
def Drew (tr : Trace) (u : UID) : Prop := (⟨.rand, u⟩ : Ev) ∈ tr

namespace Zone

/-- The spaces of the zone, with those whose ID has been drawn. -/
def spaces (z : Zone) (tr : Trace) (n : Str) : Prop := z.space n ∨ ∃ u, Drew tr u ∧ n = u.base32
/-- The mounts of the zone, with those whose ID has been drawn. -/
def mounts (z : Zone) (tr : Trace) (n : Str) : Prop := z.mount n ∨ ∃ u, Drew tr u ∧ n = u.base32

end Zone

/-- The call stays within the zone. Of the layers in `L` it asks only whether they are there. -/
def Inner (E : Env) (z : Zone) (L : UID → Prop) (tr : Trace) : Cmd → Prop
  | .rand | .dump _ | .sys _ => True
  | .mkdirSpace n | .readTree n | .truncTree n | .writeTree n _ => z.spaces tr n
  | .mkdirLayer u | .isDirDiff u | .mkdirDiff u => Drew tr u
  | .isDirLayer u => Drew tr u ∨ L u
  | .mkdirMount n | .isDirMerged n | .mkdirMerged n | .isDirWork n | .mkdirWork n | .umount n | .removeInfo n | .readInfo n | .truncInfo n
  | .writeInfo n _ => z.mounts tr n
  | .mountOverlay n u ls => (∃ v, Drew tr v ∧ n = v.base32) ∧ Drew tr u ∧ ∀ v ∈ ls, Drew tr v ∨ L v
  | .chownMerged n => ∃ v, Drew tr v ∧ n = v.base32
  | .exists_ p | .isSymlink p | .readlink p | .remove p | .lchown p => z.path p ∧ E.Off p
  | .isEmptyDir p => z.path p ∧ E.Off p ∧ ∀ n, ¬ z.mounts tr n
  | .symlink t p => z.path p ∧ E.Off p ∧ ∀ n, t = E.mountPath n → z.mounts tr n
  | .removeAllMount n => z.mounts tr n ∧ ∃ (x : Bool) (tl : Trace), tr = ⟨.umount n, x⟩ :: tl

/-- The disks have the same in the zone. -/
structure Agree (z : Zone) (tr : Trace) (d e : Disk) : Prop where
  space : ∀ n, z.spaces tr n → d.space n = e.space n
  mdir : ∀ n, z.mounts tr n → d.mdir n = e.mdir n
  info : ∀ n, z.mounts tr n → d.info n = e.info n
  mnt : ∀ n, z.mounts tr n → d.mnt n = e.mnt n
  user : ∀ p, z.path p → d.user p = e.user p
  layer : ∀ u, Drew tr u → d.layer u = e.layer u

/-- Outside of the zone nothing has changed. -/
structure Spares (z : Zone) (tr : Trace) (d d' : Disk) : Prop where
  space : ∀ n, ¬ z.spaces tr n → d'.space n = d.space n
  mdir : ∀ n, ¬ z.mounts tr n → d'.mdir n = d.mdir n
  info : ∀ n, ¬ z.mounts tr n → d'.info n = d.info n
  mnt : ∀ n, ¬ z.mounts tr n → d'.mnt n = d.mnt n
  user : ∀ p, ¬ z.path p → d'.user p = d.user p
  layer : ∀ u, ¬ Drew tr u → d'.layer u = d.layer u

/-- Nothing in the zone leads out of it: neither a link, nor a new mount. What has just been unmounted is not mounted. -/
structure Homely (E : Env) (z : Zone) (tr : Trace) (d : Disk) : Prop where
  link : ∀ p, z.path p → ∀ n, d.user p = .link (E.mountPath n) → z.mounts tr n
  upper : ∀ u m, Drew tr u → d.mnt u.base32 = some m → Drew tr m.upper
  gone : ∀ n (x : Bool) (tl : Trace), tr = ⟨.umount n, x⟩ :: tl → z.mounts tr n → d.mnt n = none

/-- What a call does to two disks that have the same in the zone. -/
structure Twin (E : Env) (z : Zone) (tr : Trace) (ev : Ev) (d d' e e' : Disk) : Prop where
  agree : Agree z (ev :: tr) d' e'
  keepD : Spares z (ev :: tr) d d'
  keepE : Spares z (ev :: tr) e e'
  home : Homely E z (ev :: tr) d'
  usedD : ∀ u, u ∈ d'.used ↔ u ∈ d.used ∨ ev = ⟨.rand, u⟩
  usedE : ∀ u, u ∈ e'.used ↔ u ∈ e.used ∨ ev = ⟨.rand, u⟩
  diffD : ∀ u, d.HasDiff u → d'.HasDiff u
  diffE : ∀ u, e.HasDiff u → e'.HasDiff u

section
variable {E : Env} {z : Zone} {L : UID → Prop} {tr : Trace} {d d' e e' : Disk} {ev : Ev}

theorem drew_cons (u : UID) : Drew (ev :: tr) u ↔ ev = ⟨.rand, u⟩ ∨ Drew tr u := by
  unfold Drew
  rw [List.mem_cons]
  exact ⟨fun h => h.imp Eq.symm _root_.id, fun h => h.imp Eq.symm _root_.id⟩

/-- The event draws no ID. -/
def Ev.plain (ev : Ev) : Prop := ∀ u, ev ≠ ⟨.rand, u⟩

theorem drew_plain (h : ev.plain) (u : UID) : Drew (ev :: tr) u ↔ Drew tr u := by
  rw [drew_cons]
  exact ⟨fun x => x.resolve_left (h u), Or.inr⟩

theorem spaces_plain (h : ev.plain) (n : Str) : z.spaces (ev :: tr) n ↔ z.spaces tr n := by
  unfold Zone.spaces
  simp only [drew_plain h]

theorem mounts_plain (h : ev.plain) (n : Str) : z.mounts (ev :: tr) n ↔ z.mounts tr n := by
  unfold Zone.mounts
  simp only [drew_plain h]

theorem keeps_refl (z : Zone) (tr : Trace) (d : Disk) : Spares z tr d d :=
  ⟨fun _ _ => rfl, fun _ _ => rfl, fun _ _ => rfl, fun _ _ => rfl, fun _ _ => rfl, fun _ _ => rfl⟩

theorem agree_plain (h : ev.plain) (ha : Agree z tr d e) : Agree z (ev :: tr) d e :=
  ⟨fun n hn => ha.space n ((spaces_plain h n).1 hn), fun n hn => ha.mdir n ((mounts_plain h n).1 hn), fun n hn => ha.info n ((mounts_plain h n).1 hn),
    fun n hn => ha.mnt n ((mounts_plain h n).1 hn), ha.user, fun u hu => ha.layer u ((drew_plain h u).1 hu)⟩

/-- No call that unmounts. -/
def Ev.mounting (ev : Ev) : Prop := ∀ n (x : Bool), ev ≠ ⟨.umount n, x⟩

theorem homely_plain (h : ev.plain) (hu : ev.mounting) (hh : Homely E z tr d) : Homely E z (ev :: tr) d :=
  ⟨fun p hp n hn => (mounts_plain h n).2 (hh.link p hp n hn), fun u m hd hm => (drew_plain h _).2 (hh.upper u m ((drew_plain h u).1 hd) hm),
    fun n x tl he _ => (hu n x (List.cons.inj he).1).elim⟩

theorem homely_agree (ha : Agree z tr d e) (hh : Homely E z tr d) : Homely E z tr e := by
  refine ⟨fun p hp n hn => hh.link p hp n (by rw [ha.user p hp]; exact hn), fun u m hd hm => hh.upper u m hd ?_, fun n x tl he hz => ?_⟩
  · rw [ha.mnt _ (Or.inr ⟨u, hd, rfl⟩)]; exact hm
  · rw [← ha.mnt n hz]; exact hh.gone n x tl he hz

/-! ## Changes of single fields -/

theorem post_same (h : ev.plain) (hu : ev.mounting) (ha : Agree z tr d e) (hh : Homely E z tr d) : Twin E z tr ev d d e e :=
  ⟨agree_plain h ha, keeps_refl _ _ _, keeps_refl _ _ _, homely_plain h hu hh, fun u => ⟨Or.inl, fun x => x.resolve_right (h u)⟩,
    fun u => ⟨Or.inl, fun x => x.resolve_right (h u)⟩, fun _ => _root_.id, fun _ => _root_.id⟩

theorem upd_agree {α β : Type} [DecidableEq α] {P : α → Prop} {g g' : α → β} (h : ∀ x, P x → g x = g' x) (a : α) (b : β) :
    ∀ x, P x → upd g a b x = upd g' a b x := by
  intro x hx
  unfold upd
  split
  · rfl
  · exact h x hx

theorem upd_keep {α β : Type} [DecidableEq α] {P : α → Prop} {a : α} (ha : P a) (g : α → β) (b : β) : ∀ x, ¬ P x → upd g a b x = g x := by
  intro x hx
  exact upd_ne _ _ (by rintro rfl; exact hx ha)

theorem post_space {n : Str} (v : Option (Option Str)) (hn : z.spaces tr n) (h : ev.plain) (hu : ev.mounting) (ha : Agree z tr d e)
    (hh : Homely E z tr d) : Twin E z tr ev d (d.setSpace n v) e (e.setSpace n v) := by
  have p := post_same (E := E) h hu ha hh
  have hn' := (spaces_plain (z := z) (tr := tr) h n).2 hn
  exact ⟨⟨upd_agree p.agree.space n v, p.agree.mdir, p.agree.info, p.agree.mnt, p.agree.user, p.agree.layer⟩,
    ⟨upd_keep hn' _ _, fun _ _ => rfl, fun _ _ => rfl, fun _ _ => rfl, fun _ _ => rfl, fun _ _ => rfl⟩,
    ⟨upd_keep hn' _ _, fun _ _ => rfl, fun _ _ => rfl, fun _ _ => rfl, fun _ _ => rfl, fun _ _ => rfl⟩,
    ⟨p.home.link, p.home.upper, p.home.gone⟩, p.usedD, p.usedE, p.diffD, p.diffE⟩

theorem post_mdir {n : Str} (v : Option MDir) (hn : z.mounts tr n) (h : ev.plain) (hu : ev.mounting) (ha : Agree z tr d e)
    (hh : Homely E z tr d) : Twin E z tr ev d (d.setMdir n v) e (e.setMdir n v) := by
  have p := post_same (E := E) h hu ha hh
  have hn' := (mounts_plain (z := z) (tr := tr) h n).2 hn
  exact ⟨⟨p.agree.space, upd_agree p.agree.mdir n v, p.agree.info, p.agree.mnt, p.agree.user, p.agree.layer⟩,
    ⟨fun _ _ => rfl, upd_keep hn' _ _, fun _ _ => rfl, fun _ _ => rfl, fun _ _ => rfl, fun _ _ => rfl⟩,
    ⟨fun _ _ => rfl, upd_keep hn' _ _, fun _ _ => rfl, fun _ _ => rfl, fun _ _ => rfl, fun _ _ => rfl⟩,
    ⟨p.home.link, p.home.upper, p.home.gone⟩, p.usedD, p.usedE, p.diffD, p.diffE⟩

theorem post_info {n : Str} (v : Option Str) (hn : z.mounts tr n) (h : ev.plain) (hu : ev.mounting) (ha : Agree z tr d e)
    (hh : Homely E z tr d) : Twin E z tr ev d (d.setInfo n v) e (e.setInfo n v) := by
  have p := post_same (E := E) h hu ha hh
  have hn' := (mounts_plain (z := z) (tr := tr) h n).2 hn
  exact ⟨⟨p.agree.space, p.agree.mdir, upd_agree p.agree.info n v, p.agree.mnt, p.agree.user, p.agree.layer⟩,
    ⟨fun _ _ => rfl, fun _ _ => rfl, upd_keep hn' _ _, fun _ _ => rfl, fun _ _ => rfl, fun _ _ => rfl⟩,
    ⟨fun _ _ => rfl, fun _ _ => rfl, upd_keep hn' _ _, fun _ _ => rfl, fun _ _ => rfl, fun _ _ => rfl⟩,
    ⟨p.home.link, p.home.upper, p.home.gone⟩, p.usedD, p.usedE, p.diffD, p.diffE⟩

theorem post_user {p : Str} (v : UEnt) (hp : z.path p) (hv : ∀ n, v = .link (E.mountPath n) → z.mounts tr n) (h : ev.plain) (hu : ev.mounting)
    (ha : Agree z tr d e) (hh : Homely E z tr d) : Twin E z tr ev d (d.setUser p v) e (e.setUser p v) := by
  have q := post_same (E := E) h hu ha hh
  refine ⟨⟨q.agree.space, q.agree.mdir, q.agree.info, q.agree.mnt, upd_agree q.agree.user p v, q.agree.layer⟩,
    ⟨fun _ _ => rfl, fun _ _ => rfl, fun _ _ => rfl, fun _ _ => rfl, upd_keep hp _ _, fun _ _ => rfl⟩,
    ⟨fun _ _ => rfl, fun _ _ => rfl, fun _ _ => rfl, fun _ _ => rfl, upd_keep hp _ _, fun _ _ => rfl⟩,
    ⟨fun p' hp' n hn => ?_, q.home.upper, q.home.gone⟩, q.usedD, q.usedE, q.diffD, q.diffE⟩
  by_cases hx : p' = p
  · subst hx
    simp only [Disk.setUser, upd_self] at hn
    exact (mounts_plain h n).2 (hv n hn)
  · simp only [Disk.setUser, upd_ne _ _ hx] at hn
    exact q.home.link p' hp' n hn

theorem post_mount {n : Str} {u : UID} {ls : List UID} (hn : z.mounts tr n) (hu : Drew tr u) (h : ev.plain) (hm : ev.mounting) (ha : Agree z tr d e)
    (hh : Homely E z tr d) : Twin E z tr ev d (d.setMnt n (some ⟨u, ls⟩)) e (e.setMnt n (some ⟨u, ls⟩)) := by
  have q := post_same (E := E) h hm ha hh
  have hn' := (mounts_plain (z := z) (tr := tr) h n).2 hn
  refine ⟨⟨q.agree.space, q.agree.mdir, q.agree.info, upd_agree q.agree.mnt n _, q.agree.user, q.agree.layer⟩,
    ⟨fun _ _ => rfl, fun _ _ => rfl, fun _ _ => rfl, upd_keep hn' _ _, fun _ _ => rfl, fun _ _ => rfl⟩,
    ⟨fun _ _ => rfl, fun _ _ => rfl, fun _ _ => rfl, upd_keep hn' _ _, fun _ _ => rfl, fun _ _ => rfl⟩,
    ⟨q.home.link, fun v m hv hvm => ?_, fun n' x tl he _ => (hm n' x (List.cons.inj he).1).elim⟩, q.usedD, q.usedE, q.diffD, q.diffE⟩
  by_cases hx : v.base32 = n
  · simp only [Disk.setMnt, hx, upd_self, Option.some.injEq] at hvm
    subst hvm
    exact (drew_plain h u).2 hu
  · simp only [Disk.setMnt, upd_ne _ _ hx] at hvm
    exact q.home.upper v m hv hvm

theorem post_umount {n : Str} {x : Bool} (hn : z.mounts tr n) (ha : Agree z tr d e) (hh : Homely E z tr d) :
    Twin E z tr ⟨.umount n, x⟩ d (d.setMnt n none) e (e.setMnt n none) := by
  have h : Ev.plain ⟨.umount n, x⟩ := by intro u hu; cases hu
  have hn' := (mounts_plain (z := z) (tr := tr) h n).2 hn
  have q := agree_plain h ha
  refine ⟨⟨q.space, q.mdir, q.info, upd_agree q.mnt n _, q.user, q.layer⟩,
    ⟨fun _ _ => rfl, fun _ _ => rfl, fun _ _ => rfl, upd_keep hn' _ _, fun _ _ => rfl, fun _ _ => rfl⟩,
    ⟨fun _ _ => rfl, fun _ _ => rfl, fun _ _ => rfl, upd_keep hn' _ _, fun _ _ => rfl, fun _ _ => rfl⟩,
    ⟨fun p hp n hn => (mounts_plain h n).2 (hh.link p hp n hn), fun v m hv hvm => ?_, fun n' x' tl he _ => ?_⟩,
    fun u => ⟨Or.inl, fun y => y.resolve_right (h u)⟩, fun u => ⟨Or.inl, fun y => y.resolve_right (h u)⟩, fun _ => _root_.id, fun _ => _root_.id⟩
  · by_cases hx : v.base32 = n
    · simp only [Disk.setMnt, hx, upd_self] at hvm
      cases hvm
    · simp only [Disk.setMnt, upd_ne _ _ hx] at hvm
      exact (drew_plain h _).2 (hh.upper v m ((drew_plain h v).1 hv) hvm)
  · obtain ⟨he, _⟩ := List.cons.inj he
    cases he
    simp [Disk.setMnt]

theorem post_umount_none {n : Str} {x : Bool} (hn : z.mounts tr n) (hd : d.mnt n = none) (ha : Agree z tr d e) (hh : Homely E z tr d) :
    Twin E z tr ⟨.umount n, x⟩ d d e e := by
  have h1 : d.setMnt n none = d := by unfold Disk.setMnt; rw [upd_id hd]
  have h2 : e.setMnt n none = e := by unfold Disk.setMnt; rw [upd_id (by rw [← ha.mnt n hn]; exact hd)]
  have := post_umount (x := x) hn ha hh
  rwa [h1, h2] at this

theorem hasDiff_upd {u : UID} {v : Option (Option Content)} (hv : d.HasDiff u → ∃ c, v = some (some c)) : ∀ w, d.HasDiff w → (d.setLayer u v).HasDiff w := by
  rintro w ⟨c, hc⟩
  by_cases hx : w = u
  · subst hx
    obtain ⟨c', rfl⟩ := hv ⟨c, hc⟩
    exact ⟨c', by simp [Disk.setLayer]⟩
  · exact ⟨c, by simp only [Disk.setLayer, upd_ne _ _ hx]; exact hc⟩

theorem post_layer {u : UID} {v : Option (Option Content)} (hn : Drew tr u) (hv : d.HasDiff u → ∃ c, v = some (some c)) (h : ev.plain) (hu : ev.mounting)
    (ha : Agree z tr d e) (hh : Homely E z tr d) : Twin E z tr ev d (d.setLayer u v) e (e.setLayer u v) := by
  have p := post_same (E := E) h hu ha hh
  have hn' := (drew_plain (tr := tr) h u).2 hn
  have hv' : e.HasDiff u → ∃ c, v = some (some c) := by
    rintro ⟨c, hc⟩
    exact hv ⟨c, by rw [ha.layer u hn]; exact hc⟩
  exact ⟨⟨p.agree.space, p.agree.mdir, p.agree.info, p.agree.mnt, p.agree.user, upd_agree p.agree.layer u v⟩,
    ⟨fun _ _ => rfl, fun _ _ => rfl, fun _ _ => rfl, fun _ _ => rfl, fun _ _ => rfl, upd_keep hn' _ _⟩,
    ⟨fun _ _ => rfl, fun _ _ => rfl, fun _ _ => rfl, fun _ _ => rfl, fun _ _ => rfl, upd_keep hn' _ _⟩,
    ⟨p.home.link, p.home.upper, p.home.gone⟩, p.usedD, p.usedE, hasDiff_upd hv, hasDiff_upd hv'⟩

theorem post_put {u : UID} (c : Content) (hn : Drew tr u) (h : ev.plain) (hu : ev.mounting)
    (ha : Agree z tr d e) (hh : Homely E z tr d) : Twin E z tr ev d (d.put u c) e (e.put u c) := by
  have hl := ha.layer u hn
  unfold Disk.put
  rw [← hl]
  split
  · exact post_layer hn (fun _ => ⟨c, rfl⟩) h hu ha hh
  · exact post_same h hu ha hh

/-- Drawing an ID that is new on both disks: what has its name joins the zone. -/
theorem post_rand {u : UID} (ha : Agree z tr d e) (hh : Homely E z tr d) (hs : d.space u.base32 = e.space u.base32) (hm : d.mdir u.base32 = e.mdir u.base32)
    (hi : d.info u.base32 = e.info u.base32) (ht : d.mnt u.base32 = none) (ht' : e.mnt u.base32 = none) (hl : d.layer u = e.layer u) :
    Twin E z tr ⟨.rand, u⟩ d { d with used := u :: d.used } e { e with used := u :: e.used } := by
  have key : ∀ n, z.mounts (⟨.rand, u⟩ :: tr) n → n = u.base32 ∨ z.mounts tr n := by
    rintro n (hn | ⟨v, hv, rfl⟩)
    · exact Or.inr (Or.inl hn)
    · rcases (drew_cons v).1 hv with he | hv
      · cases he; exact Or.inl rfl
      · exact Or.inr (Or.inr ⟨v, hv, rfl⟩)
  have key' : ∀ n, z.spaces (⟨.rand, u⟩ :: tr) n → n = u.base32 ∨ z.spaces tr n := by
    rintro n (hn | ⟨v, hv, rfl⟩)
    · exact Or.inr (Or.inl hn)
    · rcases (drew_cons v).1 hv with he | hv
      · cases he; exact Or.inl rfl
      · exact Or.inr (Or.inr ⟨v, hv, rfl⟩)
  have mono : ∀ n, z.mounts tr n → z.mounts (⟨.rand, u⟩ :: tr) n := fun n hn => hn.imp _root_.id fun ⟨v, hv, he⟩ => ⟨v, (drew_cons v).2 (Or.inr hv), he⟩
  refine ⟨⟨fun n hn => ?_, fun n hn => ?_, fun n hn => ?_, fun n hn => ?_, ha.user, fun v hv => ?_⟩, ⟨fun _ _ => rfl, fun _ _ => rfl, fun _ _ => rfl,
    fun _ _ => rfl, fun _ _ => rfl, fun _ _ => rfl⟩, ⟨fun _ _ => rfl, fun _ _ => rfl, fun _ _ => rfl, fun _ _ => rfl, fun _ _ => rfl, fun _ _ => rfl⟩,
    ⟨fun p hp n hn => mono n (hh.link p hp n hn), fun v m hv hvm => ?_, fun n x tl he => by cases he⟩, fun v => ?_, fun v => ?_, fun _ => _root_.id, fun _ => _root_.id⟩
  · rcases key' n hn with rfl | hn
    · exact hs
    · exact ha.space n hn
  · rcases key n hn with rfl | hn
    · exact hm
    · exact ha.mdir n hn
  · rcases key n hn with rfl | hn
    · exact hi
    · exact ha.info n hn
  · rcases key n hn with rfl | hn
    · exact ht.trans ht'.symm
    · exact ha.mnt n hn
  · rcases (drew_cons v).1 hv with he | hv
    · cases he; exact hl
    · exact ha.layer v hv
  · rcases (drew_cons v).1 hv with he | hv
    · cases he
      rw [show ({ d with used := u :: d.used } : Disk).mnt u.base32 = none from ht] at hvm
      cases hvm
    · exact (drew_cons _).2 (Or.inr (hh.upper v m hv hvm))
  · simp only [List.mem_cons]
    exact ⟨fun h => h.elim (fun h => by subst h; exact Or.inr rfl) Or.inl, fun h => h.elim Or.inr fun h => by cases h; exact Or.inl rfl⟩
  · simp only [List.mem_cons]
    exact ⟨fun h => h.elim (fun h => by subst h; exact Or.inr rfl) Or.inl, fun h => h.elim Or.inr fun h => by cases h; exact Or.inl rfl⟩

/-! ## The same call on the other disk -/

theorem frame_does {P P' : Prop} {d1 e1 : Disk} {x : Bool} (hs : Does Faults.none P d1 d x d') (hp : P ↔ P') (p0 : Twin E z tr ev d d e e)
    (p1 : P → Twin E z tr ev d d1 e e1) : ∃ e', Does Faults.none P' e1 e x e' ∧ Twin E z tr ev d d' e e' := by
  rcases hs with ⟨hx, h1, rfl⟩ | ⟨hx, h1, rfl⟩
  · exact ⟨e1, Or.inl ⟨hx, hp.1 h1, rfl⟩, p1 h1⟩
  · refine ⟨e, Or.inr ⟨hx, h1.imp (fun h h' => h (hp.2 h')) _root_.id, rfl⟩, p0⟩

theorem frame_tests {P P' : Prop} {x : Bool} (hs : Tests Faults.none P d x d') (hp : P ↔ P') (p0 : Twin E z tr ev d d e e) :
    ∃ e', Tests Faults.none P' e x e' ∧ Twin E z tr ev d d' e e' := by
  obtain ⟨rfl, h⟩ := hs
  refine ⟨e, ⟨rfl, ?_⟩, p0⟩
  rwa [hp] at h

/-- A call within the zone does the same on the other disk. For a new ID, it must be new on both and its name must mean the same. -/
theorem frame {c : Cmd} {x : c.Ans} (hs : Step E Faults.none c d x d') (hg : Inner E z L tr c) (ha : Agree z tr d e) (hh : Homely E z tr d)
    (hL : ∀ u, L u → d.HasDiff u ∧ e.HasDiff u)
    (hr : ∀ u, (⟨c, x⟩ : Ev) = ⟨.rand, u⟩ → u ∉ e.used ∧ d.space u.base32 = e.space u.base32 ∧ d.mdir u.base32 = e.mdir u.base32 ∧
      d.info u.base32 = e.info u.base32 ∧ d.mnt u.base32 = none ∧ e.mnt u.base32 = none ∧ d.layer u = e.layer u) :
    ∃ e', Step E Faults.none c e x e' ∧ Twin E z tr ⟨c, x⟩ d d' e e' := by
  have hio : Faults.none.io = false := rfl
  have hbu : Faults.none.busy = false := rfl
  have same : Ev.plain ⟨c, x⟩ → Ev.mounting ⟨c, x⟩ → Twin E z tr ⟨c, x⟩ d d e e := fun h1 h2 => post_same h1 h2 ha hh
  have diff : ∀ v, Drew tr v ∨ L v → (d.HasDiff v ↔ e.HasDiff v) := by
    rintro v (hv | hv)
    · unfold Disk.HasDiff; rw [ha.layer v hv]
    · exact ⟨fun _ => (hL v hv).2, fun _ => (hL v hv).1⟩
  have some_ne : ∀ {x : Disk} {v : UID}, x.HasDiff v → x.layer v ≠ none := by
    rintro x v ⟨c, hc⟩; rw [hc]; simp
  cases c with
  | rand =>
    obtain ⟨h1, rfl⟩ := hs
    obtain ⟨r1, r2, r3, r4, r5, r6, r7⟩ := hr x rfl
    exact ⟨_, ⟨Or.inl r1, rfl⟩, post_rand ha hh r2 r3 r4 r5 r6 r7⟩
  | mkdirSpace n =>
    refine frame_does hs (by rw [ha.space n hg]) (same nofun nofun) fun _ => post_space _ hg nofun nofun ha hh
  | mkdirLayer u =>
    refine frame_does hs (by rw [ha.layer u hg]) (same nofun nofun) fun hp => post_layer hg (fun hd => absurd hp (some_ne hd)) nofun nofun ha hh
  | isDirDiff u => exact frame_tests hs (diff u (Or.inl hg)) (same nofun nofun)
  | mkdirDiff u =>
    refine frame_does hs (by rw [ha.layer u hg]) (same nofun nofun) fun hp => post_layer hg (fun _ => ⟨_, rfl⟩) nofun nofun ha hh
  | isDirLayer u =>
    refine frame_tests hs ?_ (same nofun nofun)
    rcases hg with hg | hg
    · rw [ha.layer u hg]
    · exact ⟨fun _ => some_ne (hL u hg).2, fun _ => some_ne (hL u hg).1⟩
  | mkdirMount n => exact frame_does hs (by rw [ha.mdir n hg]) (same nofun nofun) fun _ => post_mdir _ hg nofun nofun ha hh
  | isDirMerged n => exact frame_tests hs (by rw [ha.mdir n hg]) (same nofun nofun)
  | mkdirMerged n =>
    have hm := ha.mdir n hg
    simp only [Step, hm] at hs
    rcases hs with ⟨h0, m, h1, h2, rfl⟩ | ⟨h0, rfl, h1⟩ | ⟨h0, rfl, h1⟩
    · exact ⟨_, Or.inl ⟨h0, m, h1, h2, rfl⟩, post_mdir _ hg nofun nofun ha hh⟩
    · exact ⟨e, Or.inr (Or.inl ⟨h0, rfl, h1⟩), same nofun nofun⟩
    · exact ⟨e, Or.inr (Or.inr ⟨h0, rfl, h1⟩), same nofun nofun⟩
  | isDirWork n => exact frame_tests hs (by rw [ha.mdir n hg]) (same nofun nofun)
  | mkdirWork n =>
    have hm := ha.mdir n hg
    simp only [Step, hm] at hs
    rcases hs with ⟨h0, m, h1, h2, rfl⟩ | ⟨h0, rfl, h1⟩ | ⟨h0, rfl, h1⟩
    · exact ⟨_, Or.inl ⟨h0, m, h1, h2, rfl⟩, post_mdir _ hg nofun nofun ha hh⟩
    · exact ⟨e, Or.inr (Or.inl ⟨h0, rfl, h1⟩), same nofun nofun⟩
    · exact ⟨e, Or.inr (Or.inr ⟨h0, rfl, h1⟩), same nofun nofun⟩
  | mountOverlay n u ls =>
    obtain ⟨hn, hu, hls⟩ := hg
    have hz : z.mounts tr n := Or.inr hn
    refine frame_does hs ?_ (same nofun nofun) fun _ => post_mount hz hu nofun nofun ha hh
    rw [ha.mdir n hz]
    have : (∀ v ∈ u :: ls, d.HasDiff v) ↔ ∀ v ∈ u :: ls, e.HasDiff v := by
      constructor <;> intro h v hv
      · refine (diff v ?_).1 (h v hv)
        rcases List.mem_cons.1 hv with rfl | hv
        · exact Or.inl hu
        · exact hls v hv
      · refine (diff v ?_).2 (h v hv)
        rcases List.mem_cons.1 hv with rfl | hv
        · exact Or.inl hu
        · exact hls v hv
    rw [this]
  | chownMerged n =>
    have hz : z.mounts tr n := Or.inr hg
    have h1 := ha.mnt n hz
    have h2 := ha.mdir n hz
    simp only [Step] at hs ⊢
    rw [← h1]
    split at hs
    · rename_i m hm
      obtain ⟨v, hv, rfl⟩ := hg
      have hd := hh.upper v m hv hm
      have hc : e.content m.upper = d.content m.upper := by unfold Disk.content; rw [ha.layer _ hd]
      rw [hc]
      exact frame_does hs Iff.rfl (same nofun nofun) fun _ => post_put _ hd nofun nofun ha hh
    · rw [← h2]
      split at hs
      · exact frame_does hs Iff.rfl (same nofun nofun) fun _ => post_mdir _ hz nofun nofun ha hh
      · obtain ⟨hx, rfl⟩ := hs
        exact ⟨e, ⟨hx, rfl⟩, same nofun nofun⟩
  | sys k => exact frame_does hs Iff.rfl (same nofun nofun) fun _ => same nofun nofun
  | exists_ p =>
    obtain ⟨hp, ho⟩ := hg
    obtain ⟨rfl, h⟩ := hs
    refine ⟨e, ⟨rfl, ?_⟩, same nofun nofun⟩
    rcases h with h | ⟨n, hn⟩ | ⟨_, h⟩
    · refine Or.inl ?_
      unfold Exists at h ⊢
      rw [← ha.user p hp]
      split
      · rename_i hu; rw [hu] at h; exact h
      · rename_i hu; rw [hu] at h; exact h
      · rename_i hu; rw [hu] at h; exact h
      · rename_i hu; rw [hu] at h; exact h
      · rename_i hu; rw [hu] at h; exact h
      · rename_i t hu
        rw [hu] at h
        intro n hn
        rw [← ha.mdir n (hh.link p hp n (by rw [hu, hn]))]
        exact h n hn
    · exact absurd hn (ho n)
    · cases h
  | isEmptyDir p =>
    obtain ⟨hp, ho, hz⟩ := hg
    obtain ⟨rfl, h⟩ := hs
    refine ⟨e, ⟨rfl, ?_⟩, same nofun nofun⟩
    rcases h with h | ⟨n, hn⟩ | ⟨_, h⟩
    · refine Or.inl ?_
      unfold EmptyDir at h ⊢
      rw [← ha.user p hp]
      split
      · rename_i hu; rw [hu] at h; exact h
      · rename_i t hu
        intro n hn
        exact absurd (hh.link p hp n (by rw [hu, hn])) (hz n)
      · rename_i h1 h2
        split at h
        · rename_i hu; exact absurd hu h1
        · rename_i t hu; exact absurd hu (h2 t)
        · exact h
    · exact absurd hn (ho n)
    · cases h
  | isSymlink p =>
    obtain ⟨hp, ho⟩ := hg
    obtain ⟨rfl, h⟩ := hs
    exact ⟨e, ⟨rfl, by rw [← ha.user p hp]; exact h⟩, same nofun nofun⟩
  | readlink p =>
    obtain ⟨hp, ho⟩ := hg
    obtain ⟨rfl, h⟩ := hs
    exact ⟨e, ⟨rfl, by rw [← ha.user p hp]; exact h⟩, same nofun nofun⟩
  | remove p =>
    obtain ⟨hp, ho⟩ := hg
    rcases hs with ⟨h0, h⟩ | ⟨⟨n, hn⟩, _⟩
    · obtain ⟨e', h1, h2⟩ := frame_does h (by rw [ha.user p hp]) (same nofun nofun) fun _ => post_user .none hp nofun nofun nofun ha hh
      exact ⟨e', Or.inl ⟨h0, h1⟩, h2⟩
    · exact absurd hn (ho n)
  | symlink t p =>
    obtain ⟨hp, ho, ht⟩ := hg
    rcases hs with ⟨h0, h⟩ | ⟨⟨n, hn⟩, _⟩
    · obtain ⟨e', h1, h2⟩ := frame_does h (by rw [ha.user p hp]) (same nofun nofun)
        fun _ => post_user (.link t) hp (fun n hn => ht n (UEnt.link.inj hn)) nofun nofun ha hh
      exact ⟨e', Or.inl ⟨h0, h1⟩, h2⟩
    · exact absurd hn (ho n)
  | lchown p =>
    obtain ⟨hp, ho⟩ := hg
    rcases hs with ⟨h0, h⟩ | ⟨⟨n, hn⟩, _⟩
    · obtain ⟨e', h1, h2⟩ := frame_does h (by rw [ha.user p hp]) (same nofun nofun) fun _ => same nofun nofun
      exact ⟨e', Or.inl ⟨h0, h1⟩, h2⟩
    · exact absurd hn (ho n)
  | umount n =>
    have hm := ha.mnt n hg
    rcases hs with ⟨rfl, h1, rfl⟩ | ⟨rfl, rfl, h1⟩
    · exact ⟨_, Or.inl ⟨rfl, by rw [← hm]; exact h1, rfl⟩, post_umount hg ha hh⟩
    · have h1 : d'.mnt n = none := by
        rcases h1 with h1 | h1 | h1
        · exact h1
        · cases h1
        · cases h1
      exact ⟨e, Or.inr ⟨rfl, rfl, Or.inl (by rw [← hm]; exact h1)⟩, post_umount_none hg h1 ha hh⟩
  | removeAllMount n =>
    obtain ⟨hz, b, tl, rfl⟩ := hg
    have h1 := hh.gone n b tl rfl hz
    have h2 := ha.mnt n hz
    simp only [Step, h1] at hs
    simp only [Step, ← h2, h1]
    rcases hs with ⟨hx, rfl⟩ | ⟨_, h, _⟩
    · exact ⟨_, Or.inl ⟨hx, rfl⟩, post_mdir _ hz nofun nofun ha hh⟩
    · cases h
  | removeInfo n =>
    have hm := ha.info n hg
    rcases hs with ⟨rfl, h1, rfl⟩ | ⟨rfl, h1, rfl⟩ | ⟨_, h, _⟩
    · exact ⟨_, Or.inl ⟨rfl, by rw [← hm]; exact h1, rfl⟩, post_info _ hg nofun nofun ha hh⟩
    · exact ⟨e, Or.inr (Or.inl ⟨rfl, by rw [← hm]; exact h1, rfl⟩), same nofun nofun⟩
    · cases h
  | readInfo n =>
    obtain ⟨rfl, h⟩ := hs
    exact ⟨e, ⟨rfl, by rw [← ha.info n hg]; exact h⟩, same nofun nofun⟩
  | truncInfo n => exact frame_does hs Iff.rfl (same nofun nofun) fun _ => post_info _ hg nofun nofun ha hh
  | writeInfo n b =>
    have hm := ha.info n hg
    simp only [Step] at hs ⊢
    rw [← hm]
    split at hs
    · obtain ⟨rfl, h⟩ := hs
      exact ⟨e, ⟨rfl, h⟩, same nofun nofun⟩
    · rcases hs with ⟨rfl, rfl⟩ | ⟨_, h, _⟩
      · exact ⟨_, Or.inl ⟨rfl, rfl⟩, post_info _ hg nofun nofun ha hh⟩
      · cases h
  | readTree n =>
    obtain ⟨rfl, h⟩ := hs
    exact ⟨e, ⟨rfl, by rw [← ha.space n hg]; exact h⟩, same nofun nofun⟩
  | truncTree n => exact frame_does hs (by rw [ha.space n hg]) (same nofun nofun) fun _ => post_space _ hg nofun nofun ha hh
  | writeTree n b =>
    have hm := ha.space n hg
    simp only [Step] at hs ⊢
    rw [← hm]
    split at hs
    · rcases hs with ⟨rfl, rfl⟩ | ⟨_, h, _⟩
      · exact ⟨_, Or.inl ⟨rfl, rfl⟩, post_space _ hg nofun nofun ha hh⟩
      · cases h
    · obtain ⟨rfl, h⟩ := hs
      exact ⟨e, ⟨rfl, h⟩, same nofun nofun⟩
  | dump s =>
    obtain ⟨rfl, h⟩ := hs
    exact ⟨e, ⟨rfl, h⟩, same nofun nofun⟩

end
end Verif
