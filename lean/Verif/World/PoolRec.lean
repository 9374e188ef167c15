import Verif.World.PoolInv
import Verif.Props.Json
import Verif.Props.Uid
/-!
# Records and mount names

What holds if the random generator does not repeat an ID: each mount directory has one creator, each record is written by
the creator of its mount directory and names the layer that this command made, and a deleted mount never comes back.
-/
set_option autoImplicit false
namespace Verif
open M TS Json

/-! ## Consequences of an effect -/

section
variable {e : Ev} {d d' : Disk}

theorem eff_used (h : Effect e d d') : d'.used = d.used ∨ ∃ u, e = ⟨.rand, u⟩ ∧ d'.used = u :: d.used := by
  cases h with
  | rand u => exact Or.inr ⟨u, rfl, rfl⟩
  | upper e c h0 => exact Or.inl (put_rest d _ c).2.2.2.2.2
  | wipe c w h0 =>
    left
    simp only [Disk.setMdir]
    exact (put_rest d _ c).2.2.2.2.2
  | _ => exact Or.inl rfl

theorem eff_used_mem (h : Effect e d d') {u : UID} (hu : u ∈ d.used) : u ∈ d'.used := by
  rcases eff_used h with h1 | ⟨_, _, h1⟩ <;> rw [h1]
  · exact hu
  · exact List.mem_cons_of_mem _ hu

/-- How a mount directory can appear. -/
theorem eff_mdir (h : Effect e d d') {n : Str} (hn : d.mdir n = none) : d'.mdir n = none ∨ e = ⟨.mkdirMount n, true⟩ := by
  cases h with
  | @mkMount n' _ h0 =>
    by_cases hx : n = n'
    · subst hx; exact Or.inr rfl
    · exact Or.inl (by simp only [Disk.setMdir, upd_ne _ _ hx, hn])
  | @mdir n' _ m m' e h0 =>
    by_cases hx : n = n'
    · subst hx; rw [hn] at h0; cases h0
    · exact Or.inl (by simp only [Disk.setMdir, upd_ne _ _ hx, hn])
  | upper e c h0 => rw [(put_rest d _ c).2.1]; exact Or.inl hn
  | @wipe n' m _ c w h0 =>
    left
    by_cases hx : n = n'
    · subst hx; simp [Disk.setMdir, hn]
    · simp only [Disk.setMdir, upd_ne _ _ hx]
      rw [(put_rest d _ c).2.1]; exact hn
  | @rmMount n' _ h0 =>
    left
    by_cases hx : n = n'
    · subst hx; simp [Disk.setMdir]
    · simp only [Disk.setMdir, upd_ne _ _ hx, hn]
  | _ => exact Or.inl hn

/-- How a record can change. -/
theorem eff_info (h : Effect e d d') (n : Str) :
    d'.info n = d.info n ∨ (e = ⟨.removeInfo n, .ok⟩ ∧ d'.info n = none) ∨ (e = ⟨.truncInfo n, true⟩ ∧ d'.info n = some []) ∨
    ∃ b p old, ∃ x : Bool, e = ⟨.writeInfo n b, x⟩ ∧ d.info n = some old ∧ p <+: b ∧ (x = true → p = b) ∧ d'.info n = some (overwrite p old) := by
  cases h with
  | @rmInfo n' _ =>
    by_cases hx : n = n'
    · subst hx; exact Or.inr (Or.inl ⟨rfl, by simp [Disk.setInfo]⟩)
    · exact Or.inl (by simp only [Disk.setInfo, upd_ne _ _ hx])
  | @truncInfo n' _ =>
    by_cases hx : n = n'
    · subst hx; exact Or.inr (Or.inr (Or.inl ⟨rfl, by simp [Disk.setInfo]⟩))
    · exact Or.inl (by simp only [Disk.setInfo, upd_ne _ _ hx])
  | @writeInfo n' b p old x _ h0 h1 h2 =>
    by_cases hx : n = n'
    · subst hx; exact Or.inr (Or.inr (Or.inr ⟨b, p, old, x, rfl, h0, h1, h2, by simp [Disk.setInfo]⟩))
    · exact Or.inl (by simp only [Disk.setInfo, upd_ne _ _ hx])
  | upper e c h0 => rw [(put_rest d _ c).2.2.1]; exact Or.inl rfl
  | wipe c w h0 =>
    left
    simp only [Disk.setMdir]
    rw [(put_rest d _ c).2.2.1]
  | _ => exact Or.inl rfl

end

/-! ## Names -/

/-- The last thing that the command did was to draw this ID. -/
def Pending (p : Proc) (m : UID) : Prop := ∃ tl, p.tr = ⟨.rand, m⟩ :: tl

/-- The name is that of an ID that was drawn and that no command is about to use. -/
def Taken (w : World) (n : Str) : Prop := ∃ m, m ∈ w.disk.used ∧ n = m.base32 ∧ ∀ i p, w.procs i = some p → ¬ Pending p m

/-- The mount is gone for good. -/
structure Dead (w : World) (n : Str) : Prop where
  taken : Taken w n
  mdir : w.disk.mdir n = none
  mnt : w.disk.mnt n = none

/-- The record of mount `n` names the layer `u`: no other mount writes to it, and a command that made it also wrote the record
of `n`. -/
structure Bound (w : World) (n : Str) (u : UID) : Prop where
  has : w.disk.HasDiff u
  only : ∀ n' m, w.disk.mnt n' = some m → m.upper = u → n' = n
  maker : ∀ i p, w.procs i = some p → Made p.tr u → ∃ b, Wrote p.tr n b

/-- The bytes are empty, or (the beginning of) a record for a layer that is bound to `n`. -/
def Sound (E : Env) (w : World) (n b : Str) : Prop :=
  b = [] ∨ ∃ i u, b <+: marshalInfo E.sh i ∧ i.mountID = n ∧ i.head = UID.hex u ∧ Bound w n u

/-- The invariant about names and records. -/
structure Rec (E : Env) (w : World) : Prop where
  inv : Inv E w
  pendUsed : ∀ i p m, w.procs i = some p → Pending p m → m ∈ w.disk.used
  pendUniq : ∀ i j p q m, w.procs i = some p → w.procs j = some q → Pending p m → Pending q m → i = j
  named : ∀ i p n, w.procs i = some p → Named p.tr n → Taken w n
  namedUniq : ∀ i j p q n, w.procs i = some p → w.procs j = some q → Named p.tr n → Named q.tr n → i = j
  infoTaken : ∀ n, w.disk.info n ≠ none → Taken w n
  wroteUniq : ∀ i p n n' b b', w.procs i = some p → Wrote p.tr n b → Wrote p.tr n' b' → n = n' ∧ b = b'
  mountWrote : ∀ i p, w.procs i = some p → Mounted p.tr → WroteAny p.tr
  unwritten : ∀ i p n b, w.procs i = some p → Named p.tr n → ¬ WroteAny p.tr → w.disk.info n = some b → b = []
  record : ∀ n b, w.disk.info n = some b → Sound E w n b
  read : ∀ i p n b, w.procs i = some p → (⟨.readInfo n, .ok b⟩ : Ev) ∈ p.tr → Sound E w n b ∧ Taken w n
  removed : ∀ i p n, w.procs i = some p → (⟨.removeAllMount n, true⟩ : Ev) ∈ p.tr → Dead w n

/-! ## Preservation -/

/-- A step as the invariants see it: the disk changes by an effect, and at most one command's trace grows, by the call that
had the effect. -/
structure Move (E : Env) (w w' : World) (e : Ev) : Prop where
  eff : Effect e w.disk w'.disk
  procs : ∀ i p', w'.procs i = some p' → ∃ p, w.procs i = some p ∧ (p'.tr = p.tr ∨ (p'.tr = e :: p.tr ∧ Guard E p.tr e.1)) ∨
    p'.tr = []
  /-- If somebody makes the call then it is a command that keeps to the guard. -/
  mover : (∀ n, e ≠ ⟨.umount n, true⟩) → e ≠ ⟨.sys .getwd, true⟩ → ∃ i p p', w.procs i = some p ∧ Guard E p.tr e.1 ∧
    w'.procs i = some p' ∧ p'.tr = e :: p.tr ∧ ∀ j, j ≠ i → w'.procs j = w.procs j
  fresh : ∀ m, e = ⟨.rand, m⟩ → m ∉ w.disk.used ∧ w'.disk.used = m :: w.disk.used
  /-- What the calls in question saw. -/
  saw : ∀ n b, e = ⟨.readInfo n, .ok b⟩ → w.disk.info n = some b ∧ w'.disk = w.disk
  gone : ∀ n, e = ⟨.removeAllMount n, true⟩ → w.disk.mnt n = none ∧ w'.disk = w.disk.setMdir n none
  made : ∀ u, e = ⟨.mkdirLayer u, true⟩ → w.disk.layer u = none
  emptied : ∀ n, e = ⟨.truncInfo n, true⟩ → w'.disk.info n = some []
  wrote : ∀ n b, e = ⟨.writeInfo n b, true⟩ → ∀ old, w.disk.info n = some old → w'.disk.info n = some (overwrite b old)

theorem move_next {E : Env} {f : Faults} (hf : f.rep = false) {w w' : World} (hi : Inv E w) (hn : Sys.Next E f w w') : ∃ e, Move E w w' e := by
  cases hn with
  | start i c h0 =>
    refine ⟨⟨.sys .getwd, true⟩, .same _ _, ?_, fun _ h => absurd rfl h, ?_, ?_, ?_, ?_, ?_, ?_⟩
    · intro j p hp
      by_cases hj : j = i
      · subst hj
        simp only [upd_self, Option.some.injEq] at hp
        subst hp
        exact ⟨⟨w.disk, [], c.prog E⟩, Or.inr rfl⟩
      · simp only [upd_ne _ _ hj] at hp
        exact ⟨p, Or.inl ⟨hp, Or.inl rfl⟩⟩
    all_goals (intros; first | (rename_i h; cases h; done) | (rename_i h _ _; cases h))
  | kill i =>
    refine ⟨⟨.sys .getwd, true⟩, .same _ _, ?_, fun _ h => absurd rfl h, ?_, ?_, ?_, ?_, ?_, ?_⟩
    · exact fun j p hp => ⟨p, Or.inl ⟨sub_kill hp, Or.inl rfl⟩⟩
    all_goals (intros; first | (rename_i h; cases h; done) | (rename_i h _ _; cases h))
  | outside ho =>
    rcases outside_effect ho with he | ⟨n, he⟩
    · refine ⟨⟨.sys .getwd, true⟩, he, ?_, fun _ h => absurd rfl h, ?_, ?_, ?_, ?_, ?_, ?_⟩
      · exact fun j p hp => ⟨p, Or.inl ⟨hp, Or.inl rfl⟩⟩
      all_goals (intros; first | (rename_i h; cases h; done) | (rename_i h _ _; cases h))
    · refine ⟨⟨.umount n, true⟩, he, ?_, fun h => absurd rfl (h n), ?_, ?_, ?_, ?_, ?_, ?_⟩
      · exact fun j p hp => ⟨p, Or.inl ⟨hp, Or.inl rfl⟩⟩
      all_goals (intros; first | (rename_i h; cases h; done) | (rename_i h _ _; cases h))
  | @run i p c k x d' _ hp hk hs =>
    have hg : Guard E p.tr c := by
      have := hi.safe i p hp
      rw [hk] at this
      exact this.1
    refine ⟨⟨c, x⟩, step_effect hs, ?_, ?_, ?_, ?_, ?_, ?_, ?_, ?_⟩
    · intro j q hq
      by_cases hj : j = i
      · subst hj
        simp only [upd_self, Option.some.injEq] at hq
        subst hq
        exact ⟨p, Or.inl ⟨hp, Or.inr ⟨rfl, hg⟩⟩⟩
      · simp only [upd_ne _ _ hj] at hq
        exact ⟨q, Or.inl ⟨hq, Or.inl rfl⟩⟩
    · exact fun _ _ => ⟨i, p, _, hp, hg, upd_self _ _ _, rfl, fun j hj => upd_ne _ _ hj⟩
    · intro m hm
      cases hm
      refine ⟨?_, by rw [hs.2]⟩
      rcases hs.1 with h1 | h1
      · exact h1
      · rw [hf] at h1; cases h1
    · intro n b hb
      cases hb
      exact ⟨hs.2, hs.1⟩
    · intro n hb
      cases hb
      simp only [Step] at hs
      split at hs
      · rename_i h0
        rcases hs with ⟨_, h1⟩ | ⟨h1, _⟩
        · exact ⟨h0, h1⟩
        · cases h1
      · cases hs.1
    · intro u hu
      cases hu
      rcases hs with ⟨_, h1, _⟩ | ⟨h1, _⟩
      · exact h1
      · cases h1
    · intro n hb
      cases hb
      rcases hs with ⟨_, _, rfl⟩ | ⟨h1, _⟩
      · simp [Disk.setInfo]
      · cases h1
    · intro n b hb old ho
      cases hb
      simp only [Step, ho] at hs
      rcases hs with ⟨_, rfl⟩ | ⟨h1, _⟩
      · simp [Disk.setInfo]
      · cases h1

section
variable {E : Env} {w w' : World} {e : Ev}

theorem move_tr (hm : Move E w w' e) {i : Nat} {p' : Proc} (hp : w'.procs i = some p') :
    (∃ p, w.procs i = some p ∧ (p'.tr = p.tr ∨ (p'.tr = e :: p.tr ∧ Guard E p.tr e.1))) ∨ p'.tr = [] := by
  obtain ⟨p, h | h⟩ := hm.procs i p' hp
  · exact Or.inl ⟨p, h⟩
  · exact Or.inr h

/-- An event of a command was there before or is the call of this step. -/
theorem move_mem (hm : Move E w w' e) {i : Nat} {p' : Proc} (hp : w'.procs i = some p') {x : Ev} (hx : x ∈ p'.tr) :
    ∃ p, w.procs i = some p ∧ (x ∈ p.tr ∨ (x = e ∧ Guard E p.tr e.1 ∧ p'.tr = e :: p.tr)) := by
  rcases move_tr hm hp with ⟨p, h1, h2 | ⟨h2, h3⟩⟩ | h1
  · exact ⟨p, h1, Or.inl (h2 ▸ hx)⟩
  · rw [h2] at hx
    rcases List.mem_cons.1 hx with h4 | h4
    · exact ⟨p, h1, Or.inr ⟨h4, h3, h2⟩⟩
    · exact ⟨p, h1, Or.inl h4⟩
  · rw [h1] at hx; cases hx

theorem move_keep (hm : Move E w w' e) {i : Nat} {p p' : Proc} (hp : w.procs i = some p) (hp' : w'.procs i = some p') {x : Ev}
    (hx : x ∈ p'.tr ∨ x ∈ p.tr) (h : p'.tr ≠ []) : x ∈ p.tr → x ∈ p'.tr := by
  intro h1
  rcases move_tr hm hp' with ⟨q, h2, h3 | ⟨h3, _⟩⟩ | h2
  · rw [hp] at h2; cases h2; rw [h3]; exact h1
  · rw [hp] at h2; cases h2; rw [h3]; exact List.mem_cons_of_mem _ h1
  · exact absurd h2 h

theorem move_pending (hm : Move E w w' e) {i : Nat} {p' : Proc} (hp : w'.procs i = some p') {m : UID} (hx : Pending p' m) :
    (∃ p, w.procs i = some p ∧ Pending p m) ∨ (e = ⟨.rand, m⟩ ∧ m ∉ w.disk.used) := by
  obtain ⟨tl, ht⟩ := hx
  rcases move_tr hm hp with ⟨p, h1, h2 | ⟨h2, _⟩⟩ | h1
  · exact Or.inl ⟨p, h1, tl, h2.symm.trans ht⟩
  · rw [h2] at ht
    injection ht with h3 _
    exact Or.inr ⟨h3, (hm.fresh m h3).1⟩
  · rw [h1] at ht; cases ht

theorem taken_move (hm : Move E w w' e) {n : Str} (h : Taken w n) : Taken w' n := by
  obtain ⟨m, h1, h2, h3⟩ := h
  refine ⟨m, eff_used_mem hm.eff h1, h2, fun i p' hp hx => ?_⟩
  rcases move_pending hm hp hx with ⟨p, hp0, h4⟩ | ⟨_, h4⟩
  · exact h3 i p hp0 h4
  · exact h4 h1

/-- A pending name is not taken. -/
theorem not_taken {i : Nat} {p : Proc} {m : UID} (hp : w.procs i = some p) (h : Pending p m) : ¬ Taken w m.base32 := by
  rintro ⟨m', _, h2, h3⟩
  exact h3 i p hp (C03_base32_injective h2 ▸ h)

/-- A call other than unmounting is made by a command. -/
theorem mover_of (hm : Move E w w' e) {c : Cmd} {x : c.Ans} (he : e = ⟨c, x⟩) (hc : (∀ n, c ≠ .umount n) ∧ c ≠ .sys .getwd) :
    ∃ i p p', w.procs i = some p ∧ Guard E p.tr c ∧ w'.procs i = some p' ∧ p'.tr = e :: p.tr ∧ ∀ j, j ≠ i → w'.procs j = w.procs j := by
  subst he
  exact hm.mover (fun n h => by injection h with h1 _; exact hc.1 n h1) (fun h => by injection h with h1 _; exact hc.2 h1)

theorem dead_move (hm : Move E w w' e) {n : Str} (h : Dead w n) : Dead w' n := by
  refine ⟨taken_move hm h.taken, ?_, ?_⟩
  · rcases eff_mdir hm.eff h.mdir with h1 | h1
    · exact h1
    · obtain ⟨i, p, _, hp, ⟨m, tl, hn, ht⟩, _⟩ := mover_of hm h1 ⟨by simp, by simp⟩
      subst hn
      exact absurd h.taken (not_taken hp ⟨tl, ht⟩)
  · cases hx : w'.disk.mnt n with
    | none => rfl
    | some m =>
      rcases eff_mnt hm.eff hx with h1 | ⟨_, h1, _⟩
      · rw [h.mnt] at h1; cases h1
      · exact absurd h.mdir h1

theorem wrote_move (hm : Move E w w' e) {i : Nat} {p p' : Proc} (hp : w.procs i = some p) (hp' : w'.procs i = some p')
    (h : p'.tr ≠ []) {n b : Str} (hw : Wrote p.tr n b) : Wrote p'.tr n b := by
  obtain ⟨x, hx⟩ := hw
  exact ⟨x, move_keep hm hp hp' (Or.inr hx) h hx⟩

theorem bound_move (hr : Rec E w) (hm : Move E w w' e) {n : Str} {u : UID} (h : Bound w n u) : Bound w' n u := by
  refine ⟨eff_hasDiff hm.eff h.has, ?_, ?_⟩
  · intro n' m hx hu
    rcases eff_mnt hm.eff hx with h1 | ⟨h1, _, _⟩
    · exact h.only n' m h1 hu
    · obtain ⟨i, p, _, hp, hg, _⟩ := mover_of hm h1 ⟨by simp, by simp⟩
      obtain ⟨h2, _, _, ⟨b, h3, _⟩, _⟩ := hg
      rw [hu] at h2
      obtain ⟨b', h4⟩ := h.maker i p hp h2
      exact (hr.wroteUniq i p _ _ _ _ hp ⟨_, h3⟩ h4).1
  · intro i p' hp' hu
    obtain ⟨p, hp, h1 | ⟨h1, _, _⟩⟩ := move_mem hm hp' hu
    · obtain ⟨b, hb⟩ := h.maker i p hp h1
      exact ⟨b, wrote_move hm hp hp' (by intro h0; rw [h0] at hu; cases hu) hb⟩
    · obtain ⟨c, hc⟩ := h.has
      rw [hm.made u h1.symm] at hc; cases hc

theorem sound_move (hr : Rec E w) (hm : Move E w w' e) {n b : Str} (h : Sound E w n b) : Sound E w' n b := by
  rcases h with h | ⟨i, u, h1, h2, h3, h4⟩
  · exact Or.inl h
  · exact Or.inr ⟨i, u, h1, h2, h3, bound_move hr hm h4⟩

theorem rec_move (hr : Rec E w) (hi' : Inv E w') (hm : Move E w w' e) : Rec E w' := by
  have hnamed : ∀ i p' n, w'.procs i = some p' → Named p'.tr n → Taken w' n := by
    intro i p' n hp' hn
    obtain ⟨p, hp, h1 | ⟨h1, hg, htr⟩⟩ := move_mem hm hp' hn
    · exact taken_move hm (hr.named i p n hp h1)
    · subst h1
      obtain ⟨m, tl, rfl, ht⟩ := hg
      refine ⟨m, eff_used_mem hm.eff (hr.pendUsed i p m hp ⟨tl, ht⟩), rfl, fun j q' hq' hx => ?_⟩
      rcases move_pending hm hq' hx with ⟨q, hq, h4⟩ | ⟨h4, _⟩
      · have := hr.pendUniq i j p q m hp hq ⟨tl, ht⟩ h4
        subst this
        rw [hp'] at hq'; cases hq'
        obtain ⟨tl', hx⟩ := hx
        rw [htr] at hx
        injection hx with h5 _
        cases h5
      · cases h4
  -- the command that makes a call to a record is the one that named the mount
  have huniq : ∀ i j p' q' n, w'.procs i = some p' → w'.procs j = some q' → Named p'.tr n → Named q'.tr n → i = j := by
    intro i j p' q' n hp' hq' hn hn'
    obtain ⟨p, hp, h1⟩ := move_mem hm hp' hn
    obtain ⟨q, hq, h2⟩ := move_mem hm hq' hn'
    rcases h1 with h1 | ⟨h1, hg, htr⟩
    · rcases h2 with h2 | ⟨h2, hg, htr⟩
      · exact hr.namedUniq i j p q n hp hq h1 h2
      · subst h2
        obtain ⟨m, tl, rfl, ht⟩ := hg
        exact absurd (hr.named i p _ hp h1) (not_taken hq ⟨tl, ht⟩)
    · subst h1
      obtain ⟨m, tl, rfl, ht⟩ := hg
      rcases h2 with h2 | ⟨h2, hg', htr'⟩
      · exact absurd (hr.named j q _ hq h2) (not_taken hp ⟨tl, ht⟩)
      · obtain ⟨m', tl', h3, ht'⟩ := hg'
        have := C03_base32_injective h3
        subst this
        exact hr.pendUniq i j p q m hp hq ⟨tl, ht⟩ ⟨tl', ht'⟩
  have hinfo : ∀ n, w'.disk.info n ≠ none → Taken w' n := by
    intro n hn
    have key : ∀ {c : Cmd} {x : c.Ans}, e = ⟨c, x⟩ → ((∀ n, c ≠ .umount n) ∧ c ≠ .sys .getwd) → (∀ tr, Guard E tr c → Named tr n) →
        Taken w' n := by
      intro c x he hc hg
      obtain ⟨i, p, _, hp, hgd, _⟩ := mover_of hm he hc
      exact taken_move hm (hr.named i p n hp (hg _ hgd))
    rcases eff_info hm.eff n with h1 | ⟨_, h1⟩ | ⟨h1, _⟩ | ⟨b, p, old, x, h1, _⟩
    · exact taken_move hm (hr.infoTaken n (by rw [← h1]; exact hn))
    · exact absurd h1 hn
    · exact key h1 ⟨by simp, by simp⟩ fun _ hg => hg.1
    · exact key h1 ⟨by simp, by simp⟩ fun _ hg => hg.1
  have hwu : ∀ i p' n n' b b', w'.procs i = some p' → Wrote p'.tr n b → Wrote p'.tr n' b' → n = n' ∧ b = b' := by
    rintro i p' n n' b b' hp' ⟨x, hx⟩ ⟨x', hx'⟩
    obtain ⟨p, hp, h1⟩ := move_mem hm hp' hx
    obtain ⟨q, hq, h2⟩ := move_mem hm hp' hx'
    rw [hp] at hq; cases hq
    rcases h1 with h1 | ⟨h1, hg, _⟩
    · rcases h2 with h2 | ⟨h2, hg, _⟩
      · exact hr.wroteUniq i p n n' b b' hp ⟨x, h1⟩ ⟨x', h2⟩
      · subst h2; exact absurd ⟨n, b, x, h1⟩ hg.2.1
    · subst h1
      rcases h2 with h2 | ⟨h2, _⟩
      · exact absurd ⟨n', b', x', h2⟩ hg.2.1
      · injection h2 with h3 _
        injection h3 with h4 h5
        exact ⟨h4.symm, h5.symm⟩
  have hunw : ∀ i p' n b, w'.procs i = some p' → Named p'.tr n → ¬ WroteAny p'.tr → w'.disk.info n = some b → b = [] := by
    intro i p' n b hp' hn hw hb
    obtain ⟨p, hp, h1⟩ := move_mem hm hp' hn
    have hne : p'.tr ≠ [] := by intro h0; rw [h0] at hn; cases hn
    have hwp : ¬ WroteAny p.tr := fun ⟨n', b', h⟩ => hw ⟨n', b', wrote_move hm hp hp' hne h⟩
    rcases eff_info hm.eff n with h2 | ⟨_, h2⟩ | ⟨_, h2⟩ | ⟨b', pr, old, x, h2, _, _, _, _⟩
    · rw [h2] at hb
      rcases h1 with h1 | ⟨h1, hg, _⟩
      · exact hr.unwritten i p n b hp h1 hwp hb
      · subst h1
        obtain ⟨m, tl, rfl, ht⟩ := hg
        exact absurd (hr.infoTaken _ (by rw [hb]; simp)) (not_taken hp ⟨tl, ht⟩)
    · rw [h2] at hb; cases hb
    · rw [h2] at hb; cases hb; rfl
    · obtain ⟨j, q, q', hq, hg, hq', htr, _⟩ := mover_of hm h2 ⟨by simp, by simp⟩
      have hnq : Named q'.tr n := by rw [htr]; exact List.mem_cons_of_mem _ hg.1
      have := huniq i j p' q' n hp' hq' hn hnq
      subst this
      rw [hp'] at hq'; cases hq'
      exact absurd ⟨n, b', x, by rw [htr, h2]; simp⟩ hw
  have hrecord : ∀ n b, w'.disk.info n = some b → Sound E w' n b := by
    intro n b hb
    rcases eff_info hm.eff n with h2 | ⟨_, h2⟩ | ⟨_, h2⟩ | ⟨b', pr, old, x, h2, h3, h4, _, h5⟩
    · rw [h2] at hb; exact sound_move hr hm (hr.record n b hb)
    · rw [h2] at hb; cases hb
    · rw [h2] at hb; cases hb; exact Or.inl rfl
    · obtain ⟨j, q, q', hq, hg, hq', htr, hoth⟩ := mover_of hm h2 ⟨by simp, by simp⟩
      obtain ⟨hn, hnw, ⟨u, hmu, hbu, i, hi1, hi2, hi3⟩, _⟩ := hg
      have hold := hr.unwritten j q n old hq hn hnw h3
      subst hold
      rw [h5] at hb
      have hbp : b = pr := by simpa [overwrite] using hb.symm
      subst hbp
      refine Or.inr ⟨i, u, hi1 ▸ h4, hi3, hi2, ?_⟩
      have hnm : ¬ Mounted q.tr := fun h => hnw (hr.mountWrote j q hq h)
      refine ⟨eff_hasDiff hm.eff (hr.inv.based j q u hq hbu), ?_, ?_⟩
      · intro n' m hx hu
        rcases eff_mnt hm.eff hx with h6 | ⟨h6, _⟩
        · exact absurd hu (hr.inv.owned j q u n' m hq hmu hnm h6)
        · rw [h2] at h6; cases h6
      · intro k r' hr' hu
        obtain ⟨r, hrr, h6 | ⟨h6, _, _⟩⟩ := move_mem hm hr' hu
        · have := hr.inv.excl k j r q u hrr hq h6 hmu
          subst this
          rw [hq'] at hr'; cases hr'
          exact ⟨b', x, by rw [htr, h2]; simp⟩
        · rw [h2] at h6; cases h6
  constructor
  · exact hi'
  · intro i p' m hp' hx
    rcases move_pending hm hp' hx with ⟨p, hp, h1⟩ | ⟨h1, _⟩
    · exact eff_used_mem hm.eff (hr.pendUsed i p m hp h1)
    · rw [(hm.fresh m h1).2]; simp
  · intro i j p' q' m hp' hq' hx hy
    by_cases he : e = ⟨.rand, m⟩
    · obtain ⟨k, r, r', hrk, _, hrk', _, hoth⟩ := mover_of hm he ⟨by simp, by simp⟩
      have key : ∀ {a : Nat} {t : Proc}, w'.procs a = some t → Pending t m → a = k := by
        intro a t ha ht
        by_cases hak : a = k
        · exact hak
        · rw [hoth a hak] at ha
          exact absurd (hr.pendUsed a t m ha ht) (hm.fresh m he).1
      rw [key hp' hx, key hq' hy]
    · rcases move_pending hm hp' hx with ⟨p, hp, h1⟩ | ⟨h1, _⟩
      · rcases move_pending hm hq' hy with ⟨q, hq, h2⟩ | ⟨h2, _⟩
        · exact hr.pendUniq i j p q m hp hq h1 h2
        · exact absurd h2 he
      · exact absurd h1 he
  · exact hnamed
  · exact huniq
  · exact hinfo
  · exact hwu
  · rintro i p' hp' ⟨n, u, ls, x, hx⟩
    have hne : p'.tr ≠ [] := by intro h0; rw [h0] at hx; cases hx
    obtain ⟨p, hp, h1 | ⟨h1, hg, _⟩⟩ := move_mem hm hp' hx
    · obtain ⟨n', b, h2⟩ := hr.mountWrote i p hp ⟨n, u, ls, x, h1⟩
      exact ⟨n', b, wrote_move hm hp hp' hne h2⟩
    · subst h1
      obtain ⟨_, _, _, ⟨b, h2, _⟩, _⟩ := hg
      exact ⟨n, b, wrote_move hm hp hp' hne ⟨_, h2⟩⟩
  · exact hunw
  · exact hrecord
  · intro i p' n b hp' hx
    obtain ⟨p, hp, h1 | ⟨h1, _, _⟩⟩ := move_mem hm hp' hx
    · exact ⟨sound_move hr hm (hr.read i p n b hp h1).1, taken_move hm (hr.read i p n b hp h1).2⟩
    · obtain ⟨h2, h3⟩ := hm.saw n b h1.symm
      rw [← h3] at h2
      exact ⟨hrecord n b h2, hinfo n (by rw [h2]; simp)⟩
  · intro i p' n hp' hx
    obtain ⟨p, hp, h1 | ⟨h1, hg, _⟩⟩ := move_mem hm hp' hx
    · exact dead_move hm (hr.removed i p n hp h1)
    · obtain ⟨h2, h3⟩ := hm.gone n h1.symm
      subst h1
      obtain ⟨b, _, h4, _⟩ := hg
      exact ⟨taken_move hm (hr.read i p n b hp h4).2, by rw [h3]; simp [Disk.setMdir], by rw [h3]; exact h2⟩

end

/-- Nothing runs, and there are no records. -/
structure Clean (w : World) : Prop where
  idle : Idle w
  info : ∀ n, w.disk.info n = none

theorem rec_clean {E : Env} {w : World} (h : Clean w) : Rec E w := by
  have hn : ∀ {i p}, w.procs i = some p → False := by
    intro i p hp
    rw [h.idle.idle i] at hp; cases hp
  have hi : ∀ {n b}, w.disk.info n = some b → False := by
    intro n b hb
    rw [h.info n] at hb; cases hb
  exact ⟨inv_idle h.idle, fun _ _ _ hp => (hn hp).elim, fun _ _ _ _ _ hp => (hn hp).elim, fun _ _ _ hp => (hn hp).elim,
    fun _ _ _ _ _ hp => (hn hp).elim, fun n hb => absurd (h.info n) hb, fun _ _ _ _ _ _ hp => (hn hp).elim,
    fun _ _ hp => (hn hp).elim, fun _ _ _ _ hp => (hn hp).elim, fun _ _ hb => (hi hb).elim,
    fun _ _ _ _ hp => (hn hp).elim, fun _ _ _ hp => (hn hp).elim⟩

theorem rec_next {E : Env} {f : Faults} (hf : f.rep = false) {w w' : World} (h : Rec E w) (hn : Sys.Next E f w w') : Rec E w' := by
  obtain ⟨e, hm⟩ := move_next hf h.inv hn
  exact rec_move h (inv_next h.inv hn) hm

theorem rec_steps {E : Env} {f : Faults} (hf : f.rep = false) {w w' : World} (h : Rec E w) (hs : Sys.Steps E f w w') : Rec E w' := by
  induction hs with
  | refl => exact h
  | step _ hn ih => exact rec_next hf ih hn

/-! ## Sealed layers -/

/-- Nobody can write to the layer any more: it has content, no mount writes to it, and the command that made it has mounted it
already, or can no longer mount it because the mount is gone. -/
structure Sealed (w : World) (u : UID) : Prop where
  has : w.disk.HasDiff u
  idle : ∀ n m, w.disk.mnt n = some m → m.upper ≠ u
  free : ∀ i p, w.procs i = some p → Made p.tr u → Mounted p.tr ∨ ∃ n b, Wrote p.tr n b ∧ Dead w n

theorem sealed_of_settled {w : World} {u : UID} (h : Settled w u) : Sealed w u :=
  ⟨h.has, h.idle, fun i p hp hu => Or.inl (h.free i p hp hu)⟩

/-- If the mount of a record is gone then its layer is sealed. -/
theorem sealed_of_bound {w : World} {n : Str} {u : UID} (h : Bound w n u) (hd : Dead w n) : Sealed w u := by
  refine ⟨h.has, fun n' m hm hu => ?_, fun i p hp hu => ?_⟩
  · rw [h.only n' m hm hu, hd.mnt] at hm; cases hm
  · obtain ⟨b, hb⟩ := h.maker i p hp hu
    exact Or.inr ⟨n, b, hb, hd⟩

theorem sealed_move {E : Env} {w w' : World} {e : Ev} {u : UID} (hr : Rec E w) (hm : Move E w w' e) (h : Sealed w u) :
    Sealed w' u ∧ w'.disk.layer u = w.disk.layer u := by
  refine ⟨⟨eff_hasDiff hm.eff h.has, ?_, ?_⟩, ?_⟩
  · intro n m hx hu
    rcases eff_mnt hm.eff hx with h1 | ⟨h1, h2, _⟩
    · exact h.idle n m h1 hu
    · obtain ⟨i, p, _, hp, hg, _⟩ := mover_of hm h1 ⟨by simp, by simp⟩
      obtain ⟨h3, _, _, ⟨b, h4, _⟩, h5⟩ := hg
      rw [hu] at h3
      rcases h.free i p hp h3 with h6 | ⟨n', b', h6, h7⟩
      · exact h5 h6
      · have := (hr.wroteUniq i p _ _ _ _ hp ⟨_, h4⟩ h6).1
        rw [this, h7.mdir] at h2
        exact h2 rfl
  · intro i p' hp' hu
    have hne : p'.tr ≠ [] := by intro h0; rw [h0] at hu; cases hu
    obtain ⟨p, hp, h1 | ⟨h1, _, _⟩⟩ := move_mem hm hp' hu
    · rcases h.free i p hp h1 with ⟨n, v, ls, x, h2⟩ | ⟨n, b, h2, h3⟩
      · exact Or.inl ⟨n, v, ls, x, move_keep hm hp hp' (Or.inr h2) hne h2⟩
      · exact Or.inr ⟨n, b, wrote_move hm hp hp' hne h2, dead_move hm h3⟩
    · obtain ⟨c, hc⟩ := h.has
      rw [hm.made u h1.symm] at hc; cases hc
  · obtain ⟨c, hc⟩ := h.has
    rcases eff_layer hm.eff u with h1 | ⟨_, h1, _⟩ | ⟨_, h1, _⟩ | ⟨n, m, _, h1, h2, _⟩
    · exact h1
    · rw [hc] at h1; cases h1
    · rw [hc] at h1; cases h1
    · exact absurd h2 (h.idle n m h1)

theorem sealed_steps {E : Env} {f : Faults} (hf : f.rep = false) {w w' : World} {u : UID} (hr : Rec E w) (h : Sealed w u)
    (hs : Sys.Steps E f w w') : Sealed w' u ∧ w'.disk.layer u = w.disk.layer u := by
  induction hs with
  | refl => exact ⟨h, rfl⟩
  | step hs hn ih =>
    have hr1 := rec_steps hf hr hs
    obtain ⟨e, hm⟩ := move_next hf hr1.inv hn
    have := sealed_move hr1 hm ih.1
    exact ⟨this.1, this.2.trans ih.2⟩

end Verif
