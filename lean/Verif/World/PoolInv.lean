import Verif.World.Pool
/-!
# Invariants of the system
-/
set_option autoImplicit false
namespace Verif
open M TS Json

/-! ## Consequences of an effect -/

section
variable {e : Ev} {d d' : Disk}

theorem put_layer (d : Disk) (u v : UID) (c : Content) :
    (d.put u c).layer v = d.layer v ∨ (v = u ∧ d.HasDiff u ∧ (d.put u c).layer v = some (some c)) := by
  unfold Disk.put
  split
  · rename_i c0 h0
    by_cases hv : v = u
    · subst hv; exact Or.inr ⟨rfl, ⟨c0, h0⟩, by simp [Disk.setLayer]⟩
    · exact Or.inl (by simp [Disk.setLayer, upd_ne _ _ hv])
  · exact Or.inl rfl

theorem put_rest (d : Disk) (u : UID) (c : Content) : (d.put u c).space = d.space ∧ (d.put u c).mdir = d.mdir ∧
    (d.put u c).info = d.info ∧ (d.put u c).mnt = d.mnt ∧ (d.put u c).user = d.user ∧ (d.put u c).used = d.used := by
  unfold Disk.put
  split <;> exact ⟨rfl, rfl, rfl, rfl, rfl, rfl⟩

/-- How the state of a layer can change. -/
theorem eff_layer (h : Effect e d d') (u : UID) :
    d'.layer u = d.layer u ∨
    (e = ⟨.mkdirLayer u, true⟩ ∧ d.layer u = none ∧ d'.layer u = some none) ∨
    (e = ⟨.mkdirDiff u, true⟩ ∧ d.layer u = some none ∧ d'.layer u = some (some .empty)) ∨
    (∃ n m c, d.mnt n = some m ∧ m.upper = u ∧ d.HasDiff u ∧ d'.layer u = some (some c)) := by
  cases h with
  | same => exact Or.inl rfl
  | rand => exact Or.inl rfl
  | mkSpace => exact Or.inl rfl
  | @mkLayer v _ hv =>
    by_cases hu : u = v
    · subst hu; exact Or.inr (Or.inl ⟨rfl, hv, by simp [Disk.setLayer]⟩)
    · exact Or.inl (by simp [Disk.setLayer, upd_ne _ _ hu])
  | @mkDiff v _ hv =>
    by_cases hu : u = v
    · subst hu; exact Or.inr (Or.inr (Or.inl ⟨rfl, hv, by simp [Disk.setLayer]⟩))
    · exact Or.inl (by simp [Disk.setLayer, upd_ne _ _ hu])
  | mkMount => exact Or.inl rfl
  | mdir => exact Or.inl rfl
  | mount => exact Or.inl rfl
  | @upper n m _ _ c hm =>
    rcases put_layer d m.upper u c with h1 | ⟨h1, h2, h3⟩
    · exact Or.inl h1
    · subst h1; exact Or.inr (Or.inr (Or.inr ⟨n, m, c, hm, rfl, h2, h3⟩))
  | @wipe n m _ c w hm =>
    rcases put_layer d m.upper u c with h1 | ⟨h1, h2, h3⟩
    · exact Or.inl h1
    · subst h1; exact Or.inr (Or.inr (Or.inr ⟨n, m, c, hm, rfl, h2, h3⟩))
  | rmMount => exact Or.inl rfl
  | user => exact Or.inl rfl
  | reboot => exact Or.inl rfl
  | umount => exact Or.inl rfl
  | rmInfo => exact Or.inl rfl
  | truncInfo => exact Or.inl rfl
  | writeInfo => exact Or.inl rfl
  | truncTree => exact Or.inl rfl
  | writeTree => exact Or.inl rfl

theorem eff_exists (h : Effect e d d') {u : UID} (hu : d.layer u ≠ none) : d'.layer u ≠ none := by
  rcases eff_layer h u with h1 | ⟨_, _, h1⟩ | ⟨_, _, h1⟩ | ⟨_, _, _, _, _, _, h1⟩
  · rw [h1]; exact hu
  all_goals rw [h1]; simp

theorem eff_hasDiff (h : Effect e d d') {u : UID} (hu : d.HasDiff u) : d'.HasDiff u := by
  obtain ⟨c, hc⟩ := hu
  rcases eff_layer h u with h1 | ⟨_, h0, _⟩ | ⟨_, h0, _⟩ | ⟨_, _, c, _, _, _, h1⟩
  · exact ⟨c, by rw [h1]; exact hc⟩
  · rw [hc] at h0; cases h0
  · rw [hc] at h0; cases h0
  · exact ⟨c, h1⟩

/-- How a mount can appear. -/
theorem eff_mnt (h : Effect e d d') {n : Str} {m : Mnt} (hm : d'.mnt n = some m) :
    d.mnt n = some m ∨ (e = ⟨.mountOverlay n m.upper m.lowers, true⟩ ∧ d.mdir n ≠ none ∧ ∀ v ∈ m.upper :: m.lowers, d.HasDiff v) := by
  cases h with
  | @mount n' u ls _ h1 h2 =>
    by_cases hn : n = n'
    · subst hn
      simp only [Disk.setMnt, upd_self, Option.some.injEq] at hm
      subst hm
      exact Or.inr ⟨rfl, h1, h2⟩
    · simp only [Disk.setMnt, upd_ne _ _ hn] at hm; exact Or.inl hm
  | upper e c h0 => rw [(put_rest d _ c).2.2.2.1] at hm; exact Or.inl hm
  | wipe c w h0 =>
    simp only [Disk.setMdir] at hm
    rw [(put_rest d _ c).2.2.2.1] at hm; exact Or.inl hm
  | @umount n' _ _ =>
    by_cases hn : n = n'
    · subst hn; simp [Disk.setMnt] at hm
    · simp only [Disk.setMnt, upd_ne _ _ hn] at hm; exact Or.inl hm
  | reboot => cases hm
  | _ => exact Or.inl hm

theorem outside_effect {d d' : Disk} (h : Outside d d') : Effect ⟨.sys .getwd, true⟩ d d' ∨ ∃ n, Effect ⟨.umount n, true⟩ d d' := by
  cases h with
  | write c hm => exact Or.inl (.upper _ c hm)
  | touch us => exact Or.inl (.user _ us)
  | reboot => exact Or.inl (.reboot _)
  | unplug n =>
    cases hn : d.mnt n with
    | none =>
      have : d.setMnt n none = d := by
        unfold Disk.setMnt
        have : upd d.mnt n none = d.mnt := by
          funext x
          by_cases hx : x = n
          · subst hx; simp [hn]
          · exact upd_ne _ _ hx
        rw [this]
      rw [this]; exact Or.inl (.same _ _)
    | some m => exact Or.inr ⟨n, .umount (by rw [hn]; simp)⟩
  | stray c _ hm => exact Or.inl (.mdir _ hm)

end

/-! ## Layers have one writer -/

/-- Nothing runs, each mount has an upper layer of its own, and all mounted layers exist. -/
structure Idle (w : World) : Prop where
  idle : ∀ i, w.procs i = none
  live : ∀ n m, w.disk.mnt n = some m → ∀ v ∈ m.upper :: m.lowers, w.disk.HasDiff v
  uniq : ∀ n n' m m', w.disk.mnt n = some m → w.disk.mnt n' = some m' → m.upper = m'.upper → n = n'

/-- The invariant about layers and mounts. -/
structure Inv (E : Env) (w : World) : Prop where
  safe : ∀ i p, w.procs i = some p → twp AnyAns (Guard E) p.prog (onOk fun o tr => OutOk tr o) p.tr
  made : ∀ i p u, w.procs i = some p → Made p.tr u → w.disk.layer u ≠ none
  fresh : ∀ i p u, w.procs i = some p → Made p.tr u → p.start.layer u = none
  grows : ∀ i p u, w.procs i = some p → p.start.layer u ≠ none → w.disk.layer u ≠ none
  excl : ∀ i j p q u, w.procs i = some p → w.procs j = some q → Made p.tr u → Made q.tr u → i = j
  based : ∀ i p u, w.procs i = some p → Based p.tr u → w.disk.HasDiff u
  mounts : ∀ i p n u ls, ∀ x : Bool, w.procs i = some p → (⟨.mountOverlay n u ls, x⟩ : Ev) ∈ p.tr → Made p.tr u
  live : ∀ n m, w.disk.mnt n = some m → ∀ v ∈ m.upper :: m.lowers, w.disk.HasDiff v
  owned : ∀ i p u n m, w.procs i = some p → Made p.tr u → ¬ Mounted p.tr → w.disk.mnt n = some m → m.upper ≠ u
  uniq : ∀ n n' m m', w.disk.mnt n = some m → w.disk.mnt n' = some m' → m.upper = m'.upper → n = n'
  blank : ∀ i p u c, w.procs i = some p → Made p.tr u → ¬ Mounted p.tr → w.disk.layer u = some (some c) → c = .empty

theorem inv_idle {E : Env} {w : World} (h : Idle w) : Inv E w := by
  have hn : ∀ {i p}, w.procs i = some p → False := by
    intro i p hp
    rw [h.idle i] at hp; cases hp
  exact ⟨fun _ _ hp => (hn hp).elim, fun _ _ _ hp => (hn hp).elim, fun _ _ _ hp => (hn hp).elim,
    fun _ _ _ hp => (hn hp).elim, fun _ _ _ _ _ hp => (hn hp).elim, fun _ _ _ hp => (hn hp).elim,
    fun _ _ _ _ _ _ hp => (hn hp).elim, h.live, fun _ _ _ _ _ hp => (hn hp).elim, h.uniq,
    fun _ _ _ _ hp => (hn hp).elim⟩

/-- A step that changes the disk by an effect that is none of the commands' own. -/
theorem inv_outside {E : Env} {w : World} {e : Ev} {d' : Disk} (h : Inv E w) (he : Effect e w.disk d')
    (hq : e = ⟨.sys .getwd, true⟩ ∨ ∃ n, e = ⟨.umount n, true⟩) : Inv E ⟨d', w.procs⟩ := by
  have hmnt : ∀ n m, d'.mnt n = some m → w.disk.mnt n = some m := by
    intro n m hm
    rcases eff_mnt he hm with h1 | ⟨h1, _⟩
    · exact h1
    · rcases hq with rfl | ⟨k, rfl⟩ <;> cases h1
  constructor
  · exact h.safe
  · exact fun i p u hp hm => eff_exists he (h.made i p u hp hm)
  · exact h.fresh
  · exact fun i p u hp hm => eff_exists he (h.grows i p u hp hm)
  · exact h.excl
  · exact fun i p u hp hm => eff_hasDiff he (h.based i p u hp hm)
  · exact h.mounts
  · exact fun n m hm v hv => eff_hasDiff he (h.live n m (hmnt n m hm) v hv)
  · exact fun i p u n m hp hu hn hm => h.owned i p u n m hp hu hn (hmnt n m hm)
  · exact fun n n' m m' hm hm' he => h.uniq n n' m m' (hmnt n m hm) (hmnt n' m' hm') he
  · intro i p u c hp hu hn hc
    rcases eff_layer he u with h1 | ⟨h1, _⟩ | ⟨h1, _⟩ | ⟨n, m, c', h1, h2, _⟩
    · exact h.blank i p u c hp hu hn (by rw [← h1]; exact hc)
    · rcases hq with rfl | ⟨k, rfl⟩ <;> cases h1
    · rcases hq with rfl | ⟨k, rfl⟩ <;> cases h1
    · exact absurd h2 (h.owned i p u n m hp hu hn h1)

theorem made_cons {e : Ev} {tr : Trace} {u : UID} : Made (e :: tr) u ↔ e = ⟨.mkdirLayer u, true⟩ ∨ Made tr u := by
  simp only [Made, List.mem_cons]
  exact ⟨fun h => h.imp_left Eq.symm, fun h => h.imp_left Eq.symm⟩

theorem mounted_mono {e : Ev} {tr : Trace} (h : Mounted tr) : Mounted (e :: tr) := by
  obtain ⟨n, u, ls, x, hx⟩ := h
  exact ⟨n, u, ls, x, List.mem_cons_of_mem _ hx⟩

theorem inv_run {E : Env} {f : Faults} {w : World} {i : Nat} {p : Proc} {c : Cmd} {k : c.Ans → Prog (Res CErr Out)} {x : c.Ans}
    {d' : Disk} {o : Nat} (h : Inv E w) (hp : w.procs i = some p) (hk : p.prog = .op c k) (hs : Step (E.as o) f c w.disk x d') :
    Inv E ⟨d', upd w.procs i (some ⟨p.start, ⟨c, x⟩ :: p.tr, k x⟩)⟩ := by
  have he := step_effect hs
  obtain ⟨hg, hsafe⟩ : Guard E p.tr c ∧ ∀ x, True → twp AnyAns (Guard E) (k x) (onOk fun o tr => OutOk tr o) (⟨c, x⟩ :: p.tr) := by
    have := h.safe i p hp
    rw [hk] at this
    exact this
  -- a layer that this call creates
  have hnew : ∀ {u}, (⟨c, x⟩ : Ev) = ⟨.mkdirLayer u, true⟩ → w.disk.layer u = none ∧ d'.layer u = some none := by
    intro u hu
    cases hu
    rcases hs with ⟨_, h1, rfl⟩ | ⟨h1, _⟩
    · exact ⟨h1, by simp [Disk.setLayer]⟩
    · cases h1
  have hbase : ∀ {u}, (⟨c, x⟩ : Ev) = ⟨.mkdirDiff u, true⟩ ∨ (⟨c, x⟩ : Ev) = ⟨.isDirDiff u, true⟩ → d'.HasDiff u := by
    rintro u (hu | hu)
    · cases hu
      rcases hs with ⟨_, h1, rfl⟩ | ⟨h1, _⟩
      · exact ⟨.empty, by simp [Disk.setLayer]⟩
      · cases h1
    · cases hu
      obtain ⟨rfl, ⟨_, h1⟩ | ⟨h1, _⟩⟩ := hs
      · exact h1
      · cases h1
  have hproc : ∀ {j q}, upd w.procs i (some ⟨p.start, ⟨c, x⟩ :: p.tr, k x⟩) j = some q →
      (j = i ∧ q = ⟨p.start, ⟨c, x⟩ :: p.tr, k x⟩) ∨ (j ≠ i ∧ w.procs j = some q) := by
    intro j q hq
    by_cases hj : j = i
    · subst hj; simp only [upd_self, Option.some.injEq] at hq; exact Or.inl ⟨rfl, hq.symm⟩
    · rw [upd_ne _ _ hj] at hq; exact Or.inr ⟨hj, hq⟩
  have howned : ∀ j q u n m, upd w.procs i (some ⟨p.start, ⟨c, x⟩ :: p.tr, k x⟩) j = some q → Made q.tr u → ¬ Mounted q.tr →
      d'.mnt n = some m → m.upper ≠ u := by
    intro j q u n m hq hu hn hm
    rcases eff_mnt he hm with hm' | ⟨hev, _, _⟩
    · rcases hproc hq with ⟨_, rfl⟩ | ⟨_, hq⟩
      · rcases made_cons.1 hu with h1 | h1
        · intro heq
          obtain ⟨c0, hc0⟩ := h.live n m hm' m.upper (by simp)
          rw [heq, (hnew h1).1] at hc0; cases hc0
        · exact h.owned i p u n m hp h1 (fun hmm => hn (mounted_mono hmm)) hm'
      · exact h.owned j q u n m hq hu hn hm'
    · rcases hproc hq with ⟨_, rfl⟩ | ⟨hj, hq'⟩
      · exact absurd ⟨n, m.upper, m.lowers, true, by rw [hev]; simp⟩ hn
      · intro heq
        cases hev
        exact hj (h.excl j i q p u hq' hp hu (heq ▸ hg.1))
  constructor
  · intro j q hq
    rcases hproc hq with ⟨_, rfl⟩ | ⟨_, hq⟩
    · exact hsafe x trivial
    · exact h.safe j q hq
  · intro j q u hq hu
    rcases hproc hq with ⟨_, rfl⟩ | ⟨_, hq⟩
    · rcases made_cons.1 hu with h1 | h1
      · rw [(hnew h1).2]; simp
      · exact eff_exists he (h.made i p u hp h1)
    · exact eff_exists he (h.made j q u hq hu)
  · intro j q u hq hu
    rcases hproc hq with ⟨_, rfl⟩ | ⟨_, hq⟩
    · rcases made_cons.1 hu with h1 | h1
      · have := (hnew h1).1
        cases hst : p.start.layer u with
        | none => rfl
        | some y => exact absurd this (h.grows i p u hp (by rw [hst]; simp))
      · exact h.fresh i p u hp h1
    · exact h.fresh j q u hq hu
  · intro j q u hq hu
    rcases hproc hq with ⟨_, rfl⟩ | ⟨_, hq⟩
    · exact eff_exists he (h.grows i p u hp hu)
    · exact eff_exists he (h.grows j q u hq hu)
  · intro j j' q q' u hq hq' hu hu'
    rcases hproc hq with ⟨hj, rfl⟩ | ⟨hj, hq1⟩ <;> rcases hproc hq' with ⟨hj', rfl⟩ | ⟨hj', hq1'⟩
    · rw [hj, hj']
    · rcases made_cons.1 hu with h1 | h1
      · exact absurd (hnew h1).1 (h.made j' q' u hq1' hu')
      · rw [hj]; exact h.excl _ _ _ _ u hp hq1' h1 hu'
    · rcases made_cons.1 hu' with h1 | h1
      · exact absurd (hnew h1).1 (h.made j q u hq1 hu)
      · rw [hj']; exact h.excl _ _ _ _ u hq1 hp hu h1
    · exact h.excl j j' q q' u hq1 hq1' hu hu'
  · intro j q u hq hu
    rcases hproc hq with ⟨_, rfl⟩ | ⟨_, hq⟩
    · rcases hu with hu | hu
      · rcases List.mem_cons.1 hu with h1 | h1
        · exact hbase (Or.inl h1.symm)
        · exact eff_hasDiff he (h.based i p u hp (Or.inl h1))
      · rcases List.mem_cons.1 hu with h1 | h1
        · exact hbase (Or.inr h1.symm)
        · exact eff_hasDiff he (h.based i p u hp (Or.inr h1))
    · exact eff_hasDiff he (h.based j q u hq hu)
  · intro j q n u ls y hq hu
    rcases hproc hq with ⟨_, rfl⟩ | ⟨_, hq⟩
    · rcases List.mem_cons.1 hu with h1 | h1
      · cases h1; exact List.mem_cons_of_mem _ hg.1
      · exact List.mem_cons_of_mem _ (h.mounts i p n u ls y hp h1)
    · exact h.mounts j q n u ls y hq hu
  · intro n m hm v hv
    rcases eff_mnt he hm with hm' | ⟨_, _, hd⟩
    · exact eff_hasDiff he (h.live n m hm' v hv)
    · exact eff_hasDiff he (hd v hv)
  · exact howned
  · intro n n' m m' hm hm' heq
    rcases eff_mnt he hm with h1 | ⟨h1, _, _⟩ <;> rcases eff_mnt he hm' with h2 | ⟨h2, _, _⟩
    · exact h.uniq n n' m m' h1 h2 heq
    · cases h2; exact absurd heq (h.owned i p _ n m hp hg.1 hg.2.2.2.2 h1)
    · cases h1; exact absurd heq.symm (h.owned i p _ n' m' hp hg.1 hg.2.2.2.2 h2)
    · rw [h1] at h2; injection h2 with h3 _; injection h3
  · intro j q u c' hq hu hn hc
    rcases eff_layer he u with h1 | ⟨h1, _, h2⟩ | ⟨h1, h2, h3⟩ | ⟨n, m, c1, h1, h2, h3, _⟩
    · rw [h1] at hc
      rcases hproc hq with ⟨_, rfl⟩ | ⟨_, hq⟩
      · rcases made_cons.1 hu with h2 | h2
        · rw [(hnew h2).1] at hc; cases hc
        · exact h.blank i p u c' hp h2 (fun hmm => hn (mounted_mono hmm)) hc
      · exact h.blank j q u c' hq hu hn hc
    · rw [h2] at hc; cases hc
    · rw [h3] at hc; cases hc; rfl
    · rcases hproc hq with ⟨_, rfl⟩ | ⟨_, hq⟩
      · rcases made_cons.1 hu with h4 | h4
        · obtain ⟨c0, hc0⟩ := h3
          rw [(hnew h4).1] at hc0; cases hc0
        · exact absurd h2 (h.owned i p u n m hp h4 (fun hmm => hn (mounted_mono hmm)) h1)
      · exact absurd h2 (h.owned j q u n m hq hu hn h1)

theorem inv_sub {E : Env} {w : World} {procs : Nat → Option Proc} (h : Inv E w)
    (hs : ∀ i p, procs i = some p → w.procs i = some p ∨ (p.tr = [] ∧ p.start = w.disk ∧
      twp AnyAns (Guard E) p.prog (onOk fun o tr => OutOk tr o) p.tr)) : Inv E ⟨w.disk, procs⟩ := by
  have hnil : ∀ {p : Proc} {u}, p.tr = [] → ¬ Made p.tr u := by intro p u hp hm; rw [hp] at hm; cases hm
  constructor
  · intro i p hp
    rcases hs i p hp with h1 | ⟨_, _, h1⟩
    · exact h.safe i p h1
    · exact h1
  · intro i p u hp hu
    rcases hs i p hp with h1 | ⟨h1, _⟩
    · exact h.made i p u h1 hu
    · exact absurd hu (hnil h1)
  · intro i p u hp hu
    rcases hs i p hp with h1 | ⟨h1, _⟩
    · exact h.fresh i p u h1 hu
    · exact absurd hu (hnil h1)
  · intro i p u hp hu
    rcases hs i p hp with h1 | ⟨_, h1, _⟩
    · exact h.grows i p u h1 hu
    · rw [h1] at hu; exact hu
  · intro i j p q u hp hq hu hu'
    rcases hs i p hp with h1 | ⟨h1, _⟩
    · rcases hs j q hq with h2 | ⟨h2, _⟩
      · exact h.excl i j p q u h1 h2 hu hu'
      · exact absurd hu' (hnil h2)
    · exact absurd hu (hnil h1)
  · intro i p u hp hu
    rcases hs i p hp with h1 | ⟨h1, _⟩
    · exact h.based i p u h1 hu
    · rcases hu with hu | hu <;> (rw [h1] at hu; cases hu)
  · intro i p n u ls x hp hu
    rcases hs i p hp with h1 | ⟨h1, _⟩
    · exact h.mounts i p n u ls x h1 hu
    · rw [h1] at hu; cases hu
  · exact h.live
  · intro i p u n m hp hu hn
    rcases hs i p hp with h1 | ⟨h1, _⟩
    · exact h.owned i p u n m h1 hu hn
    · exact absurd hu (hnil h1)
  · exact h.uniq
  · intro i p u c hp hu hn
    rcases hs i p hp with h1 | ⟨h1, _⟩
    · exact h.blank i p u c h1 hu hn
    · exact absurd hu (hnil h1)

theorem sub_start {E : Env} {w : World} {i : Nat} {c : Command} (j : Nat) (p : Proc)
    (h : upd w.procs i (some ⟨w.disk, [], c.prog E⟩) j = some p) : w.procs j = some p ∨ (p.tr = [] ∧ p.start = w.disk ∧
      twp AnyAns (Guard E) p.prog (onOk fun o tr => OutOk tr o) p.tr) := by
  by_cases hj : j = i
  · subst hj
    simp only [upd_self, Option.some.injEq] at h
    subst h
    exact Or.inr ⟨rfl, rfl, command_guard E c⟩
  · rw [upd_ne _ _ hj] at h; exact Or.inl h

theorem sub_kill {w : World} {i j : Nat} {p : Proc} (h : upd w.procs i none j = some p) : w.procs j = some p := by
  by_cases hj : j = i
  · subst hj; simp at h
  · rwa [upd_ne _ _ hj] at h

theorem inv_next {E : Env} {f : Faults} {w w' : World} (h : Inv E w) (hn : Sys.Next E f w w') : Inv E w' := by
  cases hn with
  | start i c hi => exact inv_sub h fun j p hp => sub_start j p hp
  | run hp hk hs => exact inv_run h hp hk hs
  | kill i => exact inv_sub h fun j p hp => Or.inl (sub_kill hp)
  | outside ho =>
    rcases outside_effect ho with he | ⟨n, he⟩
    · exact inv_outside h he (Or.inl rfl)
    · exact inv_outside h he (Or.inr ⟨n, rfl⟩)

theorem inv_steps {E : Env} {f : Faults} {w w' : World} (h : Inv E w) (hs : Sys.Steps E f w w') : Inv E w' := by
  induction hs with
  | refl => exact h
  | step _ hn ih => exact inv_next ih hn

/-! ## Layers that nobody can write any more -/

/-- The layer has content, is the upper layer of no mount, and no running command can make it one. -/
structure Settled (w : World) (u : UID) : Prop where
  has : w.disk.HasDiff u
  idle : ∀ n m, w.disk.mnt n = some m → m.upper ≠ u
  free : ∀ i p, w.procs i = some p → Made p.tr u → Mounted p.tr

theorem settled_effect {w : World} {u : UID} {e : Ev} {d' : Disk} (h : Settled w u) (he : Effect e w.disk d') :
    d'.layer u = w.disk.layer u := by
  obtain ⟨c, hc⟩ := h.has
  rcases eff_layer he u with h1 | ⟨_, h1, _⟩ | ⟨_, h1, _⟩ | ⟨n, m, _, h1, h2, _⟩
  · exact h1
  · rw [hc] at h1; cases h1
  · rw [hc] at h1; cases h1
  · exact absurd h2 (h.idle n m h1)

theorem settled_next {E : Env} {f : Faults} {w w' : World} {u : UID} (hi : Inv E w) (h : Settled w u) (hn : Sys.Next E f w w') :
    Settled w' u ∧ w'.disk.layer u = w.disk.layer u := by
  cases hn with
  | start i c h0 =>
    refine ⟨⟨h.has, h.idle, fun j p hp hu => ?_⟩, rfl⟩
    rcases sub_start j p hp with h1 | ⟨h1, _⟩
    · exact h.free j p h1 hu
    · rw [h1] at hu; cases hu
  | kill i => exact ⟨⟨h.has, h.idle, fun j p hp hu => h.free j p (sub_kill hp) hu⟩, rfl⟩
  | outside ho =>
    have key : ∀ {e : Ev} {d' : Disk}, Effect e w.disk d' → (e = ⟨.sys .getwd, true⟩ ∨ ∃ n, e = ⟨.umount n, true⟩) →
        Settled ⟨d', w.procs⟩ u ∧ d'.layer u = w.disk.layer u := by
      intro e d' he hq
      refine ⟨⟨eff_hasDiff he h.has, fun n m hm => ?_, h.free⟩, settled_effect h he⟩
      rcases eff_mnt he hm with h1 | ⟨h1, _⟩
      · exact h.idle n m h1
      · rcases hq with rfl | ⟨k, rfl⟩ <;> cases h1
    rcases outside_effect ho with he | ⟨n, he⟩
    · exact key he (Or.inl rfl)
    · exact key he (Or.inr ⟨n, rfl⟩)
  | @run i p c k x d' _ hp hk hs =>
    have he := step_effect hs
    have hg : Guard E p.tr c := by
      have := hi.safe i p hp
      rw [hk] at this
      exact this.1
    refine ⟨⟨eff_hasDiff he h.has, fun n m hm => ?_, fun j q hq hu => ?_⟩, settled_effect h he⟩
    · rcases eff_mnt he hm with h1 | ⟨h1, _⟩
      · exact h.idle n m h1
      · cases h1
        rintro rfl
        exact hg.2.2.2.2 (h.free i p hp hg.1)
    · by_cases hj : j = i
      · subst hj
        simp only [upd_self, Option.some.injEq] at hq
        subst hq
        rcases made_cons.1 hu with h1 | h1
        · cases h1
          rcases hs with ⟨_, h1, _⟩ | ⟨h1, _⟩
          · obtain ⟨c, hc⟩ := h.has
            rw [h1] at hc; cases hc
          · cases h1
        · exact mounted_mono (h.free j p hp h1)
      · simp only [upd_ne _ _ hj] at hq
        exact h.free j q hq hu

theorem settled_steps {E : Env} {f : Faults} {w w' : World} {u : UID} (hi : Inv E w) (h : Settled w u) (hs : Sys.Steps E f w w') :
    Settled w' u ∧ w'.disk.layer u = w.disk.layer u := by
  induction hs with
  | refl => exact ⟨h, rfl⟩
  | step hs hn ih =>
    have := settled_next (inv_steps hi hs) ih.1 hn
    exact ⟨this.1, this.2.trans ih.2⟩

end Verif
