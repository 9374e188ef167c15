import Verif.World.Local
/-!
# Commands that use different parts of the disk

Programs that run at the same time, each within a part of the disk of its own, do what they do one after another, in any order.
-/
set_option autoImplicit false
namespace Verif
open M TS Json

section
variable {α β : Type}

/-! ## Runs of one program -/

/-- `Runs E p d q e`: run alone from `d`, the program `p` can come to `q` when the disk is `e`. -/
inductive Runs (E : Env) : Prog α → Disk → Prog α → Disk → Prop where
  | refl (p : Prog α) (d : Disk) : Runs E p d p d
  | step {p : Prog α} {c : Cmd} {k : c.Ans → Prog α} {d e e' : Disk} {x : c.Ans} :
      Runs E p d (.op c k) e → Step E Faults.none c e x e' → Runs E p d (k x) e'

/-- A run to the end is an execution. -/
theorem exec_of_runs {E : Env} {p : Prog α} {d e : Disk} {a : α} (h : Runs E p d (.ret a) e) : Exec E Faults.none p d a e := by
  suffices H : ∀ (q : Prog α) e1, Runs E p d q e1 → Exec E Faults.none q e1 a e → Exec E Faults.none p d a e from H _ _ h (.ret _ _)
  clear h
  intro q e1 h1
  induction h1 with
  | refl => exact _root_.id
  | step _ hs ih => exact fun hx => ih (Exec.op hs hx)

/-- A run with its calls, each of which satisfies the guard. -/
inductive LRun (E : Env) (z : Zone) (L : UID → Prop) (p : Prog α) (d : Disk) : Trace → Prog α → Disk → Prop where
  | refl : LRun E z L p d [] p d
  | step {tr : Trace} {c : Cmd} {k : c.Ans → Prog α} {e e' : Disk} {x : c.Ans} :
      LRun E z L p d tr (.op c k) e → Inner E z L tr c → Step E Faults.none c e x e' → LRun E z L p d (⟨c, x⟩ :: tr) (k x) e'

/-- Each call of a run of the program alone satisfies the guard, and `Q` holds at the end. -/
def gwp (E : Env) (G : Trace → Cmd → Prop) : Prog α → (α → Trace → Disk → Prop) → Trace → Disk → Prop
  | .ret a, Q, tr, d => Q a tr d
  | .op c k, Q, tr, d => G tr c ∧ ∀ x d', Step E Faults.none c d x d' → gwp E G (k x) Q (⟨c, x⟩ :: tr) d'

/-! ## Programs at the same time -/

variable {ι : Type} [DecidableEq ι]

/-- `Together F ps d qs e`: the programs `ps` run at the same time from `d`, the `i`-th as a command of the user of `F i`, and come to `qs`
when the disk is `e`. Between any two calls of one the others make any number of calls. -/
inductive Together (F : ι → Env) (ps : ι → Prog α) (d : Disk) : (ι → Prog α) → Disk → Prop where
  | refl : Together F ps d ps d
  | step {qs : ι → Prog α} {e e' : Disk} {i : ι} {c : Cmd} {k : c.Ans → Prog α} {x : c.Ans} :
      Together F ps d qs e → qs i = .op c k → Step (F i) Faults.none c e x e' → Together F ps d (upd qs i (k x)) e'

/-- `InTurn F ps qs l d e`: of the programs `ps` those with the numbers `l` run one after another from `d`, each as far as to `qs`. -/
inductive InTurn (F : ι → Env) (ps qs : ι → Prog α) : List ι → Disk → Disk → Prop where
  | nil (d : Disk) : InTurn F ps qs [] d d
  | cons {i : ι} {l : List ι} {d d1 e : Disk} : Runs (F i) (ps i) d (qs i) d1 → InTurn F ps qs l d1 e → InTurn F ps qs (i :: l) d e

/-- The disks have the same in every respect, and the same IDs have been drawn. -/
structure Same (d e : Disk) : Prop where
  layer : d.layer = e.layer
  space : d.space = e.space
  mdir : d.mdir = e.mdir
  info : d.info = e.info
  mnt : d.mnt = e.mnt
  user : d.user = e.user
  used : ∀ u, u ∈ d.used ↔ u ∈ e.used

/-- No new ID has a name of the zone: it names IDs that have been drawn, or no IDs. -/
def Zone.Old (z : Zone) (d : Disk) : Prop := (∀ u : UID, z.space u.base32 → u ∈ d.used) ∧ ∀ u : UID, z.mount u.base32 → u ∈ d.used

/-- The zones have nothing in common. -/
structure Zone.Apart (y z : Zone) : Prop where
  space : ∀ n, y.space n → ¬ z.space n
  mount : ∀ n, y.mount n → ¬ z.mount n
  path : ∀ p, y.path p → ¬ z.path p

/-- Where one of several programs is, run alone. -/
structure Solo (E : Env) (z : Zone) (L : UID → Prop) (p : Prog α) (d0 : Disk) (tr : Trace) (q : Prog α) (e : Disk) : Prop where
  run : LRun E z L p d0 tr q e
  rest : gwp E (Inner E z L) q (fun _ _ _ => True) tr e
  home : Homely E z tr e
  keep : Spares z tr d0 e
  used : ∀ u, u ∈ e.used ↔ u ∈ d0.used ∨ Drew tr u
  new : ∀ u, Drew tr u → u ∉ d0.used
  diff : ∀ u, L u → e.HasDiff u

theorem agree_symm {z : Zone} {tr : Trace} {d e : Disk} (h : Agree z tr d e) : Agree z tr e d :=
  ⟨fun n hn => (h.space n hn).symm, fun n hn => (h.mdir n hn).symm, fun n hn => (h.info n hn).symm, fun n hn => (h.mnt n hn).symm,
    fun n hn => (h.user n hn).symm, fun n hn => (h.layer n hn).symm⟩

theorem agree_trans {z : Zone} {tr : Trace} {d e e' : Disk} (h : Agree z tr d e) (h' : Agree z tr e e') : Agree z tr d e' :=
  ⟨fun n hn => (h.space n hn).trans (h'.space n hn), fun n hn => (h.mdir n hn).trans (h'.mdir n hn), fun n hn => (h.info n hn).trans (h'.info n hn),
    fun n hn => (h.mnt n hn).trans (h'.mnt n hn), fun n hn => (h.user n hn).trans (h'.user n hn), fun n hn => (h.layer n hn).trans (h'.layer n hn)⟩

theorem agree_refl (z : Zone) (tr : Trace) (d : Disk) : Agree z tr d d :=
  ⟨fun _ _ => rfl, fun _ _ => rfl, fun _ _ => rfl, fun _ _ => rfl, fun _ _ => rfl, fun _ _ => rfl⟩

theorem spaces_mono {z : Zone} {tr : Trace} {ev : Ev} {n : Str} (h : z.spaces tr n) : z.spaces (ev :: tr) n :=
  h.imp _root_.id fun ⟨u, hu, he⟩ => ⟨u, (drew_cons u).2 (Or.inr hu), he⟩
theorem mounts_mono {z : Zone} {tr : Trace} {ev : Ev} {n : Str} (h : z.mounts tr n) : z.mounts (ev :: tr) n :=
  h.imp _root_.id fun ⟨u, hu, he⟩ => ⟨u, (drew_cons u).2 (Or.inr hu), he⟩

theorem keeps_trans {z : Zone} {tr : Trace} {ev : Ev} {d e e' : Disk} (h : Spares z tr d e) (h' : Spares z (ev :: tr) e e') : Spares z (ev :: tr) d e' :=
  ⟨fun n hn => (h'.space n hn).trans (h.space n fun x => hn (spaces_mono x)), fun n hn => (h'.mdir n hn).trans (h.mdir n fun x => hn (mounts_mono x)),
    fun n hn => (h'.info n hn).trans (h.info n fun x => hn (mounts_mono x)), fun n hn => (h'.mnt n hn).trans (h.mnt n fun x => hn (mounts_mono x)),
    fun n hn => (h'.user n hn).trans (h.user n hn), fun n hn => (h'.layer n hn).trans (h.layer n fun x => hn ((drew_cons n).2 (Or.inr x)))⟩

/-- An ID that has not been drawn names nothing in a zone. -/
theorem fresh_outside {z : Zone} {tr : Trace} {d : Disk} {u : UID} (hz : z.Old d) (h1 : u ∉ d.used) (h2 : ¬ Drew tr u) :
    ¬ z.spaces tr u.base32 ∧ ¬ z.mounts tr u.base32 := by
  refine ⟨?_, ?_⟩
  · rintro (h | ⟨v, hv, he⟩)
    · exact h1 (hz.1 u h)
    · exact h2 (base32_inj he ▸ hv)
  · rintro (h | ⟨v, hv, he⟩)
    · exact h1 (hz.2 u h)
    · exact h2 (base32_inj he ▸ hv)

theorem unused_mnt {d : Disk} (ht : Tracked d) {u : UID} (h : u ∉ d.used) : d.mnt u.base32 = none := by
  cases hm : d.mnt u.base32 with
  | none => rfl
  | some m =>
    obtain ⟨v, hv, he⟩ := ht.mnt u.base32 (by rw [hm]; simp)
    exact absurd (base32_inj he ▸ hv) h

/-- A step of a program alone, done also on another disk. -/
theorem solo_step {E : Env} {z : Zone} {L : UID → Prop} {p : Prog α} {d0 e d : Disk} {tr : Trace} {c : Cmd} {k : c.Ans → Prog α}
    (hS : Solo E z L p d0 tr (.op c k) e) {x : c.Ans} {d' : Disk} (hs : Step E Faults.none c d x d') (ha : Agree z tr d e) (hL : ∀ u, L u → d.HasDiff u)
    (hr : ∀ u, (⟨c, x⟩ : Ev) = ⟨.rand, u⟩ → u ∉ e.used ∧ d.space u.base32 = e.space u.base32 ∧ d.mdir u.base32 = e.mdir u.base32 ∧
      d.info u.base32 = e.info u.base32 ∧ d.mnt u.base32 = none ∧ e.mnt u.base32 = none ∧ d.layer u = e.layer u) :
    ∃ e', Solo E z L p d0 (⟨c, x⟩ :: tr) (k x) e' ∧ Agree z (⟨c, x⟩ :: tr) d' e' ∧ Spares z (⟨c, x⟩ :: tr) d d' ∧
      (∀ u, u ∈ d'.used ↔ u ∈ d.used ∨ (⟨c, x⟩ : Ev) = ⟨.rand, u⟩) ∧ ∀ u, d.HasDiff u → d'.HasDiff u := by
  obtain ⟨hg, hrest⟩ := hS.rest
  obtain ⟨e', he, ht⟩ := frame hs hg ha (homely_agree (agree_symm ha) hS.home) (fun u hu => ⟨hL u hu, hS.diff u hu⟩) hr
  refine ⟨e', ⟨.step hS.run hg he, hrest x e' he, homely_agree ht.agree ht.home, keeps_trans hS.keep ht.keepE, fun u => ?_, fun u hu => ?_,
    fun u hu => ht.diffE u (hS.diff u hu)⟩, ht.agree, ht.keepD, ht.usedD, ht.diffD⟩
  · rw [ht.usedE, hS.used, drew_cons]
    constructor
    · rintro ((h | h) | h)
      · exact Or.inl h
      · exact Or.inr (Or.inr h)
      · exact Or.inr (Or.inl h)
    · rintro (h | h | h)
      · exact Or.inl (Or.inl h)
      · exact Or.inr h
      · exact Or.inl (Or.inr h)
  · rcases (drew_cons u).1 hu with h | h
    · intro hx
      exact (hr u h).1 ((hS.used u).2 (Or.inl hx))
    · exact hS.new u h

/-- What holds while the programs run. -/
structure Weaving (F : ι → Env) (Z : ι → Zone) (L : UID → Prop) (ps : ι → Prog α) (d0 : Disk) (tr : ι → Trace) (qs : ι → Prog α) (es : ι → Disk) (d : Disk) :
    Prop where
  solo : ∀ i, Solo (F i) (Z i) L (ps i) d0 (tr i) (qs i) (es i)
  agree : ∀ i, Agree (Z i) (tr i) d (es i)
  used : ∀ u, u ∈ d.used ↔ u ∈ d0.used ∨ ∃ i, Drew (tr i) u
  one : ∀ i j u, Drew (tr i) u → Drew (tr j) u → i = j
  diff : ∀ u, L u → d.HasDiff u
  space : ∀ n, (∀ i, ¬ (Z i).spaces (tr i) n) → d.space n = d0.space n
  mdir : ∀ n, (∀ i, ¬ (Z i).mounts (tr i) n) → d.mdir n = d0.mdir n
  info : ∀ n, (∀ i, ¬ (Z i).mounts (tr i) n) → d.info n = d0.info n
  mnt : ∀ n, (∀ i, ¬ (Z i).mounts (tr i) n) → d.mnt n = d0.mnt n
  user : ∀ p, (∀ i, ¬ (Z i).path p) → d.user p = d0.user p
  layer : ∀ u, (∀ i, ¬ Drew (tr i) u) → d.layer u = d0.layer u

/-- What has the names of drawn IDs belongs to the one that drew them. -/
theorem zones_apart {y z : Zone} {d : Disk} (hy : y.Old d) (hz : z.Old d) (ha : y.Apart z) {t t' : Trace} (n1 : ∀ u, Drew t u → u ∉ d.used)
    (n2 : ∀ u, Drew t' u → u ∉ d.used) (hd : ∀ u, Drew t u → ¬ Drew t' u) :
    (∀ n, y.spaces t n → ¬ z.spaces t' n) ∧ ∀ n, y.mounts t n → ¬ z.mounts t' n := by
  refine ⟨?_, ?_⟩
  · rintro n (h | ⟨u, hu, rfl⟩) (h' | ⟨v, hv, he⟩)
    · exact ha.space n h h'
    · subst he; exact n2 v hv (hy.1 v h)
    · exact n1 u hu (hz.1 u h')
    · exact hd u hu (base32_inj he ▸ hv)
  · rintro n (h | ⟨u, hu, rfl⟩) (h' | ⟨v, hv, he⟩)
    · exact ha.mount n h h'
    · subst he; exact n2 v hv (hy.2 v h)
    · exact n1 u hu (hz.2 u h')
    · exact hd u hu (base32_inj he ▸ hv)

variable {F : ι → Env} {Z : ι → Zone} {L : UID → Prop} {ps : ι → Prog α} {d0 : Disk}

theorem weaving_step (ht : Tracked d0) (hold : ∀ i, (Z i).Old d0) (hap : ∀ i j, i ≠ j → (Z i).Apart (Z j)) {tr : ι → Trace} {qs : ι → Prog α}
    {es : ι → Disk} {d d' : Disk} (h : Weaving F Z L ps d0 tr qs es d) {i : ι} {c : Cmd} {k : c.Ans → Prog α} {x : c.Ans} (hq : qs i = .op c k)
    (hs : Step (F i) Faults.none c d x d') :
    ∃ es', Weaving F Z L ps d0 (upd tr i (⟨c, x⟩ :: tr i)) (upd qs i (k x)) es' d' := by
  have hS := h.solo i
  rw [hq] at hS
  have fresh : ∀ u, (⟨c, x⟩ : Ev) = ⟨.rand, u⟩ → u ∉ d.used := by
    intro u he
    cases he
    exact hs.1.resolve_right (by simp [Faults.none])
  have hr : ∀ u, (⟨c, x⟩ : Ev) = ⟨.rand, u⟩ → u ∉ (es i).used ∧ d.space u.base32 = (es i).space u.base32 ∧ d.mdir u.base32 = (es i).mdir u.base32 ∧
      d.info u.base32 = (es i).info u.base32 ∧ d.mnt u.base32 = none ∧ (es i).mnt u.base32 = none ∧ d.layer u = (es i).layer u := by
    intro u he
    have hu := fresh u he
    rw [h.used] at hu
    have h1 : u ∉ d0.used := fun hx => hu (Or.inl hx)
    have h2 : ∀ j, ¬ Drew (tr j) u := fun j hx => hu (Or.inr ⟨j, hx⟩)
    have h3 := fun j => fresh_outside (hold j) h1 (h2 j)
    have k1 := hS.keep
    refine ⟨fun hx => ?_, ?_, ?_, ?_, ?_, ?_, ?_⟩
    · rcases (hS.used u).1 hx with hx | hx
      · exact h1 hx
      · exact h2 i hx
    · rw [h.space _ fun j => (h3 j).1, k1.space _ (h3 i).1]
    · rw [h.mdir _ fun j => (h3 j).2, k1.mdir _ (h3 i).2]
    · rw [h.info _ fun j => (h3 j).2, k1.info _ (h3 i).2]
    · rw [h.mnt _ fun j => (h3 j).2]; exact unused_mnt ht h1
    · rw [k1.mnt _ (h3 i).2]; exact unused_mnt ht h1
    · rw [h.layer u h2, k1.layer u (h2 i)]
  obtain ⟨e', a1, a2, a3, a4, a5⟩ := solo_step hS hs (h.agree i) h.diff hr
  have ho : ∀ j, j ≠ i → ∀ u, Drew (⟨c, x⟩ :: tr i) u → ¬ Drew (tr j) u := by
    intro j hj u hu hx
    rcases (drew_cons u).1 hu with he | hu
    · exact fresh u he ((h.used u).2 (Or.inr ⟨j, hx⟩))
    · exact hj (h.one j i u hx hu)
  have hz : ∀ j, j ≠ i → (∀ n, (Z j).spaces (tr j) n → ¬ (Z i).spaces (⟨c, x⟩ :: tr i) n) ∧ ∀ n, (Z j).mounts (tr j) n → ¬ (Z i).mounts (⟨c, x⟩ :: tr i) n :=
    fun j hj => zones_apart (hold j) (hold i) (hap j i hj) (h.solo j).new a1.new fun u h1 h2 => ho j hj u h2 h1
  refine ⟨upd es i e', fun j => ?_, fun j => ?_, fun u => ?_, fun a b u ha hb => ?_, fun u hu => a5 u (h.diff u hu), fun n hn => ?_, fun n hn => ?_,
    fun n hn => ?_, fun n hn => ?_, fun p hp => ?_, fun u hu => ?_⟩
  · by_cases hj : j = i
    · subst hj; simp only [upd_self]; exact a1
    · simp only [upd_ne _ _ hj]; exact h.solo j
  · by_cases hj : j = i
    · subst hj; simp only [upd_self]; exact a2
    · simp only [upd_ne _ _ hj]
      obtain ⟨z1, z2⟩ := hz j hj
      have ha := h.agree j
      exact ⟨fun n hn => (a3.space n (z1 n hn)).trans (ha.space n hn), fun n hn => (a3.mdir n (z2 n hn)).trans (ha.mdir n hn),
        fun n hn => (a3.info n (z2 n hn)).trans (ha.info n hn), fun n hn => (a3.mnt n (z2 n hn)).trans (ha.mnt n hn),
        fun p hp => (a3.user p ((hap j i hj).path p hp)).trans (ha.user p hp), fun u hu => (a3.layer u fun hx => ho j hj u hx hu).trans (ha.layer u hu)⟩
  · rw [a4, h.used]
    constructor
    · rintro ((hx | ⟨j, hx⟩) | hx)
      · exact Or.inl hx
      · refine Or.inr ⟨j, ?_⟩
        by_cases hj : j = i
        · subst hj; rw [upd_self]; exact (drew_cons u).2 (Or.inr hx)
        · rw [upd_ne _ _ hj]; exact hx
      · exact Or.inr ⟨i, by rw [upd_self]; exact (drew_cons u).2 (Or.inl hx)⟩
    · rintro (hx | ⟨j, hx⟩)
      · exact Or.inl (Or.inl hx)
      · by_cases hj : j = i
        · subst hj
          rw [upd_self] at hx
          rcases (drew_cons u).1 hx with hx | hx
          · exact Or.inr hx
          · exact Or.inl (Or.inr ⟨j, hx⟩)
        · rw [upd_ne _ _ hj] at hx
          exact Or.inl (Or.inr ⟨j, hx⟩)
  · by_cases h1 : a = i
    · by_cases h2 : b = i
      · rw [h1, h2]
      · subst h1
        rw [upd_self] at ha
        rw [upd_ne _ _ h2] at hb
        exact absurd hb (ho b h2 u ha)
    · rw [upd_ne _ _ h1] at ha
      by_cases h2 : b = i
      · subst h2
        rw [upd_self] at hb
        exact absurd ha (ho a h1 u hb)
      · rw [upd_ne _ _ h2] at hb
        exact h.one a b u ha hb
  all_goals
    first
    | have hi := hn i
    | have hi := hp i
    | have hi := hu i
    try simp only [upd_self] at hi
  · refine (a3.space n hi).trans (h.space n fun j hx => ?_)
    by_cases hj : j = i
    · subst hj; exact hi (spaces_mono hx)
    · exact hn j (by rw [upd_ne _ _ hj]; exact hx)
  · refine (a3.mdir n hi).trans (h.mdir n fun j hx => ?_)
    by_cases hj : j = i
    · subst hj; exact hi (mounts_mono hx)
    · exact hn j (by rw [upd_ne _ _ hj]; exact hx)
  · refine (a3.info n hi).trans (h.info n fun j hx => ?_)
    by_cases hj : j = i
    · subst hj; exact hi (mounts_mono hx)
    · exact hn j (by rw [upd_ne _ _ hj]; exact hx)
  · refine (a3.mnt n hi).trans (h.mnt n fun j hx => ?_)
    by_cases hj : j = i
    · subst hj; exact hi (mounts_mono hx)
    · exact hn j (by rw [upd_ne _ _ hj]; exact hx)
  · exact (a3.user p hi).trans (h.user p hp)
  · refine (a3.layer u hi).trans (h.layer u fun j hx => ?_)
    by_cases hj : j = i
    · subst hj; exact hi ((drew_cons u).2 (Or.inr hx))
    · exact hu j (by rw [upd_ne _ _ hj]; exact hx)

theorem drew_nil {u : UID} (h : Drew [] u) : False := List.not_mem_nil h

theorem weaving_start (hg : ∀ i, gwp (F i) (Inner (F i) (Z i) L) (ps i) (fun _ _ _ => True) [] d0) (hh : ∀ i, Homely (F i) (Z i) [] d0)
    (hL : ∀ u, L u → d0.HasDiff u) : Weaving F Z L ps d0 (fun _ => []) ps (fun _ => d0) d0 :=
  ⟨fun i => ⟨.refl, hg i, hh i, keeps_refl _ _ _, fun _ => ⟨Or.inl, fun h => h.resolve_right drew_nil⟩, fun _ h => (drew_nil h).elim, hL⟩, fun i => agree_refl _ _ _,
    fun _ => ⟨Or.inl, fun h => h.resolve_right fun ⟨_, h⟩ => drew_nil h⟩, fun _ _ _ h => (drew_nil h).elim, hL, fun _ _ => rfl, fun _ _ => rfl,
    fun _ _ => rfl, fun _ _ => rfl, fun _ _ => rfl, fun _ _ => rfl⟩

theorem weaving (ht : Tracked d0) (hold : ∀ i, (Z i).Old d0) (hap : ∀ i j, i ≠ j → (Z i).Apart (Z j))
    (hg : ∀ i, gwp (F i) (Inner (F i) (Z i) L) (ps i) (fun _ _ _ => True) [] d0) (hh : ∀ i, Homely (F i) (Z i) [] d0) (hL : ∀ u, L u → d0.HasDiff u)
    {qs : ι → Prog α} {d : Disk} (h : Together F ps d0 qs d) : ∃ tr es, Weaving F Z L ps d0 tr qs es d := by
  induction h with
  | refl => exact ⟨_, _, weaving_start hg hh hL⟩
  | step _ hq hs ih =>
    obtain ⟨tr, es, hw⟩ := ih
    obtain ⟨es', hw'⟩ := weaving_step ht hold hap hw hq hs
    exact ⟨_, es', hw'⟩

/-! ## One after another -/

/-- A run alone can be done on every disk that has the same in the zone. -/
theorem transfer {E : Env} {z : Zone} {p q : Prog α} {tr : Trace} {e s : Disk} (ht : Tracked d0) (hold : z.Old d0) (hrun : LRun E z L p d0 tr q e)
    (hh : Homely E z [] d0) (ha : Agree z [] d0 s) (hL : ∀ u, L u → d0.HasDiff u) (hL' : ∀ u, L u → s.HasDiff u)
    (hs : ∀ u, Drew tr u → u ∉ d0.used → u ∉ s.used ∧ s.space u.base32 = d0.space u.base32 ∧ s.mdir u.base32 = d0.mdir u.base32 ∧ s.info u.base32 = d0.info u.base32 ∧
      s.mnt u.base32 = d0.mnt u.base32 ∧ s.layer u = d0.layer u) :
    ∃ s', Runs E p s q s' ∧ Agree z tr e s' ∧ Spares z tr s s' ∧ (∀ u, u ∈ s'.used ↔ u ∈ s.used ∨ Drew tr u) ∧ (∀ u, s.HasDiff u → s'.HasDiff u) ∧
      Homely E z tr e ∧ Spares z tr d0 e ∧ (∀ u, u ∈ e.used ↔ u ∈ d0.used ∨ Drew tr u) ∧ ∀ u, d0.HasDiff u → e.HasDiff u := by
  induction hrun with
  | refl => exact ⟨s, .refl _ _, ha, keeps_refl _ _ _, fun _ => ⟨Or.inl, fun h => h.resolve_right drew_nil⟩, fun _ => _root_.id, hh, keeps_refl _ _ _,
      fun _ => ⟨Or.inl, fun h => h.resolve_right drew_nil⟩, fun _ => _root_.id⟩
  | @step tr c k e e1 x _ hg hstep ih =>
    obtain ⟨s1, b1, b2, b3, b4, b5, b6, b7, b8, b9⟩ := ih fun u hu => hs u ((drew_cons u).2 (Or.inr hu))
    obtain ⟨s2, c1, c2⟩ := frame hstep hg b2 b6 (fun u hu => ⟨b9 u (hL u hu), b5 u (hL' u hu)⟩) (by
      intro u he
      have hu : u ∉ e.used := by cases he; exact hstep.1.resolve_right (by simp [Faults.none])
      rw [b8] at hu
      have h1 : u ∉ d0.used := fun hx => hu (Or.inl hx)
      have h2 : ¬ Drew tr u := fun hx => hu (Or.inr hx)
      obtain ⟨h3, h4⟩ := fresh_outside hold h1 h2
      obtain ⟨g1, g2, g3, g4, g5, g6⟩ := hs u ((drew_cons u).2 (Or.inl he)) h1
      refine ⟨fun hx => ?_, ?_, ?_, ?_, ?_, ?_, ?_⟩
      · rcases (b4 u).1 hx with hx | hx
        · exact g1 hx
        · exact h2 hx
      · rw [b7.space _ h3, b3.space _ h3, g2]
      · rw [b7.mdir _ h4, b3.mdir _ h4, g3]
      · rw [b7.info _ h4, b3.info _ h4, g4]
      · rw [b7.mnt _ h4]; exact unused_mnt ht h1
      · rw [b3.mnt _ h4, g5]; exact unused_mnt ht h1
      · rw [b7.layer u h2, b3.layer u h2, g6])
    have hu : ∀ {a b : Disk}, (∀ u, u ∈ a.used ↔ u ∈ b.used ∨ Drew tr u) → ∀ {a' : Disk}, (∀ u, u ∈ a'.used ↔ u ∈ a.used ∨ (⟨c, x⟩ : Ev) = ⟨.rand, u⟩) →
        ∀ u, u ∈ a'.used ↔ u ∈ b.used ∨ Drew (⟨c, x⟩ :: tr) u := by
      intro a b ha a' ha' u
      rw [ha', ha, drew_cons]
      constructor
      · rintro ((h | h) | h)
        · exact Or.inl h
        · exact Or.inr (Or.inr h)
        · exact Or.inr (Or.inl h)
      · rintro (h | h | h)
        · exact Or.inl (Or.inl h)
        · exact Or.inr h
        · exact Or.inl (Or.inr h)
    exact ⟨s2, .step b1 c1, c2.agree, keeps_trans b3 c2.keepE, hu b4 c2.usedE, fun u h => c2.diffE u (b5 u h), c2.home, keeps_trans b7 c2.keepD, hu b8 c2.usedD,
      fun u h => c2.diffD u (b9 u h)⟩

/-- What holds when the programs with the numbers `l` have run one after another. -/
structure Lined (Z : ι → Zone) (L : UID → Prop) (d0 : Disk) (tr : ι → Trace) (es : ι → Disk) (l : List ι) (s : Disk) : Prop where
  agree : ∀ i ∈ l, Agree (Z i) (tr i) (es i) s
  used : ∀ u, u ∈ s.used ↔ u ∈ d0.used ∨ ∃ i ∈ l, Drew (tr i) u
  diff : ∀ u, L u → s.HasDiff u
  space : ∀ n, (∀ i ∈ l, ¬ (Z i).spaces (tr i) n) → s.space n = d0.space n
  mdir : ∀ n, (∀ i ∈ l, ¬ (Z i).mounts (tr i) n) → s.mdir n = d0.mdir n
  info : ∀ n, (∀ i ∈ l, ¬ (Z i).mounts (tr i) n) → s.info n = d0.info n
  mnt : ∀ n, (∀ i ∈ l, ¬ (Z i).mounts (tr i) n) → s.mnt n = d0.mnt n
  user : ∀ p, (∀ i ∈ l, ¬ (Z i).path p) → s.user p = d0.user p
  layer : ∀ u, (∀ i ∈ l, ¬ Drew (tr i) u) → s.layer u = d0.layer u

theorem lined_step (ht : Tracked d0) (hold : ∀ i, (Z i).Old d0) (hap : ∀ i j, i ≠ j → (Z i).Apart (Z j)) (hh : ∀ i, Homely (F i) (Z i) [] d0)
    (hL : ∀ u, L u → d0.HasDiff u) {tr : ι → Trace} {qs : ι → Prog α} {es : ι → Disk} {d : Disk} (h : Weaving F Z L ps d0 tr qs es d) {l : List ι} {s : Disk}
    (hl : Lined Z L d0 tr es l s) {i : ι} (hi : i ∉ l) : ∃ s', Runs (F i) (ps i) s (qs i) s' ∧ Lined Z L d0 tr es (i :: l) s' := by
  have hz : ∀ j, j ≠ i → (∀ n, (Z j).spaces (tr j) n → ¬ (Z i).spaces (tr i) n) ∧ ∀ n, (Z j).mounts (tr j) n → ¬ (Z i).mounts (tr i) n :=
    fun j hj => zones_apart (hold j) (hold i) (hap j i hj) (h.solo j).new (h.solo i).new fun u h1 h2 => hj (h.one j i u h1 h2)
  have hne : ∀ j ∈ l, j ≠ i := fun j hj he => hi (he ▸ hj)
  have offs : ∀ n, (Z i).spaces (tr i) n → ∀ j ∈ l, ¬ (Z j).spaces (tr j) n := fun n hn j hj hx => (hz j (hne j hj)).1 n hx hn
  have offm : ∀ n, (Z i).mounts (tr i) n → ∀ j ∈ l, ¬ (Z j).mounts (tr j) n := fun n hn j hj hx => (hz j (hne j hj)).2 n hx hn
  have ha : Agree (Z i) [] d0 s := by
    refine ⟨fun n hn => ?_, fun n hn => ?_, fun n hn => ?_, fun n hn => ?_, fun p hp => ?_, fun u hu => (drew_nil hu).elim⟩
    · exact (hl.space n (offs n (Or.inl (hn.resolve_right fun ⟨_, hx, _⟩ => drew_nil hx)))).symm
    · exact (hl.mdir n (offm n (Or.inl (hn.resolve_right fun ⟨_, hx, _⟩ => drew_nil hx)))).symm
    · exact (hl.info n (offm n (Or.inl (hn.resolve_right fun ⟨_, hx, _⟩ => drew_nil hx)))).symm
    · exact (hl.mnt n (offm n (Or.inl (hn.resolve_right fun ⟨_, hx, _⟩ => drew_nil hx)))).symm
    · exact (hl.user p fun j hj hx => (hap j i (hne j hj)).path p hx hp).symm
  obtain ⟨s', b1, b2, b3, b4, b5, -, -, -, -⟩ := transfer ht (hold i) (h.solo i).run (hh i) ha hL hl.diff (by
    intro u hu hu0
    have h1 : ∀ j ∈ l, ¬ Drew (tr j) u := fun j hj hx => hne j hj (h.one j i u hx hu)
    refine ⟨fun hx => ?_, ?_, ?_, ?_, ?_, hl.layer u h1⟩
    · rcases (hl.used u).1 hx with hx | ⟨j, hj, hx⟩
      · exact hu0 hx
      · exact h1 j hj hx
    · exact hl.space _ (offs _ (Or.inr ⟨u, hu, rfl⟩))
    · exact hl.mdir _ (offm _ (Or.inr ⟨u, hu, rfl⟩))
    · exact hl.info _ (offm _ (Or.inr ⟨u, hu, rfl⟩))
    · exact hl.mnt _ (offm _ (Or.inr ⟨u, hu, rfl⟩)))
  refine ⟨s', b1, fun j hj => ?_, fun u => ?_, fun u hu => b5 u (hl.diff u hu), fun n hn => ?_, fun n hn => ?_, fun n hn => ?_, fun n hn => ?_, fun p hp => ?_, fun u hu => ?_⟩
  · rcases List.mem_cons.1 hj with rfl | hj
    · exact b2
    · have hx := hl.agree j hj
      obtain ⟨z1, z2⟩ := hz j (hne j hj)
      exact ⟨fun n hn => (hx.space n hn).trans (b3.space n (z1 n hn)).symm, fun n hn => (hx.mdir n hn).trans (b3.mdir n (z2 n hn)).symm,
        fun n hn => (hx.info n hn).trans (b3.info n (z2 n hn)).symm, fun n hn => (hx.mnt n hn).trans (b3.mnt n (z2 n hn)).symm,
        fun p hp => (hx.user p hp).trans (b3.user p ((hap j i (hne j hj)).path p hp)).symm,
        fun u hu => (hx.layer u hu).trans (b3.layer u fun hi' => hne j hj (h.one j i u hu hi')).symm⟩
  · rw [b4, hl.used]
    constructor
    · rintro ((hx | ⟨j, hj, hx⟩) | hx)
      · exact Or.inl hx
      · exact Or.inr ⟨j, List.mem_cons_of_mem _ hj, hx⟩
      · exact Or.inr ⟨i, List.mem_cons_self .., hx⟩
    · rintro (hx | ⟨j, hj, hx⟩)
      · exact Or.inl (Or.inl hx)
      · rcases List.mem_cons.1 hj with rfl | hj
        · exact Or.inr hx
        · exact Or.inl (Or.inr ⟨j, hj, hx⟩)
  · exact (b3.space n (hn i (List.mem_cons_self ..))).trans (hl.space n fun j hj => hn j (List.mem_cons_of_mem _ hj))
  · exact (b3.mdir n (hn i (List.mem_cons_self ..))).trans (hl.mdir n fun j hj => hn j (List.mem_cons_of_mem _ hj))
  · exact (b3.info n (hn i (List.mem_cons_self ..))).trans (hl.info n fun j hj => hn j (List.mem_cons_of_mem _ hj))
  · exact (b3.mnt n (hn i (List.mem_cons_self ..))).trans (hl.mnt n fun j hj => hn j (List.mem_cons_of_mem _ hj))
  · exact (b3.user p (hp i (List.mem_cons_self ..))).trans (hl.user p fun j hj => hp j (List.mem_cons_of_mem _ hj))
  · exact (b3.layer u (hu i (List.mem_cons_self ..))).trans (hl.layer u fun j hj => hu j (List.mem_cons_of_mem _ hj))

theorem lined_run (ht : Tracked d0) (hold : ∀ i, (Z i).Old d0) (hap : ∀ i j, i ≠ j → (Z i).Apart (Z j)) (hh : ∀ i, Homely (F i) (Z i) [] d0)
    (hL : ∀ u, L u → d0.HasDiff u) {tr : ι → Trace} {qs : ι → Prog α} {es : ι → Disk} {d : Disk} (h : Weaving F Z L ps d0 tr qs es d) :
    ∀ (l done : List ι) (s : Disk), Lined Z L d0 tr es done s → l.Nodup → (∀ i ∈ l, i ∉ done) →
      ∃ s' done', InTurn F ps qs l s s' ∧ Lined Z L d0 tr es done' s' ∧ (∀ i, i ∈ l ∨ i ∈ done → i ∈ done')
  | [], done, s, hl, _, _ => ⟨s, done, .nil s, hl, fun _ hi => hi.resolve_left List.not_mem_nil⟩
  | i :: l, done, s, hl, hn, hd => by
    obtain ⟨hi, hn⟩ := List.nodup_cons.1 hn
    obtain ⟨s1, g1, g2⟩ := lined_step ht hold hap hh hL h hl (hd i (List.mem_cons_self ..))
    obtain ⟨s2, done', g3, g4, g5⟩ := lined_run ht hold hap hh hL h l (i :: done) s1 g2 hn (by
      intro j hj hx
      rcases List.mem_cons.1 hx with rfl | hx
      · exact hi hj
      · exact hd j (List.mem_cons_of_mem _ hj) hx)
    refine ⟨s2, done', .cons g1 g3, g4, fun j hj => g5 j ?_⟩
    rcases hj with hj | hj
    · rcases List.mem_cons.1 hj with rfl | hj
      · exact Or.inr (List.mem_cons_self ..)
      · exact Or.inl hj
    · exact Or.inr (List.mem_cons_of_mem _ hj)

/-- Programs that use different parts of the disk and have run at the same time have done what they do one after another, in any order. -/
theorem in_turn (ht : Tracked d0) (hold : ∀ i, (Z i).Old d0) (hap : ∀ i j, i ≠ j → (Z i).Apart (Z j)) (hh : ∀ i, Homely (F i) (Z i) [] d0)
    (hL : ∀ u, L u → d0.HasDiff u) (hg : ∀ i, gwp (F i) (Inner (F i) (Z i) L) (ps i) (fun _ _ _ => True) [] d0) {qs : ι → Prog α} {d : Disk}
    (h : Together F ps d0 qs d) {l : List ι} (hn : l.Nodup) (hall : ∀ i, i ∈ l) : ∃ d', InTurn F ps qs l d0 d' ∧ Same d d' := by
  obtain ⟨tr, es, hw⟩ := weaving ht hold hap hg hh hL h
  obtain ⟨s, done, g1, g2, g3⟩ := lined_run ht hold hap hh hL hw l [] d0 ⟨fun i hi => (List.not_mem_nil hi).elim,
    fun u => ⟨Or.inl, fun hx => hx.resolve_right fun ⟨_, hj, _⟩ => List.not_mem_nil hj⟩, hL, fun _ _ => rfl, fun _ _ => rfl, fun _ _ => rfl, fun _ _ => rfl,
    fun _ _ => rfl, fun _ _ => rfl⟩ hn fun _ _ => List.not_mem_nil
  have hdone : ∀ i, i ∈ done := fun i => g3 i (Or.inl (hall i))
  refine ⟨s, g1, ?_, ?_, ?_, ?_, ?_, ?_, fun u => ?_⟩
  · funext u
    by_cases hx : ∃ i, Drew (tr i) u
    · obtain ⟨i, hi⟩ := hx
      rw [(hw.agree i).layer u hi, (g2.agree i (hdone i)).layer u hi]
    · rw [hw.layer u fun i hi => hx ⟨i, hi⟩, g2.layer u fun i _ hi => hx ⟨i, hi⟩]
  · funext n
    by_cases hx : ∃ i, (Z i).spaces (tr i) n
    · obtain ⟨i, hi⟩ := hx
      rw [(hw.agree i).space n hi, (g2.agree i (hdone i)).space n hi]
    · rw [hw.space n fun i hi => hx ⟨i, hi⟩, g2.space n fun i _ hi => hx ⟨i, hi⟩]
  · funext n
    by_cases hx : ∃ i, (Z i).mounts (tr i) n
    · obtain ⟨i, hi⟩ := hx
      rw [(hw.agree i).mdir n hi, (g2.agree i (hdone i)).mdir n hi]
    · rw [hw.mdir n fun i hi => hx ⟨i, hi⟩, g2.mdir n fun i _ hi => hx ⟨i, hi⟩]
  · funext n
    by_cases hx : ∃ i, (Z i).mounts (tr i) n
    · obtain ⟨i, hi⟩ := hx
      rw [(hw.agree i).info n hi, (g2.agree i (hdone i)).info n hi]
    · rw [hw.info n fun i hi => hx ⟨i, hi⟩, g2.info n fun i _ hi => hx ⟨i, hi⟩]
  · funext n
    by_cases hx : ∃ i, (Z i).mounts (tr i) n
    · obtain ⟨i, hi⟩ := hx
      rw [(hw.agree i).mnt n hi, (g2.agree i (hdone i)).mnt n hi]
    · rw [hw.mnt n fun i hi => hx ⟨i, hi⟩, g2.mnt n fun i _ hi => hx ⟨i, hi⟩]
  · funext p
    by_cases hx : ∃ i, (Z i).path p
    · obtain ⟨i, hi⟩ := hx
      rw [(hw.agree i).user p hi, (g2.agree i (hdone i)).user p hi]
    · rw [hw.user p fun i hi => hx ⟨i, hi⟩, g2.user p fun i _ hi => hx ⟨i, hi⟩]
  · rw [hw.used, g2.used]
    exact or_congr_right ⟨fun ⟨i, hi⟩ => ⟨i, hdone i, hi⟩, fun ⟨i, _, hi⟩ => ⟨i, hi⟩⟩

end
end Verif
