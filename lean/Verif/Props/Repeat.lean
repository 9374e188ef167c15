import Verif.Go.Rand
import Verif.World.Repeat
import Verif.World.Total
/-!
# C89: IDs of different commands

Every process seeds its generator with the time in nanoseconds, of which the generator keeps the residue modulo 2^31-1. So there
are at most 2^31-2 sequences of IDs. What saves the data is that directories are made with `os.Mkdir`, which fails if there is
one of that name.
-/
set_option autoImplicit false
namespace Verif
open M TS Json

/-! ## The generator -/

/-- **Violation.** Two processes that start a multiple of 2^31-1 nanoseconds (2.147483647 s) apart draw the same IDs. -/
theorem C89_violated_same_ids (cooked : Nat → UInt64) (t k : Int) (n : Nat) : idsFrom cooked (t + k * (2 ^ 31 - 1)) n = idsFrom cooked t n := by
  have : seedOf (t + k * (2 ^ 31 - 1)) = seedOf t := by
    have hm : int32max = 2 ^ 31 - 1 := rfl
    rw [seedOf_eq, seedOf_eq, ← hm, Int.add_mul_emod_self_right]
  unfold idsFrom newSource
  rw [this]

theorem nodup_length : ∀ (n : Nat) (l : List Nat), (∀ x ∈ l, x < n) → l.Nodup → l.length ≤ n := by
  intro n
  induction n with
  | zero =>
    intro l h _
    cases l with
    | nil => simp
    | cons x _ => exact absurd (h x (by simp)) (by omega)
  | succ n ih =>
    intro l h hn
    have h1 := ih (l.erase n) (fun x hx => by
      have hx' := (List.Nodup.mem_erase_iff hn).1 hx
      have := h x hx'.2
      have := hx'.1
      omega) (hn.erase n)
    by_cases hm : n ∈ l
    · have := List.length_erase_of_mem hm
      omega
    · rw [List.erase_of_not_mem hm] at h1; omega

/-- **Violation.** Of any 2^31-1 processes, two draw the same IDs. -/
theorem C89_violated_pigeonhole (cooked : Nat → UInt64) (ts : List Int) (h : 2 ^ 31 - 1 ≤ ts.length) :
    ∃ (i j : Nat) (hi : i < ts.length) (hj : j < ts.length), i < j ∧ ∀ n, idsFrom cooked ts[i] n = idsFrom cooked ts[j] n := by
  have hr : ∀ s, 1 ≤ seedOf s ∧ seedOf s < int32max := by
    intro s
    rw [seedOf_eq]
    have b0 := Int.emod_nonneg s (b := int32max) (by decide)
    have b1 := Int.emod_lt_of_pos s (b := int32max) (by decide)
    split
    · decide
    · omega
  have hd : ¬ (ts.map fun t => (seedOf t - 1).toNat).Nodup := by
    intro hn
    have := nodup_length (2 ^ 31 - 2) _ (fun x hx => by
      obtain ⟨t, _, rfl⟩ := List.mem_map.1 hx
      have := hr t
      simp only [int32max] at this
      omega) hn
    rw [List.length_map] at this
    omega
  rw [List.Nodup, List.pairwise_iff_getElem] at hd
  simp only [Classical.not_forall, Decidable.not_not] at hd
  obtain ⟨i, j, hi, hj, hij, he⟩ := hd
  rw [List.length_map] at hi hj
  refine ⟨i, j, hi, hj, hij, fun n => ?_⟩
  rw [List.getElem_map, List.getElem_map] at he
  have e : seedOf ts[i] = seedOf ts[j] := by
    have := hr ts[i]
    have := hr ts[j]
    omega
  unfold idsFrom newSource
  rw [e]

/-! ## What repeated IDs do -/

section
variable {E : Env} {f : Faults}

/-- **C89.** However IDs repeat and whatever else goes wrong: a command that makes something, and whose second ID - that of its first
layer - is in use, fails and changes nothing that was there. -/
theorem C89_used_layer_partial {c : Command} (hc : c.makes = true) {d d' : Disk} {r : Res CErr Out} (h : Exec E f (c.prog E) d r d') {us : List UID}
    (hu : d'.used = us.reverse ++ d.used) (hv : ∀ v, us[1]? = some v → d.layer v ≠ none) :
    (∀ o, r ≠ .ok o) ∧ (2 ≤ us.length → r = .err .mkdirLayer) ∧ Unharmed d d' := by
  obtain ⟨us', h1, _, h3⟩ := command_drawn hc h
  obtain rfl : us = us' := List.reverse_inj.1 (List.append_cancel_right (hu.symm.trans h1))
  rcases h3 with ⟨v, a, b, _⟩ | ⟨a, b, e⟩
  · exact absurd b (hv v a)
  · exact ⟨b, fun hl => e.resolve_left (by omega), a⟩

/-- The layers stay, whatever happens. -/
theorem steps_layer {w w' : World} (h : Sys.Steps E f w w') {v : UID} (hv : w.disk.layer v ≠ none) : w'.disk.layer v ≠ none := by
  induction h with
  | refl => exact hv
  | step _ hn ih =>
    cases hn with
    | start => exact ih
    | run _ _ hs => exact eff_exists (step_effect hs) ih
    | kill => exact ih
    | outside ho =>
      rcases outside_effect ho with h | ⟨n, h⟩
      · exact eff_exists h ih
      · exact eff_exists h ih

/-- **C89.** So of two commands whose generators give the same IDs, whatever happened between them, the second fails and changes
nothing that was there. -/
theorem C89_again_partial {f1 f2 : Faults} {c1 c2 : Command} (h1 : c1.makes = true) (h2 : c2.makes = true) {d0 d1 d2 : Disk} {o : Out} {r : Res CErr Out}
    (e1 : Exec E f1 (c1.prog E) d0 (.ok o) d1) {procs : Nat → Option Proc} {w : World} (hs : Sys.Steps E f ⟨d1, procs⟩ w)
    (e2 : Exec E f2 (c2.prog E) w.disk r d2) {ids us1 us2 : List UID} (u1 : d1.used = us1.reverse ++ d0.used) (u2 : d2.used = us2.reverse ++ w.disk.used)
    (p1 : us1 <+: ids) (p2 : us2 <+: ids) : (∀ o, r ≠ .ok o) ∧ (2 ≤ us2.length → r = .err .mkdirLayer) ∧ Unharmed w.disk d2 := by
  refine C89_used_layer_partial h2 e2 u2 fun v hv => ?_
  obtain ⟨us', a, _, b⟩ := command_drawn h1 e1
  obtain rfl : us1 = us' := List.reverse_inj.1 (List.append_cancel_right (u1.symm.trans a))
  rcases b with ⟨x, b1, _, b3⟩ | ⟨_, b2, _⟩
  · obtain ⟨t1, rfl⟩ := p1
    obtain ⟨t2, e⟩ := p2
    have hx : (us2 ++ t2)[1]? = (us1 ++ t1)[1]? := by rw [e]
    rw [List.getElem?_append_left (List.getElem?_eq_some_iff.1 hv).1, List.getElem?_append_left (List.getElem?_eq_some_iff.1 b1).1, hv, b1] at hx
    cases hx
    exact steps_layer hs b3
  · exact absurd rfl (b2 o)

/-- A run for any IDs that the generator may give. -/
theorem exec_drawing {α : Type} (p : Prog α) : ∀ (d : Disk) (r : RngSource), ∃ a d' n, Exec E ⟨false, false, true⟩ p d a d' ∧ d'.used = (r.ids n).reverse ++ d.used := by
  induction p with
  | ret a => exact fun d r => ⟨a, d, 0, .ret a d, rfl⟩
  | op c k ih =>
    intro d r
    by_cases hc : c = .rand
    · subst hc
      obtain ⟨a, d', n, he, hu⟩ := ih r.newUID.1 { d with used := r.newUID.1 :: d.used } r.newUID.2
      refine ⟨a, d', n + 1, .op (c := .rand) (x := r.newUID.1) ⟨Or.inr rfl, rfl⟩ he, ?_⟩
      rw [hu, RngSource.ids, List.reverse_cons, List.append_assoc]
      rfl
    · obtain ⟨x, d1, hs⟩ := step_total E ⟨false, false, true⟩ c d ⟨UID.new 0 0, Or.inr rfl⟩
      obtain ⟨a, d', n, he, hu⟩ := ih x d1 r
      exact ⟨a, d', n, .op hs he, by rw [hu, (step_used hs).2 hc]⟩

theorem ids_prefix : ∀ (n m : Nat) (r : RngSource), n ≤ m → r.ids n <+: r.ids m := by
  intro n
  induction n with
  | zero => exact fun m r _ => List.nil_prefix
  | succ n ih =>
    intro m r h
    obtain ⟨m, rfl⟩ : ∃ m', m = m' + 1 := ⟨m - 1, by omega⟩
    rw [RngSource.ids, RngSource.ids]
    exact (List.prefix_cons_inj _).2 (ih m _ (by omega))

/-- **Violation.** After a command that made something has succeeded, each command that is to make something and that starts a multiple of
2^31-1 nanoseconds after it fails, however right it is, and such runs exist. -/
theorem C89_violated_refused {f1 : Faults} {c1 c2 : Command} (h1 : c1.makes = true) (h2 : c2.makes = true) {d0 d1 : Disk} {o : Out}
    (e1 : Exec E f1 (c1.prog E) d0 (.ok o) d1) {procs : Nat → Option Proc} {w : World} (hs : Sys.Steps E f ⟨d1, procs⟩ w)
    {cooked : Nat → UInt64} {t k : Int} {n1 : Nat} (u1 : d1.used = (idsFrom cooked t n1).reverse ++ d0.used) :
    (∃ r d2 n2, Exec E ⟨false, false, true⟩ (c2.prog E) w.disk r d2 ∧ d2.used = (idsFrom cooked (t + k * (2 ^ 31 - 1)) n2).reverse ++ w.disk.used) ∧
    ∀ f2 r d2 n2, Exec E f2 (c2.prog E) w.disk r d2 → d2.used = (idsFrom cooked (t + k * (2 ^ 31 - 1)) n2).reverse ++ w.disk.used → ∀ o, r ≠ .ok o := by
  refine ⟨exec_drawing (E := E) (c2.prog E) w.disk _, fun f2 r d2 n2 e2 u2 => ?_⟩
  rw [C89_violated_same_ids] at u2
  exact (C89_again_partial h1 h2 e1 hs e2 u1 u2 (ids_prefix n1 (n1 + n2) _ (by omega)) (ids_prefix n2 (n1 + n2) _ (by omega))).1

/-! ## At once -/

/-- What is known of a running command. -/
def Kin (p : Proc) : Prop :=
  (twp AnyAns OwnLayer p.prog (fun r tr => (∀ a, r = .ok a → Aft tr) ∧ ((∀ a, r ≠ .ok a) → Gone r tr)) p.tr ∧ (Fore p.tr ∨ Aft p.tr)) ∨
  (drawn p.tr = [] ∧ Draws p.prog 0)

theorem kin_start (E : Env) (c : Command) (d : Disk) : Kin ⟨d, [], c.prog E⟩ := by
  by_cases hc : c.makes = true
  · exact Or.inl ⟨command_own E hc (tr := []) ⟨fore_nil, rfl⟩, Or.inl fore_nil⟩
  · refine Or.inr ⟨rfl, ?_⟩
    cases c with
    | edit cwd es => exact draws_fix (editCmd_draws E cwd es) fun _ => .ret
    | look cwd => exact draws_fix (getWorkspace_draws E cwd _) fun _ => .ret
    | _ => exact absurd rfl hc

theorem kin_steps {w0 w : World} (h0 : ∀ i, w0.procs i = none) (h : Sys.Steps E f w0 w) {i : Nat} {p : Proc} (hp : w.procs i = some p) : Kin p := by
  induction h generalizing i p with
  | refl => rw [h0 i] at hp; cases hp
  | @step w1 w2 _ hn ih =>
    cases hn with
    | start j c hj =>
      by_cases hij : i = j
      · subst hij
        simp only [upd_self, Option.some.injEq] at hp
        subst hp; exact kin_start E c _
      · exact ih ((upd_ne _ _ hij).symm.trans hp)
    | @run j q c k x d' o hq hk hs =>
      by_cases hij : i = j
      · subst hij
        simp only [upd_self, Option.some.injEq] at hp
        subst hp
        rcases ih hq with ⟨h1, h2⟩ | ⟨h1, h2⟩
        · rw [hk] at h1
          refine Or.inl ⟨h1.2 x trivial, ?_⟩
          rcases h2 with h2 | h2
          · exact h1.1.imp (fun hc => fore_cons hc h2) aft_cons
          · exact Or.inr (aft_cons h2)
        · rw [hk] at h2
          cases h2 with
          | op hc h2 =>
            refine Or.inr ⟨?_, h2 x⟩
            show drawn q.tr ++ Ev.draw ⟨c, x⟩ = []
            rw [h1]
            cases c <;> first | rfl | exact absurd rfl hc
      · exact ih ((upd_ne _ _ hij).symm.trans hp)
    | kill j =>
      by_cases hij : i = j
      · subst hij
        simp only [upd_self] at hp
        cases hp
      · exact ih ((upd_ne _ _ hij).symm.trans hp)
    | outside _ => exact ih hp

/-- **C89.** A call that is careful changes nothing that was there. -/
theorem C89_careful_partial {c : Cmd} (hc : c.careful = true) {d d' : Disk} {x : c.Ans} (h : Step E f c d x d') : Unharmed d d' := careful_step hc h

/-- **C89.** Of any number of commands at once, at most one of those whose second ID is the same - and none if it is in use when the
command starts - comes to do more than careful calls or to succeed. -/
theorem C89_at_once_partial {w0 w : World} (h0 : Idle w0) (h : Sys.Steps E f w0 w) {i : Nat} {p : Proc} (hp : w.procs i = some p) {v : UID}
    (hv : (drawn p.tr)[1]? = some v) :
    (p.start.layer v ≠ none → Fore p.tr ∧ ∀ o, p.prog ≠ .ret (.ok o)) ∧
    ∀ j q, j ≠ i → w.procs j = some q → (drawn q.tr)[1]? = some v →
      (Fore p.tr ∧ ∀ o, p.prog ≠ .ret (.ok o)) ∨ (Fore q.tr ∧ ∀ o, q.prog ≠ .ret (.ok o)) := by
  have hI := inv_steps (inv_idle (E := E) h0) h
  have key : ∀ {i p}, w.procs i = some p → (drawn p.tr)[1]? = some v → Made p.tr v ∨ (Fore p.tr ∧ ∀ o, p.prog ≠ .ret (.ok o)) := by
    intro i p hp hv
    have aft : Aft p.tr → Made p.tr v := fun ⟨x, h1, h2⟩ => by
      rw [hv] at h1; cases h1; exact h2
    rcases kin_steps h0.idle h hp with ⟨h1, h2⟩ | ⟨h1, _⟩
    · rcases h2 with h2 | h2
      · by_cases ho : ∃ o, p.prog = .ret (.ok o)
        · obtain ⟨o, ho⟩ := ho
          rw [ho] at h1
          exact Or.inl (aft (h1.1 o rfl))
        · exact Or.inr ⟨h2, fun o e => ho ⟨o, e⟩⟩
      · exact Or.inl (aft h2)
    · rw [h1] at hv; cases hv
  refine ⟨fun hs => (key hp hv).resolve_left fun hm => hs (hI.fresh i p v hp hm), fun j q hji hq hvq => ?_⟩
  rcases key hp hv with h1 | h1
  · rcases key hq hvq with h2 | h2
    · exact absurd (hI.excl j i q p v hq hp h2 h1) hji
    · exact Or.inr h2
  · exact Or.inl h1

end
end Verif
