import Verif.World.PoolMnt
import Verif.World.Reopen
/-!
# Whose branches there are, whatever runs

Every branch of every tree is named after a workspace whose ID was drawn.
-/
set_option autoImplicit false
namespace Verif
open M TS Json

/-- Every branch is the branch of a workspace whose ID was drawn. -/
def Owned (U : UID → Prop) (a : ATree) : Prop := ∀ b v, a.branch b = some v → ∃ i x, U i ∧ b = i.base32 ++ lit "/" ++ x

theorem sanitize_own (i : UID) (x : Str) : sanitize (i.base32 ++ lit "/" ++ x) = i.base32 ++ lit "/" ++ sanitize x := by
  refine sanitize_append_ascii (fun b hb => ?_) x
  rcases List.mem_append.1 hb with hb | hb
  · exact base32_ascii i b hb
  · exact (by decide : ∀ b ∈ lit "/", b < (0x80 : UInt8)) b hb

theorem owned_mono {U U' : UID → Prop} {a : ATree} (hU : ∀ u, U u → U' u) (ho : Owned U a) : Owned U' a := by
  intro b v hb
  obtain ⟨i, x, h1, h2⟩ := ho b v hb
  exact ⟨i, x, hU i h1, h2⟩

theorem owned_back {U : UID → Prop} {a a' : ATree} (hc : ComesBack a a') (ho : Owned U a) : Owned U a' := by
  intro b v hb
  obtain ⟨k0, v0, h1, _, rfl, _⟩ := (hc.branch b v).1 hb
  obtain ⟨i, x, h2, rfl⟩ := ho k0 v0 h1
  exact ⟨i, sanitize x, h2, sanitize_own i x⟩

/-- The invariant: of the trees on the disk, also those that a failing read gives, and of those that a program has read or marshalled. -/
structure Fair (w : World) : Prop where
  space : ∀ n b q s, w.disk.space n = some (some b) → q <+: b → spaceLoad (.ok q) = .ok s → Owned (· ∈ w.disk.used) s.abs
  dumped : ∀ i p s b, w.procs i = some p → (⟨.dump s, b⟩ : Ev) ∈ p.tr → Owned (· ∈ w.disk.used) s.abs
  treeRead : ∀ i p n r s, w.procs i = some p → (⟨.readTree n, r⟩ : Ev) ∈ p.tr → spaceLoad r = .ok s → Owned (· ∈ w.disk.used) s.abs

section
variable {E : Env} {par : Parents}

theorem knowsId_used {w : World} (ht : Tied E w) {i : Nat} {p : Proc} (hp : w.procs i = some p) {x : UID} (hk : KnowsId p.tr x) : x ∈ w.disk.used := by
  rcases hk with h | ⟨n, b, j, h1, h2, h3⟩
  · exact ht.drawn i p x hp h
  · exact ided_decode (ht.idRead i p n b hp h1) h2 h3

theorem fair_run {f : Faults} {w : World} {i : Nat} {p : Proc} {c : Cmd} {k : c.Ans → Prog (Res CErr Out)} {x : c.Ans}
    {d' : Disk} {o : Nat} (h : Fair w) (ht : Tame E par w) (hr : Tied E w) (hp : w.procs i = some p) (hk : p.prog = .op c k) (hs : Step (E.as o) f c w.disk x d')
    (hmix : ¬ MixesAt w.disk ⟨c, x⟩) : Fair ⟨d', upd w.procs i (some ⟨p.start, ⟨c, x⟩ :: p.tr, k x⟩)⟩ := by
  have he := step_effect hs
  obtain ⟨cmd, hleft, htwp⟩ := ht.safe i p hp
  rw [hk] at hleft htwp
  obtain ⟨hg, _⟩ := htwp
  have hused : ∀ u, u ∈ w.disk.used → u ∈ d'.used := fun u hu => eff_used_mem he hu
  have hproc : ∀ {j q}, upd w.procs i (some ⟨p.start, ⟨c, x⟩ :: p.tr, k x⟩) j = some q →
      (j = i ∧ q = ⟨p.start, ⟨c, x⟩ :: p.tr, k x⟩) ∨ (j ≠ i ∧ w.procs j = some q) := by
    intro j q hq
    by_cases hj : j = i
    · subst hj; simp only [upd_self, Option.some.injEq] at hq; exact Or.inl ⟨rfl, hq.symm⟩
    · rw [upd_ne _ _ hj] at hq; exact Or.inr ⟨hj, hq⟩
  constructor
  · intro n b q s hb hq hl
    simp only at hb ⊢
    rcases eff_space he n with h1 | h1 | ⟨_, h1⟩ | ⟨b', p', old, y, h1, h2, h3, h4, h5⟩
    · exact owned_mono hused (h.space n b q s (by rw [← h1]; exact hb) hq hl)
    · rw [hb] at h1; cases h1
    · rw [hb] at h1; cases h1
      rw [List.prefix_nil.1 hq, load_empty] at hl; cases hl
    · rw [hb] at h5
      simp only [Option.some.injEq] at h5
      subst h5
      cases h1
      obtain ⟨_, T, hd⟩ := hg
      obtain ⟨d1, d2, _⟩ := ht.dumped i p T b' hp hd
      have hbb : overwrite p' old <+: b' ∨ b' <+: overwrite p' old := by
        cases y with
        | true => rw [h4 rfl]; exact Or.inr (overwrite_prefix _ _)
        | false =>
          have : old = [] := Classical.byContradiction fun hne => hmix ⟨rfl, old, h2, hne⟩
          subst this
          rw [overwrite_nil]; exact Or.inl h3
      rcases load_around_total d2 (prefix_around hq hbb) with e | ⟨e, he⟩
      · rw [e] at hl
        by_cases hS : T.abs.Shallow
        · obtain ⟨s2, e1, _, e2⟩ := (load_saved d1 d2).1 hS
          rw [hl] at e1; cases e1
          exact owned_back e2 (owned_mono hused (h.dumped i p T b' hp hd))
        · rw [(load_saved d1 d2).2 hS] at hl; cases hl
      · rw [hl] at he; cases he
  · intro j q s b hq hb
    rcases hproc hq with ⟨_, rfl⟩ | ⟨_, hq⟩
    · rcases List.mem_cons.1 hb with e | e
      · cases e
        obtain ⟨_, _, ho⟩ := hg
        intro b v hb
        rcases ho b (by rw [hb]; simp) with ⟨n, r, t, h1, h2, h3⟩ | ⟨y, z, h1, h2⟩
        · obtain ⟨v', hv'⟩ := Option.ne_none_iff_exists'.1 h3
          exact owned_mono hused (h.treeRead i p n r t hp h1 h2) b v' hv'
        · exact ⟨y, z, hused _ (knowsId_used hr hp h1), h2⟩
      · exact owned_mono hused (h.dumped i p s b hp e)
    · exact owned_mono hused (h.dumped j q s b hq hb)
  · intro j q n r s hq hb hl
    rcases hproc hq with ⟨_, rfl⟩ | ⟨_, hq⟩
    · rcases List.mem_cons.1 hb with e | e
      · cases e
        obtain ⟨rfl, hs⟩ := hs
        cases r with
        | ok b => exact h.space n b b s hs (List.prefix_refl _) hl
        | notExist => cases hl
        | failed b =>
          obtain ⟨_, full, h1, h2⟩ := hs
          exact h.space n full b s h1 h2 hl
      · exact owned_mono hused (h.treeRead i p n r s hp e hl)
    · exact owned_mono hused (h.treeRead j q n r s hq hb hl)

theorem fair_sub {w : World} {procs : Nat → Option Proc} (h : Fair w) (hs : ∀ i p, procs i = some p → w.procs i = some p ∨ p.tr = []) : Fair ⟨w.disk, procs⟩ := by
  refine ⟨h.space, fun i p s b hp hb => ?_, fun i p n r s hp hb => ?_⟩
  · rcases hs i p hp with h1 | h1
    · exact h.dumped i p s b h1 hb
    · rw [h1] at hb; cases hb
  · rcases hs i p hp with h1 | h1
    · exact h.treeRead i p n r s h1 hb
    · rw [h1] at hb; cases hb

theorem fair_next {f : Faults} {w w' : World} (h : Fair w) (ht : Tame E par w) (hr : Tied E w) (hn : Sys.Next E f w w') (hm : ¬ Sys.Mixes w w') : Fair w' := by
  cases hn with
  | start i c hi0 =>
    refine fair_sub h fun j p hp => ?_
    by_cases hj : j = i
    · subst hj; simp only [upd_self, Option.some.injEq] at hp; subst hp; exact Or.inr rfl
    · rw [upd_ne _ _ hj] at hp; exact Or.inl hp
  | @run i p c k x d' _ hp hk hs =>
    exact fair_run h ht hr hp hk hs fun hx => hm ⟨i, p, _, _, hp, upd_self _ _ _, rfl, hx⟩
  | kill i =>
    refine fair_sub h fun j p hp => ?_
    by_cases hj : j = i
    · subst hj; simp at hp
    · rw [upd_ne _ _ hj] at hp; exact Or.inl hp
  | @outside d' ho =>
    have hused : ∀ u, u ∈ w.disk.used → u ∈ d'.used := by
      intro u hu
      rcases outside_effect ho with he | ⟨n, he⟩ <;> exact eff_used_mem he hu
    refine ⟨fun n b q s hb hq hl => ?_, fun i p s b hp hb => owned_mono hused (h.dumped i p s b hp hb), fun i p n r s hp hb hl => owned_mono hused (h.treeRead i p n r s hp hb hl)⟩
    exact owned_mono hused (h.space n b q s (by rw [← (outside_rest ho).1]; exact hb) hq hl)

theorem fair_bare {w : World} (h : Bare w) : Fair w := by
  have hn : ∀ {i p}, w.procs i = some p → False := by
    intro i p hp
    rw [h.idle i] at hp; cases hp
  exact ⟨fun n b q s hb => (by rw [h.space n] at hb; cases hb), fun _ _ _ _ hp => (hn hp).elim, fun _ _ _ _ _ hp => (hn hp).elim⟩

/-- All three invariants together. -/
theorem fair_tidy {f : Faults} (hf : f.rep = false) {w w' : World} (h : Fair w) (ht : Tame E par w) (hr : Tied E w) (hs : Sys.Tidy E f w w') :
    ∃ par', Tame E par' w' ∧ Tied E w' ∧ Fair w' := by
  induction hs with
  | refl => exact ⟨par, ht, hr, h⟩
  | step _ hn hm ih =>
    obtain ⟨p1, h1, h2, h3⟩ := ih
    obtain ⟨p2, _, h4⟩ := tame_next h1 hn hm
    exact ⟨p2, h4, tied_next hf h2 hn, fair_next h3 h1 h2 hn hm⟩

end
end Verif
