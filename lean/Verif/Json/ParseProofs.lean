import Verif.Json.Parse
/-! # Laws of the JSON parser -/
set_option autoImplicit false
namespace Verif
namespace Json

/-! ## More fuel and a larger nesting limit change nothing -/

theorem mono : ∀ (n : Nat) {n' d d' : Nat}, n ≤ n' → d ≤ d' →
    (∀ s x, pval n d s = some x → pval n' d' s = some x) ∧
    (∀ f s x, pvals n d f s = some x → pvals n' d' f s = some x) ∧
    (∀ f s x, pfields n d f s = some x → pfields n' d' f s = some x) := by
  intro n
  induction n with
  | zero => intro n' d d' _ _; refine ⟨?_, ?_, ?_⟩ <;> intros <;> rename_i h <;> simp [pval, pvals, pfields] at h
  | succ n ih =>
    intro n' d d' hn hd
    obtain ⟨m, rfl⟩ : ∃ m, n' = m + 1 := ⟨n' - 1, by omega⟩
    have hnm : n ≤ m := by omega
    obtain ⟨i1, i2, i3⟩ := ih hnm hd
    refine ⟨?_, ?_, ?_⟩
    · intro s x h
      simp only [pval] at h ⊢
      split at h
      · cases h
      · rename_i c r _
        split at h
        · rename_i hc; rw [if_pos hc]; exact h
        · rename_i hc; rw [if_neg hc]
          split at h
          · rename_i hc2; rw [if_pos hc2]
            cases d with
            | zero => cases h
            | succ d =>
              obtain ⟨e, rfl⟩ : ∃ e, d' = e + 1 := ⟨d' - 1, by omega⟩
              simp only [Option.map_eq_some_iff] at h ⊢
              obtain ⟨a, ha, rfl⟩ := h
              exact ⟨a, (ih hnm (show d ≤ e by omega)).2.1 _ _ _ ha, rfl⟩
          · rename_i hc2; rw [if_neg hc2]
            split at h
            · rename_i hc3; rw [if_pos hc3]
              cases d with
              | zero => cases h
              | succ d =>
                obtain ⟨e, rfl⟩ : ∃ e, d' = e + 1 := ⟨d' - 1, by omega⟩
                simp only [Option.map_eq_some_iff] at h ⊢
                obtain ⟨a, ha, rfl⟩ := h
                exact ⟨a, (ih hnm (show d ≤ e by omega)).2.2 _ _ _ ha, rfl⟩
            · rename_i hc3; rw [if_neg hc3]; exact h
    · intro f s x h
      simp only [pvals] at h ⊢
      split at h
      · cases h
      · rename_i c r _
        split at h
        · rename_i hc; rw [if_pos hc]; exact h
        · rename_i hc; rw [if_neg hc]
          obtain ⟨y, hy, h⟩ := Option.bind_eq_some_iff.1 h
          rw [i1 _ _ hy]
          simp only [Option.bind_some]
          split at h
          · cases h
          · rename_i e r' _
            split at h
            · rename_i he; rw [if_pos he]; exact h
            · rename_i he; rw [if_neg he]
              split at h
              · rename_i he2; rw [if_pos he2]
                obtain ⟨z, hz, rfl⟩ := Option.map_eq_some_iff.1 h
                rw [i2 _ _ _ hz]; rfl
              · cases h
    · intro f s x h
      simp only [pfields] at h ⊢
      split at h
      · cases h
      · rename_i c r _
        split at h
        · rename_i hc; rw [if_pos hc]; exact h
        · rename_i hc; rw [if_neg hc]
          split at h
          · rename_i hq; rw [if_pos hq]
            obtain ⟨k, hk, h⟩ := Option.bind_eq_some_iff.1 h
            rw [hk]
            simp only [Option.bind_some]
            split at h
            · cases h
            · rename_i e r1 _
              split at h
              · rename_i he; rw [if_pos he]
                obtain ⟨y, hy, h⟩ := Option.bind_eq_some_iff.1 h
                rw [i1 _ _ hy]
                simp only [Option.bind_some]
                split at h
                · cases h
                · rename_i e2 r2 _
                  split at h
                  · rename_i he2; rw [if_pos he2]; exact h
                  · rename_i he2; rw [if_neg he2]
                    split at h
                    · rename_i he3; rw [if_pos he3]
                      obtain ⟨z, hz, rfl⟩ := Option.map_eq_some_iff.1 h
                      rw [i3 _ _ _ hz]; rfl
                    · cases h
              · cases h
          · cases h

/-! ## Every step reads something -/

theorem skipWs_le (s : Str) : (skipWs s).length ≤ s.length := by
  induction s with
  | nil => simp [skipWs]
  | cons c r ih => simp only [skipWs]; split <;> simp; omega

theorem scanStr_lt : ∀ (n : Nat) (s : Str), s.length ≤ n → ∀ x, scanStr s = some x → x.2.length < s.length := by
  intro n
  induction n with
  | zero => intro s hs x h; simp at hs; subst hs; simp [scanStr] at h
  | succ n ih =>
    intro s hs x h
    cases s with
    | nil => simp [scanStr] at h
    | cons a r =>
      rw [scanStr_cons] at h
      simp only [List.length_cons] at hs ⊢
      split at h
      · cases h; simp
      · split at h
        · split at h
          · cases h
          · rename_i c r1
            split at h
            · split at h
              · rename_i h1 h2 h3 h4 r2
                split at h
                · obtain ⟨y, hy, rfl⟩ := Option.map_eq_some_iff.1 h
                  have := ih r2 (by simp at hs; omega) y hy
                  simp; omega
                · cases h
              · cases h
            · split at h
              · obtain ⟨y, hy, rfl⟩ := Option.map_eq_some_iff.1 h
                have := ih r1 (by simp at hs; omega) y hy
                simp; omega
              · cases h
        · split at h
          · cases h
          · obtain ⟨y, hy, rfl⟩ := Option.map_eq_some_iff.1 h
            have := ih r (by omega) y hy
            simp; omega

theorem parseOther_lt {s : Str} {x : Val × Str} (h : parseOther s = some x) : x.2.length < s.length := by
  unfold parseOther at h
  cases hl : parseLit s with
  | some y =>
    rw [hl] at h
    simp only [Option.some_or, Option.some.injEq] at h
    subst h
    unfold parseLit at hl
    split at hl
    · cases hl; simp; omega
    · cases hl; simp; omega
    · cases hl; simp; omega
    · cases hl
  | none =>
    rw [hl] at h
    simp only [Option.none_or] at h
    unfold parseNum at h
    split at h
    · rename_i hok
      cases h
      simp only
      have h1 := List.takeWhile_append_dropWhile (p := isNumChar) (l := s)
      have h2 := congrArg List.length h1
      rw [List.length_append] at h2
      have h3 : (s.takeWhile isNumChar).length ≠ 0 := by
        intro h0
        rw [List.length_eq_zero_iff] at h0
        rw [h0] at hok
        simp [okNum] at hok
      omega
    · cases h

theorem shrink : ∀ (n : Nat) {d : Nat},
    (∀ s x, pval n d s = some x → x.2.length < s.length) ∧
    (∀ f s x, pvals n d f s = some x → x.2.length < s.length) ∧
    (∀ f s x, pfields n d f s = some x → x.2.length < s.length) := by
  intro n
  induction n with
  | zero => intro d; refine ⟨?_, ?_, ?_⟩ <;> intros <;> rename_i h <;> simp [pval, pvals, pfields] at h
  | succ n ih =>
    intro d
    refine ⟨?_, ?_, ?_⟩
    · intro s x h
      simp only [pval] at h
      have hw := skipWs_le s
      split at h
      · cases h
      · rename_i c r heq
        rw [heq] at hw
        simp only [List.length_cons] at hw
        split at h
        · obtain ⟨y, hy, rfl⟩ := Option.map_eq_some_iff.1 h
          have := scanStr_lt _ r (Nat.le_refl _) y hy
          simp; omega
        · split at h
          · cases d with
            | zero => cases h
            | succ d =>
              obtain ⟨y, hy, rfl⟩ := Option.map_eq_some_iff.1 h
              have := (ih (d := d)).2.1 _ _ _ hy
              simp; omega
          · split at h
            · cases d with
              | zero => cases h
              | succ d =>
                obtain ⟨y, hy, rfl⟩ := Option.map_eq_some_iff.1 h
                have := (ih (d := d)).2.2 _ _ _ hy
                simp; omega
            · have := parseOther_lt h
              simp at this; omega
    · intro f s x h
      simp only [pvals] at h
      have hw := skipWs_le s
      split at h
      · cases h
      · rename_i c r heq
        rw [heq] at hw
        simp only [List.length_cons] at hw
        split at h
        · cases h; simp; omega
        · obtain ⟨y, hy, h⟩ := Option.bind_eq_some_iff.1 h
          have h1 := (ih (d := d)).1 _ _ hy
          have hw2 := skipWs_le y.2
          split at h
          · cases h
          · rename_i e r' heq2
            rw [heq2] at hw2
            simp only [List.length_cons] at hw2 h1
            split at h
            · cases h; simp; omega
            · split at h
              · obtain ⟨z, hz, rfl⟩ := Option.map_eq_some_iff.1 h
                have := (ih (d := d)).2.1 _ _ _ hz
                simp; omega
              · cases h
    · intro f s x h
      simp only [pfields] at h
      have hw := skipWs_le s
      split at h
      · cases h
      · rename_i c r heq
        rw [heq] at hw
        simp only [List.length_cons] at hw
        split at h
        · cases h; simp; omega
        · split at h
          · obtain ⟨k, hk, h⟩ := Option.bind_eq_some_iff.1 h
            have h0 := scanStr_lt _ r (Nat.le_refl _) k hk
            have hw1 := skipWs_le k.2
            split at h
            · cases h
            · rename_i e r1 heq1
              rw [heq1] at hw1
              simp only [List.length_cons] at hw1
              split at h
              · obtain ⟨y, hy, h⟩ := Option.bind_eq_some_iff.1 h
                have h1 := (ih (d := d)).1 _ _ hy
                have hw2 := skipWs_le y.2
                split at h
                · cases h
                · rename_i e2 r2 heq2
                  rw [heq2] at hw2
                  simp only [List.length_cons] at hw2
                  split at h
                  · cases h; simp; omega
                  · split at h
                    · obtain ⟨z, hz, rfl⟩ := Option.map_eq_some_iff.1 h
                      have := (ih (d := d)).2.2 _ _ _ hz
                      simp; omega
                    · cases h
              · cases h
          · cases h

/-- The fuel is never the reason for a failure: what any fuel can read, fuel `2 * length + 1` reads. -/
theorem fuel_enough : ∀ (k : Nat) (s : Str), s.length ≤ k → ∀ (n d : Nat),
    (∀ x, pval n d s = some x → pval (2 * s.length + 1) d s = some x) ∧
    (∀ f x, pvals n d f s = some x → pvals (2 * s.length + 2) d f s = some x) ∧
    (∀ f x, pfields n d f s = some x → pfields (2 * s.length + 2) d f s = some x) := by
  intro k
  induction k with
  | zero =>
    intro s hs n d
    simp only [Nat.le_zero_eq, List.length_eq_zero_iff] at hs
    subst hs
    cases n with
    | zero => refine ⟨?_, ?_, ?_⟩ <;> intros <;> rename_i h <;> simp [pval, pvals, pfields] at h
    | succ n => refine ⟨?_, ?_, ?_⟩ <;> intros <;> rename_i h <;> simp [pval, pvals, pfields, skipWs] at h
  | succ k ih =>
    intro s hs n d
    cases n with
    | zero => refine ⟨?_, ?_, ?_⟩ <;> intros <;> rename_i h <;> simp [pval, pvals, pfields] at h
    | succ n =>
      have hw := skipWs_le s
      -- a value read from a text not longer than `s`
      have hpv : ∀ (n d : Nat) (x : Val × Str), pval n d s = some x → pval (2 * s.length + 1) d s = some x := by
        intro n d x h
        cases n with
        | zero => simp [pval] at h
        | succ n =>
        simp only [pval] at h ⊢
        split at h
        · cases h
        · rename_i c r heq
          rw [heq] at hw
          simp only [List.length_cons] at hw
          have hr : r.length ≤ k := by omega
          split at h
          · rename_i hc; rw [if_pos hc]; exact h
          · rename_i hc; rw [if_neg hc]
            split at h
            · rename_i hc2; rw [if_pos hc2]
              cases d with
              | zero => cases h
              | succ d =>
                obtain ⟨y, hy, rfl⟩ := Option.map_eq_some_iff.1 h
                have h1 := (ih r hr n d).2.1 _ _ hy
                simp only
                rw [(mono _ (show 2 * r.length + 2 ≤ 2 * s.length by omega) (Nat.le_refl d)).2.1 _ _ _ h1]
                rfl
            · rename_i hc2; rw [if_neg hc2]
              split at h
              · rename_i hc3; rw [if_pos hc3]
                cases d with
                | zero => cases h
                | succ d =>
                  obtain ⟨y, hy, rfl⟩ := Option.map_eq_some_iff.1 h
                  have h1 := (ih r hr n d).2.2 _ _ hy
                  simp only
                  rw [(mono _ (show 2 * r.length + 2 ≤ 2 * s.length by omega) (Nat.le_refl d)).2.2 _ _ _ h1]
                  rfl
              · rename_i hc3; rw [if_neg hc3]; exact h
      have hsub : ∀ (t : Str), t.length < s.length → ∀ n d x, pval n d t = some x →
          pval (2 * s.length + 1) d t = some x := by
        intro t ht n d x h
        have h1 := (ih t (by omega) n d).1 x h
        exact (mono _ (show 2 * t.length + 1 ≤ 2 * s.length + 1 by omega) (Nat.le_refl d)).1 _ _ h1
      refine ⟨fun x h => hpv _ _ x h, ?_, ?_⟩
      · intro f x h
        rw [pvals] at h ⊢
        split at h
        · cases h
        · rename_i c r heq
          rw [heq] at hw
          simp only [List.length_cons] at hw
          split at h
          · rename_i hc; rw [if_pos hc]; exact h
          · rename_i hc; rw [if_neg hc]
            obtain ⟨y, hy, h⟩ := Option.bind_eq_some_iff.1 h
            have hlt := (shrink n).1 _ _ hy
            have hy' : pval (2 * s.length + 1) d (c :: r) = some y := by
              by_cases hl : (c :: r).length < s.length
              · exact hsub _ hl n d y hy
              · have hsk : ∀ t : Str, (skipWs t).length = t.length → skipWs t = t := by
                  intro t
                  cases t with
                  | nil => intro _; rfl
                  | cons a l =>
                    simp only [skipWs]
                    split
                    · intro hh
                      have := skipWs_le l
                      simp at hh; omega
                    · intro _; rfl
                have : skipWs s = s := hsk s (by rw [heq]; simp at hl ⊢; omega)
                rw [heq] at this
                rw [this] at hy ⊢
                exact hpv n d y hy
            rw [hy']
            simp only [Option.bind_some]
            have hw2 := skipWs_le y.2
            split at h
            · cases h
            · rename_i e r' heq2
              rw [heq2] at hw2
              simp only [List.length_cons] at hw2 hlt
              split at h
              · rename_i he; rw [if_pos he]; exact h
              · rename_i he; rw [if_neg he]
                split at h
                · rename_i he2; rw [if_pos he2]
                  obtain ⟨z, hz, rfl⟩ := Option.map_eq_some_iff.1 h
                  have h1 := (ih r' (by omega) n d).2.1 _ _ hz
                  rw [(mono _ (show 2 * r'.length + 2 ≤ 2 * s.length + 1 by omega) (Nat.le_refl d)).2.1 _ _ _ h1]
                  rfl
                · cases h
      · intro f x h
        rw [pfields] at h ⊢
        split at h
        · cases h
        · rename_i c r heq
          rw [heq] at hw
          simp only [List.length_cons] at hw
          split at h
          · rename_i hc; rw [if_pos hc]; exact h
          · rename_i hc; rw [if_neg hc]
            split at h
            · rename_i hq; rw [if_pos hq]
              obtain ⟨kk, hk, h⟩ := Option.bind_eq_some_iff.1 h
              rw [hk]
              simp only [Option.bind_some]
              have h0 := scanStr_lt _ r (Nat.le_refl _) kk hk
              have hw1 := skipWs_le kk.2
              split at h
              · cases h
              · rename_i e r1 heq1
                rw [heq1] at hw1
                simp only [List.length_cons] at hw1
                split at h
                · rename_i he; rw [if_pos he]
                  obtain ⟨y, hy, h⟩ := Option.bind_eq_some_iff.1 h
                  have hlt := (shrink n).1 _ _ hy
                  rw [hsub r1 (by omega) n d y hy]
                  simp only [Option.bind_some]
                  have hw2 := skipWs_le y.2
                  split at h
                  · cases h
                  · rename_i e2 r2 heq2
                    rw [heq2] at hw2
                    simp only [List.length_cons] at hw2
                    split at h
                    · rename_i he2; rw [if_pos he2]; exact h
                    · rename_i he2; rw [if_neg he2]
                      split at h
                      · rename_i he3; rw [if_pos he3]
                        obtain ⟨z, hz, rfl⟩ := Option.map_eq_some_iff.1 h
                        have h1 := (ih r2 (by omega) n d).2.2 _ _ hz
                        rw [(mono _ (show 2 * r2.length + 2 ≤ 2 * s.length + 1 by omega) (Nat.le_refl d)).2.2 _ _ _ h1]
                        rfl
                      · cases h
                · cases h
            · cases h

theorem pval_fuel {n d : Nat} {s : Str} {x : Val × Str} (h : pval n d s = some x) : pval (fuelFor s) d s = some x :=
  (fuel_enough _ s (Nat.le_refl _) n d).1 x h

/-! ## The nesting limit bounds the depth -/

theorem depth_le : ∀ (n : Nat) {d : Nat},
    (∀ s x, pval n d s = some x → depth x.1 ≤ d) ∧
    (∀ f s x, pvals n d f s = some x → depthVals x.1 ≤ d) ∧
    (∀ f s x, pfields n d f s = some x → depthFields x.1 ≤ d) := by
  intro n
  induction n with
  | zero => intro d; refine ⟨?_, ?_, ?_⟩ <;> intros <;> rename_i h <;> simp [pval, pvals, pfields] at h
  | succ n ih =>
    intro d
    refine ⟨?_, ?_, ?_⟩
    · intro s x h
      simp only [pval] at h
      split at h
      · cases h
      · rename_i c r heq
        split at h
        · obtain ⟨y, hy, rfl⟩ := Option.map_eq_some_iff.1 h
          simp [depth]
        · split at h
          · cases d with
            | zero => cases h
            | succ d =>
              obtain ⟨y, hy, rfl⟩ := Option.map_eq_some_iff.1 h
              have := (ih (d := d)).2.1 _ _ _ hy
              simp only [depth]; omega
          · split at h
            · cases d with
              | zero => cases h
              | succ d =>
                obtain ⟨y, hy, rfl⟩ := Option.map_eq_some_iff.1 h
                have := (ih (d := d)).2.2 _ _ _ hy
                simp only [depth]; omega
            · have : depth x.1 = 0 := by
                unfold parseOther at h
                cases hl : parseLit (c :: r) with
                | some y =>
                  rw [hl] at h
                  simp only [Option.some_or, Option.some.injEq] at h
                  subst h
                  unfold parseLit at hl
                  split at hl
                  · cases hl; rfl
                  · cases hl; rfl
                  · cases hl; rfl
                  · cases hl
                | none =>
                  rw [hl] at h
                  simp only [Option.none_or, parseNum] at h
                  split at h
                  · cases h; rfl
                  · cases h
              omega
    · intro f s x h
      simp only [pvals] at h
      split at h
      · cases h
      · split at h
        · cases h; simp [depthVals]
        · obtain ⟨y, hy, h⟩ := Option.bind_eq_some_iff.1 h
          have h1 := (ih (d := d)).1 _ _ hy
          split at h
          · cases h
          · split at h
            · cases h; simp only [depthVals]; omega
            · split at h
              · obtain ⟨z, hz, rfl⟩ := Option.map_eq_some_iff.1 h
                have := (ih (d := d)).2.1 _ _ _ hz
                simp only [depthVals]; omega
              · cases h
    · intro f s x h
      simp only [pfields] at h
      split at h
      · cases h
      · split at h
        · cases h; simp [depthFields]
        · split at h
          · obtain ⟨k, hk, h⟩ := Option.bind_eq_some_iff.1 h
            split at h
            · cases h
            · split at h
              · obtain ⟨y, hy, h⟩ := Option.bind_eq_some_iff.1 h
                have h1 := (ih (d := d)).1 _ _ hy
                split at h
                · cases h
                · split at h
                  · cases h; simp only [depthFields]; omega
                  · split at h
                    · obtain ⟨z, hz, rfl⟩ := Option.map_eq_some_iff.1 h
                      have := (ih (d := d)).2.2 _ _ _ hz
                      simp only [depthFields]; omega
                    · cases h
              · cases h
          · cases h

mutual
theorem depth_clean : ∀ v : Val, depth (clean v) = depth v
  | .null => rfl
  | .bool _ => rfl
  | .num _ => rfl
  | .str _ => rfl
  | .arr l => by simp only [clean, depth, depth_cleanVals l]
  | .obj l => by simp only [clean, depth, depth_cleanFields l]
theorem depth_cleanVals : ∀ l : Vals, depthVals (cleanVals l) = depthVals l
  | .nil => rfl
  | .cons v l => by simp only [cleanVals, depthVals, depth_clean v, depth_cleanVals l]
theorem depth_cleanFields : ∀ l : Fields, depthFields (cleanFields l) = depthFields l
  | .nil => rfl
  | .cons _ v l => by simp only [cleanFields, depthFields, depth_clean v, depth_cleanFields l]
end

/-- Reading back a written value: it succeeds exactly up to the nesting limit. -/
theorem parseWith_emit (sh : Bool) (d : Nat) (v : Val) (h : NoNum v) :
    parseWith d (emit sh v) = if depth v ≤ d then some (clean v) else none := by
  have full : pval (need v) (depth v) (emit sh v) = some (clean v, []) := by
    have := pval_emit sh v (need v) (depth v) [] h (Nat.le_refl _) (Nat.le_refl _)
    simpa using this
  split
  · rename_i hd
    have h1 : pval (need v) d (emit sh v) = some (clean v, []) := (mono _ (Nat.le_refl _) hd).1 _ _ full
    simp [parseWith, pval_fuel h1, skipWs]
  · rename_i hd
    have : pval (fuelFor (emit sh v)) d (emit sh v) = none := by
      cases hp : pval (fuelFor (emit sh v)) d (emit sh v) with
      | none => rfl
      | some x =>
        exfalso
        have h1 := (mono _ (show fuelFor (emit sh v) ≤ max (fuelFor (emit sh v)) (need v) by omega)
          (show d ≤ max d (depth v) by omega)).1 _ _ hp
        have h2 := (mono _ (show need v ≤ max (fuelFor (emit sh v)) (need v) by omega)
          (show depth v ≤ max d (depth v) by omega)).1 _ _ full
        rw [h1] at h2; cases h2
        have := (depth_le _).1 _ _ hp
        simp only [depth_clean] at this
        exact hd this
    simp [parseWith, this]

/-! ## Appending to a text -/

theorem skipWs_append {s : Str} {c : UInt8} {r : Str} (h : skipWs s = c :: r) (q : Str) : skipWs (s ++ q) = c :: (r ++ q) := by
  induction s with
  | nil => simp [skipWs] at h
  | cons a l ih =>
    simp only [skipWs, List.cons_append] at h ⊢
    split at h
    · rename_i hw; rw [if_pos hw]; exact ih h
    · rename_i hw; rw [if_neg hw]; cases h; rfl

theorem scanStr_append (q : Str) : ∀ (n : Nat) (s : Str), s.length ≤ n → ∀ x, scanStr s = some x →
    scanStr (s ++ q) = some (x.1, x.2 ++ q) := by
  intro n
  induction n with
  | zero => intro s hs x h; simp at hs; subst hs; simp [scanStr] at h
  | succ n ih =>
    intro s hs x h
    cases s with
    | nil => simp [scanStr] at h
    | cons a r =>
      rw [List.cons_append, scanStr_cons]
      rw [scanStr_cons] at h
      simp only [List.length_cons] at hs
      split at h
      · rename_i hc; rw [if_pos hc]; cases h; rfl
      · rename_i hc; rw [if_neg hc]
        split at h
        · rename_i hc2; rw [if_pos hc2]
          split at h
          · cases h
          · rename_i c r1
            simp only [List.cons_append]
            split at h
            · rename_i hu; rw [if_pos hu]
              split at h
              · rename_i h1 h2 h3 h4 r2
                simp only [List.cons_append]
                split at h
                · rename_i hh; rw [if_pos hh]
                  obtain ⟨y, hy, rfl⟩ := Option.map_eq_some_iff.1 h
                  rw [ih r2 (by simp at hs; omega) y hy]; rfl
                · cases h
              · cases h
            · rename_i hu; rw [if_neg hu]
              split at h
              · rename_i hh; rw [if_pos hh]
                obtain ⟨y, hy, rfl⟩ := Option.map_eq_some_iff.1 h
                rw [ih r1 (by simp at hs; omega) y hy]; rfl
              · cases h
        · rename_i hc2; rw [if_neg hc2]
          split at h
          · cases h
          · rename_i hc3; rw [if_neg hc3]
            obtain ⟨y, hy, rfl⟩ := Option.map_eq_some_iff.1 h
            rw [ih r (by omega) y hy]; rfl

/-- The value is delimited by its own last character. -/
def Closed : Val → Prop
  | .num _ => False
  | _ => True

theorem takeWhile_append {p : UInt8 → Bool} {s : Str} (h : s.dropWhile p ≠ []) (q : Str) :
    (s ++ q).takeWhile p = s.takeWhile p ∧ (s ++ q).dropWhile p = s.dropWhile p ++ q := by
  induction s with
  | nil => exact absurd rfl h
  | cons a l ih =>
    simp only [List.cons_append, List.takeWhile_cons, List.dropWhile_cons]
    cases hp : p a with
    | false => simp
    | true =>
      rw [List.dropWhile_cons, hp] at h
      simp only [if_true] at h
      obtain ⟨h1, h2⟩ := ih h
      simp [h1, h2]

theorem parseLit_append {s : Str} {x : Val × Str} (h : parseLit s = some x) (q : Str) :
    parseLit (s ++ q) = some (x.1, x.2 ++ q) := by
  unfold parseLit at h
  split at h
  · cases h; rfl
  · cases h; rfl
  · cases h; rfl
  · cases h

theorem parseLit_num {c : UInt8} {r : Str} (h : isNumChar c = true) : parseLit (c :: r) = none := by
  unfold parseLit
  split
  · rename_i heq; cases heq; exact absurd h (by decide)
  · rename_i heq; cases heq; exact absurd h (by decide)
  · rename_i heq; cases heq; exact absurd h (by decide)
  · rfl

theorem parseOther_append {s : Str} {x : Val × Str} (h : parseOther s = some x) (hc : Closed x.1 ∨ x.2 ≠ []) (q : Str) :
    parseOther (s ++ q) = some (x.1, x.2 ++ q) := by
  unfold parseOther at h ⊢
  cases hl : parseLit s with
  | some y =>
    rw [hl] at h
    simp only [Option.some_or, Option.some.injEq] at h
    subst h
    rw [parseLit_append hl q]; rfl
  | none =>
    rw [hl] at h
    simp only [Option.none_or, parseNum] at h
    split at h
    · rename_i hok
      cases h
      rcases hc with hc | hc
      · exact absurd hc (by simp [Closed])
      · obtain ⟨h1, h2⟩ := takeWhile_append hc q
        have hnum : parseLit (s ++ q) = none := by
          cases s with
          | nil => simp [okNum] at hok
          | cons a l =>
            apply parseLit_num
            cases hn : isNumChar a with
            | true => rfl
            | false => simp [List.takeWhile_cons, hn, okNum] at hok
        rw [hnum]
        simp only [Option.none_or, parseNum, h1, h2, hok, if_true]
    · cases h

theorem extend (q : Str) : ∀ (n : Nat) {d : Nat},
    (∀ s x, pval n d s = some x → Closed x.1 ∨ x.2 ≠ [] → pval n d (s ++ q) = some (x.1, x.2 ++ q)) ∧
    (∀ f s x, pvals n d f s = some x → pvals n d f (s ++ q) = some (x.1, x.2 ++ q)) ∧
    (∀ f s x, pfields n d f s = some x → pfields n d f (s ++ q) = some (x.1, x.2 ++ q)) := by
  intro n
  induction n with
  | zero =>
    intro d
    refine ⟨?_, ?_, ?_⟩
    · intro s x h; simp [pval] at h
    · intro f s x h; simp [pvals] at h
    · intro f s x h; simp [pfields] at h
  | succ n ih =>
    intro d
    refine ⟨?_, ?_, ?_⟩
    · intro s x h hcl
      simp only [pval] at h ⊢
      split at h
      · cases h
      · rename_i c r heq
        rw [skipWs_append heq q]
        simp only
        split at h
        · rename_i hc; rw [if_pos hc]
          obtain ⟨y, hy, rfl⟩ := Option.map_eq_some_iff.1 h
          rw [scanStr_append q _ r (Nat.le_refl _) y hy]; rfl
        · rename_i hc; rw [if_neg hc]
          split at h
          · rename_i hc2; rw [if_pos hc2]
            cases d with
            | zero => cases h
            | succ d =>
              obtain ⟨y, hy, rfl⟩ := Option.map_eq_some_iff.1 h
              simp only [(ih (d := d)).2.1 _ _ _ hy]; rfl
          · rename_i hc2; rw [if_neg hc2]
            split at h
            · rename_i hc3; rw [if_pos hc3]
              cases d with
              | zero => cases h
              | succ d =>
                obtain ⟨y, hy, rfl⟩ := Option.map_eq_some_iff.1 h
                simp only [(ih (d := d)).2.2 _ _ _ hy]; rfl
            · rename_i hc3; rw [if_neg hc3]
              exact parseOther_append h hcl q
    · intro f s x h
      simp only [pvals] at h ⊢
      split at h
      · cases h
      · rename_i c r heq
        rw [skipWs_append heq q]
        simp only
        split at h
        · rename_i hc; rw [if_pos hc]; cases h; rfl
        · rename_i hc; rw [if_neg hc]
          obtain ⟨y, hy, h⟩ := Option.bind_eq_some_iff.1 h
          have hne : y.2 ≠ [] := by
            intro h0
            rw [h0] at h
            simp [skipWs] at h
          have := (ih (d := d)).1 _ _ hy (Or.inr hne)
          rw [List.cons_append] at this
          rw [this]
          simp only [Option.bind_some]
          split at h
          · cases h
          · rename_i e r' heq2
            rw [skipWs_append heq2 q]
            simp only
            split at h
            · rename_i he; rw [if_pos he]; cases h; rfl
            · rename_i he; rw [if_neg he]
              split at h
              · rename_i he2; rw [if_pos he2]
                obtain ⟨z, hz, rfl⟩ := Option.map_eq_some_iff.1 h
                rw [(ih (d := d)).2.1 _ _ _ hz]; rfl
              · cases h
    · intro f s x h
      simp only [pfields] at h ⊢
      split at h
      · cases h
      · rename_i c r heq
        rw [skipWs_append heq q]
        simp only
        split at h
        · rename_i hc; rw [if_pos hc]; cases h; rfl
        · rename_i hc; rw [if_neg hc]
          split at h
          · rename_i hq; rw [if_pos hq]
            obtain ⟨k, hk, h⟩ := Option.bind_eq_some_iff.1 h
            rw [scanStr_append q _ r (Nat.le_refl _) k hk]
            simp only [Option.bind_some]
            split at h
            · cases h
            · rename_i e r1 heq1
              rw [skipWs_append heq1 q]
              simp only
              split at h
              · rename_i he; rw [if_pos he]
                obtain ⟨y, hy, h⟩ := Option.bind_eq_some_iff.1 h
                have hne : y.2 ≠ [] := by
                  intro h0
                  rw [h0] at h
                  simp [skipWs] at h
                rw [(ih (d := d)).1 _ _ hy (Or.inr hne)]
                simp only [Option.bind_some]
                split at h
                · cases h
                · rename_i e2 r2 heq2
                  rw [skipWs_append heq2 q]
                  simp only
                  split at h
                  · rename_i he2; rw [if_pos he2]; cases h; rfl
                  · rename_i he2; rw [if_neg he2]
                    split at h
                    · rename_i he3; rw [if_pos he3]
                      obtain ⟨z, hz, rfl⟩ := Option.map_eq_some_iff.1 h
                      rw [(ih (d := d)).2.2 _ _ _ hz]; rfl
                    · cases h
              · cases h
          · cases h

theorem closed_clean {v : Val} (h : Closed v) : Closed (clean v) := by cases v <;> simp_all [clean, Closed]

/-- A text that starts with `{`, `[` or `"` is not read as a number. -/
theorem pval_closed {n d : Nat} {c : UInt8} {r : Str} {x : Val × Str} (h : pval n d (c :: r) = some x)
    (hc : c = 0x7B) : Closed x.1 := by
  subst hc
  cases n with
  | zero => simp [pval] at h
  | succ n =>
    rw [pval, skipWs_cons (by decide)] at h
    simp only [show ((0x7B : UInt8) = 0x22) = False from by decide, show ((0x7B : UInt8) = 0x5B) = False from by decide,
      if_false, if_true] at h
    cases d with
    | zero => cases h
    | succ d =>
      obtain ⟨y, _, rfl⟩ := Option.map_eq_some_iff.1 h
      trivial

/-- A strict prefix of a written object is no JSON text, whatever the nesting limit. -/
theorem parse_prefix (sh : Bool) (d : Nat) (l : Fields) (h : NoNum (.obj l)) {p q : Str}
    (he : p ++ q = emit sh (.obj l)) (hq : q ≠ []) : parseWith d p = none := by
  unfold parseWith
  cases hp : pval (fuelFor p) d p with
  | none => rfl
  | some x =>
    exfalso
    cases p with
    | nil => simp [fuelFor, pval, skipWs] at hp
    | cons c r =>
      have hc : c = 0x7B := by
        simp only [emit, List.cons_append] at he
        exact (List.cons.inj he).1
      have hx := (extend q _).1 _ _ hp (Or.inl (pval_closed hp hc))
      rw [he] at hx
      have full : pval (need (.obj l)) (depth (.obj l)) (emit sh (.obj l)) = some (clean (.obj l), []) := by
        have := pval_emit sh (.obj l) (need (.obj l)) (depth (.obj l)) [] h (Nat.le_refl _) (Nat.le_refl _)
        simpa using this
      have h1 := (mono _ (show fuelFor (c :: r) ≤ max (fuelFor (c :: r)) (need (.obj l)) by omega)
        (show d ≤ max d (depth (.obj l)) by omega)).1 _ _ hx
      have h2 := (mono _ (show need (.obj l) ≤ max (fuelFor (c :: r)) (need (.obj l)) by omega)
        (show depth (.obj l) ≤ max d (depth (.obj l)) by omega)).1 _ _ full
      rw [h1] at h2
      simp only [Option.some.injEq, Prod.mk.injEq, List.append_eq_nil_iff] at h2
      exact hq h2.2.2

end Json
end Verif
