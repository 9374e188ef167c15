import Verif.Go.Basic
/-!
# Sorting by byte order

Go compares strings byte by byte (`<`, `strings.Compare`, `sort.Strings`). Any correct sorting algorithm gives the same
result on distinct keys (`sortBy_unique`); the model sorts by insertion.
-/
set_option autoImplicit false
namespace Verif

/-- `a < b` for Go strings. -/
def strLt : Str → Str → Bool
  | _, [] => false
  | [], _ :: _ => true
  | a :: r, b :: t => a < b || (a = b && strLt r t)

/-- `a <= b` for Go strings. -/
def strLe (a b : Str) : Bool := !strLt b a

theorem strLt_irrefl (a : Str) : strLt a a = false := by
  induction a with
  | nil => rfl
  | cons x r ih => simp [strLt, ih]

theorem strLt_trans {a b c : Str} (h1 : strLt a b = true) (h2 : strLt b c = true) : strLt a c = true := by
  induction a generalizing b c with
  | nil =>
    cases c with
    | nil => cases b <;> simp [strLt] at h2
    | cons z u => rfl
  | cons x r ih =>
    cases b with
    | nil => simp [strLt] at h1
    | cons y t =>
      cases c with
      | nil => simp [strLt] at h2
      | cons z u =>
        simp only [strLt, Bool.or_eq_true, decide_eq_true_eq, Bool.and_eq_true] at h1 h2 ⊢
        rcases h1 with h1 | ⟨rfl, h1⟩
        · rcases h2 with h2 | ⟨rfl, h2⟩
          · exact Or.inl (UInt8.lt_trans h1 h2)
          · exact Or.inl h1
        · rcases h2 with h2 | ⟨rfl, h2⟩
          · exact Or.inl h2
          · exact Or.inr ⟨rfl, ih h1 h2⟩

theorem strLt_total {a b : Str} (h : a ≠ b) : strLt a b = true ∨ strLt b a = true := by
  induction a generalizing b with
  | nil => cases b with
    | nil => exact absurd rfl h
    | cons y t => exact Or.inl rfl
  | cons x r ih =>
    cases b with
    | nil => exact Or.inr rfl
    | cons y t =>
      simp only [strLt, Bool.or_eq_true, decide_eq_true_eq, Bool.and_eq_true]
      by_cases hxy : x = y
      · subst hxy
        rcases ih (b := t) (fun he => h (by rw [he])) with h1 | h1
        · exact Or.inl (Or.inr ⟨rfl, h1⟩)
        · exact Or.inr (Or.inr ⟨rfl, h1⟩)
      · have : x < y ∨ y < x := by
          have h1 : x.toNat ≠ y.toNat := fun he => hxy (UInt8.toNat_inj.1 he)
          rcases Nat.lt_or_gt_of_ne h1 with h2 | h2
          · exact Or.inl (UInt8.lt_iff_toNat_lt.2 h2)
          · exact Or.inr (UInt8.lt_iff_toNat_lt.2 h2)
        rcases this with h1 | h1
        · exact Or.inl (Or.inl h1)
        · exact Or.inr (Or.inl h1)

theorem strLt_asymm {a b : Str} (h1 : strLt a b = true) : strLt b a = false := by
  cases h : strLt b a with
  | false => rfl
  | true => have := strLt_trans h1 h; rw [strLt_irrefl] at this; cases this

section
variable {α : Type} (key : α → Str)

/-- Insert into a sorted list, before elements with the same key. -/
def insertBy (x : α) : List α → List α
  | [] => [x]
  | y :: l => if strLt (key y) (key x) then y :: insertBy x l else x :: y :: l

/-- Sort by key. -/
def sortBy : List α → List α
  | [] => []
  | x :: l => insertBy key x (sortBy l)

theorem insertBy_perm (x : α) (l : List α) : (insertBy key x l).Perm (x :: l) := by
  induction l with
  | nil => exact .refl _
  | cons y l ih =>
    simp only [insertBy]
    split
    · exact (ih.cons y).trans (List.Perm.swap _ _ _)
    · exact .refl _

theorem sortBy_perm (l : List α) : (sortBy key l).Perm l := by
  induction l with
  | nil => exact .refl _
  | cons x l ih => exact (insertBy_perm key x _).trans (ih.cons x)

/-- Keys do not decrease. -/
def Sorted (l : List α) : Prop := l.Pairwise fun a b => strLe (key a) (key b) = true

theorem sorted_insertBy {x : α} {l : List α} (h : Sorted key l) : Sorted key (insertBy key x l) := by
  induction l with
  | nil => simp [insertBy, Sorted]
  | cons y l ih =>
    unfold Sorted at h ih ⊢
    rw [List.pairwise_cons] at h
    simp only [insertBy]
    split
    · rename_i hlt
      rw [List.pairwise_cons]
      refine ⟨?_, ih h.2⟩
      intro z hz
      rcases List.mem_cons.1 ((insertBy_perm key x l).mem_iff.1 hz) with rfl | hz
      · simp [strLe, strLt_asymm hlt]
      · exact h.1 z hz
    · rename_i hlt
      rw [List.pairwise_cons, List.pairwise_cons]
      refine ⟨?_, h.1, h.2⟩
      intro z hz
      rcases List.mem_cons.1 hz with rfl | hz
      · simpa [strLe] using hlt
      · have h1 := h.1 z hz
        simp only [strLe, Bool.not_eq_true'] at h1 ⊢
        cases hzx : strLt (key z) (key x) with
        | false => rfl
        | true =>
          exfalso
          by_cases he : key y = key z
          · rw [he] at hlt; exact hlt hzx
          · rcases strLt_total he with h2 | h2
            · exact hlt (strLt_trans h2 hzx)
            · rw [h1] at h2; cases h2

theorem sorted_sortBy (l : List α) : Sorted key (sortBy key l) := by
  induction l with
  | nil => exact List.Pairwise.nil
  | cons x l ih => exact sorted_insertBy key ih

/-- A list with distinct keys has one sorted arrangement. -/
theorem sorted_unique {l l' : List α} (hp : l.Perm l') (hn : (l.map key).Nodup) (h : Sorted key l)
    (h' : Sorted key l') : l = l' := by
  induction l generalizing l' with
  | nil => exact (List.Perm.nil_eq hp)
  | cons x l ih =>
    cases l' with
    | nil => exact absurd hp.length_eq (by simp)
    | cons y l' =>
      have hn' : ((y :: l').map key).Nodup := (List.Perm.nodup_iff (hp.map key)).1 hn
      unfold Sorted at h h'
      rw [List.pairwise_cons] at h h'
      have hxy : x = y := by
        rcases List.mem_cons.1 (hp.mem_iff.1 (List.mem_cons_self)) with h1 | h1
        · exact h1
        · rcases List.mem_cons.1 (hp.mem_iff.2 (List.mem_cons_self)) with h2 | h2
          · exact h2.symm
          · have a := h.1 y h2
            have b := h'.1 x h1
            have hk : key x ≠ key y := by
              intro he
              rw [List.map_cons, List.nodup_cons] at hn
              exact hn.1 (he ▸ List.mem_map.2 ⟨y, h2, rfl⟩)
            simp only [strLe, Bool.not_eq_true'] at a b
            rcases strLt_total hk with h3 | h3
            · rw [b] at h3; cases h3
            · rw [a] at h3; cases h3
      subst hxy
      rw [List.map_cons, List.nodup_cons] at hn
      rw [ih (List.perm_cons x |>.1 hp) hn.2 h.2 h'.2]

/-- Sorting does not depend on the order before it. -/
theorem sortBy_unique {l l' : List α} (hp : l.Perm l') (hn : (l.map key).Nodup) : sortBy key l = sortBy key l' := by
  apply sorted_unique key _ _ (sorted_sortBy key l) (sorted_sortBy key l')
  · exact (sortBy_perm key l).trans (hp.trans (sortBy_perm key l').symm)
  · exact (List.Perm.nodup_iff ((sortBy_perm key l).map key)).2 hn

end
end Verif
