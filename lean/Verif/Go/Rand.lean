import Verif.Uid
/-!
# `math/rand` as far as `NewUID128` uses it

The generator is `rngSource` of Go's `math/rand` (rng.go of the standard library), which is not in /repo. Its table `rngCooked`
of 607 numbers is a parameter: nothing here depends on it.
-/
set_option autoImplicit false
namespace Verif

/-- `int32max` (math/rand rng.go). -/
def int32max : Int := 2 ^ 31 - 1

/-- `seedrand` (math/rand rng.go): one step of the generator that fills the table. By `seedrand_eq` nothing overflows. -/
def seedrand (x : Int) : Int :=
  let y := 48271 * x.tmod 44488 - 3399 * x.tdiv 44488
  if y < 0 then y + int32max else y

/-- `rngSource` (math/rand rng.go): two positions and a table of 607 numbers. -/
structure RngSource where
  tap : Nat
  feed : Nat
  vec : Nat → UInt64

/-- What `Seed` (math/rand rng.go) makes of its argument, an `int64`. -/
def seedOf (seed : Int) : Int :=
  let s := seed.tmod int32max
  let s := if s < 0 then s + int32max else s
  if s = 0 then 89482311 else s

/-- The loop of `Seed` (math/rand rng.go) from the entry `i` on, with `n` entries to go. -/
def seedLoop (cooked : Nat → UInt64) : (n : Nat) → (i : Nat) → Int → (Nat → UInt64) → Nat → UInt64
  | 0, _, _, vec => vec
  | n + 1, i, x, vec =>
    let a := seedrand x
    let b := seedrand a
    let c := seedrand b
    let u := (UInt64.ofInt a <<< 40) ^^^ (UInt64.ofInt b <<< 20) ^^^ UInt64.ofInt c ^^^ cooked i
    seedLoop cooked n (i + 1) c fun j => if j = i then u else vec j

/-- `seedrand` again and again. -/
def seedrands : Nat → Int → Int
  | 0, x => x
  | n + 1, x => seedrands n (seedrand x)

/-- `NewSource(seed)` (math/rand rand.go, `Seed` in rng.go). The first 20 rounds of the loop only step. -/
def newSource (cooked : Nat → UInt64) (seed : Int) : RngSource :=
  ⟨0, 607 - 273, seedLoop cooked 607 0 (seedrands 20 (seedOf seed)) fun _ => 0⟩

/-- `rngSource.Uint64` (math/rand rng.go), which `Rand.Uint64` calls. -/
def RngSource.uint64 (r : RngSource) : UInt64 × RngSource :=
  let tap := if r.tap = 0 then 606 else r.tap - 1
  let feed := if r.feed = 0 then 606 else r.feed - 1
  let x := r.vec feed + r.vec tap
  (x, ⟨tap, feed, fun j => if j = feed then x else r.vec j⟩)

/-- `NewUID128` (pkg/utils/uid/uid_128.go:46-56) with its generator. -/
def RngSource.newUID (r : RngSource) : UID × RngSource :=
  let (v0, r1) := r.uint64
  let (v1, r2) := r1.uint64
  (UID.new v0 v1, r2)

/-- The first `n` IDs. -/
def RngSource.ids : (n : Nat) → RngSource → List UID
  | 0, _ => []
  | n + 1, r => r.newUID.1 :: ids n r.newUID.2

/-- The first `n` IDs of a process in which `init` (pkg/utils/uid/uid_128.go:41-43) ran `nano` nanoseconds after 1970 began. -/
def idsFrom (cooked : Nat → UInt64) (nano : Int) (n : Nat) : List UID := (newSource cooked nano).ids n

/-- `seedrand` multiplies by 48271 modulo 2^31-1, with all values between within 32 bits. -/
theorem seedrand_eq {x : Int} (h0 : 0 ≤ x) (h1 : x < int32max) :
    seedrand x = 48271 * x % int32max ∧ 0 ≤ seedrand x ∧ seedrand x < int32max ∧
    -2 ^ 31 ≤ 48271 * x.tmod 44488 - 3399 * x.tdiv 44488 ∧ 48271 * x.tmod 44488 - 3399 * x.tdiv 44488 < 2 ^ 31 := by
  unfold seedrand
  simp only [int32max] at h1 ⊢
  rw [Int.tmod_eq_emod_of_nonneg h0, Int.tdiv_eq_ediv_of_nonneg h0]
  have e := Int.emod_add_mul_ediv x 44488
  have b0 := Int.emod_nonneg x (b := 44488) (by decide)
  have b1 := Int.emod_lt_of_pos x (b := 44488) (by decide)
  have q0 : 0 ≤ x / 44488 := Int.ediv_nonneg h0 (by decide)
  generalize x % 44488 = lo at *
  generalize x / 44488 = hi at *
  subst e
  have q1 : hi < 48272 := by omega
  split <;> refine ⟨?_, by omega, by omega, by omega, by omega⟩ <;> omega

/-- The seed counts modulo 2^31-1. -/
theorem seedOf_eq (s : Int) : seedOf s = if s % int32max = 0 then 89482311 else s % int32max := by
  unfold seedOf
  simp only
  have : (if s.tmod int32max < 0 then s.tmod int32max + int32max else s.tmod int32max) = s % int32max := by
    rcases Int.le_total 0 s with h | h
    · rw [Int.tmod_eq_emod_of_nonneg h, if_neg]
      exact Int.not_lt.2 (Int.emod_nonneg _ (by decide))
    · have e := Int.mul_tdiv_add_tmod s int32max
      have e' := Int.mul_ediv_add_emod s int32max
      have b1 := Int.emod_lt_of_pos s (b := int32max) (by decide)
      have b0 := Int.emod_nonneg s (b := int32max) (by decide)
      have t : s.tmod int32max = -((-s) % int32max) := by
        rw [← Int.tmod_eq_emod_of_nonneg (by omega), Int.neg_tmod, Int.neg_neg]
      have c0 := Int.emod_nonneg (-s) (b := int32max) (by decide)
      have c1 := Int.emod_lt_of_pos (-s) (b := int32max) (by decide)
      rw [t]
      have hm : int32max = 2147483647 := rfl
      by_cases hc : -((-s) % int32max) < 0
      · rw [if_pos hc]; rw [hm] at *; omega
      · rw [if_neg hc]; rw [hm] at *; omega
  rw [this]

end Verif
