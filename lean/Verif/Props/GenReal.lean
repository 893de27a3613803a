import Verif.Props.Period
import Verif.Props.SignalValue
/-!
# C76: the draws of the real types
-/

namespace Renplex
open Rng Signal

/-- C76, exact arithmetic. `Real::gen` takes one draw `u` from the generator and returns
`scale·(2u - 1)`, which lies between `-scale` and `scale`. -/
theorem C76_value (seed scale : Nat) (h : 1103515245 * seed + 12345 < 2 ^ 128) :
    Gen.genReal (R := ℝ) seed scale = some (scale * (2 * draw seed 0 - 1), lcgNext seed)
      ∧ -(scale : ℝ) ≤ scale * (2 * draw seed 0 - 1) ∧ scale * (2 * draw seed 0 - 1) ≤ scale := by
  obtain ⟨h0, h1⟩ : (0 : ℝ) ≤ draw seed 0 ∧ draw seed 0 < 1 := draw_range seed
  have hs : (0 : ℝ) ≤ scale := Nat.cast_nonneg _
  refine ⟨?_, by clear h; nlinarith, by clear h; nlinarith⟩
  unfold Gen.genReal
  rw [lcgf_draw seed h]
  simp only [Option.bind_eq_bind, Option.bind_some, ssub, smul', stwo, sofNat, Option.some.injEq,
    Prod.mk.injEq]
  exact ⟨by ring, rfl⟩

/-- C76. A seed whose draw leaves 128 bits panics, in any arithmetic. -/
theorem C76_overflow {R : Type} [Scalar R] (seed scale : Nat) (h : 2 ^ 128 ≤ 1103515245 * seed + 12345) :
    Gen.genReal (R := R) seed scale = none := by
  simp [Gen.genReal, lcgf, step_none seed (not_lt.mpr h)]

/-- `n` calls in a row. -/
noncomputable def genReals (scale : Nat) : Nat → Nat → Run (List ℝ × Nat)
  | 0, seed => some ([], seed)
  | n + 1, seed => do
    let (x, seed) ← Gen.genReal (R := ℝ) seed scale
    let (xs, seed) ← genReals scale n seed
    some (x :: xs, seed)

/-- C76, exact arithmetic. Any number of calls in a row: call `k` returns `scale·(2u - 1)` for the
`k`-th draw. -/
theorem C76_calls (scale n seed : Nat) (h : 1103515245 * seed + 12345 < 2 ^ 128) :
    genReals scale n seed = some ((List.range n).map fun k => scale * (2 * draw seed k - 1),
      lcgNext^[n] seed) := by
  induction n generalizing seed with
  | zero => rfl
  | succ n ih =>
    have hf : Fits (lcgNext^[1] seed) := fits_iter seed 1 h
    rw [genReals, (C76_value seed scale h).1]
    simp only [Option.bind_eq_bind, Option.bind_some]
    rw [show lcgNext seed = lcgNext^[1] seed from rfl, ih _ hf]
    simp only [Option.bind_some, List.range_succ_eq_map, List.map_cons, List.map_map,
      Function.comp_def, draw_shift, ← Function.iterate_add_apply, Nat.add_comm 1,
      Nat.succ_eq_add_one]

/-- C76, exact arithmetic. Over a full period of the generator the mean of these values is zero up to
`scale / 10^8`. -/
theorem C76_mean (scale seed : Nat) (hs : seed % (2 ^ 31 - 1) ≠ 1934915413) :
    |(∑ k ∈ Finset.range (2 ^ 31 - 2), (scale : ℝ) * (2 * draw seed k - 1)) / (2 ^ 31 - 2)|
      ≤ (scale : ℝ) / 10 ^ 8 := by
  have h := C72_mean seed hs
  have key : ∀ (N : Nat) (S : ℝ), (∑ k ∈ Finset.range N, draw seed k) = S →
      ∑ k ∈ Finset.range N, (scale : ℝ) * (2 * draw seed k - 1) = scale * (2 * S - N) := by
    rintro N S rfl
    rw [← Finset.mul_sum, Finset.sum_sub_distrib, ← Finset.mul_sum]
    simp
  rw [key _ _ rfl]
  generalize ∑ k ∈ Finset.range (2 ^ 31 - 2), draw seed k = S at h ⊢
  have hN : ((2 ^ 31 - 2 : ℕ) : ℝ) = 2 ^ 31 - 2 := by norm_num
  rw [hN]
  have e : (scale : ℝ) * (2 * S - (2 ^ 31 - 2)) / (2 ^ 31 - 2) = scale * 2 * (S / (2 ^ 31 - 2) - 1 / 2) := by
    field_simp
  rw [e, abs_mul, abs_of_nonneg (by positivity), mul_assoc, div_eq_mul_inv (scale : ℝ)]
  refine mul_le_mul_of_nonneg_left ?_ (Nat.cast_nonneg _)
  have : (2 : ℝ) * (1 / 10 ^ 9) ≤ (10 ^ 8)⁻¹ := by norm_num
  linarith

/-- The first values from seed 1, scale 10. -/
example : Gen.genReal (R := ℝ) 1 10 = some (10 * (2 * draw 1 0 - 1), 1103527590) :=
  (C76_value 1 10 (by norm_num)).1

end Renplex
