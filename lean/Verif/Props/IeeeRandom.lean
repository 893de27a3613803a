import Verif.Props.IeeeInit
import Verif.Props.Random
import Mathlib.Algebra.Order.Floor.Semifield
/-!
# The generator's draws in `f32` and `f64`

`lcgf32` and `lcgf64` (Model/Random.lean) round with whole numbers; `lcgf` over the numbers of a format
rounds as IEEE 754 says. Both give the same draws.
-/

namespace Renplex
open Rng

variable {B : Binary} {L : Libm B}

/-- Rounding of a whole number to `p` digits, with whole numbers only. -/
theorem Binary.near_nat {n : Nat} (hn : 2 ^ B.p ≤ n) :
    B.near n = (((if n % 2 ^ (Nat.log2 n - (B.p - 1)) < 2 ^ (Nat.log2 n - (B.p - 1) - 1)
      ∨ n % 2 ^ (Nat.log2 n - (B.p - 1)) = 2 ^ (Nat.log2 n - (B.p - 1) - 1) ∧ n / 2 ^ (Nat.log2 n - (B.p - 1)) % 2 = 0
      then n / 2 ^ (Nat.log2 n - (B.p - 1)) else n / 2 ^ (Nat.log2 n - (B.p - 1)) + 1)
      * 2 ^ (Nat.log2 n - (B.p - 1)) : Nat) : ℝ) := by
  have hd := B.digits
  have hsm := B.small
  have h0 : 0 < n := lt_of_lt_of_le (by positivity) hn
  have hlog : B.p ≤ Nat.log2 n := (Nat.le_log2 h0.ne').mpr hn
  have hpl : B.place n = ((Nat.log2 n - (B.p - 1) : Nat) : ℤ) := by
    rw [B.place_eq (by exact_mod_cast h0), Int.log_natCast, ← Nat.log2_eq_log_two]
    omega
  generalize he : Nat.log2 n - (B.p - 1) = e at hpl
  have he1 : 1 ≤ e := by omega
  have hp : 2 ^ e = 2 * 2 ^ (e - 1) := by rw [← pow_succ', Nat.sub_add_cancel he1]
  have hpos : (0 : ℝ) < 2 ^ e := by positivity
  have hdm := Nat.div_add_mod n (2 ^ e)
  have hlt := Nat.mod_lt n (show 0 < 2 ^ e by positivity)
  have hfl : ⌊(n : ℝ) / 2 ^ e⌋₊ = n / 2 ^ e := by
    have := Nat.floor_div_natCast (n : ℝ) (2 ^ e)
    rw [Nat.floor_natCast] at this
    push_cast at this
    exact this
  have hfr : (n : ℝ) / 2 ^ e - (n / 2 ^ e : Nat) = (n % 2 ^ e : Nat) / 2 ^ e := by
    have h1 : (n : ℝ) = 2 ^ e * (n / 2 ^ e : Nat) + (n % 2 ^ e : Nat) := by exact_mod_cast hdm.symm
    rw [eq_div_iff hpos.ne', sub_mul, div_mul_cancel₀ _ hpos.ne']
    linarith
  have hhalf : (1 : ℝ) / 2 = ((2 ^ (e - 1) : Nat) : ℝ) / 2 ^ e := by
    rw [eq_div_iff hpos.ne']
    have : (2 : ℝ) ^ e = 2 * 2 ^ (e - 1) := by exact_mod_cast hp
    rw [this]
    push_cast
    ring
  unfold near roundEven
  rw [hpl, zpow_natCast, hfl, hfr, hhalf]
  simp only [div_lt_div_iff_of_pos_right hpos, Nat.cast_lt]
  push_cast
  congr 1
  generalize n % 2 ^ e = r at *
  generalize n / 2 ^ e = q at *
  rcases Nat.lt_trichotomy r (2 ^ (e - 1)) with h | h | h
  · rw [if_pos h, if_pos (.inl h)]
  · rw [if_neg (by omega), if_neg (by omega)]
    by_cases hq : Even q
    · rw [if_pos hq, if_pos (.inr ⟨h, Nat.even_iff.mp hq⟩)]
    · rw [if_neg hq, if_neg (by rw [Nat.even_iff] at hq; omega)]
  · rw [if_neg (by omega), if_pos h, if_neg (by omega)]

/-- C25. The whole-number rounding of the model is the rounding of IEEE 754. -/
theorem C25_casts (n : Nat) : (f32OfNat n : ℝ) = binary32.near n ∧ (f64OfNat n : ℝ) = binary64.near n := by
  constructor
  · unfold f32OfNat
    by_cases h : n < 2 ^ 24
    · rw [if_pos h, Binary.near_natCast (B := binary32) h.le]
    · rw [if_neg h]
      exact (Binary.near_nat (B := binary32) (not_lt.mp h)).symm
  · unfold f64OfNat
    by_cases h : n < 2 ^ 53
    · rw [if_pos h, Binary.near_natCast (B := binary64) h.le]
    · rw [if_neg h]
      exact (Binary.near_nat (B := binary64) (not_lt.mp h)).symm

/-- Scaling by a power of two commutes with rounding while the numbers are normal. -/
theorem Binary.near_scale {x : ℝ} (hx : 0 < x) {j : ℤ} (h1 : B.kmin ≤ Int.log 2 x - (B.p - 1))
    (h2 : B.kmin ≤ Int.log 2 x + j - (B.p - 1)) : B.near (x * 2 ^ j) = B.near x * 2 ^ j := by
  have hj : (0 : ℝ) < 2 ^ j := by positivity
  have hl : Int.log 2 (x * 2 ^ j) = Int.log 2 x + j := by
    apply le_antisymm
    · rw [← Int.lt_add_one_iff, ← Int.lt_zpow_iff_log_lt one_lt_two (mul_pos hx hj)]
      have := Int.lt_zpow_succ_log_self (b := 2) one_lt_two x
      calc x * 2 ^ j < (2 : Nat) ^ (Int.log 2 x + 1) * 2 ^ j := mul_lt_mul_of_pos_right this hj
        _ = _ := by push_cast; rw [← zpow_add₀ two_ne_zero]; congr 1; ring
    · rw [← Int.zpow_le_iff_le_log one_lt_two (mul_pos hx hj)]
      have := Int.zpow_log_le_self (b := 2) one_lt_two hx
      calc _ = ((2 : Nat) : ℝ) ^ Int.log 2 x * 2 ^ j := by push_cast; rw [← zpow_add₀ two_ne_zero]
        _ ≤ _ := mul_le_mul_of_nonneg_right this hj.le
  have hp : B.place (x * 2 ^ j) = B.place x + j := by
    rw [B.place_eq hx, B.place_eq (mul_pos hx hj), hl]
    omega
  unfold near
  rw [hp, zpow_add₀ two_ne_zero, mul_div_mul_right _ _ hj.ne', mul_assoc]

/-- A draw is the state rounded to the format and divided by `2 ^ 31` without another rounding. -/
theorem drawOf_eq (hB : 31 ≤ B.kmax) (hp : (B.kmin : ℤ) ≤ -31 - (B.p - 1)) {s : Nat} (hs : s ≤ 2 ^ 31) :
    (drawOf L s).fp.Finite ∧ (drawOf L s).fp.val = B.near s / 2 ^ 31 := by
  have hd := B.digits
  have hsm := B.small
  have e31 : (((2 ^ 31 : Nat) : ℝ)) = 2 ^ (31 : ℤ) := by norm_num
  have hmf := Fp.ofReal_spec (B := B) (x := ((2 ^ 31 : Nat) : ℝ)) (by
    rw [e31]
    exact (B.round_le (k := 31) (by norm_num) hB (by rw [abs_of_nonneg (by positivity)])).1)
  rw [e31, B.round_two_pow (by omega) (by omega), ← e31] at hmf
  have hr : (s : ℝ) ≤ 2 ^ (31 : ℤ) := by rw [← e31]; exact_mod_cast hs
  have hsf := Fp.ofReal_spec (B := B) (x := (s : ℝ))
    (B.round_le (k := 31) (by norm_num) hB (by rwa [abs_of_nonneg (by positivity)])).1
  have hs0 : 0 ≤ B.round (s : ℝ) := B.round_nonneg (by positivity)
  have hs1 : B.round (s : ℝ) ≤ 2 ^ (31 : ℤ) := by
    rw [← B.round_two_pow (k := 31) (by omega) (by omega)]
    exact B.round_mono hr
  have hq : B.round (s : ℝ) / ((2 ^ 31 : Nat) : ℝ) ≤ 1 := by
    rw [e31]
    exact div_le_one_of_le₀ hs1 (by positivity)
  have hq0 : 0 ≤ B.round (s : ℝ) / ((2 ^ 31 : Nat) : ℝ) := by positivity
  obtain ⟨h5, h6⟩ := Fp.div_spec hsf.1 hmf.1 (by rw [hmf.2]; norm_num) (by
    rw [hsf.2, hmf.2]
    exact (B.round_le (k := 0) le_rfl (by omega) (by rw [abs_of_nonneg hq0, zpow_zero]; exact hq)).1)
  refine ⟨h5, h6.trans ?_⟩
  rw [hsf.2, hmf.2, B.round_of_nonneg hq0, B.round_of_nonneg (Nat.cast_nonneg s)]
  rcases Nat.eq_zero_or_pos s with rfl | h0
  · rw [Nat.cast_zero, B.near_zero, zero_div, zero_div, B.near_zero]
  have hn1 : 1 ≤ B.near (s : ℝ) := by
    rw [← B.round_of_nonneg (Nat.cast_nonneg s), ← Fl.round_one (B := B)]
    exact B.round_mono (by exact_mod_cast h0)
  have hlog : 0 ≤ Int.log 2 (B.near (s : ℝ)) := by
    rw [← Int.zpow_le_iff_le_log one_lt_two (by linarith)]
    simpa using hn1
  have hidem : B.near (B.near (s : ℝ)) = B.near s := by
    have := B.round_val hsf.1
    rw [hsf.2, B.round_of_nonneg (Nat.cast_nonneg s), B.round_of_nonneg (B.near_nonneg _)] at this
    exact this
  have := B.near_scale (x := B.near (s : ℝ)) (by linarith) (j := -31) (by omega) (by omega)
  rw [hidem] at this
  rw [e31, div_eq_mul_inv, ← zpow_neg, this, div_eq_mul_inv]
  norm_num

/-- C25. `lcgf32` and `lcgf64` of the model are `lcgf` in the arithmetic of `f32` and `f64`. -/
theorem C25_ieee (seed : Nat) (L32 : Libm binary32) (L64 : Libm binary64) :
    (∀ k s, lcgf32 seed = some (k, s) ↔ ∃ d, lcgf (R := Fl L32) seed = some (d, s) ∧ d.fp.Finite ∧ d.fp.val = k / 2 ^ 31)
    ∧ (∀ k s, lcgf64 seed = some (k, s) ↔ ∃ d, lcgf (R := Fl L64) seed = some (d, s) ∧ d.fp.Finite ∧ d.fp.val = k / 2 ^ 31) := by
  by_cases h : 1103515245 * seed + 12345 < 2 ^ 128
  · have hs : lcgNext seed ≤ 2 ^ 31 := by have := lcgNext_lt seed; omega
    obtain ⟨a1, a2⟩ := drawOf_eq (L := L32) (by decide) (by decide) hs
    obtain ⟨b1, b2⟩ := drawOf_eq (L := L64) (by decide) (by decide) hs
    rw [lcgf_ieee seed h, lcgf_ieee seed h]
    unfold lcgf32 lcgf64
    rw [step_eq seed h]
    simp only [Option.bind_eq_bind, Option.bind_some, Option.some.injEq, Prod.mk.injEq]
    rw [← (C25_casts (lcgNext seed)).1] at a2
    rw [← (C25_casts (lcgNext seed)).2] at b2
    refine ⟨fun k s => ⟨?_, ?_⟩, fun k s => ⟨?_, ?_⟩⟩
    · rintro ⟨rfl, rfl⟩
      exact ⟨_, ⟨rfl, rfl⟩, a1, a2⟩
    · rintro ⟨_, ⟨rfl, rfl⟩, -, e⟩
      rw [a2, div_left_inj' (by norm_num)] at e
      exact ⟨by exact_mod_cast e, rfl⟩
    · rintro ⟨rfl, rfl⟩
      exact ⟨_, ⟨rfl, rfl⟩, b1, b2⟩
    · rintro ⟨_, ⟨rfl, rfl⟩, -, e⟩
      rw [b2, div_left_inj' (by norm_num)] at e
      exact ⟨by exact_mod_cast e, rfl⟩
  · unfold lcgf32 lcgf64 lcgf
    rw [step_none seed h]
    constructor <;> intro k s <;> simp

end Renplex
