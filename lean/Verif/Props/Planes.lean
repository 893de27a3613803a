import Verif.Spec.Planes
import Verif.Props.Streams
/-!
# C116: successive random numbers lie on few planes
-/

namespace Renplex
open Rng

/-! ## The states -/

/-- The combinations the multiplier annihilates have the same remainder for all seeds. -/
theorem combination_mod (d : Nat) (c : Nat → ℤ)
    (h : (2 ^ 31 - 1 : ℤ) ∣ ∑ i ∈ Finset.range d, c i * 1103515245 ^ i) (seed k : Nat) :
    (2 ^ 31 - 1 : ℤ) ∣ ∑ i ∈ Finset.range d, c i * (lcgNext^[k + i + 1] seed : ℤ)
      - 1934915413 * ∑ i ∈ Finset.range d, c i := by
  have e : ((2147483647 : ℕ) : ℤ) = 2 ^ 31 - 1 := by norm_num
  rw [← e] at h ⊢
  rw [← ZMod.intCast_zmod_eq_zero_iff_dvd] at h ⊢
  have hi := fun i => affine_iter (p := 2147483647) (a := 1103515245) (b := 12345) (c := 1934915413) lcgNext
    lcgNext_eq (by norm_num) (lcgNext^[k + 1] seed) i
  have hi' : ∀ i, ((lcgNext^[k + i + 1] seed : ℕ) : ZMod 2147483647)
      = ((1934915413 : ℕ) : ZMod 2147483647)
        + ((1103515245 : ℕ) : ZMod 2147483647) ^ i * (((lcgNext^[k + 1] seed : ℕ) : ZMod 2147483647)
          - ((1934915413 : ℕ) : ZMod 2147483647)) := by
    intro i
    rw [← hi i, ← Function.iterate_add_apply, show i + (k + 1) = k + i + 1 by omega]
    ring
  push_cast at h hi' ⊢
  simp only [hi', mul_add, Finset.sum_add_distrib, ← mul_assoc, ← Finset.sum_mul]
  rw [h]
  ring

/-- Bounds of such a combination. -/
theorem combination_bounds (d : Nat) (c : Nat → ℤ) (x : Nat → ℤ) (B : ℤ) (h0 : ∀ i, 0 ≤ x i) (h1 : ∀ i, x i ≤ B) :
    -(∑ i ∈ Finset.range d, max (-c i) 0) * B ≤ ∑ i ∈ Finset.range d, c i * x i
      ∧ ∑ i ∈ Finset.range d, c i * x i ≤ (∑ i ∈ Finset.range d, max (c i) 0) * B := by
  have hB : 0 ≤ B := (h0 0).trans (h1 0)
  constructor
  · rw [neg_mul, Finset.sum_mul, ← Finset.sum_neg_distrib]
    refine Finset.sum_le_sum fun i _ => ?_
    rcases le_total (c i) 0 with h | h
    · rw [max_eq_left (by omega)]
      nlinarith [h1 i]
    · rw [max_eq_right (by omega)]
      nlinarith [h0 i]
  · rw [Finset.sum_mul]
    refine Finset.sum_le_sum fun i _ => ?_
    rcases le_total (c i) 0 with h | h
    · rw [max_eq_right h]
      nlinarith [h0 i]
    · rw [max_eq_left h]
      nlinarith [h1 i]

/-- The values such a combination can have. -/
theorem combination_values (d : Nat) (c : Nat → ℤ)
    (h : (2 ^ 31 - 1 : ℤ) ∣ ∑ i ∈ Finset.range d, c i * 1103515245 ^ i) (T : Nat)
    (hT : ∑ i ∈ Finset.range d, |c i| = T) (hT' : 0 < T) (hT2 : T < 2 ^ 31 - 1) :
    ∃ V : Finset ℤ, V.card ≤ T ∧ (∀ u ∈ V, ∀ v ∈ V, (2147483647 : ℤ) ∣ u - v)
      ∧ ∀ seed k, ∑ i ∈ Finset.range d, c i * (lcgNext^[k + i + 1] seed : ℤ) ∈ V := by
  set N := ∑ i ∈ Finset.range d, max (-c i) 0 with hN
  set M := ∑ i ∈ Finset.range d, max (c i) 0 with hM
  set r := 1934915413 * ∑ i ∈ Finset.range d, c i with hr
  have hNM : N + M = T := by
    rw [← hT, hN, hM, ← Finset.sum_add_distrib]
    refine Finset.sum_congr rfl fun i _ => ?_
    rcases le_total (c i) 0 with h | h
    · rw [abs_of_nonpos h, max_eq_left (by omega), max_eq_right h, add_zero]
    · rw [abs_of_nonneg h, max_eq_right (by omega), max_eq_left h, zero_add]
  -- the first multiple above the lower bound
  set z0 := (-(N * 2147483646) - r + 2147483646) / 2147483647 with hz0
  refine ⟨(Finset.range T).image fun j : ℕ => 2147483647 * (z0 + j) + r, ?_, ?_, fun seed k => ?_⟩
  · exact Finset.card_image_le.trans (by simp)
  · intro u hu v hv
    obtain ⟨i, -, rfl⟩ := Finset.mem_image.mp hu
    obtain ⟨j, -, rfl⟩ := Finset.mem_image.mp hv
    exact ⟨(i : ℤ) - j, by ring⟩
  obtain ⟨z, hz⟩ := combination_mod d c h seed k
  obtain ⟨b1, b2⟩ := combination_bounds d c (fun i => (lcgNext^[k + i + 1] seed : ℤ)) 2147483646
    (fun i => by positivity) fun i => by
      have := iterate_lt seed (k + i)
      omega
  rw [← hN, neg_mul] at b1
  rw [← hM] at b2
  have hz' : ∑ i ∈ Finset.range d, c i * (lcgNext^[k + i + 1] seed : ℤ) = 2147483647 * z + r := by
    rw [← hr] at hz
    linarith
  rw [hz'] at b1 b2 ⊢
  clear_value z0 r N M
  have g1 : z0 ≤ z := by omega
  have g2 : z < z0 + T := by omega
  refine Finset.mem_image.mpr ⟨(z - z0).toNat, Finset.mem_range.mpr (by omega), ?_⟩
  rw [Int.toNat_of_nonneg (by omega)]
  ring

/-- The error of converting a state to `f32`. -/
theorem f32OfNat_near {n : Nat} (h : n < 2147483647) : |(f32OfNat n : ℝ) - n| ≤ 64 := by
  have key : f32OfNat n ≤ n + 64 ∧ n ≤ f32OfNat n + 64 := by
    unfold f32OfNat
    split
    · omega
    · rename_i hn
      have h1 : 24 ≤ Nat.log2 n := (Nat.le_log2 (by omega)).mpr (by omega)
      have h2 : Nat.log2 n < 31 := (Nat.log2_lt (by omega)).mpr (by omega)
      generalize Nat.log2 n = l at *
      simp only
      interval_cases l <;> norm_num only <;> split <;> omega
  obtain ⟨k1, k2⟩ := key
  rw [abs_le]
  have k1' : (f32OfNat n : ℝ) ≤ n + 64 := by exact_mod_cast k1
  have k2' : (n : ℝ) ≤ f32OfNat n + 64 := by exact_mod_cast k2
  constructor <;> linarith

/-! ## The draws -/

/-- C116. If the multiplier is a root modulo 2^31-1 of the polynomial with integer coefficients `c`, then
this combination of successive draws has at most `∑ |c i|` values, for all seeds and places together. They
are at least `1 - 2^-31` apart: the points of successive draws lie on so many parallel planes. -/
theorem C116_planes (d : Nat) (c : Nat → ℤ)
    (h : (2 ^ 31 - 1 : ℤ) ∣ ∑ i ∈ Finset.range d, c i * 1103515245 ^ i) (T : Nat)
    (hT : ∑ i ∈ Finset.range d, |c i| = T) (hT' : 0 < T) (hT2 : T < 2 ^ 31 - 1) :
    ∃ V : Finset ℝ, V.card ≤ T ∧ (∀ u ∈ V, ∀ v ∈ V, u ≠ v → 1 - 1 / 2 ^ 31 ≤ |u - v|)
      ∧ (∀ seed k, mixture d c seed k ∈ V)
      ∧ ∀ seed k, ∃ v ∈ V, |∑ i ∈ Finset.range d, (c i : ℝ) * ((f32OfNat (lcgNext^[k + i + 1] seed) : ℝ) / 2 ^ 31) - v|
        ≤ T / 2 ^ 25 := by
  obtain ⟨V, h1, h2, h3⟩ := combination_values d c h T hT hT' hT2
  have hm : ∀ seed k, mixture d c seed k
      = ((∑ i ∈ Finset.range d, c i * (lcgNext^[k + i + 1] seed : ℤ) : ℤ) : ℝ) / 2 ^ 31 := by
    intro seed k
    simp only [mixture, draw, Int.cast_sum, Int.cast_mul, Int.cast_natCast, Finset.sum_div, mul_div_assoc]
  have hmem : ∀ seed k, mixture d c seed k ∈ V.image fun z : ℤ => (z : ℝ) / 2 ^ 31 := by
    intro seed k
    rw [hm]
    exact Finset.mem_image_of_mem _ (h3 seed k)
  refine ⟨V.image fun z : ℤ => (z : ℝ) / 2 ^ 31, Finset.card_image_le.trans h1, ?_, hmem, fun seed k =>
    ⟨_, hmem seed k, ?_⟩⟩
  · intro u hu v hv huv
    obtain ⟨i, hi, rfl⟩ := Finset.mem_image.mp hu
    obtain ⟨j, hj, rfl⟩ := Finset.mem_image.mp hv
    obtain ⟨z, hz⟩ := h2 i hi j hj
    have hz0 : z ≠ 0 := by
      rintro rfl
      rw [mul_zero, sub_eq_zero] at hz
      exact huv (by rw [hz])
    have e : ((i : ℝ) / 2 ^ 31 - j / 2 ^ 31) = (1 - 1 / 2 ^ 31) * z := by
      have : (i : ℝ) - j = 2147483647 * z := by exact_mod_cast congrArg (Int.cast (R := ℝ)) hz
      rw [← sub_div, this]
      ring
    have hz1 : (1 : ℝ) ≤ |(z : ℝ)| := by exact_mod_cast Int.one_le_abs hz0
    rw [e, abs_mul, abs_of_nonneg (by norm_num)]
    nlinarith
  · rw [mixture, ← Finset.sum_sub_distrib]
    refine (Finset.abs_sum_le_sum_abs _ _).trans ?_
    have hTr : (T : ℝ) = ∑ i ∈ Finset.range d, |(c i : ℝ)| := by
      have := congrArg (Int.cast (R := ℝ)) hT
      push_cast at this
      exact this.symm
    rw [hTr, Finset.sum_div]
    refine Finset.sum_le_sum fun i _ => ?_
    rw [← mul_sub, abs_mul, div_eq_mul_one_div |(c i : ℝ)|]
    refine mul_le_mul_of_nonneg_left ?_ (abs_nonneg _)
    rw [draw, ← sub_div, abs_div, abs_of_nonneg (show (0 : ℝ) ≤ 2 ^ 31 by norm_num), div_le_div_iff₀ (by norm_num) (by norm_num)]
    have := f32OfNat_near (iterate_lt seed (k + i))
    nlinarith

/-- The coefficients of the planes for two, three, four and six successive draws. -/
def planeOf : List ℤ → Nat → ℤ := fun l i => l.getD i 0

/-- C116. Successive draws: pairs lie on 59983 lines, as real and imaginary parts of initial weights do;
triples on 1692 planes; four draws, as for a pair of noisy test samples, on 313; six, as for two waves, on
65. -/
theorem C116_small :
    (∃ V : Finset ℝ, V.card ≤ 59983 ∧ ∀ seed k, mixture 2 (planeOf [-8520, 51463]) seed k ∈ V)
      ∧ (∃ V : Finset ℝ, V.card ≤ 1692 ∧ ∀ seed k, mixture 3 (planeOf [66, 1207, 419]) seed k ∈ V)
      ∧ (∃ V : Finset ℝ, V.card ≤ 313 ∧ ∀ seed k, mixture 4 (planeOf [-145, -129, 35, 4]) seed k ∈ V)
      ∧ ∃ V : Finset ℝ, V.card ≤ 65 ∧ ∀ seed k, mixture 6 (planeOf [-34, 1, -1, -17, -4, 8]) seed k ∈ V := by
  refine ⟨?_, ?_, ?_, ?_⟩
  · obtain ⟨V, h1, -, h2, -⟩ := C116_planes 2 (planeOf [-8520, 51463]) (by decide) 59983 (by decide) (by norm_num)
      (by norm_num)
    exact ⟨V, h1, h2⟩
  · obtain ⟨V, h1, -, h2, -⟩ := C116_planes 3 (planeOf [66, 1207, 419]) (by decide) 1692 (by decide) (by norm_num)
      (by norm_num)
    exact ⟨V, h1, h2⟩
  · obtain ⟨V, h1, -, h2, -⟩ := C116_planes 4 (planeOf [-145, -129, 35, 4]) (by decide) 313 (by decide) (by norm_num)
      (by norm_num)
    exact ⟨V, h1, h2⟩
  · obtain ⟨V, h1, -, h2, -⟩ := C116_planes 6 (planeOf [-34, 1, -1, -17, -4, 8]) (by decide) 65 (by decide)
      (by norm_num) (by norm_num)
    exact ⟨V, h1, h2⟩

/-- C116. The amplitude, frequency and phase of every wave of every signal lie on 1692 parallel planes. -/
theorem C116_waves : ∃ V : Finset ℝ, V.card ≤ 1692 ∧ ∀ seed k, 66 * (waveAt seed k).1
    + 1207 * (waveAt seed k).2.1 + 419 * (9 / 10) * ((waveAt seed k).2.2 / (2 * Real.pi)) ∈ V := by
  obtain ⟨V, h1, h2⟩ := C116_small.2.1
  refine ⟨V.image fun v => 9 / 10 * v + 1273 / 10, Finset.card_image_le.trans h1, fun seed k =>
    Finset.mem_image.mpr ⟨_, h2 seed (3 * k + 1), ?_⟩⟩
  simp only [mixture, Finset.sum_range_succ, Finset.sum_range_zero, planeOf, waveAt]
  rw [mul_div_cancel_left₀ _ (by positivity)]
  norm_num
  ring

/-- C116. Draws that could be any three states would not: already the first of them alone gives as many
values as there are states. -/
theorem C116_contrast (V : Finset ℝ) (h : ∀ x y z : Nat, x < 2 ^ 31 - 1 → y < 2 ^ 31 - 1 → z < 2 ^ 31 - 1 →
    66 * ((x : ℝ) / 2 ^ 31) + 1207 * ((y : ℝ) / 2 ^ 31) + 419 * ((z : ℝ) / 2 ^ 31) ∈ V) :
    2 ^ 31 - 1 ≤ V.card := by
  have := Finset.card_le_card_of_injOn (s := Finset.range (2 ^ 31 - 1)) (t := V)
    (fun x : Nat => 66 * ((x : ℝ) / 2 ^ 31) + 1207 * (((0 : Nat) : ℝ) / 2 ^ 31) + 419 * (((0 : Nat) : ℝ) / 2 ^ 31))
    (fun x hx => h x 0 0 (Finset.mem_range.mp hx) (by norm_num) (by norm_num)) (fun x _ y _ hxy => by
      have : (x : ℝ) = y := by
        simp only at hxy
        linarith
      exact_mod_cast this)
  rwa [Finset.card_range] at this

end Renplex
