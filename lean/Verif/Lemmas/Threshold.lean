import Verif.Lemmas.LeastSquares
/-!
# Which rates gradient descent for least squares tolerates

As in `Verif.Lemmas.LeastSquares`; this file is about mathematics only.
-/

namespace Renplex.LeastSquares
open Filter Topology

variable {H F : Type*} [NormedAddCommGroup H] [InnerProductSpace ℂ H]
  [NormedAddCommGroup F] [InnerProductSpace ℂ F]
variable {A : H →ₗ[ℂ] F} {A' : F →ₗ[ℂ] H} {t : F} {η K : ℝ} {v : H} {θ : Nat → H}

/-- `K` is the least number with `‖A h‖² ≤ K‖h‖²` for all `h`, attained at the unit vector `v`. -/
structure Top (A : H →ₗ[ℂ] F) (A' : F →ₗ[ℂ] H) (K : ℝ) (v : H) : Prop where
  adj : ∀ h y, inner ℂ (A h) y = inner ℂ h (A' y)
  bound : ∀ h, ‖A h‖ ^ 2 ≤ K * ‖h‖ ^ 2
  unit : ‖v‖ = 1
  top : ‖A v‖ ^ 2 = K

theorem Top.nonneg (s : Top A A' K v) : 0 ≤ K := by
  rw [← s.top]
  positivity

theorem Top.setting (s : Top A A' K v) (h0 : 0 < η) (h1 : η * K < 2) : Setting A A' η K :=
  ⟨s.adj, s.bound, h0, h1⟩

theorem Top.any (s : Top A A' K v) : Setting A A' (1 / (K + 1)) K := by
  have h := s.nonneg
  refine ⟨s.adj, s.bound, by positivity, ?_⟩
  rw [one_div, inv_mul_lt_iff₀ (by linarith)]
  linarith

theorem Top.back (s : Top A A' K v) (d : H) : ‖A' (A d)‖ ^ 2 ≤ K * ‖A d‖ ^ 2 := by
  have e1 : ‖A' (A d)‖ ^ 2 ≤ ‖A d‖ * ‖A (A' (A d))‖ := by
    have : ‖A' (A d)‖ ^ 2 = (inner ℂ (A d) (A (A' (A d)))).re := by
      rw [s.any.re]
      exact (inner_self_eq_norm_sq (𝕜 := ℂ) _).symm
    rw [this]
    exact (Complex.re_le_norm _).trans (norm_inner_le_norm _ _)
  have e2 := s.bound (A' (A d))
  have hK := s.nonneg
  rcases (sq_nonneg ‖A' (A d)‖).eq_or_lt with h0 | h0
  · rw [← h0]
    positivity
  · have e4 : (‖A' (A d)‖ ^ 2) ^ 2 ≤ ‖A d‖ ^ 2 * (K * ‖A' (A d)‖ ^ 2) := by
      calc (‖A' (A d)‖ ^ 2) ^ 2 ≤ (‖A d‖ * ‖A (A' (A d))‖) ^ 2 := by gcongr
        _ = ‖A d‖ ^ 2 * ‖A (A' (A d))‖ ^ 2 := by ring
        _ ≤ _ := by gcongr
    have e5 : ‖A' (A d)‖ ^ 2 * ‖A' (A d)‖ ^ 2 ≤ (K * ‖A d‖ ^ 2) * ‖A' (A d)‖ ^ 2 := by
      calc _ = (‖A' (A d)‖ ^ 2) ^ 2 := by ring
        _ ≤ _ := e4
        _ = _ := by ring
    exact le_of_mul_le_mul_right e5 h0

theorem Top.eigen (s : Top A A' K v) : A' (A v) = (K : ℂ) • v := by
  have h1 : ‖A' (A v) - (K : ℂ) • v‖ ^ 2 ≤ 0 := by
    have h2 : (inner ℂ (A' (A v)) v).re = K := by
      rw [← s.any.re, ← s.top]
      exact inner_self_eq_norm_sq (𝕜 := ℂ) _
    rw [norm_sub_re, inner_real_smul, norm_real_smul, h2, s.unit]
    have := s.back v
    rw [s.top] at this
    nlinarith
  have h3 : ‖A' (A v) - (K : ℂ) • v‖ = 0 := by nlinarith [norm_nonneg (A' (A v) - (K : ℂ) • v)]
  exact sub_eq_zero.mp (norm_eq_zero.mp h3)

/-- The maximum is attained. -/
theorem exists_top [FiniteDimensional ℂ H] [Nontrivial H] (adj : ∀ h y, inner ℂ (A h) y = inner ℂ h (A' y)) :
    ∃ K v, Top A A' K v := by
  have : ProperSpace H := FiniteDimensional.proper ℂ H
  have : NormedSpace ℝ H := NormedSpace.restrictScalars ℝ ℂ H
  have hc : Continuous A := LinearMap.continuous_of_finiteDimensional A
  have hE : Continuous fun x => ‖A x‖ ^ 2 := by fun_prop
  have hne : (Metric.sphere (0 : H) 1).Nonempty := by
    obtain ⟨x, hx⟩ := exists_ne (0 : H)
    refine ⟨((‖x‖⁻¹ : ℝ) : ℂ) • x, ?_⟩
    rw [mem_sphere_zero_iff_norm, norm_smul, Complex.norm_real, norm_inv, norm_norm]
    exact inv_mul_cancel₀ (norm_ne_zero_iff.mpr hx)
  obtain ⟨v, hv, hmax⟩ := (isCompact_sphere (0 : H) 1).exists_isMaxOn hne hE.continuousOn
  refine ⟨‖A v‖ ^ 2, v, adj, fun h => ?_, mem_sphere_zero_iff_norm.mp hv, rfl⟩
  rcases eq_or_ne h 0 with rfl | hh
  · simp
  · have hn : 0 < ‖h‖ := norm_pos_iff.mpr hh
    have h1 : ((‖h‖⁻¹ : ℝ) : ℂ) • h ∈ Metric.sphere (0 : H) 1 := by
      rw [mem_sphere_zero_iff_norm, norm_smul, Complex.norm_real, norm_inv, norm_norm]
      exact inv_mul_cancel₀ hn.ne'
    have h2 : ‖A (((‖h‖⁻¹ : ℝ) : ℂ) • h)‖ ^ 2 ≤ ‖A v‖ ^ 2 := hmax h1
    rw [map_smul, norm_real_smul, inv_pow, inv_mul_le_iff₀ (by positivity)] at h2
    linarith

/-- The component along `v` of the distance to a point of least error is multiplied by `1 - η K`. -/
theorem Top.coord (s : Top A A' K v) {m : H} (hm : ∀ x, ‖A m - t‖ ^ 2 ≤ ‖A x - t‖ ^ 2) (x : H) :
    inner ℂ v (next A A' t η x - m) = (1 - (η : ℂ) * K) * inner ℂ v (x - m) := by
  have hst := s.any.stationary hm
  have hg : A' (A x - t) = A' (A (x - m)) := by
    have : A x - t = A (x - m) + (A m - t) := by
      rw [map_sub]; abel
    rw [this, map_add, hst, add_zero]
  have h1 : next A A' t η x - m = (x - m) - (η : ℂ) • A' (A (x - m)) := by
    rw [next, hg]
    abel
  have h2 : inner ℂ v (A' (A (x - m))) = (K : ℂ) * inner ℂ v (x - m) := by
    rw [← s.adj, ← inner_conj_symm, s.adj, s.eigen, inner_conj_symm, inner_smul_left, Complex.conj_ofReal]
  rw [h1, inner_sub_right, inner_smul_right, h2]
  ring

theorem Top.coords (s : Top A A' K v) {m : H} (hm : ∀ x, ‖A m - t‖ ^ 2 ≤ ‖A x - t‖ ^ 2)
    (hθ : ∀ k, θ (k + 1) = next A A' t η (θ k)) (T : Nat) :
    inner ℂ v (θ T - m) = (1 - (η : ℂ) * K) ^ T * inner ℂ v (θ 0 - m) := by
  induction T with
  | zero => simp
  | succ T ih =>
    rw [hθ, s.coord hm, ih]
    ring

/-- The excess is at least the part of it along `v`. -/
theorem Top.lower (s : Top A A' K v) (d : H) : K * ‖(inner ℂ v d : ℂ)‖ ^ 2 ≤ ‖A d‖ ^ 2 := by
  have h1 : inner ℂ (A v) (A d) = (K : ℂ) * inner ℂ v d := by
    rw [← inner_conj_symm, s.adj, s.eigen, inner_conj_symm, inner_smul_left, Complex.conj_ofReal]
  have hK := s.nonneg
  have h2 : K * ‖(inner ℂ v d : ℂ)‖ ≤ ‖A v‖ * ‖A d‖ := by
    have := norm_inner_le_norm (𝕜 := ℂ) (A v) (A d)
    rwa [h1, norm_mul, Complex.norm_real, Real.norm_of_nonneg hK] at this
  have h3 : K * (K * ‖(inner ℂ v d : ℂ)‖ ^ 2) ≤ K * ‖A d‖ ^ 2 := by
    calc K * (K * ‖(inner ℂ v d : ℂ)‖ ^ 2) = (K * ‖(inner ℂ v d : ℂ)‖) ^ 2 := by ring
      _ ≤ (‖A v‖ * ‖A d‖) ^ 2 := by gcongr
      _ = _ := by rw [mul_pow, s.top]
  rcases hK.eq_or_lt with h0 | h0
  · rw [← h0, zero_mul]
    positivity
  · exact le_of_mul_le_mul_left h3 h0

theorem Top.excess_ge (s : Top A A' K v) {m : H} (hm : ∀ x, ‖A m - t‖ ^ 2 ≤ ‖A x - t‖ ^ 2)
    (hθ : ∀ k, θ (k + 1) = next A A' t η (θ k)) (T : Nat) :
    ((1 - η * K) ^ 2) ^ T * (K * ‖(inner ℂ v (θ 0 - m) : ℂ)‖ ^ 2) ≤ ‖A (θ T) - t‖ ^ 2 - ‖A m - t‖ ^ 2 := by
  have h1 := s.lower (θ T - m)
  rw [s.coords hm hθ, norm_mul, norm_pow] at h1
  have h2 : ‖(1 - (η : ℂ) * K)‖ = |1 - η * K| := by
    rw [← Complex.ofReal_mul, ← Complex.ofReal_one, ← Complex.ofReal_sub, Complex.norm_real, Real.norm_eq_abs]
  rw [h2] at h1
  have h3 := s.any.excess (s.any.stationary hm) (θ T)
  have h4 : (|1 - η * K| ^ T * ‖(inner ℂ v (θ 0 - m) : ℂ)‖) ^ 2
      = ((1 - η * K) ^ 2) ^ T * ‖(inner ℂ v (θ 0 - m) : ℂ)‖ ^ 2 := by
    rw [mul_pow, ← pow_mul, Nat.mul_comm, pow_mul, sq_abs]
  rw [h4] at h1
  linarith

/-- Above the threshold the errors tend to infinity, from every start with a component along `v`. -/
theorem Top.diverges (s : Top A A' K v) (hη : 2 < η * K) {m : H} (hm : ∀ x, ‖A m - t‖ ^ 2 ≤ ‖A x - t‖ ^ 2)
    (hθ : ∀ k, θ (k + 1) = next A A' t η (θ k)) (h0 : (inner ℂ v (θ 0 - m) : ℂ) ≠ 0) :
    Tendsto (fun k => ‖A (θ k) - t‖ ^ 2) atTop atTop := by
  have hK : 0 < K := by
    rcases s.nonneg.eq_or_lt with h | h
    · rw [← h, mul_zero] at hη
      linarith
    · exact h
  have h1 : 1 < (1 - η * K) ^ 2 := by nlinarith
  have h2 : 0 < K * ‖(inner ℂ v (θ 0 - m) : ℂ)‖ ^ 2 := by
    have : 0 < ‖(inner ℂ v (θ 0 - m) : ℂ)‖ := norm_pos_iff.mpr h0
    positivity
  refine tendsto_atTop_mono (fun T => ?_) ((tendsto_pow_atTop_atTop_of_one_lt h1).atTop_mul_const h2)
  have := s.excess_ge hm hθ T
  have := sq_nonneg ‖A m - t‖
  linarith

/-- At the threshold the errors do not come down to the least one, from any such start. -/
theorem Top.edge (s : Top A A' K v) (hη : η * K = 2) {m : H} (hm : ∀ x, ‖A m - t‖ ^ 2 ≤ ‖A x - t‖ ^ 2)
    (hθ : ∀ k, θ (k + 1) = next A A' t η (θ k)) (T : Nat) :
    K * ‖(inner ℂ v (θ 0 - m) : ℂ)‖ ^ 2 ≤ ‖A (θ T) - t‖ ^ 2 - ‖A m - t‖ ^ 2 := by
  have := s.excess_ge hm hθ T
  rw [hη] at this
  norm_num at this
  linarith

/-- With a negative rate the errors tend to infinity, from every start without least error. -/
theorem Top.negative [FiniteDimensional ℂ H] (s : Top A A' K v) (hη : η < 0) {m : H}
    (hm : ∀ x, ‖A m - t‖ ^ 2 ≤ ‖A x - t‖ ^ 2)
    (hθ : ∀ k, θ (k + 1) = next A A' t η (θ k)) (h0 : ‖A m - t‖ ^ 2 < ‖A (θ 0) - t‖ ^ 2) :
    StrictMono (fun k => ‖A (θ k) - t‖ ^ 2) ∧ Tendsto (fun k => ‖A (θ k) - t‖ ^ 2) atTop atTop := by
  have hst := s.any.stationary hm
  have hexc := s.any.excess hst
  set G : (LinearMap.range A) →ₗ[ℂ] H := A'.comp (LinearMap.range A).subtype with hG
  have hinj : LinearMap.ker G = ⊥ := by
    rw [LinearMap.ker_eq_bot']
    rintro ⟨y, u, rfl⟩ h
    have h1 : A' (A u) = 0 := h
    have h2 : inner ℂ (A u) (A u) = 0 := by rw [s.adj, h1, inner_zero_right]
    have h3 : A u = 0 := inner_self_eq_zero.mp h2
    exact Subtype.ext h3
  obtain ⟨C, hC, hanti⟩ := G.exists_antilipschitzWith hinj
  have hPL : ∀ u, ‖A u‖ ^ 2 ≤ C ^ 2 * ‖A' (A u)‖ ^ 2 := by
    intro u
    have h1 := hanti.le_mul_norm (map_zero G) ⟨A u, u, rfl⟩
    have h2 : ‖A u‖ ≤ C * ‖A' (A u)‖ := h1
    rw [← mul_pow]
    gcongr
  have hC2 : 0 < (C : ℝ) ^ 2 := by
    have : (0 : ℝ) < C := by exact_mod_cast hC
    positivity
  set ρ : ℝ := 1 + 2 * (-η) / C ^ 2 with hρ
  have hρ1 : 1 < ρ := by
    have : 0 < 2 * (-η) / (C : ℝ) ^ 2 := by
      have : 0 < -η := by linarith
      positivity
    linarith
  have hstep : ∀ x, ρ * (‖A x - t‖ ^ 2 - ‖A m - t‖ ^ 2) ≤ ‖A (next A A' t η x) - t‖ ^ 2 - ‖A m - t‖ ^ 2 := by
    intro x
    rw [hexc x, hexc (next A A' t η x)]
    obtain ⟨d, hd⟩ : ∃ d, d = x - m := ⟨_, rfl⟩
    rw [← hd]
    have hg : A' (A x - t) = A' (A d) := by
      have : A x - t = A d + (A m - t) := by
        rw [hd, map_sub]; abel
      rw [this, map_add, hst, add_zero]
    have h1 : next A A' t η x - m = d - (η : ℂ) • A' (A d) := by
      rw [next, hg, hd]
      abel
    have h2 : (inner ℂ (A d) (A (A' (A d)))).re = ‖A' (A d)‖ ^ 2 := by
      rw [s.any.re]
      exact inner_self_eq_norm_sq (𝕜 := ℂ) _
    rw [h1, A.map_sub, A.map_smul, norm_sub_re (A d), inner_real_smul, norm_real_smul, h2]
    have h3 := hPL d
    have h4 : ‖A d‖ ^ 2 / C ^ 2 ≤ ‖A' (A d)‖ ^ 2 := by
      rw [div_le_iff₀ hC2]
      linarith
    have h5 : ρ * ‖A d‖ ^ 2 = ‖A d‖ ^ 2 + 2 * (-η) * (‖A d‖ ^ 2 / C ^ 2) := by
      rw [hρ]
      ring
    have h6 : 0 ≤ η ^ 2 * ‖A (A' (A d))‖ ^ 2 := by positivity
    have h7 : 2 * (-η) * (‖A d‖ ^ 2 / C ^ 2) ≤ 2 * (-η) * ‖A' (A d)‖ ^ 2 := by
      have : 0 < -η := by linarith
      gcongr
    linarith
  have hpow : ∀ T, ρ ^ T * (‖A (θ 0) - t‖ ^ 2 - ‖A m - t‖ ^ 2) ≤ ‖A (θ T) - t‖ ^ 2 - ‖A m - t‖ ^ 2 := by
    intro T
    induction T with
    | zero => simp
    | succ T ih =>
      rw [hθ, pow_succ']
      refine le_trans ?_ (hstep (θ T))
      rw [mul_assoc]
      gcongr
  have hpos : 0 < ‖A (θ 0) - t‖ ^ 2 - ‖A m - t‖ ^ 2 := by linarith
  constructor
  · refine strictMono_nat_of_lt_succ fun k => ?_
    have h1 := hstep (θ k)
    rw [← hθ] at h1
    have h2 : 0 < ‖A (θ k) - t‖ ^ 2 - ‖A m - t‖ ^ 2 := by
      refine lt_of_lt_of_le ?_ (hpow k)
      positivity
    nlinarith
  · refine tendsto_atTop_mono (fun T => ?_) ((tendsto_pow_atTop_atTop_of_one_lt hρ1).atTop_mul_const hpos)
    have := hpow T
    have := sq_nonneg ‖A m - t‖
    linarith

end Renplex.LeastSquares
