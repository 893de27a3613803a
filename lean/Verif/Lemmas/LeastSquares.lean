import Mathlib.Analysis.InnerProductSpace.PiL2
import Mathlib.Analysis.InnerProductSpace.Projection.Minimal
import Mathlib.Topology.MetricSpace.ProperSpace
import Mathlib.Topology.Algebra.Module.FiniteDimension
/-!
# Gradient descent for least squares

`A` is a linear map between finite-dimensional complex inner product spaces with adjoint `A'`, and
`θ (k + 1) = θ k - η A' (A (θ k) - t)`. This file is about mathematics only.
-/

namespace Renplex.LeastSquares
open Filter Topology

variable {H F : Type*} [NormedAddCommGroup H] [InnerProductSpace ℂ H]
  [NormedAddCommGroup F] [InnerProductSpace ℂ F]

/-- Twice the real part of an inner product, from norms. -/
theorem norm_sub_re (x y : F) : ‖x - y‖ ^ 2 = ‖x‖ ^ 2 - 2 * (inner ℂ x y).re + ‖y‖ ^ 2 :=
  norm_sub_sq (𝕜 := ℂ) x y

variable {A : H →ₗ[ℂ] F} {A' : F →ₗ[ℂ] H} {t : F} {η K : ℝ}

/-- What is assumed: `A'` is adjoint to `A`, `‖A h‖² ≤ K‖h‖²`, `0 < η` and `η K < 2`. -/
structure Setting (A : H →ₗ[ℂ] F) (A' : F →ₗ[ℂ] H) (η K : ℝ) : Prop where
  adj : ∀ h y, inner ℂ (A h) y = inner ℂ h (A' y)
  bound : ∀ h, ‖A h‖ ^ 2 ≤ K * ‖h‖ ^ 2
  pos : 0 < η
  small : η * K < 2

theorem Setting.re (s : Setting A A' η K) (h : H) (y : F) :
    (inner ℂ y (A h)).re = (inner ℂ (A' y) h).re := by
  rw [← inner_conj_symm, s.adj, ← inner_conj_symm (A' y)]

/-- One step. -/
noncomputable def next (A : H →ₗ[ℂ] F) (A' : F →ₗ[ℂ] H) (t : F) (η : ℝ) (θ : H) : H :=
  θ - (η : ℂ) • A' (A θ - t)

theorem norm_real_smul (η : ℝ) (x : F) : ‖(η : ℂ) • x‖ ^ 2 = η ^ 2 * ‖x‖ ^ 2 := by
  rw [norm_smul, mul_pow, Complex.norm_real, Real.norm_eq_abs, sq_abs]

theorem inner_real_smul (η : ℝ) (x y : F) : (inner ℂ x ((η : ℂ) • y)).re = η * (inner ℂ x y).re := by
  rw [inner_smul_right, Complex.re_ofReal_mul]

theorem Setting.pos' (s : Setting A A' η K) : 0 < η * (2 - η * K) :=
  mul_pos s.pos (by linarith [s.small])

/-- The error falls by at least a fixed multiple of the squared gradient. -/
theorem Setting.descent (s : Setting A A' η K) (θ : H) :
    ‖A (next A A' t η θ) - t‖ ^ 2 ≤ ‖A θ - t‖ ^ 2 - η * (2 - η * K) * ‖A' (A θ - t)‖ ^ 2 := by
  set r := A θ - t
  set g := A' r
  have h1 : A (next A A' t η θ) - t = r - (η : ℂ) • A g := by
    simp only [next, map_sub, map_smul, r, g]
    abel
  have h2 : (inner ℂ r (A g)).re = ‖g‖ ^ 2 := by
    rw [s.re]
    exact inner_self_eq_norm_sq (𝕜 := ℂ) g
  rw [h1, norm_sub_re, inner_real_smul, norm_real_smul, h2]
  have h3 := s.bound g
  have h4 : η ^ 2 * ‖A g‖ ^ 2 ≤ η ^ 2 * (K * ‖g‖ ^ 2) := by gcongr
  linarith

/-- The squared distance to any point falls by at least `η` times the excess of the new error. -/
theorem Setting.approach (s : Setting A A' η K) (hs : η * K ≤ 1) (θ θ' : H) :
    ‖next A A' t η θ - θ'‖ ^ 2
      ≤ ‖θ - θ'‖ ^ 2 - η * (‖A (next A A' t η θ) - t‖ ^ 2 - ‖A θ' - t‖ ^ 2) := by
  have hd : ‖A (next A A' t η θ) - t‖ ^ 2 ≤ ‖A θ - t‖ ^ 2 - η * ‖A' (A θ - t)‖ ^ 2 := by
    have h1 := s.descent (t := t) θ
    have h2 : η * 1 * ‖A' (A θ - t)‖ ^ 2 ≤ η * (2 - η * K) * ‖A' (A θ - t)‖ ^ 2 := by
      have := s.pos
      gcongr
      linarith
    linarith
  set e' := ‖A (next A A' t η θ) - t‖ ^ 2
  set r := A θ - t
  set g := A' r
  have h1 : next A A' t η θ - θ' = (θ - θ') - (η : ℂ) • g := by
    simp only [next, r, g]
    abel
  have h2 : (inner ℂ (θ - θ') g).re = (inner ℂ r (A (θ - θ'))).re := by
    rw [s.re, ← inner_conj_symm, Complex.conj_re]
  have h3 : ‖A θ' - t‖ ^ 2 = ‖r‖ ^ 2 - 2 * (inner ℂ r (A (θ - θ'))).re + ‖A (θ - θ')‖ ^ 2 := by
    rw [← norm_sub_re]
    congr 2
    simp only [r, map_sub]
    abel
  rw [h1, norm_sub_re, inner_real_smul, norm_real_smul, h2]
  have h4 : η * (η * ‖g‖ ^ 2) ≤ η * (‖r‖ ^ 2 - e') := by
    have := s.pos
    gcongr
    linarith
  have h5 : 0 ≤ η * ‖A (θ - θ')‖ ^ 2 := by
    have := s.pos
    positivity
  have h6 : η * ‖A θ' - t‖ ^ 2
      = η * ‖r‖ ^ 2 - 2 * (η * (inner ℂ r (A (θ - θ'))).re) + η * ‖A (θ - θ')‖ ^ 2 := by
    rw [h3]; ring
  nlinarith

variable {θ : Nat → H}

theorem Setting.antitone (s : Setting A A' η K) (hθ : ∀ k, θ (k + 1) = next A A' t η (θ k)) :
    Antitone fun k => ‖A (θ k) - t‖ ^ 2 :=
  antitone_nat_of_succ_le fun k => by
    have := s.descent (t := t) (θ k)
    have h := s.pos'
    have : 0 ≤ η * (2 - η * K) * ‖A' (A (θ k) - t)‖ ^ 2 := by positivity
    rw [hθ]
    linarith

theorem Setting.sum (s : Setting A A' η K) (hs : η * K ≤ 1) (hθ : ∀ k, θ (k + 1) = next A A' t η (θ k)) (θ' : H)
    (T : Nat) :
    ‖θ T - θ'‖ ^ 2 + T * (η * (‖A (θ T) - t‖ ^ 2 - ‖A θ' - t‖ ^ 2)) ≤ ‖θ 0 - θ'‖ ^ 2 := by
  induction T with
  | zero => simp
  | succ T ih =>
    have h1 := s.approach hs (t := t) (θ T) θ'
    rw [← hθ] at h1
    have h2 : ‖A (θ (T + 1)) - t‖ ^ 2 ≤ ‖A (θ T) - t‖ ^ 2 := s.antitone hθ T.le_succ
    have h3 : (T : ℝ) * (η * (‖A (θ (T + 1)) - t‖ ^ 2 - ‖A θ' - t‖ ^ 2))
        ≤ T * (η * (‖A (θ T) - t‖ ^ 2 - ‖A θ' - t‖ ^ 2)) := by
      have := s.pos
      gcongr
    push_cast
    linarith

/-- After `T ≥ 1` steps the error exceeds that of any point `θ'` by at most
`‖θ₀ - θ'‖² / (η T)`. -/
theorem Setting.rate (s : Setting A A' η K) (hs : η * K ≤ 1) (hθ : ∀ k, θ (k + 1) = next A A' t η (θ k)) (θ' : H)
    {T : Nat} (hT : 1 ≤ T) :
    ‖A (θ T) - t‖ ^ 2 ≤ ‖A θ' - t‖ ^ 2 + ‖θ 0 - θ'‖ ^ 2 / (η * T) := by
  have h1 := s.sum hs hθ θ' T
  have h2 : 0 ≤ ‖θ T - θ'‖ ^ 2 := by positivity
  have h3 : 0 < η * T := mul_pos s.pos (by exact_mod_cast hT)
  rw [← sub_le_iff_le_add', le_div_iff₀ h3]
  nlinarith

/-- Points without a better neighbour: at a zero of the gradient the error is least. -/
theorem Setting.excess (s : Setting A A' η K) {θ' : H} (hg : A' (A θ' - t) = 0) (x : H) :
    ‖A x - t‖ ^ 2 = ‖A θ' - t‖ ^ 2 + ‖A (x - θ')‖ ^ 2 := by
  have h1 : A x - t = (A θ' - t) - A (θ' - x) := by
    simp only [map_sub]
    abel
  rw [h1, norm_sub_re, s.re, hg, inner_zero_left, Complex.zero_re, mul_zero, sub_zero,
    ← neg_sub x θ', map_neg, norm_neg]

/-- A point of least error has gradient zero. -/
theorem Setting.stationary (s : Setting A A' η K) {θ' : H}
    (hm : ∀ x, ‖A θ' - t‖ ^ 2 ≤ ‖A x - t‖ ^ 2) : A' (A θ' - t) = 0 := by
  have h1 := s.descent (t := t) θ'
  have h2 := hm (next A A' t η θ')
  have h3 : η * (2 - η * K) * ‖A' (A θ' - t)‖ ^ 2 ≤ 0 := by linarith
  have h4 : ‖A' (A θ' - t)‖ ^ 2 ≤ 0 := by
    by_contra h
    push Not at h
    have := mul_pos s.pos' h
    linarith
  have h5 : ‖A' (A θ' - t)‖ = 0 := by nlinarith [norm_nonneg (A' (A θ' - t))]
  exact norm_eq_zero.mp h5

/-- The squared distance to a point of least error falls by a fixed multiple of the excess. -/
theorem Setting.nearer (s : Setting A A' η K) (θ : H) {m : H}
    (hm : ∀ x, ‖A m - t‖ ^ 2 ≤ ‖A x - t‖ ^ 2) :
    ‖next A A' t η θ - m‖ ^ 2
      ≤ ‖θ - m‖ ^ 2 - η * (2 - η * K) * (‖A θ - t‖ ^ 2 - ‖A m - t‖ ^ 2) := by
  have hst := s.stationary hm
  rw [s.excess hst θ, add_sub_cancel_left]
  set d := θ - m
  have hg : A' (A θ - t) = A' (A d) := by
    have : A θ - t = A d + (A m - t) := by
      simp only [d, map_sub]; abel
    rw [this, map_add, hst, add_zero]
  have h1 : next A A' t η θ - m = d - (η : ℂ) • A' (A d) := by
    rw [next, hg]
    simp only [d]
    abel
  have h2 : (inner ℂ d (A' (A d))).re = ‖A d‖ ^ 2 := by
    rw [← s.adj]
    exact inner_self_eq_norm_sq (𝕜 := ℂ) (A d)
  have h3 : ‖A' (A d)‖ ^ 2 ≤ K * ‖A d‖ ^ 2 := by
    have e1 : ‖A' (A d)‖ ^ 2 = (inner ℂ (A d) (A (A' (A d)))).re := by
      rw [s.re]
      exact (inner_self_eq_norm_sq (𝕜 := ℂ) _).symm
    have e2 : ‖A' (A d)‖ ^ 2 ≤ ‖A d‖ * ‖A (A' (A d))‖ := by
      rw [e1]
      exact (Complex.re_le_norm _).trans (norm_inner_le_norm _ _)
    have e3 := s.bound (A' (A d))
    rcases (sq_nonneg ‖A' (A d)‖).eq_or_lt with h0 | h0
    · rw [← h0]
      have := (sq_nonneg _).trans (s.bound d)
      by_contra hc
      push Not at hc
      have hA : 0 < ‖A d‖ ^ 2 := by
        rcases (sq_nonneg ‖A d‖).eq_or_lt with h | h
        · rw [← h, mul_zero] at hc; exact absurd hc (lt_irrefl _)
        · exact h
      have hK : K < 0 := by
        by_contra hK
        push Not at hK
        have := mul_nonneg hK hA.le
        linarith
      have h5 := s.bound d
      have := mul_nonpos_of_nonpos_of_nonneg hK.le (sq_nonneg ‖d‖)
      linarith
    · have e4 : (‖A' (A d)‖ ^ 2) ^ 2 ≤ ‖A d‖ ^ 2 * (K * ‖A' (A d)‖ ^ 2) := by
        calc (‖A' (A d)‖ ^ 2) ^ 2 ≤ (‖A d‖ * ‖A (A' (A d))‖) ^ 2 := by gcongr
          _ = ‖A d‖ ^ 2 * ‖A (A' (A d))‖ ^ 2 := by ring
          _ ≤ _ := by gcongr
      have e5 : ‖A' (A d)‖ ^ 2 * ‖A' (A d)‖ ^ 2 ≤ (K * ‖A d‖ ^ 2) * ‖A' (A d)‖ ^ 2 := by
        calc _ = (‖A' (A d)‖ ^ 2) ^ 2 := by ring
          _ ≤ _ := e4
          _ = _ := by ring
      exact le_of_mul_le_mul_right e5 h0
  rw [h1, norm_sub_re, inner_real_smul, norm_real_smul, h2]
  have h4 : η ^ 2 * ‖A' (A d)‖ ^ 2 ≤ η ^ 2 * (K * ‖A d‖ ^ 2) := by gcongr
  linarith

theorem Setting.sum' (s : Setting A A' η K) (hθ : ∀ k, θ (k + 1) = next A A' t η (θ k)) {m : H}
    (hm : ∀ x, ‖A m - t‖ ^ 2 ≤ ‖A x - t‖ ^ 2) (T : Nat) :
    ‖θ T - m‖ ^ 2 + T * (η * (2 - η * K) * (‖A (θ T) - t‖ ^ 2 - ‖A m - t‖ ^ 2)) ≤ ‖θ 0 - m‖ ^ 2 := by
  induction T with
  | zero => simp
  | succ T ih =>
    have h1 := s.nearer (θ T) hm
    rw [← hθ] at h1
    have h2 : ‖A (θ (T + 1)) - t‖ ^ 2 ≤ ‖A (θ T) - t‖ ^ 2 := s.antitone hθ T.le_succ
    have h0 := s.pos'
    have h3 : ((T : ℝ) + 1) * (η * (2 - η * K) * (‖A (θ (T + 1)) - t‖ ^ 2 - ‖A m - t‖ ^ 2))
        ≤ (T + 1) * (η * (2 - η * K) * (‖A (θ T) - t‖ ^ 2 - ‖A m - t‖ ^ 2)) := by
      gcongr
    push_cast
    linarith

section
variable [FiniteDimensional ℂ H]

/-- There is a point of least error. -/
theorem exists_least (A : H →ₗ[ℂ] F) (t : F) : ∃ θ', ∀ x, ‖A θ' - t‖ ^ 2 ≤ ‖A x - t‖ ^ 2 := by
  obtain ⟨y, hy, hmin⟩ := Submodule.exists_norm_eq_iInf_of_complete_subspace (LinearMap.range A)
    (Submodule.complete_of_finiteDimensional _) t
  obtain ⟨θ', rfl⟩ := hy
  refine ⟨θ', fun x => ?_⟩
  have h1 : ‖t - A θ'‖ ≤ ‖t - A x‖ := by
    rw [hmin]
    exact ciInf_le ⟨0, by rintro _ ⟨z, rfl⟩; exact norm_nonneg _⟩
      (⟨A x, LinearMap.mem_range_self A x⟩ : (LinearMap.range A : Submodule ℂ F))
  rw [norm_sub_rev (A θ'), norm_sub_rev (A x)]
  gcongr

/-- The sequence converges to a point of least error, and among all points of least error this is
the one nearest to the start. -/
theorem Setting.converges (s : Setting A A' η K) (hθ : ∀ k, θ (k + 1) = next A A' t η (θ k)) :
    ∃ θ' : H, Tendsto θ atTop (𝓝 θ') ∧ (∀ x, ‖A θ' - t‖ ^ 2 ≤ ‖A x - t‖ ^ 2)
      ∧ Tendsto (fun k => ‖A (θ k) - t‖ ^ 2) atTop (𝓝 (‖A θ' - t‖ ^ 2))
      ∧ ∀ x, ‖A x - t‖ ^ 2 = ‖A θ' - t‖ ^ 2 →
        ‖θ 0 - x‖ ^ 2 = ‖θ 0 - θ'‖ ^ 2 + ‖θ' - x‖ ^ 2 := by
  have : ProperSpace H := FiniteDimensional.proper ℂ H
  have hc : Continuous A := LinearMap.continuous_of_finiteDimensional A
  have hE : Continuous fun x => ‖A x - t‖ ^ 2 := by fun_prop
  obtain ⟨m, hm⟩ := exists_least A t
  -- the errors converge to the least one
  have hlim : Tendsto (fun k => ‖A (θ k) - t‖ ^ 2) atTop (𝓝 (‖A m - t‖ ^ 2)) := by
    have h1 : Tendsto (fun T : Nat => ‖A m - t‖ ^ 2 + ‖θ 0 - m‖ ^ 2 / (η * (2 - η * K) * T)) atTop
        (𝓝 (‖A m - t‖ ^ 2 + 0)) := by
      refine tendsto_const_nhds.add ?_
      exact Tendsto.const_div_atTop (tendsto_natCast_atTop_atTop.const_mul_atTop s.pos') _
    rw [add_zero] at h1
    refine tendsto_of_tendsto_of_tendsto_of_le_of_le' tendsto_const_nhds h1
      (Eventually.of_forall fun k => hm (θ k)) ?_
    filter_upwards [eventually_ge_atTop 1] with T hT
    have h1 := s.sum' hθ hm T
    have h2 : 0 ≤ ‖θ T - m‖ ^ 2 := by positivity
    have h3 : 0 < η * (2 - η * K) * T := mul_pos s.pos' (by exact_mod_cast hT)
    rw [← sub_le_iff_le_add', le_div_iff₀ h3]
    nlinarith
  -- distances to points of least error never grow
  have hfej : ∀ x, ‖A x - t‖ ^ 2 = ‖A m - t‖ ^ 2 → Antitone fun k => ‖θ k - x‖ ^ 2 := by
    intro x hx
    refine antitone_nat_of_succ_le fun k => ?_
    have h1 := s.nearer (θ k) (m := x) fun y => by rw [hx]; exact hm y
    have h2 := hm (θ k)
    have h4 : 0 ≤ η * (2 - η * K) * (‖A (θ k) - t‖ ^ 2 - ‖A x - t‖ ^ 2) := by
      rw [hx]
      exact mul_nonneg s.pos'.le (by linarith)
    rw [hθ]
    linarith
  -- so the sequence is bounded and has a limit point
  have hb : ∀ k, θ k ∈ Metric.closedBall m ‖θ 0 - m‖ := by
    intro k
    rw [mem_closedBall_iff_norm]
    have := hfej m rfl (Nat.zero_le k)
    exact (sq_le_sq₀ (norm_nonneg _) (norm_nonneg _)).mp this
  obtain ⟨p, -, φ, hφ, hp⟩ := (isCompact_closedBall m ‖θ 0 - m‖).tendsto_subseq hb
  have hpE : ‖A p - t‖ ^ 2 = ‖A m - t‖ ^ 2 :=
    tendsto_nhds_unique ((hE.tendsto p).comp hp) (hlim.comp hφ.tendsto_atTop)
  have hconv : Tendsto θ atTop (𝓝 p) := by
    rw [tendsto_iff_norm_sub_tendsto_zero]
    have h1 : Tendsto (fun k => ‖θ (φ k) - p‖ ^ 2) atTop (𝓝 0) := by
      have := (tendsto_iff_norm_sub_tendsto_zero.mp hp).pow 2
      simpa using this
    have h2 : Tendsto (fun k => ‖θ k - p‖ ^ 2) atTop (𝓝 0) :=
      (tendsto_iff_tendsto_subseq_of_antitone (hfej p hpE) hφ.tendsto_atTop).mpr h1
    have h3 := h2.sqrt
    simpa using h3
  refine ⟨p, hconv, fun x => by rw [hpE]; exact hm x, by rw [hpE]; exact hlim, ?_⟩
  -- the way gone is orthogonal to all directions that leave the predictions unchanged
  intro x hx
  have hst : A' (A p - t) = 0 := s.stationary fun x => by rw [hpE]; exact hm x
  have hker : A (x - p) = 0 := by
    have := s.excess hst x
    rw [hx] at this
    have h5 : ‖A (x - p)‖ ^ 2 = 0 := by linarith
    simpa using h5
  have horth : ∀ k, inner ℂ (x - p) (θ k - θ 0) = 0 := by
    intro k
    induction k with
    | zero => simp
    | succ k ih =>
      have : θ (k + 1) - θ 0 = (θ k - θ 0) - (η : ℂ) • A' (A (θ k) - t) := by
        rw [hθ, next]; abel
      rw [this, inner_sub_right, ih, inner_smul_right, ← s.adj, hker]
      simp
  have hlim2 : inner ℂ (x - p) (p - θ 0) = 0 := by
    have h1 : Tendsto (fun k => inner ℂ (x - p) (θ k - θ 0)) atTop (𝓝 (inner ℂ (x - p) (p - θ 0))) :=
      tendsto_const_nhds.inner (hconv.sub_const _)
    simp only [horth] at h1
    exact (tendsto_nhds_unique h1 tendsto_const_nhds)
  have h6 : θ 0 - x = (θ 0 - p) - (x - p) := by abel
  have h7 : (inner ℂ (θ 0 - p) (x - p)).re = 0 := by
    rw [← neg_sub p, inner_neg_left, ← inner_conj_symm, hlim2]
    simp
  rw [h6, norm_sub_re, h7, norm_sub_rev p x]
  ring

/-- The excess of the error falls by a fixed factor in every step. The factor depends neither on the
start nor on the targets. -/
theorem Setting.linear (s : Setting A A' η K) : ∃ ρ : ℝ, 0 ≤ ρ ∧ ρ < 1 ∧
    ∀ (t : F) (θ : Nat → H), (∀ k, θ (k + 1) = next A A' t η (θ k)) →
    ∀ θ', (∀ x, ‖A θ' - t‖ ^ 2 ≤ ‖A x - t‖ ^ 2) → ∀ T : Nat,
      ‖A (θ T) - t‖ ^ 2 - ‖A θ' - t‖ ^ 2 ≤ ρ ^ T * (‖A (θ 0) - t‖ ^ 2 - ‖A θ' - t‖ ^ 2) := by
  set G : (LinearMap.range A) →ₗ[ℂ] H := A'.comp (LinearMap.range A).subtype with hG
  have hinj : LinearMap.ker G = ⊥ := by
    rw [LinearMap.ker_eq_bot']
    rintro ⟨y, v, rfl⟩ h
    have h1 : A' (A v) = 0 := h
    have h2 : inner ℂ (A v) (A v) = 0 := by rw [s.adj, h1, inner_zero_right]
    have h3 : A v = 0 := inner_self_eq_zero.mp h2
    exact Subtype.ext h3
  obtain ⟨C, hC, hanti⟩ := G.exists_antilipschitzWith hinj
  have hPL : ∀ v, ‖A v‖ ^ 2 ≤ C ^ 2 * ‖A' (A v)‖ ^ 2 := by
    intro v
    have h1 := hanti.le_mul_norm (map_zero G) ⟨A v, v, rfl⟩
    have h2 : ‖A v‖ ≤ C * ‖A' (A v)‖ := h1
    rw [← mul_pow]
    gcongr
  have hC2 : 0 < (C : ℝ) ^ 2 := by
    have : (0 : ℝ) < C := by exact_mod_cast hC
    positivity
  have hη := s.pos'
  set κ := η * (2 - η * K)
  refine ⟨max 0 (1 - κ / C ^ 2), le_max_left _ _, max_lt one_pos ?_, ?_⟩
  · have : 0 < κ / (C : ℝ) ^ 2 := by positivity
    linarith
  · intro t θ hθ θ' hm T
    have hst := s.stationary hm
    induction T with
    | zero => simp
    | succ T ih =>
      have h1 := s.descent (t := t) (θ T)
      rw [← hθ] at h1
      have h2 := s.excess hst (θ T)
      have h3 : A' (A (θ T) - t) = A' (A (θ T - θ')) := by
        have : A (θ T) - t = A (θ T - θ') + (A θ' - t) := by
          rw [map_sub]; abel
        rw [this, map_add, hst, add_zero]
      rw [h3] at h1
      have h4 := hPL (θ T - θ')
      have h5 : κ / C ^ 2 * ‖A (θ T - θ')‖ ^ 2 ≤ κ * ‖A' (A (θ T - θ'))‖ ^ 2 := by
        rw [div_mul_eq_mul_div, div_le_iff₀ hC2]
        nlinarith
      have h6 : ‖A (θ (T + 1)) - t‖ ^ 2 - ‖A θ' - t‖ ^ 2
          ≤ (1 - κ / C ^ 2) * (‖A (θ T) - t‖ ^ 2 - ‖A θ' - t‖ ^ 2) := by
        have : ‖A (θ T) - t‖ ^ 2 - ‖A θ' - t‖ ^ 2 = ‖A (θ T - θ')‖ ^ 2 := by linarith
        rw [this]
        linarith
      have h7 : 0 ≤ ‖A (θ T) - t‖ ^ 2 - ‖A θ' - t‖ ^ 2 := by linarith [hm (θ T)]
      calc ‖A (θ (T + 1)) - t‖ ^ 2 - ‖A θ' - t‖ ^ 2
          ≤ (1 - κ / C ^ 2) * (‖A (θ T) - t‖ ^ 2 - ‖A θ' - t‖ ^ 2) := h6
        _ ≤ max 0 (1 - κ / C ^ 2) * (‖A (θ T) - t‖ ^ 2 - ‖A θ' - t‖ ^ 2) := by
          gcongr
          exact le_max_right _ _
        _ ≤ max 0 (1 - κ / C ^ 2) * (max 0 (1 - κ / C ^ 2) ^ T
            * (‖A (θ 0) - t‖ ^ 2 - ‖A θ' - t‖ ^ 2)) := by gcongr
        _ = _ := by ring

end
end Renplex.LeastSquares
