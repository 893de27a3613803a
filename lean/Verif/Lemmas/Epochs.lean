import Verif.Lemmas.LeastSquares
import Mathlib.Analysis.InnerProductSpace.Projection.FiniteDimensional
import Mathlib.Topology.MetricSpace.Sequences
/-!
# Cyclic gradient descent for least squares

One step per batch, the batches in a fixed order, over and over. This file is about mathematics only.
-/

namespace Renplex.LeastSquares
open Filter Topology

variable {H F : Type*} [NormedAddCommGroup H] [InnerProductSpace ℂ H]
  [NormedAddCommGroup F] [InnerProductSpace ℂ F]

/-- `M` fixes `N`, moves everything at right angles to `N`, and shortens all vectors outside `N`. -/
structure Shrinks (M : H →ₗ[ℂ] H) (N : Submodule ℂ H) : Prop where
  fix : ∀ d ∈ N, M d = d
  perp : ∀ d, M d - d ∈ Nᗮ
  le : ∀ d, ‖M d‖ ≤ ‖d‖
  eq : ∀ d, ‖M d‖ = ‖d‖ → d ∈ N

theorem Shrinks.id : Shrinks (LinearMap.id : H →ₗ[ℂ] H) ⊤ where
  fix _ _ := rfl
  perp d := by simp
  le _ := le_rfl
  eq _ _ := trivial

theorem Shrinks.comp {M M' : H →ₗ[ℂ] H} {N N' : Submodule ℂ H} (h : Shrinks M N) (h' : Shrinks M' N') :
    Shrinks (M' ∘ₗ M) (N ⊓ N') where
  fix d hd := by rw [LinearMap.comp_apply, h.fix d hd.1, h'.fix d hd.2]
  perp d := by
    have h1 := Submodule.orthogonal_le (inf_le_left : N ⊓ N' ≤ N) (h.perp d)
    have h2 := Submodule.orthogonal_le (inf_le_right : N ⊓ N' ≤ N') (h'.perp (M d))
    have := Submodule.add_mem _ h2 h1
    rwa [sub_add_sub_cancel] at this
  le d := (h'.le _).trans (h.le d)
  eq d hd := by
    have h1 : ‖M d‖ = ‖d‖ := le_antisymm (h.le d) (by rw [← hd]; exact h'.le _)
    have h2 := h.eq d h1
    refine ⟨h2, h'.eq d ?_⟩
    rw [← hd, LinearMap.comp_apply, h.fix d h2]

/-- On the complement of `N` the lengths fall by a constant factor. -/
theorem Shrinks.factor [FiniteDimensional ℂ H] {M : H →ₗ[ℂ] H} {N : Submodule ℂ H} (h : Shrinks M N) :
    ∃ ρ : ℝ, 0 ≤ ρ ∧ ρ < 1 ∧ ∀ d ∈ Nᗮ, ∀ T : Nat, ‖(M ^ T) d‖ ≤ ρ ^ T * ‖d‖ := by
  have : ProperSpace H := FiniteDimensional.proper ℂ H
  have hc : Continuous M := LinearMap.continuous_of_finiteDimensional M
  have hstay : ∀ d ∈ Nᗮ, M d ∈ Nᗮ := by
    intro d hd
    have := Submodule.add_mem _ (h.perp d) hd
    rwa [sub_add_cancel] at this
  have key : ∃ ρ : ℝ, 0 ≤ ρ ∧ ρ < 1 ∧ ∀ d ∈ Nᗮ, ‖M d‖ ≤ ρ * ‖d‖ := by
    have hcomp : IsCompact (Metric.sphere (0 : H) 1 ∩ (Nᗮ : Set H)) :=
      (isCompact_sphere (0 : H) 1).inter_right N.isClosed_orthogonal
    rcases (Metric.sphere (0 : H) 1 ∩ (Nᗮ : Set H)).eq_empty_or_nonempty with he | hne
    · refine ⟨0, le_rfl, one_pos, fun d hd => ?_⟩
      rcases eq_or_ne d 0 with rfl | h0
      · simp
      · exfalso
        have : ((‖d‖⁻¹ : ℝ) : ℂ) • d ∈ Metric.sphere (0 : H) 1 ∩ (Nᗮ : Set H) := by
          refine ⟨?_, Submodule.smul_mem _ _ hd⟩
          rw [mem_sphere_zero_iff_norm, norm_smul, Complex.norm_real, norm_inv, norm_norm]
          exact inv_mul_cancel₀ (norm_ne_zero_iff.mpr h0)
        rw [he] at this
        exact this
    · obtain ⟨v, ⟨hv1, hv2⟩, hmax⟩ := hcomp.exists_isMaxOn hne (hc.norm.continuousOn)
      have hv : ‖v‖ = 1 := mem_sphere_zero_iff_norm.mp hv1
      refine ⟨‖M v‖, norm_nonneg _, ?_, fun d hd => ?_⟩
      · refine lt_of_le_of_ne (by rw [← hv]; exact h.le v) fun h1 => ?_
        have hN : v ∈ N := h.eq v (by rw [h1, hv])
        have h0 : inner ℂ v v = 0 := hv2 v hN
        rw [inner_self_eq_zero] at h0
        rw [h0, norm_zero] at hv
        norm_num at hv
      · rcases eq_or_ne d 0 with rfl | h0
        · simp
        · have hn : 0 < ‖d‖ := norm_pos_iff.mpr h0
          have hm : ((‖d‖⁻¹ : ℝ) : ℂ) • d ∈ Metric.sphere (0 : H) 1 ∩ (Nᗮ : Set H) := by
            refine ⟨?_, Submodule.smul_mem _ _ hd⟩
            rw [mem_sphere_zero_iff_norm, norm_smul, Complex.norm_real, norm_inv, norm_norm]
            exact inv_mul_cancel₀ hn.ne'
          have := hmax hm
          simp only [Set.mem_setOf_eq, map_smul, norm_smul, Complex.norm_real, norm_inv, norm_norm] at this
          rw [inv_mul_le_iff₀ hn] at this
          linarith
  obtain ⟨ρ, r0, r1, hr⟩ := key
  refine ⟨ρ, r0, r1, fun d hd T => ?_⟩
  have : (M ^ T) d ∈ Nᗮ ∧ ‖(M ^ T) d‖ ≤ ρ ^ T * ‖d‖ := by
    induction T with
    | zero => exact ⟨by simpa using hd, by simp⟩
    | succ T ih =>
      rw [pow_succ', Module.End.mul_apply]
      refine ⟨hstay _ ih.1, (hr _ ih.1).trans ?_⟩
      rw [pow_succ', mul_assoc]
      gcongr
      exact ih.2
  exact this.2

/-- Finitely many such maps, applied in any order in which every one of them turns up again and again: the vectors
converge to the nearest vector that all of them fix. -/
theorem Shrinks.anyOrder [FiniteDimensional ℂ H] {ι : Type*} [Finite ι] {M : ι → H →ₗ[ℂ] H} {N : ι → Submodule ℂ H}
    (h : ∀ i, Shrinks (M i) (N i)) {σ : Nat → ι} (hσ : ∀ i k, ∃ k', k ≤ k' ∧ σ k' = i) {d : Nat → H}
    (hd : ∀ k, d (k + 1) = M (σ k) (d k)) :
    ∃ y, (∀ i, y ∈ N i) ∧ Tendsto d atTop (𝓝 y) ∧ d 0 - y ∈ (⨅ i, N i)ᗮ := by
  have : ProperSpace H := FiniteDimensional.proper ℂ H
  have hanti : Antitone fun k => ‖d k‖ := antitone_nat_of_succ_le fun k => by
    rw [hd]
    exact (h _).le _
  obtain ⟨y, -, φ, hφ, hy⟩ := tendsto_subseq_of_bounded (x := d)
    (Metric.isBounded_closedBall (x := (0 : H)) (r := ‖d 0‖)) fun k => by
      rw [mem_closedBall_zero_iff]
      exact hanti (Nat.zero_le k)
  have hlow : ∀ k, ‖y‖ ≤ ‖d k‖ := by
    intro k
    refine le_of_tendsto hy.norm ?_
    filter_upwards [eventually_ge_atTop k] with j hj
    exact hanti (hj.trans (hφ.id_le j))
  have hmem : ∀ i, y ∈ N i := by
    by_contra hne
    push Not at hne
    obtain ⟨i, hi⟩ := hne
    have hex : ∀ j, ∃ l, φ j ≤ l ∧ y ∉ N (σ l) := by
      intro j
      obtain ⟨l, hl, rfl⟩ := hσ i (φ j)
      exact ⟨l, hl, hi⟩
    classical
    have hnear : ∀ j, ∃ l, φ j ≤ l ∧ y ∉ N (σ l) ∧ ‖d l - y‖ ≤ ‖d (φ j) - y‖ := by
      intro j
      refine ⟨Nat.find (hex j), (Nat.find_spec (hex j)).1, (Nat.find_spec (hex j)).2, ?_⟩
      have hgo : ∀ k, φ j + k ≤ Nat.find (hex j) → ‖d (φ j + k) - y‖ ≤ ‖d (φ j) - y‖ := by
        intro k
        induction k with
        | zero => intro _; exact le_rfl
        | succ k ih =>
          intro hk
          have hin : y ∈ N (σ (φ j + k)) := by
            by_contra hn
            exact Nat.find_min (hex j) (m := φ j + k) (by omega) ⟨by omega, hn⟩
          have e1 : d (φ j + (k + 1)) - y = M (σ (φ j + k)) (d (φ j + k) - y) := by
            rw [map_sub, (h _).fix y hin, ← hd]
            rfl
          rw [e1]
          exact ((h _).le _).trans (ih (by omega))
      have := hgo (Nat.find (hex j) - φ j) (by have := (Nat.find_spec (hex j)).1; omega)
      rwa [Nat.add_sub_cancel' (Nat.find_spec (hex j)).1] at this
    have : Nonempty {i // y ∉ N i} := ⟨⟨i, hi⟩⟩
    obtain ⟨⟨i0, hi0⟩, hmax⟩ := Finite.exists_max fun i : {i // y ∉ N i} => ‖M i.1 y‖
    have hlt : ‖M i0 y‖ < ‖y‖ := lt_of_le_of_ne ((h i0).le y) fun he => hi0 ((h i0).eq y he)
    have hle : ∀ j, ‖y‖ ≤ ‖M i0 y‖ + ‖d (φ j) - y‖ := by
      intro j
      obtain ⟨l, -, hl, hn⟩ := hnear j
      have h1 := hlow (l + 1)
      rw [hd] at h1
      have h2 : M (σ l) (d l) = M (σ l) y + M (σ l) (d l - y) := by
        rw [← map_add, add_sub_cancel]
      rw [h2] at h1
      have h3 := (h (σ l)).le (d l - y)
      have h4 := hmax ⟨σ l, hl⟩
      calc ‖y‖ ≤ _ := h1
        _ ≤ ‖M (σ l) y‖ + ‖M (σ l) (d l - y)‖ := norm_add_le _ _
        _ ≤ _ := add_le_add h4 (h3.trans hn)
    have hlim : Tendsto (fun j => ‖M i0 y‖ + ‖d (φ j) - y‖) atTop (𝓝 (‖M i0 y‖ + 0)) :=
      (tendsto_iff_norm_sub_tendsto_zero.mp hy).const_add _
    have := ge_of_tendsto' hlim hle
    rw [add_zero] at this
    linarith
  have hanti' : Antitone fun k => ‖d k - y‖ := antitone_nat_of_succ_le fun k => by
    have e1 : d (k + 1) - y = M (σ k) (d k - y) := by
      rw [map_sub, (h _).fix y (hmem _), ← hd]
    rw [e1]
    exact (h _).le _
  have htend : Tendsto d atTop (𝓝 y) := by
    rw [tendsto_iff_norm_sub_tendsto_zero]
    rw [Metric.tendsto_atTop]
    intro ε hε
    obtain ⟨j, hj⟩ := (Metric.tendsto_atTop.mp (tendsto_iff_norm_sub_tendsto_zero.mp hy)) ε hε
    refine ⟨φ j, fun k hk => ?_⟩
    have h1 := hj j le_rfl
    rw [Real.dist_eq, sub_zero, abs_of_nonneg (norm_nonneg _)] at h1 ⊢
    exact (hanti' hk).trans_lt h1
  refine ⟨y, hmem, htend, ?_⟩
  have hperp : ∀ k, d 0 - d k ∈ (⨅ i, N i)ᗮ := by
    intro k
    induction k with
    | zero => simp
    | succ k ih =>
      have h1 := Submodule.orthogonal_le (iInf_le N (σ k)) ((h (σ k)).perp (d k))
      rw [← hd] at h1
      have := Submodule.sub_mem _ ih h1
      have e1 : d 0 - d k - (d (k + 1) - d k) = d 0 - d (k + 1) := by abel
      rwa [e1] at this
  exact (Submodule.isClosed_orthogonal _).mem_of_tendsto (tendsto_const_nhds.sub htend)
    (Eventually.of_forall hperp)

variable {A : H →ₗ[ℂ] F} {A' : F →ₗ[ℂ] H} {t : F} {η K : ℝ}

/-- One step, as it acts on the distance to a solution. -/
noncomputable def stepMap (A : H →ₗ[ℂ] F) (A' : F →ₗ[ℂ] H) (η : ℝ) : H →ₗ[ℂ] H :=
  LinearMap.id - (η : ℂ) • (A' ∘ₗ A)

theorem stepMap_apply (d : H) : stepMap A A' η d = d - (η : ℂ) • A' (A d) := rfl

theorem next_sub {m : H} (hm : A m = t) (θ : H) : next A A' t η θ - m = stepMap A A' η (θ - m) := by
  rw [stepMap_apply, next, A.map_sub θ m, hm]
  abel

/-- How much nearer a step comes to every solution. -/
theorem Setting.closer (s : Setting A A' η K) (d : H) :
    ‖stepMap A A' η d‖ ^ 2 ≤ ‖d‖ ^ 2 - η * (2 - η * K) * ‖A d‖ ^ 2 := by
  have h2 : (inner ℂ d (A' (A d))).re = ‖A d‖ ^ 2 := by
    rw [← s.adj]
    exact inner_self_eq_norm_sq (𝕜 := ℂ) _
  have h3 : ‖A' (A d)‖ ^ 2 ≤ K * ‖A d‖ ^ 2 := by
    have e1 : ‖A' (A d)‖ ^ 2 ≤ ‖A d‖ * ‖A (A' (A d))‖ := by
      have : ‖A' (A d)‖ ^ 2 = (inner ℂ (A d) (A (A' (A d)))).re := by
        rw [s.re]
        exact (inner_self_eq_norm_sq (𝕜 := ℂ) _).symm
      rw [this]
      exact (Complex.re_le_norm _).trans (norm_inner_le_norm _ _)
    have e2 := s.bound (A' (A d))
    rcases (sq_nonneg ‖A' (A d)‖).eq_or_lt with h0 | h0
    · rw [← h0]
      have := s.bound d
      rcases (sq_nonneg ‖A d‖).eq_or_lt with h1 | h1
      · rw [← h1, mul_zero]
      · have : 0 < K := by
          by_contra hK
          nlinarith [sq_nonneg ‖d‖]
        positivity
    · have e4 : (‖A' (A d)‖ ^ 2) ^ 2 ≤ ‖A d‖ ^ 2 * (K * ‖A' (A d)‖ ^ 2) := by
        calc (‖A' (A d)‖ ^ 2) ^ 2 ≤ (‖A d‖ * ‖A (A' (A d))‖) ^ 2 := by gcongr
          _ = ‖A d‖ ^ 2 * ‖A (A' (A d))‖ ^ 2 := by ring
          _ ≤ _ := by gcongr
      have e5 : ‖A' (A d)‖ ^ 2 * ‖A' (A d)‖ ^ 2 ≤ (K * ‖A d‖ ^ 2) * ‖A' (A d)‖ ^ 2 := by
        calc _ = (‖A' (A d)‖ ^ 2) ^ 2 := by ring
          _ ≤ _ := e4
          _ = _ := by ring
      exact le_of_mul_le_mul_right e5 h0
  rw [stepMap_apply, norm_sub_re, inner_real_smul, norm_real_smul, h2]
  nlinarith [mul_le_mul_of_nonneg_left h3 (sq_nonneg η)]

theorem Setting.shrinks (s : Setting A A' η K) : Shrinks (stepMap A A' η) (LinearMap.ker A) where
  fix d hd := by
    rw [stepMap_apply, LinearMap.mem_ker.mp hd, map_zero, smul_zero, sub_zero]
  perp d := by
    intro k hk
    rw [stepMap_apply, sub_sub_cancel_left, inner_neg_right, inner_smul_right, ← s.adj,
      LinearMap.mem_ker.mp hk, inner_zero_left, mul_zero, neg_zero]
  le d := by
    have h1 := s.closer d
    have h2 : 0 ≤ η * (2 - η * K) * ‖A d‖ ^ 2 := mul_nonneg s.pos'.le (sq_nonneg _)
    exact (sq_le_sq₀ (norm_nonneg _) (norm_nonneg _)).mp (by linarith)
  eq d hd := by
    have h1 := s.closer d
    rw [hd] at h1
    have h2 : η * (2 - η * K) * ‖A d‖ ^ 2 ≤ 0 := by linarith
    have h3 : ‖A d‖ ^ 2 = 0 := by
      have := s.pos'
      nlinarith [sq_nonneg ‖A d‖]
    rw [LinearMap.mem_ker]
    exact norm_eq_zero.mp (pow_eq_zero_iff two_ne_zero |>.mp h3)

end Renplex.LeastSquares
