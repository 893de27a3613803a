import Verif.Lemmas.Epochs
/-!
# Cyclic gradient descent for least squares without an exact solution

This file is about mathematics only.
-/

namespace Renplex.LeastSquares
open Filter Topology

variable {H : Type*} [NormedAddCommGroup H] [InnerProductSpace ℂ H]

/-- A linear map into a subspace that is injective there reaches every vector of it. -/
theorem solve [FiniteDimensional ℂ H] {G : H →ₗ[ℂ] H} {V : Submodule ℂ H} (hin : ∀ d, G d ∈ V)
    (hinj : ∀ d ∈ V, G d = 0 → d = 0) {c : H} (hc : c ∈ V) : ∃ y ∈ V, G y = c := by
  let R : V →ₗ[ℂ] V := G.restrict fun d _ => hin d
  have hR : Function.Injective R := by
    rw [← LinearMap.ker_eq_bot, LinearMap.ker_eq_bot']
    rintro ⟨d, hd⟩ h0
    exact Subtype.ext (hinj d hd (congrArg Subtype.val h0))
  obtain ⟨⟨y, hy⟩, h1⟩ := LinearMap.injective_iff_surjective.mp hR ⟨c, hc⟩
  exact ⟨y, hy, congrArg Subtype.val h1⟩

/-- A linear map that is injective on a subspace is bounded from below there. -/
theorem below [FiniteDimensional ℂ H] {G : H →ₗ[ℂ] H} {V : Submodule ℂ H}
    (hinj : ∀ d ∈ V, G d = 0 → d = 0) : ∃ κ : ℝ, 0 < κ ∧ ∀ d ∈ V, κ * ‖d‖ ≤ ‖G d‖ := by
  have hker : LinearMap.ker (G.domRestrict V) = ⊥ := by
    rw [LinearMap.ker_eq_bot']
    rintro ⟨d, hd⟩ h0
    exact Subtype.ext (hinj d hd h0)
  obtain ⟨K, hK, ha⟩ := (LinearMap.exists_antilipschitzWith (G.domRestrict V) hker)
  refine ⟨(K : ℝ)⁻¹, inv_pos.mpr (by exact_mod_cast hK), fun d hd => ?_⟩
  have h1 := ha.le_mul_dist ⟨d, hd⟩ 0
  rw [map_zero, dist_zero_right, dist_zero_right] at h1
  rw [inv_mul_le_iff₀ (by exact_mod_cast hK)]
  exact h1

/-- An affine map with linear part `M` and with all steps at right angles to `N` has a fixed point, and it can be
chosen with any given component in `N`. -/
theorem Shrinks.fixed [FiniteDimensional ℂ H] {M : H →ₗ[ℂ] H} {N : Submodule ℂ H} (h : Shrinks M N) {E : H → H}
    (hE : ∀ θ θ', E θ - E θ' = M (θ - θ')) (hp : ∀ θ, E θ - θ ∈ Nᗮ) (θ : H) :
    ∃ θ', E θ' = θ' ∧ θ - θ' ∈ Nᗮ := by
  have hinj : ∀ d ∈ Nᗮ, ((LinearMap.id - M : H →ₗ[ℂ] H)) d = 0 → d = 0 := by
    intro d hd h0
    have h1 : d = M d := sub_eq_zero.mp h0
    have h2 : d ∈ N := h.eq d (by rw [← h1])
    exact inner_self_eq_zero.mp (hd d h2)
  have hin : ∀ d, ((LinearMap.id - M : H →ₗ[ℂ] H)) d ∈ Nᗮ := by
    intro d
    have := Submodule.neg_mem _ (h.perp d)
    rwa [neg_sub] at this
  obtain ⟨y, hy, h1⟩ := solve hin hinj (hp θ)
  refine ⟨θ + y, ?_, by rw [sub_add_cancel_left]; exact Submodule.neg_mem _ hy⟩
  have h2 := hE (θ + y) θ
  rw [add_sub_cancel_left] at h2
  have h3 : y - M y = E θ - θ := h1
  rw [eq_add_of_sub_eq h2, eq_add_of_sub_eq h3.symm]
  abel

/-- A composition of small steps `θ - η(G θ - c)` is the step with the sums, up to terms of the second order. -/
theorem firstOrder [FiniteDimensional ℂ H] (gs : List ((H →ₗ[ℂ] H) × H)) :
    ∃ C : ℝ, 0 ≤ C ∧ ∀ η : ℝ, 0 ≤ η → η ≤ 1 → ∀ θ : H,
      ‖gs.foldl (fun θ g => θ - (η : ℂ) • (g.1 θ - g.2)) θ
        - (θ - (η : ℂ) • ((gs.map Prod.fst).sum θ - (gs.map Prod.snd).sum))‖ ≤ C * η ^ 2 * (1 + ‖θ‖) := by
  have bdd : ∀ G : H →ₗ[ℂ] H, ∃ a : ℝ, 0 ≤ a ∧ ∀ θ, ‖G θ‖ ≤ a * ‖θ‖ := by
    intro G
    exact ⟨‖G.toContinuousLinearMap‖, norm_nonneg _, fun θ => G.toContinuousLinearMap.le_opNorm θ⟩
  induction gs with
  | nil => exact ⟨0, le_rfl, fun η _ _ θ => by simp⟩
  | cons g gs ih =>
    obtain ⟨C, hC, ih⟩ := ih
    obtain ⟨a, ha, hga⟩ := bdd g.1
    obtain ⟨s, hs, hS⟩ := bdd (gs.map Prod.fst).sum
    set S := (gs.map Prod.fst).sum
    set c := (gs.map Prod.snd).sum
    set A := a + ‖g.2‖
    have hA : 0 ≤ A := add_nonneg ha (norm_nonneg _)
    refine ⟨s * A + C * (1 + A), by positivity, fun η h0 h1 θ => ?_⟩
    set v := g.1 θ - g.2
    have hv : ‖v‖ ≤ A * (1 + ‖θ‖) := by
      refine (norm_sub_le _ _).trans ?_
      have := hga θ
      have := norm_nonneg θ
      have := norm_nonneg g.2
      simp only [A]
      nlinarith [mul_nonneg (norm_nonneg g.2) (norm_nonneg θ)]
    have hη : ‖(η : ℂ)‖ = η := by rw [Complex.norm_real, Real.norm_eq_abs, abs_of_nonneg h0]
    set θ1 := θ - (η : ℂ) • v
    have hθ1 : 1 + ‖θ1‖ ≤ (1 + A) * (1 + ‖θ‖) := by
      have h2 : ‖θ1‖ ≤ ‖θ‖ + η * ‖v‖ := by
        refine (norm_sub_le _ _).trans ?_
        rw [norm_smul, hη]
      have h3 : η * ‖v‖ ≤ 1 * (A * (1 + ‖θ‖)) := by gcongr
      nlinarith
    have h2 := ih η h0 h1 θ1
    rw [List.foldl_cons]
    have e1 : (List.map Prod.fst (g :: gs)).sum θ - (List.map Prod.snd (g :: gs)).sum = v + (S θ - c) := by
      simp only [List.map_cons, List.sum_cons, LinearMap.add_apply, v, S, c]
      abel
    rw [e1]
    have e2 : gs.foldl (fun θ g => θ - (η : ℂ) • (g.1 θ - g.2)) θ1 - (θ - (η : ℂ) • (v + (S θ - c)))
        = (gs.foldl (fun θ g => θ - (η : ℂ) • (g.1 θ - g.2)) θ1 - (θ1 - (η : ℂ) • (S θ1 - c)))
          + ((η : ℂ) * (η : ℂ)) • S v := by
      have : S θ1 = S θ - (η : ℂ) • S v := by simp only [θ1, map_sub, map_smul]
      rw [this]
      simp only [smul_sub, smul_add, mul_smul, θ1]
      abel
    show ‖gs.foldl (fun θ g => θ - (η : ℂ) • (g.1 θ - g.2)) θ1 - (θ - (η : ℂ) • (v + (S θ - c)))‖ ≤ _
    rw [e2]
    refine (norm_add_le _ _).trans ?_
    rw [norm_smul, norm_mul, hη]
    calc _ ≤ C * η ^ 2 * ((1 + A) * (1 + ‖θ‖)) + η * η * (s * (A * (1 + ‖θ‖))) := by
          refine add_le_add (h2.trans ?_) ?_
          · gcongr
          · gcongr
            exact (hS v).trans (by gcongr)
      _ = _ := by ring

/-- Fixed points of such compositions are near the zeros of the sum. -/
theorem nearZero [FiniteDimensional ℂ H] (gs : List ((H →ₗ[ℂ] H) × H)) {V : Submodule ℂ H}
    (hinj : ∀ d ∈ V, (gs.map Prod.fst).sum d = 0 → d = 0) {z : H}
    (hz : (gs.map Prod.fst).sum z = (gs.map Prod.snd).sum) :
    ∃ η₀ : ℝ, 0 < η₀ ∧ ∃ C : ℝ, 0 ≤ C ∧ ∀ η : ℝ, 0 < η → η < η₀ → ∀ θ : H, θ - z ∈ V →
      gs.foldl (fun θ g => θ - (η : ℂ) • (g.1 θ - g.2)) θ = θ → ‖θ - z‖ ≤ C * η := by
  obtain ⟨C, hC, hfo⟩ := firstOrder gs
  obtain ⟨κ, hκ, hb⟩ := below hinj
  refine ⟨min 1 (κ / (2 * (C + 1))), by positivity, 2 * C * (1 + ‖z‖) / κ, by positivity,
    fun η h0 h1 θ hθ hfix => ?_⟩
  have h2 := hfo η h0.le (h1.le.trans (min_le_left _ _)) θ
  have h3 := h1.le.trans (min_le_right _ _)
  rw [le_div_iff₀ (by positivity)] at h3
  rw [hfix, sub_sub_cancel, ← hz, ← map_sub, norm_smul, Complex.norm_real, Real.norm_eq_abs, abs_of_pos h0] at h2
  have h4 : ‖(gs.map Prod.fst).sum (θ - z)‖ ≤ C * η * (1 + ‖θ‖) := by
    refine le_of_mul_le_mul_left ?_ h0
    linarith
  have h5 := (hb _ hθ).trans h4
  have h6 : ‖θ‖ ≤ ‖z‖ + ‖θ - z‖ := by
    have := norm_add_le z (θ - z)
    rwa [add_sub_cancel] at this
  have h7 : C * η * ‖θ‖ ≤ C * η * (‖z‖ + ‖θ - z‖) := by gcongr
  have h8 : C * η ≤ κ / 2 := by nlinarith
  have h9 : C * η * ‖θ - z‖ ≤ κ / 2 * ‖θ - z‖ := by gcongr
  rw [div_mul_eq_mul_div, le_div_iff₀ hκ]
  nlinarith

end Renplex.LeastSquares
