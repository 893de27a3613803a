import Verif.Spec.Threshold
import Verif.Lemmas.Threshold
import Verif.Props.Patches
/-!
# C120: the exact threshold of the learning rate for a single layer without activation
-/

namespace Renplex
open Filter Topology
open ComplexConjugate
variable {w : Width} {pre : List (Layer (Cf w ℝ))} {s : Size} {u m : Nat}
  {pts : List (IOType (Cf w ℝ) × List (Cf w ℝ))} {l : Dense (Cf w ℝ)} {W : Nat → Nat → Cf w ℝ}
  {b : Nat → Cf w ℝ} {K : ℝ}

/-! ## Steepness and the predictions as a linear map -/

theorem lengthSq_eq (hl : l.Is u m W b .none) : l.lengthSq = ‖toPar u m W b‖ ^ 2 := by
  unfold Dense.lengthSq
  rw [hl.1.2, hl.2.1, table_map, table_sum', List.map_map, sum_range_list, Finset.sum_range, par_norm_sq,
    Finset.sum_add_distrib]
  simp [toPar]

theorem design_sum (W : Nat → Nat → Cf w ℝ) (b : Nat → Cf w ℝ) :
    ‖design u m (featX pre pts) (toPar u m W b)‖ ^ 2
      = ((zeroTargets u pts).map fun q => sqSum q.2 ((List.range u).map (headOut pre m W b q.1))).sum := by
  rw [EuclideanSpace.norm_sq_eq, Fintype.sum_prod_type, zeroTargets, List.map_map, ← Fin.sum_univ_fun_getElem]
  refine Finset.sum_congr rfl fun q _ => ?_
  have h0 : List.replicate u (0 : Cf w ℝ) = (List.range u).map fun _ => 0 := by
    rw [eq_comm, List.eq_replicate_iff]
    simp
  simp only [Function.comp_apply]
  rw [h0, sqSum_range, Finset.sum_range]
  refine Finset.sum_congr rfl fun j _ => ?_
  have h1 : (design u m (featX pre pts) (toPar u m W b)) (q, j) = (headOut pre m W b pts[q].1 j).toC := by
    have := design_toPar (pre := pre) (pts := pts) (u := u) (m := m) W b (q, j)
    rw [PiLp.sub_apply] at this
    exact sub_left_injective this
  rw [h1, Cf.toC_hom_zero, zero_sub, norm_neg]
  rfl

theorem FixedFront.energy (h : FixedFront pre s m) (hl : l.Is u m W b .none)
    (hp : ∀ q ∈ pts, q.1.HasSize s) (e : ℝ) : BatchError (withHead pre l) (zeroTargets u pts) e
      ↔ e = ‖design u m (featX pre pts) (toPar u m W b)‖ ^ 2 := by
  rw [design_sum, h.error_sum hl]
  intro q hq
  obtain ⟨q', hq', rfl⟩ := List.mem_map.mp hq
  exact hp q' hq'

theorem FixedFront.steep (h : FixedFront pre s m) (hp : ∀ q ∈ pts, q.1.HasSize s) :
    Steepness pre u m pts K ↔ ∃ v, LeastSquares.Top (design u m (featX pre pts)) (designAdj u m (featX pre pts)) K v := by
  constructor
  · rintro ⟨h1, l, ⟨W, b, hl⟩, h2, h3⟩
    refine ⟨toPar u m W b, design_adj _, fun θ => ?_, ?_, ((h.energy hl hp K).mp h3).symm⟩
    · rcases eq_or_ne θ 0 with rfl | hθ
      · simp
      · have hn : 0 < ‖θ‖ := norm_pos_iff.mpr hθ
        obtain ⟨l', W', b', hl', e⟩ := exists_layer (w := w) u m (((‖θ‖⁻¹ : ℝ) : ℂ) • θ)
        have hle : l'.lengthSq = 1 := by
          rw [lengthSq_eq hl', e, LeastSquares.norm_real_smul, inv_pow]
          exact inv_mul_cancel₀ (by positivity)
        have := h1 l' _ ⟨W', b', hl'⟩ hle ((h.energy hl' hp _).mpr rfl)
        rw [e, map_smul, LeastSquares.norm_real_smul, inv_pow, inv_mul_le_iff₀ (by positivity)] at this
        linarith
    · rw [lengthSq_eq hl] at h2
      nlinarith [norm_nonneg (toPar u m W b)]
  · rintro ⟨v, t⟩
    refine ⟨?_, ?_⟩
    · rintro l e ⟨W, b, hl⟩ h1 h2
      rw [(h.energy hl hp e).mp h2]
      have := t.bound (toPar u m W b)
      rwa [← lengthSq_eq hl, h1, mul_one] at this
    · obtain ⟨l, W, b, hl, rfl⟩ := exists_layer (w := w) u m v
      exact ⟨l, ⟨W, b, hl⟩, by rw [lengthSq_eq hl, t.unit, one_pow], (h.energy hl hp K).mpr t.top.symm⟩

theorem top_unique {H F : Type*} [NormedAddCommGroup H] [InnerProductSpace ℂ H] [NormedAddCommGroup F]
    [InnerProductSpace ℂ F] {A : H →ₗ[ℂ] F} {A' : F →ₗ[ℂ] H} {K K' : ℝ} {v v' : H}
    (h : LeastSquares.Top A A' K v) (h' : LeastSquares.Top A A' K' v') : K = K' := by
  refine le_antisymm ?_ ?_
  · have := h'.bound v
    rwa [h.top, h.unit, one_pow, mul_one] at this
  · have := h.bound v'
    rwa [h'.top, h'.unit, one_pow, mul_one] at this

/-- C120. There is exactly one steepness. It lies between the number of points and `Σ(1 + ‖x_q‖²)`. -/
theorem C120_steepness (h : FixedFront pre s m) (hu : 0 < u) (hp : ∀ q ∈ pts, q.1.HasSize s ∧ q.2.length = u) :
    ∃ K, Steepness pre u m pts K ∧ (∀ K', Steepness pre u m pts K' → K' = K)
      ∧ (pts.length : ℝ) ≤ K ∧ K ≤ rateSum pre pts 1 := by
  have hp1 : ∀ q ∈ pts, q.1.HasSize s := fun q hq => (hp q hq).1
  have : Nonempty ((Fin u × Fin m) ⊕ Fin u) := ⟨.inr ⟨0, hu⟩⟩
  have : Nontrivial (Par u m) := inferInstance
  obtain ⟨K, v, t⟩ := LeastSquares.exists_top (design_adj (u := u) (m := m) (featX pre pts))
  refine ⟨K, (h.steep hp1).mpr ⟨v, t⟩, ?_, ?_, ?_⟩
  · intro K' hK'
    obtain ⟨v', t'⟩ := (h.steep hp1).mp hK'
    exact top_unique t' t
  · have h1 := t.bound (EuclideanSpace.single (.inr ⟨0, hu⟩) 1)
    rw [EuclideanSpace.norm_single, norm_one, one_pow, mul_one] at h1
    refine le_trans (le_of_eq ?_) h1
    rw [EuclideanSpace.norm_sq_eq, Fintype.sum_prod_type]
    have h2 : ∀ (q : Fin pts.length) (j : Fin u), ‖(design u m (featX pre pts)
        (EuclideanSpace.single (.inr ⟨0, hu⟩) 1)) (q, j)‖ ^ 2 = if j = ⟨0, hu⟩ then (1 : ℝ) else 0 := by
      intro q j
      by_cases hj : j = ⟨0, hu⟩ <;> simp [design, hj]
    simp only [h2, Finset.sum_ite_eq', Finset.mem_univ, if_true, Finset.sum_const, Finset.card_univ,
      Fintype.card_fin, nsmul_eq_mul, mul_one]
  · have h1 := design_bound (u := u) (m := m) (featX pre pts) v
    rw [t.top, t.unit, one_pow, mul_one] at h1
    rw [h.rateSum_eq hp, one_mul]
    exact h1

/-! ## Below the threshold -/

theorem length_pos' (hB : pts ≠ []) : (0 : ℝ) < pts.length := by
  exact_mod_cast List.length_pos_iff.mpr hB

theorem FixedFront.steep_setting (h : FixedFront pre s m) (hB : pts ≠ [])
    (hp : ∀ q ∈ pts, q.1.HasSize s ∧ q.2.length = u) (hK : Steepness pre u m pts K) {r : ℝ} (hr : 0 < r)
    (hs : r * K < 2 * pts.length) :
    LeastSquares.Setting (design u m (featX pre pts)) (designAdj u m (featX pre pts)) (r / pts.length) K := by
  obtain ⟨v, t⟩ := (h.steep fun q hq => (hp q hq).1).mp hK
  have hN := length_pos' hB
  refine t.setting (by positivity) ?_
  rw [div_mul_eq_mul_div, div_lt_iff₀ hN]
  exact hs

/-- C120. For a learning rate with `0 < r·K < 2B` every run converges: the error never grows, the
parameters converge, the limit has the least error, and it is the one nearest to the initial parameters
among all with that error. -/
theorem C120_below (h : FixedFront pre s m) (hB : pts ≠ [])
    (hp : ∀ q ∈ pts, q.1.HasSize s ∧ q.2.length = u) (hK : Steepness pre u m pts K) {f : LossFunc} {r : ℝ}
    (hr : 0 < r) (hs : r * K < 2 * pts.length) {L : Nat → Dense (Cf w ℝ)} {e : Nat → ℝ}
    (hrun : TrainingRun pre u m pts f r L e) :
    Antitone e ∧ ∃ (l' : Dense (Cf w ℝ)) (e' : ℝ), l'.Linear u m ∧ BatchError (withHead pre l') pts e'
      ∧ LeastError pre u m pts e' ∧ Tendsto (fun T => (L T).distSq l') atTop (𝓝 0)
      ∧ Tendsto e atTop (𝓝 e')
      ∧ ∀ l'' : Dense (Cf w ℝ), l''.Linear u m → BatchError (withHead pre l'') pts e' →
        (L 0).distSq l'' = (L 0).distSq l' + l'.distSq l'' := by
  refine ⟨?_, h.limit hB hp (h.steep_setting hB hp hK hr hs) hrun⟩
  obtain ⟨θ, h1, -, h3⟩ := h.run hB hp hrun
  rw [funext h3]
  exact (h.steep_setting hB hp hK hr hs).antitone h1

/-- C120. Below the threshold the distance of the error from the least error falls at least by a fixed factor
below 1 with every call. -/
theorem C120_factor (h : FixedFront pre s m) (hB : pts ≠ [])
    (hp : ∀ q ∈ pts, q.1.HasSize s ∧ q.2.length = u) (hK : Steepness pre u m pts K) {r : ℝ}
    (hr : 0 < r) (hs : r * K < 2 * pts.length) : ∃ ρ : ℝ, 0 ≤ ρ ∧ ρ < 1 ∧
      ∀ (f : LossFunc) (L : Nat → Dense (Cf w ℝ)) (e : Nat → ℝ), TrainingRun pre u m pts f r L e →
      ∀ (l' : Dense (Cf w ℝ)) (e' : ℝ), l'.Linear u m → BatchError (withHead pre l') pts e' →
        LeastError pre u m pts e' → ∀ T : Nat, e T - e' ≤ ρ ^ T * (e 0 - e') :=
  h.factor hB hp (h.steep_setting hB hp hK hr hs)

/-! ## Above the threshold, at the threshold, and negative rates -/

/-- Arbitrarily near to every vector there is one with a component along `v`. -/
theorem near_component {H : Type*} [NormedAddCommGroup H] [InnerProductSpace ℂ H] {v : H} (hv : ‖v‖ = 1)
    (x m : H) {ε : ℝ} (hε : 0 < ε) : ∃ y, ‖x - y‖ ^ 2 < ε ∧ (inner ℂ v (y - m) : ℂ) ≠ 0 := by
  by_cases h0 : (inner ℂ v (x - m) : ℂ) = 0
  · obtain ⟨δ, hδ, hδε⟩ : ∃ δ : ℝ, 0 < δ ∧ δ ^ 2 < ε := by
      refine ⟨Real.sqrt (ε / 2), by positivity, ?_⟩
      rw [Real.sq_sqrt (by positivity)]
      linarith
    refine ⟨x + (δ : ℂ) • v, ?_, ?_⟩
    · rw [sub_add_cancel_left, norm_neg, LeastSquares.norm_real_smul, hv]
      linarith
    · rw [add_sub_right_comm, inner_add_right, h0, zero_add, inner_smul_right, inner_self_eq_norm_sq_to_K, hv]
      simpa using hδ.ne'
  · exact ⟨x, by simpa using hε, h0⟩

/-- The initial parameters near a given layer. -/
theorem FixedFront.near (h : FixedFront pre s m) (hp : ∀ q ∈ pts, q.1.HasSize s ∧ q.2.length = u)
    {v θ' : Par u m} (hv : ‖v‖ = 1) (hl : l.Linear u m) {ε : ℝ} (hε : 0 < ε) :
    ∃ (l' : Dense (Cf w ℝ)) (W' : Nat → Nat → Cf w ℝ) (b' : Nat → Cf w ℝ), l'.Is u m W' b' .none
      ∧ l.distSq l' < ε ∧ (inner ℂ v (toPar u m W' b' - θ') : ℂ) ≠ 0 := by
  obtain ⟨W, b, hl⟩ := hl
  obtain ⟨y, h1, h2⟩ := near_component hv (toPar u m W b) θ' hε
  obtain ⟨l', W', b', hl', rfl⟩ := exists_layer (w := w) u m y
  exact ⟨l', W', b', hl', by rwa [distSq_eq hl hl'], h2⟩

theorem FixedFront.above (h : FixedFront pre s m) (hB : pts ≠ [])
    (hp : ∀ q ∈ pts, q.1.HasSize s ∧ q.2.length = u) (hK : Steepness pre u m pts K) {r : ℝ}
    (hs : 2 * pts.length < r * K) (hl : l.Linear u m) {ε : ℝ} (hε : 0 < ε) :
    ∃ l' : Dense (Cf w ℝ), l'.Linear u m ∧ l.distSq l' < ε ∧
      ∀ (f : LossFunc) (L : Nat → Dense (Cf w ℝ)) (e : Nat → ℝ), TrainingRun pre u m pts f r L e →
        (L 0).distSq l' = 0 → Tendsto e atTop atTop := by
  obtain ⟨v, t⟩ := (h.steep fun q hq => (hp q hq).1).mp hK
  obtain ⟨θ', hθ'⟩ := LeastSquares.exists_least (design u m (featX pre pts)) (targY u pts)
  obtain ⟨l', W', b', hl', hd, hne⟩ := h.near hp (θ' := θ') t.unit hl hε
  refine ⟨l', ⟨W', b', hl'⟩, hd, fun f L e hrun h0 => ?_⟩
  obtain ⟨θ, h1, h2, h3⟩ := h.run hB hp hrun
  obtain ⟨W0, b0, hW0, hθ0⟩ := h2 0
  have hθ : θ 0 = toPar u m W' b' := by
    rw [distSq_eq hW0 hl', ← hθ0, pow_eq_zero_iff two_ne_zero, norm_eq_zero] at h0
    exact sub_eq_zero.mp h0
  rw [funext h3]
  refine t.diverges ?_ hθ' h1 (by rw [hθ]; exact hne)
  rw [div_mul_eq_mul_div, lt_div_iff₀ (length_pos' hB)]
  exact hs

theorem distSq_self (hl : l.Linear u m) : l.distSq l = 0 := by
  obtain ⟨W, b, hl⟩ := hl
  rw [distSq_eq hl hl, sub_self, norm_zero]
  norm_num

/-- C120. For a learning rate with `r·K > 2B`: arbitrarily near to all initial parameters there are some
from which the error grows beyond every bound, for every loss. -/
theorem C120_above (h : FixedFront pre s m) (hB : pts ≠ [])
    (hp : ∀ q ∈ pts, q.1.HasSize s ∧ q.2.length = u) (hK : Steepness pre u m pts K) {r : ℝ}
    (hs : 2 * pts.length < r * K) (hl : l.Linear u m) {ε : ℝ} (hε : 0 < ε) :
    ∃ l' : Dense (Cf w ℝ), l'.Linear u m ∧ l.distSq l' < ε ∧
      ∀ (f : LossFunc) (L : Nat → Dense (Cf w ℝ)) (e : Nat → ℝ), TrainingRun pre u m pts f r L e →
        L 0 = l' → Tendsto e atTop atTop := by
  obtain ⟨l', h1, h2, h3⟩ := h.above hB hp hK hs hl hε
  exact ⟨l', h1, h2, fun f L e hrun h0 => h3 f L e hrun (by rw [h0]; exact distSq_self h1)⟩

/-- C120. For a learning rate with `r·K = 2B`: arbitrarily near to all initial parameters there are some
from which the error stays a fixed amount above the error of other parameters forever. -/
theorem C120_at (h : FixedFront pre s m) (hB : pts ≠ [])
    (hp : ∀ q ∈ pts, q.1.HasSize s ∧ q.2.length = u) (hK : Steepness pre u m pts K) {r : ℝ}
    (hs : r * K = 2 * pts.length) (hl : l.Linear u m) {ε : ℝ} (hε : 0 < ε) :
    ∃ (l' l'' : Dense (Cf w ℝ)) (e'' δ : ℝ), l'.Linear u m ∧ l.distSq l' < ε ∧ l''.Linear u m
      ∧ BatchError (withHead pre l'') pts e'' ∧ 0 < δ ∧
      ∀ (f : LossFunc) (L : Nat → Dense (Cf w ℝ)) (e : Nat → ℝ), TrainingRun pre u m pts f r L e →
        L 0 = l' → ∀ T : Nat, e'' + δ ≤ e T := by
  obtain ⟨v, t⟩ := (h.steep fun q hq => (hp q hq).1).mp hK
  obtain ⟨θ', hθ'⟩ := LeastSquares.exists_least (design u m (featX pre pts)) (targY u pts)
  obtain ⟨l', W', b', hl', hd, hne⟩ := h.near hp (θ' := θ') t.unit hl hε
  obtain ⟨l'', W'', b'', hl'', rfl⟩ := exists_layer (w := w) u m θ'
  have hN := length_pos' hB
  have hK0 : 0 < K := by
    rcases t.nonneg.eq_or_lt with h0 | h0
    · rw [← h0, mul_zero] at hs
      linarith
    · exact h0
  refine ⟨l', l'', _, K * ‖(inner ℂ v (toPar u m W' b' - toPar u m W'' b'') : ℂ)‖ ^ 2, ⟨W', b', hl'⟩, hd,
    ⟨W'', b'', hl''⟩, (h.error hl'' hp _).mpr rfl, ?_, fun f L e hrun h0 T => ?_⟩
  · have : 0 < ‖(inner ℂ v (toPar u m W' b' - toPar u m W'' b'') : ℂ)‖ := norm_pos_iff.mpr hne
    positivity
  obtain ⟨θ, h1, h2, h3⟩ := h.run hB hp hrun
  obtain ⟨W0, b0, hW0, hθ0⟩ := h2 0
  rw [h0] at hW0
  have hη : r / pts.length * K = 2 := by
    rw [div_mul_eq_mul_div, div_eq_iff hN.ne']
    exact hs
  have := t.edge hη hθ' h1 T
  rw [hθ0, toPar_unique hW0 hl', ← h3] at this
  linarith

/-- C120. With a negative learning rate, the error grows strictly and beyond every bound from all initial
parameters that do not have the least error already. -/
theorem C120_negative (h : FixedFront pre s m) (hu : 0 < u) (hB : pts ≠ [])
    (hp : ∀ q ∈ pts, q.1.HasSize s ∧ q.2.length = u) {f : LossFunc} {r : ℝ} (hr : r < 0)
    {L : Nat → Dense (Cf w ℝ)} {e : Nat → ℝ} (hrun : TrainingRun pre u m pts f r L e)
    (h0 : ¬ LeastError pre u m pts (e 0)) : StrictMono e ∧ Tendsto e atTop atTop := by
  obtain ⟨K, hK, -, -, -⟩ := C120_steepness (pts := pts) h hu hp
  obtain ⟨v, t⟩ := (h.steep fun q hq => (hp q hq).1).mp hK
  obtain ⟨θ', hθ'⟩ := LeastSquares.exists_least (design u m (featX pre pts)) (targY u pts)
  obtain ⟨θ, h1, h2, h3⟩ := h.run hB hp hrun
  rw [funext h3]
  refine t.negative (div_neg_of_neg_of_pos hr (length_pos' hB)) hθ' h1 ?_
  rw [← h3]
  by_contra hle
  refine h0 ?_
  rintro l e' ⟨W, b, hl⟩ he
  rw [(h.error hl hp e').mp he]
  exact (not_lt.mp hle).trans (hθ' _)

/-! ## One point -/

theorem design_single {N : Nat} [Subsingleton (Fin N)] (X : Fin N → Nat → ℂ) (y : Pred N u) (q : Fin N) :
    design u m X (designAdj u m X y) = (((1 + ∑ i : Fin m, ‖X q i‖ ^ 2 : ℝ)) : ℂ) • y := by
  ext p
  obtain ⟨q', j⟩ := p
  obtain rfl : q' = q := Subsingleton.elim _ _
  have hu : (Finset.univ : Finset (Fin N)) = {q'} := by
    ext x
    simp [Subsingleton.elim x q']
  simp only [design, designAdj, LinearMap.coe_mk, AddHom.coe_mk, Sum.elim_inl, Sum.elim_inr, hu,
    Finset.sum_singleton, PiLp.smul_apply, smul_eq_mul]
  push_cast
  rw [add_mul, one_mul, Finset.sum_mul, add_comm]
  congr 1
  refine Finset.sum_congr rfl fun i _ => ?_
  rw [mul_right_comm, mul_comm (conj (X q' i)), Complex.mul_conj']

/-- C120. One point `x`: the steepness is `1 + ‖x‖²`, and every call multiplies the error by
`(1 - r·(1 + ‖x‖²))²` exactly, for every real learning rate `r` and any initial parameters. -/
theorem C120_single (h : FixedFront pre s m) (hu : 0 < u) {x : IOType (Cf w ℝ) × List (Cf w ℝ)}
    (hx : x.1.HasSize s ∧ x.2.length = u) {f : LossFunc} {r : ℝ} {L : Nat → Dense (Cf w ℝ)} {e : Nat → ℝ}
    (hrun : TrainingRun pre u m [x] f r L e) :
    Steepness pre u m [x] (rateSum pre [x] 1)
      ∧ ∀ T : Nat, e T = ((1 - r * rateSum pre [x] 1) ^ 2) ^ T * e 0 := by
  have hp : ∀ q ∈ [x], q.1.HasSize s ∧ q.2.length = u := by simpa using hx
  have hsub : Subsingleton (Fin [x].length) := inferInstanceAs (Subsingleton (Fin 1))
  set q : Fin [x].length := ⟨0, by simp⟩ with hq
  have hun : (Finset.univ : Finset (Fin [x].length)) = {q} := by
    ext z
    exact ⟨fun _ => Finset.mem_singleton.mpr (Subsingleton.elim _ _), fun _ => Finset.mem_univ _⟩
  have hc : rateSum pre [x] 1 = 1 + ∑ i : Fin m, ‖featX pre [x] q i‖ ^ 2 := by
    rw [h.rateSum_eq hp, one_mul, hun, Finset.sum_singleton]
  have hc0 : 0 ≤ rateSum pre [x] 1 := by
    rw [hc]
    positivity
  constructor
  · obtain ⟨K, hK, -, -, hle⟩ := C120_steepness h hu hp
    obtain ⟨v, t⟩ := (h.steep fun q hq => (hp q hq).1).mp hK
    have hge : rateSum pre [x] 1 ≤ K := by
      set y : Pred [x].length u := EuclideanSpace.single (q, ⟨0, hu⟩) 1 with hy
      have hy1 : ‖y‖ = 1 := by rw [hy, EuclideanSpace.norm_single, norm_one]
      have h1 := t.bound (designAdj u m (featX pre [x]) y)
      have h2 : ‖designAdj u m (featX pre [x]) y‖ ^ 2 = rateSum pre [x] 1 := by
        have e1 : (inner ℂ (designAdj u m (featX pre [x]) y) (designAdj u m (featX pre [x]) y)).re
            = ‖designAdj u m (featX pre [x]) y‖ ^ 2 := inner_self_eq_norm_sq (𝕜 := ℂ) _
        rw [← design_adj, design_single _ _ q, ← hc, inner_smul_left, Complex.conj_ofReal, Complex.re_ofReal_mul] at e1
        have e2 : (inner ℂ y y).re = ‖y‖ ^ 2 := inner_self_eq_norm_sq (𝕜 := ℂ) _
        rw [e2, hy1, one_pow, mul_one] at e1
        exact e1.symm
      rw [design_single _ _ q, ← hc, LeastSquares.norm_real_smul, hy1, h2, one_pow, mul_one] at h1
      have hpos : 0 < rateSum pre [x] 1 := by
        rw [hc]
        positivity
      nlinarith
    rw [← le_antisymm hle hge]
    exact hK
  · obtain ⟨θ, h1, -, h3⟩ := h.run (by simp) hp hrun
    intro T
    induction T with
    | zero => simp
    | succ T ih =>
      have hres : design u m (featX pre [x]) (θ (T + 1)) - targY u [x]
          = ((1 - r * rateSum pre [x] 1 : ℝ) : ℂ) • (design u m (featX pre [x]) (θ T) - targY u [x]) := by
        rw [h1, LeastSquares.next, map_sub, map_smul, design_single _ _ q, ← hc]
        simp only [List.length_singleton, Nat.cast_one, div_one]
        push_cast
        rw [sub_smul, one_smul, mul_smul]
        abel
      rw [h3, hres, LeastSquares.norm_real_smul, ← h3, ih, pow_succ]
      ring

/-- C120. A learning rate above 2 is too large for every batch: arbitrarily near to all initial parameters
there are some from which the error grows beyond every bound. -/
theorem C120_two (h : FixedFront pre s m) (hu : 0 < u) (hB : pts ≠ [])
    (hp : ∀ q ∈ pts, q.1.HasSize s ∧ q.2.length = u) {r : ℝ} (hr : 2 < r) (hl : l.Linear u m) {ε : ℝ} (hε : 0 < ε) :
    ∃ l' : Dense (Cf w ℝ), l'.Linear u m ∧ l.distSq l' < ε ∧
      ∀ (f : LossFunc) (L : Nat → Dense (Cf w ℝ)) (e : Nat → ℝ), TrainingRun pre u m pts f r L e →
        L 0 = l' → Tendsto e atTop atTop := by
  obtain ⟨K, hK, -, hge, -⟩ := C120_steepness h hu hp
  have hN := length_pos' hB
  exact C120_above h hB hp hK (by nlinarith) hl hε

/-! ## Convolutional layers -/

section images
variable {nf n p q r c : Nat}

/-- The learning rate of the images and that of the patches. -/
theorem patches_rate {s : ℝ} (hK : s * K < 2 * pts.length) :
    s * (((r - p + 1) * (c - q + 1) : Nat) : ℝ) * K < 2 * (allPatches nf p q r c pts).length := by
  have hpos : (0 : ℝ) < (((r - p + 1) * (c - q + 1) : Nat) : ℝ) := by
    exact_mod_cast Nat.mul_pos (by omega) (by omega)
  have e2 : ((allPatches nf p q r c pts).length : ℝ) = pts.length * (((r - p + 1) * (c - q + 1) : Nat) : ℝ) := by
    rw [allPatches_length]
    push_cast
    ring
  rw [e2]
  nlinarith

theorem patches_rate' {s : ℝ} (hK : 2 * pts.length < s * K) :
    2 * (allPatches nf p q r c pts).length < s * (((r - p + 1) * (c - q + 1) : Nat) : ℝ) * K := by
  have hpos : (0 : ℝ) < (((r - p + 1) * (c - q + 1) : Nat) : ℝ) := by
    exact_mod_cast Nat.mul_pos (by omega) (by omega)
  have e2 : ((allPatches nf p q r c pts).length : ℝ) = pts.length * (((r - p + 1) * (c - q + 1) : Nat) : ℝ) := by
    rw [allPatches_length]
    push_cast
    ring
  rw [e2]
  nlinarith

/-- C120, convolutional layers. `K` is the steepness of all patches of all images. For a learning rate with
`0 < s·K < 2B` every run converges to the nearest of the kernels and biases of least error. -/
theorem C120_images_below (hf : 0 < nf) (hn : 0 < n) (hp : 1 ≤ p ∧ p ≤ r) (hq : 1 ≤ q ∧ q ≤ c)
    (hi : Images nf n p q r c pts) (hB : pts ≠ [])
    (hK : Steepness (patchFront n p q) nf (n * (p * q)) (allPatches nf p q r c pts) K) {lf : LossFunc} {s : ℝ}
    (hs : 0 < s) (hsK : s * K < 2 * pts.length)
    {L : Nat → Conv (Cf w ℝ)} {e : Nat → ℝ} (hr : ImageRun nf n p q r c pts lf s L e) :
    Antitone e ∧ ∃ (l' : Conv (Cf w ℝ)) (e' : ℝ), l'.Linear nf n p q
      ∧ BatchError (imageNet nf (r - p + 1) (c - q + 1) l') pts e'
      ∧ LeastImageError nf n p q r c pts e' ∧ Tendsto (fun T => (L T).distSq l') atTop (𝓝 0)
      ∧ Tendsto e atTop (𝓝 e')
      ∧ ∀ l'' : Conv (Cf w ℝ), l''.Linear nf n p q → BatchError (imageNet nf (r - p + 1) (c - q + 1) l'') pts e' →
        (L 0).distSq l'' = (L 0).distSq l' + l'.distSq l'' := by
  have hset := none_setting (w := w) hf hn hp hq
  have hfr := patch_front (w := w) hn hp.1 hq.1
  obtain ⟨D, hD, hrun⟩ := hr.patches hf hn hp hq hi hB
  have hpos : (0 : ℝ) < (((r - p + 1) * (c - q + 1) : Nat) : ℝ) := by
    exact_mod_cast Nat.mul_pos (by omega) (by omega)
  obtain ⟨h0, d', e', h1, h2, h3, h4, h5, h6⟩ := C120_below hfr
    (patches_ne (nf := nf) (p := p) (q := q) (r := r) (c := c) hB) (patches_size hp hq hi) hK (mul_pos hs hpos)
    (patches_rate hsK) hrun
  obtain ⟨l', hl'⟩ := exists_sameConv h1
  refine ⟨h0, l', e', hl'.linear.1, (C119_error hset hl' hi e').mpr h2, ?_, ?_, h5, ?_⟩
  · intro l e1 hl he
    obtain ⟨d, hd⟩ := exists_sameDense hl
    exact h3 d e1 hd.linear.2 ((C119_error hset hd hi e1).mp he)
  · have : (fun T => (L T).distSq l') = fun T => (D T).distSq d' := funext fun T => (hD T).dist hl'
    rw [this]
    exact h4
  · intro l'' hl'' he
    obtain ⟨d'', hd''⟩ := exists_sameDense hl''
    rw [(hD 0).dist hd'', (hD 0).dist hl', hl'.dist hd'']
    exact h6 d'' hd''.linear.2 ((C119_error hset hd'' hi e').mp he)

/-- C120, convolutional layers. For a learning rate with `s·K > 2B`: arbitrarily near to all kernels and biases
there are some from which the error grows beyond every bound. -/
theorem C120_images_above (hf : 0 < nf) (hn : 0 < n) (hp : 1 ≤ p ∧ p ≤ r) (hq : 1 ≤ q ∧ q ≤ c)
    (hi : Images nf n p q r c pts) (hB : pts ≠ [])
    (hK : Steepness (patchFront n p q) nf (n * (p * q)) (allPatches nf p q r c pts) K) {s : ℝ}
    (hsK : 2 * pts.length < s * K) {l : Conv (Cf w ℝ)} (hl : l.Linear nf n p q) {ε : ℝ} (hε : 0 < ε) :
    ∃ l' : Conv (Cf w ℝ), l'.Linear nf n p q ∧ l.distSq l' < ε ∧
      ∀ (lf : LossFunc) (L : Nat → Conv (Cf w ℝ)) (e : Nat → ℝ), ImageRun nf n p q r c pts lf s L e →
        L 0 = l' → Tendsto e atTop atTop := by
  have hfr := patch_front (w := w) hn hp.1 hq.1
  obtain ⟨d, hd⟩ := exists_sameDense hl
  obtain ⟨d', h1, h2, h3⟩ := hfr.above
    (patches_ne (nf := nf) (p := p) (q := q) (r := r) (c := c) hB) (patches_size hp hq hi) hK
    (patches_rate' hsK) hd.linear.2 hε
  obtain ⟨l', hl'⟩ := exists_sameConv h1
  refine ⟨l', hl'.linear.1, by rwa [hd.dist hl'], fun lf L e hr h0 => ?_⟩
  obtain ⟨D, hD, hrun⟩ := hr.patches hf hn hp hq hi hB
  refine h3 lf D e hrun ?_
  have := hD 0
  rw [h0] at this
  rw [← this.dist hl', hl'.dist hl', distSq_self h1]

/-- C120, convolutional layers. With kernels at `P` places of the images, a learning rate above `2/P` is too large
for every batch of images. -/
theorem C120_images_places (hf : 0 < nf) (hn : 0 < n) (hp : 1 ≤ p ∧ p ≤ r) (hq : 1 ≤ q ∧ q ≤ c)
    (hi : Images nf n p q r c pts) (hB : pts ≠ []) {s : ℝ}
    (hs : 2 < s * (((r - p + 1) * (c - q + 1) : Nat) : ℝ)) {l : Conv (Cf w ℝ)} (hl : l.Linear nf n p q)
    {ε : ℝ} (hε : 0 < ε) :
    ∃ l' : Conv (Cf w ℝ), l'.Linear nf n p q ∧ l.distSq l' < ε ∧
      ∀ (lf : LossFunc) (L : Nat → Conv (Cf w ℝ)) (e : Nat → ℝ), ImageRun nf n p q r c pts lf s L e →
        L 0 = l' → Tendsto e atTop atTop := by
  obtain ⟨K, hK, -, hge, -⟩ := C120_steepness (patch_front (w := w) hn hp.1 hq.1) hf (patches_size hp hq hi)
  have hN := length_pos' hB
  have hpos : (0 : ℝ) < (((r - p + 1) * (c - q + 1) : Nat) : ℝ) := by
    exact_mod_cast Nat.mul_pos (by omega) (by omega)
  have e2 : ((allPatches nf p q r c pts).length : ℝ) = pts.length * (((r - p + 1) * (c - q + 1) : Nat) : ℝ) := by
    rw [allPatches_length]
    push_cast
    ring
  rw [e2] at hge
  have hs0 : 0 < s := by
    by_contra h
    nlinarith
  refine C120_images_above hf hn hp hq hi hB hK ?_ hl hε
  have : s * (pts.length * (((r - p + 1) * (c - q + 1) : Nat) : ℝ)) ≤ s * K := by gcongr
  nlinarith

end images

/-! ## Non-vacuity -/

/-- The input 3 alone: the steepness is 10, and the threshold lies at 1/5. -/
example : Steepness (exFront : List (Layer (Cf .w64 ℝ))) 1 1 [exPoint 3] 10
    ∧ ∀ f : LossFunc, (∃ (L : Nat → Dense (Cf .w64 ℝ)) (e : Nat → ℝ),
        TrainingRun exFront 1 1 [exPoint 3] f (1 / 10) L e ∧ e 1 = 0)
      ∧ ∃ (L : Nat → Dense (Cf .w64 ℝ)) (e : Nat → ℝ),
        TrainingRun exFront 1 1 [exPoint 3] f (3 / 10) L e ∧ ∀ T, e T = 4 ^ T * e 0 := by
  have hB : [(exPoint 3 : IOType (Cf .w64 ℝ) × List (Cf .w64 ℝ))] ≠ [] := by simp
  have hsz := exPoint_size (w := .w64) 3
  have hx := hsz _ (List.mem_singleton_self _)
  have hrs : rateSum (exFront : List (Layer (Cf .w64 ℝ))) [exPoint 3] 1 = 10 := by
    rw [ex_rateSum]
    norm_num
  have hex : ∀ (f : LossFunc) (r : ℝ), ∃ L e, L 0 = exHead 1 ∧ TrainingRun exFront 1 1 [exPoint 3] f r L e :=
    fun f r => C102_run (l := exHead 1) (exFront_front (w := .w64)) ⟨_, _, exHead_is 1⟩ hB hsz f r
  refine ⟨?_, fun f => ⟨?_, ?_⟩⟩
  · obtain ⟨L, e, -, hrun⟩ := hex .meanSquare 1
    rw [← hrs]
    exact (C120_single exFront_front (by omega) hx hrun).1
  · obtain ⟨L, e, -, hrun⟩ := hex f (1 / 10)
    refine ⟨L, e, hrun, ?_⟩
    rw [(C120_single exFront_front (by omega) hx hrun).2 1, hrs]
    norm_num
  · obtain ⟨L, e, -, hrun⟩ := hex f (3 / 10)
    refine ⟨L, e, hrun, fun T => ?_⟩
    rw [(C120_single exFront_front (by omega) hx hrun).2 T, hrs]
    norm_num

end Renplex
