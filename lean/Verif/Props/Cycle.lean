import Verif.Spec.Cycle
import Verif.Lemmas.Cycle
import Verif.Props.Epochs
/-!
# C125: training in epochs with batches that cannot be reproduced together
-/

namespace Renplex
open Filter Topology
variable {w : Width} {pre : List (Layer (Cf w ℝ))} {s : Size} {u m : Nat}
  {l : Dense (Cf w ℝ)} {W : Nat → Nat → Cf w ℝ} {b : Nat → Cf w ℝ} {bs : List (Part w)}

theorem Part.next_diff (p : Part w) (θ θ' : Par u m) :
    p.next pre u m θ - p.next pre u m θ' = p.map pre u m (θ - θ') := by
  unfold Part.next Part.map
  rw [LeastSquares.stepMap_apply, LeastSquares.next, LeastSquares.next]
  simp only [map_sub, smul_sub]
  abel

theorem epoch_diff (θ θ' : Par u m) :
    bs.foldl (Part.next pre u m) θ - bs.foldl (Part.next pre u m) θ' = epochMap pre u m bs (θ - θ') := by
  induction bs generalizing θ θ' with
  | nil => rfl
  | cons p bs ih =>
    rw [List.foldl_cons, List.foldl_cons, ih, Part.next_diff]
    rfl

theorem adj_perp {pts : List (IOType (Cf w ℝ) × List (Cf w ℝ))} (y : Pred pts.length u) :
    designAdj u m (featX pre pts) y ∈ (LinearMap.ker (design u m (featX pre pts)))ᗮ := by
  intro k hk
  rw [← design_adj, LinearMap.mem_ker.mp hk, inner_zero_left]

theorem epoch_perp (θ : Par u m) : bs.foldl (Part.next pre u m) θ - θ ∈ (silentOn pre u m bs)ᗮ := by
  induction bs generalizing θ with
  | nil => simp
  | cons p bs ih =>
    rw [List.foldl_cons]
    have h1 := Submodule.orthogonal_le (inf_le_right : silentOn pre u m (p :: bs) ≤ silentOn pre u m bs)
      (ih (p.next pre u m θ))
    have h2 : p.next pre u m θ - θ ∈ (silentOn pre u m (p :: bs))ᗮ := by
      refine Submodule.orthogonal_le (inf_le_left : silentOn pre u m (p :: bs) ≤ _) ?_
      unfold Part.next
      rw [LeastSquares.next, sub_sub_cancel_left]
      exact Submodule.neg_mem _ (Submodule.smul_mem _ _ (adj_perp _))
    have := Submodule.add_mem _ h1 h2
    rwa [sub_add_sub_cancel] at this

theorem FixedFront.settled_par (h : FixedFront pre s m) (hl : l.Is u m W b .none)
    (hb : ∀ p ∈ bs, p.pts ≠ [] ∧ ∀ q ∈ p.pts, q.1.HasSize s ∧ q.2.length = u) :
    l.Settled pre u m bs ↔ bs.foldl (Part.next pre u m) (toPar u m W b) = toPar u m W b := by
  obtain ⟨l', W', b', h1, h2, h3⟩ := h.train_par hl hb
  have key : l'.distSq l = 0 ↔ bs.foldl (Part.next pre u m) (toPar u m W b) = toPar u m W b := by
    rw [distSq_eq h2 hl, pow_eq_zero_iff two_ne_zero, norm_eq_zero, sub_eq_zero, h3]
  rw [← key]
  constructor
  · rintro ⟨-, l2, k1, -, k3⟩
    rw [h1] at k1
    rwa [withHead_inj (Option.some.inj k1)]
  · intro hd
    exact ⟨⟨W, b, hl⟩, l', h1, ⟨W', b', h2⟩, hd⟩

/-- C125. Training with any batches, with learning rates below the thresholds of the batches, takes two choices of
parameters no further apart, and strictly nearer unless both make the same predictions on all points. -/
theorem C125_contract (h : FixedFront pre s m) (hu : 0 < u) (hb : ∀ p ∈ bs, p.Fine pre s u m)
    {l₁ l₂ : Dense (Cf w ℝ)} (h₁ : l₁.Linear u m) (h₂ : l₂.Linear u m) :
    ∃ l₁' l₂', (withHead pre l₁).train (bs.map Part.call) = some (withHead pre l₁') ∧ l₁'.Linear u m
      ∧ (withHead pre l₂).train (bs.map Part.call) = some (withHead pre l₂') ∧ l₂'.Linear u m
      ∧ l₁'.distSq l₂' ≤ l₁.distSq l₂
      ∧ ((∃ p ∈ bs, ∃ q ∈ p.pts, (withHead pre l₁).forward q.1 ≠ (withHead pre l₂).forward q.1) →
        l₁'.distSq l₂' < l₁.distSq l₂) := by
  have hb1 : ∀ p ∈ bs, p.pts ≠ [] ∧ ∀ q ∈ p.pts, q.1.HasSize s ∧ q.2.length = u :=
    fun p hp => ⟨(hb p hp).ne, (hb p hp).sized⟩
  obtain ⟨W₁, b₁, h₁⟩ := h₁
  obtain ⟨W₂, b₂, h₂⟩ := h₂
  obtain ⟨l₁', V₁, c₁, k1, k2, k3⟩ := h.train_par h₁ hb1
  obtain ⟨l₂', V₂, c₂, j1, j2, j3⟩ := h.train_par h₂ hb1
  have hsh := epoch_shrinks h hu hb
  have hle := hsh.le (toPar u m W₁ b₁ - toPar u m W₂ b₂)
  refine ⟨l₁', l₂', k1, ⟨_, _, k2⟩, j1, ⟨_, _, j2⟩, ?_, ?_⟩
  · rw [distSq_eq k2 j2, distSq_eq h₁ h₂, k3, j3, epoch_diff]
    gcongr
  · rintro ⟨p, hp, q, hq, hne⟩
    rw [distSq_eq k2 j2, distSq_eq h₁ h₂, k3, j3, epoch_diff]
    have hlt : ‖epochMap pre u m bs (toPar u m W₁ b₁ - toPar u m W₂ b₂)‖ < ‖toPar u m W₁ b₁ - toPar u m W₂ b₂‖ := by
      refine lt_of_le_of_ne hle fun he => hne ?_
      have h0 := (mem_silentOn _).mp (hsh.eq _ he) p hp
      obtain ⟨i, hi, rfl⟩ := List.mem_iff_getElem.mp hq
      rw [h.forward h₁ (hb1 p hp |>.2 _ hq).1, h.forward h₂ (hb1 p hp |>.2 _ hq).1]
      congr 3
      refine List.map_congr_left fun j hj => ?_
      have hj' := List.mem_range.mp hj
      rw [map_sub, sub_eq_zero] at h0
      have e1 := design_toPar (pre := pre) (m := m) (pts := p.pts) (u := u) W₁ b₁ (⟨i, hi⟩, ⟨j, hj'⟩)
      have e2 := design_toPar (pre := pre) (m := m) (pts := p.pts) (u := u) W₂ b₂ (⟨i, hi⟩, ⟨j, hj'⟩)
      rw [h0] at e1
      have e3 := e1.symm.trans e2
      rw [← Cf.toC_inj]
      simpa using e3
    gcongr

/-- C125. Training in epochs with learning rates below the thresholds of the batches always converges, whether or not
the targets can be reproduced: the parameters after every epoch tend to parameters that an epoch leaves as they are,
to the nearest such parameters to the start, and the distance falls at least by a fixed factor below 1 with every
epoch. The factor does not depend on the start. -/
theorem C125_limit (h : FixedFront pre s m) (hu : 0 < u) (hb : ∀ p ∈ bs, p.Fine pre s u m) :
    ∃ ρ : ℝ, 0 ≤ ρ ∧ ρ < 1 ∧
      ∀ L : Nat → Dense (Cf w ℝ), EpochRun pre u m bs L → ∃ l' : Dense (Cf w ℝ), l'.Settled pre u m bs
        ∧ (∀ T : Nat, (L T).distSq l' ≤ ρ ^ T * (L 0).distSq l')
        ∧ ∀ l'' : Dense (Cf w ℝ), l''.Settled pre u m bs → (L 0).distSq l'' = (L 0).distSq l' + l'.distSq l'' := by
  have hb1 : ∀ p ∈ bs, p.pts ≠ [] ∧ ∀ q ∈ p.pts, q.1.HasSize s ∧ q.2.length = u :=
    fun p hp => ⟨(hb p hp).ne, (hb p hp).sized⟩
  have hsh := epoch_shrinks h hu hb
  obtain ⟨ρ, r0, r1, hr⟩ := hsh.factor
  refine ⟨ρ ^ 2, by positivity, by nlinarith, fun L hrun => ?_⟩
  obtain ⟨θ, h1, h2⟩ := h.epochs hb1 hrun
  obtain ⟨θ', hfix, hperp⟩ := hsh.fixed (E := bs.foldl (Part.next pre u m)) epoch_diff epoch_perp (θ 0)
  obtain ⟨l', W', b', hl', rfl⟩ := exists_layer (w := w) u m θ'
  have hT : ∀ T, θ T - toPar u m W' b' = ((epochMap pre u m bs) ^ T) (θ 0 - toPar u m W' b') := by
    intro T
    induction T with
    | zero => simp
    | succ T ih =>
      rw [h1, pow_succ', Module.End.mul_apply, ← ih, ← epoch_diff, hfix]
  refine ⟨l', (h.settled_par hl' hb1).mpr hfix, fun T => ?_, fun l'' hf'' => ?_⟩
  · obtain ⟨WT, bT, hWT, hθT⟩ := h2 T
    obtain ⟨Wo, bo, hWo, hθo⟩ := h2 0
    rw [distSq_eq hWT hl', distSq_eq hWo hl', ← hθT, ← hθo, hT T, ← pow_mul, Nat.mul_comm, pow_mul, ← mul_pow]
    have := hr _ hperp T
    gcongr
  · obtain ⟨W'', b'', hl''⟩ := hf''.1
    have hfix'' := (h.settled_par hl'' hb1).mp hf''
    obtain ⟨Wo, bo, hWo, hθo⟩ := h2 0
    rw [distSq_eq hWo hl'', distSq_eq hWo hl', distSq_eq hl' hl'', ← hθo]
    have hin : toPar u m W' b' - toPar u m W'' b'' ∈ silentOn pre u m bs := by
      refine hsh.eq _ ?_
      rw [← epoch_diff, hfix, hfix'']
    have h0 : inner ℂ (θ 0 - toPar u m W' b') (toPar u m W' b' - toPar u m W'' b'') = (0 : ℂ) :=
      Submodule.inner_left_of_mem_orthogonal hin hperp
    rw [← sub_add_sub_cancel (θ 0) (toPar u m W' b') (toPar u m W'' b''), sq, sq, sq]
    exact norm_add_sq_eq_norm_sq_add_norm_sq_of_inner_eq_zero _ _ h0

/-! ## Small learning rates -/

/-- The gradient of a batch, multiplied by the learning rate: the linear part and the constant. -/
noncomputable def Part.pair (pre : List (Layer (Cf w ℝ))) (u m : Nat) (p : Part w) :
    (Par u m →ₗ[ℂ] Par u m) × Par u m :=
  (((p.rate / p.pts.length : ℝ) : ℂ) • (designAdj u m (featX pre p.pts) ∘ₗ design u m (featX pre p.pts)),
    ((p.rate / p.pts.length : ℝ) : ℂ) • designAdj u m (featX pre p.pts) (targY u p.pts))

theorem Part.slow_next (η : ℝ) (p : Part w) (θ : Par u m) :
    (p.slow η).next pre u m θ = θ - (η : ℂ) • ((p.pair pre u m).1 θ - (p.pair pre u m).2) := by
  unfold Part.next Part.slow Part.pair
  simp only [LeastSquares.next, LinearMap.smul_apply, LinearMap.comp_apply, ← smul_sub, ← map_sub, smul_smul]
  congr 2
  push_cast
  ring

theorem slow_foldl (η : ℝ) (θ : Par u m) :
    (bs.map (Part.slow η)).foldl (Part.next pre u m) θ
      = (bs.map (Part.pair pre u m)).foldl (fun θ g => θ - (η : ℂ) • (g.1 θ - g.2)) θ := by
  rw [List.foldl_map, List.foldl_map]
  congr 1
  funext θ p
  exact p.slow_next η θ

/-- The sum of the linear parts. -/
noncomputable def pairSum (pre : List (Layer (Cf w ℝ))) (u m : Nat) (bs : List (Part w)) : Par u m →ₗ[ℂ] Par u m :=
  ((bs.map (Part.pair pre u m)).map Prod.fst).sum

/-- The sum of the constants. -/
noncomputable def pairConst (pre : List (Layer (Cf w ℝ))) (u m : Nat) (bs : List (Part w)) : Par u m :=
  ((bs.map (Part.pair pre u m)).map Prod.snd).sum

theorem pairSum_cons (p : Part w) (θ : Par u m) :
    pairSum pre u m (p :: bs) θ = ((p.rate / p.pts.length : ℝ) : ℂ) • designAdj u m (featX pre p.pts)
      (design u m (featX pre p.pts) θ) + pairSum pre u m bs θ := by
  simp [pairSum, Part.pair]

theorem pairConst_cons (p : Part w) :
    pairConst pre u m (p :: bs) = ((p.rate / p.pts.length : ℝ) : ℂ) • designAdj u m (featX pre p.pts)
      (targY u p.pts) + pairConst pre u m bs := by
  simp [pairConst, Part.pair]

/-- The weighted sum of the squared lengths of the predictions. -/
noncomputable def quadOn (pre : List (Layer (Cf w ℝ))) (u m : Nat) (bs : List (Part w)) (d : Par u m) : ℝ :=
  (bs.map fun p => p.rate / (p.pts.length : ℝ) * ‖design u m (featX pre p.pts) d‖ ^ 2).sum

/-- The weighted sum of the squared errors. -/
noncomputable def errorOn (pre : List (Layer (Cf w ℝ))) (u m : Nat) (bs : List (Part w)) (θ : Par u m) : ℝ :=
  (bs.map fun p => p.rate / (p.pts.length : ℝ) * ‖design u m (featX pre p.pts) θ - targY u p.pts‖ ^ 2).sum

theorem quadOn_inner (d : Par u m) : quadOn pre u m bs d = (inner ℂ d (pairSum pre u m bs d)).re := by
  induction bs with
  | nil => simp [quadOn, pairSum]
  | cons p bs ih =>
    have h1 : (inner ℂ (design u m (featX pre p.pts) d) (design u m (featX pre p.pts) d)).re
        = ‖design u m (featX pre p.pts) d‖ ^ 2 := inner_self_eq_norm_sq (𝕜 := ℂ) _
    rw [pairSum_cons, inner_add_right, Complex.add_re, ← ih, LeastSquares.inner_real_smul, ← design_adj, h1]
    simp [quadOn]

theorem errorOn_eq (θ z : Par u m) : errorOn pre u m bs θ = errorOn pre u m bs z + quadOn pre u m bs (θ - z)
    + 2 * (inner ℂ (θ - z) (pairSum pre u m bs z - pairConst pre u m bs)).re := by
  induction bs with
  | nil => simp [errorOn, quadOn, pairSum, pairConst]
  | cons p bs ih =>
    have e1 : pairSum pre u m (p :: bs) z - pairConst pre u m (p :: bs)
        = ((p.rate / p.pts.length : ℝ) : ℂ) • designAdj u m (featX pre p.pts)
          (design u m (featX pre p.pts) z - targY u p.pts) + (pairSum pre u m bs z - pairConst pre u m bs) := by
      rw [pairSum_cons, pairConst_cons, map_sub, smul_sub]
      abel
    rw [e1, inner_add_right, Complex.add_re, LeastSquares.inner_real_smul, ← design_adj]
    have e2 : design u m (featX pre p.pts) θ - targY u p.pts
        = (design u m (featX pre p.pts) z - targY u p.pts) + design u m (featX pre p.pts) (θ - z) := by
      rw [map_sub]
      abel
    have e3 := norm_add_sq (𝕜 := ℂ) (design u m (featX pre p.pts) z - targY u p.pts) (design u m (featX pre p.pts) (θ - z))
    rw [← e2, inner_re_symm] at e3
    have e4 : errorOn pre u m (p :: bs) θ = p.rate / (p.pts.length : ℝ)
        * ‖design u m (featX pre p.pts) θ - targY u p.pts‖ ^ 2 + errorOn pre u m bs θ := by simp [errorOn]
    have e5 : errorOn pre u m (p :: bs) z = p.rate / (p.pts.length : ℝ)
        * ‖design u m (featX pre p.pts) z - targY u p.pts‖ ^ 2 + errorOn pre u m bs z := by simp [errorOn]
    have e6 : quadOn pre u m (p :: bs) (θ - z) = p.rate / (p.pts.length : ℝ)
        * ‖design u m (featX pre p.pts) (θ - z)‖ ^ 2 + quadOn pre u m bs (θ - z) := by simp [quadOn]
    rw [e4, e5, e6, ih, e3]
    simp only [RCLike.re_to_complex]
    ring

theorem FixedFront.weighted (h : FixedFront pre s m) (hl : l.Is u m W b .none)
    (hb : ∀ p ∈ bs, ∀ q ∈ p.pts, q.1.HasSize s ∧ q.2.length = u) (e : ℝ) :
    WeightedError pre bs l e ↔ e = errorOn pre u m bs (toPar u m W b) := by
  have key : ∀ es : List ℝ, List.Forall₂ (fun p e => BatchError (withHead pre l) p.pts e) bs es
      ↔ es = bs.map fun p => ‖design u m (featX pre p.pts) (toPar u m W b) - targY u p.pts‖ ^ 2 := by
    induction bs with
    | nil => intro es; simp
    | cons p bs ih =>
      intro es
      rw [List.forall₂_cons_left_iff, List.map_cons]
      constructor
      · rintro ⟨e, es', he, hes, rfl⟩
        rw [(h.error hl (hb p (by simp)) e).mp he, (ih (fun p' hp' => hb p' (by simp [hp'])) es').mp hes]
      · rintro rfl
        exact ⟨_, _, (h.error hl (hb p (by simp)) _).mpr rfl,
          (ih (fun p' hp' => hb p' (by simp [hp'])) _).mpr rfl, rfl⟩
  unfold WeightedError errorOn
  simp only [key, exists_eq_left]
  rw [List.zipWith_map_right, List.zipWith_self]

section slow
variable (hb : ∀ p ∈ bs, (p.pts ≠ [] ∧ ∀ q ∈ p.pts, q.1.HasSize s ∧ q.2.length = u) ∧ 0 < p.rate)
include hb

theorem quadOn_zero {d : Par u m} (h0 : quadOn pre u m bs d = 0) : d ∈ silentOn pre u m bs := by
  have hw : ∀ p ∈ bs, 0 < p.rate / (p.pts.length : ℝ) := fun p hp =>
    div_pos (hb p hp).2 (by exact_mod_cast List.length_pos_iff.mpr (hb p hp).1.1)
  rw [mem_silentOn]
  intro p hp
  have h1 : ∀ x ∈ bs.map fun p => p.rate / (p.pts.length : ℝ) * ‖design u m (featX pre p.pts) d‖ ^ 2, 0 ≤ x := by
    intro x hx
    obtain ⟨p, hp, rfl⟩ := List.mem_map.mp hx
    exact mul_nonneg (hw p hp).le (sq_nonneg _)
  have h2 := List.single_le_sum h1 _ (List.mem_map_of_mem hp)
  have h3 : (bs.map fun p => p.rate / (p.pts.length : ℝ) * ‖design u m (featX pre p.pts) d‖ ^ 2).sum = 0 := h0
  rw [h3] at h2
  have h4 : ‖design u m (featX pre p.pts) d‖ ^ 2 ≤ 0 := by
    have := hw p hp
    by_contra hn
    push Not at hn
    have := mul_pos this hn
    linarith
  exact norm_eq_zero.mp (pow_eq_zero_iff two_ne_zero |>.mp (le_antisymm h4 (sq_nonneg _)))

theorem quadOn_nonneg (d : Par u m) : 0 ≤ quadOn pre u m bs d := by
  refine List.sum_nonneg fun x hx => ?_
  obtain ⟨p, hp, rfl⟩ := List.mem_map.mp hx
  exact mul_nonneg (div_pos (hb p hp).2 (by exact_mod_cast List.length_pos_iff.mpr (hb p hp).1.1)).le (sq_nonneg _)

omit hb in
theorem pair_perp : (∀ d, pairSum pre u m bs d ∈ (silentOn pre u m bs)ᗮ)
    ∧ pairConst pre u m bs ∈ (silentOn pre u m bs)ᗮ := by
  induction bs with
  | nil => simp [pairSum, pairConst]
  | cons p bs ih =>
    have h1 : ∀ y, designAdj u m (featX pre p.pts) y ∈ (silentOn pre u m (p :: bs))ᗮ := fun y =>
      Submodule.orthogonal_le (inf_le_left : silentOn pre u m (p :: bs) ≤ _) (adj_perp y)
    have h2 := Submodule.orthogonal_le (inf_le_right : silentOn pre u m (p :: bs) ≤ silentOn pre u m bs)
    refine ⟨fun d => ?_, ?_⟩
    · rw [pairSum_cons]
      exact Submodule.add_mem _ (Submodule.smul_mem _ _ (h1 _)) (h2 (ih.1 d))
    · rw [pairConst_cons]
      exact Submodule.add_mem _ (Submodule.smul_mem _ _ (h1 _)) (h2 ih.2)

theorem pairSum_inj (d : Par u m) (hd : d ∈ (silentOn pre u m bs)ᗮ) (h0 : pairSum pre u m bs d = 0) : d = 0 := by
  have h1 : quadOn pre u m bs d = 0 := by
    rw [quadOn_inner, h0, inner_zero_right, Complex.zero_re]
  exact inner_self_eq_zero.mp (hd d (quadOn_zero hb h1))

theorem pairSum_silent {d : Par u m} (hd : d ∈ silentOn pre u m bs) : pairSum pre u m bs d = 0 := by
  clear hb
  induction bs with
  | nil => simp [pairSum]
  | cons p bs ih =>
    rw [pairSum_cons, LinearMap.mem_ker.mp hd.1, map_zero, smul_zero, zero_add, ih hd.2]

/-- Slow enough learning rates are below the thresholds. -/
theorem slow_fine (h : FixedFront pre s m) (hu : 0 < u) :
    ∃ η₀ : ℝ, 0 < η₀ ∧ ∀ η : ℝ, 0 < η → η < η₀ → ∀ p ∈ bs, (p.slow η).Fine pre s u m := by
  induction bs with
  | nil => exact ⟨1, one_pos, by simp⟩
  | cons p bs ih =>
    obtain ⟨η₁, h1, ih⟩ := ih fun p' hp' => hb p' (by simp [hp'])
    obtain ⟨⟨hne, hsz⟩, hr⟩ := hb p (by simp)
    obtain ⟨K, hK, huniq, hlow, -⟩ := C120_steepness h hu hsz
    have hN : (0 : ℝ) < p.pts.length := by exact_mod_cast List.length_pos_iff.mpr hne
    have hKp : 0 < K := hN.trans_le hlow
    refine ⟨min η₁ (2 * p.pts.length / (p.rate * K)), lt_min h1 (by positivity), fun η h0 hη => ?_⟩
    rw [List.forall_mem_cons]
    refine ⟨⟨hne, hsz, mul_pos h0 hr, fun K' hK' => ?_⟩, ih η h0 (hη.trans_le (min_le_left _ _))⟩
    have e1 : K' = K := huniq K' hK'
    have h2 := hη.trans_le (min_le_right _ _)
    rw [lt_div_iff₀ (by positivity)] at h2
    show η * p.rate * K' < 2 * (p.pts.length : ℝ)
    rw [e1, mul_assoc]
    exact h2

/-- C125. The smaller the learning rates, the better the limit. Multiply all learning rates by the same number `η`.
Once `η` is small enough, training in epochs converges from every start, the squared distance of the limit from
parameters with the least weighted error is at most `C·η²`, and its weighted error exceeds the least one by at most
`C·η²`. The weights are the learning rates divided by the sizes of the batches, and `C` does not depend on the
start. -/
theorem C125_slow (h : FixedFront pre s m) (hu : 0 < u) :
    ∃ η₀ C : ℝ, 0 < η₀ ∧ 0 ≤ C ∧ ∀ η : ℝ, 0 < η → η < η₀ →
      ∀ L : Nat → Dense (Cf w ℝ), EpochRun pre u m (bs.map (Part.slow η)) L →
        ∃ (l' l'' : Dense (Cf w ℝ)) (e' e'' : ℝ), Tendsto (fun T => (L T).distSq l') atTop (𝓝 0)
          ∧ l'.Settled pre u m (bs.map (Part.slow η)) ∧ l''.Linear u m
          ∧ WeightedError pre bs l' e' ∧ WeightedError pre bs l'' e''
          ∧ (∀ l₁ : Dense (Cf w ℝ), l₁.Linear u m → ∀ e₁, WeightedError pre bs l₁ e₁ → e'' ≤ e₁)
          ∧ l'.distSq l'' ≤ C * η ^ 2 ∧ e' ≤ e'' + C * η ^ 2 := by
  have hb2 : ∀ p ∈ bs, ∀ q ∈ p.pts, q.1.HasSize s ∧ q.2.length = u := fun p hp => (hb p hp).1.2
  have hinj := pairSum_inj (pre := pre) (m := m) hb
  obtain ⟨z, hzV, hz⟩ := LeastSquares.solve (pair_perp (pre := pre) (bs := bs)).1 hinj (pair_perp (u := u) (m := m)).2
  obtain ⟨η₁, h1, C, hC, hnear⟩ := LeastSquares.nearZero (bs.map (Part.pair pre u m)) hinj hz
  obtain ⟨η₂, h2, hfine⟩ := slow_fine hb h hu
  obtain ⟨a, ha, hS⟩ : ∃ a : ℝ, 0 ≤ a ∧ ∀ θ, ‖pairSum pre u m bs θ‖ ≤ a * ‖θ‖ :=
    ⟨‖(pairSum pre u m bs).toContinuousLinearMap‖, norm_nonneg _,
      fun θ => (pairSum pre u m bs).toContinuousLinearMap.le_opNorm θ⟩
  refine ⟨min η₁ η₂, (1 + a) * C ^ 2, lt_min h1 h2, by positivity, fun η h0 hη L hrun => ?_⟩
  have hfine' : ∀ p ∈ bs.map (Part.slow η), p.Fine pre s u m := by
    intro p hp
    obtain ⟨p', hp', rfl⟩ := List.mem_map.mp hp
    exact hfine η h0 (hη.trans_le (min_le_right _ _)) p' hp'
  obtain ⟨ρ, r0, r1, hρ⟩ := C125_limit h hu hfine'
  obtain ⟨l', hset, hdist, -⟩ := hρ L hrun
  obtain ⟨W', b', hl'⟩ := hset.1
  have hfix := (h.settled_par hl' fun p hp => ⟨(hfine' p hp).ne, (hfine' p hp).sized⟩).mp hset
  obtain ⟨y, hy, v, hv, hyv⟩ := (silentOn pre u m bs).exists_add_mem_mem_orthogonal (toPar u m W' b')
  obtain ⟨l'', W'', b'', hl'', e''⟩ := exists_layer (w := w) u m (z + y)
  -- the least error
  have hzy : pairSum pre u m bs (z + y) = pairConst pre u m bs := by
    rw [map_add, pairSum_silent hb hy, add_zero]
    exact hz
  have hex : ∀ θ, errorOn pre u m bs θ = errorOn pre u m bs (z + y) + quadOn pre u m bs (θ - (z + y)) := by
    intro θ
    rw [errorOn_eq θ (z + y), hzy, sub_self, inner_zero_right, Complex.zero_re, mul_zero, add_zero]
  -- the distance
  have hvfix : (bs.map (Part.pair pre u m)).foldl (fun θ g => θ - (η : ℂ) • (g.1 θ - g.2)) v = v := by
    rw [← slow_foldl]
    have h3 := epoch_diff (pre := pre) (bs := bs.map (Part.slow η)) (toPar u m W' b') v
    have h4 : y ∈ silentOn pre u m (bs.map (Part.slow η)) := by
      rw [mem_silentOn] at hy ⊢
      intro p hp
      obtain ⟨p', hp', rfl⟩ := List.mem_map.mp hp
      exact hy p' hp'
    rw [hfix, hyv, add_sub_cancel_right, (epoch_shrinks h hu hfine').fix y h4] at h3
    have := sub_eq_iff_eq_add.mp h3
    exact (add_left_cancel this).symm
  have hd := hnear η h0 (hη.trans_le (min_le_left _ _)) v (Submodule.sub_mem _ hv hzV) hvfix
  have hdiff : toPar u m W' b' - (z + y) = v - z := by
    rw [hyv]
    abel
  have hsq : ‖v - z‖ ^ 2 ≤ C ^ 2 * η ^ 2 := by
    rw [← mul_pow]
    gcongr
  refine ⟨l', l'', _, _, ?_, hset, ⟨W'', b'', hl''⟩, (h.weighted hl' hb2 _).mpr rfl, (h.weighted hl'' hb2 _).mpr rfl,
    ?_, ?_, ?_⟩
  · refine squeeze_zero (fun T => ?_) hdist ?_
    · obtain ⟨WT, bT, hWT⟩ := hrun.linear T
      rw [distSq_eq hWT hl']
      positivity
    · have := (tendsto_pow_atTop_nhds_zero_of_lt_one r0 r1).mul_const ((L 0).distSq l')
      simpa using this
  · rintro l₁ ⟨W₁, b₁, hl₁⟩ e₁ he₁
    rw [(h.weighted hl₁ hb2 _).mp he₁, e'', hex (toPar u m W₁ b₁)]
    linarith [quadOn_nonneg (pre := pre) hb (toPar u m W₁ b₁ - (z + y))]
  · rw [distSq_eq hl' hl'', e'', hdiff]
    nlinarith [mul_nonneg ha (mul_nonneg (sq_nonneg C) (sq_nonneg η))]
  · rw [e'', hex (toPar u m W' b'), hdiff, quadOn_inner]
    have h3 : (inner ℂ (v - z) (pairSum pre u m bs (v - z))).re ≤ a * ‖v - z‖ ^ 2 := by
      refine (Complex.re_le_norm _).trans ((norm_inner_le_norm _ _).trans ?_)
      calc ‖v - z‖ * ‖pairSum pre u m bs (v - z)‖ ≤ ‖v - z‖ * (a * ‖v - z‖) := by
            gcongr
            exact hS _
        _ = _ := by ring
    have h4 : a * ‖v - z‖ ^ 2 ≤ a * (C ^ 2 * η ^ 2) := by gcongr
    nlinarith [mul_nonneg (sq_nonneg C) (sq_nonneg η)]

end slow

/-! ## Convolutional layers -/

section images
variable {nf n p q r c : Nat}

theorem Conv.settled_patches (hf : 0 < nf) (hn : 0 < n) (hp : 1 ≤ p ∧ p ≤ r) (hq : 1 ≤ q ∧ q ≤ c)
    (hb : ∀ x ∈ bs, x.FineImages nf n p q r c) {l : Conv (Cf w ℝ)} {d : Dense (Cf w ℝ)}
    (h : SameWeights nf n p q .none l d) :
    l.Settled nf n p q r c bs
      ↔ d.Settled (patchFront n p q) nf (n * (p * q)) (bs.map (Part.patches nf p q r c)) := by
  have hset := none_setting (w := w) hf hn hp hq
  obtain ⟨l', d', h1, h2, h3⟩ := C119_training hset h
    (bs.map fun x => (x.pts, x.loss, (⟨x.rate, 0⟩ : Cf w ℝ))) (by
      intro st hst
      obtain ⟨x, hx, rfl⟩ := List.mem_map.mp hst
      exact ⟨(hb x hx).sized, (hb x hx).ne⟩)
  rw [List.map_map] at h1
  have h1' : (imageNet nf (r - p + 1) (c - q + 1) l).train (bs.map Part.call)
      = some (imageNet nf (r - p + 1) (c - q + 1) l') := h1
  have h2' : (withHead (patchFront n p q) d).train ((bs.map (Part.patches nf p q r c)).map Part.call)
      = some (withHead (patchFront n p q) d') := by
    rw [← h2, List.map_map, List.map_map]
    congr 1
    refine List.map_congr_left fun x _ => ?_
    simp only [Function.comp_apply, Part.call, Part.patches, timesRate, zero_mul]
  unfold Conv.Settled Dense.Settled
  rw [and_iff_right h.linear.1, and_iff_right h.linear.2, h1', h2']
  constructor
  · rintro ⟨l2, k1, -, k3⟩
    have : l' = l2 := by simpa [imageNet] using Option.some.inj k1
    subst this
    exact ⟨d', rfl, h3.linear.2, by rw [← h3.dist h]; exact k3⟩
  · rintro ⟨d2, k1, -, k3⟩
    have : d' = d2 := withHead_inj (Option.some.inj k1)
    subst this
    exact ⟨l', rfl, h3.linear.1, by rw [h3.dist h]; exact k3⟩

/-- C125, convolutional layers. Training in epochs with learning rates below the thresholds of the batches of images
always converges, to the nearest kernels and biases that an epoch leaves as they are. -/
theorem C125_images (hf : 0 < nf) (hn : 0 < n) (hp : 1 ≤ p ∧ p ≤ r) (hq : 1 ≤ q ∧ q ≤ c)
    (hb : ∀ x ∈ bs, x.FineImages nf n p q r c) :
    ∃ ρ : ℝ, 0 ≤ ρ ∧ ρ < 1 ∧
      ∀ L : Nat → Conv (Cf w ℝ), ImageEpochs nf n p q r c bs L → ∃ l' : Conv (Cf w ℝ), l'.Settled nf n p q r c bs
        ∧ (∀ T : Nat, (L T).distSq l' ≤ ρ ^ T * (L 0).distSq l')
        ∧ ∀ l'' : Conv (Cf w ℝ), l''.Settled nf n p q r c bs →
          (L 0).distSq l'' = (L 0).distSq l' + l'.distSq l'' := by
  have hfr := patch_front (w := w) hn hp.1 hq.1
  have hb' : ∀ x ∈ bs.map (Part.patches nf p q r c), x.Fine (patchFront n p q) (.maps n p q) nf (n * (p * q)) := by
    intro x hx
    obtain ⟨y, hy, rfl⟩ := List.mem_map.mp hx
    exact (hb y hy).patches hp hq
  obtain ⟨ρ, r0, r1, hρ⟩ := C125_limit hfr hf hb'
  refine ⟨ρ, r0, r1, fun L hL => ?_⟩
  obtain ⟨D, hD, hrun⟩ := hL.patches hf hn hp hq hb
  obtain ⟨d', h1, h2, h4⟩ := hρ D hrun
  obtain ⟨l', hl'⟩ := exists_sameConv h1.1
  refine ⟨l', (Conv.settled_patches hf hn hp hq hb hl').mpr h1, fun T => ?_, fun l'' hl'' => ?_⟩
  · rw [(hD T).dist hl', (hD 0).dist hl']
    exact h2 T
  · obtain ⟨d'', hd''⟩ := exists_sameDense hl''.1
    rw [(hD 0).dist hd'', (hD 0).dist hl', hl'.dist hd'']
    exact h4 d'' ((Conv.settled_patches hf hn hp hq hb hd'').mp hl'')

end images

/-! ## Non-vacuity -/

/-- The input 0 with the targets 0 and 1 in two batches: no parameters reproduce both. -/
example (f : LossFunc) : (∀ p ∈ [(⟨[zeroPoint 0], f, 1⟩ : Part .w64), ⟨[zeroPoint 1], f, 1⟩],
      p.Fine exFront (.maps 1 1 1) 1 1)
    ∧ ∃ L, EpochRun exFront 1 1 [(⟨[zeroPoint 0], f, 1⟩ : Part .w64), ⟨[zeroPoint 1], f, 1⟩] L := by
  have hfine : ∀ p ∈ [(⟨[zeroPoint 0], f, 1⟩ : Part .w64), ⟨[zeroPoint 1], f, 1⟩], p.Fine exFront (.maps 1 1 1) 1 1 := by
    intro p hp
    simp only [List.mem_cons, List.not_mem_nil, or_false] at hp
    rcases hp with rfl | rfl <;> exact zeroPoint_fine f one_pos one_lt_two
  refine ⟨hfine, ?_⟩
  obtain ⟨L, -, hL⟩ := C121_run (l := exHead 1) (exFront_front (w := .w64)) ⟨_, _, exHead_is 1⟩
    fun p hp => ⟨(hfine p hp).ne, (hfine p hp).sized⟩
  exact ⟨L, hL⟩

end Renplex
