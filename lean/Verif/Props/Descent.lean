import Verif.Props.FixedPoint
/-!
# C50: one training call is a step of gradient descent on the batch
-/

namespace Renplex
variable {w : Width}

/-- A dense layer with one input and one unit: `z ↦ z`. -/
noncomputable def exUnit : Layer (Cf w ℝ) :=
  .dense ⟨Mat.fromBody [1] (1, 1), [0], .none⟩

theorem exUnit_forward (x : Cf w ℝ) :
    (exUnit : Layer (Cf w ℝ)).forward (.scalar [x]) = some (.ok (.scalar [x])) := by
  simp [exUnit, Layer.forward, Dense.forward, Dense.computeQ, Mat.mulSlice, Mat.rowsAsIter, chunks,
    chunksPos, chunksAux, Mat.fromBody, unwrap, addSliceMut, zipUpd, activateMut, CplxOps.activate,
    Act.activate]

theorem unit_eq_one : (Cf.unit : Cf w ℝ) = 1 :=
  Cf.toC_inj.mp (Cf.toC_unit.trans Cf.toC_hom_one.symm)

theorem default_eq_zero : (Cf.default : Cf w ℝ) = 0 :=
  Cf.toC_inj.mp (Cf.toC_default.trans Cf.toC_hom_zero.symm)

theorem exUnit_derivs (x d dc : Cf w ℝ) :
    (exUnit : Layer (Cf w ℝ)).computeDerivatives (.scalar [x]) [d] [dc]
      = some (.ok ([x * d], [d], [d], [CplxOps.conj d])) := by
  simp [exUnit, Layer.computeDerivatives, Dense.computeDerivatives, Dense.computeQ, Mat.mulSlice,
    Mat.rowsAsIter, chunks, chunksPos, chunksAux, Mat.fromBody, unwrap, addSliceMut, zipUpd,
    CplxOps.dActivate, CplxOps.dConjActivate, Act.dActivate, Act.dConjActivate, Dense.derivLoop,
    unit_eq_one, default_eq_zero, conj_zero']

/-- Two layers `z ↦ z`. -/
noncomputable def exTwo : Net (Cf w ℝ) := ⟨[exUnit, exUnit]⟩

theorem exTwo_wf : ∀ l ∈ (exTwo : Net (Cf w ℝ)).layers, l.WF := by
  intro l hl
  have : l = exUnit := by simpa [exTwo] using hl
  subst this
  exact ⟨rfl, rfl⟩

theorem exTwo_sample (f : LossFunc) (x t : Cf w ℝ) :
    sampleGrads exTwo f (.scalar [x], .scalar [t])
      = some [([x * CplxOps.conj (x - t)], [CplxOps.conj (x - t)]),
          ([x * CplxOps.conj (x - t)], [CplxOps.conj (x - t)])] := by
  have hd : CplxOps.dLoss f (.scalar [t]) (.scalar [x])
      = .ok [CplxOps.conj (x - t)] := by cases f <;> rfl
  have hp : (exUnit : Layer (Cf w ℝ)).propagates = true := rfl
  have hc : (exTwo : Net (Cf w ℝ)).collectActs (.scalar [x])
      = some (.ok [.scalar [x], .scalar [x], .scalar [x]]) := by
    simp [exTwo, Net.collectActs, Net.collectLoop, Net.fwd, exUnit_forward, unwrap]
  unfold sampleGrads
  rw [hc]
  simp [unwrap, hd, backGrads, hp, exUnit_derivs, exTwo]

theorem conj_one : CplxOps.conj (1 : Cf w ℝ) = 1 := by
  apply Cf.toC_inj.mp
  show (Cf.conj 1).toC = _
  rw [Cf.toC_conj, Cf.toC_hom_one, map_one]

theorem exTwo_sum (a b c d : Cf w ℝ) :
    sumGrads exTwo [[([a], [b]), ([c], [d])]] = [([a], [b]), ([c], [d])] := by
  have hp : (exUnit : Layer (Cf w ℝ)).propagates = true := rfl
  have hl : (exUnit : Layer (Cf w ℝ)).paramsLen = (1, 1) := rfl
  simp [sumGrads, exTwo, LayerVec.zero, hp, hl, LayerVec.add]

/-! ## C50 -/

/-- C50, the part that holds: for a *real* learning rate and a non-empty batch, a training call on
two or more well-formed layers returns exactly when every point has derivatives, and then it has
replaced every parameter `p` by `p - conj((lr/B)·Σ dL/dp)`, where the sum runs over the points of
the batch (missing: complex learning rates, which the code gets wrong, and the empty batch, on which
it panics). -/
theorem C50_partial (n n' : Net (Cf w ℝ)) (hl : 2 ≤ n.layers.length) (hw : ∀ l ∈ n.layers, l.WF)
    (data : Dataset (Cf w ℝ)) (hB : data.inputs ≠ []) (f : LossFunc) (lr : Cf w ℝ)
    (hlr : lr.y = 0) (r : Except ForwardErr Unit) :
    n.gradientOpt data f lr = some (r, n')
      ↔ r = .ok () ∧ ∃ gss,
        List.Forall₂ (fun p gs => sampleGrads n f p = some gs
          ∧ List.Forall₂ LayerVec.Fits gs n.layers) data.points gss
        ∧ n' = n.zipParams (fun p d => Cf.ofC (p.toC
            - starRingEnd ℂ (lr.toC / data.inputs.length * d.toC))) (sumGrads n gss) := by
  have hne : (data.inputs.length : ℂ) ≠ 0 := by
    exact_mod_cast (List.length_pos_iff.mpr hB).ne'
  obtain ⟨q, hq, hq'⟩ := div_toC lr (Cf.ofUsize data.inputs.length) (by rwa [Cf.toC_ofUsize])
  rw [Cf.toC_ofUsize] at hq'
  have hqy : q.y = 0 := by
    have := congrArg Complex.im hq'
    rw [Complex.div_natCast_im] at this
    simpa [hlr] using this
  have hdiv : BasicOps.div lr (CplxOps.ofUsize data.inputs.length) = some q := hq
  have hu : (fun p d : Cf w ℝ => p - CplxOps.conj (BasicOps.mulAssign d q))
      = fun p d => Cf.ofC (p.toC - starRingEnd ℂ (lr.toC / data.inputs.length * d.toC)) := by
    funext p d
    have hm : BasicOps.mulAssign d q = Cf.mul d q := (C20_partial d q).2.2.1.mpr (.inl hqy)
    apply Cf.toC_inj.mp
    rw [hm, Cf.toC_hom_sub, Cf.toC_ofC]
    show p.toC - (Cf.conj (d.mul q)).toC = _
    rw [Cf.toC_conj, Cf.toC_mul, hq', mul_comm]
  rw [C50_step n n' hl hw]
  constructor
  · rintro ⟨rfl, gss, scale, h1, h2, h3⟩
    rw [hdiv] at h2
    cases h2
    exact ⟨rfl, gss, h1, by rw [h3, hu]⟩
  · rintro ⟨rfl, gss, h1, h3⟩
    exact ⟨rfl, gss, q, h1, hdiv, by rw [h3, hu]⟩

example : (exTwo : Net (Cf .w32 ℝ)).gradientOpt ⟨[.scalar [1]], [.scalar [0]]⟩ .meanSquare ⟨1, 0⟩
    = some (.ok (), ⟨[.dense ⟨Mat.fromBody [0] (1, 1), [-1], .none⟩,
      .dense ⟨Mat.fromBody [0] (1, 1), [-1], .none⟩]⟩) := by
  rw [C50_partial _ _ (by simp [exTwo]) exTwo_wf _ (by simp) _ _ rfl]
  refine ⟨rfl, _, .cons ⟨exTwo_sample _ _ _, ?_⟩ .nil, ?_⟩
  · exact .cons ⟨rfl, rfl⟩ (.cons ⟨rfl, rfl⟩ .nil)
  · rw [exTwo_sum]
    simp only [sub_zero, conj_one, mul_one]
    have e1 : (Cf.ofC (Cf.toC (1 : Cf .w32 ℝ) - starRingEnd ℂ (Cf.toC (⟨1, 0⟩ : Cf .w32 ℝ)
        / ([IOType.scalar [(1 : Cf .w32 ℝ)]].length : ℂ) * Cf.toC (1 : Cf .w32 ℝ))) : Cf .w32 ℝ)
        = 0 := by
      apply Cf.toC_inj.mp
      have : Cf.toC (⟨1, 0⟩ : Cf .w32 ℝ) = 1 := rfl
      simp [this, Cf.toC_hom_one, Cf.toC_hom_zero]
    have e2 : (Cf.ofC (Cf.toC (0 : Cf .w32 ℝ) - starRingEnd ℂ (Cf.toC (⟨1, 0⟩ : Cf .w32 ℝ)
        / ([IOType.scalar [(1 : Cf .w32 ℝ)]].length : ℂ) * Cf.toC (1 : Cf .w32 ℝ))) : Cf .w32 ℝ)
        = -1 := by
      apply Cf.toC_inj.mp
      have : Cf.toC (⟨1, 0⟩ : Cf .w32 ℝ) = 1 := rfl
      simp [this, Cf.toC_hom_one, Cf.toC_hom_zero, Cf.toC_hom_neg]
    simp only [Net.zipParams, exTwo, exUnit, Layer.zipParams, Mat.fromBody,
      List.zipWith_cons_cons, List.zipWith_nil_left, e1, e2]

/-- C50 is false of the code for complex learning rates: for every learning rate that is not real
there is a network of two layers and a batch of one point on which `gradient_opt` returns and leaves
parameters different from `p - conj((lr/B)·Σ dL/dp)`. -/
theorem C50_refuted (lr : Cf w ℝ) (hlr : lr.y ≠ 0) (f : LossFunc) :
    ∃ (n n' : Net (Cf w ℝ)) (data : Dataset (Cf w ℝ)) (gs : List (LayerVec (Cf w ℝ))),
      (∀ l ∈ n.layers, l.WF) ∧ data.inputs.length = 1
        ∧ List.Forall₂ (fun p g => sampleGrads n f p = some g) data.points [gs]
        ∧ n.gradientOpt data f lr = some (.ok (), n')
        ∧ n' ≠ n.zipParams (fun p d => Cf.ofC (p.toC - starRingEnd ℂ (lr.toC * d.toC))) gs := by
  obtain ⟨q, hq, hq'⟩ := div_toC lr (Cf.ofUsize 1) (by rw [Cf.toC_ofUsize]; simp)
  rw [Cf.toC_ofUsize, Nat.cast_one, div_one] at hq'
  obtain rfl := Cf.toC_inj.mp hq'
  have hc : CplxOps.conj ((1 : Cf w ℝ) - ⟨1, 1⟩) = ⟨0, 1⟩ := by
    apply Cf.toC_inj.mp
    show (Cf.conj _).toC = _
    rw [Cf.toC_conj, Cf.toC_hom_sub, Cf.toC_hom_one]
    apply Complex.ext <;> simp
  have hs := exTwo_sample f 1 (⟨1, 1⟩ : Cf w ℝ)
  rw [hc, one_mul] at hs
  refine ⟨exTwo, _, ⟨[.scalar [1]], [.scalar [⟨1, 1⟩]]⟩, _, exTwo_wf, rfl, .cons hs .nil,
    (C50_step _ _ (by simp [exTwo]) exTwo_wf _ _ _ _).mpr ⟨rfl, _, q, .cons ⟨hs, ?_⟩ .nil, hq, rfl⟩,
    ?_⟩
  · exact .cons ⟨rfl, rfl⟩ (.cons ⟨rfl, rfl⟩ .nil)
  · rw [exTwo_sum]
    intro h
    simp only [Net.zipParams, exTwo, exUnit, Layer.zipParams, Mat.fromBody,
      List.zipWith_cons_cons, List.zipWith_nil_left, Net.mk.injEq, List.cons.injEq,
      Layer.dense.injEq, Dense.mk.injEq] at h
    have h1 := h.1.2.1.1
    have h2 : Cf.conj (Cf.mulAssign ⟨0, 1⟩ q) = Cf.conj (Cf.mul ⟨0, 1⟩ q) := by
      apply Cf.toC_inj.mp
      have h3 := congrArg Cf.toC h1
      rw [Cf.toC_hom_sub, Cf.toC_hom_zero, Cf.toC_ofC, zero_sub, zero_sub, neg_inj] at h3
      rw [Cf.toC_conj (Cf.mul _ _), Cf.toC_mul, mul_comm]
      exact h3
    have h4 := congrArg Cf.conj h2
    rw [(C21_norm_conj (Cf.mulAssign ⟨0, 1⟩ q) 0).1, (C21_norm_conj (Cf.mul ⟨0, 1⟩ q) 0).1] at h4
    rcases (C20_partial _ q).2.2.1.mp h4 with h5 | h5
    · exact hlr h5
    · simp [Cf.mul] at h5
      exact hlr h5

/-! ## C51, C52: examples -/

example (x x' t t' : IOType (Cf .w32 ℝ)) (lr : Cf .w32 ℝ) :
    exTwo.gradientOpt ⟨[x, x'], [t, t']⟩ .meanSquare lr
      = exTwo.gradientOpt ⟨[x', x], [t', t]⟩ .meanSquare lr :=
  C51_permutation exTwo exTwo_wf ⟨[x, x'], [t, t']⟩ ⟨[x', x], [t', t]⟩
    (List.Perm.swap (x', t') (x, t) []) rfl .meanSquare lr

/-- The hypotheses of C52 can be met: the identity network predicts its input and training on such a
batch returns. -/
example (x : Cf .w32 ℝ) (lr : Cf .w32 ℝ) :
    (exTwo : Net (Cf .w32 ℝ)).gradientOpt ⟨[.scalar [x]], [.scalar [x]]⟩ .meanSquare lr
      = some (.ok (), exTwo) := by
  obtain ⟨q, hq, -⟩ := div_toC lr (Cf.ofUsize 1) (by rw [Cf.toC_ofUsize]; simp)
  have h := (C50_step (exTwo : Net (Cf .w32 ℝ)) _ (by simp [exTwo]) exTwo_wf
    ⟨[.scalar [x]], [.scalar [x]]⟩ .meanSquare lr (.ok ())).mpr
      ⟨rfl, _, q, .cons ⟨exTwo_sample _ _ _, .cons ⟨rfl, rfl⟩ (.cons ⟨rfl, rfl⟩ .nil)⟩ .nil, hq, rfl⟩
  rw [h, C52_fixed_point _ _ exTwo_wf _ ?_ _ _ _ h]
  intro p hp
  obtain rfl : p = (.scalar [x], .scalar [x]) := by simpa [Dataset.points] using hp
  simp [exTwo, Net.forward, Net.fwd, exUnit_forward, unwrap]

end Renplex
