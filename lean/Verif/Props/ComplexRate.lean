import Verif.Props.Descent
/-!
# C50: what a training call with a complex learning rate does
-/

namespace Renplex
variable {w : Width}

theorem zipWith_sub_inj {h1 h2 : Cf w ℝ → Cf w ℝ} {ps d : List (Cf w ℝ)} (hl : d.length = ps.length) :
    List.zipWith (fun p d => p - h1 d) ps d = List.zipWith (fun p d => p - h2 d) ps d
      ↔ ∀ z ∈ d, h1 z = h2 z := by
  induction ps generalizing d with
  | nil => cases d with
    | nil => simp
    | cons => simp at hl
  | cons p ps ih => cases d with
    | nil => simp at hl
    | cons a d =>
      rw [List.zipWith_cons_cons, List.zipWith_cons_cons, List.cons.injEq, ih (by simpa using hl),
        List.forall_mem_cons, sub_right_inj]

theorem zipKernels_sub_inj {h1 h2 : Cf w ℝ → Cf w ℝ} {ks : List (Mat (Cf w ℝ))} {d : List (Cf w ℝ)}
    (hl : d.length = (ks.flatMap Mat.getBody).length) :
    zipKernels (fun p d => p - h1 d) ks d = zipKernels (fun p d => p - h2 d) ks d
      ↔ ∀ z ∈ d, h1 z = h2 z := by
  induction ks generalizing d with
  | nil =>
    have : d = [] := List.length_eq_zero_iff.mp (by simpa using hl)
    simp [this, zipKernels]
  | cons k ks ih =>
    rw [List.flatMap_cons, List.length_append, Mat.getBody] at hl
    rw [zipKernels, zipKernels, List.cons.injEq, ih (by rw [List.length_drop]; omega)]
    simp only [Mat.mk.injEq, and_true]
    rw [zipWith_sub_inj (by rw [List.length_take]; omega), ← List.forall_mem_append,
      List.take_append_drop]

theorem Layer.zipParams_sub_inj {h1 h2 : Cf w ℝ → Cf w ℝ} {l : Layer (Cf w ℝ)} (hw : l.WF)
    {g : LayerVec (Cf w ℝ)} (hg : g.Fits l) :
    l.zipParams (fun p d => p - h1 d) g = l.zipParams (fun p d => p - h2 d) g
      ↔ ∀ z ∈ g.1 ++ g.2, h1 z = h2 z := by
  unfold LayerVec.Fits at hg
  rw [List.forall_mem_append]
  cases l with
  | dense l =>
    rw [if_pos (by rfl)] at hg
    simp only [Layer.zipParams, Layer.dense.injEq, Dense.mk.injEq, Mat.mk.injEq, and_true]
    rw [zipWith_sub_inj (by rw [hw.1]; exact hg.1), zipWith_sub_inj hg.2]
  | conv l =>
    rw [if_pos (by rfl)] at hg
    have hl : g.1.length = l.entries.length := by
      rw [Conv.entries_length hw.2.2.2.1]; exact hg.1
    simp only [Layer.zipParams, Layer.conv.injEq, Conv.mk.injEq, Mat.mk.injEq, and_true, true_and]
    rw [zipKernels_sub_inj hl, zipWith_sub_inj hg.2]
  | reduce l =>
    rw [if_pos (by rfl)] at hg
    have h1 : g.1 = [] := List.length_eq_zero_iff.mp hg.1
    have h2 : g.2 = [] := List.length_eq_zero_iff.mp hg.2
    simp [h1, h2, Layer.zipParams]
  | flatten l =>
    rw [if_neg (by exact Bool.false_ne_true)] at hg
    simp [hg, Layer.zipParams]

theorem Net.zipParams_sub_inj {h1 h2 : Cf w ℝ → Cf w ℝ} {n : Net (Cf w ℝ)} (hw : ∀ l ∈ n.layers, l.WF)
    {gs : List (LayerVec (Cf w ℝ))} (hg : List.Forall₂ LayerVec.Fits gs n.layers) :
    n.zipParams (fun p d => p - h1 d) gs = n.zipParams (fun p d => p - h2 d) gs
      ↔ ∀ g ∈ gs, ∀ z ∈ g.1 ++ g.2, h1 z = h2 z := by
  simp only [Net.zipParams, Net.mk.injEq]
  generalize n.layers = ls at hw hg
  induction hg with
  | nil => simp
  | cons a t ih =>
    rw [List.zipWith_cons_cons, List.zipWith_cons_cons, List.cons.injEq,
      ih fun l hl => hw l (by simp [hl]), Layer.zipParams_sub_inj (hw _ (by simp)) a,
      List.forall_mem_cons]

/-- C50 for every learning rate, real or complex. A training call on two or more well-formed layers
and a non-empty batch returns exactly when every point has derivatives. With `q = lr/B` and `d` the
sum of the derivatives of a parameter `p`, it has then replaced `p` by `p - conj(x + y·i)`, where
`x = Re(d·q)` and `y = x·Im q + Im d·Re q`: the code puts the new `x` where `Re d` belongs. -/
theorem C50_partial_value (n n' : Net (Cf w ℝ)) (hl : 2 ≤ n.layers.length) (hw : ∀ l ∈ n.layers, l.WF)
    (data : Dataset (Cf w ℝ)) (hB : data.inputs ≠ []) (f : LossFunc) (lr : Cf w ℝ)
    (r : Except ForwardErr Unit) :
    n.gradientOpt data f lr = some (r, n')
      ↔ r = .ok () ∧ ∃ gss,
        List.Forall₂ (fun p gs => sampleGrads n f p = some gs
          ∧ List.Forall₂ LayerVec.Fits gs n.layers) data.points gss
        ∧ n' = n.zipParams (fun p d =>
            let B : ℝ := data.inputs.length
            let x := d.x * (lr.x / B) - d.y * (lr.y / B)
            p - (⟨x, -(x * (lr.y / B) + d.y * (lr.x / B))⟩ : Cf w ℝ)) (sumGrads n gss) := by
  have hne : (data.inputs.length : ℂ) ≠ 0 := by
    exact_mod_cast (List.length_pos_iff.mpr hB).ne'
  obtain ⟨q, hq, hq'⟩ := div_toC lr (Cf.ofUsize data.inputs.length) (by rwa [Cf.toC_ofUsize])
  rw [Cf.toC_ofUsize] at hq'
  have hqx : q.x = lr.x / data.inputs.length := by
    have := congrArg Complex.re hq'
    rw [Complex.div_natCast_re] at this
    exact this
  have hqy : q.y = lr.y / data.inputs.length := by
    have := congrArg Complex.im hq'
    rw [Complex.div_natCast_im] at this
    exact this
  have hdiv : BasicOps.div lr (CplxOps.ofUsize data.inputs.length) = some q := hq
  have hu : (fun p d : Cf w ℝ => p - CplxOps.conj (BasicOps.mulAssign d q))
      = fun p d =>
            let B : ℝ := data.inputs.length
            let x := d.x * (lr.x / B) - d.y * (lr.y / B)
            p - (⟨x, -(x * (lr.y / B) + d.y * (lr.x / B))⟩ : Cf w ℝ) := by
    funext p d
    simp only [← hqx, ← hqy]
    rfl
  rw [C50_step n n' hl hw]
  constructor
  · rintro ⟨rfl, gss, scale, h1, h2, h3⟩
    rw [hdiv] at h2
    cases h2
    exact ⟨rfl, gss, h1, by rw [h3, hu]⟩
  · rintro ⟨rfl, gss, h1, h3⟩
    exact ⟨rfl, gss, q, h1, hdiv, by rw [h3, hu]⟩

/-- C50, exactly when the step is right: a training call that returns has replaced every parameter by
`p - conj((lr/B)·Σ dL/dp)` if and only if the learning rate is real or multiplying by `lr/B` keeps the
real part of the summed derivative of every parameter. -/
theorem C50_partial_iff (n n' : Net (Cf w ℝ)) (hl : 2 ≤ n.layers.length) (hw : ∀ l ∈ n.layers, l.WF)
    (data : Dataset (Cf w ℝ)) (hB : data.inputs ≠ []) (f : LossFunc) (lr : Cf w ℝ)
    (r : Except ForwardErr Unit) (h : n.gradientOpt data f lr = some (r, n')) :
    ∃ gss, List.Forall₂ (fun p gs => sampleGrads n f p = some gs) data.points gss
      ∧ (n' = n.zipParams (fun p d => Cf.ofC (p.toC
            - starRingEnd ℂ (lr.toC / data.inputs.length * d.toC))) (sumGrads n gss)
        ↔ lr.y = 0 ∨ ∀ g ∈ sumGrads n gss, ∀ z ∈ g.1 ++ g.2,
            (lr.toC / data.inputs.length * z.toC).re = z.toC.re) := by
  have hne : (data.inputs.length : ℂ) ≠ 0 := by
    exact_mod_cast (List.length_pos_iff.mpr hB).ne'
  have hne' : (data.inputs.length : ℝ) ≠ 0 := by exact_mod_cast hne
  obtain ⟨q, hq, hq'⟩ := div_toC lr (Cf.ofUsize data.inputs.length) (by rwa [Cf.toC_ofUsize])
  rw [Cf.toC_ofUsize] at hq'
  have hqy : q.y = 0 ↔ lr.y = 0 := by
    have : q.y = lr.y / data.inputs.length := by
      have := congrArg Complex.im hq'
      rw [Complex.div_natCast_im] at this
      exact this
    rw [this, div_eq_zero_iff, or_iff_left hne']
  obtain ⟨rfl, gss, scale, h1, h2, h3⟩ := (C50_step n n' hl hw data f lr r).mp h
  have hdiv : BasicOps.div lr (CplxOps.ofUsize data.inputs.length) = some q := hq
  rw [hdiv] at h2
  cases h2
  have hfit : ∀ gs ∈ gss, List.Forall₂ LayerVec.Fits gs n.layers := by
    generalize data.points = pts at h1
    clear h h3
    induction h1 with
    | nil => simp
    | cons a _ ih => intro gs hg; rcases List.mem_cons.mp hg with rfl | hg; exacts [a.2, ih gs hg]
  have hG := sumGrads_fits n gss hfit
  refine ⟨gss, h1.imp fun _ _ h => h.1, ?_⟩
  have hu : (fun p d : Cf w ℝ => Cf.ofC (p.toC
      - starRingEnd ℂ (lr.toC / data.inputs.length * d.toC)))
      = fun p d : Cf w ℝ => p - CplxOps.conj (Cf.mul d q) := by
    funext p d
    apply Cf.toC_inj.mp
    rw [Cf.toC_hom_sub, Cf.toC_ofC]
    show _ = p.toC - (Cf.conj (d.mul q)).toC
    rw [Cf.toC_conj, Cf.toC_mul, hq', mul_comm]
  rw [h3, hu, Net.zipParams_sub_inj (h1 := fun d => CplxOps.conj (BasicOps.mulAssign d q))
    (h2 := fun d => CplxOps.conj (Cf.mul d q)) hw hG]
  have key : ∀ z : Cf w ℝ, CplxOps.conj (BasicOps.mulAssign z q) = CplxOps.conj (Cf.mul z q)
      ↔ lr.y = 0 ∨ (lr.toC / data.inputs.length * z.toC).re = z.toC.re := by
    intro z
    have e1 : CplxOps.conj (BasicOps.mulAssign z q) = CplxOps.conj (Cf.mul z q)
        ↔ z.mulAssign q = z.mul q := by
      constructor
      · intro h
        have h4 := congrArg Cf.conj (show Cf.conj (z.mulAssign q) = Cf.conj (z.mul q) from h)
        rwa [(C21_norm_conj (z.mulAssign q) 0).1, (C21_norm_conj (z.mul q) 0).1] at h4
      · intro h
        exact congrArg Cf.conj h
    rw [e1, (C20_partial z q).2.2.1, hqy, ← hq', mul_comm q.toC, ← Cf.toC_mul]
    rfl
  simp only [key]
  by_cases hy : lr.y = 0
  · simp [hy]
  · simp [hy]

/-- Training with a rate that is not real does return: the identity network on any point. -/
example (x t : Cf .w32 ℝ) : ∃ n', (exTwo : Net (Cf .w32 ℝ)).gradientOpt ⟨[.scalar [x]], [.scalar [t]]⟩
    .meanSquare ⟨1, 1⟩ = some (.ok (), n') :=
  ⟨_, (C50_partial_value exTwo _ (by simp [exTwo]) exTwo_wf ⟨[.scalar [x]], [.scalar [t]]⟩ (by simp)
    .meanSquare ⟨1, 1⟩ (.ok ())).mpr
      ⟨rfl, _, .cons ⟨exTwo_sample _ _ _, .cons ⟨rfl, rfl⟩ (.cons ⟨rfl, rfl⟩ .nil)⟩ .nil, rfl⟩⟩

end Renplex
