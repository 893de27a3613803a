import Verif.Props.NetGrad
/-!
# C48 where the activation derivative is wrong
-/

namespace Renplex
open Filter Topology ComplexConjugate
variable {w : Width}

/-- A dense layer with one input, one unit, weight 1 and activation `f`. -/
noncomputable def exAct (f : ActFunc) (b : Cf w ℝ) : Layer (Cf w ℝ) :=
  .dense ⟨Mat.fromBody [1] (1, 1), [b], f⟩

theorem exAct_forward {f : ActFunc} {b x y : Cf w ℝ} (h : Act.activate f (x + b) = some y) :
    (exAct f b).forward (.scalar [x]) = some (.ok (.scalar [y])) := by
  simp [exAct, Layer.forward, Dense.forward, Dense.computeQ, Mat.mulSlice, Mat.rowsAsIter, chunks,
    chunksPos, chunksAux, Mat.fromBody, unwrap, addSliceMut, zipUpd, activateMut, CplxOps.activate, h]

theorem exAct_derivs {f : ActFunc} {x d dc g gc : Cf w ℝ} (h1 : Act.dActivate f x = some d)
    (h2 : Act.dConjActivate f x = some dc) :
    (exAct f 0).computeDerivatives (.scalar [x]) [g] [gc]
      = some (.ok ([x * (d * g + CplxOps.conj dc * gc)], [d * g + CplxOps.conj dc * gc],
          [d * g + CplxOps.conj dc * gc], [CplxOps.conj (d * g + CplxOps.conj dc * gc)])) := by
  simp [exAct, Layer.computeDerivatives, Dense.computeDerivatives, Dense.computeQ, Mat.mulSlice,
    Mat.rowsAsIter, chunks, chunksPos, chunksAux, Mat.fromBody, unwrap, addSliceMut, zipUpd,
    CplxOps.dActivate, CplxOps.dConjActivate, h1, h2, Dense.derivLoop]

/-- `z ↦ f z` followed by `z ↦ z`. -/
noncomputable def exActNet (f : ActFunc) : Net (Cf w ℝ) := ⟨[exAct f 0, exUnit]⟩

theorem exActNet_wf (f : ActFunc) : ∀ l ∈ (exActNet f : Net (Cf w ℝ)).layers, l.WF := by
  intro l hl
  simp only [exActNet, List.mem_cons, List.not_mem_nil, or_false] at hl
  rcases hl with rfl | rfl <;> exact ⟨rfl, rfl⟩

theorem exActNet_sample {f : ActFunc} (lf : LossFunc) {x y t d dc : Cf w ℝ}
    (h : Act.activate f x = some y) (h1 : Act.dActivate f x = some d)
    (h2 : Act.dConjActivate f x = some dc) :
    sampleGrads (exActNet f) lf (.scalar [x], .scalar [t])
      = some [([x * (d * CplxOps.conj (y - t) + CplxOps.conj dc * CplxOps.conj (CplxOps.conj (y - t)))],
          [d * CplxOps.conj (y - t) + CplxOps.conj dc * CplxOps.conj (CplxOps.conj (y - t))]),
          ([y * CplxOps.conj (y - t)], [CplxOps.conj (y - t)])] := by
  have hd : CplxOps.dLoss lf (.scalar [t]) (.scalar [y])
      = .ok [CplxOps.conj (y - t)] := by cases lf <;> rfl
  have hp : (exUnit : Layer (Cf w ℝ)).propagates = true := rfl
  have hp' : (exAct f 0 : Layer (Cf w ℝ)).propagates = true := rfl
  have hc : (exActNet f : Net (Cf w ℝ)).collectActs (.scalar [x])
      = some (.ok [.scalar [x], .scalar [y], .scalar [y]]) := by
    simp [exActNet, Net.collectActs, Net.collectLoop, Net.fwd, exUnit_forward, unwrap,
      exAct_forward (f := f) (b := 0) (x := x) (y := y) (by rw [add_zero]; exact h)]
  unfold sampleGrads
  rw [hc]
  simp [unwrap, hd, backGrads, hp, hp', exUnit_derivs, exActNet, exAct_derivs h1 h2]

theorem exActNet_move (f : ActFunc) (e : Cf w ℝ) (s : ℝ) :
    (exActNet f).move [([0], [e]), ([0], [0])] s
      = ⟨[exAct f (Cf.ofC (s * e.toC)), exUnit]⟩ := by
  have h1 : (Cf.ofC ((1 : Cf w ℝ).toC + (s : ℂ) * (0 : Cf w ℝ).toC) : Cf w ℝ) = 1 := by
    apply Cf.toC_inj.mp; simp [Cf.toC_hom_zero]
  have h2 : (Cf.ofC ((0 : Cf w ℝ).toC + (s : ℂ) * (0 : Cf w ℝ).toC) : Cf w ℝ) = 0 := by
    apply Cf.toC_inj.mp; simp [Cf.toC_hom_zero]
  have h3 : (Cf.ofC ((0 : Cf w ℝ).toC + (s : ℂ) * e.toC) : Cf w ℝ) = Cf.ofC (s * e.toC) := by
    apply Cf.toC_inj.mp; simp [Cf.toC_hom_zero]
  simp only [Net.move, Net.zipParams, exActNet, exAct, exUnit, Layer.zipParams, Mat.fromBody,
    List.zipWith_cons_cons, List.zipWith_nil_left, h1, h2, h3]

/-- C48 is false of the code wherever an activation has a derivative and the code's formula for it is
wrong: for every activation and every such value there are a network of two dense layers, an input
and a target for which the result of back-propagation is not the gradient of the squared error. (It
is wrong for the cardioid almost everywhere and for the sigmoid beyond its threshold:
`C29_refuted_cardioid`, `C29_refuted_sigmoid`.) -/
theorem C48_refuted (f : ActFunc) (z : Cf w ℝ) (hd : ∃ e ec, RunDerivAt (Act.activate f) z e ec)
    (hc : ∃ d dc, Act.dActivate f z = some d ∧ Act.dConjActivate f z = some dc)
    (hw : ¬ DerivsRight f z) (lf : LossFunc) :
    ∃ (n : Net (Cf w ℝ)) (x t : Cf w ℝ) (gs : List (LayerVec (Cf w ℝ))),
      n.layers.length = 2 ∧ (∀ l ∈ n.layers, l.WF) ∧ (∀ l ∈ n.layers, l.DenseOrFlatten)
        ∧ sampleGrads n lf (.scalar [x], .scalar [t]) = some gs
        ∧ ¬ IsNetGradient n (.scalar [x]) [t] gs := by
  obtain ⟨e, ec, he⟩ := hd
  obtain ⟨d, dc, h1, h2⟩ := hc
  by_contra hno
  push Not at hno
  have hy : ∃ y, Act.activate f z = some y := by
    obtain ⟨F, h, -⟩ := he
    have := h.self_of_nhds
    rw [Cf.ofC_toC] at this
    exact ⟨_, this⟩
  obtain ⟨y, hy⟩ := hy
  -- the cotangent `γ` can be anything, and so can the direction `v` of the bias
  have key : ∀ γ v : Cf w ℝ, ((d.toC * γ.toC + conj dc.toC * conj γ.toC) * v.toC).re
      = ((e.toC * γ.toC + conj ec.toC * conj γ.toC) * v.toC).re := by
    intro γ v
    have hγ : CplxOps.conj (y - (y - CplxOps.conj γ)) = γ := by
      rw [sub_sub_cancel]
      exact (C21_norm_conj γ 0).1
    have hs := exActNet_sample lf (t := y - CplxOps.conj γ) hy h1 h2
    rw [hγ] at hs
    obtain ⟨-, hg⟩ := hno (exActNet f) z (y - CplxOps.conj γ) _ rfl (exActNet_wf f)
      (by
        intro l hl
        simp only [exActNet, List.mem_cons, List.not_mem_nil, or_false] at hl
        rcases hl with rfl | rfl <;> exact trivial) hs
    obtain ⟨L, hL1, hL2⟩ := hg [([0], [v]), ([0], [0])]
      (.cons ⟨rfl, rfl⟩ (.cons ⟨rfl, rfl⟩ .nil))
    have hq : HasDerivAt (fun s : ℝ => z.toC + s * v.toC) v.toC 0 := by
      have h := ((Complex.ofRealCLM.hasDerivAt (x := (0 : ℝ))).mul_const v.toC).const_add z.toC
      refine h.congr_deriv ?_
      simp
    obtain ⟨F, hF1, hF2, hF3⟩ := act_curve hq (z := z) (by simp) he
    rw [hy] at hF2
    have hF0 : F 0 = y.toC := by rw [Option.some.inj hF2, Cf.toC_ofC]
    have hLe : L =ᶠ[𝓝 0] fun s => ‖(y - CplxOps.conj γ).toC - F s‖ ^ 2 := by
      filter_upwards [hL1, hF3] with s hs1 hs2
      obtain ⟨p, hp1, hp2⟩ := hs1
      rw [exActNet_move] at hp1
      have hfw : (⟨[exAct f (Cf.ofC (s * v.toC)), exUnit]⟩ : Net (Cf w ℝ)).forward (.scalar [z])
          = some (.ok (.scalar [Cf.ofC (F s)])) := by
        have hz : z + Cf.ofC (s * v.toC) = Cf.ofC (z.toC + s * v.toC) := by
          apply Cf.toC_inj.mp; rw [Cf.toC_hom_add, Cf.toC_ofC, Cf.toC_ofC]
        simp [Net.forward, Net.fwd, exUnit_forward, unwrap,
          exAct_forward (f := f) (x := z) (by rw [hz]; exact hs2)]
      rw [hfw] at hp1
      cases hp1
      rw [hp2]
      simp [sqSum]
    have h4 := (hasDerivAt_sq_curve (t := (y - CplxOps.conj γ).toC) hF1).congr_of_eventuallyEq hLe
    have h5 := hL2.unique h4
    have h6 : conj (F 0 - (y - CplxOps.conj γ).toC) = γ.toC := by
      have h8 : (Cf.conj (y - (y - CplxOps.conj γ))).toC = γ.toC := congrArg Cf.toC hγ
      rw [Cf.toC_conj, Cf.toC_hom_sub] at h8
      rw [hF0]
      exact h8
    rw [h6] at h5
    have hp : (pairAll [([z * (d * γ + CplxOps.conj dc * CplxOps.conj γ)],
          [d * γ + CplxOps.conj dc * CplxOps.conj γ]), ([y * γ], [γ])]
        [([0], [v]), ([0], [0])]) = (d.toC * γ.toC + conj dc.toC * conj γ.toC) * v.toC := by
      simp only [pairAll, pairing, List.zipWith_cons_cons, List.zipWith_nil_left, List.sum_cons,
        List.sum_nil, Cf.toC_hom_zero, mul_zero, add_zero, zero_add]
      rfl
    rw [hp] at h5
    have h7 : (γ.toC * (e.toC * v.toC + ec.toC * conj v.toC)).re
        = ((e.toC * γ.toC + conj ec.toC * conj γ.toC) * v.toC).re := by
      simp only [Complex.add_re, Complex.mul_re, Complex.mul_im, Complex.conj_re, Complex.conj_im,
        Complex.add_im]
      ring
    linarith
  refine hw ⟨d, dc, h1, h2, ?_⟩
  have a1 := key ⟨1, 0⟩ ⟨1, 0⟩
  have a2 := key ⟨1, 0⟩ ⟨0, 1⟩
  have a3 := key ⟨0, 1⟩ ⟨1, 0⟩
  have a4 := key ⟨0, 1⟩ ⟨0, 1⟩
  simp at a1 a2 a3 a4
  have ed : d = e := Cf.ext (by linarith) (by linarith)
  have edc : dc = ec := Cf.ext (by linarith) (by linarith)
  rw [ed, edc]
  exact he

/-- The cardioid of `Cf32` at 1. -/
example (lf : LossFunc) : ∃ (n : Net (Cf .w32 ℝ)) (x t : Cf .w32 ℝ) (gs : List (LayerVec (Cf .w32 ℝ))),
      n.layers.length = 2 ∧ (∀ l ∈ n.layers, l.WF) ∧ (∀ l ∈ n.layers, l.DenseOrFlatten)
        ∧ sampleGrads n lf (.scalar [x], .scalar [t]) = some gs
        ∧ ¬ IsNetGradient n (.scalar [x]) [t] gs := by
  have h := C29_refuted_cardioid (⟨1, 0⟩ : Cf .w32 ℝ)
    (by intro h; simpa using congrArg Complex.re h) (by norm_num)
  exact C48_refuted .cardioid ⟨1, 0⟩ h.1 ⟨_, _, rfl, rfl⟩ h.2 lf

theorem tanh_right (z : Cf w ℝ) : DerivsRight .ritTanh z := by
  obtain ⟨F, h1, h2⟩ := runDeriv_split (f := .ritTanh) z (fun ζ => rfl)
    (hasDerivAt_tanh _) (hasDerivAt_tanh _)
  exact C29_partial _ (by simp) (by simp) z ⟨F, h1, HasFDerivAt.differentiableAt h2⟩

theorem none_right (z : Cf w ℝ) : DerivsRight .none z :=
  C29_partial _ (by simp) (by simp) z
    ⟨fun ζ => ζ, Eventually.of_forall fun _ => rfl, differentiableAt_id⟩

/-- The hypotheses of C48 can be met: a layer with an activation whose derivatives are right
everywhere, followed by an identity layer. -/
theorem exActNet_gradient (f : ActFunc) (hr : ∀ z : Cf w ℝ, DerivsRight f z) (lf : LossFunc)
    (x t : Cf w ℝ) :
    ∃ gs, sampleGrads (exActNet f) lf (.scalar [x], .scalar [t]) = some gs
      ∧ IsNetGradient (exActNet f) (.scalar [x]) [t] gs := by
  obtain ⟨y, ha⟩ : ∃ y, Act.activate f x = some y := by
    obtain ⟨_, _, -, -, F, h, -⟩ := hr x
    have := h.self_of_nhds
    rw [Cf.ofC_toC] at this
    exact ⟨_, this⟩
  have hf := exAct_forward (f := f) (b := 0) (x := x) (by rw [add_zero]; exact ha)
  refine C48_partial (exActNet f) (by simp [exActNet]) lf (exActNet_wf _) ?_ (.scalar [x])
    (.vec 1) rfl [.scalar [x], .scalar [y], .scalar [y]] ?_ [y] [t] ?_ rfl ?_
  · intro l hl
    simp only [exActNet, List.mem_cons, List.not_mem_nil, or_false] at hl
    rcases hl with rfl | rfl <;> exact trivial
  · simp [exActNet, Net.collectActs, Net.collectLoop, Net.fwd, exUnit_forward, unwrap, hf]
  · simp [exActNet, Net.forward, Net.fwd, exUnit_forward, unwrap, hf]
  · intro q hq v hv z hz
    simp only [exActNet, List.zip_cons_cons, List.zip_nil_right, List.mem_cons, List.not_mem_nil,
      or_false] at hq
    rcases hq with rfl | rfl
    · exact hr z
    · exact none_right z

example (lf : LossFunc) (x t : Cf .w64 ℝ) :
    ∃ gs, sampleGrads (exActNet .ritTanh) lf (.scalar [x], .scalar [t]) = some gs
      ∧ IsNetGradient (exActNet .ritTanh) (.scalar [x]) [t] gs :=
  exActNet_gradient _ tanh_right lf x t

end Renplex
