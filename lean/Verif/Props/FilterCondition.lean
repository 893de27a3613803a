import Mathlib.Analysis.SpecialFunctions.Artanh
import Verif.Props.FilterTurn
import Verif.Props.MirrorPool
/-!
# C129: turned filters that a convolutional layer reads
-/

namespace Renplex
variable {w : Width} {a b : Conv (Cf w ℝ)} {f f' : ActFunc} {κ β μ ν x y z : Cf w ℝ}

/-- Two convolutional layers with one filter each. -/
def twoPix (a b : Conv (Cf w ℝ)) : Net (Cf w ℝ) := ⟨[.conv a, .conv b, .flatten ⟨((1, 1), 1)⟩]⟩

theorem pix_pre (x κ β : Cf w ℝ) (o i j : Nat) :
    convPre 1 1 1 (fun _ _ _ => x) (fun _ _ _ _ => κ) (fun _ => β) o i j = x * κ + β := by
  rw [convPre_sum]; simp

theorem pix_forward (ha : a.Is 1 1 1 1 (fun _ _ _ _ => κ) (fun _ => β) f) (h : Act.activate f (x * κ + β) = some y)
    {ms : List (Mat (Cf w ℝ))} (hx : MapsAre ms 1 1 1 fun _ _ _ => x) :
    ∃ outs, a.forward (.matrix ms) = some (.ok (.matrix outs)) ∧ MapsAre outs 1 1 1 fun _ _ _ => y :=
  C40_forward ha (by norm_num) (by norm_num) (by norm_num) (by norm_num) (by norm_num) (by norm_num) hx
    (fun _ _ _ => y) (fun o _ i _ j _ => by
      have := pix_pre x κ β o i j
      unfold convPre at this
      rw [this]; exact h)

theorem pix_derivs {d dc g gc : Cf w ℝ} (ha : a.Is 1 1 1 1 (fun _ _ _ _ => κ) (fun _ => β) f)
    (h1 : Act.dActivate f (x * κ + β) = some d) (h2 : Act.dConjActivate f (x * κ + β) = some dc)
    {ms : List (Mat (Cf w ℝ))} (hx : MapsAre ms 1 1 1 fun _ _ _ => x) :
    a.computeDerivatives (.matrix ms) [g] [gc]
      = some (.ok ([x * (d * g + CplxOps.conj dc * gc)], [d * g + CplxOps.conj dc * gc],
          [d * g * κ], [CplxOps.conj dc * gc * κ])) := by
  have := Conv.computeDerivatives_is ha (by norm_num) (by norm_num) (by norm_num)
    (by norm_num) (by norm_num) (by norm_num) hx (fun _ _ _ => g) (fun _ _ _ => gc)
    (fun _ _ _ => d) (fun _ _ _ => dc) (fun o _ i _ j _ => by rw [pix_pre]; exact h1)
    (fun o _ i _ j _ => by rw [pix_pre]; exact h2)
  simpa [cube, kernelGrad, inputGrad, table, padded] using this

theorem twoPix_run (ha : a.Is 1 1 1 1 (fun _ _ _ _ => κ) (fun _ => β) f) (hb : b.Is 1 1 1 1 (fun _ _ _ _ => μ) (fun _ => ν) f')
    (h : Act.activate f (x * κ + β) = some y) (h' : Act.activate f' (y * μ + ν) = some z) :
    ∃ ms ms', MapsAre ms 1 1 1 (fun _ _ _ => y)
      ∧ (twoPix a b).collectActs (exMap x) = some (.ok [exMap x, .matrix ms, .matrix ms', .scalar [z]])
      ∧ (twoPix a b).forward (exMap x) = some (.ok (.scalar [z])) := by
  obtain ⟨ms, h1, h2⟩ := pix_forward ha h (exMap_is x)
  obtain ⟨ms', h3, h4⟩ := pix_forward hb h' h2
  have h5 := exFlatten h4
  refine ⟨ms, ms', h2, ?_, ?_⟩
  · simp [twoPix, Net.collectActs, Net.collectLoop, Net.fwd, Layer.forward, exMap, unwrap, h1, h3, h5]
  · simp [twoPix, Net.forward, Net.fwd, Layer.forward, exMap, unwrap, h1, h3, h5]

theorem twoPix_sample (ha : a.Is 1 1 1 1 (fun _ _ _ _ => κ) (fun _ => β) f)
    (hb : b.Is 1 1 1 1 (fun _ _ _ _ => μ) (fun _ => ν) f')
    (h : Act.activate f (x * κ + β) = some y) (h' : Act.activate f' (y * μ + ν) = some z) {d dc e ec : Cf w ℝ}
    (h1 : Act.dActivate f (x * κ + β) = some d) (h2 : Act.dConjActivate f (x * κ + β) = some dc)
    (h3 : Act.dActivate f' (y * μ + ν) = some e) (h4 : Act.dConjActivate f' (y * μ + ν) = some ec)
    (lf : LossFunc) {t γ D E : Cf w ℝ} (hγ : CplxOps.conj (z - t) = γ)
    (hE : e * γ + CplxOps.conj ec * CplxOps.conj γ = E)
    (hD : d * (e * γ * μ) + CplxOps.conj dc * (CplxOps.conj ec * CplxOps.conj γ * μ) = D) :
    sampleGrads (twoPix a b) lf (exMap x, .scalar [t]) = some [([x * D], [D]), ([y * E], [E]), ([], [])] := by
  have hd : CplxOps.dLoss lf (.scalar [t]) (.scalar [z]) = .ok [γ] := by
    rw [← hγ]
    cases lf <;> rfl
  obtain ⟨ms, ms', k1, hc, -⟩ := twoPix_run ha hb h h'
  have c1 := fun g gc => pix_derivs (g := g) (gc := gc) ha h1 h2 (exMap_is x)
  have c2 := fun g gc => pix_derivs (g := g) (gc := gc) hb h3 h4 k1
  have hp : (Layer.conv a).propagates = true := rfl
  have hp' : (Layer.conv b).propagates = true := rfl
  have hp'' : (Layer.flatten ⟨((1, 1), 1)⟩ : Layer (Cf w ℝ)).propagates = false := rfl
  unfold sampleGrads
  rw [hc]
  simp [unwrap, hd, backGrads, hp, hp', hp'', twoPix, Layer.computeDerivatives, c1, c2, exMap, hD, hE]

theorem twoPix_step (ha : a.Is 1 1 1 1 (fun _ _ _ _ => κ) (fun _ => β) f)
    (hb : b.Is 1 1 1 1 (fun _ _ _ _ => μ) (fun _ => ν) f') {lf : LossFunc} {t D E : Cf w ℝ}
    (hs : sampleGrads (twoPix a b) lf (exMap x, .scalar [t]) = some [([x * D], [D]), ([y * E], [E]), ([], [])])
    (lr : Cf w ℝ) :
    ∃ a' b', (twoPix a b).gradientOpt ⟨[exMap x], [.scalar [t]]⟩ lf lr = some (.ok (), twoPix a' b')
      ∧ a'.Is 1 1 1 1 (fun _ _ _ _ => κ - CplxOps.conj (BasicOps.mulAssign (x * D) lr))
        (fun _ => β - CplxOps.conj (BasicOps.mulAssign D lr)) f
      ∧ b'.Is 1 1 1 1 (fun _ _ _ _ => μ - CplxOps.conj (BasicOps.mulAssign (y * E) lr))
        (fun _ => ν - CplxOps.conj (BasicOps.mulAssign E lr)) f' := by
  obtain ⟨a', e1, e2⟩ := Conv.move_is ha
    (fun p d => p - CplxOps.conj (BasicOps.mulAssign d lr)) (fun _ _ _ _ => x * D) fun _ => D
  obtain ⟨b', e3, e4⟩ := Conv.move_is hb
    (fun p d => p - CplxOps.conj (BasicOps.mulAssign d lr)) (fun _ _ _ _ => y * E) fun _ => E
  refine ⟨a', b', ?_, e2, e4⟩
  rw [C50_step _ _ (by simp [twoPix]) (by
    simp only [twoPix, List.mem_cons, List.not_mem_nil, or_false, forall_eq_or_imp, forall_eq]
    exact ⟨ha.wf, hb.wf, trivial⟩)]
  have hl : (Layer.conv a).paramsLen = (1, 1) := by
    rw [Layer.paramsLen, Conv.paramsLen_is ha]
  have hl' : (Layer.conv b).paramsLen = (1, 1) := by
    rw [Layer.paramsLen, Conv.paramsLen_is hb]
  have hp : (Layer.conv a).propagates = true := rfl
  have hp' : (Layer.conv b).propagates = true := rfl
  refine ⟨rfl, [[([x * D], [D]), ([y * E], [E]), ([], [])]], lr, .cons ⟨hs, ?_⟩ .nil, ?_, ?_⟩
  · refine .cons ?_ (.cons ?_ (.cons rfl .nil))
    · unfold LayerVec.Fits
      rw [if_pos hp, hl]
      exact ⟨rfl, rfl⟩
    · unfold LayerVec.Fits
      rw [if_pos hp', hl']
      exact ⟨rfl, rfl⟩
  · obtain ⟨q, hq, hq'⟩ := div_toC lr (Cf.ofUsize 1) (by rw [Cf.toC_ofUsize]; simp)
    refine hq.trans (congrArg some (Cf.toC_inj.mp ?_))
    rw [hq', Cf.toC_ofUsize]
    simp
  · have hp3 : (Layer.flatten ⟨((1, 1), 1)⟩ : Layer (Cf w ℝ)).propagates = false := rfl
    have hz : sumGrads (twoPix a b) [[([x * D], [D]), ([y * E], [E]), ([], [])]]
        = [([x * D], [D]), ([y * E], [E]), ([], [])] := by
      simp [sumGrads, twoPix, LayerVec.zero, LayerVec.add, hp, hl, hp', hl', hp3]
    rw [hz]
    unfold Net.zipParams twoPix
    congr 1
    show [_, _, _] = [_, _, _]
    exact congrArg₂ _ e1.symm (congrArg₂ _ e3.symm rfl)

theorem mulAssign_one (z : Cf w ℝ) : BasicOps.mulAssign z 1 = z := by
  have h1 : (1 : Cf w ℝ).x = 1 := rfl
  have h2 : (1 : Cf w ℝ).y = 0 := rfl
  ext <;> simp [BasicOps.mulAssign, Cf.mulAssign, h1, h2]

theorem mulAssign_I (a b : ℝ) : BasicOps.mulAssign (⟨a, b⟩ : Cf w ℝ) ⟨0, 1⟩ = ⟨-b, -b⟩ := by
  ext <;> simp [BasicOps.mulAssign, Cf.mulAssign]

theorem pix_eq {a b c d : ℝ} (h : a = c) (h' : b = d) : (⟨a, b⟩ : Cf w ℝ) = ⟨c, d⟩ := by rw [h, h']
theorem pix_mul (a b c d : ℝ) : (⟨a, b⟩ : Cf w ℝ) * ⟨c, d⟩ = ⟨a * c - b * d, a * d + b * c⟩ := rfl
theorem pix_add (a b c d : ℝ) : (⟨a, b⟩ : Cf w ℝ) + ⟨c, d⟩ = ⟨a + c, b + d⟩ := rfl
theorem pix_sub (a b c d : ℝ) : (⟨a, b⟩ : Cf w ℝ) - ⟨c, d⟩ = ⟨a - c, b - d⟩ := rfl
theorem pix_conj (a b : ℝ) : CplxOps.conj (⟨a, b⟩ : Cf w ℝ) = ⟨a, -b⟩ := rfl

/-- The derivative of tanh. -/
noncomputable def slope (r : ℝ) : ℝ := 1 / Real.cosh r ^ 2

theorem slope_lt {r : ℝ} (h : r ≠ 0) : 0 < slope r ∧ slope r < 1 := by
  have h1 : 1 < Real.cosh r := Real.one_lt_cosh.mpr h
  have h2 : 1 < Real.cosh r ^ 2 := by nlinarith
  exact ⟨by unfold slope; positivity, by unfold slope; rw [div_lt_one (by positivity)]; exact h2⟩

theorem tanh_real (r : ℝ) : Act.activate .ritTanh (⟨r, 0⟩ : Cf w ℝ) = some ⟨Real.tanh r, 0⟩
    ∧ Act.dActivate .ritTanh (⟨r, 0⟩ : Cf w ℝ) = some ⟨(slope r + 1) / 2, 0⟩
    ∧ Act.dConjActivate .ritTanh (⟨r, 0⟩ : Cf w ℝ) = some ⟨(slope r - 1) / 2, 0⟩ := by
  refine ⟨congrArg some ?_, congrArg some ?_, congrArg some ?_⟩
  · show (⟨Real.tanh r, Real.tanh 0⟩ : Cf w ℝ) = _
    rw [Real.tanh_zero]
  · ext <;> simp [Act.dRitTanh, Act.sech2, slope, Act.half, Scalar.sq]
    ring
  · ext <;> simp [Act.dConjRitTanh, Act.sech2, slope, Act.half, Scalar.sq]
    ring

theorem tanh_imag (r : ℝ) : Act.activate .ritTanh (⟨0, r⟩ : Cf w ℝ) = some ⟨0, Real.tanh r⟩
    ∧ Act.dActivate .ritTanh (⟨0, r⟩ : Cf w ℝ) = some ⟨(slope r + 1) / 2, 0⟩
    ∧ Act.dConjActivate .ritTanh (⟨0, r⟩ : Cf w ℝ) = some ⟨(1 - slope r) / 2, 0⟩ := by
  refine ⟨congrArg some ?_, congrArg some ?_, congrArg some ?_⟩
  · show (⟨Real.tanh 0, Real.tanh r⟩ : Cf w ℝ) = _
    rw [Real.tanh_zero]
  · ext <;> simp [Act.dRitTanh, Act.sech2, slope, Act.half, Scalar.sq]
    ring
  · ext <;> simp [Act.dConjRitTanh, Act.sech2, slope, Act.half, Scalar.sq]
    ring

/-- A filter of one weight. -/
def pixConv (f : ActFunc) (κ β : Cf w ℝ) : Conv (Cf w ℝ) :=
  ⟨1, Mat.fromBody [Mat.fromBody [κ] (1, 1)] (1, 1), [β], f⟩

theorem pixConv_is (f : ActFunc) (κ β : Cf w ℝ) : (pixConv f κ β).Is 1 1 1 1 (fun _ _ _ _ => κ) (fun _ => β) f :=
  ⟨rfl, rfl, rfl, fun _ _ => Mat.fromBody [κ] (1, 1), ⟨rfl, rfl⟩, fun _ _ _ _ => ⟨rfl, rfl⟩⟩

theorem twoPix_ready (hf : ActTotal (Cf w ℝ) f) (ha : a.Is 1 1 1 1 (fun _ _ _ _ => κ) (fun _ => β) f)
    (hb : b.Is 1 1 1 1 (fun _ _ _ _ => μ) (fun _ => ν) f) : (twoPix a b).Ready (.maps 1 1 1) (.vec 1) := by
  refine ⟨by simp [twoPix], ?_, ?_, ?_, ?_⟩
  · simp only [twoPix, List.mem_cons, List.not_mem_nil, or_false, forall_eq_or_imp, forall_eq]
    exact ⟨ha.wf, hb.wf, trivial⟩
  · exact .cons ((Conv.fits_dims ha).mpr ⟨1, 1, rfl, rfl, by simp⟩)
      (.cons ((Conv.fits_dims hb).mpr ⟨1, 1, rfl, rfl, by simp⟩) (.cons (s₁ := .vec 1) ⟨rfl, rfl⟩ (.nil _)))
  · simp only [twoPix, List.mem_cons, List.not_mem_nil, or_false, forall_eq_or_imp, forall_eq, Layer.Total, ha.2.2.1,
      hb.2.2.1]
    exact ⟨hf.1, hf.1, trivial⟩
  · simp only [twoPix, List.mem_cons, List.not_mem_nil, or_false, forall_eq_or_imp, forall_eq, Layer.TotalBack, ha.2.2.1,
      hb.2.2.1]
    exact ⟨hf.2, hf.2, trivial⟩

/-- C129, the condition on convolutional layers that read turned filters is needed. The filter of a RITTanh layer is turned
by a right angle and the convolutional layer behind it, which has RITTanh too, turns it back. The two networks compute the
same, but after one training call with the same image, target and rate 1 they give different outputs for that image. -/
theorem C129_condition (w : Width) (lf : LossFunc) :
    ∃ (n n' : Net (Cf w ℝ)) (x : IOType (Cf w ℝ)) (t : Cf w ℝ),
      FilterScale (fun _ => ⟨0, 1⟩) (fun _ => ⟨0, 1⟩) 0 1 .ritTanh True n n' ∧ n.Ready (.maps 1 1 1) (.vec 1)
      ∧ x.HasSize (.maps 1 1 1)
      ∧ ∃ m m' y y', n.gradientOpt ⟨[x], [.scalar [t]]⟩ lf 1 = some (.ok (), m)
        ∧ n'.gradientOpt ⟨[x], [.scalar [t]]⟩ lf 1 = some (.ok (), m')
        ∧ m.forward x = some (.ok y) ∧ m'.forward x = some (.ok y') ∧ y ≠ y' := by
  have hi : (⟨0, 1⟩ : Cf w ℝ).toC = Complex.I := by apply Complex.ext <;> simp [Cf.toC]
  have e1 : (⟨0, 1⟩ : Cf w ℝ) * ⟨1, 0⟩ = ⟨0, 1⟩ := by rw [pix_mul]; exact pix_eq (by ring) (by ring)
  have e2 : (⟨0, 1⟩ : Cf w ℝ) * ⟨0, 0⟩ = ⟨0, 0⟩ := by rw [pix_mul]; exact pix_eq (by ring) (by ring)
  have e3 : (⟨1, 0⟩ : Cf w ℝ) / ⟨0, 1⟩ = ⟨0, -1⟩ := by
    rw [div_eq_iff fun h => one_ne_zero (congrArg Cf.y h : (1 : ℝ) = 0)]
    rw [pix_mul]
    exact pix_eq (by ring) (by ring)
  have ha := pixConv_is (w := w) .ritTanh ⟨1, 0⟩ ⟨0, 0⟩
  have ha' := pixConv_is (w := w) .ritTanh ⟨0, 1⟩ ⟨0, 0⟩
  have hb' := pixConv_is (w := w) .ritTanh ⟨0, -1⟩ ⟨0, 0⟩
  set p := slope 1 with hp
  set τ := Real.tanh 1 with hτ
  set u := slope τ with hu
  have hτ0 : 0 < τ ∧ τ < 1 := ⟨by
    rw [hτ, Real.tanh_eq_sinh_div_cosh]
    exact div_pos (Real.sinh_pos_iff.mpr one_pos) (Real.cosh_pos 1), Real.tanh_lt_one 1⟩
  obtain ⟨p0, p1⟩ := slope_lt one_ne_zero
  obtain ⟨u0, u1⟩ := slope_lt hτ0.1.ne'
  have x1 : (⟨1, 0⟩ : Cf w ℝ) * ⟨1, 0⟩ + ⟨0, 0⟩ = ⟨1, 0⟩ := by rw [pix_mul, pix_add]; exact pix_eq (by ring) (by ring)
  have x2 : (⟨τ, 0⟩ : Cf w ℝ) * ⟨1, 0⟩ + ⟨0, 0⟩ = ⟨τ, 0⟩ := by rw [pix_mul, pix_add]; exact pix_eq (by ring) (by ring)
  have x3 : (⟨1, 0⟩ : Cf w ℝ) * ⟨0, 1⟩ + ⟨0, 0⟩ = ⟨0, 1⟩ := by rw [pix_mul, pix_add]; exact pix_eq (by ring) (by ring)
  have x4 : (⟨0, τ⟩ : Cf w ℝ) * ⟨0, -1⟩ + ⟨0, 0⟩ = ⟨τ, 0⟩ := by rw [pix_mul, pix_add]; exact pix_eq (by ring) (by ring)
  have s1 := twoPix_sample (x := ⟨1, 0⟩) (y := ⟨τ, 0⟩) (z := ⟨Real.tanh τ, 0⟩) (t := ⟨Real.tanh τ - 1, 0⟩) (γ := ⟨1, 0⟩)
    (D := ⟨(p * u + 1) / 2, 0⟩) (E := ⟨u, 0⟩) ha ha (by rw [x1]; exact (tanh_real 1).1) (by rw [x2]; exact (tanh_real τ).1)
    (by rw [x1]; exact (tanh_real 1).2.1) (by rw [x1]; exact (tanh_real 1).2.2) (by rw [x2]; exact (tanh_real τ).2.1)
    (by rw [x2]; exact (tanh_real τ).2.2) lf (by rw [pix_sub, pix_conj]; exact pix_eq (by ring) (by ring))
    (by simp only [pix_conj, pix_mul, pix_add]; exact pix_eq (by ring) (by ring))
    (by simp only [pix_conj, pix_mul, pix_add]; exact pix_eq (by ring) (by ring))
  have s2 := twoPix_sample (x := ⟨1, 0⟩) (y := ⟨0, τ⟩) (z := ⟨Real.tanh τ, 0⟩) (t := ⟨Real.tanh τ - 1, 0⟩) (γ := ⟨1, 0⟩)
    (D := ⟨0, -((p + u) / 2)⟩) (E := ⟨u, 0⟩) ha' hb' (by rw [x3]; exact (tanh_imag 1).1) (by rw [x4]; exact (tanh_real τ).1)
    (by rw [x3]; exact (tanh_imag 1).2.1) (by rw [x3]; exact (tanh_imag 1).2.2) (by rw [x4]; exact (tanh_real τ).2.1)
    (by rw [x4]; exact (tanh_real τ).2.2) lf (by rw [pix_sub, pix_conj]; exact pix_eq (by ring) (by ring))
    (by simp only [pix_conj, pix_mul, pix_add]; exact pix_eq (by ring) (by ring))
    (by simp only [pix_conj, pix_mul, pix_add]; exact pix_eq (by ring) (by ring))
  obtain ⟨a1, b1, g1, i1, j1⟩ := twoPix_step ha ha s1 1
  obtain ⟨a2, b2, g2, i2, j2⟩ := twoPix_step ha' hb' s2 1
  simp only [mulAssign_one] at i1 j1 i2 j2
  obtain ⟨-, -, -, -, r1⟩ := twoPix_run (x := ⟨1, 0⟩) (y := ⟨Real.tanh (-(p * u)), 0⟩)
    (z := ⟨Real.tanh (Real.tanh (-(p * u)) * (1 - τ * u) - u), 0⟩) i1 j1
    (by
      refine Eq.trans (congrArg _ ?_) (tanh_real _).1
      simp only [pix_conj, pix_mul, pix_add, pix_sub]
      exact pix_eq (by ring) (by ring))
    (by
      refine Eq.trans (congrArg _ ?_) (tanh_real _).1
      simp only [pix_conj, pix_mul, pix_add, pix_sub]
      exact pix_eq (by ring) (by ring))
  obtain ⟨-, -, -, -, r2⟩ := twoPix_run (x := ⟨1, 0⟩) (y := ⟨0, Real.tanh (1 - p - u)⟩)
    (z := ⟨Real.tanh (Real.tanh (1 - p - u) * (1 - τ * u) - u), 0⟩) i2 j2
    (by
      refine Eq.trans (congrArg _ ?_) (tanh_imag _).1
      simp only [pix_conj, pix_mul, pix_add, pix_sub]
      exact pix_eq (by ring) (by ring))
    (by
      refine Eq.trans (congrArg _ ?_) (tanh_real _).1
      simp only [pix_conj, pix_mul, pix_add, pix_sub]
      exact pix_eq (by ring) (by ring))
  refine ⟨_, _, _, ⟨Real.tanh τ - 1, 0⟩, ?_, twoPix_ready ⟨fun _ => ⟨_, rfl⟩, fun _ => ⟨_, rfl⟩, fun _ => ⟨_, rfl⟩⟩ ha ha,
    exMap_size ⟨1, 0⟩, _, _, _, _, g1, g2, r1, r2, fun h => ?_⟩
  · refine ⟨fun _ => ⟨by rw [hi]; exact Complex.I_pow_four, rfl⟩, [], _, _, _, _, 1, 1, 1, fun _ _ _ _ => ⟨1, 0⟩,
      fun _ => ⟨0, 0⟩, rfl, rfl, rfl, ha, ?_, .conv trivial ha ?_ _⟩
    · beta_reduce
      rw [e1, e2]
      exact ha'
    · rw [e3]
      exact hb'
  · have h1 : Real.tanh (Real.tanh (-(p * u)) * (1 - τ * u) - u) = Real.tanh (Real.tanh (1 - p - u) * (1 - τ * u) - u) := by
      simpa using h
    have h2 := Real.tanh_injective h1
    have h3 : (1 - τ * u) ≠ 0 := by nlinarith
    have h4 := Real.tanh_injective (mul_right_cancel₀ h3 (by linarith : Real.tanh (-(p * u)) * (1 - τ * u)
      = Real.tanh (1 - p - u) * (1 - τ * u)))
    nlinarith [mul_pos (sub_pos.mpr p1) (sub_pos.mpr u1)]

/-- C129, the condition on the rate is needed. The filter of a layer without activation is turned by a right angle and the
convolutional layer behind it turns it back. After one training call with the same image and the rate `i` the two networks
give different outputs for that image. -/
theorem C129_rate (w : Width) (lf : LossFunc) :
    ∃ (n n' : Net (Cf w ℝ)) (x : IOType (Cf w ℝ)) (t : Cf w ℝ),
      FilterTurn (fun _ => ⟨0, 1⟩) 0 1 .none n n' ∧ n.Ready (.maps 1 1 1) (.vec 1) ∧ x.HasSize (.maps 1 1 1)
      ∧ ∃ m m' y y', n.gradientOpt ⟨[x], [.scalar [t]]⟩ lf ⟨0, 1⟩ = some (.ok (), m)
        ∧ n'.gradientOpt ⟨[x], [.scalar [t]]⟩ lf ⟨0, 1⟩ = some (.ok (), m')
        ∧ m.forward x = some (.ok y) ∧ m'.forward x = some (.ok y') ∧ y ≠ y' := by
  have hi : (⟨0, 1⟩ : Cf w ℝ).toC = Complex.I := by apply Complex.ext <;> simp [Cf.toC]
  have e1 : (⟨0, 1⟩ : Cf w ℝ) * ⟨1, 0⟩ = ⟨0, 1⟩ := by rw [pix_mul]; exact pix_eq (by ring) (by ring)
  have e2 : (⟨0, 1⟩ : Cf w ℝ) * ⟨0, 0⟩ = ⟨0, 0⟩ := by rw [pix_mul]; exact pix_eq (by ring) (by ring)
  have e3 : (⟨1, 0⟩ : Cf w ℝ) / ⟨0, 1⟩ = ⟨0, -1⟩ := by
    rw [div_eq_iff fun h => one_ne_zero (congrArg Cf.y h : (1 : ℝ) = 0)]
    rw [pix_mul]
    exact pix_eq (by ring) (by ring)
  have hone : (1 : Cf w ℝ) = ⟨1, 0⟩ := rfl
  have hzero : (0 : Cf w ℝ) = ⟨0, 0⟩ := rfl
  have ha := pixConv_is (w := w) .none ⟨1, 0⟩ ⟨0, 0⟩
  have ha' := pixConv_is (w := w) .none ⟨0, 1⟩ ⟨0, 0⟩
  have hb' := pixConv_is (w := w) .none ⟨0, -1⟩ ⟨0, 0⟩
  have none_act : ∀ z : Cf w ℝ, Act.activate .none z = some z := fun _ => rfl
  have s1 := twoPix_sample (x := ⟨1, 0⟩) (y := ⟨1, 0⟩) (z := ⟨1, 0⟩) (t := ⟨0, 0⟩) (γ := ⟨1, 0⟩)
    (D := ⟨1, 0⟩) (E := ⟨1, 0⟩) ha ha
    (by rw [none_act, pix_mul, pix_add]; exact congrArg some (pix_eq (by ring) (by ring)))
    (by rw [none_act, pix_mul, pix_add]; exact congrArg some (pix_eq (by ring) (by ring)))
    (none_deriv _) (none_conj _) (none_deriv _) (none_conj _) lf (by rw [pix_sub, pix_conj]; exact pix_eq (by ring) (by ring))
    (by simp only [hone, hzero, pix_conj, pix_mul, pix_add]; exact pix_eq (by ring) (by ring))
    (by simp only [hone, hzero, pix_conj, pix_mul, pix_add]; exact pix_eq (by ring) (by ring))
  have s2 := twoPix_sample (x := ⟨1, 0⟩) (y := ⟨0, 1⟩) (z := ⟨1, 0⟩) (t := ⟨0, 0⟩) (γ := ⟨1, 0⟩)
    (D := ⟨0, -1⟩) (E := ⟨1, 0⟩) ha' hb'
    (by rw [none_act, pix_mul, pix_add]; exact congrArg some (pix_eq (by ring) (by ring)))
    (by rw [none_act, pix_mul, pix_add]; exact congrArg some (pix_eq (by ring) (by ring)))
    (none_deriv _) (none_conj _) (none_deriv _) (none_conj _) lf (by rw [pix_sub, pix_conj]; exact pix_eq (by ring) (by ring))
    (by simp only [hone, hzero, pix_conj, pix_mul, pix_add]; exact pix_eq (by ring) (by ring))
    (by simp only [hone, hzero, pix_conj, pix_mul, pix_add]; exact pix_eq (by ring) (by ring))
  obtain ⟨a1, b1, g1, i1, j1⟩ := twoPix_step ha ha s1 ⟨0, 1⟩
  obtain ⟨a2, b2, g2, i2, j2⟩ := twoPix_step ha' hb' s2 ⟨0, 1⟩
  simp only [pix_mul, mulAssign_I, pix_conj, pix_sub] at i1 j1 i2 j2
  obtain ⟨-, -, -, -, r1⟩ := twoPix_run (x := ⟨1, 0⟩) (y := ⟨1, 0⟩) (z := ⟨1, 0⟩) i1 j1
    (by rw [none_act, pix_mul, pix_add]; exact congrArg some (pix_eq (by ring) (by ring)))
    (by rw [none_act, pix_mul, pix_add]; exact congrArg some (pix_eq (by ring) (by ring)))
  obtain ⟨-, -, -, -, r2⟩ := twoPix_run (x := ⟨1, 0⟩) (y := ⟨-2, 3⟩) (z := ⟨4, 7⟩) i2 j2
    (by rw [none_act, pix_mul, pix_add]; exact congrArg some (pix_eq (by ring) (by ring)))
    (by rw [none_act, pix_mul, pix_add]; exact congrArg some (pix_eq (by ring) (by ring)))
  refine ⟨_, _, _, ⟨0, 0⟩, ?_, twoPix_ready ⟨fun _ => ⟨_, rfl⟩, fun _ => ⟨_, rfl⟩, fun _ => ⟨_, rfl⟩⟩ ha ha,
    exMap_size ⟨1, 0⟩, _, _, _, _, g1, g2, r1, r2, fun h => ?_⟩
  · refine ⟨fun _ => by rw [hi]; simp, fun _ => ?_, [], _, _, _, _, 1, 1, 1, fun _ _ _ _ => ⟨1, 0⟩,
      fun _ => ⟨0, 0⟩, rfl, rfl, rfl, ha, ?_, .conv (.inl rfl) ha ?_ _⟩
    · exact ⟨by rw [hi]; exact Complex.I_ne_zero, rfl⟩
    · beta_reduce
      rw [e1, e2]
      exact ha'
    · rw [e3]
      exact hb'
  · norm_num at h

end Renplex
