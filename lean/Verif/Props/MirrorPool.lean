import Verif.Props.MirrorNet
import Verif.Props.ExampleNets
import Verif.Props.ConvNet
/-!
# C111: the pooling layer of the examples tells left from right
-/

namespace Renplex
open Examples

/-- A convolutional layer, the pooling layer of the classification example, a `Flatten` layer. -/
noncomputable def poolNet (a : Conv (Cf .w32 ℝ)) : Net (Cf .w32 ℝ) :=
  ⟨[.conv a, .reduce (avgPool 1), .flatten ⟨((1, 1), 1)⟩]⟩

/-- The mean of the four entries of a 2 × 2 map. -/
noncomputable def mean4 (X : Nat → Nat → Cf .w32 ℝ) : Cf .w32 ℝ :=
  ∑ i ∈ Finset.range 2, ∑ j ∈ Finset.range 2, (⟨1 / 4, 0⟩ : Cf .w32 ℝ) * X i j

section
variable {a : Conv (Cf .w32 ℝ)} {κ β : Cf .w32 ℝ}

theorem poolNet_run (ha : a.Is 1 1 1 1 (fun _ _ _ _ => κ) (fun _ => β) .none)
    {ms : List (Mat (Cf .w32 ℝ))} {X : Nat → Nat → Nat → Cf .w32 ℝ} (hX : MapsAre ms 1 2 2 X) :
    ∃ ms1 ms2, MapsAre ms1 1 2 2 (fun _ i j => X 0 i j * κ + β)
      ∧ (poolNet a).collectActs (.matrix ms) = some (.ok [.matrix ms, .matrix ms1, .matrix ms2,
        .scalar [mean4 fun i j => X 0 i j * κ + β]])
      ∧ (poolNet a).forward (.matrix ms)
        = some (.ok (.scalar [mean4 fun i j => X 0 i j * κ + β])) := by
  obtain ⟨ms1, h1, h2⟩ : ∃ ms1, a.forward (.matrix ms) = some (.ok (.matrix ms1))
      ∧ MapsAre ms1 1 2 2 fun _ i j => X 0 i j * κ + β :=
    ⟨_, Conv.forward_maps ha (by norm_num) (by norm_num) (by norm_num) (by norm_num)
      (by norm_num) (by norm_num) hX id (fun _ => rfl),
    (mapsAre_fromBody 1 (2 - 1 + 1) (2 - 1 + 1) fun o i j => id (convPre 1 1 1 X
      (fun _ _ _ _ => κ) (fun _ => β) o i j)).congr' fun o ho i _ j _ => by
        rw [id, convPre_sum]
        simp⟩
  obtain ⟨ms2, h3, h4⟩ := C41_reduce (l := (avgPool 1 : Reduce (Cf .w32 ℝ))) (n := 1) (nr := 1)
    (nc := 1) (p := 2) (q := 2) rfl (by omega) (by omega) (by omega) (by omega) h2
    (Y := fun _ _ _ => mean4 fun i j => X 0 i j * κ + β) (fun ch _ i hi j hj => by
      have := (avgPool_weighted 1).2.2 fun i j => X 0 i j * κ + β
      obtain rfl : i = 0 := by omega
      obtain rfl : j = 0 := by omega
      simp only [Nat.zero_mul, Nat.zero_add]
      exact this)
  have h5 := exFlatten h4
  refine ⟨ms1, ms2, h2, ?_, ?_⟩
  · simp [poolNet, Net.collectActs, Net.collectLoop, Net.fwd, Layer.forward, unwrap, h1, h3, h5]
  · simp [poolNet, Net.forward, Net.fwd, Layer.forward, unwrap, h1, h3, h5]

/-- The kernel of the example, which is its own mirror image. -/
noncomputable def bil (i j : Nat) : Cf .w32 ℝ :=
  ⟨(if i = 1 then 1 else 1 / 2) * (if j = 1 then 1 else 1 / 2), 0⟩

theorem bil_is : (avgPool 1 : Reduce (Cf .w32 ℝ)).interpKernel.Is 3 3 bil := (C69_pooling 1).2.2.2

theorem poolNet_up (γ : Cf .w32 ℝ) {i j : Nat} (hi : i < 2) (hj : j < 2) :
    upMap 1 1 2 2 bil (fun _ _ => γ) i j = γ * bil (1 - i) (1 - j) := by
  rw [upMap_sum]
  simp only [Finset.sum_range_succ, Finset.sum_range_zero, show upOff 2 = 0 from rfl,
    show leftOff 2 2 = 0 from rfl]
  interval_cases i <;> interval_cases j <;> norm_num

/-- What back-propagation returns. -/
theorem poolNet_sample (ha : a.Is 1 1 1 1 (fun _ _ _ _ => κ) (fun _ => β) .none)
    {ms : List (Mat (Cf .w32 ℝ))} {X : Nat → Nat → Nat → Cf .w32 ℝ} (hX : MapsAre ms 1 2 2 X)
    (lf : LossFunc) (t : Cf .w32 ℝ) {γ : Cf .w32 ℝ}
    (hγ : γ = CplxOps.conj ((mean4 fun i j => X 0 i j * κ + β) - t)) :
    sampleGrads (poolNet a) lf (.matrix ms, .scalar [t])
      = some [([∑ i ∈ Finset.range 2, ∑ j ∈ Finset.range 2, X 0 i j * (γ * bil (1 - i) (1 - j))],
          [∑ i ∈ Finset.range 2, ∑ j ∈ Finset.range 2, γ * bil (1 - i) (1 - j)]), ([], []), ([], [])]
      := by
  obtain ⟨ms1, ms2, h1, h2, -⟩ := poolNet_run ha hX
  have hd : CplxOps.dLoss lf (.scalar [t]) (.scalar [mean4 fun i j => X 0 i j * κ + β])
      = .ok [γ] := by rw [hγ]; cases lf <;> rfl
  have c2 : (Layer.reduce (avgPool 1 : Reduce (Cf .w32 ℝ))).back (.matrix ms1) [γ]
      [CplxOps.conj γ] = _ := Reduce.back_is (l := (avgPool 1 : Reduce (Cf .w32 ℝ))) (p := 2) (q := 2)
    rfl bil_is (by omega) (by omega) (by omega) (n := 1) (r := 1) (c := 1) (by omega) (by omega)
    (by omega) (fun _ _ _ => γ) (fun _ _ _ => CplxOps.conj γ) h1
  have c1 : (Layer.conv a).back (.matrix ms) (cube 1 (1 * 2) (1 * 2) fun _ => upMap 1 1 2 2 bil
      fun _ _ => γ) (cube 1 (1 * 2) (1 * 2) fun _ => upMap 1 1 2 2 bil fun _ _ => CplxOps.conj γ)
      = _ := Conv.back_is ha (by norm_num) (by norm_num) (by norm_num) (by norm_num)
    (by norm_num) (by norm_num) hX (fun _ => upMap 1 1 2 2 bil fun _ _ => γ)
    (fun _ => upMap 1 1 2 2 bil fun _ _ => CplxOps.conj γ) (fun _ => 1) (fun _ => 0)
    (fun z => none_deriv z) (fun z => none_conj z)
  have c3 : ∀ d dc, (Layer.flatten ⟨((1, 1), 1)⟩ : Layer (Cf .w32 ℝ)).back (.matrix ms2) d dc
      = some (([], []), d, dc) := fun _ _ => rfl
  have hb : backGrads (backPairs (poolNet a).layers (.matrix ms) [.matrix ms1, .matrix ms2,
      .scalar [mean4 fun i j => X 0 i j * κ + β]]) [γ] [CplxOps.conj γ]
      = some [([], []), ([], []),
        ([∑ i ∈ Finset.range 2, ∑ j ∈ Finset.range 2, X 0 i j * (γ * bil (1 - i) (1 - j))],
          [∑ i ∈ Finset.range 2, ∑ j ∈ Finset.range 2, γ * bil (1 - i) (1 - j)])] := by
    have hl : backPairs (poolNet a).layers (.matrix ms) [.matrix ms1, .matrix ms2,
      .scalar [mean4 fun i j => X 0 i j * κ + β]] = [(.matrix ms2, .flatten ⟨((1, 1), 1)⟩),
        (.matrix ms1, .reduce (avgPool 1)), (.matrix ms, .conv a)] := rfl
    rw [hl, backGrads_cons, c3]
    simp only [Option.bind_eq_bind, Option.bind_some]
    rw [backGrads_cons, c2]
    simp only [Option.bind_eq_bind, Option.bind_some]
    rw [backGrads_cons, c1]
    simp only [Option.bind_eq_bind, Option.bind_some, backGrads, Option.map_some]
    have e1 : kvec 1 1 1 1 (fun o ch => kernelGrad (2 - 1 + 1) (2 - 1 + 1) (X ch) fun i j =>
        1 * upMap 1 1 2 2 bil (fun _ _ => γ) i j
          + CplxOps.conj 0 * upMap 1 1 2 2 bil (fun _ _ => CplxOps.conj γ) i j)
        = [∑ i ∈ Finset.range 2, ∑ j ∈ Finset.range 2, X 0 i j * (γ * bil (1 - i) (1 - j))] := by
      show [kernelGrad _ _ _ _ _ _] = _
      congr 1
      unfold kernelGrad
      refine Finset.sum_congr rfl fun i hi => Finset.sum_congr rfl fun j hj => ?_
      beta_reduce
      rw [conj_zero', zero_mul, add_zero, one_mul, poolNet_up γ (Finset.mem_range.mp hi)
        (Finset.mem_range.mp hj), Nat.zero_add, Nat.zero_add]
    have e2 : ((List.range 1).map fun _ => ∑ i ∈ Finset.range (2 - 1 + 1), ∑ j ∈ Finset.range (2 - 1 + 1),
        (1 * upMap 1 1 2 2 bil (fun _ _ => γ) i j
          + CplxOps.conj 0 * upMap 1 1 2 2 bil (fun _ _ => CplxOps.conj γ) i j))
        = [∑ i ∈ Finset.range 2, ∑ j ∈ Finset.range 2, γ * bil (1 - i) (1 - j)] := by
      show [_] = _
      congr 1
      refine Finset.sum_congr rfl fun i hi => Finset.sum_congr rfl fun j hj => ?_
      rw [conj_zero', zero_mul, add_zero, one_mul, poolNet_up γ (Finset.mem_range.mp hi)
        (Finset.mem_range.mp hj)]
    rw [e1, e2]
  unfold sampleGrads
  rw [h2]
  simp only [Option.bind_eq_bind, Option.bind_some, unwrap, List.reverse_cons, List.reverse_nil,
    List.nil_append, List.cons_append, List.head?_cons, hd, List.tail_cons]
  change Option.map List.reverse (backGrads (backPairs (poolNet a).layers (.matrix ms) [.matrix ms1,
    .matrix ms2, .scalar [mean4 fun i j => X 0 i j * κ + β]]) [γ] [CplxOps.conj γ]) = _
  rw [hb]
  rfl

theorem poolNet_wf (ha : a.Is 1 1 1 1 (fun _ _ _ _ => κ) (fun _ => β) .none) :
    ∀ l ∈ (poolNet a).layers, l.WF := by
  simp only [poolNet, List.mem_cons, List.not_mem_nil, or_false, forall_eq_or_imp, forall_eq]
  exact ⟨ha.wf, trivial, trivial⟩

theorem poolNet_ready (ha : a.Is 1 1 1 1 (fun _ _ _ _ => κ) (fun _ => β) .none) :
    (poolNet a).Ready (.maps 1 2 2) (.vec 1) := by
  refine ⟨by simp [poolNet], poolNet_wf ha, ?_, ?_, ?_⟩
  · exact .cons ((Conv.fits_dims ha).mpr ⟨2, 2, rfl, rfl, by omega⟩)
      (.cons (s₁ := .maps 1 1 1) ⟨rfl, rfl, by omega, by omega, by simp [avgPool, Reduce.init],
        by simp [avgPool, Reduce.init], rfl, rfl⟩ (.cons (s₁ := .vec 1) ⟨rfl, rfl⟩ (.nil _)))
  · simp only [poolNet, List.mem_cons, List.not_mem_nil, or_false, forall_eq_or_imp, forall_eq]
    refine ⟨conv_total ha.2.2.1 (by simp), ?_, trivial⟩
    intro b hb
    have hb : b.length = 4 := hb
    exact ⟨_, avgBlock_eq b (by rintro rfl; simp at hb)⟩
  · simp only [poolNet, List.mem_cons, List.not_mem_nil, or_false, forall_eq_or_imp, forall_eq]
    exact ⟨conv_totalBack ha.2.2.1 (by simp), avgPool_totalBack (by omega), trivial⟩

/-- One training call with learning rate 1 on one image. -/
theorem poolNet_step (ha : a.Is 1 1 1 1 (fun _ _ _ _ => κ) (fun _ => β) .none)
    {ms : List (Mat (Cf .w32 ℝ))} {X : Nat → Nat → Nat → Cf .w32 ℝ} (hX : MapsAre ms 1 2 2 X)
    (lf : LossFunc) (t : Cf .w32 ℝ) {γ : Cf .w32 ℝ}
    (hγ : γ = CplxOps.conj ((mean4 fun i j => X 0 i j * κ + β) - t)) :
    ∃ a', (poolNet a).gradientOpt ⟨[.matrix ms], [.scalar [t]]⟩ lf 1 = some (.ok (), poolNet a')
      ∧ a'.Is 1 1 1 1 (fun _ _ _ _ => κ - CplxOps.conj (∑ i ∈ Finset.range 2, ∑ j ∈ Finset.range 2,
          X 0 i j * (γ * bil (1 - i) (1 - j))))
        (fun _ => β - CplxOps.conj (∑ i ∈ Finset.range 2, ∑ j ∈ Finset.range 2,
          γ * bil (1 - i) (1 - j))) .none := by
  have hs := poolNet_sample ha hX lf t hγ
  set D := ∑ i ∈ Finset.range 2, ∑ j ∈ Finset.range 2, X 0 i j * (γ * bil (1 - i) (1 - j))
  set E := ∑ i ∈ Finset.range 2, ∑ j ∈ Finset.range 2, γ * bil (1 - i) (1 - j)
  obtain ⟨a', e1, e2⟩ := Conv.move_is ha
    (fun p d => p - CplxOps.conj (BasicOps.mulAssign d (1 : Cf .w32 ℝ))) (fun _ _ _ _ => D) fun _ => E
  have hm : ∀ z : Cf .w32 ℝ, BasicOps.mulAssign z 1 = z := by
    intro z
    have h1 : (1 : Cf .w32 ℝ).x = 1 := rfl
    have h2 : (1 : Cf .w32 ℝ).y = 0 := rfl
    ext <;> simp [BasicOps.mulAssign, Cf.mulAssign, h1, h2]
  simp only [hm] at e1 e2
  refine ⟨a', ?_, e2⟩
  rw [C50_step _ _ (by simp [poolNet]) (poolNet_wf ha)]
  have hl : (Layer.conv a).paramsLen = (1, 1) := by
    rw [Layer.paramsLen, Conv.paramsLen_is ha]
  have hp : (Layer.conv a).propagates = true := rfl
  refine ⟨rfl, [[([D], [E]), ([], []), ([], [])]], 1, .cons ⟨hs, ?_⟩ .nil, ?_, ?_⟩
  · refine .cons ?_ (.cons ?_ (.cons rfl .nil))
    · unfold LayerVec.Fits
      rw [if_pos hp, hl]
      exact ⟨rfl, rfl⟩
    · exact ⟨rfl, rfl⟩
  · obtain ⟨q, hq, hq'⟩ := div_toC (1 : Cf .w32 ℝ) (Cf.ofUsize 1) (by rw [Cf.toC_ofUsize]; simp)
    refine hq.trans (congrArg some (Cf.toC_inj.mp ?_))
    rw [hq', Cf.toC_ofUsize, Cf.toC_hom_one]
    simp
  · simp only [hm]
    unfold Net.zipParams poolNet
    have hz : sumGrads (poolNet a) [[([D], [E]), ([], []), ([], [])]]
        = [([D], [E]), ([], []), ([], [])] := by
      have hp2 : (Layer.reduce (avgPool 1 : Reduce (Cf .w32 ℝ))).propagates = true := rfl
      have hp3 : (Layer.flatten ⟨((1, 1), 1)⟩ : Layer (Cf .w32 ℝ)).propagates = false := rfl
      have hl2 : (Layer.reduce (avgPool 1 : Reduce (Cf .w32 ℝ))).paramsLen = (0, 0) := rfl
      simp [sumGrads, poolNet, LayerVec.zero, LayerVec.add, hp, hl, hp2, hp3, hl2]
    rw [show (⟨[.conv a, .reduce (avgPool 1), .flatten ⟨((1, 1), 1)⟩]⟩ : Net (Cf .w32 ℝ)) = poolNet a
      from rfl, hz]
    congr 1
    show [_, _, _] = [_, _, _]
    exact congrArg₂ _ e1.symm rfl

end

/-- The image with 4 in the upper left corner, mirrored. -/
noncomputable def corner (v h : Bool) : IOType (Cf .w32 ℝ) :=
  .matrix ((List.range 1).map fun o => Mat.fromBody (table 2 2 ((fun _ : Nat => mirrored v h 2 2
    fun i j => if i = 0 ∧ j = 0 then 4 else 0) o)) (2, 2))

theorem corner_is (v h : Bool) : MapsAre ((List.range 1).map fun o => Mat.fromBody (table 2 2
    ((fun _ : Nat => mirrored v h 2 2 fun i j => if i = 0 ∧ j = 0 then (4 : Cf .w32 ℝ) else 0) o)) (2, 2))
    1 2 2 fun _ => mirrored v h 2 2 fun i j => if i = 0 ∧ j = 0 then 4 else 0 :=
  mapsAre_fromBody 1 2 2 _

theorem corner_mirror (v h : Bool) : MirrorImage v h 1 2 2 (corner false false) (corner v h) :=
  ⟨_, _, _, rfl, rfl, corner_is false false, corner_is v h⟩

theorem quarter : (⟨1 / 4, 0⟩ : Cf .w32 ℝ) * 4 = 1 := by
  apply Cf.toC_inj.mp
  have h4 : (4 : Cf .w32 ℝ) = 1 + 1 + 1 + 1 := by norm_num
  rw [h4]
  simp only [Cf.toC_hom_mul, Cf.toC_hom_add, Cf.toC_hom_one]
  apply Complex.ext <;> simp [Cf.toC]
  norm_num

/-- C111 is false of the code: the pooling layer of the classification example puts derivatives into
the upper left place of every block. A network of one 1 × 1 filter with weight 1 and that pooling
layer does not tell images from their mirror images. But after a single training call on an image,
or else on its mirror image, the two networks differ, and not just by a reflection: they give
different predictions for that image and its mirror image. -/
theorem C111_refuted (v h : Bool) (hvh : (v || h) = true) (lf : LossFunc) :
    (poolNet (exConvAct .none 0)).Ready (.maps 1 2 2) (.vec 1)
    ∧ (∀ x x', MirrorImage v h 1 2 2 x x' →
        (poolNet (exConvAct .none 0)).forward x' = (poolNet (exConvAct .none 0)).forward x)
    ∧ ∃ m m', (poolNet (exConvAct .none 0)).gradientOpt ⟨[corner false false], [.scalar [2]]⟩ lf 1
        = some (.ok (), m)
      ∧ (poolNet (exConvAct .none 0)).gradientOpt ⟨[corner v h], [.scalar [2]]⟩ lf 1
        = some (.ok (), m')
      ∧ m'.forward (corner v h) ≠ m.forward (corner false false) := by
  have ha := exConvAct_is (w := .w32) .none 0
  have hmean : ∀ (F : Nat → Nat → Cf .w32 ℝ), mean4 (mirrored v h 2 2 F) = mean4 F := by
    intro F
    unfold mean4
    rw [← sum_rev v 2 fun i => ∑ j ∈ Finset.range 2, (⟨1 / 4, 0⟩ : Cf .w32 ℝ) * F i j]
    refine Finset.sum_congr rfl fun i _ => ?_
    rw [← sum_rev h 2 fun j => (⟨1 / 4, 0⟩ : Cf .w32 ℝ) * F (rev v 2 i) j]
    rfl
  refine ⟨poolNet_ready ha, ?_, ?_⟩
  · rintro x x' ⟨ms, ms', X, rfl, rfl, hX, hX'⟩
    obtain ⟨_, _, -, -, h1⟩ := poolNet_run ha hX
    obtain ⟨_, _, -, -, h2⟩ := poolNet_run ha hX'
    rw [h1, h2, ← hmean fun i j => X 0 i j * 1 + 0]
    rfl
  · have hc : ∀ (v h : Bool) (κ β : Cf .w32 ℝ), mean4 (fun i j => (mirrored v h 2 2 fun i j =>
        if i = 0 ∧ j = 0 then (4 : Cf .w32 ℝ) else 0) i j * κ + β) = κ + β := by
      intro v h κ β
      have h4 := quarter
      have hb : β = ∑ _a ∈ Finset.range 2, ∑ _b ∈ Finset.range 2, (⟨1 / 4, 0⟩ : Cf .w32 ℝ) * β :=
        (quarter_sum β).symm
      have hk : κ = (⟨1 / 4, 0⟩ : Cf .w32 ℝ) * (4 * κ) := by rw [← mul_assoc, h4, one_mul]
      unfold mean4
      simp only [mul_add, Finset.sum_add_distrib]
      rw [← hb]
      congr 1
      cases v <;> cases h <;>
        simp [-one_div, mirrored, rev, Finset.sum_range_succ, ← mul_assoc, h4]
    have hγ : ∀ v h : Bool, (-1 : Cf .w32 ℝ) = CplxOps.conj (mean4 (fun i j =>
        (mirrored v h 2 2 fun i j => if i = 0 ∧ j = 0 then (4 : Cf .w32 ℝ) else 0) i j * 1 + 0) - 2) := by
      intro v h
      rw [hc]
      apply Cf.toC_inj.mp
      show _ = (Cf.conj _).toC
      have h2 : (2 : Cf .w32 ℝ) = 1 + 1 := by norm_num
      rw [h2, Cf.toC_conj]
      simp only [Cf.toC_hom_sub, Cf.toC_hom_add, Cf.toC_hom_one, Cf.toC_hom_zero, Cf.toC_hom_neg]
      simp
    obtain ⟨a1, e1, e2⟩ := poolNet_step ha (corner_is false false) lf 2 (hγ _ _)
    obtain ⟨a2, f1, f2⟩ := poolNet_step ha (corner_is v h) lf 2 (hγ _ _)
    refine ⟨_, _, e1, f1, ?_⟩
    obtain ⟨_, _, -, -, h1⟩ := poolNet_run e2 (corner_is false false)
    obtain ⟨_, _, -, -, h2⟩ := poolNet_run f2 (corner_is v h)
    rw [hc] at h1 h2
    unfold corner
    rw [h1, h2]
    intro he
    simp only [Option.some.injEq, Except.ok.injEq, IOType.scalar.injEq, List.cons.injEq, and_true,
      add_left_inj, sub_right_inj] at he
    have hcx : ∀ z z' : Cf .w32 ℝ, CplxOps.conj z = CplxOps.conj z' → z.x = z'.x :=
      fun z z' h => by
        have := congrArg Cf.x h
        exact this
    have he : (∑ i ∈ Finset.range 2, ∑ j ∈ Finset.range 2, (mirrored v h 2 2 fun i j =>
        if i = 0 ∧ j = 0 then (4 : Cf .w32 ℝ) else 0) i j * (-1 * bil (1 - i) (1 - j))).x
        = (∑ i ∈ Finset.range 2, ∑ j ∈ Finset.range 2, (mirrored false false 2 2 fun i j =>
        if i = 0 ∧ j = 0 then (4 : Cf .w32 ℝ) else 0) i j * (-1 * bil (1 - i) (1 - j))).x :=
      hcx _ _ he
    have hx : ∀ z : Cf .w32 ℝ, (-(4 * z)).x = -(z.x + z.x + z.x + z.x) := by
      intro z
      have : -(4 * z) = -(z + z + z + z) := by ring
      rw [this]
      rfl
    cases v <;> cases h <;> simp [mirrored, rev, Finset.sum_range_succ, hx] at he hvh
    all_goals norm_num [bil] at he

/-! ## Examples of what holds -/

/-- Average pooling over 3 × 3 blocks, with the interpolation kernel of the example, treats mirrored
maps alike. -/
example (v h : Bool) (n : Nat) :
    MirrorPool v h (Reduce.init n (3, 3) avgBlock bilinear : Reduce (Cf .w32 ℝ)) := by
  have hsum : ∀ F : Nat → Nat → Cf .w32 ℝ, (table 3 3 F).sum
      = ∑ i ∈ Finset.range 3, ∑ j ∈ Finset.range 3, F i j := by
    intro F
    simp [table, List.range_succ, Finset.sum_range_succ]
    ring
  refine ⟨fun F => ?_, fun k hk a ha b hb => ?_, fun _ => by simp [Reduce.init, upOff],
    fun _ => by simp [Reduce.init, leftOff]⟩
  · show avgBlock (table 3 3 (mirrored v h 3 3 F)) = avgBlock (table 3 3 F)
    rw [avgBlock_eq _ (by simp [table, List.range_succ]), avgBlock_eq _ (by simp [table, List.range_succ]),
      table_length, table_length, hsum, hsum, ← sum_rev v 3 fun i => ∑ j ∈ Finset.range 3, F i j]
    congr 2
    refine Finset.sum_congr rfl fun i _ => ?_
    rw [← sum_rev h 3 fun j => F (rev v 3 i) j]
    rfl
  · have ht : table 3 3 k = table 3 3 bil := hk.2.symm.trans bil_is.2
    have hg : ∀ i, i < 3 → ∀ j, j < 3 → k i j = bil i j := fun i hi j hj =>
      Option.some.inj ((table_getElem? 3 3 k hi hj).symm.trans
        (ht ▸ table_getElem? 3 3 bil hi hj))
    show k _ _ = _
    rw [hg _ (rev_lt v ha) _ (rev_lt h hb), hg _ ha _ hb]
    unfold bil rev
    cases v <;> cases h <;> interval_cases a <;> interval_cases b <;> rfl

section
variable {w : Width}

/-- One filter with two weights in a row, read by a dense layer with one unit. -/
noncomputable def lineNet (K V : Nat → Cf w ℝ) : Net (Cf w ℝ) :=
  ⟨[.conv ⟨1, Mat.fromBody (table 1 1 fun _ _ => Mat.fromBody (table 1 2 fun _ j => K j) (1, 2)) (1, 1),
      (List.range 1).map fun _ => 1, .ritReLU⟩, .flatten ⟨((1, 2), 1)⟩,
    .dense ⟨Mat.fromBody (table 1 2 fun _ i => V i) (1, 2), [0], .none⟩]⟩

theorem lineNet_conv (K : Nat → Cf w ℝ) : Conv.Is ⟨1, Mat.fromBody (table 1 1 fun _ _ =>
      Mat.fromBody (table 1 2 fun _ j => K j) (1, 2)) (1, 1), (List.range 1).map fun _ => 1, .ritReLU⟩
    1 1 1 2 (fun _ _ _ j => K j) (fun _ => 1) .ritReLU :=
  ⟨rfl, rfl, rfl, _, Mat.fromBody_is 1 1 _, fun _ _ _ _ => Mat.fromBody_is 1 2 _⟩

theorem lineNet_ready (K V : Nat → Cf w ℝ) : (lineNet K V).Ready (.maps 1 1 3) (.vec 1) := by
  have hd : Dense.Is ⟨Mat.fromBody (table 1 2 fun _ i => V i) (1, 2), [0], .none⟩
      1 2 (fun _ i => V i) (fun _ => 0) .none := ⟨Mat.fromBody_is 1 2 _, rfl, rfl⟩
  refine ⟨by simp [lineNet], ?_, ?_, ?_, ?_⟩
  · simp only [lineNet, List.mem_cons, List.not_mem_nil, or_false, forall_eq_or_imp, forall_eq]
    exact ⟨(lineNet_conv K).wf, trivial, hd.wf_of⟩
  · exact .cons ((Conv.fits_dims (lineNet_conv K)).mpr ⟨1, 3, rfl, rfl, by simp⟩)
      (.cons (s₁ := .vec 2) ⟨rfl, rfl⟩ (.cons ((Dense.fits_dims hd).mpr ⟨rfl, rfl, by simp⟩) (.nil _)))
  · simp only [lineNet, List.mem_cons, List.not_mem_nil, or_false, forall_eq_or_imp, forall_eq]
    exact ⟨fun z => ⟨_, rfl⟩, trivial, fun z => ⟨_, rfl⟩⟩
  · simp only [lineNet, List.mem_cons, List.not_mem_nil, or_false, forall_eq_or_imp, forall_eq]
    exact ⟨⟨fun z => (C66_total _ (by simp) z).1, fun z => (C66_total _ (by simp) z).2⟩, trivial,
      fun z => (C66_total _ (by simp) z).1, fun z => (C66_total _ (by simp) z).2⟩

theorem lineNet_mirror (K V : Nat → Cf w ℝ) : MirrorLayers false true (lineNet K V).layers
    (lineNet (fun j => K (rev true 2 j)) fun j => V (rev true 2 j)).layers := by
  refine .conv (lineNet_conv K) (lineNet_conv _) (.dense (r := 1) (c := 2) (n := 1) (u := 1)
    (V := fun _ i => V i) (b := fun _ => 0) (f := .none) rfl ⟨Mat.fromBody_is 1 2 _, rfl, rfl⟩
    ⟨⟨rfl, ?_⟩, rfl, rfl⟩ [])
  refine table_congr fun j hj i hi => ?_
  congr 1
  interval_cases i <;> rfl

/-- The filter `(k₀, k₁)` on `(a, b, c)` and the filter `(k₁, k₀)` on `(c, b, a)`. -/
example (K V : Nat → Cf w ℝ) {x x' : IOType (Cf w ℝ)} (hx : MirrorImage false true 1 1 3 x x') :
    (lineNet (fun j => K (rev true 2 j)) fun j => V (rev true 2 j)).forward x'
      = (lineNet K V).forward x :=
  C111_forward_partial (lineNet_mirror K V) (lineNet_ready K V) hx

end

end Renplex
