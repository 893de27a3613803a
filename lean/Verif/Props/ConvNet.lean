import Verif.Props.ReduceLaw
/-!
# C64: back-propagation through networks with convolutional layers
-/

namespace Renplex
open Filter Topology ComplexConjugate
variable {w : Width}

theorem conv_right_holo {l : Conv (Cf w ℝ)} (hw : (Layer.conv l).WF) {prev y : IOType (Cf w ℝ)}
    {σ : Size} {a : Nat → Cf w ℝ} (hx : prev.HasFlat σ a)
    (hf : l.forward prev = some (.ok y)) (hs : (Layer.conv l).ActsRight prev)
    (hh : (Layer.conv l).ActsHolo prev) :
    ∃ nf R C a', y.HasFlat (.maps nf R C) a'
      ∧ LayerRight .any .any (.conv l) prev σ (.maps nf R C) a a' := by
  obtain ⟨nf, R, C, a', h1, h2⟩ := conv_core hw hx hf hs
  refine ⟨nf, R, C, a', h1, fun g gc _ => ?_⟩
  obtain ⟨γ, g', gc', k1, k2, k3, k4⟩ := h2 g gc (.inr hh)
  refine ⟨γ, g', gc', k1, trivial, k2, fun δ hδ c v hc _ => ?_⟩
  obtain ⟨c', v', e1, e2, e3⟩ := k4 δ hδ c v hc
  refine ⟨c', v', e1, fun h => (by cases h), e2, e3.trans ?_⟩
  congr 2
  refine Finset.sum_congr rfl fun k hk => ?_
  rw [k3 hh k (Finset.mem_range.mp hk), add_zero]

theorem conv_right_first {l : Conv (Cf w ℝ)} (hw : (Layer.conv l).WF) {prev y : IOType (Cf w ℝ)}
    {σ : Size} {a : Nat → Cf w ℝ} (hx : prev.HasFlat σ a)
    (hf : l.forward prev = some (.ok y)) (hs : (Layer.conv l).ActsRight prev) :
    ∃ nf R C a', y.HasFlat (.maps nf R C) a'
      ∧ LayerRight .start .full (.conv l) prev σ (.maps nf R C) a a' := by
  obtain ⟨nf, R, C, a', h1, h2⟩ := conv_core hw hx hf hs
  refine ⟨nf, R, C, a', h1, fun g gc hg => ?_⟩
  obtain ⟨γ, g', gc', k1, k2, k3, k4⟩ := h2 g gc (.inl hg)
  refine ⟨γ, g', gc', k1, trivial, k2, fun δ hδ c v hc hv => ?_⟩
  obtain ⟨c', v', e1, e2, e3⟩ := k4 δ hδ c v hc
  refine ⟨c', v', e1, fun h => (by cases h), e2, e3.trans ?_⟩
  congr 2
  refine Finset.sum_congr rfl fun k hk => ?_
  rw [hv rfl k (Finset.mem_range.mp hk), mul_zero, mul_zero]

/-- A convolutional layer. -/
def Layer.IsConv {α : Type} : Layer α → Prop
  | .conv _ => True
  | _ => False

/-- All convolutional layers holomorphic at the values that occur. -/
theorem conv_chain_holo {ls : List (Layer (Cf w ℝ))} (hw : ∀ l ∈ ls, l.WF)
    {x : IOType (Cf w ℝ)} {ys : List (IOType (Cf w ℝ))}
    (hk : ∀ p ∈ (x :: ys).zip ls, p.2.PoolRight p.1)
    (hc : Chain ls x ys) {σ : Size} (hx : x.HasSize σ)
    (hs : ∀ p ∈ (x :: ys).zip ls, p.2.ActsRight p.1 ∧ (p.2.IsConv → p.2.ActsHolo p.1)) :
    ∃ σ' a y, (x :: ys).getLast? = some y ∧ y.HasFlat σ' a ∧ ChainRight .full ls x ys σ' a
      ∧ ((∃ n r c, σ' = .maps n r c) → ChainRight .any ls x ys σ' a) := by
  induction ls using List.reverseRecOn generalizing ys with
  | nil =>
    cases hc
    obtain ⟨a, ha⟩ := hx.exists_flat
    exact ⟨σ, a, x, rfl, ha, (ChainRight.nil ha).to_any.to_full, fun _ => (ChainRight.nil ha).to_any⟩
  | append_singleton ls l ih =>
    obtain ⟨ys, y, prev, rfl, h1, h2, h3⟩ := hc.snoc_inv
    have hlen := h1.length
    rw [zip_snoc ls l x prev y ys hlen h2] at hs hk
    obtain ⟨σ', a, p, e1, e2, e3, e4⟩ := ih (fun l hl => hw l (by simp [hl]))
      (fun p hp => hk p (by simp [hp])) h1 (fun p hp => hs p (by simp [hp]))
    rw [h2] at e1
    cases e1
    obtain ⟨hsl, hhl⟩ := hs (prev, l) (by simp)
    have hwl := hw l (by simp)
    have hkl := hk (prev, l) (by simp)
    have hlast : (x :: (ys ++ [y])).getLast? = some y := by
      rw [← List.cons_append]; exact List.getLast?_eq_some_iff.mpr ⟨_, rfl⟩
    cases l with
    | reduce l =>
      obtain ⟨n', r', c', a', k1, hmaps, k2⟩ := reduce_right hkl e2 h3
      have := (e4 hmaps).snoc (y := y) h2 (k2 .any (by simp))
      exact ⟨.maps n' r' c', a', y, hlast, k1, this.to_full, fun _ => this⟩
    | conv l =>
      obtain ⟨nf, R, C, a', k1, k2⟩ := conv_right_holo hwl e2 h3 hsl (hhl trivial)
      have hmaps : ∃ n r c, σ' = .maps n r c := by
        cases σ' with
        | maps n r c => exact ⟨n, r, c, rfl⟩
        | vec n => cases prev with
          | matrix ms => exact absurd e2 id
          | scalar v => simp [Layer.forward, Conv.forward] at h3
      have := (e4 hmaps).snoc (y := y) h2 k2
      exact ⟨.maps nf R C, a', y, hlast, k1, this.to_full, fun _ => this⟩
    | flatten l =>
      cases prev with
      | scalar v => simp [Layer.forward, Flatten.forward] at h3
      | matrix ms => cases σ' with
        | vec n => exact absurd e2 id
        | maps n r c =>
          simp only [Layer.forward] at h3
          rw [flatten_flat e2] at h3
          simp only [Option.some.injEq, Except.ok.injEq] at h3
          subst h3
          exact ⟨.vec (n * (r * c)), a, _, hlast, rfl, e3.snoc h2 (flatten_right .full),
            fun ⟨_, _, _, h⟩ => by cases h⟩
    | dense l =>
      obtain ⟨u, a', k1, k2⟩ := dense_right hwl e2 h3 hsl .full (.inl rfl)
      exact ⟨.vec u, a', y, hlast, k1, e3.snoc h2 k2, fun ⟨_, _, _, h⟩ => by cases h⟩

/-- Only the first layer is convolutional. -/
theorem conv_chain_first {ls : List (Layer (Cf w ℝ))} (hw : ∀ l ∈ ls, l.WF)
    (ht : ∀ l ∈ ls.tail, ¬ l.IsConv)
    {x : IOType (Cf w ℝ)} {ys : List (IOType (Cf w ℝ))}
    (hk : ∀ p ∈ (x :: ys).zip ls, p.2.PoolRight p.1)
    (hc : Chain ls x ys) {σ : Size} (hx : x.HasSize σ)
    (hs : ∀ p ∈ (x :: ys).zip ls, p.2.ActsRight p.1) :
    ∃ σ' a y, (x :: ys).getLast? = some y ∧ y.HasFlat σ' a ∧ ChainRight .full ls x ys σ' a := by
  induction ls using List.reverseRecOn generalizing ys with
  | nil =>
    cases hc
    obtain ⟨a, ha⟩ := hx.exists_flat
    exact ⟨σ, a, x, rfl, ha, (ChainRight.nil ha).to_any.to_full⟩
  | append_singleton ls l ih =>
    obtain ⟨ys, y, prev, rfl, h1, h2, h3⟩ := hc.snoc_inv
    have hlen := h1.length
    rw [zip_snoc ls l x prev y ys hlen h2] at hs hk
    obtain ⟨σ', a, p, e1, e2, e3⟩ := ih (fun l hl => hw l (by simp [hl]))
      (fun l hl => ht l (by
        cases ls with
        | nil => cases hl
        | cons l' ls => simp only [List.tail_cons] at hl; simp [hl]))
      (fun p hp => hk p (by simp [hp])) h1
      (fun p hp => hs p (by simp [hp]))
    rw [h2] at e1
    cases e1
    have hsl := hs (prev, l) (by simp)
    have hwl := hw l (by simp)
    have hkl := hk (prev, l) (by simp)
    have hlast : (x :: (ys ++ [y])).getLast? = some y := by
      rw [← List.cons_append]; exact List.getLast?_eq_some_iff.mpr ⟨_, rfl⟩
    cases l with
    | reduce l =>
      obtain ⟨n', r', c', a', k1, -, k2⟩ := reduce_right hkl e2 h3
      exact ⟨.maps n' r' c', a', y, hlast, k1, e3.snoc (y := y) h2 (k2 .full (by simp))⟩
    | conv l =>
      cases ls with
      | cons l' ls => exact absurd trivial (ht (.conv l) (by simp))
      | nil =>
        cases h1
        simp only [List.getLast?_singleton, Option.some.injEq] at h2
        subst h2
        obtain ⟨nf, R, C, a', k1, k2⟩ := conv_right_first hwl e2 h3 hsl
        exact ⟨.maps nf R C, a', y, hlast, k1, (ChainRight.nil e2).snoc (y := y) rfl k2⟩
    | flatten l =>
      cases prev with
      | scalar v => simp [Layer.forward, Flatten.forward] at h3
      | matrix ms => cases σ' with
        | vec n => exact absurd e2 id
        | maps n r c =>
          simp only [Layer.forward] at h3
          rw [flatten_flat e2] at h3
          simp only [Option.some.injEq, Except.ok.injEq] at h3
          subst h3
          exact ⟨.vec (n * (r * c)), a, _, hlast, rfl, e3.snoc h2 (flatten_right .full)⟩
    | dense l =>
      obtain ⟨u, a', k1, k2⟩ := dense_right hwl e2 h3 hsl .full (.inl rfl)
      exact ⟨.vec u, a', y, hlast, k1, e3.snoc h2 k2⟩

/-- C64, the part that holds. For every network of convolutional, pooling, flatten and dense layers,
every input it forwards to a vector and every target of that length: if the activation derivatives
are right at all values that occur, the pooling layers are weighted sums with the kernel that
belongs to them, and either the only convolutional layer is the first layer, or all convolutional
layers have activations that are holomorphic at the values that occur, then back-propagation returns
and its result is the gradient of the squared error with respect to all kernels, weights and biases.
(Missing: with two convolutional layers and an activation that is not holomorphic the result is
wrong, see `C64_refuted`; with other interpolation kernels it is wrong, see `C64_refuted_pool`.) -/
theorem C64_partial (n : Net (Cf w ℝ)) (hn : n.layers ≠ []) (f : LossFunc)
    (hw : ∀ l ∈ n.layers, l.WF) (x : IOType (Cf w ℝ)) (σ : Size) (hx : x.HasSize σ) (acts : List (IOType (Cf w ℝ)))
    (ha : n.collectActs x = some (.ok acts)) (p t : List (Cf w ℝ))
    (hp : n.forward x = some (.ok (.scalar p))) (ht : t.length = p.length)
    (hs : ∀ q ∈ acts.zip n.layers, q.2.ActsRight q.1)
    (hk : ∀ q ∈ acts.zip n.layers, q.2.PoolRight q.1)
    (hc : (∀ l ∈ n.layers.tail, ¬ l.IsConv)
      ∨ ∀ q ∈ acts.zip n.layers, q.2.IsConv → q.2.ActsHolo q.1) :
    ∃ gs, sampleGrads n f (x, .scalar t) = some gs ∧ IsNetGradient n x t gs := by
  obtain ⟨ys, hch, he⟩ := (C44_collect n hn x _).mp ha
  cases he
  obtain ⟨σ', a, y, h1, h2, h3⟩ : ∃ σ' a y, (x :: ys).getLast? = some y ∧ y.HasFlat σ' a
      ∧ ChainRight .full n.layers x ys σ' a := by
    rcases hc with hc | hc
    · exact conv_chain_first hw hc hk hch hx hs
    · obtain ⟨σ', a, y, h1, h2, h3, -⟩ := conv_chain_holo hw hk hch hx
        (fun q hq => ⟨hs q hq, hc q hq⟩)
      exact ⟨σ', a, y, h1, h2, h3⟩
  have hy : y = .scalar p := by
    obtain ⟨ys', y', hc', h4, h5⟩ := (C44_forward n hn x _).mp hp
    cases h5
    rw [hch.unique hc'] at h1
    cases ys' with
    | nil => cases h4
    | cons b ys' =>
      rw [List.getLast?_cons_cons, h4] at h1
      exact (Option.some.inj h1).symm
  subst hy
  cases σ' with
  | maps n r c => exact absurd h2 id
  | vec u =>
    have hpu : p = (List.range u).map a := h2
    subst hpu
    exact net_gradient hn f hch h1 h3 t (by simpa using ht)

/-! ## Where it fails -/

/-- Two 1×1 convolutions, the first with bias `b` and activation `f`, the second the identity, and
a flatten layer. -/
noncomputable def exConvNet (f : ActFunc) (b : Cf w ℝ) : Net (Cf w ℝ) :=
  ⟨[.conv (exConvAct f b), .conv (exConvAct .none 0), .flatten ⟨((1, 1), 1)⟩]⟩

theorem exConvNet_wf (f : ActFunc) (b : Cf w ℝ) : ∀ l ∈ (exConvNet f b).layers, l.WF := by
  intro l hl
  simp only [exConvNet, List.mem_cons, List.not_mem_nil, or_false] at hl
  rcases hl with rfl | rfl | rfl
  · exact exConvAct_wf f b
  · exact exConvAct_wf .none 0
  · exact trivial

theorem exFlatten {x : Cf w ℝ} {ms : List (Mat (Cf w ℝ))} (hx : MapsAre ms 1 1 1 fun _ _ _ => x) :
    (⟨((1, 1), 1)⟩ : Flatten).forward (.matrix ms) = some (.ok (.scalar [x])) := by
  have h : (IOType.matrix ms).HasFlat (.maps 1 1 1) fun _ => x := hx
  rw [flatten_flat h]; rfl

theorem exConvNet_run {f : ActFunc} {x b y : Cf w ℝ} (h : Act.activate f (x + b) = some y) :
    ∃ ms ms', MapsAre ms 1 1 1 (fun _ _ _ => y) ∧ MapsAre ms' 1 1 1 (fun _ _ _ => y)
      ∧ (exConvNet f b).collectActs (exMap x)
        = some (.ok [exMap x, .matrix ms, .matrix ms', .scalar [y]])
      ∧ (exConvNet f b).forward (exMap x) = some (.ok (.scalar [y])) := by
  obtain ⟨ms, h1, h2⟩ := exConvAct_forward h (exMap_is x)
  obtain ⟨ms', h3, h4⟩ := exConvAct_forward (f := .none) (b := 0) (y := y)
    (by rw [add_zero]; rfl) h2
  have h5 := exFlatten h4
  refine ⟨ms, ms', h2, h4, ?_, ?_⟩
  · simp [exConvNet, Net.collectActs, Net.collectLoop, Net.fwd, Layer.forward, exMap, unwrap, h1, h3,
      h5]
  · simp [exConvNet, Net.forward, Net.fwd, Layer.forward, exMap, unwrap, h1, h3, h5]

theorem none_deriv (z : Cf w ℝ) : Act.dActivate .none z = some 1 := by
  refine congrArg some (Cf.toC_inj.mp ?_)
  apply Complex.ext <;> simp [Cf.toC_hom_one]

theorem none_conj (z : Cf w ℝ) : Act.dConjActivate .none z = some 0 := by
  refine congrArg some (Cf.toC_inj.mp ?_)
  apply Complex.ext <;> simp [Cf.toC_hom_zero]

theorem exConvNet_sample {f : ActFunc} (lf : LossFunc) {x y t d dc : Cf w ℝ}
    (h : Act.activate f x = some y) (h1 : Act.dActivate f x = some d)
    (h2 : Act.dConjActivate f x = some dc) :
    sampleGrads (exConvNet f 0) lf (exMap x, .scalar [t])
      = some [([x * (d * CplxOps.conj (y - t))], [d * CplxOps.conj (y - t)]),
          ([y * CplxOps.conj (y - t)], [CplxOps.conj (y - t)]), ([], [])] := by
  have hd : CplxOps.dLoss lf (.scalar [t]) (.scalar [y])
      = .ok [CplxOps.conj (y - t)] := by cases lf <;> rfl
  obtain ⟨ms, ms', k1, k2, hc, -⟩ := exConvNet_run (f := f) (x := x) (b := 0)
    (by rw [add_zero]; exact h)
  have c1 := fun g gc => exConvAct_derivs (f := f) (b := 0) (g := g) (gc := gc)
    (by rw [add_zero]; exact h1) (by rw [add_zero]; exact h2) (exMap_is x)
  have c2 := fun g gc => exConvAct_derivs (f := .none) (x := y) (b := 0) (d := 1) (dc := 0)
    (g := g) (gc := gc) (none_deriv _) (none_conj _) k1
  have hp : (Layer.conv (exConvAct f 0 : Conv (Cf w ℝ))).propagates = true := rfl
  have hp' : (Layer.conv (exConvAct .none 0 : Conv (Cf w ℝ))).propagates = true := rfl
  have hp'' : (Layer.flatten ⟨((1, 1), 1)⟩ : Layer (Cf w ℝ)).propagates = false := rfl
  unfold sampleGrads
  rw [hc]
  simp [unwrap, hd, backGrads, hp, hp', hp'', exConvNet, Layer.computeDerivatives, c1, c2, exMap,
    conj_zero']

theorem exConvNet_move (f : ActFunc) (e : Cf w ℝ) (s : ℝ) :
    (exConvNet f 0).move [([0], [e]), ([0], [0]), ([], [])] s
      = exConvNet f (Cf.ofC (s * e.toC)) := by
  have h1 : (Cf.ofC ((1 : Cf w ℝ).toC + (s : ℂ) * (0 : Cf w ℝ).toC) : Cf w ℝ) = 1 := by
    apply Cf.toC_inj.mp; simp [Cf.toC_hom_zero]
  have h2 : (Cf.ofC ((0 : Cf w ℝ).toC + (s : ℂ) * (0 : Cf w ℝ).toC) : Cf w ℝ) = 0 := by
    apply Cf.toC_inj.mp; simp [Cf.toC_hom_zero]
  have h3 : (Cf.ofC ((0 : Cf w ℝ).toC + (s : ℂ) * e.toC) : Cf w ℝ) = Cf.ofC (s * e.toC) := by
    apply Cf.toC_inj.mp; simp [Cf.toC_hom_zero]
  simp only [Net.move, Net.zipParams, exConvNet, exConvAct, Layer.zipParams, Mat.fromBody,
    List.zipWith_cons_cons, List.zipWith_nil_left, zipKernels, h1, h2, h3, List.length_cons,
    List.length_nil, List.take_succ_cons, List.take_zero]

/-- C64 is false of the code: with two convolutional layers, wherever the activation of the first one
is not holomorphic, the result of back-propagation is not the gradient, although the derivatives of
all activations are right. This holds for every activation, every such value and every target other
than the prediction. -/
theorem C64_refuted {f : ActFunc} {x y dc t : Cf w ℝ} (hr : DerivsRight f x)
    (ha : Act.activate f x = some y) (hc : Act.dConjActivate f x = some dc) (h0 : dc ≠ 0)
    (ht : t ≠ y) (lf : LossFunc) :
    (∃ acts, (exConvNet f 0).collectActs (exMap x) = some (.ok acts)
      ∧ (∀ q ∈ acts.zip (exConvNet f 0).layers, q.2.ActsRight q.1))
    ∧ ∃ gs, sampleGrads (exConvNet f 0) lf (exMap x, .scalar [t]) = some gs
      ∧ ¬ IsNetGradient (exConvNet f 0) (exMap x) [t] gs := by
  constructor
  · obtain ⟨ms, ms', k1, k2, hcol, -⟩ := exConvNet_run (f := f) (x := x) (b := 0)
      (by rw [add_zero]; exact ha)
    refine ⟨_, hcol, fun q hq => ?_⟩
    simp only [exConvNet, List.zip_cons_cons, List.zip_nil_right, List.mem_cons, List.not_mem_nil,
      or_false] at hq
    rcases hq with rfl | rfl | rfl
    · exact exConvAct_acts hr (exMap_is x)
    · exact exConvAct_acts (none_right y) k1
    · intro v hv z hz
      have : v = [] := (Option.some.inj hv).symm
      rw [this] at hz
      cases hz
  obtain ⟨d, dc', h1, h2, hr⟩ := hr
  rw [hc] at h2
  obtain rfl : dc = dc' := Option.some.inj h2
  refine ⟨_, exConvNet_sample lf ha h1 hc, fun ⟨_, hg⟩ => ?_⟩
  set γ := CplxOps.conj (y - t) with hγ
  have key : ∀ v : Cf w ℝ, (d.toC * γ.toC * v.toC).re
      = ((d.toC * γ.toC + conj dc.toC * conj γ.toC) * v.toC).re := by
    intro v
    obtain ⟨L, hL1, hL2⟩ := hg [([0], [v]), ([0], [0]), ([], [])]
      (.cons ⟨rfl, rfl⟩ (.cons ⟨rfl, rfl⟩ (.cons rfl .nil)))
    have hq : HasDerivAt (fun s : ℝ => x.toC + s * v.toC) v.toC 0 := by
      have h := ((Complex.ofRealCLM.hasDerivAt (x := (0 : ℝ))).mul_const v.toC).const_add x.toC
      refine h.congr_deriv ?_
      simp
    obtain ⟨F, hF1, hF2, hF3⟩ := act_curve hq (z := x) (by simp) hr
    rw [ha] at hF2
    have hF0 : F 0 = y.toC := by rw [Option.some.inj hF2, Cf.toC_ofC]
    have hLe : L =ᶠ[𝓝 0] fun s => ‖t.toC - F s‖ ^ 2 := by
      filter_upwards [hL1, hF3] with s hs1 hs2
      obtain ⟨p, hp1, hp2⟩ := hs1
      rw [exConvNet_move] at hp1
      have hz : x + Cf.ofC (s * v.toC) = Cf.ofC (x.toC + s * v.toC) := by
        apply Cf.toC_inj.mp; rw [Cf.toC_hom_add, Cf.toC_ofC, Cf.toC_ofC]
      obtain ⟨_, _, -, -, -, hfw⟩ := exConvNet_run (f := f) (x := x) (b := Cf.ofC (s * v.toC))
        (by rw [hz]; exact hs2)
      rw [hfw] at hp1
      cases hp1
      rw [hp2]
      simp [sqSum]
    have h4 := (hasDerivAt_sq_curve (t := t.toC) hF1).congr_of_eventuallyEq hLe
    have h5 := hL2.unique h4
    have h6 : conj (F 0 - t.toC) = γ.toC := by
      rw [hF0, hγ]
      show _ = (Cf.conj (y - t)).toC
      rw [Cf.toC_conj, Cf.toC_hom_sub]
    rw [h6] at h5
    have hp : (pairAll [([x * (d * γ)], [d * γ]), ([y * γ], [γ]), ([], [])]
        [([0], [v]), ([0], [0]), ([], [])]) = d.toC * γ.toC * v.toC := by
      simp only [pairAll, pairing, List.zipWith_cons_cons, List.zipWith_nil_left, List.sum_cons,
        List.sum_nil, Cf.toC_hom_zero, mul_zero, add_zero, zero_add]
      rfl
    rw [hp] at h5
    have h7 : (γ.toC * (d.toC * v.toC + dc.toC * conj v.toC)).re
        = ((d.toC * γ.toC + conj dc.toC * conj γ.toC) * v.toC).re := by
      simp only [Complex.add_re, Complex.mul_re, Complex.mul_im, Complex.conj_re, Complex.conj_im,
        Complex.add_im]
      ring
    linarith
  have a1 := key ⟨1, 0⟩
  have a2 := key ⟨0, 1⟩
  have hne : conj dc.toC * conj γ.toC = 0 := by
    apply Complex.ext
    · simp at a1 ⊢; linarith
    · simp at a2 ⊢; linarith
  rcases mul_eq_zero.mp hne with h | h
  · exact h0 (Cf.toC_inj.mp (by rw [Cf.toC_hom_zero]; simpa using h))
  · have : γ = 0 := Cf.toC_inj.mp (by rw [Cf.toC_hom_zero]; simpa using h)
    exact conj_ne_zero (sub_ne_zero.mpr ht.symm) this

/-- Such a case: `tanh` at 1 with the target 5. -/
example (lf : LossFunc) : ∃ gs, sampleGrads (exConvNet .ritTanh (0 : Cf .w32 ℝ)) lf
      (exMap ⟨1, 0⟩, .scalar [⟨5, 0⟩]) = some gs
    ∧ ¬ IsNetGradient (exConvNet .ritTanh (0 : Cf .w32 ℝ)) (exMap ⟨1, 0⟩) [⟨5, 0⟩] gs := by
  obtain ⟨dc, h1, h2⟩ := tanh_conj_ne (⟨1, 0⟩ : Cf .w32 ℝ) rfl
  refine (C64_refuted (tanh_right _) rfl h1 h2 (fun h => ?_) lf).2
  have h3 := congrArg Cf.x h
  have h4 := Real.tanh_lt_one 1
  simp [Act.ritTanh] at h3
  linarith

/-- The hypotheses of C64 can be met by the same network with a holomorphic activation, … -/
example (lf : LossFunc) (x t : Cf w ℝ) : ∃ gs, sampleGrads (exConvNet .none 0) lf
      (exMap x, .scalar [t]) = some gs ∧ IsNetGradient (exConvNet .none 0) (exMap x) [t] gs := by
  obtain ⟨ms, ms', k1, k2, k3, k4⟩ := exConvNet_run (f := .none) (x := x) (b := 0) (y := x)
    (by rw [add_zero]; rfl)
  refine C64_partial _ (by simp [exConvNet]) lf (exConvNet_wf _ _) _ (.maps 1 1 1)
    (exMap_size x) _ k3 _ _ k4 rfl (fun q hq v hv z hz => ?_) ?_ (.inr fun q hq hcv v hv z hz => ?_)
  · simp only [exConvNet, List.zip_cons_cons, List.zip_nil_right, List.mem_cons, List.not_mem_nil,
      or_false] at hq
    rcases hq with rfl | rfl | rfl <;> exact none_right z
  · intro q hq
    simp only [exConvNet, List.zip_cons_cons, List.zip_nil_right, List.mem_cons, List.not_mem_nil,
      or_false] at hq
    rcases hq with rfl | rfl | rfl <;> trivial
  · simp only [exConvNet, List.zip_cons_cons, List.zip_nil_right, List.mem_cons, List.not_mem_nil,
      or_false] at hq
    rcases hq with rfl | rfl | rfl <;> exact none_conj z

/-- … and by one convolutional layer with `tanh` followed by a flatten and a dense layer. -/
example (lf : LossFunc) (x t : Cf w ℝ) : ∃ gs,
    sampleGrads ⟨[.conv (exConvAct .ritTanh 0), .flatten ⟨((1, 1), 1)⟩, exAct .ritTanh 0]⟩ lf
      (exMap x, .scalar [t]) = some gs
    ∧ IsNetGradient ⟨[.conv (exConvAct .ritTanh 0), .flatten ⟨((1, 1), 1)⟩, exAct .ritTanh 0]⟩
      (exMap x) [t] gs := by
  obtain ⟨ms, h1, h2⟩ := exConvAct_forward (f := .ritTanh) (b := 0) rfl (exMap_is x)
  have h3 := exFlatten h2
  have h4 := exAct_forward (f := .ritTanh) (b := 0) (x := Act.ritTanh (x + 0)) rfl
  have f1 : (Layer.conv (exConvAct .ritTanh 0)).forward (.matrix [Mat.fromBody [x] (1, 1)]) = _ := h1
  have f2 : (Layer.flatten ⟨((1, 1), 1)⟩).forward (.matrix ms) = _ := h3
  have hw : (exAct .ritTanh 0 : Layer (Cf w ℝ)).WF := ⟨rfl, rfl⟩
  refine C64_partial _ (by simp) lf ?_ _ (.maps 1 1 1) (exMap_size x)
    [exMap x, .matrix ms, .scalar [Act.ritTanh (x + 0)],
      .scalar [Act.ritTanh (Act.ritTanh (x + 0) + 0)]] ?_
    [Act.ritTanh (Act.ritTanh (x + 0) + 0)] [t] ?_ rfl (fun q hq v hv z hz => ?_) ?_ (.inl ?_)
  · intro l hl
    simp only [List.mem_cons, List.not_mem_nil, or_false] at hl
    rcases hl with rfl | rfl | rfl
    · exact exConvAct_wf _ _
    · exact trivial
    · exact hw
  · simp [-add_zero, Net.collectActs, Net.collectLoop, Net.fwd, exMap, f1, f2, h4, unwrap]
  · simp [-add_zero, Net.forward, Net.fwd, exMap, f1, f2, h4, unwrap]
  · simp only [List.zip_cons_cons, List.zip_nil_right, List.mem_cons, List.not_mem_nil,
      or_false] at hq
    rcases hq with rfl | rfl | rfl
    · exact tanh_right z
    · have : v = [] := (Option.some.inj hv).symm
      rw [this] at hz
      cases hz
    · exact tanh_right z
  · intro q hq
    simp only [List.zip_cons_cons, List.zip_nil_right, List.mem_cons, List.not_mem_nil,
      or_false] at hq
    rcases hq with rfl | rfl | rfl <;> trivial
  · simp [Layer.IsConv, exAct]

/-! ### The pooling layer of the classification example -/

open Examples

/-- A 1×1 convolution with bias `b`, the pooling layer of the classification example and a flatten
layer. -/
noncomputable def exPoolNet (b : Cf .w32 ℝ) : Net (Cf .w32 ℝ) :=
  ⟨[.conv (exConvAct .none b), .reduce (avgPool 1), .flatten ⟨((1, 1), 1)⟩]⟩

/-- The 2 × 2 map with all entries `x`. -/
def exSquare (x : Cf w ℝ) : IOType (Cf w ℝ) := .matrix [Mat.fromBody (table 2 2 fun _ _ => x) (2, 2)]

theorem exSquare_is (x : Cf w ℝ) :
    MapsAre [Mat.fromBody (table 2 2 fun _ _ => x) (2, 2)] 1 2 2 fun _ _ _ => x := by
  refine ⟨rfl, fun ch m h => ?_⟩
  match ch with
  | 0 => obtain rfl : _ = m := by simpa using h
         exact ⟨rfl, rfl⟩
  | k + 1 => simp at h

theorem quarter_sum (y : Cf .w32 ℝ) : ∑ _a ∈ Finset.range 2, ∑ _b ∈ Finset.range 2,
    (⟨1 / 4, 0⟩ : Cf .w32 ℝ) * y = y := by
  simp only [Finset.sum_const, Finset.card_range, nsmul_eq_mul]
  apply Cf.toC_inj.mp
  have h6 : (⟨1 / 4, 0⟩ : Cf .w32 ℝ).toC = 1 / 4 := by
    apply Complex.ext <;> simp [Cf.toC]
  have h2 : ((2 : ℕ) : Cf .w32 ℝ) = 1 + 1 := by norm_num
  rw [h2]
  simp only [Cf.toC_hom_mul, Cf.toC_hom_add, Cf.toC_hom_one, h6]
  ring

theorem exPoolNet_run (x b : Cf .w32 ℝ) :
    ∃ ms ms', MapsAre ms 1 2 2 (fun _ _ _ => x + b) ∧ MapsAre ms' 1 1 1 (fun _ _ _ => x + b)
      ∧ (exPoolNet b).collectActs (exSquare x)
        = some (.ok [exSquare x, .matrix ms, .matrix ms', .scalar [x + b]])
      ∧ (exPoolNet b).forward (exSquare x) = some (.ok (.scalar [x + b])) := by
  obtain ⟨ms, h1, h2⟩ := C40_forward (exConvAct_is .none b) (by norm_num) (by norm_num) (by norm_num)
    (by norm_num) (by norm_num) (by norm_num) (exSquare_is x) (fun _ _ _ => x + b)
    (fun o _ i _ j _ => by
      have := exConv_pre x b o i j
      unfold convPre at this
      rw [this]; rfl)
  obtain ⟨ms', h3, h4⟩ := C41_reduce (l := (avgPool 1 : Reduce (Cf .w32 ℝ))) (n := 1) (nr := 1)
    (nc := 1) (p := 2) (q := 2) rfl (by omega) (by omega) (by omega) (by omega) h2
    (Y := fun _ _ _ => x + b) (fun ch _ i _ j _ => by
      have := (avgPool_weighted 1).2.2 fun _ _ => x + b
      rw [show (avgPool 1 : Reduce (Cf .w32 ℝ)).blockSize = (2, 2) from rfl, quarter_sum] at this
      exact this)
  have h5 := exFlatten h4
  refine ⟨ms, ms', h2, h4, ?_, ?_⟩
  · simp [exPoolNet, Net.collectActs, Net.collectLoop, Net.fwd, Layer.forward, exSquare, unwrap, h1,
      h3, h5]
  · simp [exPoolNet, Net.forward, Net.fwd, Layer.forward, exSquare, unwrap, h1, h3, h5]

/-- What back-propagation returns for the bias of the convolutional layer. -/
theorem exPoolNet_sample (lf : LossFunc) (x t : Cf .w32 ℝ) : ∃ dk β,
    sampleGrads (exPoolNet 0) lf (exSquare x, .scalar [t])
      = some [([dk], [β]), ([], []), ([], [])]
    ∧ β.toC = 9 / 4 * (CplxOps.conj (x - t) : Cf .w32 ℝ).toC := by
  set γ : Cf .w32 ℝ := CplxOps.conj (x - t) with hγ
  have hd : CplxOps.dLoss lf (.scalar [t]) (.scalar [x])
      = .ok [γ] := by cases lf <;> rfl
  obtain ⟨ms, ms', k1, k2, hc, -⟩ := exPoolNet_run x 0
  rw [add_zero] at k1 k2 hc
  set k : Nat → Nat → Cf .w32 ℝ := fun i j => ((bilinear : Mat (Cf .w32 ℝ)).body.getD (i * 3 + j) 0)
    with hk
  have hkI : (avgPool 1 : Reduce (Cf .w32 ℝ)).interpKernel.Is 3 3 k := by
    refine ⟨rfl, ?_⟩
    simp [avgPool, Reduce.init, bilinear, Mat.fromBody, table, List.range_succ, hk]
  have c1 := fun G GC => Conv.computeDerivatives_is (exConvAct_is .none (0 : Cf .w32 ℝ)) (by norm_num)
    (by norm_num) (by norm_num) (by norm_num) (by norm_num) (by norm_num) (exSquare_is x) G GC
    (fun _ _ _ => 1) (fun _ _ _ => 0) (fun o _ i _ j _ => none_deriv _)
    (fun o _ i _ j _ => none_conj _)
  have c2 := fun G GC => Reduce.computeDerivatives_is (l := (avgPool 1 : Reduce (Cf .w32 ℝ)))
    (p := 2) (q := 2) rfl hkI (by omega) (by omega) (by omega) (n := 1) (r := 1) (c := 1) (by omega)
    (by omega) (by omega) G GC ms k1.1 (fun m hm => by
      obtain ⟨ch, hch, rfl⟩ := List.getElem_of_mem hm
      exact (k1.2 ch _ (List.getElem?_eq_getElem hch)).1)
  have hp : (Layer.conv (exConvAct .none 0 : Conv (Cf .w32 ℝ))).propagates = true := rfl
  have hp' : (Layer.reduce (avgPool 1 : Reduce (Cf .w32 ℝ))).propagates = true := rfl
  have hp'' : (Layer.flatten ⟨((1, 1), 1)⟩ : Layer (Cf .w32 ℝ)).propagates = false := rfl
  have c2' : (avgPool 1 : Reduce (Cf .w32 ℝ)).computeDerivatives (.matrix ms) [γ]
      [CplxOps.conj γ] = _ := c2 (fun _ _ _ => γ) (fun _ _ _ => CplxOps.conj γ)
  obtain ⟨dk, dx, dxc, c1'⟩ : ∃ dk dx dxc, (exConvAct .none 0 : Conv (Cf .w32 ℝ)).computeDerivatives
      (exSquare x) (cube 1 (1 * 2) (1 * 2) fun _ => upMap 1 1 2 2 k fun _ _ => γ)
      (cube 1 (1 * 2) (1 * 2) fun _ => upMap 1 1 2 2 k fun _ _ => CplxOps.conj γ)
      = some (.ok ([dk], [∑ i ∈ Finset.range 2, ∑ j ∈ Finset.range 2,
        (1 * upMap 1 1 2 2 k (fun _ _ => γ) i j
          + CplxOps.conj 0 * upMap 1 1 2 2 k (fun _ _ => CplxOps.conj γ) i j)], dx, dxc)) :=
    ⟨_, _, _, c1 (fun _ => upMap 1 1 2 2 k fun _ _ => γ)
      (fun _ => upMap 1 1 2 2 k fun _ _ => CplxOps.conj γ)⟩
  refine ⟨dk, ∑ i ∈ Finset.range 2, ∑ j ∈ Finset.range 2,
        (1 * upMap 1 1 2 2 k (fun _ _ => γ) i j
          + CplxOps.conj 0 * upMap 1 1 2 2 k (fun _ _ => CplxOps.conj γ) i j), ?_, ?_⟩
  · unfold sampleGrads
    rw [hc]
    simp [unwrap, hd, backGrads, hp, hp', hp'', exPoolNet, Layer.computeDerivatives, c1', c2']
  · have h1 : k 1 1 = 1 := by
      apply Cf.toC_inj.mp
      rw [Cf.toC_hom_one]
      apply Complex.ext <;> simp [hk, bilinear, Mat.fromBody, Cf.new, Cf.toC, Scalar.lit]
    have h2 : (k 0 1).toC = 1 / 2 := by
      apply Complex.ext <;> simp [hk, bilinear, Mat.fromBody, Cf.new, Cf.toC, Scalar.lit]
      norm_num
    have h3 : (k 1 0).toC = 1 / 2 := by
      apply Complex.ext <;> simp [hk, bilinear, Mat.fromBody, Cf.new, Cf.toC, Scalar.lit]
      norm_num
    have h4 : (k 0 0).toC = 1 / 4 := by
      apply Complex.ext <;> simp [hk, bilinear, Mat.fromBody, Cf.new, Cf.toC, Scalar.lit]
      norm_num
    simp only [conj_zero', zero_mul, add_zero, one_mul, Finset.sum_range_succ, Finset.sum_range_zero,
      zero_add, upMap_sum, show upOff 2 = 0 from rfl, show leftOff 2 2 = 0 from rfl]
    norm_num
    simp only [Cf.toC_hom_add, Cf.toC_hom_mul, h1, h2, h3, h4, Cf.toC_hom_one]
    ring

theorem exPoolNet_move (e : Cf .w32 ℝ) (s : ℝ) :
    (exPoolNet 0).move [([0], [e]), ([], []), ([], [])] s = exPoolNet (Cf.ofC (s * e.toC)) := by
  have h1 : (Cf.ofC ((1 : Cf .w32 ℝ).toC + (s : ℂ) * (0 : Cf .w32 ℝ).toC) : Cf .w32 ℝ) = 1 := by
    apply Cf.toC_inj.mp; simp [Cf.toC_hom_zero]
  have h3 : (Cf.ofC ((0 : Cf .w32 ℝ).toC + (s : ℂ) * e.toC) : Cf .w32 ℝ) = Cf.ofC (s * e.toC) := by
    apply Cf.toC_inj.mp; simp [Cf.toC_hom_zero]
  simp only [Net.move, Net.zipParams, exPoolNet, exConvAct, Layer.zipParams, Mat.fromBody,
    List.zipWith_cons_cons, List.zipWith_nil_left, zipKernels, h1, h3, List.length_cons,
    List.length_nil, List.take_succ_cons, List.take_zero]

/-- C64 is false of the code also for a single convolutional layer with the identity as activation,
followed by the pooling layer of the classification example: the derivative returned for its bias is
9/4 times the right one, for every 2 × 2 map with equal entries and every target other than the
prediction. -/
theorem C64_refuted_pool (lf : LossFunc) (x t : Cf .w32 ℝ) (ht : t ≠ x) :
    (∃ acts, (exPoolNet 0).collectActs (exSquare x) = some (.ok acts)
      ∧ (∀ q ∈ acts.zip (exPoolNet 0).layers, q.2.ActsRight q.1 ∧ q.2.ActsHolo q.1))
    ∧ ∃ gs, sampleGrads (exPoolNet 0) lf (exSquare x, .scalar [t]) = some gs
      ∧ ¬ IsNetGradient (exPoolNet 0) (exSquare x) [t] gs := by
  constructor
  · obtain ⟨ms, ms', k1, k2, hcol, -⟩ := exPoolNet_run x 0
    refine ⟨_, hcol, fun q hq => ?_⟩
    simp only [exPoolNet, List.zip_cons_cons, List.zip_nil_right, List.mem_cons, List.not_mem_nil,
      or_false] at hq
    rcases hq with rfl | rfl | rfl
    · exact ⟨fun _ _ z _ => none_right z, fun _ _ z _ => none_conj z⟩
    · constructor <;>
      · intro v hv z hz
        have : v = [] := (Option.some.inj hv).symm
        rw [this] at hz
        cases hz
    · constructor <;>
      · intro v hv z hz
        have : v = [] := (Option.some.inj hv).symm
        rw [this] at hz
        cases hz
  obtain ⟨dk, β, hs, hβ⟩ := exPoolNet_sample lf x t
  refine ⟨_, hs, fun ⟨_, hg⟩ => ?_⟩
  set γ : Cf .w32 ℝ := CplxOps.conj (x - t) with hγ
  have hγ' : γ.toC = conj (x.toC - t.toC) := by
    rw [hγ]
    show (Cf.conj (x - t)).toC = _
    rw [Cf.toC_conj, Cf.toC_hom_sub]
  have key : ∀ v : Cf .w32 ℝ, (9 / 4 * γ.toC * v.toC).re = (γ.toC * v.toC).re := by
    intro v
    obtain ⟨L, hL1, hL2⟩ := hg [([0], [v]), ([], []), ([], [])]
      (.cons ⟨rfl, rfl⟩ (.cons ⟨rfl, rfl⟩ (.cons rfl .nil)))
    have hq : HasDerivAt (fun s : ℝ => x.toC + s * v.toC) v.toC 0 := by
      have h := ((Complex.ofRealCLM.hasDerivAt (x := (0 : ℝ))).mul_const v.toC).const_add x.toC
      refine h.congr_deriv ?_
      simp
    have hLe : L =ᶠ[𝓝 0] fun s => ‖t.toC - (x.toC + s * v.toC)‖ ^ 2 := by
      filter_upwards [hL1] with s hs1
      obtain ⟨p, hp1, hp2⟩ := hs1
      rw [exPoolNet_move] at hp1
      obtain ⟨_, _, -, -, -, hfw⟩ := exPoolNet_run x (Cf.ofC (s * v.toC))
      rw [hfw] at hp1
      cases hp1
      rw [hp2]
      simp [sqSum, Cf.toC_hom_add]
    have h4 := (hasDerivAt_sq_curve (t := t.toC) hq).congr_of_eventuallyEq hLe
    have h5 := hL2.unique h4
    have hp : (pairAll [([dk], [β]), ([], []), ([], [])] [([0], [v]), ([], []), ([], [])])
        = 9 / 4 * γ.toC * v.toC := by
      simp only [pairAll, pairing, List.zipWith_cons_cons, List.zipWith_nil_left, List.sum_cons,
        List.sum_nil, Cf.toC_hom_zero, mul_zero, add_zero, zero_add, hβ]
    rw [hp] at h5
    simp only [Complex.ofReal_zero, zero_mul, add_zero] at h5
    rw [← hγ'] at h5
    linarith
  have a1 := key ⟨1, 0⟩
  have a2 := key ⟨0, 1⟩
  have hz : γ.toC = 0 := by
    apply Complex.ext
    · simp at a1 ⊢; linarith
    · simp at a2 ⊢; linarith
  exact conj_ne_zero (sub_ne_zero.mpr ht.symm) (Cf.toC_inj.mp (by rw [Cf.toC_hom_zero]; exact hz))

/-- Such a case. -/
example (lf : LossFunc) : ∃ gs, sampleGrads (exPoolNet 0) lf (exSquare 0, .scalar [1]) = some gs
    ∧ ¬ IsNetGradient (exPoolNet 0) (exSquare 0) [1] gs :=
  (C64_refuted_pool lf 0 1 one_ne_zero).2

end Renplex
