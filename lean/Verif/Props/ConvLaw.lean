import Verif.Props.ConvRight
import Verif.Props.NetGrad
import Verif.Props.NetGradRefuted
import Verif.Props.Loss
import Mathlib.Analysis.Calculus.Deriv.Prod
/-!
# C49: the derivatives of one layer
-/

namespace Renplex
open Filter Topology ComplexConjugate
variable {w : Width}

theorem IOType.HasFlat.flat {α : Type} {x : IOType α} {σ : Size} {a : Nat → α} (h : x.HasFlat σ a) :
    x.flat = (List.range σ.len).map a := by
  cases x with
  | scalar v => cases σ with
    | vec n => exact h
    | maps n r c => exact absurd h id
  | matrix ms => cases σ with
    | vec n => exact absurd h id
    | maps n r c =>
      have h' : MapsAre ms n r c _ := h
      obtain ⟨M, rfl, hM⟩ := h'.exists_fun
      simp only [IOType.flat, Size.len]
      rw [range_map_cube, List.flatMap_map]
      unfold cube
      rw [List.flatMap_def, List.flatMap_def]
      congr 1
      exact List.map_congr_left fun o ho => (hM o (List.mem_range.mp ho)).2

theorem IOType.HasFlat.zipVals {α : Type} {x : IOType α} {σ : Size} {a d : Nat → α}
    (h : x.HasFlat σ a) (upd : α → α → α) :
    (x.zipVals upd ((List.range σ.len).map d)).HasFlat σ fun k => upd (a k) (d k) := by
  cases x with
  | scalar v => cases σ with
    | vec n =>
      have hv : v = (List.range n).map a := h
      subst hv
      show List.zipWith upd _ _ = _
      rw [Size.len, List.zipWith_map, List.zipWith_self]
    | maps n r c => exact absurd h id
  | matrix ms => cases σ with
    | vec n => exact absurd h id
    | maps n r c =>
      have h' : MapsAre ms n r c _ := h
      obtain ⟨M, rfl, hM⟩ := h'.exists_fun
      simp only [IOType.zipVals, Size.len]
      rw [range_map_cube, cube, zipKernels_map_table upd r c _ M
        (fun ch i j => a (ch * (r * c) + (i * c + j))) _ fun k hk => hM k (List.mem_range.mp hk)]
      refine ⟨by simp, fun ch m hm => ?_⟩
      rw [List.getElem?_map] at hm
      obtain ⟨o', ho', rfl⟩ := Option.map_eq_some_iff.mp hm
      have : o' = ch := by
        rw [List.getElem?_eq_some_iff] at ho'
        obtain ⟨h1, h2⟩ := ho'
        simpa using h2.symm
      subst this
      exact ⟨rfl, rfl⟩

theorem IOType.HasFlat.toVec {x : IOType (Cf w ℝ)} {σ : Size} {a : Nat → Cf w ℝ}
    (h : x.HasFlat σ a) {m : Nat} (hm : m ≤ σ.len) : x.toVec m = fun k : Fin m => (a k).toC := by
  funext k
  unfold IOType.toVec
  rw [h.flat, List.getD_eq_getElem?_getD, List.getElem?_map, List.getElem?_range (by omega)]
  rfl

/-- From curves to `IsLayerGradient`. -/
theorem layer_gradient {l : Layer (Cf w ℝ)} {x y : IOType (Cf w ℝ)} {σ σ' : Size}
    {a a' : Nat → Cf w ℝ} (hx : x.HasFlat σ a) (hf : l.forward x = some (.ok y))
    (hy : y.HasFlat σ' a') {g g' : Nat → Cf w ℝ} {γ : LayerVec (Cf w ℝ)} (hγ : γ.Fits l)
    (h : ∀ δ : LayerVec (Cf w ℝ), δ.Fits l → ∀ c v, Curves σ.len a c v →
      ∃ c' v', Curves σ'.len a' c' v'
        ∧ (∀ᶠ s : ℝ in 𝓝 0, ∀ X : IOType (Cf w ℝ), X.HasFlat σ (fun k => Cf.ofC (c k s)) →
            ∃ Y, (l.move δ s).forward X = some (.ok Y) ∧ Y.HasFlat σ' fun k => Cf.ofC (c' k s))
        ∧ (∑ k ∈ Finset.range σ'.len, (g k).toC * v' k).re
          = (∑ k ∈ Finset.range σ.len, (g' k).toC * v k).re
            + (pairing γ.1 δ.1 + pairing γ.2 δ.2).re) :
    IsLayerGradient l x ((List.range σ'.len).map g) γ ((List.range σ.len).map g') := by
  have : Nonempty (Cf w ℝ) := ⟨0⟩
  refine ⟨hγ, by rw [hx.flat]; simp, ?_⟩
  intro y₀ hy₀ L L' hL hL' δ v hδ hv
  rw [hf] at hy₀
  simp only [Option.some.injEq, Except.ok.injEq] at hy₀
  subst hy₀
  obtain ⟨V, hV⟩ := exists_range_map v
  rw [hv, hx.flat, List.length_map, List.length_range] at hV
  subst hV
  have hlin : ∀ a d : ℂ, HasDerivAt (fun s : ℝ => a + s * d) d 0 := by
    intro a d
    have h := ((Complex.ofRealCLM.hasDerivAt (x := (0 : ℝ))).mul_const d).const_add a
    refine h.congr_deriv ?_
    simp
  obtain ⟨c', v', h1, h2, h3⟩ := h δ hδ (fun k s => (a k).toC + s * (V k).toC) (fun k => (V k).toC)
    (fun k _ => ⟨hlin _ _, by simp⟩)
  have hlen : ((List.range σ'.len).map g).length = σ'.len := by simp
  refine ⟨fun s => L fun k => c' k s, ?_, ?_⟩
  · filter_upwards [h2] with s hs
    obtain ⟨Y, e1, e2⟩ := hs _ (hx.zipVals (d := V) (fun p d => Cf.ofC (p.toC + s * d.toC)))
    refine ⟨Y, e1, ?_⟩
    rw [e2.toVec hlen.le]
    simp only [Cf.toC_ofC]
  · have hc : HasDerivAt (fun s : ℝ => fun k : Fin ((List.range σ'.len).map g).length => c' k s)
        (fun k => v' k) 0 :=
      hasDerivAt_pi.mpr fun k => (h1 k (k.2.trans_le hlen.le)).1
    have h0 : y.toVec ((List.range σ'.len).map g).length
        = fun k : Fin ((List.range σ'.len).map g).length => c' k 0 := by
      rw [hy.toVec hlen.le]
      funext k
      exact (h1 k (k.2.trans_le hlen.le)).2.symm
    rw [h0] at hL
    refine (hL.comp_hasDerivAt (0 : ℝ) hc).congr_deriv ?_
    rw [hL']
    congr 1
    rw [pairing_range, Complex.add_re, add_comm, ← h3]
    have e : ∑ k : Fin ((List.range σ'.len).map g).length,
        (((List.range σ'.len).map g)[k]).toC * v' k
        = ∑ k ∈ Finset.range σ'.len, (g k).toC * v' k := by
      rw [Finset.sum_range fun k => (g k).toC * v' k]
      refine Fintype.sum_equiv (finCongr hlen) _ _ fun k => ?_
      simp
    rw [e]

/-- C49, the part that holds. For every convolutional layer, every input it forwards and every
vector `g` of derivatives of a loss with respect to its outputs: if the activation derivatives the
code uses are right at all values that occur, then `compute_derivatives` (called with `g` and its
conjugate) returns, the kernel and bias derivatives are right, and the derivative with respect to
the input is the sum of the two vectors returned for it. It is the first of the two itself when the
activation is holomorphic at the values that occur. (Missing: the first vector by itself for other
activations, where it is wrong, see `C49_refuted`, and the second as its conjugate, see
`C49_refuted_conj`.) -/
theorem C49_partial (l : Conv (Cf w ℝ)) (hw : (Layer.conv l).WF) (x y : IOType (Cf w ℝ)) (σ : Size)
    (hx : x.HasSize σ) (hf : l.forward x = some (.ok y)) (hs : (Layer.conv l).ActsRight x)
    (g : List (Cf w ℝ)) (hg : g.length = y.flat.length) :
    ∃ dk db dx dxc,
      l.computeDerivatives x g (g.map CplxOps.conj) = some (.ok (dk, db, dx, dxc))
      ∧ IsLayerGradient (.conv l) x g (dk, db) (List.zipWith (· + ·) dx dxc)
      ∧ dx.length = x.flat.length ∧ dxc.length = x.flat.length
      ∧ ((Layer.conv l).ActsHolo x → IsLayerGradient (.conv l) x g (dk, db) dx
        ∧ ∀ z ∈ dxc, z = 0) := by
  have : Nonempty (Cf w ℝ) := ⟨0⟩
  obtain ⟨a, ha⟩ := hx.exists_flat
  obtain ⟨nf, R, C, a', hy, h⟩ := conv_core hw ha hf hs
  obtain ⟨G, hG⟩ := exists_range_map g
  rw [hg, hy.flat, List.length_map, List.length_range] at hG
  subst hG
  obtain ⟨γ, g', gc', h1, h2, h3, h4⟩ := h G (fun k => CplxOps.conj (G k)) (.inl fun _ _ => rfl)
  have hlg := layer_gradient (l := .conv l) (γ := γ) (g := G) (g' := fun k => g' k + gc' k)
    ha hf hy h2 h4
  refine ⟨γ.1, γ.2, (List.range σ.len).map g', (List.range σ.len).map gc', ?_, ?_,
    by rw [ha.flat]; simp, by rw [ha.flat]; simp, ?_⟩
  · rw [Layer.back, if_pos (by rfl)] at h1
    rw [List.map_map]
    have h1 : (l.computeDerivatives x ((List.range (Size.maps nf R C).len).map G)
        ((List.range (Size.maps nf R C).len).map (CplxOps.conj ∘ G)) >>= unwrap).map
          (fun r => ((r.1, r.2.1), r.2.2.1, r.2.2.2)) = _ := h1
    revert h1
    generalize l.computeDerivatives x ((List.range (Size.maps nf R C).len).map G)
      ((List.range (Size.maps nf R C).len).map (CplxOps.conj ∘ G)) = d
    intro h1
    cases d with
    | none => simp at h1
    | some d => cases d with
      | error e => simp [unwrap] at h1
      | ok d =>
        simp only [Option.bind_eq_bind, Option.bind_some, unwrap, Option.map_some,
          Option.some.injEq, Prod.mk.injEq] at h1
        obtain ⟨rfl, h5, h6⟩ := h1
        simp only [Option.some.injEq, Except.ok.injEq]
        rw [← h5, ← h6]
  · rw [List.zipWith_map, List.zipWith_self]
    exact hlg
  · intro hh
    have : (List.range σ.len).map (fun k => g' k + gc' k) = (List.range σ.len).map g' :=
      range_map_congr fun k hk => by rw [h3 hh k hk, add_zero]
    rw [this] at hlg
    refine ⟨hlg, fun z hz => ?_⟩
    obtain ⟨k, hk, rfl⟩ := List.mem_map.mp hz
    exact h3 hh k (List.mem_range.mp hk)

/-- A vector is determined by the real parts of its pairings. -/
theorem pairing_inj {a b : List (Cf w ℝ)} (hl : a.length = b.length)
    (h : ∀ v : List (Cf w ℝ), v.length = a.length → (pairing a v).re = (pairing b v).re) : a = b := by
  induction a generalizing b with
  | nil => cases b with
    | nil => rfl
    | cons b bs => simp at hl
  | cons x a ih => cases b with
    | nil => simp at hl
    | cons y b =>
      have hz : ∀ c : List (Cf w ℝ), pairing c (List.replicate c.length 0) = 0 := by
        intro c
        induction c with
        | nil => rfl
        | cons z c ih => rw [List.length_cons, List.replicate_succ, pairing_cons, ih, Cf.toC_hom_zero]; simp
      have hlen : a.length = b.length := by simpa using hl
      have h1 := h (⟨1, 0⟩ :: List.replicate a.length 0) (by simp)
      have h2 := h (⟨0, 1⟩ :: List.replicate a.length 0) (by simp)
      rw [pairing_cons, pairing_cons, hz, hlen, hz] at h1 h2
      simp at h1 h2
      congr 1
      · exact Cf.ext h1 h2
      · refine ih hlen fun v hv => ?_
        have h3 := h (0 :: v) (by simpa using hv)
        rw [pairing_cons, pairing_cons, Cf.toC_hom_zero] at h3
        simpa using h3

theorem zipWith_add_eq_left {a b : List (Cf w ℝ)} (hl : a.length = b.length)
    (h : List.zipWith (· + ·) a b = a) : ∀ z ∈ b, z = 0 := by
  induction a generalizing b with
  | nil => cases b with
    | nil => simp
    | cons b bs => simp at hl
  | cons x a ih => cases b with
    | nil => simp
    | cons y b =>
      rw [List.zipWith_cons_cons] at h
      injection h with h1 h2
      intro z hz
      rcases List.mem_cons.mp hz with rfl | hz
      · exact left_eq_add.mp h1.symm
      · exact ih (by simpa using hl) h2 z hz

theorem Layer.exists_fits (l : Layer (Cf w ℝ)) : ∃ δ : LayerVec (Cf w ℝ), δ.Fits l := by
  by_cases h : l.propagates = true
  · exact ⟨(List.replicate l.paramsLen.1 0, List.replicate l.paramsLen.2 0), by
      rw [LayerVec.Fits, if_pos h]; simp⟩
  · exact ⟨([], []), by rw [LayerVec.Fits, if_neg h]⟩

/-- The derivative with respect to the input is unique. -/
theorem IsLayerGradient.unique {l : Layer (Cf w ℝ)} {x y : IOType (Cf w ℝ)} {g gx gx' : List (Cf w ℝ)}
    {γ : LayerVec (Cf w ℝ)} (hf : l.forward x = some (.ok y)) (h : IsLayerGradient l x g γ gx)
    (h' : IsLayerGradient l x g γ gx') : gx = gx' := by
  refine pairing_inj (h.2.1.trans h'.2.1.symm) fun v hv => ?_
  rw [h.2.1] at hv
  obtain ⟨δ, hδ⟩ := l.exists_fits
  let L' : (Fin g.length → ℂ) →L[ℝ] ℝ :=
    (2 : ℝ) • Complex.reCLM.comp (∑ k : Fin g.length,
      (ContinuousLinearMap.mul ℝ ℂ g[k].toC).comp (ContinuousLinearMap.proj (R := ℝ) k))
  have hL' : ∀ v, L' v = 2 * (∑ k, g[k].toC * v k).re := by
    intro v
    simp [L']
  obtain ⟨e, h1, h2⟩ := h.2.2 y hf L' L' L'.hasFDerivAt hL' δ v hδ hv
  obtain ⟨e', h3, h4⟩ := h'.2.2 y hf L' L' L'.hasFDerivAt hL' δ v hδ hv
  have he : e =ᶠ[𝓝 0] e' := by
    filter_upwards [h1, h3] with s hs hs'
    obtain ⟨y1, k1, k2⟩ := hs
    obtain ⟨y2, k3, k4⟩ := hs'
    rw [k1] at k3
    simp only [Option.some.injEq, Except.ok.injEq] at k3
    rw [k2, k4, k3]
  have := h2.unique (h4.congr_of_eventuallyEq he)
  simp only [Complex.add_re] at this
  linarith

/-- C49 is false of the code: whenever the second of the two vectors returned for the input is not
zero, the first is not the derivative with respect to the input. -/
theorem C49_refuted (l : Conv (Cf w ℝ)) (hw : (Layer.conv l).WF) (x y : IOType (Cf w ℝ)) (σ : Size)
    (hx : x.HasSize σ) (hf : l.forward x = some (.ok y)) (hs : (Layer.conv l).ActsRight x)
    (g : List (Cf w ℝ)) (hg : g.length = y.flat.length) (dk db dx dxc : List (Cf w ℝ))
    (hd : l.computeDerivatives x g (g.map CplxOps.conj) = some (.ok (dk, db, dx, dxc)))
    (hne : ∃ z ∈ dxc, z ≠ 0) : ¬ IsLayerGradient (.conv l) x g (dk, db) dx := by
  intro h
  obtain ⟨dk', db', dx', dxc', h1, h2, h3, h4, -⟩ := C49_partial l hw x y σ hx hf hs g hg
  rw [hd] at h1
  simp only [Option.some.injEq, Except.ok.injEq, Prod.mk.injEq] at h1
  obtain ⟨rfl, rfl, rfl, rfl⟩ := h1
  have hu := IsLayerGradient.unique (l := .conv l) hf h h2
  obtain ⟨z, hz, hz0⟩ := hne
  exact hz0 (zipWith_add_eq_left (h3.trans h4.symm) hu.symm z hz)

/-- C49 is false of the code: with an activation that is holomorphic at the values that occur, the
second vector returned for the input is zero and not the conjugate of the first. -/
theorem C49_refuted_conj (l : Conv (Cf w ℝ)) (hw : (Layer.conv l).WF) (x y : IOType (Cf w ℝ))
    (σ : Size) (hx : x.HasSize σ) (hf : l.forward x = some (.ok y))
    (hs : (Layer.conv l).ActsRight x) (hh : (Layer.conv l).ActsHolo x)
    (g : List (Cf w ℝ)) (hg : g.length = y.flat.length) (dk db dx dxc : List (Cf w ℝ))
    (hd : l.computeDerivatives x g (g.map CplxOps.conj) = some (.ok (dk, db, dx, dxc)))
    (hne : ∃ z ∈ dx, z ≠ 0) : (∀ z ∈ dxc, z = 0) ∧ dxc ≠ dx.map CplxOps.conj := by
  obtain ⟨dk', db', dx', dxc', h1, -, -, -, h5⟩ := C49_partial l hw x y σ hx hf hs g hg
  rw [hd] at h1
  simp only [Option.some.injEq, Except.ok.injEq, Prod.mk.injEq] at h1
  obtain ⟨rfl, rfl, rfl, rfl⟩ := h1
  refine ⟨(h5 hh).2, fun he => ?_⟩
  obtain ⟨z, hz, hz0⟩ := hne
  have h0 : Cf.conj z = 0 := (h5 hh).2 _ (by rw [he]; exact List.mem_map.mpr ⟨z, hz, rfl⟩)
  have h6 := congrArg Cf.toC h0
  rw [Cf.toC_conj, Cf.toC_hom_zero] at h6
  apply hz0
  apply Cf.toC_inj.mp
  rw [Cf.toC_hom_zero]
  simpa using h6

/-- A convolutional layer with one 1×1 kernel of value 1, bias `b` and activation `f`. -/
noncomputable def exConvAct (f : ActFunc) (b : Cf w ℝ) : Conv (Cf w ℝ) :=
  ⟨1, Mat.fromBody [Mat.fromBody [1] (1, 1)] (1, 1), [b], f⟩

theorem exConvAct_wf (f : ActFunc) (b : Cf w ℝ) : (Layer.conv (exConvAct f b)).WF := by
  refine ⟨rfl, rfl, rfl, ?_, (1, 1), ?_⟩ <;> simp [exConvAct, Mat.fromBody, Mat.Rect]

theorem exConvAct_is (f : ActFunc) (b : Cf w ℝ) :
    (exConvAct f b).Is 1 1 1 1 (fun _ _ _ _ => 1) (fun _ => b) f :=
  ⟨rfl, rfl, rfl, fun _ _ => Mat.fromBody [1] (1, 1), ⟨rfl, rfl⟩, fun _ _ _ _ => ⟨rfl, rfl⟩⟩

theorem exConv_pre (x b : Cf w ℝ) (o i j : Nat) :
    convPre 1 1 1 (fun _ _ _ => x) (fun _ _ _ _ => 1) (fun _ => b) o i j = x + b := by
  rw [convPre_sum]; simp

theorem exConvAct_forward {f : ActFunc} {x b y : Cf w ℝ} (h : Act.activate f (x + b) = some y)
    {ms : List (Mat (Cf w ℝ))} (hx : MapsAre ms 1 1 1 fun _ _ _ => x) :
    ∃ outs, (exConvAct f b).forward (.matrix ms) = some (.ok (.matrix outs))
      ∧ MapsAre outs 1 1 1 fun _ _ _ => y :=
  C40_forward (exConvAct_is f b) (by norm_num) (by norm_num) (by norm_num) (by norm_num)
    (by norm_num) (by norm_num) hx (fun _ _ _ => y) (fun o _ i _ j _ => by
      have := exConv_pre x b o i j
      unfold convPre at this
      rw [this]; exact h)

theorem exConvAct_preActs (f : ActFunc) {x b : Cf w ℝ}
    {ms : List (Mat (Cf w ℝ))} (hx : MapsAre ms 1 1 1 fun _ _ _ => x) :
    (Layer.conv (exConvAct f b)).preActs (.matrix ms) = some [x + b] := by
  have := Conv.computeQ_is (exConvAct_is f b) (by norm_num) (by norm_num) (by norm_num)
    (by norm_num) (by norm_num) (by norm_num) hx
  rw [Layer.preActs, this]
  simp [cube, table, exConv_pre]

theorem exConvAct_derivs {f : ActFunc} {x b d dc g gc : Cf w ℝ}
    (h1 : Act.dActivate f (x + b) = some d) (h2 : Act.dConjActivate f (x + b) = some dc)
    {ms : List (Mat (Cf w ℝ))} (hx : MapsAre ms 1 1 1 fun _ _ _ => x) :
    (exConvAct f b).computeDerivatives (.matrix ms) [g] [gc]
      = some (.ok ([x * (d * g + CplxOps.conj dc * gc)], [d * g + CplxOps.conj dc * gc],
          [d * g], [CplxOps.conj dc * gc])) := by
  have := Conv.computeDerivatives_is (exConvAct_is f b) (by norm_num) (by norm_num) (by norm_num)
    (by norm_num) (by norm_num) (by norm_num) hx (fun _ _ _ => g) (fun _ _ _ => gc)
    (fun _ _ _ => d) (fun _ _ _ => dc) (fun o _ i _ j _ => by rw [exConv_pre]; exact h1)
    (fun o _ i _ j _ => by rw [exConv_pre]; exact h2)
  simpa [cube, kernelGrad, inputGrad, table, padded] using this

/-- One map with the single entry `x`. -/
def exMap (x : Cf w ℝ) : IOType (Cf w ℝ) := .matrix [Mat.fromBody [x] (1, 1)]

theorem exMap_size (x : Cf w ℝ) : (exMap x).HasSize (.maps 1 1 1) := by
  simp [exMap, IOType.HasSize, Mat.fromBody, Mat.Rect]

theorem exMap_is (x : Cf w ℝ) : MapsAre [Mat.fromBody [x] (1, 1)] 1 1 1 fun _ _ _ => x := by
  refine ⟨rfl, fun ch m h => ?_⟩
  match ch with
  | 0 => obtain rfl : _ = m := by simpa using h
         exact ⟨rfl, rfl⟩
  | k + 1 => simp at h

theorem conj_ne_zero {z : Cf w ℝ} (hz : z ≠ 0) : CplxOps.conj z ≠ 0 := by
  intro h
  have h6 : (Cf.conj z).toC = (0 : Cf w ℝ).toC := congrArg Cf.toC h
  rw [Cf.toC_conj, Cf.toC_hom_zero] at h6
  exact hz (Cf.toC_inj.mp (by rw [Cf.toC_hom_zero]; simpa using h6))

theorem exConvAct_acts {f : ActFunc} {x : Cf w ℝ} (hr : DerivsRight f x)
    {ms : List (Mat (Cf w ℝ))} (hx : MapsAre ms 1 1 1 fun _ _ _ => x) :
    (Layer.conv (exConvAct f 0)).ActsRight (.matrix ms) := by
  intro q hq z hz
  rw [exConvAct_preActs f hx, add_zero] at hq
  obtain rfl : _ = q := Option.some.inj hq
  rw [List.mem_singleton.mp hz]
  exact hr

/-- The hypotheses of C49_refuted can be met: a 1×1 convolution, for every activation and value with
a non-zero conjugate derivative and every non-zero derivative `g` of the loss. -/
theorem C49_refuted_instance {f : ActFunc} {x dc g : Cf w ℝ} (hr : DerivsRight f x)
    (hc : Act.dConjActivate f x = some dc) (h0 : dc ≠ 0) (hg : g ≠ 0) :
    ∃ y dk db dx dxc, (exConvAct f 0).forward (exMap x) = some (.ok y) ∧ y.flat.length = 1
      ∧ (exConvAct f 0).computeDerivatives (exMap x) [g] [CplxOps.conj g]
        = some (.ok (dk, db, dx, dxc))
      ∧ ¬ IsLayerGradient (.conv (exConvAct f 0)) (exMap x) [g] (dk, db) dx := by
  have hs := exConvAct_acts hr (exMap_is x)
  obtain ⟨d, dc', h1, h2, F, h3, -⟩ := hr
  have h3 := h3.self_of_nhds
  rw [Cf.ofC_toC] at h3
  obtain ⟨outs, h4, h5⟩ := exConvAct_forward (f := f) (b := 0) (by rw [add_zero]; exact h3) (exMap_is x)
  have hl : (IOType.matrix outs).flat.length = 1 := by
    have h : (IOType.matrix outs).HasFlat (.maps 1 1 1) fun _ => Cf.ofC (F x.toC) := h5
    rw [h.flat]; rfl
  have hd := exConvAct_derivs (f := f) (b := 0) (g := g) (gc := CplxOps.conj g)
    (by rw [add_zero]; exact h1) (by rw [add_zero]; exact hc) (exMap_is x)
  refine ⟨_, _, _, _, _, h4, hl, hd, ?_⟩
  exact C49_refuted _ (exConvAct_wf _ _) _ _ (.maps 1 1 1) (exMap_size x) h4 hs [g]
    (by rw [hl]; rfl) _ _ _ _ hd
    ⟨_, List.mem_singleton_self _, mul_ne_zero (conj_ne_zero h0) (conj_ne_zero hg)⟩

/-- Such a value: `tanh` at 1. -/
theorem tanh_conj_ne (z : Cf w ℝ) (hz : z = ⟨1, 0⟩) :
    ∃ dc, Act.dConjActivate .ritTanh z = some dc ∧ dc ≠ 0 := by
  subst hz
  refine ⟨_, rfl, fun h => ?_⟩
  have h1 := congrArg Cf.x h
  have h2 : 1 < Real.cosh 1 := Real.one_lt_cosh.mpr one_ne_zero
  have h0 : (0 : Cf w ℝ).x = 0 := congrArg Complex.re (Cf.toC_hom_zero (w := w))
  simp [Act.dConjRitTanh, Act.sech2, h0] at h1
  rcases h1 with h1 | h1
  · have h3 : (Real.cosh 1 ^ 2)⁻¹ < 1 := inv_lt_one_of_one_lt₀ (by nlinarith)
    linarith
  · simp [Act.half] at h1

end Renplex
