import Verif.Props.ConvTangent
/-!
# The backward step of a convolutional layer
-/

namespace Renplex
open Filter Topology ComplexConjugate
variable {w : Width}

/-- What a normal return of the forward pass says about the sizes. -/
theorem Conv.dims {l : Conv (Cf w ℝ)} (hw : (Layer.conv l).WF) {ms : List (Mat (Cf w ℝ))}
    {n r c : Nat} {X : Nat → Nat → Nat → Cf w ℝ} (hX : MapsAre ms n r c X) {y : IOType (Cf w ℝ)}
    (hf : l.forward (.matrix ms) = some (.ok y)) :
    ∃ nf p q K b, l.Is nf n p q K b l.func ∧ 0 < nf ∧ 0 < n ∧ 1 ≤ p ∧ p ≤ r ∧ 1 ≤ q ∧ q ≤ c := by
  have : Nonempty (Cf w ℝ) := ⟨0⟩
  obtain ⟨⟨p, q⟩, hs⟩ := hw.2.2.2.2
  obtain ⟨K, b, hIs⟩ := Conv.exists_is hw hs
  have h0 : 0 < l.kernels.shape.1 ∧ 0 < l.kernels.shape.2 := by
    by_contra hcon
    rw [C40_empty_layer hIs (by omega)] at hf
    cases hf
  have hn : l.kernels.shape.2 = n := by
    by_contra hne
    rw [C40_channels_partial hIs h0.1 h0.2 ms (by rw [hX.1]; exact Ne.symm hne)] at hf
    split at hf <;> cases hf
  rw [hn] at hIs h0
  have hfit : 1 ≤ p ∧ p ≤ r ∧ 1 ≤ q ∧ q ≤ c := by
    by_contra hcon
    rw [C40_no_fit hIs h0.1 h0.2 hX hcon] at hf
    cases hf
  exact ⟨_, p, q, K, b, hIs, h0.1, h0.2, hfit⟩

theorem pairing_cube (n r c : Nat) (G D : Nat → Nat → Nat → Cf w ℝ) :
    pairing (cube n r c G) (cube n r c D)
      = ∑ o ∈ Finset.range n, ∑ i ∈ Finset.range r, ∑ j ∈ Finset.range c,
        (G o i j).toC * (D o i j).toC := by
  unfold pairing
  rw [cube_zipWith, cube_sum]

theorem pairing_flatMap_cube (nf n r c : Nat) (G D : Nat → Nat → Nat → Nat → Cf w ℝ) :
    pairing ((List.range nf).flatMap fun o => cube n r c (G o))
        ((List.range nf).flatMap fun o => cube n r c (D o))
      = ∑ o ∈ Finset.range nf, ∑ ch ∈ Finset.range n, ∑ i ∈ Finset.range r, ∑ j ∈ Finset.range c,
        (G o ch i j).toC * (D o ch i j).toC := by
  unfold pairing
  rw [zipWith_flatMap _ _ _ _ (by simp [cube_length]), List.flatMap_def, List.sum_flatten,
    List.map_map, ← sum_range_list]
  congr 1
  refine List.map_congr_left fun o _ => ?_
  simp only [Function.comp_apply]
  rw [cube_zipWith, cube_sum]

theorem inputGrad_eq_zero {α : Type} [CommRing α] [BasicOps α] [LawfulOps α] (R C p q : Nat)
    (m k : Nat → Nat → α) (h : ∀ i, i < R → ∀ j, j < C → m i j = 0) (i j : Nat) :
    inputGrad R C p q m k i j = 0 := by
  unfold inputGrad
  refine Finset.sum_eq_zero fun a _ => Finset.sum_eq_zero fun b _ => ?_
  unfold padded
  split
  · rw [h _ (by omega) _ (by omega), zero_mul]
  · simp

/-- The backward step of a convolutional layer: kernels and biases get the right derivatives, and the
derivative with respect to the input is the *sum* of the two vectors the code passes on. -/
theorem conv_core {l : Conv (Cf w ℝ)} (hw : (Layer.conv l).WF) {prev y : IOType (Cf w ℝ)}
    {σ : Size} {a : Nat → Cf w ℝ} (hx : prev.HasFlat σ a)
    (hf : l.forward prev = some (.ok y)) (hs : (Layer.conv l).ActsRight prev) :
    ∃ nf R C a', y.HasFlat (.maps nf R C) a' ∧ ∀ g gc : Nat → Cf w ℝ,
      ((∀ k, k < nf * (R * C) → gc k = CplxOps.conj (g k)) ∨ (Layer.conv l).ActsHolo prev) →
      ∃ γ g' gc', (Layer.conv l).back prev ((List.range (nf * (R * C))).map g)
          ((List.range (nf * (R * C))).map gc)
          = some (γ, (List.range σ.len).map g', (List.range σ.len).map gc')
        ∧ γ.Fits (.conv l) ∧ ((Layer.conv l).ActsHolo prev → ∀ k, k < σ.len → gc' k = 0)
        ∧ ∀ δ : LayerVec (Cf w ℝ), δ.Fits (.conv l) → ∀ c v, Curves σ.len a c v →
          ∃ c' v', Curves (nf * (R * C)) a' c' v'
            ∧ (∀ᶠ s : ℝ in 𝓝 0, ∀ X : IOType (Cf w ℝ), X.HasFlat σ (fun k => Cf.ofC (c k s)) →
              ∃ Y, ((Layer.conv l).move δ s).forward X = some (.ok Y)
                ∧ Y.HasFlat (.maps nf R C) fun k => Cf.ofC (c' k s))
            ∧ (∑ k ∈ Finset.range (nf * (R * C)), (g k).toC * v' k).re
              = (∑ k ∈ Finset.range σ.len, (g' k + gc' k).toC * v k).re
                + (pairing γ.1 δ.1 + pairing γ.2 δ.2).re := by
  have : Nonempty (Cf w ℝ) := ⟨0⟩
  cases prev with
  | scalar v => simp [Conv.forward] at hf
  | matrix ms =>
    cases σ with
    | vec n => exact absurd hx id
    | maps n r c =>
      set X : Nat → Nat → Nat → Cf w ℝ := fun ch i j => a (ch * (r * c) + (i * c + j)) with hXdef
      have hX : MapsAre ms n r c X := hx
      obtain ⟨nf, p, q, K, b, hIs, hnf, hn, hp, hpr, hq, hqc⟩ := Conv.dims hw hX hf
      set R := r - p + 1 with hR
      set C := c - q + 1 with hC
      have hQ : (Layer.conv l).preActs (.matrix ms) = some (cube nf R C (convPre n p q X K b)) :=
        Conv.computeQ_is hIs hnf hn hp hpr hq hqc hX
      have hd : ∀ o i j, ∃ d dc, o < nf → i < R → j < C →
          Act.dActivate l.func (convPre n p q X K b o i j) = some d
          ∧ Act.dConjActivate l.func (convPre n p q X K b o i j) = some dc
          ∧ RunDerivAt (Act.activate l.func) (convPre n p q X K b o i j) d dc := by
        intro o i j
        by_cases hh : o < nf ∧ i < R ∧ j < C
        · obtain ⟨d, dc, h⟩ := hs _ hQ _ (mem_cube hh.1 hh.2.1 hh.2.2)
          exact ⟨d, dc, fun _ _ _ => h⟩
        · exact ⟨0, 0, fun h1 h2 h3 => absurd ⟨h1, h2, h3⟩ hh⟩
      choose d dc hd using hd
      have hact : ∀ o i j, ∃ y', o < nf → i < R → j < C →
          Act.activate l.func (convPre n p q X K b o i j) = some y' := by
        intro o i j
        by_cases hh : o < nf ∧ i < R ∧ j < C
        · obtain ⟨-, -, F, h, -⟩ := hd o i j hh.1 hh.2.1 hh.2.2
          have := h.self_of_nhds
          rw [Cf.ofC_toC] at this
          exact ⟨_, fun _ _ _ => this⟩
        · exact ⟨0, fun h1 h2 h3 => absurd ⟨h1, h2, h3⟩ hh⟩
      choose y' hy' using hact
      obtain ⟨outs, ho1, ho2⟩ := C40_forward hIs hnf hn hp hpr hq hqc hX y'
        (fun o ho i hi j hj => hy' o i j ho hi hj)
      rw [hf] at ho1
      simp only [Option.some.injEq, Except.ok.injEq] at ho1
      subst ho1
      have hout : ∀ F : Nat → Nat → Nat → Cf w ℝ, ∀ os, MapsAre os nf R C F →
          (IOType.matrix os).HasFlat (.maps nf R C) (flatOf R C F) := by
        intro F os h
        refine ⟨h.1, fun ch m hm => ⟨(h.2 ch m hm).1, ?_⟩⟩
        rw [(h.2 ch m hm).2]
        exact table_congr fun i hi j hj => (flatOf_idx F ch hi hj).symm
      refine ⟨nf, R, C, flatOf R C y', hout y' outs ho2, ?_⟩
      intro g gc hg
      set G : Nat → Nat → Nat → Cf w ℝ := fun o i j => g (o * (R * C) + (i * C + j)) with hG
      set GC : Nat → Nat → Nat → Cf w ℝ := fun o i j => gc (o * (R * C) + (i * C + j)) with hGC
      have hholo : (Layer.conv l).ActsHolo (.matrix ms) → ∀ o, o < nf → ∀ i, i < R → ∀ j, j < C →
          dc o i j = 0 := by
        intro hh o ho i hi j hj
        have h0 := hh _ hQ _ (mem_cube ho hi hj)
        have h1 := (hd o i j ho hi hj).2.1
        simp only [Layer.act] at h0
        rw [h0] at h1
        exact (Option.some.inj h1).symm
      have hg' : ∀ o, o < nf → ∀ i, i < R → ∀ j, j < C → CplxOps.conj (dc o i j) * GC o i j
          = CplxOps.conj (dc o i j) * CplxOps.conj (G o i j) := by
        intro o ho i hi j hj
        rcases hg with hg | hh
        · have : GC o i j = CplxOps.conj (G o i j) := hg _ (idx_lt ho (idx_lt hi hj))
          rw [this]
        · rw [hholo hh o ho i hi j hj, conj_zero', zero_mul, zero_mul]
      have hder := Conv.computeDerivatives_is hIs hnf hn hp hpr hq hqc hX G GC d dc
        (fun o ho i hi j hj => (hd o i j ho hi hj).1)
        (fun o ho i hi j hj => (hd o i j ho hi hj).2.1)
      set m : Nat → Nat → Nat → Cf w ℝ := fun o i j => d o i j * G o i j
        + CplxOps.conj (dc o i j) * GC o i j with hm
      set nd : Nat → Nat → Nat → Cf w ℝ := fun ch i j => ∑ o ∈ Finset.range nf,
        inputGrad R C p q (fun i j => d o i j * G o i j) (K o ch) i j with hnd
      set ndc : Nat → Nat → Nat → Cf w ℝ := fun ch i j => ∑ o ∈ Finset.range nf,
        inputGrad R C p q (fun i j => CplxOps.conj (dc o i j) * GC o i j) (K o ch) i j with hndc
      have hflat : ∀ F : Nat → Nat → Nat → Cf w ℝ,
          (List.range (n * (r * c))).map (flatOf r c F) = cube n r c F := by
        intro F
        rw [range_map_cube]
        exact cube_congr fun o _ i hi j hj => flatOf_idx F o hi hj
      refine ⟨((List.range nf).flatMap (fun o => cube n p q fun ch =>
          kernelGrad R C (X ch) (m o)), (List.range nf).map (fun o => ∑ i ∈ Finset.range R,
            ∑ j ∈ Finset.range C, m o i j)), flatOf r c nd, flatOf r c ndc, ?_, ?_, ?_, ?_⟩
      · unfold Layer.back
        rw [if_pos (by rfl)]
        simp only [Layer.computeDerivatives, Size.len]
        rw [range_map_cube, range_map_cube, hder, hflat, hflat]
        rfl
      · rw [LayerVec.Fits, if_pos (by rfl)]
        simp only [Layer.paramsLen]
        rw [Conv.paramsLen_is hIs, List.length_flatMap]
        simp [cube_length, Nat.mul_assoc]
      · intro hh
        refine flat_ind fun ch hch i hi j hj => ?_
        rw [flatOf_idx _ _ hi hj, hndc]
        refine Finset.sum_eq_zero fun o ho => inputGrad_eq_zero _ _ _ _ _ _ (fun i hi j hj => ?_) _ _
        rw [hholo hh o (Finset.mem_range.mp ho) i hi j hj, conj_zero', zero_mul]
      · intro δ hδ cu v hc
        rw [LayerVec.Fits, if_pos (by rfl)] at hδ
        simp only [Layer.paramsLen] at hδ
        rw [Conv.paramsLen_is hIs] at hδ
        obtain ⟨D, hD⟩ := exists_kernels nf n p q δ.1 hδ.1
        obtain ⟨e, he⟩ := exists_range_map δ.2
        rw [hδ.2] at he
        set V : Nat → Nat → Nat → Cf w ℝ := fun ch i j => Cf.ofC (v (ch * (r * c) + (i * c + j)))
          with hV
        obtain ⟨c', hc1, hc2⟩ := Conv.tangent hIs hnf hn hp hpr hq hqc X V
          (fun ch i j => cu (ch * (r * c) + (i * c + j))) (fun ch hch i hi j hj => by
            have := hc _ (idx_lt hch (idx_lt hi hj))
            rw [hV, Cf.toC_ofC]
            exact this) D e d dc y' (fun o ho i hi j hj =>
              ⟨(hd o i j ho hi hj).2.2, hy' o i j ho hi hj⟩)
        set Q := convVar n p q X V K D e with hQdef
        refine ⟨flatOf R C c', flatOf R C fun o i j => (d o i j).toC * (Q o i j).toC
          + (dc o i j).toC * conj (Q o i j).toC, ?_, ?_, ?_⟩
        · refine flat_ind fun o ho i hi j hj => ?_
          rw [flatOf_idx _ _ hi hj, flatOf_idx _ _ hi hj, flatOf_idx _ _ hi hj]
          exact hc1 o ho i hi j hj
        · filter_upwards [hc2] with s hs' X' hX'
          cases X' with
          | scalar x => exact absurd hX' id
          | matrix ms' =>
            obtain ⟨outs', k1, k2⟩ := hs' ms' hX'
            refine ⟨.matrix outs', ?_, hout _ _ k2⟩
            rw [← k1, Layer.move, ← hD, ← he]
        · rw [sum_cube nf R C]
          have e1 : ∀ o, o < nf → ∀ i, i < R → ∀ j, j < C →
              ((g (o * (R * C) + (i * C + j))).toC * flatOf R C (fun o i j => (d o i j).toC
                * (Q o i j).toC + (dc o i j).toC * conj (Q o i j).toC)
                (o * (R * C) + (i * C + j))).re = (m o i j * Q o i j).toC.re := by
            intro o ho i hi j hj
            have h := congrArg Cf.toC (hg' o ho i hi j hj)
            rw [Cf.toC_hom_mul, Cf.toC_hom_mul] at h
            rw [flatOf_idx _ _ hi hj, hm, Cf.toC_hom_mul, Cf.toC_hom_add, Cf.toC_hom_mul,
              Cf.toC_hom_mul, h]
            show _ = (((d o i j).toC * (G o i j).toC
              + (Cf.conj (dc o i j)).toC * (Cf.conj (G o i j)).toC) * (Q o i j).toC).re
            rw [Cf.toC_conj, Cf.toC_conj]
            show ((G o i j).toC * _).re = _
            simp only [Complex.add_re, Complex.mul_re, Complex.mul_im, Complex.conj_re,
              Complex.conj_im, Complex.add_im]
            ring
          have e2 := congrArg Cf.toC (conv_pair nf n r c p q hp hpr hq hqc X V K D e m)
          have e3 : (∑ o ∈ Finset.range nf, ∑ i ∈ Finset.range R, ∑ j ∈ Finset.range C,
              (g (o * (R * C) + (i * C + j))).toC * flatOf R C (fun o i j => (d o i j).toC
                * (Q o i j).toC + (dc o i j).toC * conj (Q o i j).toC)
                (o * (R * C) + (i * C + j))).re
              = (∑ o ∈ Finset.range nf, ∑ i ∈ Finset.range R, ∑ j ∈ Finset.range C,
                m o i j * Q o i j).toC.re := by
            simp only [Complex.re_sum, Cf.toC_sum]
            exact Finset.sum_congr rfl fun o ho => Finset.sum_congr rfl fun i hi =>
              Finset.sum_congr rfl fun j hj => e1 o (Finset.mem_range.mp ho) i
                (Finset.mem_range.mp hi) j (Finset.mem_range.mp hj)
          rw [e3, e2, hD, he, pairing_flatMap_cube, pairing_range, Size.len, sum_cube n r c]
          have e4 : ∀ ch, ∀ i, i < r → ∀ j, j < c →
              (flatOf r c nd (ch * (r * c) + (i * c + j))
                + flatOf r c ndc (ch * (r * c) + (i * c + j))).toC
                * v (ch * (r * c) + (i * c + j))
              = ((∑ o ∈ Finset.range nf, inputGrad R C p q (m o) (K o ch) i j) * V ch i j).toC := by
            intro ch i hi j hj
            rw [flatOf_idx _ _ hi hj, flatOf_idx _ _ hi hj, Cf.toC_hom_mul, hV, Cf.toC_ofC, hnd,
              hndc]
            simp only
            rw [← Finset.sum_add_distrib]
            simp only [← inputGrad_add, hm]
          have e5 : ∑ ch ∈ Finset.range n, ∑ i ∈ Finset.range r, ∑ j ∈ Finset.range c,
              (flatOf r c nd (ch * (r * c) + (i * c + j))
                + flatOf r c ndc (ch * (r * c) + (i * c + j))).toC
                * v (ch * (r * c) + (i * c + j))
              = (∑ ch ∈ Finset.range n, ∑ i ∈ Finset.range r, ∑ j ∈ Finset.range c,
                (∑ o ∈ Finset.range nf, inputGrad R C p q (m o) (K o ch) i j) * V ch i j).toC := by
            simp only [Cf.toC_sum]
            exact Finset.sum_congr rfl fun ch _ => Finset.sum_congr rfl fun i hi =>
              Finset.sum_congr rfl fun j hj => (e4 ch i (Finset.mem_range.mp hi) j
                (Finset.mem_range.mp hj)).trans (by simp only [Cf.toC_sum, Cf.toC_hom_mul])
          rw [e5]
          simp only [Cf.toC_hom_add, Cf.toC_sum, Cf.toC_hom_mul, Complex.add_re]
          ring

end Renplex
