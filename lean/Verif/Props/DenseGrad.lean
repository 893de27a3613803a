import Verif.Props.Descent
import Mathlib.Analysis.Calculus.Deriv.Add
import Mathlib.Analysis.Calculus.Deriv.Mul
/-!
# The derivatives of one dense layer
-/

namespace Renplex
open Filter Topology ComplexConjugate

section dense
variable {α P : Type}

theorem Dense.derivLoop_eq [BasicOps α] [CommRing α] [LawfulOps α] {n : Nat} (x : Nat → α)
    (W : Nat → Nat → α) (v cv : Nat → α) (js : List Nat) (a b : List α) (nd : Nat → α) :
    Dense.derivLoop ((List.range n).map x)
      (js.map fun j => ((v j, cv j), (List.range n).map (W j))) (a, b, (List.range n).map nd)
      = some (a ++ js.flatMap (fun j => (List.range n).map fun i => x i * (v j + cv j)),
          b ++ js.map (fun j => v j + cv j),
          (List.range n).map fun i => nd i + (js.map fun j => W j i * (v j + cv j)).sum) := by
  induction js generalizing a b nd with
  | nil => simp [Dense.derivLoop]
  | cons j js ih =>
    simp only [List.map_cons, Dense.derivLoop, LawfulOps.add_eq, LawfulOps.mul_eq, List.map_map]
    have : unwrap (addSliceMut ((List.range n).map nd)
        ((List.range n).map ((fun e => e * (v j + cv j)) ∘ W j)))
        = some ((List.range n).map fun i => nd i + W j i * (v j + cv j)) := by
      unfold addSliceMut
      rw [if_neg (by simp), zipUpd_eq_zipWith _ _ _ (by simp)]
      simp [unwrap, List.zipWith_map, List.zipWith_self]
    rw [this]
    simp only [Option.bind_eq_bind, Option.bind_some]
    rw [ih]
    simp [List.append_assoc, add_assoc, Function.comp_def]

/-- What the derivatives of a dense layer are: `mⱼ = dⱼ·gⱼ + conj(dcⱼ)·gcⱼ` per unit, `xᵢ·mⱼ` for
the weights, `mⱼ` for the biases and `Σⱼ Wⱼᵢ·mⱼ` for the input. -/
theorem Dense.computeDerivatives_is [CplxOps α P] [CommRing α] [LawfulOps α] {l : Dense α}
    {u n : Nat} {W : Nat → Nat → α} {b : Nat → α} {f : ActFunc} (h : l.Is u n W b f) (hn : 0 < n)
    (x g gc d dc : Nat → α)
    (hd : ∀ j, j < u → CplxOps.dActivate f ((∑ i ∈ Finset.range n, W j i * x i) + b j) = some (d j))
    (hdc : ∀ j, j < u →
      CplxOps.dConjActivate f ((∑ i ∈ Finset.range n, W j i * x i) + b j) = some (dc j)) :
    l.computeDerivatives (.scalar ((List.range n).map x)) ((List.range u).map g)
        ((List.range u).map gc)
      = some (.ok (table u n fun j i => x i * (d j * g j + CplxOps.conj (dc j) * gc j),
          (List.range u).map fun j => d j * g j + CplxOps.conj (dc j) * gc j,
          (List.range n).map fun i => ∑ j ∈ Finset.range u,
            W j i * (d j * g j + CplxOps.conj (dc j) * gc j),
          ((List.range n).map fun i => ∑ j ∈ Finset.range u,
            W j i * (d j * g j + CplxOps.conj (dc j) * gc j)).map CplxOps.conj)) := by
  unfold Dense.computeDerivatives
  rw [if_neg (by simp [h.1.1]), if_neg (by simp [h.1.1])]
  simp only [Dense.computeQ_is h hn, Option.bind_eq_bind, Option.bind_some, zip_range_map,
    mapM_map', h.2.2, dotN_sum, LawfulOps.addAssign_eq]
  rw [mapM_some_of _ (fun j => d j * g j) _ (by
      intro j hj; simp [hd j (List.mem_range.mp hj)]),
    mapM_some_of _ (fun j => CplxOps.conj (dc j) * gc j) _ (by
      intro j hj; simp [hdc j (List.mem_range.mp hj)])]
  have hrows : l.weights.rowsAsIter
      = some ((List.range u).map fun j => (List.range n).map (W j)) := by
    unfold Mat.rowsAsIter
    rw [h.1.2, h.1.1]
    exact chunks_table u n W hn
  simp only [Option.bind_some, hrows, zip_range_map, h.1.1]
  have hz : List.replicate n (BasicOps.zero : α) = (List.range n).map fun _ => 0 := by
    rw [range_map_const, LawfulOps.zero_eq]
  rw [hz, Dense.derivLoop_eq]
  simp only [List.nil_append, Option.bind_some, zero_add, sum_range_list]
  rfl

end dense

variable {w : Width}

theorem Cf.toC_sum (s : Finset Nat) (F : Nat → Cf w ℝ) :
    (∑ i ∈ s, F i).toC = ∑ i ∈ s, (F i).toC := map_sum (Cf.toCHom (w := w)) F s

/-- The activation along a curve. -/
theorem act_curve {f : ActFunc} {q : ℝ → ℂ} {q' : ℂ} (hq : HasDerivAt q q' 0) {z d dc : Cf w ℝ}
    (hz : q 0 = z.toC) (hr : RunDerivAt (Act.activate f) z d dc) :
    ∃ F : ℝ → ℂ, HasDerivAt F (d.toC * q' + dc.toC * conj q') 0
      ∧ Act.activate f z = some (Cf.ofC (F 0))
      ∧ ∀ᶠ s : ℝ in 𝓝 0, Act.activate f (Cf.ofC (q s) : Cf w ℝ) = some (Cf.ofC (F s)) := by
  obtain ⟨G, h1, h2⟩ := hr
  refine ⟨fun s => G (q s), ?_, ?_, ?_⟩
  · rw [← hz] at h2
    exact h2.comp_curve hq
  · have := h1.self_of_nhds
    rw [Cf.ofC_toC] at this
    rw [this]
    simp only [hz]
  · have hc : Tendsto q (𝓝 0) (𝓝 z.toC) := by rw [← hz]; exact hq.continuousAt
    exact hc.eventually h1

theorem moved_mat {u n : Nat} {W D : Nat → Nat → Cf w ℝ} (s : ℝ) :
    List.zipWith (fun p d : Cf w ℝ => Cf.ofC (p.toC + s * d.toC) : _ → _ → Cf w ℝ) (table u n W)
      (table u n D) = table u n fun j i => Cf.ofC ((W j i).toC + s * (D j i).toC) :=
  table_zipWith u n W D _

/-- The pre-activations of a dense layer along a curve of inputs and parameters. -/
theorem preact_curve {n : Nat} {W x D : Nat → Cf w ℝ} {b e : Cf w ℝ} {c : Nat → ℝ → ℂ}
    {v : Nat → ℂ} (hc : ∀ i, i < n → HasDerivAt (c i) (v i) 0 ∧ c i 0 = (x i).toC) :
    HasDerivAt (fun s : ℝ => (∑ i ∈ Finset.range n, ((W i).toC + s * (D i).toC) * c i s)
        + (b.toC + s * e.toC))
      ((∑ i ∈ Finset.range n, ((W i).toC * v i + (D i).toC * (x i).toC)) + e.toC) 0 := by
  have hlin : ∀ a d : ℂ, HasDerivAt (fun s : ℝ => a + s * d) d 0 := by
    intro a d
    have h := ((Complex.ofRealCLM.hasDerivAt (x := (0 : ℝ))).mul_const d).const_add a
    refine h.congr_deriv ?_
    simp
  refine HasDerivAt.add ?_ (hlin _ _)
  refine HasDerivAt.fun_sum fun i hi => ?_
  obtain ⟨h1, h2⟩ := hc i (Finset.mem_range.mp hi)
  have := (hlin (W i).toC (D i).toC).mul h1
  refine this.congr_deriv ?_
  rw [h2]
  simp
  ring

/-- The outputs of a dense layer along a curve of inputs and parameters. -/
theorem Dense.tangent {l : Dense (Cf w ℝ)} {u n : Nat} {W : Nat → Nat → Cf w ℝ}
    {b : Nat → Cf w ℝ} {f : ActFunc} (h : l.Is u n W b f) (hn : 0 < n) (x : Nat → Cf w ℝ)
    (c : Nat → ℝ → ℂ) (v : Nat → ℂ)
    (hc : ∀ i, i < n → HasDerivAt (c i) (v i) 0 ∧ c i 0 = (x i).toC)
    (D : Nat → Nat → Cf w ℝ) (e d dc : Nat → Cf w ℝ)
    (hr : ∀ j, j < u → RunDerivAt (Act.activate f)
      ((∑ i ∈ Finset.range n, W j i * x i) + b j) (d j) (dc j)) (y : Nat → Cf w ℝ)
    (hy : l.forward (.scalar ((List.range n).map x)) = some (.ok (.scalar ((List.range u).map y)))) :
    ∃ c' : Nat → ℝ → ℂ, (∀ j, j < u → HasDerivAt (c' j)
        ((d j).toC * ((∑ i ∈ Finset.range n, ((W j i).toC * v i + (D j i).toC * (x i).toC))
            + (e j).toC)
          + (dc j).toC * conj ((∑ i ∈ Finset.range n, ((W j i).toC * v i
            + (D j i).toC * (x i).toC)) + (e j).toC)) 0 ∧ c' j 0 = (y j).toC)
      ∧ ∀ᶠ s : ℝ in 𝓝 0, Layer.forward ((Layer.dense l).zipParams
          (fun p d => Cf.ofC (p.toC + (s : ℂ) * d.toC)) (table u n D, (List.range u).map e))
          (.scalar ((List.range n).map fun i => Cf.ofC (c i s)))
        = some (.ok (.scalar ((List.range u).map fun j => Cf.ofC (c' j s)))) := by
  have key : ∀ j, ∃ F : ℝ → ℂ, j < u → HasDerivAt F
        ((d j).toC * ((∑ i ∈ Finset.range n, ((W j i).toC * v i + (D j i).toC * (x i).toC))
            + (e j).toC)
          + (dc j).toC * conj ((∑ i ∈ Finset.range n, ((W j i).toC * v i
            + (D j i).toC * (x i).toC)) + (e j).toC)) 0
      ∧ Act.activate f ((∑ i ∈ Finset.range n, W j i * x i) + b j) = some (Cf.ofC (F 0))
      ∧ ∀ᶠ s : ℝ in 𝓝 0, Act.activate f (Cf.ofC ((∑ i ∈ Finset.range n,
          ((W j i).toC + s * (D j i).toC) * c i s) + ((b j).toC + s * (e j).toC)) : Cf w ℝ)
        = some (Cf.ofC (F s)) := by
    intro j
    by_cases hj : j < u
    · obtain ⟨F, h1, h2, h3⟩ := act_curve (preact_curve (W := W j) (D := D j) (b := b j) (e := e j)
        hc) (z := (∑ i ∈ Finset.range n, W j i * x i) + b j) (by
          rw [Cf.toC_hom_add, Cf.toC_sum]
          simp only [Complex.ofReal_zero, zero_mul, add_zero]
          congr 1
          refine Finset.sum_congr rfl fun i hi => ?_
          rw [(hc i (Finset.mem_range.mp hi)).2, Cf.toC_hom_mul]) (hr j hj)
      exact ⟨F, fun _ => ⟨h1, h2, h3⟩⟩
    · exact ⟨fun _ => 0, fun h => absurd h hj⟩
  choose F hF using key
  refine ⟨F, fun j hj => ⟨(hF j hj).1, ?_⟩, ?_⟩
  · have h1 := C38_forward_exact_partial h hn x (fun j => Cf.ofC (F j 0))
      fun j hj => (hF j hj).2.1
    rw [hy] at h1
    simp only [Option.some.injEq, Except.ok.injEq, IOType.scalar.injEq] at h1
    have h2 := List.map_inj_left.mp h1 j (List.mem_range.mpr hj)
    rw [h2, Cf.toC_ofC]
  · have hall : ∀ᶠ s : ℝ in 𝓝 0, ∀ j ∈ Finset.range u, Act.activate f (Cf.ofC
        ((∑ i ∈ Finset.range n, ((W j i).toC + s * (D j i).toC) * c i s)
          + ((b j).toC + s * (e j).toC)) : Cf w ℝ) = some (Cf.ofC (F j s)) :=
      (Finset.eventually_all _).mpr fun j hj => (hF j (Finset.mem_range.mp hj)).2.2
    filter_upwards [hall] with s hs
    have hIs : Dense.Is ⟨⟨List.zipWith (fun p d : Cf w ℝ => (Cf.ofC (p.toC + (s : ℂ) * d.toC)
        : Cf w ℝ)) l.weights.body (table u n D), l.weights.shape, l.weights.capacity⟩,
        List.zipWith (fun p d : Cf w ℝ => (Cf.ofC (p.toC + (s : ℂ) * d.toC) : Cf w ℝ)) l.biases
          ((List.range u).map e), l.func⟩ u n
        (fun j i => Cf.ofC ((W j i).toC + s * (D j i).toC))
        (fun j => Cf.ofC ((b j).toC + s * (e j).toC)) f := by
      refine ⟨⟨h.1.1, ?_⟩, ?_, h.2.2⟩
      · show List.zipWith _ l.weights.body _ = _
        rw [h.1.2]; exact moved_mat s
      · show List.zipWith _ l.biases _ = _
        rw [h.2.1]; simp [List.zipWith_map, List.zipWith_self]
    refine C38_forward_exact_partial hIs hn _ _ ?_
    intro j hj
    rw [← hs j (Finset.mem_range.mpr hj)]
    show Act.activate f _ = _
    congr 1
    apply Cf.toC_inj.mp
    rw [Cf.toC_hom_add, Cf.toC_sum, Cf.toC_ofC, Cf.toC_ofC]
    simp [Cf.toC_hom_mul, Cf.toC_ofC]

/-- The chain rule through one dense layer, paired with an output cotangent. -/
theorem Dense.pairing_identity {u n : Nat} (W D : Nat → Nat → ℂ) (x e v g gc d dc : Nat → ℂ)
    (hg : ∀ j, j < u → conj (dc j) * gc j = conj (dc j) * conj (g j)) :
    (∑ j ∈ Finset.range u, g j * (d j * ((∑ i ∈ Finset.range n, (W j i * v i + D j i * x i)) + e j)
        + dc j * conj ((∑ i ∈ Finset.range n, (W j i * v i + D j i * x i)) + e j))).re
      = ((∑ j ∈ Finset.range u, ∑ i ∈ Finset.range n,
            (x i * (d j * g j + conj (dc j) * gc j)) * D j i)
          + (∑ j ∈ Finset.range u, (d j * g j + conj (dc j) * gc j) * e j)
          + ∑ i ∈ Finset.range n, (∑ j ∈ Finset.range u,
              W j i * (d j * g j + conj (dc j) * gc j)) * v i).re := by
  have h1 : ∀ j, j < u → (g j * (d j * ((∑ i ∈ Finset.range n, (W j i * v i + D j i * x i)) + e j)
        + dc j * conj ((∑ i ∈ Finset.range n, (W j i * v i + D j i * x i)) + e j))).re
      = ((d j * g j + conj (dc j) * gc j)
          * ((∑ i ∈ Finset.range n, (W j i * v i + D j i * x i)) + e j)).re := by
    intro j hj
    rw [hg j hj]
    generalize (∑ i ∈ Finset.range n, (W j i * v i + D j i * x i)) + e j = q
    simp only [Complex.add_re, Complex.mul_re, Complex.mul_im, Complex.conj_re, Complex.conj_im,
      Complex.add_im]
    ring
  rw [Complex.re_sum, Finset.sum_congr rfl fun j hj => h1 j (Finset.mem_range.mp hj),
    ← Complex.re_sum]
  congr 1
  have h2 : ∑ i ∈ Finset.range n, (∑ j ∈ Finset.range u,
        W j i * (d j * g j + conj (dc j) * gc j)) * v i
      = ∑ j ∈ Finset.range u, ∑ i ∈ Finset.range n,
        W j i * (d j * g j + conj (dc j) * gc j) * v i := by
    rw [Finset.sum_comm]
    exact Finset.sum_congr rfl fun i _ => by rw [Finset.sum_mul]
  rw [h2, ← Finset.sum_add_distrib, ← Finset.sum_add_distrib]
  refine Finset.sum_congr rfl fun j _ => ?_
  rw [mul_add, Finset.mul_sum, add_right_comm, ← Finset.sum_add_distrib]
  congr 1
  exact Finset.sum_congr rfl fun i _ => by ring

end Renplex
