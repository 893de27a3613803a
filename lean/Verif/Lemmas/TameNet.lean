import Verif.Lemmas.Tame
import Verif.Props.DescentConv
import Verif.Props.TrainTotal
import Verif.Spec.Converge
/-!
# The predictions of a network along a line in parameter space
-/

namespace Renplex
open Filter Topology ComplexConjugate
variable {w : Width}

theorem table_mem {α : Type} {r c : Nat} {f : Nat → Nat → α} {i j : Nat} (hi : i < r) (hj : j < c) :
    f i j ∈ table r c f := by
  unfold table
  simp only [List.mem_flatMap, List.mem_map, List.mem_range]
  exact ⟨i, hi, j, hj, rfl⟩

/-- A smooth activation along a curve. -/
theorem act_tame {f : ActFunc} (hf : f.Regular) {K δ : ℝ} {q : ℝ → ℂ} (hq : Tame K δ q) (hδ : 0 ≤ δ) :
    ∃ F : ℝ → ℂ, Tame (actBound K) δ F
      ∧ ∀ s, Act.activate f (Cf.ofC (q s) : Cf w ℝ) = some (Cf.ofC (F s)) := by
  rcases hf with rfl | rfl
  · exact ⟨q, hq.mono hδ (le_actBound hq.nonneg), fun s => rfl⟩
  · exact ⟨_, hq.tanh hδ, fun s => rfl⟩

/-- What the layer does to curves with bounds: the new bound depends only on the extents, the old
bound and the size of the parameters. -/
def Layer.TameFor (l : Layer (Cf w ℝ)) (σ σ' : Size) (R K K' : ℝ) : Prop :=
  (∀ z ∈ l.params.1 ++ l.params.2, ‖z.toC‖ ≤ R) → ∀ δ, 0 ≤ δ → ∀ d : LayerVec (Cf w ℝ), d.Fits l →
  (∀ z ∈ d.1 ++ d.2, ‖z.toC‖ ≤ δ) → ∀ a : Nat → ℝ → ℂ, (∀ k < σ.len, Tame K δ (a k)) →
  ∃ b : Nat → ℝ → ℂ, (∀ k < σ'.len, Tame K' δ (b k))
    ∧ ∀ s (X : IOType (Cf w ℝ)), X.HasFlat σ (fun k => Cf.ofC (a k s)) →
      ∃ Y, (l.move d s).forward X = some (.ok Y) ∧ Y.HasFlat σ' fun k => Cf.ofC (b k s)

theorem dense_tame {l : Dense (Cf w ℝ)} (hs : l.func.Regular) (hw : (Layer.dense l).WF) {n u : Nat}
    (hf : (Layer.dense l).Fits (.vec n) (.vec u)) (R K : ℝ) :
    (Layer.dense l).TameFor (.vec n) (.vec u) R K (actBound (n * (4 * ((R + 1) * K)) + (R + 1))) := by
  have : Nonempty (Cf w ℝ) := ⟨0⟩
  intro hR δ hδ d hd hdb a ha
  obtain ⟨hn, hsh⟩ := hf
  obtain ⟨W, b, hIs⟩ := Dense.exists_is hw
  rw [hsh] at hIs
  simp only [LayerVec.Fits, Layer.propagates, Dense.propagates, Layer.paramsLen,
    Dense.paramsLen, if_true] at hd
  obtain ⟨D, hD⟩ := exists_table u n d.1 (by rw [hd.1, hsh])
  obtain ⟨e, he⟩ := exists_range_map d.2
  rw [hd.2, show l.biases.length = u by rw [hIs.2.1]; simp] at he
  have hWR : ∀ j < u, ∀ i < n, ‖(W j i).toC‖ ≤ R := by
    intro j hj i hi
    refine hR _ (List.mem_append_left _ ?_)
    show W j i ∈ l.weights.body
    rw [hIs.1.2]
    exact table_mem hj hi
  have hbR : ∀ j < u, ‖(b j).toC‖ ≤ R := by
    intro j hj
    refine hR _ (List.mem_append_right _ ?_)
    show b j ∈ l.biases
    rw [hIs.2.1]
    exact List.mem_map.mpr ⟨j, List.mem_range.mpr hj, rfl⟩
  have hDR : ∀ j < u, ∀ i < n, ‖(D j i).toC‖ ≤ δ := by
    intro j hj i hi
    refine hdb _ (List.mem_append_left _ ?_)
    rw [hD]
    exact table_mem hj hi
  have heR : ∀ j < u, ‖(e j).toC‖ ≤ δ := by
    intro j hj
    refine hdb _ (List.mem_append_right _ ?_)
    rw [he]
    exact List.mem_map.mpr ⟨j, List.mem_range.mpr hj, rfl⟩
  have key : ∀ j, ∃ F : ℝ → ℂ, j < u → Tame (actBound (n * (4 * ((R + 1) * K)) + (R + 1))) δ F
      ∧ ∀ s : ℝ, Act.activate l.func (Cf.ofC ((∑ i ∈ Finset.range n,
          ((W j i).toC + s * (D j i).toC) * a i s) + ((b j).toC + s * (e j).toC)) : Cf w ℝ)
        = some (Cf.ofC (F s)) := by
    intro j
    by_cases hj : j < u
    · have hq : Tame (n * (4 * ((R + 1) * K)) + (R + 1)) δ (fun s : ℝ => (∑ i ∈ Finset.range n,
          ((W j i).toC + s * (D j i).toC) * a i s) + ((b j).toC + s * (e j).toC)) := by
        refine Tame.add (Tame.sum hδ fun i hi => ?_) (Tame.line hδ (hbR j hj) (heR j hj))
        exact Tame.mul (Tame.line hδ (hWR j hj i hi) (hDR j hj i hi)) (ha i hi) hδ
      obtain ⟨F, h1, h2⟩ := act_tame (w := w) hs hq hδ
      exact ⟨F, fun _ => ⟨h1, h2⟩⟩
    · exact ⟨fun _ => 0, fun h => absurd h hj⟩
  choose F hF using key
  refine ⟨F, fun j hj => (hF j hj).1, fun s X hX => ?_⟩
  cases X with
  | matrix ms => exact absurd hX id
  | scalar v =>
    have hv : v = (List.range n).map fun k => Cf.ofC (a k s) := hX
    subst hv
    refine ⟨.scalar ((List.range u).map fun j => Cf.ofC (F j s)), ?_, rfl⟩
    have hIs' : Dense.Is ⟨⟨List.zipWith (fun p d : Cf w ℝ => (Cf.ofC (p.toC + (s : ℂ) * d.toC)
        : Cf w ℝ)) l.weights.body d.1, l.weights.shape, l.weights.capacity⟩,
        List.zipWith (fun p d : Cf w ℝ => (Cf.ofC (p.toC + (s : ℂ) * d.toC) : Cf w ℝ)) l.biases
          d.2, l.func⟩ u n
        (fun j i => Cf.ofC ((W j i).toC + s * (D j i).toC))
        (fun j => Cf.ofC ((b j).toC + s * (e j).toC)) l.func := by
      refine ⟨⟨hIs.1.1, ?_⟩, ?_, rfl⟩
      · show List.zipWith _ l.weights.body _ = _
        rw [hIs.1.2, hD]; exact moved_mat s
      · show List.zipWith _ l.biases _ = _
        rw [hIs.2.1, he]; simp [List.zipWith_map, List.zipWith_self]
    refine C38_forward_exact_partial hIs' hn _ _ ?_
    intro j hj
    rw [← (hF j hj).2 s]
    show Act.activate l.func _ = _
    congr 1
    apply Cf.toC_inj.mp
    rw [Cf.toC_hom_add, Cf.toC_sum, Cf.toC_ofC, Cf.toC_ofC]
    simp [Cf.toC_hom_mul, Cf.toC_ofC]

theorem conv_tame {l : Conv (Cf w ℝ)} (hs : l.func.Regular) (hw : (Layer.conv l).WF)
    {n r c nf r' c' : Nat} (hf : (Layer.conv l).Fits (.maps n r c) (.maps nf r' c')) (R K : ℝ) :
    (Layer.conv l).TameFor (.maps n r c) (.maps nf r' c') R K
      (actBound (n * ((r - r' + 1 : Nat) * ((c - c' + 1 : Nat) * (4 * (K * (R + 1))))) + (R + 1))) := by
  have : Nonempty (Cf w ℝ) := ⟨0⟩
  intro hR δ hδ d hd hdb a ha
  obtain ⟨hn, hnf, hsh, p, q, hk, hp, hpr, hq, hqc, rfl, rfl⟩ := hf
  have ep : r - (r - p + 1) + 1 = p := by omega
  have eq : c - (c - q + 1) + 1 = q := by omega
  rw [ep, eq]
  obtain ⟨Kr, b, hIs⟩ := Conv.exists_is hw hk
  rw [hsh] at hIs
  rw [LayerVec.Fits, if_pos (by rfl)] at hd
  simp only [Layer.paramsLen] at hd
  rw [Conv.paramsLen_is hIs] at hd
  obtain ⟨D, hD⟩ := exists_kernels nf n p q d.1 hd.1
  obtain ⟨e, he⟩ := exists_range_map d.2
  rw [hd.2] at he
  have hKR : ∀ o < nf, ∀ ch < n, ∀ x < p, ∀ y < q, ‖(Kr o ch x y).toC‖ ≤ R := by
    intro o ho ch hch x hx y hy
    refine hR _ (List.mem_append_left _ ?_)
    show Kr o ch x y ∈ l.kernels.body.flatMap Mat.getBody
    obtain ⟨-, -, -, M, hM, hM2⟩ := hIs
    refine List.mem_flatMap.mpr ⟨M o ch, ?_, ?_⟩
    · rw [hM.2]; exact table_mem ho hch
    · show _ ∈ (M o ch).body
      rw [(hM2 o ho ch hch).2]; exact table_mem hx hy
  have hbR : ∀ j < nf, ‖(b j).toC‖ ≤ R := by
    intro j hj
    refine hR _ (List.mem_append_right _ ?_)
    show b j ∈ l.biases
    rw [hIs.2.1]
    exact List.mem_map.mpr ⟨j, List.mem_range.mpr hj, rfl⟩
  have hDR : ∀ o < nf, ∀ ch < n, ∀ x < p, ∀ y < q, ‖(D o ch x y).toC‖ ≤ δ := by
    intro o ho ch hch x hx y hy
    refine hdb _ (List.mem_append_left _ ?_)
    rw [hD]
    exact List.mem_flatMap.mpr ⟨o, List.mem_range.mpr ho, mem_cube hch hx hy⟩
  have heR : ∀ j < nf, ‖(e j).toC‖ ≤ δ := by
    intro j hj
    refine hdb _ (List.mem_append_right _ ?_)
    rw [he]
    exact List.mem_map.mpr ⟨j, List.mem_range.mpr hj, rfl⟩
  have key : ∀ o i j, ∃ F : ℝ → ℂ, o < nf → i < r - p + 1 → j < c - q + 1 →
      Tame (actBound (n * (p * (q * (4 * (K * (R + 1))))) + (R + 1))) δ F
      ∧ ∀ s : ℝ, Act.activate l.func (convPre n p q
          (fun ch i j => (Cf.ofC (a (ch * (r * c) + (i * c + j)) s) : Cf w ℝ))
          (fun o ch a b => Cf.ofC ((Kr o ch a b).toC + s * (D o ch a b).toC))
          (fun o => Cf.ofC ((b o).toC + s * (e o).toC)) o i j) = some (Cf.ofC (F s)) := by
    intro o i j
    by_cases hh : o < nf ∧ i < r - p + 1 ∧ j < c - q + 1
    · obtain ⟨ho, hi, hj⟩ := hh
      have hqq : Tame (n * (p * (q * (4 * (K * (R + 1))))) + (R + 1)) δ (fun s : ℝ =>
          (∑ ch ∈ Finset.range n, ∑ x ∈ Finset.range p, ∑ y ∈ Finset.range q,
            a (ch * (r * c) + ((i + x) * c + (j + y))) s
              * ((Kr o ch x y).toC + s * (D o ch x y).toC))
            + ((b o).toC + s * (e o).toC)) := by
        refine Tame.add (Tame.sum hδ fun ch hch => Tame.sum hδ fun x hx => Tame.sum hδ fun y hy => ?_)
          (Tame.line hδ (hbR o ho) (heR o ho))
        refine Tame.mul (ha _ (idx_lt hch (idx_lt (by omega) (by omega))))
          (Tame.line hδ (hKR o ho ch hch x hx y hy) (hDR o ho ch hch x hx y hy)) hδ
      obtain ⟨F, h1, h2⟩ := act_tame (w := w) hs hqq hδ
      refine ⟨F, fun _ _ _ => ⟨h1, fun s => ?_⟩⟩
      rw [← h2 s]
      congr 1
      apply Cf.toC_inj.mp
      rw [convPre_sum, Cf.toC_hom_add, Cf.toC_sum, Cf.toC_ofC, Cf.toC_ofC]
      simp only [Cf.toC_sum, Cf.toC_hom_mul, Cf.toC_ofC]
    · exact ⟨fun _ => 0, fun h1 h2 h3 => absurd ⟨h1, h2, h3⟩ hh⟩
  choose F hF using key
  refine ⟨flatOf (r - p + 1) (c - q + 1) F, flat_ind fun o ho i hi j hj => ?_, fun s X hX => ?_⟩
  · rw [flatOf_idx _ _ hi hj]
    exact (hF o i j ho hi hj).1
  · cases X with
    | scalar v => exact absurd hX id
    | matrix ms =>
      obtain ⟨l', hl, hIs'⟩ := Conv.move_is hIs (fun p d => Cf.ofC (p.toC + (s : ℂ) * d.toC)) D e
      obtain ⟨outs, k1, k2⟩ := C40_forward hIs' hnf hn hp hpr hq hqc hX
        (fun o i j => Cf.ofC (F o i j s)) (fun o ho i hi j hj => (hF o i j ho hi hj).2 s)
      refine ⟨.matrix outs, ?_, k2.1, fun ch m hm => ⟨(k2.2 ch m hm).1, ?_⟩⟩
      · have e1 : (Layer.conv l).move d s = .conv l' := by
          rw [← hl, Layer.move, ← hD, ← he]
        rw [e1]
        exact k1
      · rw [(k2.2 ch m hm).2]
        exact table_congr fun i hi j hj => by simp only [flatOf_idx F ch hi hj]

theorem layer_tame (σ σ' : Size) (R K : ℝ) : ∃ K', ∀ l : Layer (Cf w ℝ), l.Regular → l.WF →
    l.Fits σ σ' → l.TameFor σ σ' R K K' := by
  cases σ with
  | vec n => cases σ' with
    | vec u =>
      refine ⟨actBound (n * (4 * ((R + 1) * K)) + (R + 1)), fun l hs hw hf => ?_⟩
      cases l with
      | dense l => exact dense_tame hs hw hf R K
      | _ => exact hf.elim
    | maps n r c => exact ⟨0, fun l _ _ hf => by cases l <;> exact hf.elim⟩
  | maps n r c => cases σ' with
    | maps nf r' c' =>
      refine ⟨actBound (n * ((r - r' + 1 : Nat) * ((c - c' + 1 : Nat) * (4 * (K * (R + 1)))))
        + (R + 1)), fun l hs hw hf => ?_⟩
      cases l with
      | conv l => exact conv_tame hs hw hf R K
      | reduce l => exact hs.elim
      | _ => exact hf.elim
    | vec u =>
      refine ⟨K, fun l hs hw hf => ?_⟩
      cases l with
      | flatten l =>
        obtain ⟨-, rfl⟩ := hf
        intro _ δ _ d _ _ a ha
        refine ⟨a, ha, fun s X hX => ?_⟩
        cases X with
        | scalar v => exact absurd hX id
        | matrix ms => exact ⟨_, flatten_flat (l := l) hX, rfl⟩
      | _ => exact hf.elim

theorem Layer.Alike.fits {l l' : Layer (Cf w ℝ)} (h : l.Alike l') {σ σ' : Size} (hf : l.Fits σ σ') :
    l'.Fits σ σ' := by
  cases l <;> cases l' <;> first | exact h.elim | skip
  · cases σ <;> cases σ' <;> first | exact hf.elim | exact ⟨hf.1, h.1.trans hf.2⟩
  · cases σ <;> cases σ' <;> try exact hf.elim
    obtain ⟨hn, hnf, hs, p, q, hk, hr⟩ := hf
    refine ⟨hn, hnf, h.1.trans hs, p, q, fun k hk' => ?_, hr⟩
    have := List.mem_map_of_mem (f := Mat.shape) hk'
    rw [h.2.2] at this
    obtain ⟨k₀, h1, h2⟩ := List.mem_map.mp this
    rw [← h2, hk _ h1]
  · obtain rfl := h; exact hf
  · obtain rfl := h; exact hf

theorem Layer.Alike.regular {l l' : Layer (Cf w ℝ)} (h : l.Alike l') (hs : l.Regular) : l'.Regular := by
  cases l <;> cases l' <;> first | exact h.elim | skip
  · show ActFunc.Regular _; rw [h.2]; exact hs
  · show ActFunc.Regular _; rw [h.2.1]; exact hs
  · exact hs
  · trivial

theorem chain_tame {ls : List (Layer (Cf w ℝ))} {σ σ' : Size} (hf : FitsChain ls σ σ')
    (hs : ∀ l ∈ ls, l.Regular) (R K : ℝ) : ∃ K', ∀ ls' : List (Layer (Cf w ℝ)),
    List.Forall₂ Layer.Alike ls ls' → (∀ l ∈ ls', l.WF) →
    (∀ l ∈ ls', ∀ z ∈ l.params.1 ++ l.params.2, ‖z.toC‖ ≤ R) →
    ∀ δ, 0 ≤ δ → ∀ ds : List (LayerVec (Cf w ℝ)), List.Forall₂ LayerVec.Fits ds ls' →
    (∀ d ∈ ds, ∀ z ∈ d.1 ++ d.2, ‖z.toC‖ ≤ δ) → ∀ a : Nat → ℝ → ℂ, (∀ k < σ.len, Tame K δ (a k)) →
    ∃ b : Nat → ℝ → ℂ, (∀ k < σ'.len, Tame K' δ (b k))
      ∧ ∀ s (X : IOType (Cf w ℝ)), X.HasFlat σ (fun k => Cf.ofC (a k s)) →
        ∃ Y, (List.zipWith (fun l d => l.move d s) ls' ds).foldlM
            (fun acc layer => Net.fwd layer acc) X = some Y
          ∧ Y.HasFlat σ' fun k => Cf.ofC (b k s) := by
  induction hf generalizing K with
  | nil s =>
    refine ⟨K, fun ls' hal _ _ δ _ ds hd _ a ha => ?_⟩
    cases hal
    cases hd
    exact ⟨a, ha, fun s X hX => ⟨X, rfl, hX⟩⟩
  | @cons l ls σ σ₁ σ' h t ih =>
    obtain ⟨K₁, h1⟩ := layer_tame (w := w) σ σ₁ R K
    obtain ⟨K', h2⟩ := ih (fun l hl => hs l (by simp [hl])) K₁
    refine ⟨K', fun ls' hal hw hR δ hδ ds hd hdb a ha => ?_⟩
    cases hal with
    | @cons _ l' _ ls' hal hals =>
      cases hd with
      | @cons d _ ds _ hd hds =>
        obtain ⟨b₁, k1, k2⟩ := h1 l' (hal.regular (hs l (by simp))) (hw l' (by simp)) (hal.fits h)
          (hR l' (by simp)) δ hδ d hd (hdb d (by simp)) a ha
        obtain ⟨b, k3, k4⟩ := h2 ls' hals (fun l hl => hw l (by simp [hl]))
          (fun l hl => hR l (by simp [hl])) δ hδ ds hds (fun d hd => hdb d (by simp [hd])) b₁ k1
        refine ⟨b, k3, fun s X hX => ?_⟩
        obtain ⟨Y₁, e1, e2⟩ := k2 s X hX
        obtain ⟨Y, e3, e4⟩ := k4 s Y₁ e2
        refine ⟨Y, ?_, e4⟩
        rw [List.zipWith_cons_cons, List.foldlM_cons]
        have : Net.fwd (l'.move d s) X = some Y₁ := by
          simp [Net.fwd, e1, unwrap]
        rw [this]
        exact e3

/-- The squared error of one prediction along a line. -/
theorem sqSum_tame {u : Nat} {K δ : ℝ} {b : Nat → ℝ → ℂ} (hb : ∀ k < u, Tame K δ (b k)) (hδ : 0 ≤ δ)
    {T : Nat → Cf w ℝ} {M : ℝ} (hT : ∀ k < u, ‖(T k).toC‖ ≤ M) :
    ∃ F : ℝ → ℂ, Tame (u * (4 * ((M + K) * (M + K)))) δ F ∧ ∀ s,
      sqSum ((List.range u).map T) ((List.range u).map fun k => Cf.ofC (b k s)) = (F s).re := by
  refine ⟨fun s => ∑ k ∈ Finset.range u, ((T k).toC + - b k s) * conj ((T k).toC + - b k s),
    Tame.sum hδ fun k hk => ?_, fun s => ?_⟩
  · have := (Tame.const hδ (hT k hk)).add (hb k hk).neg
    exact this.mul this.star hδ
  · rw [sqSum_range, Complex.re_sum]
    refine Finset.sum_congr rfl fun k _ => ?_
    rw [Cf.toC_ofC, Complex.mul_conj, Complex.ofReal_re, Complex.normSq_eq_norm_sq, sub_eq_add_neg]

end Renplex
