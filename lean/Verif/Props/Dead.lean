import Verif.Spec.Dead
import Verif.Props.FixedPoint
import Verif.Props.DenseGrad
import Verif.Props.NetworkEval
import Verif.Props.ActExact
import Verif.Props.TrainTotal
import Verif.Props.Batch
/-!
# Units that no longer learn
-/

namespace Renplex
open ComplexConjugate
variable {w : Width}

section chain
variable {α P : Type} [CplxOps α P]

theorem Chain.append_inv {a b : List (Layer α)} {x : IOType α} {zs : List (IOType α)}
    (h : Chain (a ++ b) x zs) : ∃ ys ws as y, zs = ys ++ ws ∧ Chain a x ys
      ∧ x :: ys = as ++ [y] ∧ as.length = a.length ∧ Chain b y ws := by
  induction a generalizing x zs with
  | nil => exact ⟨[], zs, [], x, rfl, .nil _, rfl, rfl, h⟩
  | cons l a ih =>
    cases h with
    | cons h t =>
      obtain ⟨ys, ws, as, y, rfl, h1, h2, h3, h4⟩ := ih t
      exact ⟨_ :: ys, ws, x :: as, y, rfl, .cons h h1, by rw [h2]; rfl, by simp [h3], h4⟩

theorem backGrads_split {l : Layer α} (hl : l.propagates = true) {prev : IOType α}
    {A B : List (IOType α × Layer α)} {d dc : List α} {gs : List (LayerVec α)}
    (h : backGrads (B ++ (prev, l) :: A) d dc = some gs) :
    ∃ d' dc' r g1 g2, (l.computeDerivatives prev d' dc' >>= unwrap) = some r
      ∧ backGrads A r.2.2.1 r.2.2.2 = some g2 ∧ gs = g1 ++ (r.1, r.2.1) :: g2
      ∧ g1.length = B.length := by
  induction B generalizing d dc gs with
  | nil =>
    simp only [List.nil_append, backGrads] at h
    rw [if_pos hl] at h
    obtain ⟨r, h1, h⟩ := Option.bind_eq_some_iff.mp h
    obtain ⟨g2, h2, rfl⟩ := Option.map_eq_some_iff.mp h
    exact ⟨d, dc, r, [], g2, h1, h2, rfl, rfl⟩
  | cons p B ih =>
    obtain ⟨pv, l'⟩ := p
    simp only [List.cons_append, backGrads] at h
    split at h
    · obtain ⟨r, h1, h⟩ := Option.bind_eq_some_iff.mp h
      obtain ⟨g2, h2, rfl⟩ := Option.map_eq_some_iff.mp h
      obtain ⟨d', dc', r', g1, g3, e1, e2, rfl, e4⟩ := ih h2
      exact ⟨d', dc', r', _ :: g1, g3, e1, e2, rfl, by simp [e4]⟩
    · obtain ⟨g2, h2, rfl⟩ := Option.map_eq_some_iff.mp h
      obtain ⟨d', dc', r', g1, g3, e1, e2, rfl, e4⟩ := ih h2
      exact ⟨d', dc', r', _ :: g1, g3, e1, e2, rfl, by simp [e4]⟩

/-- What one sample contributes to one layer, and to the layers before it. -/
theorem sampleGrads_split {n : Net α} {pre post : List (Layer α)} {l : Layer α}
    (hn : n.layers = pre ++ l :: post) (hl : l.propagates = true) {f : LossFunc}
    {p : IOType α × IOType α} {gs : List (LayerVec α)} (h : sampleGrads n f p = some gs) :
    ∃ ys prev d dc r A g1 g2, Chain pre p.1 ys ∧ (p.1 :: ys).getLast? = some prev
      ∧ (l.computeDerivatives prev d dc >>= unwrap) = some r
      ∧ backGrads A r.2.2.1 r.2.2.2 = some g1
      ∧ gs = g1.reverse ++ (r.1, r.2.1) :: g2 ∧ g1.length = pre.length := by
  unfold sampleGrads at h
  obtain ⟨acts, ha, h⟩ := Option.bind_eq_some_iff.mp h
  obtain ⟨pred, h1, h⟩ := Option.bind_eq_some_iff.mp h
  obtain ⟨d, hd, h⟩ := Option.bind_eq_some_iff.mp h
  obtain ⟨gs', hb, rfl⟩ := Option.map_eq_some_iff.mp h
  obtain ⟨r0, h2, h3⟩ := Option.bind_eq_some_iff.mp ha
  obtain ⟨zs, hc, rfl⟩ := (C44_collect n (by rw [hn]; simp) _ r0).mp h2
  cases h3
  rw [hn] at hc
  obtain ⟨ys, ws, as, prev, rfl, c1, c2, c3, c4⟩ := hc.append_inv
  cases c4 with
  | @cons _ _ _ y ws hf t =>
    have hlen := t.length
    have e1 : (p.1 :: (ys ++ y :: ws)).reverse.tail = (y :: ws).dropLast.reverse ++ prev :: as.reverse := by
      rw [List.tail_reverse, ← List.cons_append, c2, List.dropLast_append_of_ne_nil (by simp)]
      simp
    have e2 : (p.1 :: (ys ++ y :: ws)).reverse.tail.zip n.layers.reverse
        = ((y :: ws).dropLast.reverse.zip post.reverse) ++ (prev, l) :: (as.reverse.zip pre.reverse) := by
      rw [e1, hn, List.reverse_append, List.reverse_cons, List.append_assoc]
      rw [List.zip_append (by simp [hlen])]
      rfl
    rw [e2] at hb
    obtain ⟨d', dc', r, g1, g2, k1, k2, rfl, k4⟩ := backGrads_split hl hb
    refine ⟨ys, prev, d', dc', r, _, g2, g1.reverse, c1, ?_, k1, k2, by simp, ?_⟩
    · rw [c2]; simp
    · rw [backGrads_length k2]; simp [c3]

end chain

/-! ## One dense layer -/

theorem Dense.derivatives_inv {l : Dense (Cf w ℝ)} {u m : Nat} {W : Nat → Nat → Cf w ℝ}
    {b : Nat → Cf w ℝ} {f : ActFunc} (h : l.Is u m W b f) (hm : 0 < m) {v : Nat → Cf w ℝ}
    {D DC : List (Cf w ℝ)} {r : Derivs (Cf w ℝ)}
    (hr : ((Layer.dense l).computeDerivatives (.scalar ((List.range m).map v)) D DC >>= unwrap)
      = some r) :
    ∃ M : Nat → Cf w ℝ, r.1 = table u m (fun j i => v i * M j) ∧ r.2.1 = (List.range u).map M
      ∧ r.2.2.1 = (List.range m).map (fun i => ∑ j ∈ Finset.range u, W j i * M j)
      ∧ r.2.2.2 = r.2.2.1.map CplxOps.conj
      ∧ ∀ j, j < u → f.Flat ((∑ i ∈ Finset.range m, W j i * v i) + b j) → M j = 0 := by
  have : Nonempty (Cf w ℝ) := ⟨0⟩
  have hr' : (l.computeDerivatives (.scalar ((List.range m).map v)) D DC >>= unwrap) = some r := hr
  have hD : D.length = u := by
    by_contra hne
    unfold Dense.computeDerivatives at hr'
    rw [if_pos (by rw [h.1.1]; exact hne)] at hr'
    cases hr'
  have hDC : DC.length = u := by
    by_contra hne
    unfold Dense.computeDerivatives at hr'
    rw [if_neg (by rw [h.1.1]; simpa using hD), if_pos (by rw [h.1.1]; exact hne)] at hr'
    cases hr'
  obtain ⟨g, hg⟩ := exists_range_map D
  obtain ⟨gc, hgc⟩ := exists_range_map DC
  rw [hD] at hg
  rw [hDC] at hgc
  have hex : ∀ j, j < u → ∃ d, CplxOps.dActivate f ((∑ i ∈ Finset.range m, W j i * v i) + b j)
      = some d := by
    intro j hj
    cases hv : CplxOps.dActivate f ((∑ i ∈ Finset.range m, W j i * v i) + b j) with
    | some d => exact ⟨d, rfl⟩
    | none =>
      exfalso
      unfold Dense.computeDerivatives at hr'
      rw [if_neg (by rw [h.1.1]; simpa using hD), if_neg (by rw [h.1.1]; simpa using hDC)] at hr'
      simp only [Dense.computeQ_is h hm, Option.bind_eq_bind, Option.bind_some, hg, zip_range_map,
        mapM_map', h.2.2, dotN_sum, LawfulOps.addAssign_eq] at hr'
      rw [mapM_eq_none_of _ _ j (List.mem_range.mpr hj) (by simp [hv])] at hr'
      cases hr'
  have hexc : ∀ j, j < u → ∃ d, CplxOps.dConjActivate f ((∑ i ∈ Finset.range m, W j i * v i) + b j)
      = some d := by
    intro j hj
    cases hv : CplxOps.dConjActivate f ((∑ i ∈ Finset.range m, W j i * v i) + b j) with
    | some d => exact ⟨d, rfl⟩
    | none =>
      exfalso
      unfold Dense.computeDerivatives at hr'
      rw [if_neg (by rw [h.1.1]; simpa using hD), if_neg (by rw [h.1.1]; simpa using hDC)] at hr'
      simp only [Dense.computeQ_is h hm, Option.bind_eq_bind, Option.bind_some, hg, hgc,
        zip_range_map, mapM_map', h.2.2, dotN_sum, LawfulOps.addAssign_eq] at hr'
      obtain ⟨q, hq, hr'⟩ := Option.bind_eq_some_iff.mp hr'
      obtain ⟨q', hq', hr''⟩ := Option.bind_eq_some_iff.mp hq
      rw [mapM_eq_none_of _ _ j (List.mem_range.mpr hj) (by simp [hv])] at hr''
      cases hr''
  choose! d hd using hex
  choose! dc hdc using hexc
  rw [hg, hgc, Dense.computeDerivatives_is h hm v g gc d dc hd hdc] at hr'
  cases hr'
  refine ⟨fun j => d j * g j + CplxOps.conj (dc j) * gc j, rfl, rfl, rfl, rfl, ?_⟩
  intro j hj hf
  have e1 : d j = 0 := Option.some.inj ((hd j hj).symm.trans hf.1)
  have e2 : dc j = 0 := Option.some.inj ((hdc j hj).symm.trans hf.2)
  simp only [e1, e2, conj_zero', zero_mul, add_zero]

/-! ## Sums of the contributions -/

theorem sumGrads_at {n : Net (Cf w ℝ)} {k : Nat} {Q : LayerVec (Cf w ℝ) → Prop}
    (hadd : ∀ a b, Q a → Q b → Q (a.add b)) (h0 : ∀ l, n.layers[k]? = some l → Q (LayerVec.zero l))
    (gss : List (List (LayerVec (Cf w ℝ)))) (h : ∀ gs ∈ gss, ∀ g, gs[k]? = some g → Q g)
    {g : LayerVec (Cf w ℝ)} (hg : (sumGrads n gss)[k]? = some g) : Q g := by
  unfold sumGrads at hg
  have h0' : ∀ g, (n.layers.map (LayerVec.zero (α := Cf w ℝ)))[k]? = some g → Q g := by
    intro g hg
    rw [List.getElem?_map] at hg
    obtain ⟨l, hl, rfl⟩ := Option.map_eq_some_iff.mp hg
    exact h0 l hl
  generalize n.layers.map (LayerVec.zero (α := Cf w ℝ)) = acc at h0' hg
  induction gss generalizing acc with
  | nil => exact h0' g hg
  | cons gs gss ih =>
    refine ih (fun g hg => h g (by simp [hg])) _ ?_ hg
    intro x hx
    rw [List.getElem?_zipWith] at hx
    cases h1 : acc[k]? with
    | none => rw [h1] at hx; cases hx
    | some a =>
      cases h2 : gs[k]? with
      | none => rw [h1, h2] at hx; cases hx
      | some b =>
        rw [h1, h2] at hx
        cases hx
        exact hadd a b (h0' a h1) (h gs (by simp) b h2)

theorem upd_zero (s p : Cf w ℝ) : p - CplxOps.conj (BasicOps.mulAssign (0 : Cf w ℝ) s) = p := by
  rw [mulAssign_zero, conj_zero', sub_zero]

/-- The row of one unit of a dense layer is not moved by a derivative that is zero on it. -/
theorem Dense.zipParams_row {l : Dense (Cf w ℝ)} {u m : Nat} {W : Nat → Nat → Cf w ℝ}
    {b : Nat → Cf w ℝ} {f : ActFunc} (h : l.Is u m W b f) {g : LayerVec (Cf w ℝ)}
    (hg : g.Fits (.dense l)) {upd : Cf w ℝ → Cf w ℝ → Cf w ℝ} (hu : ∀ p, upd p 0 = p) {j : Nat}
    (hj : j < u) (h1 : ∀ i, i < m → g.1[j * m + i]? = some 0) (h2 : g.2[j]? = some 0) :
    ∃ (l' : Dense (Cf w ℝ)) (W' : Nat → Nat → Cf w ℝ) (b' : Nat → Cf w ℝ),
      Layer.zipParams upd (.dense l) g = .dense l' ∧ l'.Is u m W' b' f
        ∧ b' j = b j ∧ ∀ i, i < m → W' j i = W j i := by
  have : Nonempty (Cf w ℝ) := ⟨0⟩
  unfold LayerVec.Fits at hg
  rw [if_pos (by rfl)] at hg
  have e1 : g.1.length = u * m := by
    rw [hg.1]; show l.weights.shape.1 * l.weights.shape.2 = _; rw [h.1.1]
  have e2 : g.2.length = u := by
    rw [hg.2]; show l.biases.length = u; rw [h.2.1]; simp
  obtain ⟨D, hD⟩ := exists_table u m g.1 e1
  obtain ⟨B, hB⟩ := exists_range_map g.2
  rw [e2] at hB
  refine ⟨_, fun j i => upd (W j i) (D j i), fun j => upd (b j) (B j), rfl, ⟨⟨h.1.1, ?_⟩, ?_, h.2.2⟩,
    ?_, ?_⟩
  · show List.zipWith upd l.weights.body g.1 = _
    rw [h.1.2, hD, table_zipWith]
  · show List.zipWith upd l.biases g.2 = _
    rw [h.2.1, hB, List.zipWith_map, List.zipWith_self]
  · have : B j = 0 := by
      rw [hB] at h2
      simpa [hj] using h2
    simp only [this, hu]
  · intro i hi
    have : D j i = 0 := by
      have := h1 i hi
      rw [hD, table_getElem? u m D hj hi] at this
      exact Option.some.inj this
    simp only [this, hu]

/-! ## Flat points -/

theorem cf_zero_iff (z : Cf w ℝ) : z = 0 ↔ z.x = 0 ∧ z.y = 0 :=
  ⟨by rintro rfl; exact ⟨rfl, rfl⟩, fun h => Cf.ext h.1 h.2⟩

theorem flat_modZ (z : Cf w ℝ) : ¬ ActFunc.Flat .modZ z := by
  rintro ⟨h1, h2⟩
  have h1' : Act.dModZ z = 0 := Option.some.inj h1
  have e : (1 : ℝ) / (2 * z.norm) = 0 := by
    have := ((cf_zero_iff _).mp h1').1
    simpa only [Act.dModZ, Cf.new, sdiv, smul', sone, stwo] using this
  have hn : z.norm = 0 := by
    rcases div_eq_zero_iff.mp e with h | h
    · norm_num at h
    · linarith
  have hz : z.toC = 0 := by
    rw [Cf.norm_eq] at hn
    exact norm_eq_zero.mp hn
  have : Act.dConjModZ z = none := by
    unfold Act.dConjModZ
    have h0 : (Cf.div z z.conj) = none := by
      rw [(C19_div z z.conj).2]
      rw [Cf.toC_conj, hz, map_zero]
    rw [h0]; rfl
  rw [show CplxOps.dConjActivate .modZ z = Act.dConjModZ z from rfl, this] at h2
  cases h2

theorem flat_sigmoid (z : Cf w ℝ) : ¬ ActFunc.Flat .ritSigmoid z := by
  rintro ⟨h1, -⟩
  have e : (Act.dSigmoid w z.x + Act.dSigmoid w z.y) * (Act.half : ℝ) = 0 :=
    ((cf_zero_iff _).mp (Option.some.inj h1)).1
  have h2 := dSigmoid_pos (w := w) z.x
  have h3 := dSigmoid_pos (w := w) z.y
  have h4 : (Act.half : ℝ) = 1 / 2 := by simp [Act.half]
  rw [h4] at e
  linarith

theorem flat_tanh (z : Cf w ℝ) : ¬ ActFunc.Flat .ritTanh z := by
  rintro ⟨h1, -⟩
  have e : (Act.sech2 z.x + Act.sech2 z.y) * (Act.half : ℝ) = 0 :=
    ((cf_zero_iff _).mp (Option.some.inj h1)).1
  have h4 : (Act.half : ℝ) = 1 / 2 := by simp [Act.half]
  have h5 : ∀ v : ℝ, 0 < Act.sech2 v := by
    intro v
    have := Real.cosh_pos v
    simp only [Act.sech2, sdiv, sone, ssq, scosh]
    positivity
  have h2 := h5 z.x
  have h3 := h5 z.y
  rw [h4] at e
  linarith

theorem flat_ritReLU (z : Cf w ℝ) : ActFunc.Flat .ritReLU z ↔ z.x < 0 ∧ z.y < 0 := by
  have h4 : (Act.half : ℝ) = 1 / 2 := by simp [Act.half]
  have e1 : CplxOps.dActivate .ritReLU z
      = some (⟨(Act.dRelu z.x + Act.dRelu z.y) * (Act.half : ℝ), 0⟩ : Cf w ℝ) := by
    show some (Act.dRitRelu z) = _
    simp [Act.dRitRelu]
  have e2 : CplxOps.dConjActivate .ritReLU z
      = some (⟨(Act.dRelu z.x - Act.dRelu z.y) * (Act.half : ℝ), 0⟩ : Cf w ℝ) := by
    show some (Act.dConjRitRelu z) = _
    simp [Act.dConjRitRelu]
  unfold ActFunc.Flat
  rw [e1, e2, Option.some_inj, Option.some_inj, cf_zero_iff, cf_zero_iff, dRelu_eq, dRelu_eq, h4]
  by_cases hx : z.x < 0 <;> by_cases hy : z.y < 0 <;> simp [hx, hy]

theorem flat_zReLU (z : Cf w ℝ) : ActFunc.Flat .zReLU z ↔ z.x < 0 ∨ z.y < 0 := by
  have hb : (Scalar.signNeg z.re || Scalar.signNeg z.im) = true ↔ z.x < 0 ∨ z.y < 0 := by
    simp only [Cf.re, Cf.im, Bool.or_eq_true, ssignNeg]
  have e2 : CplxOps.dConjActivate .zReLU z = some 0 := by
    show some (Act.dConjZRelu z) = _
    rw [Option.some_inj, cf_zero_iff]
    simp [Act.dConjZRelu]
  unfold ActFunc.Flat
  rw [e2]
  have e1 : CplxOps.dActivate .zReLU z = some (Act.dZRelu z) := rfl
  rw [e1, Option.some_inj, Act.dZRelu]
  by_cases h : z.x < 0 ∨ z.y < 0
  · rw [if_pos (hb.mpr h)]
    exact ⟨fun _ => h, fun _ => ⟨(cf_zero_iff _).mpr (by simp), rfl⟩⟩
  · rw [if_neg (fun h' => h (hb.mp h'))]
    simp only [and_true, h, iff_false]
    intro h0
    have := ((cf_zero_iff _).mp h0).1
    simp at this

theorem flat_cardioid (z : Cf w ℝ) (hz : PhaseOk w z.toC) :
    ActFunc.Flat .cardioid z ↔ w = .w32 ∧ z.x < 0 ∧ z.y = 0 := by
  obtain ⟨hc, hs⟩ := cos_sin_phase z hz
  have hn0 : ‖z.toC‖ ≠ 0 := norm_ne_zero_iff.mpr hz.ne
  have hcs := Real.sin_sq_add_cos_sq z.phase
  have key : ActFunc.Flat .cardioid z ↔ Real.cos z.phase = -1 := by
    have e1 : CplxOps.dActivate .cardioid z = some (Act.dCard z) := rfl
    have e2 : CplxOps.dConjActivate .cardioid z = some (Act.dConjCard z) := rfl
    unfold ActFunc.Flat
    rw [e1, e2, Option.some_inj, Option.some_inj, cf_zero_iff, cf_zero_iff]
    simp only [Act.dCard, Act.dConjCard, Act.cardDfdx, Act.cardDfdy, Cf.sub, Cf.add, Cf.mul, Cf.iunit,
      scos, ssin, sdiv, smul', sadd, ssub, ssq, stwo, slit, sone, szero, Cf.norm_eq, Real.sin_two_mul]
    generalize Real.cos z.phase = c at *
    generalize Real.sin z.phase = s at *
    generalize ‖z.toC‖ = n at *
    push_cast
    constructor
    · rintro ⟨⟨a1, a2⟩, a3, a4⟩
      have b1 : s * (s + 2 * s * c) = 0 := by field_simp at a1 a3; linarith
      have b2 : s * (2 * c ^ 2 + c - 1) = 0 := by field_simp at a2 a4; linarith
      have b3 : c * (s + 2 * s * c) = 0 := by field_simp at a2 a4; linarith
      have b4 : c * (2 * c ^ 2 + c - 1) = 0 := by field_simp at a1 a3; linarith
      have c1 : s + 2 * s * c = 0 := by
        linear_combination s * b1 + c * b3 - (s + 2 * s * c) * hcs
      have c2 : 2 * c ^ 2 + c - 1 = 0 := by
        linear_combination s * b2 + c * b4 - (2 * c ^ 2 + c - 1) * hcs
      have c3 : (2 * c - 1) * (c + 1) = 0 := by linear_combination c2
      rcases mul_eq_zero.mp c3 with h | h
      · have hc : c = 1 / 2 := by linarith
        rw [hc] at c1 hcs
        have : s = 0 := by linarith
        rw [this] at hcs
        norm_num at hcs
      · linarith
    · rintro rfl
      have : s = 0 := by
        have : s ^ 2 = 0 := by linarith
        simpa using this
      subst this
      norm_num
  rw [key]
  cases w with
  | w64 =>
    simp only [reduceCtorEq, false_and, iff_false]
    intro h
    have h1 : z.phase = Real.arctan (z.y / z.x) := rfl
    rw [h1] at h
    have := Real.cos_arctan_pos (z.y / z.x)
    linarith
  | w32 =>
    simp only [true_and]
    simp only [phaseSign, one_mul] at hc hs
    have hq : z.x ^ 2 + z.y ^ 2 = ‖z.toC‖ ^ 2 := by
      rw [← Complex.normSq_eq_norm_sq, Complex.normSq_apply]; simp; ring
    have hp : 0 < ‖z.toC‖ := lt_of_le_of_ne (norm_nonneg _) (Ne.symm hn0)
    rw [hc, div_eq_iff hn0]
    constructor
    · intro h
      refine ⟨by linarith, ?_⟩
      have : z.y ^ 2 = 0 := by rw [h] at hq; linarith
      simpa using this
    · rintro ⟨h1, h2⟩
      rw [h2] at hq
      have : (‖z.toC‖ - z.x) * (‖z.toC‖ + z.x) = 0 := by linear_combination -hq
      rcases mul_eq_zero.mp this with h | h <;> linarith

/-- C95. Where the code's derivatives of an activation are both zero: nowhere for the identity, the
normalisation, the sigmoid (not even where it is cut off) and the tangent; exactly when both
components are negative for `RITReLU`; exactly when one component is negative for `ZReLU`; and, where
the phase is defined, exactly on the negative real axis of `Cf32` for the cardioid, nowhere for
`Cf64`. -/
theorem C95_flat (f : ActFunc) (z : Cf w ℝ) (hz : f = .cardioid → PhaseOk w z.toC) :
    f.Flat z ↔ (f = .ritReLU ∧ z.x < 0 ∧ z.y < 0) ∨ (f = .zReLU ∧ (z.x < 0 ∨ z.y < 0))
      ∨ (f = .cardioid ∧ w = .w32 ∧ z.x < 0 ∧ z.y = 0) := by
  cases f with
  | none =>
    simp only [reduceCtorEq, false_and, or_self, iff_false]
    rintro ⟨h, -⟩
    have := ((cf_zero_iff _).mp (Option.some.inj h)).1
    simp [Cf.unit] at this
  | modZ => simpa using flat_modZ z
  | ritSigmoid => simpa using flat_sigmoid z
  | ritTanh => simpa using flat_tanh z
  | ritReLU => simpa using flat_ritReLU z
  | zReLU => simpa using flat_zReLU z
  | cardioid => simpa using flat_cardioid z (hz rfl)

/-! ## Training -/

theorem fixed_zipParams {pre : List (Layer (Cf w ℝ))} (h : ∀ l ∈ pre, l.Fixed)
    {G : List (LayerVec (Cf w ℝ))} (hG : G.length = pre.length) (upd : Cf w ℝ → Cf w ℝ → Cf w ℝ) :
    List.zipWith (Layer.zipParams upd) pre G = pre := by
  induction pre generalizing G with
  | nil => simp
  | cons l pre ih =>
    cases G with
    | nil => simp at hG
    | cons g G =>
      rw [List.zipWith_cons_cons, ih (fun l hl => h l (by simp [hl])) (by simpa using hG)]
      have := h l (by simp)
      cases l with
      | dense l => exact this.elim
      | conv l => exact this.elim
      | reduce l => rfl
      | flatten l => rfl

theorem forall₂_mem_right {β γ : Type} {R : β → γ → Prop} {l : List β} {m : List γ}
    (h : List.Forall₂ R l m) : ∀ c ∈ m, ∃ b ∈ l, R b c := by
  induction h with
  | nil => simp
  | cons h _ ih =>
    intro c hc
    rcases List.mem_cons.mp hc with rfl | hc
    · exact ⟨_, by simp, h⟩
    · obtain ⟨b, hb, hr⟩ := ih c hc
      exact ⟨b, by simp [hb], hr⟩

/-- The contribution of a sample to a unit that is dead on it. -/
theorem dead_row {n : Net (Cf w ℝ)} {pre post : List (Layer (Cf w ℝ))} {l : Dense (Cf w ℝ)} {u m : Nat}
    {W : Nat → Nat → Cf w ℝ} {b : Nat → Cf w ℝ} {f : ActFunc}
    (hn : n.layers = pre ++ .dense l :: post) (hl : l.Is u m W b f) (hm : 0 < m) {j : Nat} (hj : j < u)
    {lf : LossFunc} {p : IOType (Cf w ℝ) × IOType (Cf w ℝ)} {gs : List (LayerVec (Cf w ℝ))}
    (h : sampleGrads n lf p = some gs) (hd : DeadOn pre m W b f j p.1) {g : LayerVec (Cf w ℝ)}
    (hg : gs[pre.length]? = some g) :
    (∀ i, i < m → g.1[j * m + i]? = some 0) ∧ g.2[j]? = some 0 := by
  obtain ⟨ys, prev, d, dc, r, A, g1, g2, h1, h2, h3, -, rfl, h5⟩ := sampleGrads_split hn rfl h
  obtain ⟨v, k1, k2⟩ := hd ys h1
  rw [h2] at k1
  cases k1
  obtain ⟨M, m1, m2, -, -, m5⟩ := Dense.derivatives_inv hl hm h3
  have e : g = (r.1, r.2.1) := by
    rw [List.getElem?_append_right (by simp [h5]), List.length_reverse, h5, Nat.sub_self] at hg
    exact (Option.some.inj hg).symm
  subst e
  have m0 := m5 j hj k2
  constructor
  · intro i hi
    show r.1[j * m + i]? = _
    rw [m1, table_getElem? u m _ hj hi, m0, mul_zero]
  · show r.2.1[j]? = _
    rw [m2]
    simp [hj, m0]

theorem zero_row {l : Dense (Cf w ℝ)} {u m : Nat} {W : Nat → Nat → Cf w ℝ} {b : Nat → Cf w ℝ}
    {f : ActFunc} (hl : l.Is u m W b f) {j : Nat} (hj : j < u) :
    (∀ i, i < m → (LayerVec.zero (.dense l)).1[j * m + i]? = some (0 : Cf w ℝ))
      ∧ (LayerVec.zero (.dense l)).2[j]? = some (0 : Cf w ℝ) := by
  have e : LayerVec.zero (.dense l) = (List.replicate (u * m) (0 : Cf w ℝ), List.replicate u 0) := by
    unfold LayerVec.zero
    rw [if_pos (by rfl)]
    have e1 : (Layer.dense l).paramsLen = (u * m, u) := by
      show (l.weights.shape.1 * l.weights.shape.2, l.biases.length) = _
      rw [hl.1.1, hl.2.1]; simp
    rw [e1]
  rw [e]
  constructor
  · intro i hi
    simp [idx_lt hj hi]
  · simp [hj]

/-- C95. One training call does not move a dead unit: if unit `j` of a dense layer is dead on every
input of the batch, the call leaves its bias and its row of weights exactly as they are, for every
loss and every (also complex) learning rate. The layers before it may move, unless they have no
parameters. -/
theorem C95_step (n n' : Net (Cf w ℝ)) (hw : ∀ l ∈ n.layers, l.WF) {pre post : List (Layer (Cf w ℝ))}
    {l : Dense (Cf w ℝ)} {u m : Nat} {W : Nat → Nat → Cf w ℝ} {b : Nat → Cf w ℝ} {f : ActFunc}
    (hn : n.layers = pre ++ .dense l :: post) (hl : l.Is u m W b f) (hm : 0 < m) {j : Nat} (hj : j < u)
    (data : Dataset (Cf w ℝ)) (hd : ∀ p ∈ data.points, DeadOn pre m W b f j p.1) (lf : LossFunc)
    (lr : Cf w ℝ) (r : Except ForwardErr Unit) (h : n.gradientOpt data lf lr = some (r, n')) :
    ∃ pre' l' post' W' b', n'.layers = pre' ++ .dense l' :: post' ∧ l'.Is u m W' b' f
      ∧ pre'.length = pre.length ∧ ((∀ l ∈ pre, l.Fixed) → pre' = pre)
      ∧ b' j = b j ∧ ∀ i, i < m → W' j i = W j i := by
  by_cases hlen : n.layers.length ≤ 1
  · unfold Net.gradientOpt at h
    rw [if_pos hlen] at h
    cases h
    exact ⟨pre, l, post, W, b, hn, hl, rfl, fun _ => rfl, rfl, fun _ _ => rfl⟩
  obtain ⟨-, gss, scale, h1, -, rfl⟩ := (C50_step n n' (by omega) hw data lf lr r).mp h
  have hfit : List.Forall₂ LayerVec.Fits (sumGrads n gss) n.layers := by
    refine sumGrads_fits n gss fun gs hgs => ?_
    obtain ⟨p, -, hp⟩ := forall₂_mem_right h1 gs hgs
    exact hp.2
  have hQ := fun g hg => sumGrads_at (n := n) (k := pre.length) (g := g)
    (Q := fun g => (∀ i, i < m → g.1[j * m + i]? = some 0) ∧ g.2[j]? = some 0)
    (fun a c ha hc => ⟨fun i hi => by
        show (List.zipWith _ _ _)[_]? = _
        rw [List.getElem?_zipWith, ha.1 i hi, hc.1 i hi]; simp, by
        show (List.zipWith _ _ _)[_]? = _
        rw [List.getElem?_zipWith, ha.2, hc.2]; simp⟩)
    (fun l0 hl0 => by
      rw [hn] at hl0
      simp at hl0
      subst hl0
      exact zero_row hl hj) gss
    (fun gs hgs g hg => by
      obtain ⟨p, hp, hp'⟩ := forall₂_mem_right h1 gs hgs
      exact dead_row hn hl hm hj hp'.1 (hd p hp) hg) hg
  generalize sumGrads n gss = G at *
  rw [hn] at hfit
  obtain ⟨G1, G2, rfl, f1, f2⟩ := forall₂_append_inv hfit.flip
  replace f1 : List.Forall₂ LayerVec.Fits G1 pre := f1.flip
  replace f2 : List.Forall₂ LayerVec.Fits G2 (.dense l :: post) := f2.flip
  cases f2 with
  | @cons g _ G2 _ f2 f3 =>
    have hlen1 := f1.length_eq
    obtain ⟨l', W', b', e1, e2, e3, e4⟩ := Dense.zipParams_row hl f2
      (upd := fun p d => p - CplxOps.conj (BasicOps.mulAssign d scale))
      (upd_zero scale) hj
      (hQ g (by rw [← hlen1]; simp)).1 (hQ g (by rw [← hlen1]; simp)).2
    refine ⟨List.zipWith (Layer.zipParams (fun p d => p - CplxOps.conj (BasicOps.mulAssign d scale))) pre G1, l', List.zipWith (Layer.zipParams (fun p d => p - CplxOps.conj (BasicOps.mulAssign d scale))) post G2, W', b',
      ?_, e2, by simp [hlen1], fun hf => fixed_zipParams hf hlen1 _, e3, e4⟩
    show List.zipWith _ n.layers _ = _
    rw [hn, List.zipWith_append hlen1.symm, List.zipWith_cons_cons, e1]

theorem DeadOn.congr {pre : List (Layer (Cf w ℝ))} {m : Nat} {W W' : Nat → Nat → Cf w ℝ}
    {b b' : Nat → Cf w ℝ} {f : ActFunc} {j : Nat} {x : IOType (Cf w ℝ)} (h : DeadOn pre m W b f j x)
    (hb : b' j = b j) (hW : ∀ i, i < m → W' j i = W j i) : DeadOn pre m W' b' f j x := by
  intro ys hc
  obtain ⟨v, h1, h2⟩ := h ys hc
  refine ⟨v, h1, ?_⟩
  rw [hb, Finset.sum_congr rfl fun i hi => by rw [hW i (Finset.mem_range.mp hi)]]
  exact h2

theorem Net.train_cons {n n' : Net (Cf w ℝ)} {s : TrainStep (Cf w ℝ)} {steps : List (TrainStep (Cf w ℝ))}
    (h : n.train (s :: steps) = some n') :
    ∃ r n1, n.gradientOpt s.1 s.2.1 s.2.2 = some (r, n1) ∧ n1.train steps = some n' := by
  simp only [Net.train, List.foldlM_cons, Option.bind_eq_bind] at h
  obtain ⟨n1, h1, h2⟩ := Option.bind_eq_some_iff.mp h
  obtain ⟨⟨r, n2⟩, h3, h4⟩ := Option.map_eq_some_iff.mp h1
  cases h4
  exact ⟨r, n2, h3, h2⟩

/-- C95. A dead unit of the first layer with parameters stays dead for ever: over any history of
training calls whose inputs it is dead on, its bias and its row of weights do not change, and it is
still dead on every input it was dead on. -/
theorem C95_history (n n' : Net (Cf w ℝ)) (hw : ∀ l ∈ n.layers, l.WF) {pre post : List (Layer (Cf w ℝ))}
    (hpre : ∀ l ∈ pre, l.Fixed) {l : Dense (Cf w ℝ)} {u m : Nat} {W : Nat → Nat → Cf w ℝ}
    {b : Nat → Cf w ℝ} {f : ActFunc} (hn : n.layers = pre ++ .dense l :: post) (hl : l.Is u m W b f)
    (hm : 0 < m) {j : Nat} (hj : j < u) (steps : List (TrainStep (Cf w ℝ)))
    (hd : ∀ s ∈ steps, ∀ p ∈ s.1.points, DeadOn pre m W b f j p.1) (h : n.train steps = some n') :
    ∃ l' post' W' b', n'.layers = pre ++ .dense l' :: post' ∧ l'.Is u m W' b' f
      ∧ b' j = b j ∧ (∀ i, i < m → W' j i = W j i)
      ∧ ∀ x, DeadOn pre m W b f j x → DeadOn pre m W' b' f j x := by
  induction steps generalizing n l post W b with
  | nil =>
    cases h
    exact ⟨l, post, W, b, hn, hl, rfl, fun _ _ => rfl, fun _ h => h⟩
  | cons s steps ih =>
    obtain ⟨r, n1, h1, h2⟩ := Net.train_cons h
    obtain ⟨pre', l1, post1, W1, b1, e1, e2, -, e4, e5, e6⟩ :=
      C95_step n n1 hw hn hl hm hj s.1 (hd s (by simp)) s.2.1 s.2.2 r h1
    rw [e4 hpre] at e1
    obtain ⟨l2, post2, W2, b2, k1, k2, k3, k4, k5⟩ := ih n1 (sameShape_wf (Net.gradientOpt_shape hw h1))
      e1 e2 (fun s' hs' p hp => (hd s' (by simp [hs']) p hp).congr e5 e6) h2
    exact ⟨l2, post2, W2, b2, k1, k2, k3.trans e5, fun i hi => (k4 i hi).trans (e6 i hi),
      fun x hx => k5 x (hx.congr e5 e6)⟩

/-! ## Layers that are dead as a whole -/

theorem table_allZ {u m : Nat} {F : Nat → Nat → Cf w ℝ} (h : ∀ j, j < u → ∀ i, i < m → F j i = 0) :
    AllZ (table u m F) := by
  rw [table_congr (g := fun _ _ => 0) h]
  intro x hx
  simp only [table, List.mem_flatMap, List.mem_map] at hx
  obtain ⟨_, _, _, _, rfl⟩ := hx
  rfl

/-- The contribution of a sample to a layer all of whose units are dead on it, and to all layers
before it. -/
theorem dead_layer {n : Net (Cf w ℝ)} {pre post : List (Layer (Cf w ℝ))} {l : Dense (Cf w ℝ)} {u m : Nat}
    {W : Nat → Nat → Cf w ℝ} {b : Nat → Cf w ℝ} {f : ActFunc}
    (hn : n.layers = pre ++ .dense l :: post) (hl : l.Is u m W b f) (hm : 0 < m) (hu : 0 < u)
    {lf : LossFunc} {p : IOType (Cf w ℝ) × IOType (Cf w ℝ)} {gs : List (LayerVec (Cf w ℝ))}
    (h : sampleGrads n lf p = some gs) (hd : ∀ j, j < u → DeadOn pre m W b f j p.1) {k : Nat}
    (hk : k ≤ pre.length) {g : LayerVec (Cf w ℝ)} (hg : gs[k]? = some g) : AllZ g.1 ∧ AllZ g.2 := by
  obtain ⟨ys, prev, d, dc, r, A, g1, g2, h1, h2, h3, h4, rfl, h5⟩ := sampleGrads_split hn rfl h
  obtain ⟨v, k1, -⟩ := hd 0 hu ys h1
  rw [h2] at k1
  cases k1
  obtain ⟨M, m1, m2, m3, m4, m5⟩ := Dense.derivatives_inv hl hm h3
  have m0 : ∀ j, j < u → M j = 0 := by
    intro j hj
    obtain ⟨v', k1', k2'⟩ := hd j hj ys h1
    rw [h2, Option.some_inj, IOType.scalar.injEq] at k1'
    refine m5 j hj ?_
    have e : ∀ i, i < m → v i = v' i := by
      intro i hi
      have := congrArg (fun q => q[i]?) k1'
      simpa [hi] using this
    rw [Finset.sum_congr rfl fun i hi => by rw [e i (Finset.mem_range.mp hi)]]
    exact k2'
  have z3 : AllZ r.2.2.1 := by
    rw [m3]
    intro x hx
    obtain ⟨i, -, rfl⟩ := List.mem_map.mp hx
    exact Finset.sum_eq_zero fun j hj => by rw [m0 j (Finset.mem_range.mp hj), mul_zero]
  have z4 : AllZ r.2.2.2 := by rw [m4]; exact z3.map_conj
  rcases Nat.lt_or_ge k pre.length with hlt | hge
  · rw [List.getElem?_append_left (by simp [h5, hlt])] at hg
    exact backGrads_zero z3 z4 h4 g (List.mem_reverse.mp (List.mem_of_getElem? hg))
  · have : k = pre.length := by omega
    subst this
    rw [List.getElem?_append_right (by simp [h5]), List.length_reverse, h5, Nat.sub_self] at hg
    cases hg
    constructor
    · show AllZ r.1
      rw [m1]
      exact table_allZ fun j hj i _ => by rw [m0 j hj, mul_zero]
    · show AllZ r.2.1
      rw [m2]
      intro x hx
      obtain ⟨j, hj, rfl⟩ := List.mem_map.mp hx
      exact m0 j (List.mem_range.mp hj)

theorem zero_allZ (l : Layer (Cf w ℝ)) : AllZ (LayerVec.zero l).1 ∧ AllZ (LayerVec.zero l).2 := by
  unfold LayerVec.zero
  split
  · exact ⟨AllZ.replicate _, AllZ.replicate _⟩
  · exact ⟨AllZ.nil, AllZ.nil⟩

theorem zipParams_front {upd : Cf w ℝ → Cf w ℝ → Cf w ℝ} (hu : ∀ p, upd p 0 = p)
    {ls : List (Layer (Cf w ℝ))} (hw : ∀ l ∈ ls, l.WF) {G : List (LayerVec (Cf w ℝ))}
    (hf : List.Forall₂ LayerVec.Fits G ls) (hz : ∀ g ∈ G, AllZ g.1 ∧ AllZ g.2) :
    List.zipWith (Layer.zipParams upd) ls G = ls := by
  induction hf with
  | nil => rfl
  | cons h _ ih =>
    rw [List.zipWith_cons_cons, ih (fun l hl => hw l (by simp [hl])) (fun g hg => hz g (by simp [hg])),
      Layer.zipParams_id hu (hw _ (by simp)) h (hz _ (by simp)).1 (hz _ (by simp)).2]

/-- C95. If all units of a dense layer are dead on every input of the batch, a training call changes
neither that layer nor any layer before it, of whatever kind. -/
theorem C95_layer (n n' : Net (Cf w ℝ)) (hw : ∀ l ∈ n.layers, l.WF) {pre post : List (Layer (Cf w ℝ))}
    {l : Dense (Cf w ℝ)} {u m : Nat} {W : Nat → Nat → Cf w ℝ} {b : Nat → Cf w ℝ} {f : ActFunc}
    (hn : n.layers = pre ++ .dense l :: post) (hl : l.Is u m W b f) (hm : 0 < m) (hu : 0 < u)
    (data : Dataset (Cf w ℝ)) (hd : ∀ p ∈ data.points, ∀ j, j < u → DeadOn pre m W b f j p.1)
    (lf : LossFunc) (lr : Cf w ℝ) (r : Except ForwardErr Unit)
    (h : n.gradientOpt data lf lr = some (r, n')) :
    ∃ post', n'.layers = pre ++ .dense l :: post' := by
  by_cases hlen : n.layers.length ≤ 1
  · unfold Net.gradientOpt at h
    rw [if_pos hlen] at h
    cases h
    exact ⟨post, hn⟩
  obtain ⟨-, gss, scale, h1, -, rfl⟩ := (C50_step n n' (by omega) hw data lf lr r).mp h
  have hfit : List.Forall₂ LayerVec.Fits (sumGrads n gss) n.layers := by
    refine sumGrads_fits n gss fun gs hgs => ?_
    obtain ⟨p, -, hp⟩ := forall₂_mem_right h1 gs hgs
    exact hp.2
  have hQ : ∀ k, k ≤ pre.length → ∀ g, (sumGrads n gss)[k]? = some g → AllZ g.1 ∧ AllZ g.2 := by
    intro k hk g hg
    refine sumGrads_at (n := n) (k := k) (Q := fun g => AllZ g.1 ∧ AllZ g.2)
      (fun a c ha hc => ⟨zipWith_add_zero ha.1 hc.1, zipWith_add_zero ha.2 hc.2⟩)
      (fun l0 _ => zero_allZ l0) gss ?_ hg
    intro gs hgs g hg
    obtain ⟨p, hp, hp'⟩ := forall₂_mem_right h1 gs hgs
    exact dead_layer hn hl hm hu hp'.1 (hd p hp) hk hg
  generalize sumGrads n gss = G at *
  rw [hn] at hfit hw
  obtain ⟨G1, G2, rfl, f1, f2⟩ := forall₂_append_inv hfit.flip
  replace f1 : List.Forall₂ LayerVec.Fits G1 pre := f1.flip
  replace f2 : List.Forall₂ LayerVec.Fits G2 (.dense l :: post) := f2.flip
  cases f2 with
  | @cons g _ G2 _ f2 f3 =>
    have hlen1 := f1.length_eq
    refine ⟨List.zipWith (Layer.zipParams (fun p d => p - CplxOps.conj (BasicOps.mulAssign d scale))) post G2, ?_⟩
    show List.zipWith _ n.layers _ = _
    have hg := hQ pre.length le_rfl g (by rw [← hlen1]; simp)
    rw [hn, List.zipWith_append hlen1.symm, List.zipWith_cons_cons,
      Layer.zipParams_id (upd := fun p d => p - CplxOps.conj (BasicOps.mulAssign d scale))
        (upd_zero scale) (hw _ (by simp)) f2 hg.1 hg.2,
      zipParams_front (upd := fun p d => p - CplxOps.conj (BasicOps.mulAssign d scale))
        (upd_zero scale) (fun l hl => hw l (by simp [hl])) f1]
    intro g' hg'
    obtain ⟨k, hk⟩ := List.mem_iff_getElem?.mp hg'
    have hk' : k < G1.length := (List.getElem?_eq_some_iff.mp hk).1
    exact hQ k (by omega) g' (by rw [List.getElem?_append_left hk', hk])

/-- C95. Over any history of training calls on whose inputs a whole dense layer is dead, that layer
and all layers before it stay as they are. -/
theorem C95_layer_history (n n' : Net (Cf w ℝ)) (hw : ∀ l ∈ n.layers, l.WF)
    {pre post : List (Layer (Cf w ℝ))} {l : Dense (Cf w ℝ)} {u m : Nat} {W : Nat → Nat → Cf w ℝ}
    {b : Nat → Cf w ℝ} {f : ActFunc} (hn : n.layers = pre ++ .dense l :: post) (hl : l.Is u m W b f)
    (hm : 0 < m) (hu : 0 < u) (steps : List (TrainStep (Cf w ℝ)))
    (hd : ∀ s ∈ steps, ∀ p ∈ s.1.points, ∀ j, j < u → DeadOn pre m W b f j p.1)
    (h : n.train steps = some n') : ∃ post', n'.layers = pre ++ .dense l :: post' := by
  induction steps generalizing n post with
  | nil => cases h; exact ⟨post, hn⟩
  | cons s steps ih =>
    obtain ⟨r, n1, h1, h2⟩ := Net.train_cons h
    obtain ⟨post1, e1⟩ := C95_layer n n1 hw hn hl hm hu s.1 (hd s (by simp)) s.2.1 s.2.2 r h1
    exact ih n1 (sameShape_wf (Net.gradientOpt_shape hw h1)) e1 (fun s' hs' => hd s' (by simp [hs'])) h2

theorem flat_relu_zero {f : ActFunc} (hf : f = .ritReLU ∨ f = .zReLU) {z : Cf w ℝ} (h : f.Flat z) :
    CplxOps.activate f z = some 0 := by
  rcases hf with rfl | rfl
  · obtain ⟨h1, h2⟩ := (flat_ritReLU z).mp h
    show some (Act.ritRelu z) = _
    rw [Option.some_inj, cf_zero_iff]
    simp only [Act.ritRelu, relu_eq]
    exact ⟨max_eq_left h1.le, max_eq_left h2.le⟩
  · have h1 := (flat_zReLU z).mp h
    show some (Act.zRelu z) = _
    rw [Option.some_inj, cf_zero_iff, Act.zRelu, if_pos (by
      simpa only [Cf.re, Cf.im, Bool.or_eq_true, ssignNeg] using h1)]
    simp

/-- C95. Behind a `RITReLU` or `ZReLU` layer that is dead on two inputs, the network predicts the same
for both. -/
theorem C95_constant (n : Net (Cf w ℝ)) {pre post : List (Layer (Cf w ℝ))} {l : Dense (Cf w ℝ)}
    {u m : Nat} {W : Nat → Nat → Cf w ℝ} {b : Nat → Cf w ℝ} {f : ActFunc}
    (hn : n.layers = pre ++ .dense l :: post) (hl : l.Is u m W b f) (hm : 0 < m) (hu : 0 < u)
    (hf : f = .ritReLU ∨ f = .zReLU) (x x' p p' : IOType (Cf w ℝ))
    (hx : ∀ j, j < u → DeadOn pre m W b f j x) (hx' : ∀ j, j < u → DeadOn pre m W b f j x')
    (h : n.forward x = some (.ok p)) (h' : n.forward x' = some (.ok p')) : p = p' := by
  have key : ∀ x p, (∀ j, j < u → DeadOn pre m W b f j x) → n.forward x = some (.ok p) →
      ∃ ws, Chain post (.scalar ((List.range u).map fun _ => 0)) ws
        ∧ (IOType.scalar ((List.range u).map fun _ => (0 : Cf w ℝ)) :: ws).getLast? = some p := by
    intro x p hx h
    obtain ⟨zs, y, hc, hy, e⟩ := (C44_forward n (by rw [hn]; simp) x _).mp h
    cases e
    rw [hn] at hc
    obtain ⟨ys, ws, as, prev, rfl, c1, c2, c3, c4⟩ := hc.append_inv
    cases c4 with
    | @cons _ _ _ q ws hq t =>
      obtain ⟨v, k1, -⟩ := hx 0 hu ys c1
      have hprev : (x :: ys).getLast? = some prev := by rw [c2]; simp
      have hfl : ∀ j, j < u → f.Flat ((∑ i ∈ Finset.range m, W j i * v i) + b j) := by
        intro j hj
        obtain ⟨v', k1', k2'⟩ := hx j hj ys c1
        rw [k1, Option.some_inj, IOType.scalar.injEq] at k1'
        have e : ∀ i, i < m → v i = v' i := by
          intro i hi
          have := congrArg (fun q => q[i]?) k1'
          simpa [hi] using this
        rw [Finset.sum_congr rfl fun i hi => by rw [e i (Finset.mem_range.mp hi)]]
        exact k2'
      rw [hprev] at k1
      cases k1
      have hq' : l.forward (.scalar ((List.range m).map v)) = some (.ok q) := hq
      rw [C38_forward_exact_partial hl hm v (fun _ => 0) fun j hj => flat_relu_zero hf (hfl j hj)] at hq'
      cases hq'
      refine ⟨ws, t, ?_⟩
      rw [List.getLast?_append_of_ne_nil _ (by simp)] at hy
      exact hy
  obtain ⟨ws, k1, k2⟩ := key x p hx h
  obtain ⟨ws', k1', k2'⟩ := key x' p' hx' h'
  rw [k1.unique k1', k2'] at k2
  exact (Option.some.inj k2).symm

/-! ## Examples -/

/-- Two hidden units with weights -1 and 1, biases 0 and `RITReLU`, and one output unit. -/
noncomputable def exDead : Net (Cf .w32 ℝ) :=
  ⟨[.dense ⟨Mat.fromBody [⟨-1, 0⟩, ⟨1, 0⟩] (2, 1), [⟨0, 0⟩, ⟨0, 0⟩], .ritReLU⟩,
    .dense ⟨Mat.fromBody [⟨1, 0⟩, ⟨1, 0⟩] (1, 2), [⟨0, 0⟩], .none⟩]⟩

theorem exDead_ready : exDead.Ready (.vec 1) (.vec 1) where
  layers := by simp [exDead]
  wf := by simp [exDead, Layer.WF, Mat.fromBody, Mat.Rect]
  fits := .cons (s₁ := .vec 2) ⟨by omega, rfl⟩ (.cons (s₁ := .vec 1) ⟨by omega, rfl⟩ (.nil _))
  total := by
    intro l hl
    simp only [exDead, List.mem_cons, List.not_mem_nil, or_false] at hl
    rcases hl with rfl | rfl
    · exact fun z => C46_total _ (by simp) z
    · exact fun z => C46_total _ (by simp) z
  totalBack := by
    intro l hl
    simp only [exDead, List.mem_cons, List.not_mem_nil, or_false] at hl
    rcases hl with rfl | rfl
    · exact ⟨fun z => (C66_total _ (by simp) z).1, fun z => (C66_total _ (by simp) z).2⟩
    · exact ⟨fun z => (C66_total _ (by simp) z).1, fun z => (C66_total _ (by simp) z).2⟩

/-- The first unit is dead on `1 + i`. -/
theorem exDead_dead : DeadOn [] 1 (fun j _ => if j = 0 then ⟨-1, 0⟩ else ⟨1, 0⟩) (fun _ => 0) .ritReLU 0
    (.scalar [(⟨1, 1⟩ : Cf .w32 ℝ)]) := by
  intro ys hc
  cases hc
  refine ⟨fun _ => ⟨1, 1⟩, rfl, (flat_ritReLU _).mpr ?_⟩
  have e : (⟨-1, 0⟩ : Cf .w32 ℝ) * ⟨1, 1⟩ = ⟨-1, -1⟩ := by
    apply Cf.toC_inj.mp
    rw [Cf.toC_hom_mul]
    apply Complex.ext <;> simp
  simp only [Finset.range_one, Finset.sum_singleton, if_true, add_zero, e]
  norm_num

/-- Trained on `1 + i` as often as one likes, with any loss, rate and target, the network keeps its
first unit. -/
example (lf : LossFunc) (lr t : Cf .w32 ℝ) (k : Nat) :
    ∃ n' l' post' W' b', exDead.train (List.replicate k (⟨[.scalar [⟨1, 1⟩]], [.scalar [t]]⟩, lf, lr))
        = some n' ∧ n'.layers = .dense l' :: post' ∧ l'.Is 2 1 W' b' .ritReLU
      ∧ b' 0 = 0 ∧ W' 0 0 = ⟨-1, 0⟩ := by
  obtain ⟨n', h, -⟩ := C66_exact exDead exDead_ready
    (List.replicate k (⟨[.scalar [⟨1, 1⟩]], [.scalar [t]]⟩, lf, lr)) (by
      intro st hst
      rw [(List.mem_replicate.mp hst).2]
      refine ⟨?_, by simp⟩
      intro p hp
      have hp : p ∈ [(IOType.scalar [(⟨1, 1⟩ : Cf .w32 ℝ)], IOType.scalar [t])] := hp
      simp only [List.mem_singleton] at hp
      subst hp
      exact ⟨rfl, rfl⟩)
  obtain ⟨l', post', W', b', h1, h2, h3, h4, -⟩ := C95_history exDead n' exDead_ready.wf (pre := [])
    (by simp) (l := ⟨Mat.fromBody [⟨-1, 0⟩, ⟨1, 0⟩] (2, 1), [⟨0, 0⟩, ⟨0, 0⟩], .ritReLU⟩) (u := 2) (m := 1)
    (W := fun j _ => if j = 0 then ⟨-1, 0⟩ else ⟨1, 0⟩) (b := fun _ => 0) (f := .ritReLU) rfl
    ⟨⟨rfl, by simp [Mat.fromBody, table, List.range_succ]⟩,
      by simp [List.range_succ]; exact (cf_zero_iff _).mpr ⟨rfl, rfl⟩, rfl⟩
    (by omega) (j := 0) (by omega) _ (by
      intro s hs p hp
      rw [(List.mem_replicate.mp hs).2] at hp
      have hp : p ∈ [(IOType.scalar [(⟨1, 1⟩ : Cf .w32 ℝ)], IOType.scalar [t])] := hp
      simp only [List.mem_singleton] at hp
      subst hp
      exact exDead_dead) h
  exact ⟨n', l', post', W', b', h, h1, h2, h3, by rw [h4 0 (by omega)]; rfl⟩

/-- A hidden layer of one unit with weight -1 is dead on `1 + i` and on `2 + i`. -/
example : ∀ x ∈ [(⟨1, 1⟩ : Cf .w64 ℝ), ⟨2, 1⟩], ∀ j, j < 1 →
    DeadOn [] 1 (fun _ _ => ⟨-1, 0⟩) (fun _ => 0) .ritReLU j (.scalar [x]) := by
  intro x hx j hj ys hc
  cases hc
  refine ⟨fun _ => x, rfl, (flat_ritReLU _).mpr ?_⟩
  have e : ((∑ i ∈ Finset.range 1, (⟨-1, 0⟩ : Cf .w64 ℝ) * x) + 0) = ⟨-x.x, -x.y⟩ := by
    apply Cf.toC_inj.mp
    simp only [Finset.range_one, Finset.sum_singleton, add_zero]
    rw [Cf.toC_hom_mul]
    apply Complex.ext <;> simp
  simp only [e]
  simp only [List.mem_cons, List.not_mem_nil, or_false] at hx
  rcases hx with rfl | rfl <;> norm_num

end Renplex
