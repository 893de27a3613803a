import Verif.Spec.Span
import Verif.Props.Rescale
import Verif.Props.Descent
/-!
# C104: training moves the first weights only along the inputs
-/

namespace Renplex
variable {w : Width}

/-- A sum of multiples of input vectors: coefficient `q.2 j` for unit `j` and input `q.1`. -/
noncomputable def combo (L : List ((Nat → Cf w ℝ) × (Nat → Cf w ℝ))) (j i : Nat) : Cf w ℝ :=
  (L.map fun q => q.2 j * q.1 i).sum
@[inherit_doc combo]
noncomputable def combo1 (L : List ((Nat → Cf w ℝ) × (Nat → Cf w ℝ))) (j : Nat) : Cf w ℝ :=
  (L.map fun q => q.2 j).sum

/-- Derivatives of a dense layer that are sums of multiples of input vectors. -/
def InSpan (u m : Nat) (S : (Nat → Cf w ℝ) → Prop) (g : LayerVec (Cf w ℝ)) : Prop :=
  ∃ L : List ((Nat → Cf w ℝ) × (Nat → Cf w ℝ)), (∀ q ∈ L, S q.1) ∧ g = (table u m (combo L), (List.range u).map (combo1 L))

theorem dense_input {l : Dense (Cf w ℝ)} {u m : Nat} {W : Nat → Nat → Cf w ℝ} {b : Nat → Cf w ℝ}
    {f : ActFunc} (h : l.Is u m W b f) {x : IOType (Cf w ℝ)} {D DC : List (Cf w ℝ)}
    {r : Derivs (Cf w ℝ)} (hr : ((Layer.dense l).computeDerivatives x D DC >>= unwrap) = some r) :
    ∃ v : Nat → Cf w ℝ, x = .scalar ((List.range m).map v) := by
  have : Nonempty (Cf w ℝ) := ⟨0⟩
  have hr' : (l.computeDerivatives x D DC >>= unwrap) = some r := hr
  unfold Dense.computeDerivatives at hr'
  split at hr'
  · cases hr'
  split at hr'
  · cases hr'
  cases x with
  | matrix ms => cases hr'
  | scalar z =>
    obtain ⟨v, hv⟩ := exists_range_map z
    by_cases hz : z.length = m
    · exact ⟨v, by rw [hz] at hv; rw [← hv]⟩
    · exfalso
      have : l.computeQ z = none := by
        unfold Dense.computeQ Mat.mulSlice
        rw [h.1.1]
        simp [Ne.symm hz, unwrap]
      simp [this] at hr'

/-- The contribution of a sample. -/
theorem span_sample {n : Net (Cf w ℝ)} {pre post : List (Layer (Cf w ℝ))} {a : Dense (Cf w ℝ)} {u m : Nat}
    {W : Nat → Nat → Cf w ℝ} {b : Nat → Cf w ℝ} {f : ActFunc}
    (hn : n.layers = pre ++ .dense a :: post) (ha : a.Is u m W b f) (hm : 0 < m)
    {lf : LossFunc} {p : IOType (Cf w ℝ) × IOType (Cf w ℝ)} {gs : List (LayerVec (Cf w ℝ))}
    (h : sampleGrads n lf p = some gs) {g : LayerVec (Cf w ℝ)} (hg : gs[pre.length]? = some g) :
    InSpan u m (Sees pre m p.1) g := by
  obtain ⟨ys, prev, d, dc, r, A, g1, g2, h1, h2, h3, -, rfl, h5⟩ := sampleGrads_split hn rfl h
  obtain ⟨v, rfl⟩ := dense_input ha h3
  obtain ⟨M, m1, m2, -, -, -⟩ := Dense.derivatives_inv ha hm h3
  have e : g = (r.1, r.2.1) := by
    rw [List.getElem?_append_right (by simp [h5]), List.length_reverse, h5, Nat.sub_self] at hg
    exact (Option.some.inj hg).symm
  subst e
  refine ⟨[(v, M)], by simpa using ⟨ys, h1, h2⟩, ?_⟩
  rw [m1, m2]
  congr 1
  · exact table_congr fun j _ i _ => by simp [combo, mul_comm]
  · exact range_map_congr fun j _ => by simp [combo1]

theorem InSpan.add {u m : Nat} {S : (Nat → Cf w ℝ) → Prop} {g g' : LayerVec (Cf w ℝ)}
    (h : InSpan u m S g) (h' : InSpan u m S g') : InSpan u m S (g.add g') := by
  obtain ⟨L, hL, rfl⟩ := h
  obtain ⟨L', hL', rfl⟩ := h'
  refine ⟨L ++ L', fun q hq => (List.mem_append.mp hq).elim (hL q) (hL' q), ?_⟩
  simp only [LayerVec.add, table_zipWith, List.zipWith_map, List.zipWith_self]
  congr 1
  · exact table_congr fun j _ i _ => by simp [combo]
  · exact range_map_congr fun j _ => by simp [combo1]

theorem InSpan.mono {u m : Nat} {S S' : (Nat → Cf w ℝ) → Prop} {g : LayerVec (Cf w ℝ)}
    (h : InSpan u m S g) (hS : ∀ v, S v → S' v) : InSpan u m S' g := by
  obtain ⟨L, hL, rfl⟩ := h
  exact ⟨L, fun q hq => hS _ (hL q hq), rfl⟩

/-- The change that the code makes for the derivative `d`: `conj (d *= scale)`. -/
noncomputable def moved (scale d : Cf w ℝ) : Cf w ℝ := CplxOps.conj (BasicOps.mulAssign d scale)

theorem moved_add (s a b : Cf w ℝ) : moved s (a + b) = moved s a + moved s b := by
  have hx : ∀ a b : Cf w ℝ, (a + b).x = a.x + b.x := fun _ _ => rfl
  have hy : ∀ a b : Cf w ℝ, (a + b).y = a.y + b.y := fun _ _ => rfl
  unfold moved
  ext <;> simp [BasicOps.mulAssign, Cf.mulAssign, CplxOps.conj, Cf.conj, hx, hy] <;> ring

theorem moved_zero (s : Cf w ℝ) : moved s 0 = 0 := by
  unfold moved
  rw [mulAssign_zero, conj_zero']

theorem moved_sum {β : Type} (s : Cf w ℝ) (L : List β) (F : β → Cf w ℝ) :
    moved s (L.map F).sum = (L.map fun q => moved s (F q)).sum := by
  induction L with
  | nil => exact moved_zero s
  | cons q L ih => simp only [List.map_cons, List.sum_cons, moved_add, ih]

theorem moved_real {s : Cf w ℝ} (hs : s.y = 0) (d : Cf w ℝ) :
    moved s d = CplxOps.conj d * CplxOps.conj s := by
  unfold moved
  rw [show BasicOps.mulAssign d s = d * s from (C20_partial d s).2.2.1.mpr (.inl hs), conj_mul_cf]

/-- What training does to the first layer: entries of `L` are an input, one number for each unit, and a
factor. -/
theorem span_core {n n' : Net (Cf w ℝ)} (hw : ∀ l ∈ n.layers, l.WF) {pre : List (Layer (Cf w ℝ))}
    {u m : Nat} {W : Nat → Nat → Cf w ℝ} {c : Nat → Cf w ℝ} {f : ActFunc} (hn : StartsWith n pre u m W c f)
    (steps : List (TrainStep (Cf w ℝ))) (h : n.train steps = some n') :
    ∃ (W' : Nat → Nat → Cf w ℝ) (c' : Nat → Cf w ℝ)
      (L : List ((Nat → Cf w ℝ) × (Nat → Cf w ℝ) × Cf w ℝ)), StartsWith n' pre u m W' c' f
      ∧ (∀ q ∈ L, SeenIn pre m steps q.1 ∧ ((∀ s ∈ steps, s.2.2.y = 0) → q.2.2.y = 0))
      ∧ ∀ j, j < u → c' j = c j - (L.map fun q => moved q.2.2 (q.2.1 j)).sum
        ∧ ∀ i, i < m → W' j i = W j i - (L.map fun q => moved q.2.2 (q.2.1 j * q.1 i)).sum := by
  induction steps generalizing n W c with
  | nil =>
    cases h
    exact ⟨W, c, [], hn, by simp, by simp⟩
  | cons s steps ih =>
    obtain ⟨r, n1, h1, h2⟩ := Net.train_cons h
    have step : ∃ (W1 : Nat → Nat → Cf w ℝ) (c1 : Nat → Cf w ℝ)
        (L : List ((Nat → Cf w ℝ) × (Nat → Cf w ℝ) × Cf w ℝ)), StartsWith n1 pre u m W1 c1 f
        ∧ (∀ q ∈ L, (∃ p ∈ s.1.points, Sees pre m p.1 q.1) ∧ (s.2.2.y = 0 → q.2.2.y = 0))
        ∧ ∀ j, j < u → c1 j = c j - (L.map fun q => moved q.2.2 (q.2.1 j)).sum
          ∧ ∀ i, i < m → W1 j i = W j i - (L.map fun q => moved q.2.2 (q.2.1 j * q.1 i)).sum := by
      by_cases hlen : n.layers.length ≤ 1
      · unfold Net.gradientOpt at h1
        rw [if_pos hlen] at h1
        cases h1
        exact ⟨W, c, [], hn, by simp, by simp⟩
      obtain ⟨hm, hfix, a, post, hnl, ha⟩ := hn
      obtain ⟨-, gss, scale, k1, k2, rfl⟩ := (C50_step n n1 (by omega) hw s.1 s.2.1 s.2.2 r).mp h1
      have hfit : List.Forall₂ LayerVec.Fits (sumGrads n gss) n.layers := by
        refine sumGrads_fits n gss fun gs hgs => ?_
        obtain ⟨p, -, hp⟩ := forall₂_mem_right k1 gs hgs
        exact hp.2
      have hQ := fun g hg => sumGrads_at (n := n) (k := pre.length) (g := g)
        (Q := InSpan u m fun v => ∃ p ∈ s.1.points, Sees pre m p.1 v)
        (fun _ _ => InSpan.add)
        (fun l0 hl0 => by
          rw [hnl] at hl0
          simp at hl0
          subst hl0
          exact ⟨[], by simp, zero_dense ha⟩) gss
        (fun gs hgs g hg => by
          obtain ⟨p, hp, hp'⟩ := forall₂_mem_right k1 gs hgs
          exact (span_sample hnl ha hm hp'.1 hg).mono fun v hv => ⟨p, hp, hv⟩) hg
      generalize sumGrads n gss = G at *
      rw [hnl] at hfit
      obtain ⟨G1, G2, rfl, f1, f2⟩ := forall₂_append_inv hfit.flip
      replace f1 : List.Forall₂ LayerVec.Fits G1 pre := f1.flip
      replace f2 : List.Forall₂ LayerVec.Fits G2 (.dense a :: post) := f2.flip
      cases f2 with
      | @cons g _ G2 _ f2 f3 =>
        have hlen1 := f1.length_eq
        obtain ⟨L, hL, rfl⟩ := hQ g (by rw [← hlen1]; simp)
        obtain ⟨a', e1, e2⟩ := Dense.zipParams_is ha (A := combo L) (s := combo1 L)
          (fun p d => p - CplxOps.conj (BasicOps.mulAssign d scale))
        refine ⟨_, _, L.map fun q => (q.1, q.2, scale),
          ⟨hm, hfix, a', List.zipWith (Layer.zipParams (fun p d => p - CplxOps.conj (BasicOps.mulAssign d scale)))
            post G2, ?_, e2⟩, ?_, fun j hj => ⟨?_, fun i hi => ?_⟩⟩
        · show List.zipWith _ n.layers _ = _
          rw [hnl, List.zipWith_append hlen1.symm, List.zipWith_cons_cons, e1, fixed_zipParams hfix hlen1]
        · intro q hq
          obtain ⟨q', hq', rfl⟩ := List.mem_map.mp hq
          exact ⟨hL q' hq', fun hs => scale_real hs k2⟩
        · show c j - moved scale (combo1 L j) = _
          rw [combo1, moved_sum, List.map_map]
          rfl
        · show W j i - moved scale (combo L j i) = _
          rw [combo, moved_sum, List.map_map]
          rfl
    obtain ⟨W1, c1, L1, s1, s2, s3⟩ := step
    obtain ⟨W', c', L, t1, t2, t3⟩ := ih (sameShape_wf (Net.gradientOpt_shape hw h1)) s1 h2
    refine ⟨W', c', L1 ++ L, t1, ?_, fun j hj => ⟨?_, fun i hi => ?_⟩⟩
    · intro q hq
      rcases List.mem_append.mp hq with hq | hq
      · obtain ⟨⟨p, hp, hv⟩, hs⟩ := s2 q hq
        exact ⟨⟨s, by simp, p, hp, hv⟩, fun h => hs (h s (by simp))⟩
      · obtain ⟨⟨s', hs', p, hp, hv⟩, hs⟩ := t2 q hq
        exact ⟨⟨s', by simp [hs'], p, hp, hv⟩, fun h => hs fun s hs => h s (by simp [hs])⟩
    · rw [(t3 j hj).1, (s3 j hj).1, List.map_append, List.sum_append, sub_sub]
    · rw [(t3 j hj).2 i hi, (s3 j hj).2 i hi, List.map_append, List.sum_append, sub_sub]

theorem StartsWith.unique {n : Net (Cf w ℝ)} {pre : List (Layer (Cf w ℝ))} {u m : Nat}
    {W W' : Nat → Nat → Cf w ℝ} {c c' : Nat → Cf w ℝ} {f f' : ActFunc} (h : StartsWith n pre u m W c f)
    (h' : StartsWith n pre u m W' c' f') {j : Nat} (hj : j < u) :
    c' j = c j ∧ ∀ i, i < m → W' j i = W j i := by
  obtain ⟨-, -, a, post, hn, ha⟩ := h
  obtain ⟨-, -, a', post', hn', ha'⟩ := h'
  rw [hn'] at hn
  have := (List.cons.inj (List.append_cancel_left hn)).1
  cases this
  constructor
  · have := congrArg (fun q => q[j]?) (ha'.2.1.symm.trans ha.2.1)
    simpa [hj] using this
  · intro i hi
    have := congrArg (fun q => q[j * m + i]?) (ha'.1.2.symm.trans ha.1.2)
    simpa [table_getElem? u m _ hj hi] using this

/-- C104. Training keeps the kind and the shape of the layers: the theorems below speak of the weights
after every training that returns. -/
theorem C104_starts (n n' : Net (Cf w ℝ)) (hw : ∀ l ∈ n.layers, l.WF) {pre : List (Layer (Cf w ℝ))}
    {u m : Nat} {W : Nat → Nat → Cf w ℝ} {c : Nat → Cf w ℝ} {f : ActFunc} (hn : StartsWith n pre u m W c f)
    (steps : List (TrainStep (Cf w ℝ))) (h : n.train steps = some n') :
    ∃ W' c', StartsWith n' pre u m W' c' f := by
  obtain ⟨W', c', _, h1, -⟩ := span_core hw hn steps h
  exact ⟨W', c', h1⟩

/-- C104. The weights and biases of the first dense layer after training with real learning rates: each
training input `v`, as the layers before present it, has added a multiple of `(conj v, 1)` to the
weights and bias of every unit, nothing else. -/
theorem C104_span_partial (n n' : Net (Cf w ℝ)) (hw : ∀ l ∈ n.layers, l.WF) {pre : List (Layer (Cf w ℝ))}
    {u m : Nat} {W W' : Nat → Nat → Cf w ℝ} {c c' : Nat → Cf w ℝ} {f : ActFunc}
    (hn : StartsWith n pre u m W c f) (steps : List (TrainStep (Cf w ℝ))) (hr : ∀ s ∈ steps, s.2.2.y = 0)
    (h : n.train steps = some n') (hn' : StartsWith n' pre u m W' c' f) :
    ∃ L : List ((Nat → Cf w ℝ) × (Nat → Cf w ℝ)), (∀ q ∈ L, SeenIn pre m steps q.1)
      ∧ ∀ j, j < u → c' j = c j + (L.map fun q => q.2 j).sum
        ∧ ∀ i, i < m → W' j i = W j i + (L.map fun q => q.2 j * CplxOps.conj (q.1 i)).sum := by
  obtain ⟨W1, c1, L, h1, h2, h3⟩ := span_core hw hn steps h
  refine ⟨L.map fun q => (q.1, fun j => - (CplxOps.conj (q.2.1 j) * CplxOps.conj q.2.2)), ?_,
    fun j hj => ⟨?_, fun i hi => ?_⟩⟩
  · intro q hq
    obtain ⟨q', hq', rfl⟩ := List.mem_map.mp hq
    exact (h2 q' hq').1
  · rw [(h1.unique hn' hj).1, (h3 j hj).1, List.map_map, sub_eq_add_neg, List.sum_neg, List.map_map]
    congr 2
    refine List.map_congr_left fun q hq => ?_
    show - moved _ _ = _
    rw [moved_real ((h2 q hq).2 hr)]
    rfl
  · rw [(h1.unique hn' hj).2 i hi, (h3 j hj).2 i hi, List.map_map, sub_eq_add_neg, List.sum_neg, List.map_map]
    congr 2
    refine List.map_congr_left fun q hq => ?_
    show - moved _ _ = - _ * _
    rw [moved_real ((h2 q hq).2 hr), conj_mul_cf]
    ring

/-- C104. So a combination of the weights and the bias of a unit that vanishes on every training input
keeps its value during the whole training. -/
theorem C104_invariant_partial (n n' : Net (Cf w ℝ)) (hw : ∀ l ∈ n.layers, l.WF) {pre : List (Layer (Cf w ℝ))}
    {u m : Nat} {W W' : Nat → Nat → Cf w ℝ} {c c' : Nat → Cf w ℝ} {f : ActFunc}
    (hn : StartsWith n pre u m W c f) (steps : List (TrainStep (Cf w ℝ))) (hr : ∀ s ∈ steps, s.2.2.y = 0)
    (h : n.train steps = some n') (hn' : StartsWith n' pre u m W' c' f) (d : Nat → Cf w ℝ) (e : Cf w ℝ)
    (hd : ∀ v, SeenIn pre m steps v → (∑ i ∈ Finset.range m, CplxOps.conj (v i) * d i) + e = 0)
    {j : Nat} (hj : j < u) :
    (∑ i ∈ Finset.range m, W' j i * d i) + c' j * e = (∑ i ∈ Finset.range m, W j i * d i) + c j * e := by
  obtain ⟨L, h1, h2⟩ := C104_span_partial n n' hw hn steps hr h hn'
  rw [(h2 j hj).1, Finset.sum_congr rfl fun i hi => by rw [(h2 j hj).2 i (Finset.mem_range.mp hi)]]
  clear h2
  induction L with
  | nil => simp
  | cons q L ih =>
    have ih := ih fun q hq => h1 q (by simp [hq])
    have h0 := hd q.1 (h1 q (by simp))
    simp only [List.map_cons, List.sum_cons] at ih ⊢
    rw [← ih]
    have : ∀ i, (W j i + (q.2 j * CplxOps.conj (q.1 i) + (L.map fun q => q.2 j * CplxOps.conj (q.1 i)).sum)) * d i
        = q.2 j * (CplxOps.conj (q.1 i) * d i)
          + (W j i + (L.map fun q => q.2 j * CplxOps.conj (q.1 i)).sum) * d i := fun i => by ring
    simp only [this, Finset.sum_add_distrib, ← Finset.mul_sum]
    linear_combination q.2 j * h0

/-- C104. In particular the network keeps its initial response to every direction orthogonal to all
training inputs: adding such a direction `d` to any input changes the weighted sum of every unit of
the layer after training by exactly as much as before. -/
theorem C104_response_partial (n n' : Net (Cf w ℝ)) (hw : ∀ l ∈ n.layers, l.WF) {pre : List (Layer (Cf w ℝ))}
    {u m : Nat} {W W' : Nat → Nat → Cf w ℝ} {c c' : Nat → Cf w ℝ} {f : ActFunc}
    (hn : StartsWith n pre u m W c f) (steps : List (TrainStep (Cf w ℝ))) (hr : ∀ s ∈ steps, s.2.2.y = 0)
    (h : n.train steps = some n') (hn' : StartsWith n' pre u m W' c' f) (d : Nat → Cf w ℝ)
    (hd : ∀ v, SeenIn pre m steps v → ∑ i ∈ Finset.range m, CplxOps.conj (v i) * d i = 0)
    {j : Nat} (hj : j < u) (z : Nat → Cf w ℝ) :
    ((∑ i ∈ Finset.range m, W' j i * (z i + d i)) + c' j) - ((∑ i ∈ Finset.range m, W' j i * z i) + c' j)
      = ∑ i ∈ Finset.range m, W j i * d i := by
  have := C104_invariant_partial n n' hw hn steps hr h hn' d 0 (by simpa using hd) hj
  simp only [mul_zero, add_zero] at this
  rw [← this]
  simp only [mul_add, Finset.sum_add_distrib]
  ring

/-- C104. The weights of a feature that is zero in all training inputs never change, whatever the
learning rates, also complex ones. -/
theorem C104_unseen (n n' : Net (Cf w ℝ)) (hw : ∀ l ∈ n.layers, l.WF) {pre : List (Layer (Cf w ℝ))}
    {u m : Nat} {W W' : Nat → Nat → Cf w ℝ} {c c' : Nat → Cf w ℝ} {f : ActFunc}
    (hn : StartsWith n pre u m W c f) (steps : List (TrainStep (Cf w ℝ))) (h : n.train steps = some n')
    (hn' : StartsWith n' pre u m W' c' f) {i : Nat} (hi : i < m) (hz : ∀ v, SeenIn pre m steps v → v i = 0)
    {j : Nat} (hj : j < u) : W' j i = W j i := by
  obtain ⟨W1, c1, L, h1, h2, h3⟩ := span_core hw hn steps h
  rw [(h1.unique hn' hj).2 i hi, (h3 j hj).2 i hi, List.sum_eq_zero, sub_zero]
  intro x hx
  obtain ⟨q, hq, rfl⟩ := List.mem_map.mp hx
  rw [hz _ (h2 q hq).1, mul_zero, moved_zero]

/-- C104. The weights of two features that agree in all training inputs keep their difference, whatever
the learning rates. -/
theorem C104_equal (n n' : Net (Cf w ℝ)) (hw : ∀ l ∈ n.layers, l.WF) {pre : List (Layer (Cf w ℝ))}
    {u m : Nat} {W W' : Nat → Nat → Cf w ℝ} {c c' : Nat → Cf w ℝ} {f : ActFunc}
    (hn : StartsWith n pre u m W c f) (steps : List (TrainStep (Cf w ℝ))) (h : n.train steps = some n')
    (hn' : StartsWith n' pre u m W' c' f) {i k : Nat} (hi : i < m) (hk : k < m)
    (he : ∀ v, SeenIn pre m steps v → v i = v k) {j : Nat} (hj : j < u) :
    W' j i - W' j k = W j i - W j k := by
  obtain ⟨W1, c1, L, h1, h2, h3⟩ := span_core hw hn steps h
  rw [(h1.unique hn' hj).2 i hi, (h3 j hj).2 i hi, (h1.unique hn' hj).2 k hk, (h3 j hj).2 k hk]
  have : (L.map fun q => moved q.2.2 (q.2.1 j * q.1 i)) = L.map fun q => moved q.2.2 (q.2.1 j * q.1 k) :=
    List.map_congr_left fun q hq => by rw [he _ (h2 q hq).1]
  rw [this]
  ring

/-- C104 is false for complex learning rates: for every rate that is not real there are a network, a
batch of one point with the input `v`, and a training call after which the change of weight and bias
is no multiple of `(conj v, 1)`. -/
theorem C104_refuted_complex (lr : Cf w ℝ) (hlr : lr.y ≠ 0) (f : LossFunc) :
    ∃ (n n' : Net (Cf w ℝ)) (data : Dataset (Cf w ℝ)) (v : Cf w ℝ) (W' c' : Cf w ℝ),
      (∀ l ∈ n.layers, l.WF) ∧ data.inputs = [.scalar [v]]
        ∧ StartsWith n [] 1 1 (fun _ _ => 1) (fun _ => 0) .none
        ∧ n.train [(data, f, lr)] = some n'
        ∧ StartsWith n' [] 1 1 (fun _ _ => W') (fun _ => c') .none
        ∧ ¬ ∃ A, c' = 0 + A ∧ W' = 1 + A * CplxOps.conj v := by
  obtain ⟨q, hq, hq'⟩ := div_toC lr (Cf.ofUsize 1) (by rw [Cf.toC_ofUsize]; simp)
  rw [Cf.toC_ofUsize, Nat.cast_one, div_one] at hq'
  obtain rfl := Cf.toC_inj.mp hq'
  have hc : CplxOps.conj ((⟨0, 1⟩ : Cf w ℝ) - ⟨-1, 1⟩) = 1 := by
    apply Cf.toC_inj.mp
    show (Cf.conj _).toC = _
    rw [Cf.toC_conj, Cf.toC_hom_sub, Cf.toC_hom_one]
    apply Complex.ext <;> simp
  have hs := exTwo_sample f (⟨0, 1⟩ : Cf w ℝ) ⟨-1, 1⟩
  rw [hc, mul_one] at hs
  have hstep := (C50_step (exTwo : Net (Cf w ℝ)) _ (by simp [exTwo]) exTwo_wf
    ⟨[.scalar [⟨0, 1⟩]], [.scalar [⟨-1, 1⟩]]⟩ f q (.ok ())).mpr ⟨rfl, _, q, .cons ⟨hs,
      .cons ⟨rfl, rfl⟩ (.cons ⟨rfl, rfl⟩ .nil)⟩ .nil, hq, rfl⟩
  rw [exTwo_sum] at hstep
  refine ⟨exTwo, ⟨[.dense ⟨Mat.fromBody [1 - moved q ⟨0, 1⟩] (1, 1), [0 - moved q 1], .none⟩,
      .dense ⟨Mat.fromBody [1 - moved q ⟨0, 1⟩] (1, 1), [0 - moved q 1], .none⟩]⟩,
    ⟨[.scalar [⟨0, 1⟩]], [.scalar [⟨-1, 1⟩]]⟩, ⟨0, 1⟩, 1 - moved q ⟨0, 1⟩, 0 - moved q 1, exTwo_wf, rfl,
    ⟨by omega, by simp, _, [exUnit], rfl, ⟨rfl, rfl⟩, rfl, rfl⟩, ?_, ?_, ?_⟩
  · simp only [Net.train, List.foldlM_cons, List.foldlM_nil]
    rw [hstep]
    rfl
  · exact ⟨by omega, by simp, _, _, rfl, ⟨rfl, rfl⟩, rfl, rfl⟩
  · rintro ⟨A, h1, h2⟩
    rw [zero_sub, zero_add] at h1
    rw [← h1] at h2
    have h3 : moved q ⟨0, 1⟩ = moved q 1 * CplxOps.conj ⟨0, 1⟩ := by
      linear_combination -h2
    have h4 := congrArg (fun z => z.toC.im) h3
    rw [Cf.toC_hom_mul, show (CplxOps.conj ⟨0, 1⟩ : Cf w ℝ) = Cf.conj ⟨0, 1⟩ from rfl, Cf.toC_conj] at h4
    simp [moved, BasicOps.mulAssign, Cf.mulAssign, CplxOps.conj, Cf.conj] at h4
    rw [show (1 : Cf w ℝ).x = 1 from rfl, show (1 : Cf w ℝ).y = 0 from rfl] at h4
    exact hlr (mul_self_eq_zero.mp (by linarith))

/-- The hypotheses of C104 hold for the two-layer network of C50 and every batch of vectors of one
number. -/
example (x : Cf w ℝ) : StartsWith (exTwo : Net (Cf w ℝ)) [] 1 1 (fun _ _ => 1) (fun _ => 0) .none
    ∧ (∀ l ∈ (exTwo : Net (Cf w ℝ)).layers, l.WF) ∧ Sees [] 1 (.scalar [x]) fun _ => x :=
  ⟨⟨by omega, by simp, _, [exUnit], rfl, ⟨rfl, rfl⟩, rfl, rfl⟩, exTwo_wf, [], .nil _, rfl⟩

end Renplex
