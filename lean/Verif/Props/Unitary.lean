import Verif.Spec.Unitary
import Verif.Props.Span
import Mathlib.LinearAlgebra.Matrix.NonsingularInverse
import Mathlib.RingTheory.RootsOfUnity.Complex
/-!
# C105: turning the inputs of a network
-/

namespace Renplex
variable {w : Width}

theorem conj_sum_cf {ι : Type} (s : Finset ι) (F : ι → Cf w ℝ) :
    CplxOps.conj (∑ i ∈ s, F i) = ∑ i ∈ s, (CplxOps.conj (F i) : Cf w ℝ) := by
  classical
  induction s using Finset.induction_on with
  | empty => exact conj_zero'
  | insert i s hi ih => 
    rw [Finset.sum_insert hi, Finset.sum_insert hi, ← ih]
    apply Cf.toC_inj.mp
    rw [conj_toC, Cf.toC_hom_add, Cf.toC_hom_add, conj_toC, conj_toC, map_add]

/-! ## Unitary matrices -/

/-- The conjugate transpose. -/
noncomputable def dagger (U : Nat → Nat → Cf w ℝ) (k i : Nat) : Cf w ℝ := CplxOps.conj (U i k)

theorem dagger_dagger (U : Nat → Nat → Cf w ℝ) : dagger (dagger U) = U := by
  funext k i
  exact conj_conj_cf _

/-- The rows are orthogonal too. -/
theorem Unitary.dagger {m : Nat} {U : Nat → Nat → Cf w ℝ} (h : Unitary m U) : Unitary m (dagger U) := by
  let A : Matrix (Fin m) (Fin m) (Cf w ℝ) := Matrix.of fun k i => U k i
  let B : Matrix (Fin m) (Fin m) (Cf w ℝ) := Matrix.of fun i k => CplxOps.conj (U k i)
  have e : B * A = 1 := by
    refine Matrix.ext fun i i' => ?_
    rw [Matrix.mul_apply, Matrix.one_apply]
    have := h i i.2 i' i'.2
    rw [← Fin.sum_univ_eq_sum_range (fun k => CplxOps.conj (U k i) * U k i')] at this
    simp only [Fin.val_inj] at this
    exact this
  have e' : A * B = 1 := mul_eq_one_comm.mp e
  intro i hi i' hi'
  have := congrFun (congrFun e' ⟨i, hi⟩) ⟨i', hi'⟩
  rw [Matrix.mul_apply, Matrix.one_apply] at this
  rw [← Fin.sum_univ_eq_sum_range (fun k => CplxOps.conj (Renplex.dagger U k i) * Renplex.dagger U k i')]
  simp only [Renplex.dagger, conj_conj_cf]
  rw [show (∑ k : Fin m, U i k * CplxOps.conj (U i' k)) = ∑ k, A ⟨i, hi⟩ k * B k ⟨i', hi'⟩ from rfl, this]
  simp only [Fin.mk.injEq]

/-- The turned vector. -/
noncomputable def turnVec (m : Nat) (U : Nat → Nat → Cf w ℝ) (X : Nat → Cf w ℝ) (k : Nat) : Cf w ℝ :=
  ∑ i ∈ Finset.range m, U k i * X i

theorem turn_vec (m : Nat) (U : Nat → Nat → Cf w ℝ) (X : Nat → Cf w ℝ) :
    turn m U (.scalar ((List.range m).map X)) = .scalar ((List.range m).map (turnVec m U X)) := by
  show (if _ then _ else _) = _
  rw [if_pos (by simp)]
  congr 1
  refine range_map_congr fun k _ => Finset.sum_congr rfl fun i hi => ?_
  rw [Finset.mem_range] at hi
  rw [List.getD_eq_getElem?_getD]
  simp [hi]

theorem sum_delta {m : Nat} (F : Nat → Cf w ℝ) {i : Nat} (hi : i < m) :
    ∑ k ∈ Finset.range m, F k * (if i = k then 1 else 0) = F i := by
  rw [Finset.sum_eq_single i (fun k _ hk => by rw [if_neg (Ne.symm hk), mul_zero])
    (fun h => absurd (Finset.mem_range.mpr hi) h), if_pos rfl, mul_one]

theorem turn_turn {m : Nat} {U : Nat → Nat → Cf w ℝ} (h : Unitary m U) (x : IOType (Cf w ℝ)) :
    turn m (dagger U) (turn m U x) = x := by
  have : Nonempty (Cf w ℝ) := ⟨0⟩
  cases x with
  | matrix ms => rfl
  | scalar v =>
    by_cases hv : v.length = m
    · obtain ⟨X, hX⟩ := exists_range_map v
      rw [hv] at hX
      rw [hX, turn_vec, turn_vec]
      congr 1
      refine range_map_congr fun i hi => ?_
      unfold turnVec dagger
      simp only [Finset.mul_sum, ← mul_assoc]
      rw [Finset.sum_comm]
      simp only [← Finset.sum_mul]
      rw [Finset.sum_congr rfl fun i' hi' => by rw [h i hi i' (Finset.mem_range.mp hi'), mul_comm]]
      exact sum_delta X hi
    · have e : ∀ V, turn m V (.scalar v) = .scalar v := fun V => by
        show (if _ then _ else _) = _
        rw [if_neg hv]
      rw [e, e]

/-- The weighted sums of the units do not change. -/
theorem turned_sum {m : Nat} {U : Nat → Nat → Cf w ℝ} (h : Unitary m U) (V X : Nat → Cf w ℝ) :
    ∑ k ∈ Finset.range m, (∑ i ∈ Finset.range m, V i * CplxOps.conj (U k i)) * turnVec m U X k
      = ∑ i ∈ Finset.range m, V i * X i := by
  unfold turnVec
  have : ∀ k ∈ Finset.range m, (∑ i ∈ Finset.range m, V i * CplxOps.conj (U k i))
      * (∑ i ∈ Finset.range m, U k i * X i)
      = ∑ i ∈ Finset.range m, ∑ i' ∈ Finset.range m, V i * ((CplxOps.conj (U k i) * U k i') * X i') := by
    intro k _
    rw [Finset.sum_mul]
    refine Finset.sum_congr rfl fun i _ => ?_
    rw [Finset.mul_sum]
    exact Finset.sum_congr rfl fun i' _ => by ring
  rw [Finset.sum_congr rfl this, Finset.sum_comm]
  refine Finset.sum_congr rfl fun i hi => ?_
  rw [Finset.sum_comm]
  simp only [← Finset.mul_sum, ← Finset.sum_mul]
  congr 1
  rw [Finset.sum_congr rfl fun i' hi' => by
    rw [h i (Finset.mem_range.mp hi) i' (Finset.mem_range.mp hi'), mul_comm]]
  exact sum_delta X (Finset.mem_range.mp hi)

theorem Turned.symm {m : Nat} {U : Nat → Nat → Cf w ℝ} {n n' : Net (Cf w ℝ)} (h : Turned m U n n') :
    Turned m (dagger U) n' n := by
  obtain ⟨hm, hU, a, a', post, u, W, c, f, hn, hn', ha, ha'⟩ := h
  refine ⟨hm, hU.dagger, a', a, post, u, _, c, f, hn', hn, ha', ⟨ha.1.1, ?_⟩, ha.2⟩
  rw [ha.1.2]
  refine table_congr fun j _ i hi => ?_
  simp only [dagger, conj_conj_cf, Finset.sum_mul]
  rw [Finset.sum_comm]
  simp only [mul_assoc, ← Finset.mul_sum]
  rw [Finset.sum_congr rfl fun i' hi' => by rw [hU i' (Finset.mem_range.mp hi') i hi]]
  symm
  have := sum_delta (W j) hi
  simpa only [eq_comm] using this

theorem Dense.Is.wf {l : Dense (Cf w ℝ)} {u m : Nat} {W : Nat → Nat → Cf w ℝ} {b : Nat → Cf w ℝ}
    {f : ActFunc} (hl : l.Is u m W b f) : (Layer.dense l).WF :=
  ⟨hl.1.rect, by rw [hl.2.1, hl.1.1]; simp⟩

theorem Turned.wf {m : Nat} {U : Nat → Nat → Cf w ℝ} {n n' : Net (Cf w ℝ)} (h : Turned m U n n')
    (hw : ∀ l ∈ n.layers, l.WF) : ∀ l ∈ n'.layers, l.WF := by
  obtain ⟨-, -, a, a', post, u, W, c, f, hn, hn', -, ha'⟩ := h
  rw [hn] at hw
  rw [hn']
  intro l hl
  rcases List.mem_cons.mp hl with rfl | hl
  · exact ha'.wf
  · exact hw l (by simp [hl])

/-! ## The first layer -/

theorem turned_first {m u : Nat} {U : Nat → Nat → Cf w ℝ} (hm : 0 < m) (hU : Unitary m U)
    {a a' : Dense (Cf w ℝ)} {W : Nat → Nat → Cf w ℝ} {c : Nat → Cf w ℝ} {f : ActFunc} (ha : a.Is u m W c f)
    (ha' : a'.Is u m (fun j k => ∑ i ∈ Finset.range m, W j i * CplxOps.conj (U k i)) c f)
    {x y : IOType (Cf w ℝ)} (h : a.forward x = some (.ok y)) :
    ∃ X, x = .scalar ((List.range m).map X) ∧ a'.forward (turn m U x) = some (.ok y) := by
  obtain ⟨X, Y, rfl, rfl, e⟩ := Dense.forward_inv ha hm h
  refine ⟨X, rfl, ?_⟩
  rw [turn_vec]
  exact C38_forward_exact_partial ha' hm _ Y fun j hj => by rw [turned_sum hU]; exact e j hj

/-- Derivatives by the weights and biases of the first layer, and what becomes of them. -/
def VecU (m u : Nat) (U : Nat → Nat → Cf w ℝ) (gs gs' : List (LayerVec (Cf w ℝ))) : Prop :=
  ∃ (G : List (LayerVec (Cf w ℝ))) (A : Nat → Nat → Cf w ℝ) (s : Nat → Cf w ℝ),
    gs = (table u m A, (List.range u).map s) :: G
    ∧ gs' = (table u m (fun j k => ∑ i ∈ Finset.range m, U k i * A j i), (List.range u).map s) :: G

theorem turned_sample {m u : Nat} {U : Nat → Nat → Cf w ℝ} (hm : 0 < m) (hU : Unitary m U)
    {n n' : Net (Cf w ℝ)} {a a' : Dense (Cf w ℝ)} {post : List (Layer (Cf w ℝ))}
    {W : Nat → Nat → Cf w ℝ} {c : Nat → Cf w ℝ} {f : ActFunc}
    (hn : n.layers = .dense a :: post) (hn' : n'.layers = .dense a' :: post) (ha : a.Is u m W c f)
    (ha' : a'.Is u m (fun j k => ∑ i ∈ Finset.range m, W j i * CplxOps.conj (U k i)) c f)
    (lf : LossFunc) (p : IOType (Cf w ℝ) × IOType (Cf w ℝ)) {gs : List (LayerVec (Cf w ℝ))}
    (h : sampleGrads n lf p = some gs) :
    ∃ gs', sampleGrads n' lf (turn m U p.1, p.2) = some gs' ∧ VecU m u U gs gs' := by
  unfold sampleGrads at h ⊢
  obtain ⟨acts, hac, h⟩ := Option.bind_eq_some_iff.mp h
  obtain ⟨pred, h1, h⟩ := Option.bind_eq_some_iff.mp h
  obtain ⟨dl, hd, h⟩ := Option.bind_eq_some_iff.mp h
  obtain ⟨gs0, hbk, rfl⟩ := Option.map_eq_some_iff.mp h
  obtain ⟨r0, h2, h3⟩ := Option.bind_eq_some_iff.mp hac
  obtain ⟨zs, hc, rfl⟩ := (C44_collect n (by rw [hn]; simp) _ r0).mp h2
  cases h3
  rw [hn] at hc
  cases hc with
  | @cons _ _ _ y ws q1 t =>
    obtain ⟨X, hX, q3⟩ := turned_first hm hU ha ha' q1
    have hc' : Chain n'.layers (turn m U p.1) (y :: ws) := by
      rw [hn']
      exact .cons q3 t
    have hlen := t.length
    have hca : (n'.collectActs (turn m U p.1) >>= unwrap) = some (turn m U p.1 :: y :: ws) := by
      rw [(C44_collect n' (by rw [hn']; simp) _ _).mpr ⟨_, hc', rfl⟩]
      rfl
    rw [hca]
    simp only [Option.bind_eq_bind, Option.bind_some]
    have hh : (turn m U p.1 :: y :: ws).reverse.head? = some pred := by
      rw [← h1]
      simp only [List.head?_reverse, List.getLast?_cons_cons]
    rw [hh]
    simp only [Option.bind_some, hd]
    have key : ∀ (z : IOType (Cf w ℝ)) (l : Layer (Cf w ℝ)), (z :: y :: ws).reverse.tail.zip (l :: post).reverse
        = ((y :: ws).dropLast.reverse.zip post.reverse) ++ [(z, l)] := by
      intro z l
      rw [List.tail_reverse, List.dropLast_cons_of_ne_nil (by simp)]
      simp only [List.reverse_cons]
      rw [List.zip_append (by simp [hlen])]
      rfl
    rw [hn, key] at hbk
    rw [hn', key]
    obtain ⟨g1, g2, g2', rfl, k2, e⟩ := backGrads_replace
      (C := [(p.1, .dense a)]) (C' := [(turn m U p.1, .dense a')])
      (Rel := fun gs gs' => ∃ A s, gs = [(table u m A, (List.range u).map s)]
        ∧ gs' = [(table u m (fun j k => ∑ i ∈ Finset.range m, U k i * A j i), (List.range u).map s)])
      (fun D DC gs h => by
        have hp : ∀ l : Dense (Cf w ℝ), (Layer.dense l).propagates = true := fun _ => rfl
        simp only [backGrads, hp, if_true] at h ⊢
        obtain ⟨r, k1, h⟩ := Option.bind_eq_some_iff.mp h
        cases h
        rw [hX] at k1
        obtain ⟨γ, γc, δ, δc, rfl, rfl, d1, d2, rfl⟩ := Dense.derivatives_data ha hm k1
        have f1 := Dense.computeDerivatives_is ha' hm (turnVec m U X) γ γc δ δc
          (fun j hj => by rw [turned_sum hU]; exact d1 j hj) (fun j hj => by rw [turned_sum hU]; exact d2 j hj)
        refine ⟨_, ?_, _, _, rfl, rfl⟩
        rw [hX, turn_vec, show (Layer.dense a').computeDerivatives = a'.computeDerivatives from rfl, f1]
        simp only [Option.bind_eq_bind, Option.bind_some, unwrap, Option.map_some]
        congr 3
        exact table_congr fun j _ k _ => by rw [turnVec, Finset.sum_mul]; simp only [mul_assoc]) _ hbk
    obtain ⟨A, s, rfl, rfl⟩ := e
    exact ⟨_, by rw [k2]; rfl, g1.reverse, A, s, by simp, by simp⟩

theorem VecU.add {m u : Nat} {U : Nat → Nat → Cf w ℝ} {x x' y y' : List (LayerVec (Cf w ℝ))}
    (h : VecU m u U x x') (h' : VecU m u U y y') :
    VecU m u U (List.zipWith LayerVec.add x y) (List.zipWith LayerVec.add x' y') := by
  obtain ⟨G, A, s, rfl, rfl⟩ := h
  obtain ⟨K, B, t, rfl, rfl⟩ := h'
  refine ⟨List.zipWith LayerVec.add G K, fun j i => A j i + B j i, fun j => s j + t j, ?_, ?_⟩
  · simp only [List.zipWith_cons_cons, LayerVec.add, table_zipWith, List.zipWith_map, List.zipWith_self]
  · simp only [List.zipWith_cons_cons, LayerVec.add, table_zipWith, List.zipWith_map, List.zipWith_self,
      mul_add, Finset.sum_add_distrib]

theorem turned_total {m u : Nat} {U : Nat → Nat → Cf w ℝ} {gss gss' : List (List (LayerVec (Cf w ℝ)))}
    (h : List.Forall₂ (VecU m u U) gss gss') {acc acc' : List (LayerVec (Cf w ℝ))}
    (h0 : VecU m u U acc acc') : VecU m u U (gss.foldl (List.zipWith LayerVec.add) acc)
      (gss'.foldl (List.zipWith LayerVec.add) acc') := by
  induction h generalizing acc acc' with
  | nil => exact h0
  | cons h _ ih => exact ih (h0.add h)

theorem Dense.Is.fits {l : Dense (Cf w ℝ)} {u m : Nat} {W : Nat → Nat → Cf w ℝ} {b : Nat → Cf w ℝ} {f : ActFunc}
    (hl : l.Is u m W b f) (F : Nat → Nat → Cf w ℝ) (s : Nat → Cf w ℝ) :
    LayerVec.Fits (table u m F, (List.range u).map s) (.dense l) := by
  unfold LayerVec.Fits
  rw [if_pos (by rfl)]
  constructor
  · rw [table_length]; show _ = l.weights.shape.1 * l.weights.shape.2; rw [hl.1.1]
  · show _ = l.biases.length; rw [hl.2.1]; simp

theorem VecU.fits {m u : Nat} {U : Nat → Nat → Cf w ℝ} {a a' : Dense (Cf w ℝ)}
    {post : List (Layer (Cf w ℝ))} {W W' : Nat → Nat → Cf w ℝ} {c : Nat → Cf w ℝ} {f : ActFunc}
    (ha : a.Is u m W c f) (ha' : a'.Is u m W' c f) {gs gs' : List (LayerVec (Cf w ℝ))}
    (h : VecU m u U gs gs') (hf : List.Forall₂ LayerVec.Fits gs (.dense a :: post)) :
    List.Forall₂ LayerVec.Fits gs' (.dense a' :: post) := by
  obtain ⟨G, A, s, rfl, rfl⟩ := h
  cases hf with
  | cons _ hf => exact .cons (ha'.fits _ _) hf

theorem Dataset.turn_points (m : Nat) (U : Nat → Nat → Cf w ℝ) (d : Dataset (Cf w ℝ)) :
    (d.turn m U).points = d.points.map fun p => (Renplex.turn m U p.1, p.2) := by
  unfold Dataset.turn Dataset.points
  rw [List.zip_map_left]
  rfl

theorem turned_step {m : Nat} {U : Nat → Nat → Cf w ℝ} {n n' : Net (Cf w ℝ)} (h : Turned m U n n')
    (hw : ∀ l ∈ n.layers, l.WF) {data : Dataset (Cf w ℝ)} {lf : LossFunc} {lr : Cf w ℝ} (hlr : lr.y = 0)
    {r : Except ForwardErr Unit} {n1 : Net (Cf w ℝ)} (hg : n.gradientOpt data lf lr = some (r, n1)) :
    ∃ n1', n'.gradientOpt (data.turn m U) lf lr = some (r, n1') ∧ Turned m U n1 n1' := by
  have hw' := h.wf hw
  have h0 := h
  obtain ⟨hm, hU, a, a', post, u, W, c, f, hn, hn', ha, ha'⟩ := h
  by_cases hlen : n.layers.length ≤ 1
  · unfold Net.gradientOpt at hg ⊢
    rw [if_pos hlen] at hg
    rw [if_pos (by rw [hn'] ; rw [hn] at hlen; exact hlen)]
    cases hg
    exact ⟨_, rfl, h0⟩
  have hlen' : 1 < n'.layers.length := by rw [hn']; rw [hn] at hlen; simp only [List.length_cons] at hlen ⊢; omega
  obtain ⟨rfl, gss, scale, h1, h2, rfl⟩ := (C50_step n n1 (by omega) hw data lf lr r).mp hg
  have hss : ∃ gss', List.Forall₂ (fun p gs => sampleGrads n' lf p = some gs
        ∧ List.Forall₂ LayerVec.Fits gs n'.layers) (data.turn m U).points gss'
      ∧ List.Forall₂ (VecU m u U) gss gss' := by
    rw [Dataset.turn_points]
    clear hg
    generalize data.points = pts at h1
    induction h1 with
    | nil => exact ⟨[], .nil, .nil⟩
    | @cons p gs pts gss hp _ ih =>
      obtain ⟨gss', i1, i2⟩ := ih
      obtain ⟨gs', k1, k2⟩ := turned_sample hm hU hn hn' ha ha' lf p hp.1
      exact ⟨gs' :: gss', .cons ⟨k1, by rw [hn']; exact k2.fits ha ha' (hn ▸ hp.2)⟩ i1, .cons k2 i2⟩
  obtain ⟨gss', j1, j2⟩ := hss
  have hz : VecU m u U (n.layers.map LayerVec.zero) (n'.layers.map LayerVec.zero) := by
    refine ⟨post.map LayerVec.zero, fun _ _ => 0, fun _ => 0, ?_, ?_⟩
    · rw [hn, List.map_cons, zero_dense ha]
    · rw [hn', List.map_cons, zero_dense ha']
      simp
  have hdiv : (data.turn m U).inputs.length = data.inputs.length := by simp [Dataset.turn]
  refine ⟨_, (C50_step n' _ (by omega) hw' _ lf lr (.ok ())).mpr ⟨rfl, gss', scale, j1, by rw [hdiv]; exact h2, rfl⟩, ?_⟩
  obtain ⟨G, A, s, e1, e2⟩ := turned_total j2 hz
  have hs := scale_real hlr h2
  obtain ⟨l1, k1, i1⟩ := Dense.zipParams_is ha (A := A) (s := s)
    (fun p d => p - CplxOps.conj (BasicOps.mulAssign d scale))
  obtain ⟨l2, k2, i2⟩ := Dense.zipParams_is ha' (A := fun j k => ∑ i ∈ Finset.range m, U k i * A j i) (s := s)
    (fun p d => p - CplxOps.conj (BasicOps.mulAssign d scale))
  refine ⟨hm, hU, l1, l2, List.zipWith (Layer.zipParams fun p d => p - CplxOps.conj (BasicOps.mulAssign d scale)) post G,
    u, _, _, f, ?_, ?_, i1, ⟨i2.1.1, ?_⟩, i2.2⟩
  · show List.zipWith _ n.layers (gss.foldl _ _) = _
    rw [e1, hn, List.zipWith_cons_cons, k1]
  · show List.zipWith _ n'.layers (gss'.foldl _ _) = _
    rw [e2, hn', List.zipWith_cons_cons, k2]
  · rw [i2.1.2]
    refine table_congr fun j _ k _ => ?_
    have hmv : ∀ d : Cf w ℝ, (CplxOps.conj (BasicOps.mulAssign d scale) : Cf w ℝ) = CplxOps.conj d * CplxOps.conj scale :=
      fun d => moved_real hs d
    simp only [hmv, sub_mul, Finset.sum_sub_distrib, conj_sum_cf, Finset.sum_mul, conj_mul_cf]
    congr 1
    exact Finset.sum_congr rfl fun i _ => by ring

/-! ## The network -/

/-- C105. Multiplying the inputs by a unitary matrix and the weights of the first layer by its conjugate
transpose does not change what the network predicts: for every input both return the same or both
panic. -/
theorem C105_forward {m : Nat} {U : Nat → Nat → Cf w ℝ} (n n' : Net (Cf w ℝ)) (h : Turned m U n n')
    (x : IOType (Cf w ℝ)) : n'.forward (turn m U x) = n.forward x := by
  have key : ∀ {V : Nat → Nat → Cf w ℝ} {n n' : Net (Cf w ℝ)} {x : IOType (Cf w ℝ)}, Turned m V n n' →
      ∀ r, n.forward x = some r → n'.forward (turn m V x) = some r := by
    intro V n n' x h r hr
    obtain ⟨hm, hU, a, a', post, u, W, c, f, hn, hn', ha, ha'⟩ := h
    obtain ⟨zs, y, hc, hy, rfl⟩ := (C44_forward n (by rw [hn]; simp) x r).mp hr
    rw [hn] at hc
    cases hc with
    | @cons _ _ _ y' ws q1 t =>
      obtain ⟨X, hX, q3⟩ := turned_first hm hU ha ha' q1
      exact (C44_forward n' (by rw [hn']; simp) _ _).mpr ⟨y' :: ws, y, by rw [hn']; exact .cons q3 t, hy, rfl⟩
  cases hr : n.forward x with
  | some r => exact key h r hr
  | none =>
    cases hr' : n'.forward (turn m U x) with
    | none => rfl
    | some r =>
      have := key h.symm r hr'
      rw [turn_turn h.2.1, hr] at this
      cases this

/-- C105. So the losses and accuracies on the turned data are those on the data, and the networks panic
together. -/
theorem C105_measures {m : Nat} {U : Nat → Nat → Cf w ℝ} (n n' : Net (Cf w ℝ)) (h : Turned m U n n')
    (data : Dataset (Cf w ℝ)) :
    (∀ lf, n'.loss (data.turn m U) lf = n.loss data lf)
      ∧ n'.maxPredTest (data.turn m U) = n.maxPredTest data := by
  constructor
  · intro lf
    unfold Net.loss
    rw [Dataset.turn_points, mapM_map']
    simp only [C105_forward n n' h]
  · unfold Net.maxPredTest
    rw [Dataset.turn_points, mapM_map']
    simp only [C105_forward n n' h]
    rfl

theorem Dataset.turn_turn {m : Nat} {U : Nat → Nat → Cf w ℝ} (h : Unitary m U) (d : Dataset (Cf w ℝ)) :
    (d.turn m U).turn m (dagger U) = d := by
  unfold Dataset.turn
  simp [List.map_map, Function.comp_def, Renplex.turn_turn h]

/-- C105. Training commutes with turning: a training call with a real learning rate returns for one
network exactly if it returns for the other on the turned data, with the same result, and the networks
it leaves differ by the same matrix. -/
theorem C105_step_partial {m : Nat} {U : Nat → Nat → Cf w ℝ} (n n' : Net (Cf w ℝ)) (h : Turned m U n n')
    (hw : ∀ l ∈ n.layers, l.WF) (data : Dataset (Cf w ℝ)) (lf : LossFunc) (lr : Cf w ℝ) (hlr : lr.y = 0) :
    Option.Rel (fun o o' => o.1 = o'.1 ∧ Turned m U o.2 o'.2) (n.gradientOpt data lf lr)
      (n'.gradientOpt (data.turn m U) lf lr) := by
  cases hr : n.gradientOpt data lf lr with
  | some o =>
    obtain ⟨n1', h1, h2⟩ := turned_step h hw hlr (r := o.1) (n1 := o.2) hr
    rw [h1]
    exact .some ⟨rfl, h2⟩
  | none =>
    cases hr' : n'.gradientOpt (data.turn m U) lf lr with
    | none => exact .none
    | some o =>
      obtain ⟨n1', h1, -⟩ := turned_step h.symm (h.wf hw) hlr (r := o.1) (n1 := o.2) hr'
      rw [Dataset.turn_turn h.2.1, hr] at h1
      cases h1

/-- C105. The same for any history of training calls with real learning rates. -/
theorem C105_train_partial {m : Nat} {U : Nat → Nat → Cf w ℝ} (n n' : Net (Cf w ℝ)) (h : Turned m U n n')
    (hw : ∀ l ∈ n.layers, l.WF) (steps : List (TrainStep (Cf w ℝ))) (hr : ∀ s ∈ steps, s.2.2.y = 0) :
    Option.Rel (Turned m U) (n.train steps) (n'.train (turnSteps m U steps)) := by
  induction steps generalizing n n' with
  | nil => exact .some h
  | cons s steps ih =>
    simp only [Net.train, turnSteps, List.map_cons, List.foldlM_cons, Option.bind_eq_bind]
    have := C105_step_partial n n' h hw s.1 s.2.1 s.2.2 (hr s (by simp))
    cases hr1 : n.gradientOpt s.1 s.2.1 s.2.2 with
    | none =>
      rw [hr1] at this
      cases hr' : n'.gradientOpt (s.1.turn m U) s.2.1 s.2.2 with
      | none => exact .none
      | some o => rw [hr'] at this; cases this
    | some o =>
      rw [hr1] at this
      cases hr' : n'.gradientOpt (s.1.turn m U) s.2.1 s.2.2 with
      | none => rw [hr'] at this; cases this
      | some o' =>
        rw [hr'] at this
        cases this with
        | some this =>
          exact ih o.2 o'.2 this.2 (sameShape_wf (Net.gradientOpt_shape hw (r := o.1) (n' := o.2) hr1))
            fun s hs => hr s (by simp [hs])

/-- C105 is false for complex learning rates: for every rate that is not real there are networks that
differ by the 1×1 matrix `i`, and data for which the call leaves networks that do not. -/
theorem C105_refuted_complex (lr : Cf w ℝ) (hlr : lr.y ≠ 0) (f : LossFunc) :
    ∃ (n n' n1 n1' : Net (Cf w ℝ)) (data : Dataset (Cf w ℝ)), Turned 1 (fun _ _ => ⟨0, 1⟩) n n'
      ∧ (∀ l ∈ n.layers, l.WF) ∧ n.gradientOpt data f lr = some (.ok (), n1)
      ∧ n'.gradientOpt (data.turn 1 fun _ _ => ⟨0, 1⟩) f lr = some (.ok (), n1')
      ∧ ¬ Turned 1 (fun _ _ => ⟨0, 1⟩) n1 n1' := by
  obtain ⟨q, hq, hq'⟩ := div_toC lr (Cf.ofUsize 1) (by rw [Cf.toC_ofUsize]; simp)
  rw [Cf.toC_ofUsize, Nat.cast_one, div_one] at hq'
  obtain rfl := Cf.toC_inj.mp hq'
  have hii : (CplxOps.conj (⟨0, 1⟩ : Cf w ℝ)) * ⟨0, 1⟩ = 1 := by
    apply Cf.toC_inj.mp
    rw [Cf.toC_hom_mul, conj_toC, Cf.toC_hom_one]
    apply Complex.ext <;> simp
  let n' : Net (Cf w ℝ) := ⟨[.dense ⟨Mat.fromBody [CplxOps.conj ⟨0, 1⟩] (1, 1), [0], .none⟩, exUnit]⟩
  have hU : Unitary 1 (fun _ _ => (⟨0, 1⟩ : Cf w ℝ)) := by
    intro i hi i' hi'
    obtain rfl : i = 0 := by omega
    obtain rfl : i' = 0 := by omega
    simp [hii]
  have ha : (⟨Mat.fromBody [1] (1, 1), [0], .none⟩ : Dense (Cf w ℝ)).Is 1 1 (fun _ _ => 1) (fun _ => 0) .none :=
    ⟨⟨rfl, rfl⟩, rfl, rfl⟩
  have ha' : (⟨Mat.fromBody [CplxOps.conj ⟨0, 1⟩] (1, 1), [0], .none⟩ : Dense (Cf w ℝ)).Is 1 1
      (fun _ _ => ∑ _i ∈ Finset.range 1, 1 * CplxOps.conj ⟨0, 1⟩) (fun _ => 0) .none :=
    ⟨⟨rfl, by simp [Mat.fromBody, table]⟩, rfl, rfl⟩
  have hT : Turned 1 (fun _ _ => (⟨0, 1⟩ : Cf w ℝ)) exTwo n' :=
    ⟨by omega, hU, _, _, [exUnit], 1, _, _, _, rfl, rfl, ha, ha'⟩
  have hs := exTwo_sample f (1 : Cf w ℝ) 0
  rw [sub_zero, conj_one, mul_one] at hs
  obtain ⟨gs', k1, G, A, s, e1, e2⟩ := turned_sample (n := exTwo) (n' := n') (by omega) hU rfl rfl ha ha' f _ hs
  have hA : A 0 0 = 1 ∧ s 0 = 1 ∧ G = [([1], [1])] := by
    have e1' : [([(1 : Cf w ℝ)], [(1 : Cf w ℝ)]), ([1], [1])] = ([A 0 0], [s 0]) :: G := e1
    simp only [List.cons.injEq, Prod.mk.injEq, and_true] at e1'
    exact ⟨e1'.1.1.symm, e1'.1.2.symm, e1'.2.symm⟩
  have e3 : gs' = [([⟨0, 1⟩], [1]), ([1], [1])] := by
    rw [e2, hA.2.2]
    simp [table, hA.1, hA.2.1]
  subst e3
  have hstep := (C50_step (exTwo : Net (Cf w ℝ)) _ (by simp [exTwo]) exTwo_wf
    ⟨[.scalar [1]], [.scalar [0]]⟩ f q (.ok ())).mpr ⟨rfl, _, q, .cons ⟨hs,
      .cons ⟨rfl, rfl⟩ (.cons ⟨rfl, rfl⟩ .nil)⟩ .nil, hq, rfl⟩
  have hstep' := (C50_step n' _ (by simp [n']) (hT.wf exTwo_wf)
    ((⟨[.scalar [1]], [.scalar [0]]⟩ : Dataset (Cf w ℝ)).turn 1 fun _ _ => ⟨0, 1⟩) f q (.ok ())).mpr ⟨rfl, _, q, .cons ⟨k1,
      .cons ⟨rfl, rfl⟩ (.cons ⟨rfl, rfl⟩ .nil)⟩ .nil, hq, rfl⟩
  refine ⟨exTwo, n', _, _, _, hT, exTwo_wf, hstep, hstep', ?_⟩
  rw [exTwo_sum]
  have hsum : sumGrads n' [[([⟨0, 1⟩], [1]), ([1], [1])]] = [([⟨0, 1⟩], [1]), ([1], [1])] := by
    have hp : (exUnit : Layer (Cf w ℝ)).propagates = true := rfl
    have hl : (exUnit : Layer (Cf w ℝ)).paramsLen = (1, 1) := rfl
    have hp' : ∀ d : Dense (Cf w ℝ), (Layer.dense d).propagates = true := fun _ => rfl
    have hl' : (Layer.dense (⟨Mat.fromBody [CplxOps.conj ⟨0, 1⟩] (1, 1), [0], .none⟩ : Dense (Cf w ℝ))).paramsLen
      = (1, 1) := rfl
    simp [sumGrads, n', LayerVec.zero, hp, hl, hp', hl', LayerVec.add]
  rw [hsum]
  rintro ⟨-, -, a, a', post, u, W, c, g, h1, h2, h3, h4⟩
  have hu : u = 1 := by
    have := (List.cons.inj h1).1
    cases this
    exact (congrArg Prod.fst h3.1.1).symm
  subst hu
  have v1 : W 0 0 = 1 - moved q 1 := by
    have := (List.cons.inj h1).1
    cases this
    exact (List.cons.inj h3.1.2).1.symm
  have v2 : W 0 0 * CplxOps.conj ⟨0, 1⟩ = CplxOps.conj ⟨0, 1⟩ - moved q ⟨0, 1⟩ := by
    have := (List.cons.inj h2).1
    cases this
    have := (List.cons.inj h4.1.2).1.symm
    simpa [moved] using this
  rw [v1] at v2
  have h3 : moved q ⟨0, 1⟩ = moved q 1 * CplxOps.conj ⟨0, 1⟩ := by
    linear_combination v2
  have h4 := congrArg (fun z => z.toC.im) h3
  rw [Cf.toC_hom_mul, conj_toC] at h4
  simp [moved, BasicOps.mulAssign, Cf.mulAssign, CplxOps.conj, Cf.conj] at h4
  rw [show (1 : Cf w ℝ).x = 1 from rfl, show (1 : Cf w ℝ).y = 0 from rfl] at h4
  exact hlr (mul_self_eq_zero.mp (by linarith))

/-! ## Which matrices -/

/-- C105 covers reordering the inputs. -/
theorem C105_permutation {m : Nat} {σ : Equiv.Perm Nat} (hσ : ∀ k, σ k < m ↔ k < m) :
    Unitary m (fun k i => if i = σ k then (1 : Cf w ℝ) else 0)
      ∧ ∀ X : Nat → Cf w ℝ, turn m (fun k i => if i = σ k then (1 : Cf w ℝ) else 0) (.scalar ((List.range m).map X))
        = .scalar ((List.range m).map fun k => X (σ k)) := by
  constructor
  · intro i hi i' hi'
    have hi0 : σ.symm i < m := by rw [← hσ, Equiv.apply_symm_apply]; exact hi
    rw [Finset.sum_eq_single (σ.symm i)]
    · simp only [Equiv.apply_symm_apply, if_true, conj_one, one_mul]
      simp only [eq_comm]
    · intro k _ hk
      show CplxOps.conj (if _ then _ else _) * _ = _
      rw [if_neg (fun h => hk (by rw [h, Equiv.symm_apply_apply])), conj_zero', zero_mul]
    · intro h
      exact absurd (Finset.mem_range.mpr hi0) h
  · intro X
    rw [turn_vec]
    congr 1
    refine range_map_congr fun k hk => ?_
    unfold turnVec
    rw [Finset.sum_eq_single (σ k)]
    · simp
    · intro i _ hi
      show (if _ then _ else _) * _ = _
      rw [if_neg hi, zero_mul]
    · intro h
      exact absurd (Finset.mem_range.mpr ((hσ k).mpr hk)) h

/-- C105 covers turning the phase of each input by its own angle. -/
theorem C105_phases {m : Nat} {s : Nat → Cf w ℝ} (hs : ∀ i, i < m → ‖(s i).toC‖ = 1) :
    Unitary m (fun k i => if k = i then s i else 0)
      ∧ ∀ X : Nat → Cf w ℝ, turn m (fun k i => if k = i then s i else 0) (.scalar ((List.range m).map X))
        = .scalar ((List.range m).map fun k => s k * X k) := by
  constructor
  · intro i hi i' hi'
    rw [Finset.sum_eq_single i]
    · show CplxOps.conj (if _ then _ else _) * (if _ then _ else _) = _
      rw [if_pos rfl]
      by_cases h : i = i'
      · subst h
        rw [if_pos rfl, if_pos rfl]
        apply Cf.toC_inj.mp
        rw [Cf.toC_hom_mul, conj_toC, Cf.toC_hom_one, mul_comm, Complex.mul_conj, Complex.normSq_eq_norm_sq, hs i hi]
        norm_num
      · rw [if_neg h, if_neg h, mul_zero]
    · intro k _ hk
      show CplxOps.conj (if _ then _ else _) * _ = _
      rw [if_neg hk, conj_zero', zero_mul]
    · intro h
      exact absurd (Finset.mem_range.mpr hi) h
  · intro X
    rw [turn_vec]
    congr 1
    refine range_map_congr fun k hk => ?_
    unfold turnVec
    rw [Finset.sum_eq_single k]
    · simp
    · intro i _ hi
      show (if _ then _ else _) * _ = _
      rw [if_neg (Ne.symm hi), zero_mul]
    · intro h
      exact absurd (Finset.mem_range.mpr hk) h

/-- C105 covers the discrete Fourier transform: a network learns from spectra exactly what it learns
from signals. -/
theorem C105_fourier {m : Nat} (hm : 0 < m) : Unitary m (fourier m : Nat → Nat → Cf w ℝ) := by
  intro i hi i' hi'
  have hm0 : (m : ℂ) ≠ 0 := by exact_mod_cast hm.ne'
  have hsq : ((Real.sqrt m : ℝ) : ℂ) * ((Real.sqrt m : ℝ) : ℂ) = m := by
    rw [← Complex.ofReal_mul, Real.mul_self_sqrt (Nat.cast_nonneg m), Complex.ofReal_natCast]
  have hprim := Complex.isPrimitiveRoot_exp m hm.ne'
  set ζ := Complex.exp (2 * Real.pi * Complex.I / m) with hζ
  have hζ0 : ζ ≠ 0 := Complex.exp_ne_zero _
  have e : ∀ k : Nat, ((CplxOps.conj (fourier m k i : Cf w ℝ)) * fourier m k i').toC = (ζ ^ i * (ζ ^ i')⁻¹) ^ k / m := by
    intro k
    rw [Cf.toC_hom_mul, conj_toC]
    unfold fourier
    rw [Cf.toC_ofC, Cf.toC_ofC, map_div₀, Complex.conj_ofReal, ← Complex.exp_conj, div_mul_div_comm, hsq,
      ← Complex.exp_add, hζ, ← Complex.exp_nat_mul, ← Complex.exp_nat_mul, ← Complex.exp_neg, ← Complex.exp_add,
      ← Complex.exp_nat_mul]
    congr 2
    simp only [map_div₀, map_mul, map_neg, Complex.conj_I, Complex.conj_ofReal, map_natCast]
    rw [show (starRingEnd ℂ) 2 = 2 from Complex.conj_ofReal 2]
    field_simp
  apply Cf.toC_inj.mp
  rw [Cf.toC_sum]
  simp only [e, ← Finset.sum_div]
  by_cases h : i = i'
  · subst h
    rw [if_pos rfl, mul_inv_cancel₀ (pow_ne_zero _ hζ0), Cf.toC_hom_one]
    simp [hm0]
  · rw [if_neg h, Cf.toC_hom_zero]
    have hne : ζ ^ i * (ζ ^ i')⁻¹ ≠ 1 := by
      intro h1
      exact h (hprim.pow_inj hi hi' ((mul_inv_eq_one₀ (pow_ne_zero _ hζ0)).mp h1))
    have hpow : (ζ ^ i * (ζ ^ i')⁻¹) ^ m = 1 := by
      rw [mul_pow, inv_pow, ← pow_mul, ← pow_mul, mul_comm i, mul_comm i', pow_mul, pow_mul, hprim.pow_eq_one]
      simp
    have := mul_geom_sum (ζ ^ i * (ζ ^ i')⁻¹) m
    rw [hpow, sub_self] at this
    rcases mul_eq_zero.mp this with h0 | h0
    · exact absurd (sub_eq_zero.mp h0) hne
    · rw [h0, zero_div]

/-- Every network that starts with a dense layer has its partner for every unitary matrix. -/
theorem C105_partner {m u : Nat} {U W : Nat → Nat → Cf w ℝ} {c : Nat → Cf w ℝ} {f : ActFunc} {a : Dense (Cf w ℝ)}
    {post : List (Layer (Cf w ℝ))} (hm : 0 < m) (hU : Unitary m U) (ha : a.Is u m W c f) :
    Turned m U ⟨.dense a :: post⟩ ⟨.dense ⟨Mat.fromBody (table u m fun j k =>
      ∑ i ∈ Finset.range m, W j i * CplxOps.conj (U k i)) (u, m), (List.range u).map c, f⟩ :: post⟩ :=
  ⟨hm, hU, _, _, post, u, W, c, f, rfl, rfl, ha, ⟨rfl, rfl⟩, rfl, rfl⟩

/-- The hypotheses of C105 hold for a network of two layers and the Fourier transform of length 1. -/
example : ∃ n' : Net (Cf w ℝ), Turned 1 (fourier 1) exTwo n' ∧ ∀ l ∈ (exTwo : Net (Cf w ℝ)).layers, l.WF :=
  ⟨_, C105_partner (a := ⟨Mat.fromBody [1] (1, 1), [0], .none⟩) (W := fun _ _ => 1) (c := fun _ => 0) (u := 1)
    (by omega) (C105_fourier (by omega)) ⟨⟨rfl, rfl⟩, rfl, rfl⟩, exTwo_wf⟩

end Renplex
