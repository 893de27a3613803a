import Verif.Spec.Outputs
import Verif.Props.Unitary
/-!
# C113: turning the outputs of a network
-/

namespace Renplex
variable {w : Width}

/-! ## Matrices and activations -/

/-- The derivatives by turned numbers. -/
noncomputable def turnConj (u : Nat) (U : Nat → Nat → Cf w ℝ) (X : Nat → Cf w ℝ) (k : Nat) : Cf w ℝ :=
  ∑ j ∈ Finset.range u, CplxOps.conj (U k j) * X j

theorem turnConj_conj (u : Nat) (U : Nat → Nat → Cf w ℝ) (X : Nat → Cf w ℝ) (k : Nat) :
    CplxOps.conj (turnConj u U X k) = turnVec u U (fun j => CplxOps.conj (X j)) k := by
  unfold turnConj turnVec
  rw [conj_sum_cf]
  exact Finset.sum_congr rfl fun j _ => by rw [conj_mul_cf, conj_conj_cf]

theorem turnVec_conj (u : Nat) (U : Nat → Nat → Cf w ℝ) (X : Nat → Cf w ℝ) (k : Nat) :
    CplxOps.conj (turnVec u U X k) = turnConj u U (fun j => CplxOps.conj (X j)) k := by
  unfold turnConj turnVec
  rw [conj_sum_cf]
  exact Finset.sum_congr rfl fun j _ => by rw [conj_mul_cf]

theorem turnVec_mono {u : Nat} {U : Nat → Nat → Cf w ℝ} {σ : Equiv.Perm Nat} {s : Nat → Cf w ℝ}
    (hσ : ∀ j, σ j < u ↔ j < u) {k : Nat} (hk : k < u)
    (hU : ∀ j, j < u → U k j = if j = σ k then s k else 0) (X : Nat → Cf w ℝ) :
    turnVec u U X k = s k * X (σ k) := by
  unfold turnVec
  rw [Finset.sum_eq_single (σ k)]
  · rw [hU _ ((hσ k).mpr hk), if_pos rfl]
  · intro j hj hne
    rw [hU j (Finset.mem_range.mp hj), if_neg hne, zero_mul]
  · intro h
    exact absurd (Finset.mem_range.mpr ((hσ k).mpr hk)) h

theorem turnConj_mono {u : Nat} {U : Nat → Nat → Cf w ℝ} {σ : Equiv.Perm Nat} {s : Nat → Cf w ℝ}
    (hσ : ∀ j, σ j < u ↔ j < u) {k : Nat} (hk : k < u)
    (hU : ∀ j, j < u → U k j = if j = σ k then s k else 0) (X : Nat → Cf w ℝ) :
    turnConj u U X k = CplxOps.conj (s k) * X (σ k) := by
  unfold turnConj
  rw [Finset.sum_eq_single (σ k)]
  · rw [hU _ ((hσ k).mpr hk), if_pos rfl]
  · intro j hj hne
    rw [hU j (Finset.mem_range.mp hj), if_neg hne, conj_zero', zero_mul]
  · intro h
    exact absurd (Finset.mem_range.mpr ((hσ k).mpr hk)) h

theorem LetsThrough.act {f : ActFunc} {u : Nat} {U : Nat → Nat → Cf w ℝ} (h : f.LetsThrough u U)
    {q Y : Nat → Cf w ℝ} (hY : ∀ j, j < u → CplxOps.activate f (q j) = some (Y j)) (k : Nat) (hk : k < u) :
    CplxOps.activate f (turnVec u U q k) = some (turnVec u U Y k) := by
  rcases h.2 with rfl | ⟨σ, s, hσ, hs, hU⟩
  · have e : ∀ j, j < u → q j = Y j := fun j hj => Option.some.inj (hY j hj)
    show some (turnVec u U q k) = _
    congr 1
    exact Finset.sum_congr rfl fun j hj => by rw [e j (Finset.mem_range.mp hj)]
  · rw [turnVec_mono hσ hk (hU k hk), turnVec_mono hσ hk (hU k hk)]
    exact C98_passes (hs k hk).1 (hY _ ((hσ k).mpr hk))

theorem LetsThrough.der {f : ActFunc} {u : Nat} {U : Nat → Nat → Cf w ℝ} (h : f.LetsThrough u U)
    {q d dc : Nat → Cf w ℝ} (hd : ∀ j, j < u → CplxOps.dActivate f (q j) = some (d j))
    (hdc : ∀ j, j < u → CplxOps.dConjActivate f (q j) = some (dc j)) :
    ∃ d' dc' : Nat → Cf w ℝ, (∀ k, k < u → CplxOps.dActivate f (turnVec u U q k) = some (d' k))
      ∧ (∀ k, k < u → CplxOps.dConjActivate f (turnVec u U q k) = some (dc' k))
      ∧ ∀ (g gc : Nat → Cf w ℝ) k, k < u →
        d' k * turnConj u U g k + CplxOps.conj (dc' k) * turnVec u U gc k
          = turnConj u U (fun j => d j * g j + CplxOps.conj (dc j) * gc j) k := by
  rcases h.2 with rfl | ⟨σ, s, hσ, hs, hU⟩
  · have e : ∀ j, j < u → d j = 1 := fun j hj => (Option.some.inj (hd j hj)).symm.trans unit_eq_one
    have ec : ∀ j, j < u → dc j = 0 := fun j hj =>
      (Option.some.inj (hdc j hj)).symm.trans default_eq_zero
    refine ⟨fun _ => 1, fun _ => 0, fun k _ => ?_, fun k _ => ?_, fun g gc k _ => ?_⟩
    · show some Cf.unit = _
      rw [unit_eq_one]
    · show some Cf.default = _
      rw [default_eq_zero]
    · rw [one_mul, conj_zero', zero_mul, add_zero]
      refine Finset.sum_congr rfl fun j hj => ?_
      have hj := Finset.mem_range.mp hj
      simp only [e j hj, ec j hj, conj_zero', one_mul, zero_mul, add_zero]
  · refine ⟨fun k => d (σ k), fun k => s k * s k * dc (σ k), fun k hk => ?_, fun k hk => ?_, fun g gc k hk => ?_⟩
    · rw [turnVec_mono hσ hk (hU k hk)]
      exact (act_turn (hs k hk).1 (hs k hk).2).1 _ (hd _ ((hσ k).mpr hk))
    · rw [turnVec_mono hσ hk (hU k hk)]
      exact (act_turn (hs k hk).1 (hs k hk).2).2 _ (hdc _ ((hσ k).mpr hk))
    · rw [turnVec_mono hσ hk (hU k hk), turnConj_mono hσ hk (hU k hk), turnConj_mono hσ hk (hU k hk),
        conj_mul_cf, conj_mul_cf]
      have e := mul_conj_of_unit (hs k hk).2
      linear_combination (CplxOps.conj (s k) * CplxOps.conj (dc (σ k)) * gc (σ k)) * e

theorem LetsThrough.dagger {f : ActFunc} {u : Nat} {U : Nat → Nat → Cf w ℝ} (h : f.LetsThrough u U) :
    f.LetsThrough u (Renplex.dagger U) := by
  refine ⟨h.1.dagger, ?_⟩
  rcases h.2 with rfl | ⟨σ, s, hσ, hs, hU⟩
  · exact .inl rfl
  · have hσ' : ∀ j, σ.symm j < u ↔ j < u := fun j => by rw [← hσ, Equiv.apply_symm_apply]
    refine .inr ⟨σ.symm, fun k => CplxOps.conj (s (σ.symm k)), hσ', fun k hk => ?_, fun k hk j hj => ?_⟩
    · obtain ⟨h1, h2⟩ := hs _ ((hσ' k).mpr hk)
      have hi : (CplxOps.conj (s (σ.symm k))).toC = (s (σ.symm k)).toC⁻¹ := by
        have := congrArg Cf.toC (mul_conj_of_unit h2)
        rw [Cf.toC_hom_mul, Cf.toC_hom_one] at this
        exact eq_inv_of_mul_eq_one_right this
      rw [hi]
      exact ⟨h1.inv, by rw [norm_inv, h2, inv_one]⟩
    · unfold Renplex.dagger
      rw [hU j hj k hk]
      by_cases e : k = σ j
      · subst e
        simp
      · rw [if_neg e, if_neg (fun h => e (by rw [h, Equiv.apply_symm_apply])), conj_zero']

/-- The weighted sums of the last layer are multiplied by the matrix. -/
theorem out_sum (u m : Nat) (U W : Nat → Nat → Cf w ℝ) (c X : Nat → Cf w ℝ) (k : Nat) :
    (∑ i ∈ Finset.range m, (∑ j ∈ Finset.range u, U k j * W j i) * X i) + ∑ j ∈ Finset.range u, U k j * c j
      = turnVec u U (fun j => (∑ i ∈ Finset.range m, W j i * X i) + c j) k := by
  unfold turnVec
  simp only [mul_add, Finset.sum_add_distrib, Finset.sum_mul, Finset.mul_sum, mul_assoc]
  rw [Finset.sum_comm]

/-! ## The last layer -/

theorem out_last {u m : Nat} {U : Nat → Nat → Cf w ℝ} (hm : 0 < m) {f : ActFunc} (hU : f.LetsThrough u U)
    {a a' : Dense (Cf w ℝ)} {W : Nat → Nat → Cf w ℝ} {c : Nat → Cf w ℝ} (ha : a.Is u m W c f)
    (ha' : a'.Is u m (fun k i => ∑ j ∈ Finset.range u, U k j * W j i) (fun k => ∑ j ∈ Finset.range u, U k j * c j) f)
    {x y : IOType (Cf w ℝ)} (h : a.forward x = some (.ok y)) :
    ∃ X Y, x = .scalar ((List.range m).map X) ∧ y = .scalar ((List.range u).map Y)
      ∧ a'.forward x = some (.ok (turn u U y)) := by
  obtain ⟨X, Y, rfl, rfl, e⟩ := Dense.forward_inv ha hm h
  refine ⟨X, Y, rfl, rfl, ?_⟩
  rw [turn_vec]
  exact C38_forward_exact_partial ha' hm X _ fun k hk => by
    rw [out_sum]
    exact LetsThrough.act hU e k hk

/-- Derivatives by the weights and biases of the last layer, and what becomes of them. -/
def VecO (k u m : Nat) (U : Nat → Nat → Cf w ℝ) (gs gs' : List (LayerVec (Cf w ℝ))) : Prop :=
  ∃ (G : List (LayerVec (Cf w ℝ))) (A : Nat → Nat → Cf w ℝ) (s : Nat → Cf w ℝ), G.length = k
    ∧ gs = G ++ [(table u m A, (List.range u).map s)]
    ∧ gs' = G ++ [(table u m (fun k i => turnConj u U (fun j => A j i) k), (List.range u).map (turnConj u U s))]

theorem dMean_map (u : Nat) (T Y : Nat → Cf w ℝ) (lf : LossFunc) :
    (CplxOps.dLoss lf (.scalar ((List.range u).map T)) (.scalar ((List.range u).map Y)) : Except LossErr (List (Cf w ℝ)))
      = .ok ((List.range u).map fun j => CplxOps.conj (Y j - T j)) := by
  have e : (CplxOps.dLoss lf (.scalar ((List.range u).map T)) (.scalar ((List.range u).map Y)) : Except LossErr (List (Cf w ℝ)))
      = .ok (Loss.dMeanSq ((List.range u).map T) ((List.range u).map Y)) := by cases lf <;> rfl
  rw [e]
  unfold Loss.dMeanSq
  rw [zip_range_map, List.map_map]
  rfl

theorem out_sample {u m : Nat} {U : Nat → Nat → Cf w ℝ} (hm : 0 < m) {f : ActFunc} (hU : f.LetsThrough u U)
    {n n' : Net (Cf w ℝ)} {a a' : Dense (Cf w ℝ)} {pre : List (Layer (Cf w ℝ))}
    {W : Nat → Nat → Cf w ℝ} {c : Nat → Cf w ℝ}
    (hn : n.layers = pre ++ [.dense a]) (hn' : n'.layers = pre ++ [.dense a']) (ha : a.Is u m W c f)
    (ha' : a'.Is u m (fun k i => ∑ j ∈ Finset.range u, U k j * W j i) (fun k => ∑ j ∈ Finset.range u, U k j * c j) f)
    (lf : LossFunc) (x : IOType (Cf w ℝ)) (T : Nat → Cf w ℝ) {gs : List (LayerVec (Cf w ℝ))}
    (h : sampleGrads n lf (x, .scalar ((List.range u).map T)) = some gs) :
    ∃ gs', sampleGrads n' lf (x, turn u U (.scalar ((List.range u).map T))) = some gs'
      ∧ VecO pre.length u m U gs gs' := by
  unfold sampleGrads at h ⊢
  obtain ⟨acts, hac, h⟩ := Option.bind_eq_some_iff.mp h
  obtain ⟨pred, h1, h⟩ := Option.bind_eq_some_iff.mp h
  obtain ⟨dl, hd, h⟩ := Option.bind_eq_some_iff.mp h
  obtain ⟨gs0, hbk, rfl⟩ := Option.map_eq_some_iff.mp h
  obtain ⟨r0, h2, h3⟩ := Option.bind_eq_some_iff.mp hac
  obtain ⟨zs, hc, rfl⟩ := (C44_collect n (by rw [hn]; simp) _ r0).mp h2
  cases h3
  rw [hn] at hc
  obtain ⟨ys, ws, as, prev, rfl, c1, c2, c3, c4⟩ := hc.append_inv
  cases c4 with
  | @cons _ _ _ y _ q1 t =>
  cases t with
  | nil =>
    obtain ⟨X, Y, rfl, rfl, q3⟩ := out_last hm hU ha ha' q1
    have hlast : (x :: ys).getLast? = some (.scalar ((List.range m).map X)) := by rw [c2]; simp
    have hc' : Chain n'.layers x (ys ++ [turn u U (.scalar ((List.range u).map Y))]) := by
      rw [hn']
      exact c1.append hlast (.cons q3 (.nil _))
    have hlastv : ∀ z : IOType (Cf w ℝ), (x :: (ys ++ [z])).reverse.head? = some z := by
      intro z
      rw [List.head?_reverse, ← List.cons_append, List.getLast?_append_of_ne_nil _ (by simp)]
      rfl
    rw [hlastv] at h1
    cases h1
    have hd' : (CplxOps.dLoss lf (.scalar ((List.range u).map T)) (.scalar ((List.range u).map Y)) : Except LossErr (List (Cf w ℝ)))
        = .ok dl := by
      change unwrap (CplxOps.dLoss lf (IOType.scalar ((List.range u).map T)) _) = some dl at hd
      rw [dMean_map] at hd ⊢
      cases hd
      rfl
    rw [dMean_map] at hd'
    cases hd'
    have hca : (n'.collectActs x >>= unwrap)
        = some (x :: (ys ++ [turn u U (.scalar ((List.range u).map Y))])) := by
      rw [(C44_collect n' (by rw [hn']; simp) x _).mpr ⟨_, hc', rfl⟩]
      rfl
    rw [hca]
    simp only [Option.bind_eq_bind, Option.bind_some]
    rw [hlastv, acts_zip hn' c2 c3 (by simp) (by simp)]
    rw [acts_zip hn c2 c3 (by simp) (by simp)] at hbk
    simp only [Option.bind_some]
    rw [turn_vec, turn_vec, dMean_map]
    simp only [unwrap, Option.bind_some]
    have key : ∀ (z z' : IOType (Cf w ℝ)) (l : Layer (Cf w ℝ)), ([z, z'].dropLast.reverse.zip [l].reverse)
        ++ as.reverse.zip pre.reverse = (z, l) :: as.reverse.zip pre.reverse := fun _ _ _ => rfl
    rw [key] at hbk ⊢
    have hp : ∀ l : Dense (Cf w ℝ), (Layer.dense l).propagates = true := fun _ => rfl
    simp only [backGrads, hp, if_true] at hbk ⊢
    obtain ⟨r, k1, hbk⟩ := Option.bind_eq_some_iff.mp hbk
    obtain ⟨g2, k2, rfl⟩ := Option.map_eq_some_iff.mp hbk
    obtain ⟨γ, γc, δ, δc, e1, e2, d1, d2, rfl⟩ := Dense.derivatives_data ha hm k1
    obtain ⟨δ', δc', d1', d2', hδ⟩ := LetsThrough.der hU d1 d2
    have f1 := Dense.computeDerivatives_is ha' hm X (turnConj u U γ) (turnVec u U γc) δ' δc'
      (fun k hk => by rw [out_sum]; exact d1' k hk) (fun k hk => by rw [out_sum]; exact d2' k hk)
    have g1 : ∀ j, j < u → CplxOps.conj (Y j - T j) = γ j := by
      intro j hj
      have := congrArg (fun q => q[j]?) e1
      simpa [hj] using this
    have g1c : ∀ j, j < u → Y j - T j = γc j := by
      intro j hj
      have := congrArg (fun q => q[j]?) e2
      simpa [hj, conj_conj_cf] using this
    have p0 : ∀ k, turnVec u U Y k - turnVec u U T k = turnVec u U γc k := by
      intro k
      unfold turnVec
      rw [← Finset.sum_sub_distrib]
      refine Finset.sum_congr rfl fun j hj => ?_
      rw [← mul_sub, g1c j (Finset.mem_range.mp hj)]
    have p1 : (List.range u).map (fun k => CplxOps.conj (turnVec u U Y k - turnVec u U T k))
        = (List.range u).map (turnConj u U γ) := by
      refine range_map_congr fun k _ => ?_
      rw [p0, turnVec_conj]
      refine Finset.sum_congr rfl fun j hj => ?_
      simp only [← g1 j (Finset.mem_range.mp hj), ← g1c j (Finset.mem_range.mp hj)]
    have p2 : ((List.range u).map (fun k => CplxOps.conj (turnVec u U Y k - turnVec u U T k))).map CplxOps.conj
        = (List.range u).map (turnVec u U γc) := by
      rw [List.map_map]
      refine range_map_congr fun k _ => ?_
      simp only [Function.comp, conj_conj_cf, p0]
    rw [p2, p1, show (Layer.dense a').computeDerivatives = a'.computeDerivatives from rfl, f1]
    simp only [Option.bind_some, unwrap]
    have p3 : (List.range m).map (fun i => ∑ k ∈ Finset.range u, (∑ j ∈ Finset.range u, U k j * W j i)
          * (δ' k * turnConj u U γ k + CplxOps.conj (δc' k) * turnVec u U γc k))
        = (List.range m).map (fun i => ∑ j ∈ Finset.range u, W j i * (δ j * γ j + CplxOps.conj (δc j) * γc j)) := by
      refine range_map_congr fun i _ => ?_
      have e := turned_sum hU.1 (fun j => δ j * γ j + CplxOps.conj (δc j) * γc j) (fun j => W j i)
      rw [Finset.sum_congr rfl fun j _ => mul_comm (W j i) _, ← e]
      refine Finset.sum_congr rfl fun k hk => ?_
      rw [hδ γ γc k (Finset.mem_range.mp hk), mul_comm]
      congr 1
      exact Finset.sum_congr rfl fun j _ => mul_comm _ _
    rw [p3]
    simp only [Option.bind_eq_bind, Option.bind_some, unwrap] at k2 ⊢
    rw [k2]
    refine ⟨_, rfl, g2.reverse, fun j i => X i * (δ j * γ j + CplxOps.conj (δc j) * γc j),
      fun j => δ j * γ j + CplxOps.conj (δc j) * γc j, ?_, by simp, ?_⟩
    · rw [List.length_reverse, backGrads_length k2, List.length_zip, List.length_reverse, List.length_reverse, c3,
        Nat.min_self]
    · rw [List.reverse_cons]
      congr 3
      · refine table_congr fun k hk i _ => ?_
        rw [hδ γ γc k hk]
        unfold turnConj
        rw [Finset.mul_sum]
        exact Finset.sum_congr rfl fun j _ => by ring
      · exact range_map_congr fun k hk => hδ γ γc k hk

theorem turnConj_add (u : Nat) (U : Nat → Nat → Cf w ℝ) (X Y : Nat → Cf w ℝ) (k : Nat) :
    turnConj u U (fun j => X j + Y j) k = turnConj u U X k + turnConj u U Y k := by
  unfold turnConj
  simp only [mul_add, Finset.sum_add_distrib]

theorem VecO.add {k m u : Nat} {U : Nat → Nat → Cf w ℝ} {x x' y y' : List (LayerVec (Cf w ℝ))}
    (h : VecO k u m U x x') (h' : VecO k u m U y y') :
    VecO k u m U (List.zipWith LayerVec.add x y) (List.zipWith LayerVec.add x' y') := by
  obtain ⟨G, A, s, e, rfl, rfl⟩ := h
  obtain ⟨K, B, t, e', rfl, rfl⟩ := h'
  refine ⟨List.zipWith LayerVec.add G K, fun j i => A j i + B j i, fun j => s j + t j, by simp [e, e'], ?_, ?_⟩
  · rw [List.zipWith_append (e.trans e'.symm)]
    simp only [List.zipWith_cons_cons, LayerVec.add, table_zipWith, List.zipWith_map, List.zipWith_self, List.map_nil]
  · rw [List.zipWith_append (e.trans e'.symm)]
    simp only [List.zipWith_cons_cons, LayerVec.add, table_zipWith, List.zipWith_map, List.zipWith_self, List.map_nil,
      turnConj_add]
    congr 4
    exact funext fun k => (turnConj_add u U s t k).symm

theorem out_total {k m u : Nat} {U : Nat → Nat → Cf w ℝ} {gss gss' : List (List (LayerVec (Cf w ℝ)))}
    (h : List.Forall₂ (VecO k u m U) gss gss') {acc acc' : List (LayerVec (Cf w ℝ))}
    (h0 : VecO k u m U acc acc') : VecO k u m U (gss.foldl (List.zipWith LayerVec.add) acc)
      (gss'.foldl (List.zipWith LayerVec.add) acc') := by
  induction h generalizing acc acc' with
  | nil => exact h0
  | cons h _ ih => exact ih (h0.add h)

theorem VecO.fits {m u : Nat} {U : Nat → Nat → Cf w ℝ} {a a' : Dense (Cf w ℝ)}
    {pre : List (Layer (Cf w ℝ))} {W' : Nat → Nat → Cf w ℝ} {c' : Nat → Cf w ℝ} {f : ActFunc}
    (ha' : a'.Is u m W' c' f) {gs gs' : List (LayerVec (Cf w ℝ))}
    (h : VecO pre.length u m U gs gs') (hf : List.Forall₂ LayerVec.Fits gs (pre ++ [.dense a])) :
    List.Forall₂ LayerVec.Fits gs' (pre ++ [.dense a']) := by
  obtain ⟨G, A, s, e, rfl, rfl⟩ := h
  obtain ⟨K1, K2, hK, f1, f2⟩ := forall₂_append_inv hf.flip
  have hlen : K1.length = G.length := by rw [← f1.length_eq, e]
  obtain ⟨rfl, rfl⟩ := List.append_inj hK hlen.symm
  exact List.rel_append f1.flip (.cons (ha'.fits _ _) .nil)

theorem OutTurned.wf {u : Nat} {U : Nat → Nat → Cf w ℝ} {n n' : Net (Cf w ℝ)} (h : OutTurned u U n n')
    (hw : ∀ l ∈ n.layers, l.WF) : ∀ l ∈ n'.layers, l.WF := by
  obtain ⟨pre, a, a', m, W, c, f, -, -, hn, hn', -, ha'⟩ := h
  rw [hn] at hw
  rw [hn']
  intro l hl
  rcases List.mem_append.mp hl with hl | hl
  · exact hw l (by simp [hl])
  · obtain rfl := List.mem_singleton.mp hl
    exact ha'.wf

theorem turnVec_dagger {u : Nat} {U : Nat → Nat → Cf w ℝ} (h : Unitary u U) (X : Nat → Cf w ℝ) {i : Nat} (hi : i < u) :
    ∑ k ∈ Finset.range u, dagger U i k * ∑ j ∈ Finset.range u, U k j * X j = X i := by
  unfold dagger
  simp only [Finset.mul_sum, ← mul_assoc]
  rw [Finset.sum_comm]
  simp only [← Finset.sum_mul]
  rw [Finset.sum_congr rfl fun i' hi' => by rw [h i hi i' (Finset.mem_range.mp hi'), mul_comm]]
  exact sum_delta X hi

theorem OutTurned.symm {u : Nat} {U : Nat → Nat → Cf w ℝ} {n n' : Net (Cf w ℝ)} (h : OutTurned u U n n') :
    OutTurned u (dagger U) n' n := by
  obtain ⟨pre, a, a', m, W, c, f, hm, hU, hn, hn', ha, ha'⟩ := h
  refine ⟨pre, a', a, m, _, _, f, hm, LetsThrough.dagger hU, hn', hn, ha', ⟨ha.1.1, ?_⟩, ?_, ha.2.2⟩
  · rw [ha.1.2]
    exact table_congr fun j hj i _ => (turnVec_dagger hU.1 (fun j => W j i) hj).symm
  · rw [ha.2.1]
    exact range_map_congr fun j hj => (turnVec_dagger hU.1 c hj).symm

theorem Dataset.turnTargets_points (u : Nat) (U : Nat → Nat → Cf w ℝ) (d : Dataset (Cf w ℝ)) :
    (d.turnTargets u U).points = d.points.map fun p => (p.1, Renplex.turn u U p.2) := by
  unfold Dataset.turnTargets Dataset.points
  rw [List.zip_map_right]
  rfl

theorem turn_moved {u : Nat} {U : Nat → Nat → Cf w ℝ} {s : Cf w ℝ} (h : s.y = 0 ∨ Renumbers u U)
    (A : Nat → Cf w ℝ) {k : Nat} (hk : k < u) :
    moved s (turnConj u U A k) = turnVec u U (fun j => moved s (A j)) k := by
  rcases h with hs | ⟨σ, hσ, hU⟩
  · simp only [moved_real hs]
    unfold turnConj turnVec
    rw [conj_sum_cf, Finset.sum_mul]
    exact Finset.sum_congr rfl fun j _ => by rw [conj_mul_cf, conj_conj_cf, mul_assoc]
  · have e : ∀ j, j < u → U k j = if j = σ k then (fun _ => (1 : Cf w ℝ)) k else 0 := fun j hj => hU k hk j hj
    rw [turnVec_mono (s := fun _ => 1) hσ hk e, turnConj_mono (s := fun _ => 1) hσ hk e, conj_one, one_mul, one_mul]

theorem out_step {u : Nat} {U : Nat → Nat → Cf w ℝ} {n n' : Net (Cf w ℝ)} (h : OutTurned u U n n')
    (hw : ∀ l ∈ n.layers, l.WF) {data : Dataset (Cf w ℝ)} (ht : data.TargetsOf u) {lf : LossFunc} {lr : Cf w ℝ}
    (hlr : lr.y = 0 ∨ Renumbers u U) {r : Except ForwardErr Unit} {n1 : Net (Cf w ℝ)}
    (hg : n.gradientOpt data lf lr = some (r, n1)) :
    ∃ n1', n'.gradientOpt (data.turnTargets u U) lf lr = some (r, n1') ∧ OutTurned u U n1 n1' := by
  have : Nonempty (Cf w ℝ) := ⟨0⟩
  have hw' := h.wf hw
  have h0 := h
  obtain ⟨pre, a, a', m, W, c, f, hm, hU, hn, hn', ha, ha'⟩ := h
  by_cases hlen : n.layers.length ≤ 1
  · unfold Net.gradientOpt at hg ⊢
    rw [if_pos hlen] at hg
    rw [if_pos (by rw [hn'] ; rw [hn] at hlen; simpa using hlen)]
    cases hg
    exact ⟨_, rfl, h0⟩
  have hlen' : 1 < n'.layers.length := by
    rw [hn']; rw [hn] at hlen; simp only [List.length_append, List.length_cons, List.length_nil] at hlen ⊢; omega
  obtain ⟨rfl, gss, scale, h1, h2, rfl⟩ := (C50_step n n1 (by omega) hw data lf lr r).mp hg
  have hss : ∃ gss', List.Forall₂ (fun p gs => sampleGrads n' lf p = some gs
        ∧ List.Forall₂ LayerVec.Fits gs n'.layers) (data.turnTargets u U).points gss'
      ∧ List.Forall₂ (VecO pre.length u m U) gss gss' := by
    rw [Dataset.turnTargets_points]
    clear hg
    unfold Dataset.TargetsOf at ht
    generalize data.points = pts at h1 ht
    induction h1 with
    | nil => exact ⟨[], .nil, .nil⟩
    | @cons p gs pts gss hp _ ih =>
      obtain ⟨gss', i1, i2⟩ := ih fun p hp => ht p (by simp [hp])
      obtain ⟨v, hv, hv'⟩ := ht p (by simp)
      obtain ⟨T, hT⟩ := exists_range_map v
      rw [hv'] at hT
      have hp1 : sampleGrads n lf (p.1, .scalar ((List.range u).map T)) = some gs := by
        rw [← hT, ← hv]; exact hp.1
      obtain ⟨gs', k1, k2⟩ := out_sample hm hU hn hn' ha ha' lf p.1 T hp1
      rw [← hT, ← hv] at k1
      exact ⟨gs' :: gss', .cons ⟨k1, by rw [hn']; exact k2.fits ha' (hn ▸ hp.2)⟩ i1, .cons k2 i2⟩
  obtain ⟨gss', j1, j2⟩ := hss
  have hz : VecO pre.length u m U (n.layers.map LayerVec.zero) (n'.layers.map LayerVec.zero) := by
    refine ⟨pre.map LayerVec.zero, fun _ _ => 0, fun _ => 0, by simp, ?_, ?_⟩
    · rw [hn, List.map_append, List.map_cons, zero_dense ha, List.map_nil]
    · rw [hn', List.map_append, List.map_cons, zero_dense ha', List.map_nil]
      unfold turnConj
      simp
  have hdiv : (data.turnTargets u U).inputs.length = data.inputs.length := rfl
  refine ⟨_, (C50_step n' _ (by omega) hw' _ lf lr (.ok ())).mpr ⟨rfl, gss', scale, j1, by rw [hdiv]; exact h2, rfl⟩, ?_⟩
  obtain ⟨G, A, s, e0, e1, e2⟩ := out_total j2 hz
  have hs : scale.y = 0 ∨ Renumbers u U := hlr.imp_left fun hlr => scale_real hlr h2
  obtain ⟨l1, k1, i1⟩ := Dense.zipParams_is ha (A := A) (s := s)
    (fun p d => p - CplxOps.conj (BasicOps.mulAssign d scale))
  obtain ⟨l2, k2, i2⟩ := Dense.zipParams_is ha' (A := fun k i => turnConj u U (fun j => A j i) k) (s := turnConj u U s)
    (fun p d => p - CplxOps.conj (BasicOps.mulAssign d scale))
  refine ⟨List.zipWith (Layer.zipParams fun p d => p - CplxOps.conj (BasicOps.mulAssign d scale)) pre G, l1, l2,
    m, _, _, f, hm, hU, ?_, ?_, i1, ⟨i2.1.1, ?_⟩, ?_, i2.2.2⟩
  · show List.zipWith _ n.layers (gss.foldl _ _) = _
    rw [e1, hn, List.zipWith_append e0.symm, List.zipWith_cons_cons, k1]
    rfl
  · show List.zipWith _ n'.layers (gss'.foldl _ _) = _
    rw [e2, hn', List.zipWith_append e0.symm, List.zipWith_cons_cons, k2]
    rfl
  · rw [i2.1.2]
    refine table_congr fun k hk i _ => ?_
    have := turn_moved hs (fun j => A j i) hk
    change _ - moved scale _ = ∑ j ∈ Finset.range u, U k j * (W j i - moved scale (A j i))
    rw [this]
    simp only [mul_sub, Finset.sum_sub_distrib]
    rfl
  · rw [i2.2.1]
    refine range_map_congr fun k hk => ?_
    have := turn_moved hs s hk
    change _ - moved scale _ = ∑ j ∈ Finset.range u, U k j * (c j - moved scale (s j))
    rw [this]
    simp only [mul_sub, Finset.sum_sub_distrib]
    rfl

/-! ## The network -/

/-- C113. Multiplying the weights and biases of the last dense layer by a unitary matrix that passes
through its activation multiplies every prediction by this matrix; the networks panic on the same
inputs. -/
theorem C113_forward {u : Nat} {U : Nat → Nat → Cf w ℝ} (n n' : Net (Cf w ℝ)) (h : OutTurned u U n n')
    (x : IOType (Cf w ℝ)) : n'.forward x = (n.forward x).map (Except.map (turn u U)) := by
  have key : ∀ {V : Nat → Nat → Cf w ℝ} {n n' : Net (Cf w ℝ)} {x : IOType (Cf w ℝ)}, OutTurned u V n n' →
      ∀ r, n.forward x = some r → n'.forward x = some (r.map (turn u V)) := by
    intro V n n' x h r hr
    obtain ⟨pre, a, a', m, W, c, f, hm, hU, hn, hn', ha, ha'⟩ := h
    obtain ⟨zs, y, hc, hy, rfl⟩ := (C44_forward n (by rw [hn]; simp) x r).mp hr
    rw [hn] at hc
    obtain ⟨ys, ws, as, prev, rfl, c1, c2, c3, c4⟩ := hc.append_inv
    cases c4 with
    | @cons _ _ _ y1 _ q1 t =>
    cases t with
    | nil =>
      obtain ⟨X, Y, rfl, rfl, q3⟩ := out_last hm hU ha ha' q1
      have hlast : (x :: ys).getLast? = some (.scalar ((List.range m).map X)) := by rw [c2]; simp
      rw [List.getLast?_append_of_ne_nil _ (by simp)] at hy
      cases hy
      refine (C44_forward n' (by rw [hn']; simp) _ _).mpr ⟨ys ++ [turn u V (.scalar ((List.range u).map Y))],
        turn u V (.scalar ((List.range u).map Y)), ?_, ?_, rfl⟩
      · rw [hn']
        exact c1.append hlast (.cons q3 (.nil _))
      · rw [List.getLast?_append_of_ne_nil _ (by simp)]
        rfl
  cases hr : n.forward x with
  | some r => exact key h r hr
  | none =>
    cases hr' : n'.forward x with
    | none => rfl
    | some r =>
      have := key h.symm r hr'
      rw [hr] at this
      cases this

/-- What the networks predict. -/
theorem OutTurned.output {u : Nat} {U : Nat → Nat → Cf w ℝ} {n n' : Net (Cf w ℝ)} (h : OutTurned u U n n')
    {x : IOType (Cf w ℝ)} {r : Except ForwardErr (IOType (Cf w ℝ))} (hr : n.forward x = some r) :
    ∃ Y, r = .ok (.scalar ((List.range u).map Y))
      ∧ n'.forward x = some (.ok (.scalar ((List.range u).map (turnVec u U Y)))) := by
  have e := C113_forward n n' h x
  obtain ⟨pre, a, a', m, W, c, f, hm, hU, hn, hn', ha, ha'⟩ := h
  obtain ⟨zs, y, hc, hy, rfl⟩ := (C44_forward n (by rw [hn]; simp) x r).mp hr
  rw [hn] at hc
  obtain ⟨ys, ws, as, prev, rfl, c1, c2, c3, c4⟩ := hc.append_inv
  cases c4 with
  | @cons _ _ _ y1 _ q1 t =>
  cases t with
  | nil =>
    obtain ⟨X, Y, rfl, rfl, q3⟩ := out_last hm hU ha ha' q1
    rw [List.getLast?_append_of_ne_nil _ (by simp)] at hy
    cases hy
    refine ⟨Y, rfl, ?_⟩
    rw [e, hr, ← turn_vec]
    rfl

theorem turnVec_sub (u : Nat) (U : Nat → Nat → Cf w ℝ) (X Y : Nat → Cf w ℝ) (k : Nat) :
    turnVec u U X k - turnVec u U Y k = turnVec u U (fun j => X j - Y j) k := by
  unfold turnVec
  rw [← Finset.sum_sub_distrib]
  exact Finset.sum_congr rfl fun j _ => (mul_sub _ _ _).symm

/-- A unitary matrix keeps lengths. -/
theorem turnVec_norm {u : Nat} {U : Nat → Nat → Cf w ℝ} (h : Unitary u U) (Z : Nat → Cf w ℝ) :
    ∑ k ∈ Finset.range u, ‖(turnVec u U Z k).toC‖ ^ 2 = ∑ k ∈ Finset.range u, ‖(Z k).toC‖ ^ 2 := by
  have e := congrArg Cf.toC (turned_sum h (fun j => CplxOps.conj (Z j)) Z)
  have e1 : ∀ k, (∑ i ∈ Finset.range u, CplxOps.conj (Z i) * CplxOps.conj (U k i)) = CplxOps.conj (turnVec u U Z k) := by
    intro k
    rw [turnVec_conj]
    exact Finset.sum_congr rfl fun j _ => mul_comm _ _
  have e2 : ∀ z : Cf w ℝ, (CplxOps.conj z * z).toC = ((‖z.toC‖ ^ 2 : ℝ) : ℂ) := by
    intro z
    rw [Cf.toC_hom_mul, conj_toC, mul_comm, Complex.mul_conj, Complex.normSq_eq_norm_sq]
  simp only [e1] at e
  rw [Cf.toC_sum, Cf.toC_sum] at e
  simp only [e2] at e
  exact_mod_cast e

theorem meanSq_map (u : Nat) (T Y : Nat → Cf w ℝ) : Loss.meanSq ((List.range u).map T) ((List.range u).map Y)
    = (∑ k ∈ Finset.range u, ‖(T k - Y k).toC‖ ^ 2) / ((u - 1 : Nat) : ℝ) := by
  rw [meanSq_real]
  unfold sqSum
  rw [zip_range_map, List.map_map, List.length_map, List.length_range]
  rw [← list_sum_range]
  rfl

theorem normCe_map (u : Nat) (T Y : Nat → Cf w ℝ) : Loss.normCe ((List.range u).map T) ((List.range u).map Y)
    = -∑ k ∈ Finset.range u, (T k).x * Real.log (Real.exp (‖(Y k).toC‖ ^ 2)
        / ∑ j ∈ Finset.range u, Real.exp (‖(Y j).toC‖ ^ 2)) := by
  rw [normCe_real]
  unfold expSum
  rw [zip_range_map, List.map_map, List.map_map, ← list_sum_range, ← list_sum_range]
  rfl

theorem out_loss {u : Nat} {U : Nat → Nat → Cf w ℝ} {n n' : Net (Cf w ℝ)} (h : OutTurned u U n n')
    {data : Dataset (Cf w ℝ)} (ht : data.TargetsOf u) {lf : LossFunc}
    (hl : ∀ T Y : Nat → Cf w ℝ, Loss.func lf ((List.range u).map (turnVec u U T)) ((List.range u).map (turnVec u U Y))
      = Loss.func lf ((List.range u).map T) ((List.range u).map Y)) :
    n'.loss (data.turnTargets u U) lf = n.loss data lf := by
  have : Nonempty (Cf w ℝ) := ⟨0⟩
  have key : ((data.turnTargets u U).points.mapM fun p => do
      let pred ← n'.forward p.1 >>= unwrap
      unwrap (CplxOps.loss lf p.2 pred))
      = (data.points.mapM fun p => do
      let pred ← n.forward p.1 >>= unwrap
      unwrap (CplxOps.loss lf p.2 pred) : Run (List ℝ)) := by
    rw [Dataset.turnTargets_points, mapM_map']
    unfold Dataset.TargetsOf at ht
    generalize data.points = pts at ht
    induction pts with
    | nil => rfl
    | cons p pts ih =>
      rw [List.mapM_cons, List.mapM_cons, ih fun p hp => ht p (by simp [hp])]
      congr 1
      obtain ⟨v, hv, hv'⟩ := ht p (by simp)
      obtain ⟨T, hT⟩ := exists_range_map v
      rw [hv'] at hT
      rw [hv, hT, turn_vec]
      cases hr : n.forward p.1 with
      | none =>
        have e := C113_forward n n' h p.1
        rw [hr] at e
        simp only [e]
        rfl
      | some r =>
        obtain ⟨Y, rfl, e⟩ := h.output hr
        simp only [e]
        show some (Loss.func lf _ _) = some (Loss.func lf _ _)
        rw [hl]
  unfold Net.loss
  rw [key]

/-- C113. So the mean-square loss on the turned targets is the loss on the targets, whatever the unitary
matrix. -/
theorem C113_loss {u : Nat} {U : Nat → Nat → Cf w ℝ} (n n' : Net (Cf w ℝ)) (h : OutTurned u U n n')
    (data : Dataset (Cf w ℝ)) (ht : data.TargetsOf u) :
    n'.loss (data.turnTargets u U) .meanSquare = n.loss data .meanSquare := by
  refine out_loss h ht fun T Y => ?_
  obtain ⟨pre, a, a', m, W, c, f, hm, hU, -⟩ := h
  show Loss.meanSq _ _ = Loss.meanSq _ _
  rw [meanSq_map, meanSq_map]
  simp only [turnVec_sub]
  rw [turnVec_norm hU.1]

theorem renumber_vec {u : Nat} {U : Nat → Nat → Cf w ℝ} {σ : Equiv.Perm Nat} (hσ : ∀ j, σ j < u ↔ j < u)
    (hU : ∀ k, k < u → ∀ j, j < u → U k j = renumber σ k j) (X : Nat → Cf w ℝ) :
    (List.range u).map (turnVec u U X) = (List.range u).map fun k => X (σ k) := by
  refine range_map_congr fun k hk => ?_
  rw [turnVec_mono (s := fun _ => 1) hσ hk (fun j hj => hU k hk j hj), one_mul]

/-- C113. If the matrix renumbers the outputs, both losses stay the same. -/
theorem C113_loss_classes {u : Nat} {U : Nat → Nat → Cf w ℝ} (n n' : Net (Cf w ℝ)) (h : OutTurned u U n n')
    (hU : Renumbers u U) (data : Dataset (Cf w ℝ)) (ht : data.TargetsOf u) (lf : LossFunc) :
    n'.loss (data.turnTargets u U) lf = n.loss data lf := by
  cases lf with
  | meanSquare => exact C113_loss n n' h data ht
  | normCrossEntropy =>
    refine out_loss h ht fun T Y => ?_
    obtain ⟨σ, hσ, hU⟩ := hU
    rw [renumber_vec hσ hU, renumber_vec hσ hU]
    show Loss.normCe _ _ = Loss.normCe _ _
    rw [normCe_map, normCe_map, sum_perm hσ (fun j => Real.exp (‖(Y j).toC‖ ^ 2)),
      sum_perm hσ (fun k => (T k).x * Real.log (Real.exp (‖(Y k).toC‖ ^ 2)
        / ∑ j ∈ Finset.range u, Real.exp (‖(Y j).toC‖ ^ 2)))]

/-- C113. Training commutes with turning the outputs: a training call with a real learning rate, or one
with any rate if the matrix renumbers the outputs, returns for one network exactly if it returns for
the other on the turned targets, with the same result, and the networks it leaves differ by the same
matrix. -/
theorem C113_step {u : Nat} {U : Nat → Nat → Cf w ℝ} (n n' : Net (Cf w ℝ)) (h : OutTurned u U n n')
    (hw : ∀ l ∈ n.layers, l.WF) (data : Dataset (Cf w ℝ)) (ht : data.TargetsOf u) (lf : LossFunc) (lr : Cf w ℝ)
    (hlr : lr.y = 0 ∨ Renumbers u U) :
    Option.Rel (fun o o' => o.1 = o'.1 ∧ OutTurned u U o.2 o'.2) (n.gradientOpt data lf lr)
      (n'.gradientOpt (data.turnTargets u U) lf lr) := by
  have hUU : Unitary u U := by
    obtain ⟨pre, a, a', m, W, c, f, hm, hU, -⟩ := h
    exact hU.1
  cases hr : n.gradientOpt data lf lr with
  | some o =>
    obtain ⟨n1', h1, h2⟩ := out_step h hw ht hlr (r := o.1) (n1 := o.2) hr
    rw [h1]
    exact .some ⟨rfl, h2⟩
  | none =>
    cases hr' : n'.gradientOpt (data.turnTargets u U) lf lr with
    | none => exact .none
    | some o =>
      have ht' : (data.turnTargets u U).TargetsOf u := by
        intro p hp
        rw [Dataset.turnTargets_points] at hp
        obtain ⟨q, hq, rfl⟩ := List.mem_map.mp hp
        obtain ⟨v, hv, hv'⟩ := ht q hq
        refine ⟨(List.range u).map fun k => ∑ i ∈ Finset.range u, U k i * v.getD i 0, ?_, by simp⟩
        show turn u U q.2 = _
        rw [hv]
        show (if _ then _ else _) = _
        rw [if_pos hv']
      have hlr' : lr.y = 0 ∨ Renumbers u (dagger U) := by
        refine hlr.imp_right ?_
        rintro ⟨σ, hσ, hU⟩
        have hσ' : ∀ j, σ.symm j < u ↔ j < u := fun j => by rw [← hσ, Equiv.apply_symm_apply]
        refine ⟨σ.symm, hσ', fun k hk j hj => ?_⟩
        unfold dagger
        rw [hU j hj k hk]
        unfold renumber
        by_cases e : k = σ j
        · subst e
          simp [conj_one]
        · rw [if_neg e, if_neg (fun h => e (by rw [h, Equiv.apply_symm_apply])), conj_zero']
      obtain ⟨n1', h1, -⟩ := out_step h.symm (h.wf hw) ht' hlr' (r := o.1) (n1 := o.2) hr'
      have hd : (data.turnTargets u U).turnTargets u (dagger U) = data := by
        unfold Dataset.turnTargets
        simp [List.map_map, Function.comp_def, Renplex.turn_turn hUU]
      rw [hd, hr] at h1
      cases h1

/-- C113. The same for any history of training calls. -/
theorem C113_train {u : Nat} {U : Nat → Nat → Cf w ℝ} (n n' : Net (Cf w ℝ)) (h : OutTurned u U n n')
    (hw : ∀ l ∈ n.layers, l.WF) (steps : List (TrainStep (Cf w ℝ)))
    (hs : ∀ s ∈ steps, s.1.TargetsOf u ∧ (s.2.2.y = 0 ∨ Renumbers u U)) :
    Option.Rel (OutTurned u U) (n.train steps) (n'.train (turnTargetSteps u U steps)) := by
  induction steps generalizing n n' with
  | nil => exact .some h
  | cons s steps ih =>
    simp only [Net.train, turnTargetSteps, List.map_cons, List.foldlM_cons, Option.bind_eq_bind]
    obtain ⟨h1, h2⟩ := hs s (by simp)
    have := C113_step n n' h hw s.1 h1 s.2.1 s.2.2 h2
    cases hr1 : n.gradientOpt s.1 s.2.1 s.2.2 with
    | none =>
      rw [hr1] at this
      cases hr' : n'.gradientOpt (s.1.turnTargets u U) s.2.1 s.2.2 with
      | none => exact .none
      | some o => rw [hr'] at this; cases this
    | some o =>
      rw [hr1] at this
      cases hr' : n'.gradientOpt (s.1.turnTargets u U) s.2.1 s.2.2 with
      | none => rw [hr'] at this; cases this
      | some o' =>
        rw [hr'] at this
        cases this with
        | some this =>
          exact ih o.2 o'.2 this.2 (sameShape_wf (Net.gradientOpt_shape hw (r := o.1) (n' := o.2) hr1))
            fun s hs' => hs s (by simp [hs'])

/-! ## The predicted class -/

theorem FirstLargest.of_strict {v : List (Cf w ℝ)} {k : Nat} (h : Leads k v) : FirstLargest v k := by
  obtain ⟨z, hz, h⟩ := h
  refine ⟨z, hz, fun y hy => ?_, fun j y hj hy => h j y hj.ne hy⟩
  obtain ⟨j, hj⟩ := List.mem_iff_getElem?.mp hy
  by_cases e : j = k
  · subst e
    rw [hz] at hj
    cases hj
    exact le_refl _
  · exact (h j y e hj).le

theorem Leads.argmax {v : List (Cf w ℝ)} {k : Nat} (h : Leads k v) : Net.argmax v = k :=
  C56_unique _ _ _ (C56_argmax v (by rintro rfl; obtain ⟨z, hz, -⟩ := h; simp at hz)) (.of_strict h)

theorem Leads.renumber {u k : Nat} {σ : Equiv.Perm Nat} (hσ : ∀ j, σ j < u ↔ j < u) {X : Nat → Cf w ℝ}
    (h : Leads k ((List.range u).map X)) : Leads (σ.symm k) ((List.range u).map fun j => X (σ j)) := by
  obtain ⟨z, hz, h⟩ := h
  simp only [List.getElem?_map, Option.map_eq_some_iff, List.getElem?_eq_some_iff, List.length_range,
    List.getElem_range] at hz h
  obtain ⟨_, ⟨hk, rfl⟩, rfl⟩ := hz
  refine ⟨X k, ?_, fun j y hj hy => ?_⟩
  · simp [show σ.symm k < u by rw [← hσ, Equiv.apply_symm_apply]; exact hk]
  · simp only [List.getElem?_map, Option.map_eq_some_iff, List.getElem?_eq_some_iff, List.length_range,
      List.getElem_range] at hy
    obtain ⟨_, ⟨hj', rfl⟩, rfl⟩ := hy
    exact h (σ j) _ (fun e => hj (by rw [← e, Equiv.symm_apply_apply])) ⟨_, ⟨(hσ j).mpr hj', rfl⟩, rfl⟩

/-- C113. If the matrix renumbers the outputs and every target and prediction has one number that is
larger than all others, the accuracy stays the same. -/
theorem C113_accuracy {u : Nat} {U : Nat → Nat → Cf w ℝ} (n n' : Net (Cf w ℝ)) (h : OutTurned u U n n')
    (hU : Renumbers u U) (data : Dataset (Cf w ℝ)) (ht : data.TargetsOf u)
    (hm : ∀ p ∈ data.points, ∀ v, p.2 = .scalar v → ∃ k, Leads k v)
    (hp : ∀ p ∈ data.points, ∀ v, n.forward p.1 = some (.ok (.scalar v)) → ∃ k, Leads k v) :
    n'.maxPredTest (data.turnTargets u U) = n.maxPredTest data := by
  have : Nonempty (Cf w ℝ) := ⟨0⟩
  obtain ⟨σ, hσ, hU⟩ := hU
  have key : ((data.turnTargets u U).points.mapM fun p => do
      let prediction ← n'.forward p.1 >>= unwrap
      let pred ← prediction.asSlice
      let targ ← p.2.asSlice
      some (if Net.argmax targ = Net.argmax pred then 1 else 0))
      = (data.points.mapM fun p => do
      let prediction ← n.forward p.1 >>= unwrap
      let pred ← prediction.asSlice
      let targ ← p.2.asSlice
      some (if Net.argmax targ = Net.argmax pred then 1 else 0) : Run (List Nat)) := by
    rw [Dataset.turnTargets_points, mapM_map']
    unfold Dataset.TargetsOf at ht
    generalize data.points = pts at ht hm hp
    induction pts with
    | nil => rfl
    | cons p pts ih =>
      rw [List.mapM_cons, List.mapM_cons, ih (fun p hp => ht p (by simp [hp])) (fun p h => hm p (by simp [h]))
        (fun p h => hp p (by simp [h]))]
      congr 1
      obtain ⟨v, hv, hv'⟩ := ht p (by simp)
      obtain ⟨T, hT⟩ := exists_range_map v
      rw [hv'] at hT
      obtain ⟨k, hk⟩ := hm p (by simp) v hv
      rw [hv, hT, turn_vec]
      rw [hT] at hk
      cases hr : n.forward p.1 with
      | none =>
        have e := C113_forward n n' h p.1
        rw [hr] at e
        simp only [e]
        rfl
      | some r =>
        obtain ⟨Y, rfl, e⟩ := h.output hr
        obtain ⟨j, hj⟩ := hp p (by simp) _ hr
        simp only [e, renumber_vec hσ hU]
        show some _ = some _
        congr 1
        rw [hk.argmax, hj.argmax, (hk.renumber hσ).argmax, (hj.renumber hσ).argmax]
        simp only [EmbeddingLike.apply_eq_iff_eq]
  have hl : (data.turnTargets u U).target.length = data.target.length := by simp [Dataset.turnTargets]
  unfold Net.maxPredTest
  rw [key, hl]

/-! ## Which matrices -/

/-- C113 covers every unitary matrix if the last layer has no activation, and for every activation the
renumbering of the outputs and factors of absolute value one that pass through it. -/
theorem C113_which {u : Nat} :
    (∀ U : Nat → Nat → Cf w ℝ, Unitary u U → ActFunc.none.LetsThrough u U)
    ∧ (∀ (σ : Equiv.Perm Nat) (f : ActFunc), (∀ j, σ j < u ↔ j < u) →
        f.LetsThrough u (renumber σ : Nat → Nat → Cf w ℝ) ∧ Renumbers u (renumber σ : Nat → Nat → Cf w ℝ))
    ∧ ∀ (s : Nat → Cf w ℝ) (f : ActFunc), (∀ k, k < u → f.Passes (s k).toC (s k).toC ∧ ‖(s k).toC‖ = 1) →
        f.LetsThrough u (fun k j => if j = k then s k else 0) := by
  refine ⟨fun U h => ⟨h, .inl rfl⟩, fun σ f hσ => ⟨⟨(C105_permutation hσ).1, .inr ⟨σ, fun _ => 1, hσ, fun k _ => ?_,
    fun k _ j _ => rfl⟩⟩, σ, hσ, fun _ _ _ _ => rfl⟩, fun s f hs => ⟨?_, .inr ⟨1, s, fun _ => Iff.rfl, hs, fun _ _ _ _ => rfl⟩⟩⟩
  · rw [Cf.toC_hom_one]
    cases f <;> simp [ActFunc.Passes]
    all_goals exact ⟨1, by norm_num⟩
  · have := (C105_phases (s := s) fun i hi => (hs i hi).2).1
    intro i hi i' hi'
    rw [← this i hi i' hi']
    refine Finset.sum_congr rfl fun k _ => ?_
    have e : ∀ j, (if j = k then s k else 0) = if k = j then s j else (0 : Cf w ℝ) := by
      intro j
      by_cases h : k = j
      · subst h; simp
      · rw [if_neg h, if_neg (Ne.symm h)]
    simp only [e]

/-- Every network that ends with a dense layer has its partner for every such matrix. -/
theorem C113_partner {m u : Nat} {U W : Nat → Nat → Cf w ℝ} {c : Nat → Cf w ℝ} {f : ActFunc} {a : Dense (Cf w ℝ)}
    {pre : List (Layer (Cf w ℝ))} (hm : 0 < m) (hU : f.LetsThrough u U) (ha : a.Is u m W c f) :
    OutTurned u U ⟨pre ++ [.dense a]⟩ ⟨pre ++ [.dense ⟨Mat.fromBody (table u m fun k i =>
      ∑ j ∈ Finset.range u, U k j * W j i) (u, m), (List.range u).map fun k => ∑ j ∈ Finset.range u, U k j * c j, f⟩]⟩ :=
  ⟨pre, _, _, m, W, c, f, hm, hU, rfl, rfl, ha, ⟨rfl, rfl⟩, rfl, rfl⟩

/-! ## Where it ends -/

/-- C113. Complex learning rates have to be left out: for every rate that is not real there are networks whose
outputs differ by the factor `i`, and data for which the call leaves networks for which this no longer
holds. -/
theorem C113_complex_rates (lr : Cf w ℝ) (hlr : lr.y ≠ 0) (lf : LossFunc) :
    ∃ (n n' n1 n1' : Net (Cf w ℝ)) (data : Dataset (Cf w ℝ)), OutTurned 1 (fun _ _ => ⟨0, 1⟩) n n'
      ∧ (∀ l ∈ n.layers, l.WF) ∧ data.TargetsOf 1 ∧ n.gradientOpt data lf lr = some (.ok (), n1)
      ∧ n'.gradientOpt (data.turnTargets 1 fun _ _ => ⟨0, 1⟩) lf lr = some (.ok (), n1')
      ∧ ¬ OutTurned 1 (fun _ _ => ⟨0, 1⟩) n1 n1' := by
  obtain ⟨q, hq, hq'⟩ := div_toC lr (Cf.ofUsize 1) (by rw [Cf.toC_ofUsize]; simp)
  rw [Cf.toC_ofUsize, Nat.cast_one, div_one] at hq'
  obtain rfl := Cf.toC_inj.mp hq'
  have hii : (CplxOps.conj (⟨0, 1⟩ : Cf w ℝ)) * ⟨0, 1⟩ = 1 := by
    apply Cf.toC_inj.mp
    rw [Cf.toC_hom_mul, conj_toC, Cf.toC_hom_one]
    apply Complex.ext <;> simp
  let n' : Net (Cf w ℝ) := ⟨[exUnit, .dense ⟨Mat.fromBody [⟨0, 1⟩] (1, 1), [0], .none⟩]⟩
  have hU : ActFunc.none.LetsThrough 1 (fun _ _ => (⟨0, 1⟩ : Cf w ℝ)) := by
    refine ⟨?_, .inl rfl⟩
    intro i hi i' hi'
    obtain rfl : i = 0 := by omega
    obtain rfl : i' = 0 := by omega
    simp [hii]
  have ha : (⟨Mat.fromBody [1] (1, 1), [0], .none⟩ : Dense (Cf w ℝ)).Is 1 1 (fun _ _ => 1) (fun _ => 0) .none :=
    ⟨⟨rfl, rfl⟩, rfl, rfl⟩
  have ha' : (⟨Mat.fromBody [⟨0, 1⟩] (1, 1), [0], .none⟩ : Dense (Cf w ℝ)).Is 1 1
      (fun _ _ => ∑ _j ∈ Finset.range 1, ⟨0, 1⟩ * 1) (fun _ => ∑ _j ∈ Finset.range 1, ⟨0, 1⟩ * 0) .none :=
    ⟨⟨rfl, by simp [Mat.fromBody, table]⟩, by simp, rfl⟩
  have hT : OutTurned 1 (fun _ _ => (⟨0, 1⟩ : Cf w ℝ)) exTwo n' :=
    ⟨[exUnit], _, _, 1, _, _, _, by omega, hU, rfl, rfl, ha, ha'⟩
  have hs := exTwo_sample lf (1 : Cf w ℝ) 0
  rw [sub_zero, conj_one, mul_one] at hs
  obtain ⟨gs', k1, G, A, s, -, e1, e2⟩ := out_sample (n := exTwo) (n' := n') (pre := [exUnit]) (by omega) hU rfl rfl ha ha' lf _
    (fun _ => 0) hs
  have hA : A 0 0 = 1 ∧ s 0 = 1 ∧ G = [([1], [1])] := by
    have e1' : [([(1 : Cf w ℝ)], [(1 : Cf w ℝ)])] ++ [([1], [1])] = G ++ [([A 0 0], [s 0])] := e1
    have := List.append_inj_right' e1' rfl
    have h2 := List.append_inj_left' e1' rfl
    simp only [List.cons.injEq, Prod.mk.injEq, and_true] at this
    exact ⟨this.1.symm, this.2.symm, h2.symm⟩
  have e3 : gs' = [([1], [1]), ([⟨0, -1⟩], [⟨0, -1⟩])] := by
    rw [e2, hA.2.2]
    have hc : (CplxOps.conj (⟨0, 1⟩ : Cf w ℝ)) * 1 = ⟨0, -1⟩ := by rw [mul_one]; rfl
    simp [table, turnConj, hA.1, hA.2.1, hc]
  subst e3
  have hw' := hT.wf exTwo_wf
  have hstep := (C50_step (exTwo : Net (Cf w ℝ)) _ (by simp [exTwo]) exTwo_wf
    ⟨[.scalar [1]], [.scalar [0]]⟩ lf q (.ok ())).mpr ⟨rfl, _, q, .cons ⟨hs,
      .cons ⟨rfl, rfl⟩ (.cons ⟨rfl, rfl⟩ .nil)⟩ .nil, hq, rfl⟩
  have hstep' := (C50_step n' _ (by simp [n']) hw'
    ((⟨[.scalar [1]], [.scalar [0]]⟩ : Dataset (Cf w ℝ)).turnTargets 1 fun _ _ => ⟨0, 1⟩) lf q (.ok ())).mpr ⟨rfl, _, q, .cons ⟨k1,
      .cons ⟨rfl, rfl⟩ (.cons ⟨rfl, rfl⟩ .nil)⟩ .nil, hq, rfl⟩
  refine ⟨exTwo, n', _, _, _, hT, exTwo_wf, ?_, hstep, hstep', ?_⟩
  · intro p hp
    obtain rfl : p = (.scalar [1], .scalar [0]) := by simpa [Dataset.points] using hp
    exact ⟨[0], rfl, rfl⟩
  rw [exTwo_sum]
  have hsum : sumGrads n' [[([1], [1]), ([⟨0, -1⟩], [⟨0, -1⟩])]] = [([1], [1]), ([⟨0, -1⟩], [⟨0, -1⟩])] := by
    have hp : (exUnit : Layer (Cf w ℝ)).propagates = true := rfl
    have hl : (exUnit : Layer (Cf w ℝ)).paramsLen = (1, 1) := rfl
    have hp' : ∀ d : Dense (Cf w ℝ), (Layer.dense d).propagates = true := fun _ => rfl
    have hl' : (Layer.dense (⟨Mat.fromBody [⟨0, 1⟩] (1, 1), [0], .none⟩ : Dense (Cf w ℝ))).paramsLen
      = (1, 1) := rfl
    simp [sumGrads, n', LayerVec.zero, hp, hl, hp', hl', LayerVec.add]
  rw [hsum]
  rintro ⟨pre, a, a', m, W, c, g, hm, -, h1, h2, h3, h4⟩
  have hlen : pre.length = 1 := by
    have h := congrArg List.length h1
    rw [List.length_append] at h
    change 2 = pre.length + 1 at h
    omega
  obtain ⟨l0, rfl⟩ := List.length_eq_one_iff.mp hlen
  have v1 : c 0 = 0 - moved q 1 := by
    have := (List.cons.inj (List.cons.inj h1).2).1
    cases this
    exact (List.cons.inj h3.2.1).1.symm
  have v2 : (⟨0, 1⟩ : Cf w ℝ) * c 0 = 0 - moved q ⟨0, -1⟩ := by
    have := (List.cons.inj (List.cons.inj h2).2).1
    cases this
    have := (List.cons.inj h4.2.1).1.symm
    simpa [moved] using this
  rw [v1] at v2
  have h3 : moved q ⟨0, -1⟩ = (⟨0, 1⟩ : Cf w ℝ) * moved q 1 := by
    linear_combination v2
  have h4 := congrArg (fun z => z.toC.im) h3
  rw [Cf.toC_hom_mul] at h4
  simp [moved, BasicOps.mulAssign, Cf.mulAssign, CplxOps.conj, Cf.conj] at h4
  rw [show (1 : Cf w ℝ).x = 1 from rfl, show (1 : Cf w ℝ).y = 0 from rfl] at h4
  exact hlr (mul_self_eq_zero.mp (by linarith))

/-- C113. The accuracy may change if two predicted numbers have the same modulus: the first of them
counts, and renumbering changes which one is first. -/
theorem C113_ties : ∃ (t p : List (Cf w ℝ)), Net.argmax t = Net.argmax p
    ∧ Net.argmax t.reverse ≠ Net.argmax p.reverse := by
  have h1 : ∀ a b : Cf w ℝ, ‖a.toC‖ = ‖b.toC‖ → Net.argmax [a, b] = 0 := by
    intro a b hab
    refine C56_unique _ _ _ (C56_argmax [a, b] (by simp)) ⟨a, rfl, fun y hy => ?_, fun j y hj => absurd hj (by omega)⟩
    rcases List.mem_cons.mp hy with rfl | hy
    · exact le_refl _
    · obtain rfl := List.mem_singleton.mp hy
      exact hab.ge
  have l0 : Leads (w := w) 0 [1, 0] := ⟨1, rfl, fun j y hj hy => by
    match j with
    | 0 => exact absurd rfl hj
    | 1 => cases hy; rw [Cf.toC_hom_one, Cf.toC_hom_zero, norm_zero, norm_one]; norm_num
    | j + 2 => simp at hy⟩
  have l1 : Leads (w := w) 1 [0, 1] := ⟨1, rfl, fun j y hj hy => by
    match j with
    | 0 => cases hy; rw [Cf.toC_hom_one, Cf.toC_hom_zero, norm_zero, norm_one]; norm_num
    | 1 => exact absurd rfl hj
    | j + 2 => simp at hy⟩
  refine ⟨[1, 0], [1, 1], ?_, ?_⟩
  · rw [l0.argmax, h1 _ _ rfl]
  · show Net.argmax [0, 1] ≠ Net.argmax [1, 1]
    rw [l1.argmax, h1 _ _ rfl]
    omega

/-- The hypotheses of C113 hold for a network of two layers, the Fourier transform of length 1, and a
point. -/
example : ∃ n' : Net (Cf w ℝ), OutTurned 1 (fourier 1) exTwo n' ∧ (∀ l ∈ (exTwo : Net (Cf w ℝ)).layers, l.WF)
    ∧ (⟨[.scalar [1]], [.scalar [1]]⟩ : Dataset (Cf w ℝ)).TargetsOf 1 :=
  ⟨_, C113_partner (pre := [exUnit]) (a := ⟨Mat.fromBody [1] (1, 1), [0], .none⟩) (W := fun _ _ => 1) (c := fun _ => 0)
    (u := 1) (by omega) (C113_which.1 _ (C105_fourier (by omega))) ⟨⟨rfl, rfl⟩, rfl, rfl⟩, exTwo_wf, fun p hp => by
      obtain rfl : p = (.scalar [1], .scalar [1]) := by simpa [Dataset.points] using hp
      exact ⟨[1], rfl, rfl⟩⟩

/-- Swapping two outputs behind any activation. -/
example (f : ActFunc) : ∃ n n' : Net (Cf w ℝ), OutTurned 2 (renumber (Equiv.swap 0 1)) n n'
    ∧ Renumbers 2 (renumber (Equiv.swap 0 1) : Nat → Nat → Cf w ℝ) := by
  have hσ : ∀ j, Equiv.swap 0 1 j < 2 ↔ j < 2 := by
    intro j
    by_cases h0 : j = 0
    · subst h0; simp
    · by_cases h1 : j = 1
      · subst h1; simp
      · rw [Equiv.swap_apply_of_ne_of_ne h0 h1]
  exact ⟨_, _, C113_partner (pre := []) (a := ⟨Mat.fromBody [1, 0] (2, 1), [0, 0], f⟩) (W := fun j _ => if j = 0 then 1 else 0)
    (c := fun _ => 0) (m := 1) (by omega) (C113_which.2.1 _ f hσ).1 ⟨⟨rfl, by simp [Mat.fromBody, table, List.range_succ]⟩, rfl, rfl⟩,
    (C113_which.2.1 _ f hσ).2⟩

end Renplex
