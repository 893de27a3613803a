import Verif.Spec.Origin
import Verif.Props.Outputs
/-!
# C130: the origin of the targets and of the inputs
-/

namespace Renplex
variable {w : Width}

/-! ## Adding a vector -/

theorem shift_vec (u : Nat) (t X : Nat → Cf w ℝ) :
    shift u t (.scalar ((List.range u).map X)) = .scalar ((List.range u).map fun k => X k + t k) := by
  show (if _ then _ else _) = _
  rw [if_pos (by simp)]
  congr 1
  refine range_map_congr fun k hk => ?_
  rw [List.getD_eq_getElem?_getD]
  simp [hk]

theorem shift_shift (u : Nat) (t : Nat → Cf w ℝ) (x : IOType (Cf w ℝ)) :
    shift u (fun k => - t k) (shift u t x) = x := by
  have : Nonempty (Cf w ℝ) := ⟨0⟩
  cases x with
  | matrix ms => rfl
  | scalar v =>
    by_cases hv : v.length = u
    · obtain ⟨X, hX⟩ := exists_range_map v
      rw [hv] at hX
      rw [hX, shift_vec, shift_vec]
      congr 1
      exact range_map_congr fun k _ => by ring
    · have e : ∀ s : Nat → Cf w ℝ, shift u s (.scalar v) = .scalar v := fun s => if_neg hv
      rw [e, e]

theorem OutShifted.symm {u : Nat} {t : Nat → Cf w ℝ} {n n' : Net (Cf w ℝ)} (h : OutShifted u t n n') :
    OutShifted u (fun k => - t k) n' n := by
  obtain ⟨pre, a, a', m, W, c, hm, hn, hn', ha, ha'⟩ := h
  refine ⟨pre, a', a, m, _, _, hm, hn', hn, ha', ha.1, ?_, ha.2.2⟩
  rw [ha.2.1]
  exact range_map_congr fun k _ => by ring

theorem OutShifted.wf {u : Nat} {t : Nat → Cf w ℝ} {n n' : Net (Cf w ℝ)} (h : OutShifted u t n n')
    (hw : ∀ l ∈ n.layers, l.WF) : ∀ l ∈ n'.layers, l.WF := by
  obtain ⟨pre, a, a', m, W, c, -, hn, hn', -, ha'⟩ := h
  rw [hn] at hw
  rw [hn']
  intro l hl
  rcases List.mem_append.mp hl with hl | hl
  · exact hw l (by simp [hl])
  · obtain rfl := List.mem_singleton.mp hl
    exact ha'.wf

theorem Dataset.shiftTargets_points (u : Nat) (t : Nat → Cf w ℝ) (d : Dataset (Cf w ℝ)) :
    (d.shiftTargets u t).points = d.points.map fun p => (p.1, Renplex.shift u t p.2) := by
  unfold Dataset.shiftTargets Dataset.points
  rw [List.zip_map_right]
  rfl

/-! ## The last layer -/

theorem shift_last {u m : Nat} {t : Nat → Cf w ℝ} (hm : 0 < m) {a a' : Dense (Cf w ℝ)} {W : Nat → Nat → Cf w ℝ}
    {c : Nat → Cf w ℝ} (ha : a.Is u m W c .none) (ha' : a'.Is u m W (fun k => c k + t k) .none)
    {x y : IOType (Cf w ℝ)} (h : a.forward x = some (.ok y)) :
    ∃ X Y, x = .scalar ((List.range m).map X) ∧ y = .scalar ((List.range u).map Y)
      ∧ a'.forward x = some (.ok (shift u t y)) := by
  obtain ⟨X, Y, rfl, rfl, e⟩ := Dense.forward_inv ha hm h
  refine ⟨X, Y, rfl, rfl, ?_⟩
  rw [shift_vec]
  refine C38_forward_exact_partial ha' hm X _ fun k hk => ?_
  have := Option.some.inj (e k hk)
  rw [← this, ← add_assoc]
  rfl

theorem shift_sample {u m : Nat} {t : Nat → Cf w ℝ} (hm : 0 < m)
    {n n' : Net (Cf w ℝ)} {a a' : Dense (Cf w ℝ)} {pre : List (Layer (Cf w ℝ))}
    {W : Nat → Nat → Cf w ℝ} {c : Nat → Cf w ℝ}
    (hn : n.layers = pre ++ [.dense a]) (hn' : n'.layers = pre ++ [.dense a']) (ha : a.Is u m W c .none)
    (ha' : a'.Is u m W (fun k => c k + t k) .none)
    (lf : LossFunc) (x : IOType (Cf w ℝ)) (T : Nat → Cf w ℝ) {gs : List (LayerVec (Cf w ℝ))}
    (h : sampleGrads n lf (x, .scalar ((List.range u).map T)) = some gs) :
    sampleGrads n' lf (x, shift u t (.scalar ((List.range u).map T))) = some gs := by
  unfold sampleGrads at h ⊢
  obtain ⟨acts, hac, h⟩ := Option.bind_eq_some_iff.mp h
  obtain ⟨pred, h1, h⟩ := Option.bind_eq_some_iff.mp h
  obtain ⟨dl, hd, h⟩ := Option.bind_eq_some_iff.mp h
  obtain ⟨gs0, hbk, rfl⟩ := Option.map_eq_some_iff.mp h
  obtain ⟨r0, h2, h3⟩ := Option.bind_eq_some_iff.mp hac
  obtain ⟨zs, hc, rfl⟩ := (C44_collect n (by rw [hn]; simp) _ r0).mp h2
  cases h3
  rw [hn] at hc
  obtain ⟨ys, ws, as, prev, rfl, c1, c2, c3, c4⟩ := hc.append_inv
  cases c4 with
  | @cons _ _ _ y _ q1 q2 =>
  cases q2 with
  | nil =>
    obtain ⟨X, Y, rfl, rfl, q3⟩ := shift_last hm ha ha' q1
    have hlast : (x :: ys).getLast? = some (.scalar ((List.range m).map X)) := by rw [c2]; simp
    have hc' : Chain n'.layers x (ys ++ [shift u t (.scalar ((List.range u).map Y))]) := by
      rw [hn']
      exact c1.append hlast (.cons q3 (.nil _))
    have hlastv : ∀ z : IOType (Cf w ℝ), (x :: (ys ++ [z])).reverse.head? = some z := by
      intro z
      rw [List.head?_reverse, ← List.cons_append, List.getLast?_append_of_ne_nil _ (by simp)]
      rfl
    rw [hlastv] at h1
    cases h1
    have hd' : (CplxOps.dLoss lf (.scalar ((List.range u).map T)) (.scalar ((List.range u).map Y)) : Except LossErr (List (Cf w ℝ)))
        = .ok dl := by
      change unwrap (CplxOps.dLoss lf (IOType.scalar ((List.range u).map T)) _) = some dl at hd
      rw [dMean_map] at hd ⊢
      cases hd
      rfl
    rw [dMean_map] at hd'
    cases hd'
    have hca : (n'.collectActs x >>= unwrap)
        = some (x :: (ys ++ [shift u t (.scalar ((List.range u).map Y))])) := by
      rw [(C44_collect n' (by rw [hn']; simp) x _).mpr ⟨_, hc', rfl⟩]
      rfl
    rw [hca]
    simp only [Option.bind_eq_bind, Option.bind_some]
    rw [hlastv, acts_zip hn' c2 c3 (by simp) (by simp)]
    rw [acts_zip hn c2 c3 (by simp) (by simp)] at hbk
    simp only [Option.bind_some]
    rw [shift_vec, shift_vec, dMean_map]
    simp only [unwrap, Option.bind_some]
    have key : ∀ (z z' : IOType (Cf w ℝ)) (l : Layer (Cf w ℝ)), ([z, z'].dropLast.reverse.zip [l].reverse)
        ++ as.reverse.zip pre.reverse = (z, l) :: as.reverse.zip pre.reverse := fun _ _ _ => rfl
    rw [key] at hbk ⊢
    have hp : ∀ l : Dense (Cf w ℝ), (Layer.dense l).propagates = true := fun _ => rfl
    simp only [backGrads, hp, if_true] at hbk ⊢
    obtain ⟨r, k1, hbk⟩ := Option.bind_eq_some_iff.mp hbk
    obtain ⟨g2, k2, rfl⟩ := Option.map_eq_some_iff.mp hbk
    obtain ⟨γ, γc, δ, δc, e1, e2, d1, d2, rfl⟩ := Dense.derivatives_data ha hm k1
    have f1 := Dense.computeDerivatives_is ha' hm X γ γc δ δc d1 d2
    simp only [add_sub_add_right_eq_sub]
    rw [e2, e1, show (Layer.dense a').computeDerivatives = a'.computeDerivatives from rfl, f1]
    simp only [Option.bind_eq_bind, Option.bind_some, unwrap] at k2 ⊢
    rw [k2]
    rfl

theorem shift_step {u : Nat} {t : Nat → Cf w ℝ} {n n' : Net (Cf w ℝ)} (h : OutShifted u t n n')
    (hw : ∀ l ∈ n.layers, l.WF) {data : Dataset (Cf w ℝ)} (ht : data.TargetsOf u) {lf : LossFunc} {lr : Cf w ℝ}
    {r : Except ForwardErr Unit} {n1 : Net (Cf w ℝ)} (hg : n.gradientOpt data lf lr = some (r, n1)) :
    ∃ n1', n'.gradientOpt (data.shiftTargets u t) lf lr = some (r, n1') ∧ OutShifted u t n1 n1' := by
  have : Nonempty (Cf w ℝ) := ⟨0⟩
  have hw' := h.wf hw
  have h0 := h
  obtain ⟨pre, a, a', m, W, c, hm, hn, hn', ha, ha'⟩ := h
  by_cases hlen : n.layers.length ≤ 1
  · unfold Net.gradientOpt at hg ⊢
    rw [if_pos hlen] at hg
    rw [if_pos (by rw [hn'] ; rw [hn] at hlen; simpa using hlen)]
    cases hg
    exact ⟨_, rfl, h0⟩
  have hlen' : 1 < n'.layers.length := by
    rw [hn']; rw [hn] at hlen; simp only [List.length_append, List.length_cons, List.length_nil] at hlen ⊢; omega
  obtain ⟨rfl, gss, scale, h1, h2, rfl⟩ := (C50_step n n1 (by omega) hw data lf lr r).mp hg
  have fits : ∀ {gs}, List.Forall₂ LayerVec.Fits gs n.layers → List.Forall₂ LayerVec.Fits gs n'.layers
      ∧ ∃ (G : List (LayerVec (Cf w ℝ))) (A : Nat → Nat → Cf w ℝ) (s : Nat → Cf w ℝ), pre.length = G.length
        ∧ gs = G ++ [(table u m A, (List.range u).map s)] := by
    intro gs hgs
    rw [hn] at hgs
    obtain ⟨K1, K2, rfl, f1, f2⟩ := forall₂_append_inv hgs.flip
    obtain ⟨g, rfl⟩ : ∃ g, K2 = [g] := by
      cases f2 with
      | cons _ q => cases q; exact ⟨_, rfl⟩
    have f3 : LayerVec.Fits g (.dense a) := by
      cases f2 with
      | cons q _ => exact q
    have f4 : g.1.length = a.weights.shape.1 * a.weights.shape.2 ∧ g.2.length = a.biases.length := f3
    rw [ha.1.1, ha.2.1, List.length_map, List.length_range] at f4
    obtain ⟨A, hA⟩ := exists_table u m g.1 f4.1
    obtain ⟨s, hs⟩ := exists_range_map g.2
    rw [f4.2] at hs
    have hg : g = (table u m A, (List.range u).map s) := Prod.ext hA hs
    subst hg
    refine ⟨?_, K1, A, s, f1.length_eq, rfl⟩
    rw [hn']
    exact List.rel_append f1.flip (.cons (ha'.fits _ _) .nil)
  have j1 : List.Forall₂ (fun p gs => sampleGrads n' lf p = some gs
        ∧ List.Forall₂ LayerVec.Fits gs n'.layers) (data.shiftTargets u t).points gss := by
    rw [Dataset.shiftTargets_points]
    clear hg
    unfold Dataset.TargetsOf at ht
    generalize data.points = pts at h1 ht
    induction h1 with
    | nil => exact .nil
    | @cons p gs pts gss hp _ ih =>
      obtain ⟨v, hv, hv'⟩ := ht p (by simp)
      obtain ⟨T, hT⟩ := exists_range_map v
      rw [hv'] at hT
      have hp1 : sampleGrads n lf (p.1, .scalar ((List.range u).map T)) = some gs := by
        rw [← hT, ← hv]; exact hp.1
      have k1 := shift_sample hm hn hn' ha ha' lf p.1 T hp1
      rw [← hT, ← hv] at k1
      exact .cons ⟨k1, (fits hp.2).1⟩ (ih fun p hp => ht p (by simp [hp]))
  have hz : sumGrads n' gss = sumGrads n gss := by
    unfold sumGrads
    rw [hn, hn', List.map_append, List.map_append, List.map_cons, List.map_cons, zero_dense ha, zero_dense ha']
  have hdiv : (data.shiftTargets u t).inputs.length = data.inputs.length := rfl
  refine ⟨_, (C50_step n' _ (by omega) hw' _ lf lr (.ok ())).mpr ⟨rfl, gss, scale, j1, by rw [hdiv]; exact h2, rfl⟩, ?_⟩
  obtain ⟨-, G, A, s, e0, e1⟩ := fits (sumGrads_fits n gss fun gs hgs => by
    obtain ⟨p, -, hp⟩ := forall₂_mem_right h1 gs hgs
    exact hp.2)
  obtain ⟨l1, k1, i1⟩ := Dense.zipParams_is ha (A := A) (s := s)
    (fun p d => p - CplxOps.conj (BasicOps.mulAssign d scale))
  obtain ⟨l2, k2, i2⟩ := Dense.zipParams_is ha' (A := A) (s := s)
    (fun p d => p - CplxOps.conj (BasicOps.mulAssign d scale))
  refine ⟨List.zipWith (Layer.zipParams fun p d => p - CplxOps.conj (BasicOps.mulAssign d scale)) pre G, l1, l2,
    m, _, _, hm, ?_, ?_, i1, i2.1, ?_, i2.2.2⟩
  · show List.zipWith _ n.layers (sumGrads n gss) = _
    rw [e1, hn, List.zipWith_append e0, List.zipWith_cons_cons, k1]
    rfl
  · show List.zipWith _ n'.layers (sumGrads n' gss) = _
    rw [hz, e1, hn', List.zipWith_append e0, List.zipWith_cons_cons, k2]
    rfl
  · rw [i2.2.1]
    exact range_map_congr fun k _ => by ring

/-! ## The network -/

/-- C130. Adding a vector to the biases of a last dense layer without activation adds it to every
prediction; the networks panic on the same inputs. -/
theorem C130_forward {u : Nat} {t : Nat → Cf w ℝ} (n n' : Net (Cf w ℝ)) (h : OutShifted u t n n')
    (x : IOType (Cf w ℝ)) : n'.forward x = (n.forward x).map (Except.map (shift u t)) := by
  have key : ∀ {s : Nat → Cf w ℝ} {n n' : Net (Cf w ℝ)} {x : IOType (Cf w ℝ)}, OutShifted u s n n' →
      ∀ r, n.forward x = some r → n'.forward x = some (r.map (shift u s)) := by
    intro s n n' x h r hr
    obtain ⟨pre, a, a', m, W, c, hm, hn, hn', ha, ha'⟩ := h
    obtain ⟨zs, y, hc, hy, rfl⟩ := (C44_forward n (by rw [hn]; simp) x r).mp hr
    rw [hn] at hc
    obtain ⟨ys, ws, as, prev, rfl, c1, c2, c3, c4⟩ := hc.append_inv
    cases c4 with
    | @cons _ _ _ y1 _ q1 q2 =>
    cases q2 with
    | nil =>
      obtain ⟨X, Y, rfl, rfl, q3⟩ := shift_last hm ha ha' q1
      have hlast : (x :: ys).getLast? = some (.scalar ((List.range m).map X)) := by rw [c2]; simp
      rw [List.getLast?_append_of_ne_nil _ (by simp)] at hy
      cases hy
      refine (C44_forward n' (by rw [hn']; simp) _ _).mpr ⟨ys ++ [shift u s (.scalar ((List.range u).map Y))],
        shift u s (.scalar ((List.range u).map Y)), ?_, ?_, rfl⟩
      · rw [hn']
        exact c1.append hlast (.cons q3 (.nil _))
      · rw [List.getLast?_append_of_ne_nil _ (by simp)]
        rfl
  cases hr : n.forward x with
  | some r => exact key h r hr
  | none =>
    cases hr' : n'.forward x with
    | none => rfl
    | some r =>
      have := key h.symm r hr'
      rw [hr] at this
      cases this

/-- What the networks predict. -/
theorem OutShifted.output {u : Nat} {t : Nat → Cf w ℝ} {n n' : Net (Cf w ℝ)} (h : OutShifted u t n n')
    {x : IOType (Cf w ℝ)} {r : Except ForwardErr (IOType (Cf w ℝ))} (hr : n.forward x = some r) :
    ∃ Y, r = .ok (.scalar ((List.range u).map Y))
      ∧ n'.forward x = some (.ok (.scalar ((List.range u).map fun k => Y k + t k))) := by
  have e := C130_forward n n' h x
  obtain ⟨pre, a, a', m, W, c, hm, hn, hn', ha, ha'⟩ := h
  obtain ⟨zs, y, hc, hy, rfl⟩ := (C44_forward n (by rw [hn]; simp) x r).mp hr
  rw [hn] at hc
  obtain ⟨ys, ws, as, prev, rfl, c1, c2, c3, c4⟩ := hc.append_inv
  cases c4 with
  | @cons _ _ _ y1 _ q1 q2 =>
  cases q2 with
  | nil =>
    obtain ⟨X, Y, rfl, rfl, q3⟩ := shift_last hm ha ha' q1
    rw [List.getLast?_append_of_ne_nil _ (by simp)] at hy
    cases hy
    refine ⟨Y, rfl, ?_⟩
    rw [e, hr, ← shift_vec]
    rfl

/-- C130. So the mean-square loss on the targets with the vector added is the loss on the targets. -/
theorem C130_loss {u : Nat} {t : Nat → Cf w ℝ} (n n' : Net (Cf w ℝ)) (h : OutShifted u t n n')
    (data : Dataset (Cf w ℝ)) (ht : data.TargetsOf u) :
    n'.loss (data.shiftTargets u t) .meanSquare = n.loss data .meanSquare := by
  have : Nonempty (Cf w ℝ) := ⟨0⟩
  have key : ((data.shiftTargets u t).points.mapM fun p => do
      let pred ← n'.forward p.1 >>= unwrap
      unwrap (CplxOps.loss .meanSquare p.2 pred))
      = (data.points.mapM fun p => do
      let pred ← n.forward p.1 >>= unwrap
      unwrap (CplxOps.loss .meanSquare p.2 pred) : Run (List ℝ)) := by
    rw [Dataset.shiftTargets_points, mapM_map']
    unfold Dataset.TargetsOf at ht
    generalize data.points = pts at ht
    induction pts with
    | nil => rfl
    | cons p pts ih =>
      rw [List.mapM_cons, List.mapM_cons, ih fun p hp => ht p (by simp [hp])]
      congr 1
      obtain ⟨v, hv, hv'⟩ := ht p (by simp)
      obtain ⟨T, hT⟩ := exists_range_map v
      rw [hv'] at hT
      rw [hv, hT, shift_vec]
      cases hr : n.forward p.1 with
      | none =>
        have e := C130_forward n n' h p.1
        rw [hr] at e
        simp only [e]
        rfl
      | some r =>
        obtain ⟨Y, rfl, e⟩ := h.output hr
        simp only [e]
        show some (Loss.meanSq _ _) = some (Loss.meanSq _ _)
        rw [meanSq_map, meanSq_map]
        simp only [add_sub_add_right_eq_sub]
  unfold Net.loss
  rw [key]

/-- C130. Training commutes with adding the vector, whatever the loss function and the learning rate: a
training call returns for one network exactly if it returns for the other on the targets with the
vector added, with the same result, and the networks it leaves differ by the same vector. -/
theorem C130_step {u : Nat} {t : Nat → Cf w ℝ} (n n' : Net (Cf w ℝ)) (h : OutShifted u t n n')
    (hw : ∀ l ∈ n.layers, l.WF) (data : Dataset (Cf w ℝ)) (ht : data.TargetsOf u) (lf : LossFunc) (lr : Cf w ℝ) :
    Option.Rel (fun o o' => o.1 = o'.1 ∧ OutShifted u t o.2 o'.2) (n.gradientOpt data lf lr)
      (n'.gradientOpt (data.shiftTargets u t) lf lr) := by
  cases hr : n.gradientOpt data lf lr with
  | some o =>
    obtain ⟨n1', h1, h2⟩ := shift_step h hw ht (r := o.1) (n1 := o.2) hr
    rw [h1]
    exact .some ⟨rfl, h2⟩
  | none =>
    cases hr' : n'.gradientOpt (data.shiftTargets u t) lf lr with
    | none => exact .none
    | some o =>
      have ht' : (data.shiftTargets u t).TargetsOf u := by
        intro p hp
        rw [Dataset.shiftTargets_points] at hp
        obtain ⟨q, hq, rfl⟩ := List.mem_map.mp hp
        obtain ⟨v, hv, hv'⟩ := ht q hq
        refine ⟨(List.range u).map fun k => v.getD k 0 + t k, ?_, by simp⟩
        show shift u t q.2 = _
        rw [hv]
        exact if_pos hv'
      obtain ⟨n1', h1, -⟩ := shift_step h.symm (h.wf hw) ht' (r := o.1) (n1 := o.2) hr'
      have hd : (data.shiftTargets u t).shiftTargets u (fun k => - t k) = data := by
        unfold Dataset.shiftTargets
        simp [List.map_map, Function.comp_def, shift_shift]
      rw [hd, hr] at h1
      cases h1

/-- C130. The same for any history of training calls. -/
theorem C130_train {u : Nat} {t : Nat → Cf w ℝ} (n n' : Net (Cf w ℝ)) (h : OutShifted u t n n')
    (hw : ∀ l ∈ n.layers, l.WF) (steps : List (TrainStep (Cf w ℝ))) (hs : ∀ s ∈ steps, s.1.TargetsOf u) :
    Option.Rel (OutShifted u t) (n.train steps) (n'.train (shiftTargetSteps u t steps)) := by
  induction steps generalizing n n' with
  | nil => exact .some h
  | cons s steps ih =>
    simp only [Net.train, shiftTargetSteps, List.map_cons, List.foldlM_cons, Option.bind_eq_bind]
    have := C130_step n n' h hw s.1 (hs s (by simp)) s.2.1 s.2.2
    cases hr1 : n.gradientOpt s.1 s.2.1 s.2.2 with
    | none =>
      rw [hr1] at this
      cases hr' : n'.gradientOpt (s.1.shiftTargets u t) s.2.1 s.2.2 with
      | none => exact .none
      | some o => rw [hr'] at this; cases this
    | some o =>
      rw [hr1] at this
      cases hr' : n'.gradientOpt (s.1.shiftTargets u t) s.2.1 s.2.2 with
      | none => rw [hr'] at this; cases this
      | some o' =>
        rw [hr'] at this
        cases this with
        | some this =>
          exact ih o.2 o'.2 this.2 (sameShape_wf (Net.gradientOpt_shape hw (r := o.1) (n' := o.2) hr1))
            fun s hs' => hs s (by simp [hs'])

/-- C130. Every network that ends with a dense layer without activation has such a partner. -/
theorem C130_partner {m u : Nat} {t : Nat → Cf w ℝ} {W : Nat → Nat → Cf w ℝ} {c : Nat → Cf w ℝ} {a : Dense (Cf w ℝ)}
    {pre : List (Layer (Cf w ℝ))} (hm : 0 < m) (ha : a.Is u m W c .none) :
    OutShifted u t ⟨pre ++ [.dense a]⟩
      ⟨pre ++ [.dense ⟨a.weights, (List.range u).map fun k => c k + t k, .none⟩]⟩ :=
  ⟨pre, _, _, m, W, c, hm, rfl, rfl, ha, ha.1, rfl, rfl⟩

example (t : Cf w ℝ) : OutShifted 1 (fun _ => t) exTwo ⟨[exUnit, .dense ⟨Mat.fromBody [1] (1, 1), [0 + t], .none⟩]⟩
    ∧ (∀ l ∈ (exTwo : Net (Cf w ℝ)).layers, l.WF) :=
  ⟨C130_partner (pre := [exUnit]) (W := fun _ _ => 1) (c := fun _ => 0) (by omega) ⟨⟨rfl, rfl⟩, rfl, rfl⟩, exTwo_wf⟩

/-! ## Where it ends -/

/-- C130. The cross-entropy loss does change with the origin, although training with it does not. -/
theorem C130_cross_entropy : ∃ T Y t : Nat → Cf w ℝ,
    Loss.func .normCrossEntropy ((List.range 2).map fun k => T k + t k) ((List.range 2).map fun k => Y k + t k)
      ≠ Loss.func .normCrossEntropy ((List.range 2).map T) ((List.range 2).map Y) := by
  refine ⟨fun _ => 0, fun _ => 0, fun _ => 1, ?_⟩
  show Loss.normCe _ _ ≠ Loss.normCe _ _
  rw [normCe_map, normCe_map]
  have h1 : (1 : Cf w ℝ).x = 1 := rfl
  have h0 : (0 : Cf w ℝ).x = 0 := rfl
  have h2 : Real.exp 1 / (Real.exp 1 + Real.exp 1) = 2⁻¹ := by
    have := Real.exp_pos 1
    field_simp
    norm_num
  have h3 := Real.log_pos (show (1 : ℝ) < 2 by norm_num)
  simp only [Finset.sum_range_succ, Finset.sum_range_zero, zero_add, h1, h0, Cf.toC_hom_one, norm_one, one_pow, h2,
    Real.log_inv, one_mul, zero_mul, add_zero, neg_zero]
  linarith

/-- C130. The accuracy may change with the origin: the larger modulus of two numbers need not stay the larger
one. -/
theorem C130_accuracy : ∃ T Y t : Nat → Cf w ℝ, Net.argmax ((List.range 2).map T) = Net.argmax ((List.range 2).map Y)
    ∧ Net.argmax ((List.range 2).map fun k => T k + t k) ≠ Net.argmax ((List.range 2).map fun k => Y k + t k) := by
  have l0 : ∀ x y : Cf w ℝ, ‖y.toC‖ < ‖x.toC‖ → Net.argmax [x, y] = 0 := fun x y hxy =>
    Leads.argmax ⟨x, rfl, fun j z hj hz => by
      match j with
      | 0 => exact absurd rfl hj
      | 1 => cases hz; exact hxy
      | j + 2 => simp at hz⟩
  have l1 : ∀ x y : Cf w ℝ, ‖x.toC‖ < ‖y.toC‖ → Net.argmax [x, y] = 1 := fun x y hxy =>
    Leads.argmax ⟨y, rfl, fun j z hj hz => by
      match j with
      | 0 => cases hz; exact hxy
      | 1 => exact absurd rfl hj
      | j + 2 => simp at hz⟩
  refine ⟨fun k => if k = 0 then 1 else 0, fun k => if k = 0 then 1 + 1 else 1, fun k => if k = 0 then -(1 + 1) else 0, ?_, ?_⟩
  · show Net.argmax [1, 0] = Net.argmax [1 + 1, 1]
    rw [l0, l0]
    · rw [Cf.toC_hom_add, Cf.toC_hom_one]; norm_num
    · rw [Cf.toC_hom_zero, Cf.toC_hom_one]; norm_num
  · show Net.argmax [1 + -(1 + 1), 0 + 0] ≠ Net.argmax [1 + 1 + -(1 + 1), 1 + 0]
    rw [l0, l1]
    · decide
    · rw [add_neg_cancel, add_zero, Cf.toC_hom_zero, Cf.toC_hom_one]; norm_num
    · rw [show (1 : Cf w ℝ) + -(1 + 1) = -1 by ring, add_zero, Cf.toC_hom_zero, show (-1 : Cf w ℝ).toC = -1 from rfl]; norm_num

/-! ## The origin of the inputs -/

theorem Dataset.shiftInputs_points (m : Nat) (t : Nat → Cf w ℝ) (d : Dataset (Cf w ℝ)) :
    (d.shiftInputs m t).points = d.points.map fun p => (Renplex.shift m t p.1, p.2) := by
  unfold Dataset.shiftInputs Dataset.points
  rw [List.zip_map_left]
  rfl

theorem InShifted.symm {m : Nat} {t : Nat → Cf w ℝ} {n n' : Net (Cf w ℝ)} (h : InShifted m t n n') :
    InShifted m (fun k => - t k) n' n := by
  obtain ⟨hm, a, a', post, u, W, c, f, hn, hn', ha, ha'⟩ := h
  refine ⟨hm, a', a, post, u, _, _, f, hn', hn, ha', ha.1, ?_, ha.2.2⟩
  rw [ha.2.1]
  refine range_map_congr fun k _ => ?_
  simp only [mul_neg, Finset.sum_neg_distrib]
  ring

/-- C130. Adding a vector to all inputs is undone by the biases of the first dense layer, whatever its
activation and the layers behind: the network predicts the same, and panics for the same inputs. -/
theorem C130_inputs {m : Nat} {t : Nat → Cf w ℝ} (n n' : Net (Cf w ℝ)) (h : InShifted m t n n')
    (x : IOType (Cf w ℝ)) : n'.forward (shift m t x) = n.forward x := by
  have key : ∀ {s : Nat → Cf w ℝ} {n n' : Net (Cf w ℝ)} {x : IOType (Cf w ℝ)}, InShifted m s n n' →
      ∀ r, n.forward x = some r → n'.forward (shift m s x) = some r := by
    intro s n n' x h r hr
    obtain ⟨hm, a, a', post, u, W, c, f, hn, hn', ha, ha'⟩ := h
    obtain ⟨zs, y, hc, hy, rfl⟩ := (C44_forward n (by rw [hn]; simp) x r).mp hr
    rw [hn] at hc
    cases hc with
    | @cons _ _ _ y' ws q1 q2 =>
      obtain ⟨X, Y, rfl, rfl, e⟩ := Dense.forward_inv ha hm q1
      have q3 : a'.forward (shift m s (.scalar ((List.range m).map X))) = some (.ok (.scalar ((List.range u).map Y))) := by
        rw [shift_vec]
        refine C38_forward_exact_partial ha' hm _ Y fun j hj => ?_
        rw [← e j hj]
        congr 1
        simp only [mul_add, Finset.sum_add_distrib]
        ring
      exact (C44_forward n' (by rw [hn']; simp) _ _).mpr ⟨_, y, by rw [hn']; exact .cons q3 q2, hy, rfl⟩
  cases hr : n.forward x with
  | some r => exact key h r hr
  | none =>
    cases hr' : n'.forward (shift m t x) with
    | none => rfl
    | some r =>
      have := key h.symm r hr'
      rw [shift_shift, hr] at this
      cases this

/-- C130. So losses and accuracies on the data with the vector added to all inputs are those on the data. -/
theorem C130_inputs_measures {m : Nat} {t : Nat → Cf w ℝ} (n n' : Net (Cf w ℝ)) (h : InShifted m t n n')
    (data : Dataset (Cf w ℝ)) :
    (∀ lf, n'.loss (data.shiftInputs m t) lf = n.loss data lf)
      ∧ n'.maxPredTest (data.shiftInputs m t) = n.maxPredTest data := by
  constructor
  · intro lf
    unfold Net.loss
    rw [Dataset.shiftInputs_points, mapM_map']
    simp only [C130_inputs n n' h]
  · unfold Net.maxPredTest
    rw [Dataset.shiftInputs_points, mapM_map']
    simp only [C130_inputs n n' h]
    rfl

/-- C130. But training does not commute with adding a vector to the inputs: for every learning rate whose real part
is not zero there are networks that differ in this way, and data for which the call leaves networks that do
not. -/
theorem C130_inputs_training (lr : Cf w ℝ) (hlr : lr.x ≠ 0) (lf : LossFunc) :
    ∃ (n n' n1 n1' : Net (Cf w ℝ)) (data : Dataset (Cf w ℝ)), InShifted 1 (fun _ => 1) n n'
      ∧ (∀ l ∈ n.layers, l.WF) ∧ n.gradientOpt data lf lr = some (.ok (), n1)
      ∧ n'.gradientOpt (data.shiftInputs 1 fun _ => 1) lf lr = some (.ok (), n1')
      ∧ ¬ InShifted 1 (fun _ => 1) n1 n1' := by
  obtain ⟨q, hq, hq'⟩ := div_toC lr (Cf.ofUsize 1) (by rw [Cf.toC_ofUsize]; simp)
  rw [Cf.toC_ofUsize, Nat.cast_one, div_one] at hq'
  obtain rfl := Cf.toC_inj.mp hq'
  let d' : Dense (Cf w ℝ) := ⟨Mat.fromBody [1] (1, 1), [-1], .none⟩
  let n' : Net (Cf w ℝ) := ⟨[.dense d', exUnit]⟩
  have ha : (⟨Mat.fromBody [1] (1, 1), [0], .none⟩ : Dense (Cf w ℝ)).Is 1 1 (fun _ _ => 1) (fun _ => 0) .none :=
    ⟨⟨rfl, rfl⟩, rfl, rfl⟩
  have hd : d'.Is 1 1 (fun _ _ => 1) (fun _ => -1) .none := ⟨⟨rfl, rfl⟩, rfl, rfl⟩
  have ha' : d'.Is 1 1 (fun _ _ => 1) (fun _ => 0 - ∑ _i ∈ Finset.range 1, 1 * 1) .none :=
    ⟨⟨rfl, rfl⟩, by simp [d'], rfl⟩
  have hT : InShifted 1 (fun _ => (1 : Cf w ℝ)) exTwo n' :=
    ⟨by omega, _, _, [exUnit], 1, _, _, _, rfl, rfl, ha, ha'⟩
  have hw' : ∀ l ∈ n'.layers, l.WF := by
    intro l hl
    rcases List.mem_cons.mp hl with rfl | hl
    · exact hd.wf
    · exact exTwo_wf l (by simpa [exTwo] using hl)
  have hs := exTwo_sample lf (0 : Cf w ℝ) (-1)
  rw [sub_neg_eq_add, zero_add, conj_one, mul_one] at hs
  have k1 : sampleGrads n' lf (.scalar [1], .scalar [-1]) = some [([1], [1]), ([0], [1])] := by
    have hf : (Layer.dense d').forward (.scalar [1]) = some (.ok (.scalar [0])) := by
      simp [d', Layer.forward, Dense.forward, Dense.computeQ, Mat.mulSlice, Mat.rowsAsIter, chunks,
        chunksPos, chunksAux, Mat.fromBody, unwrap, addSliceMut, zipUpd, activateMut, CplxOps.activate,
        Act.activate]
    have hdl : CplxOps.dLoss lf (.scalar [(-1 : Cf w ℝ)]) (.scalar [0])
        = .ok [CplxOps.conj (0 - -1 : Cf w ℝ)] := by cases lf <;> rfl
    have hp : (exUnit : Layer (Cf w ℝ)).propagates = true := rfl
    have hp' : (Layer.dense d').propagates = true := rfl
    have hc : n'.collectActs (.scalar [1]) = some (.ok [.scalar [1], .scalar [0], .scalar [0]]) := by
      simp [n', Net.collectActs, Net.collectLoop, Net.fwd, exUnit_forward, hf, unwrap]
    have hdd : ∀ d dc : Cf w ℝ, (Layer.dense d').computeDerivatives (.scalar [1]) [d] [dc]
        = some (.ok ([1 * d], [d], [d], [CplxOps.conj d])) := by
      intro d dc
      have := Dense.computeDerivatives_is hd (by omega) (fun _ => 1) (fun _ => d) (fun _ => dc) (fun _ => 1) (fun _ => 0)
        (fun j _ => by show some Cf.unit = _; rw [unit_eq_one]) (fun j _ => by show some Cf.default = _; rw [default_eq_zero])
      rw [show (Layer.dense d').computeDerivatives = d'.computeDerivatives from rfl]
      simpa [table, conj_zero'] using this
    unfold sampleGrads
    rw [hc]
    simp [unwrap, hdl, backGrads, hp, hp', exUnit_derivs, hdd, n', conj_one]
  have hstep := (C50_step (exTwo : Net (Cf w ℝ)) _ (by simp [exTwo]) exTwo_wf
    ⟨[.scalar [0]], [.scalar [-1]]⟩ lf q (.ok ())).mpr ⟨rfl, _, q, .cons ⟨hs,
      .cons ⟨rfl, rfl⟩ (.cons ⟨rfl, rfl⟩ .nil)⟩ .nil, hq, rfl⟩
  have hdata : (⟨[.scalar [0]], [.scalar [-1]]⟩ : Dataset (Cf w ℝ)).shiftInputs 1 (fun _ => 1)
      = ⟨[.scalar [1]], [.scalar [-1]]⟩ := by
    have := shift_vec 1 (fun _ => (1 : Cf w ℝ)) (fun _ => 0)
    simp only [List.range_one, List.map_cons, List.map_nil, zero_add] at this
    simp [Dataset.shiftInputs, this]
  have hstep' := (C50_step n' _ (by simp [n']) hw'
    ⟨[.scalar [1]], [.scalar [-1]]⟩ lf q (.ok ())).mpr ⟨rfl, _, q, .cons ⟨k1,
      .cons ⟨rfl, rfl⟩ (.cons ⟨rfl, rfl⟩ .nil)⟩ .nil, hq, rfl⟩
  refine ⟨exTwo, n', _, _, _, hT, exTwo_wf, hstep, by rw [hdata]; exact hstep', ?_⟩
  rw [exTwo_sum]
  have hsum : sumGrads n' [[([1], [1]), ([0], [1])]] = [([1], [1]), ([0], [1])] := by
    have hp : (exUnit : Layer (Cf w ℝ)).propagates = true := rfl
    have hl : (exUnit : Layer (Cf w ℝ)).paramsLen = (1, 1) := rfl
    have hp' : ∀ d : Dense (Cf w ℝ), (Layer.dense d).propagates = true := fun _ => rfl
    have hl' : (Layer.dense d').paramsLen = (1, 1) := rfl
    simp [sumGrads, n', LayerVec.zero, hp, hl, hp', hl', LayerVec.add]
  rw [hsum]
  rintro ⟨-, a, a', post, u, W, c, g, h1, h2, h3, h4⟩
  have hu : u = 1 := by
    have := (List.cons.inj h1).1
    cases this
    exact (congrArg Prod.fst h3.1.1).symm
  subst hu
  have v1 : W 0 0 = 1 - moved q 0 := by
    have := (List.cons.inj h1).1
    cases this
    exact (List.cons.inj h3.1.2).1.symm
  have v2 : W 0 0 = 1 - moved q 1 := by
    have := (List.cons.inj h2).1
    cases this
    exact (List.cons.inj h4.1.2).1.symm
  rw [v1, moved_zero] at v2
  have h3 : moved q 1 = (0 : Cf w ℝ) := by linear_combination v2
  have h4 : (1 : ℝ) * q.x - 0 * q.y = 0 := congrArg Cf.x h3
  exact hlr (by linarith)

end Renplex
