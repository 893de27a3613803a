import Verif.Props.Backprop
/-!
# C48: back-propagation computes the gradient of a network
-/

namespace Renplex
open Filter Topology ComplexConjugate
variable {w : Width}

theorem IOType.HasSize.exists_flat {x : IOType (Cf w ℝ)} {σ : Size} (h : x.HasSize σ) :
    ∃ a, x.HasFlat σ a := by
  have : Nonempty (Cf w ℝ) := ⟨0⟩
  cases x with
  | scalar v => cases σ with
    | vec n =>
      obtain ⟨f, hf⟩ := exists_range_map v
      have hn : v.length = n := h
      rw [hn] at hf
      exact ⟨f, hf⟩
    | maps n r c => exact absurd h id
  | matrix ms => cases σ with
    | vec n => exact absurd h id
    | maps n r c =>
      obtain ⟨X, hX⟩ := MapsAre.exists_of h
      refine ⟨fun k => X (k / (r * c)) (k % (r * c) / c) (k % (r * c) % c), hX.1, ?_⟩
      intro ch m hm
      refine ⟨(hX.2 ch m hm).1, ?_⟩
      rw [(hX.2 ch m hm).2]
      refine table_congr fun i hi j hj => ?_
      have h1 := idx_lt hi hj
      have h2 : (ch * (r * c) + (i * c + j)) / (r * c) = ch := by
        rw [Nat.mul_comm, Nat.mul_add_div (by omega), Nat.div_eq_of_lt h1, Nat.add_zero]
      have h3 : (ch * (r * c) + (i * c + j)) % (r * c) = i * c + j := by
        rw [Nat.mul_comm ch, Nat.mul_add_mod, Nat.mod_eq_of_lt h1]
      have h4 : (i * c + j) / c = i := by
        rw [Nat.mul_comm, Nat.mul_add_div (by omega), Nat.div_eq_of_lt hj, Nat.add_zero]
      have h5 : (i * c + j) % c = j := by
        rw [Nat.mul_comm, Nat.mul_add_mod, Nat.mod_eq_of_lt hj]
      simp only [h2, h3, h4, h5]

theorem hasDerivAt_sq_curve {t : ℂ} {c : ℝ → ℂ} {v : ℂ} (hc : HasDerivAt c v 0) :
    HasDerivAt (fun s : ℝ => ‖t - c s‖ ^ 2) (2 * (conj (c 0 - t) * v).re) 0 := by
  have e : (fun s : ℝ => ‖t - c s‖ ^ 2)
      = fun s : ℝ => (t.re - (c s).re) ^ 2 + (t.im - (c s).im) ^ 2 := by
    funext s
    rw [← Complex.normSq_eq_norm_sq, Complex.normSq_apply]
    simp; ring
  rw [e]
  have h1 : HasDerivAt (fun s => (c s).re) v.re 0 := by
    exact Complex.reCLM.hasFDerivAt.comp_hasDerivAt (0 : ℝ) hc
  have h2 : HasDerivAt (fun s => (c s).im) v.im 0 := by
    exact Complex.imCLM.hasFDerivAt.comp_hasDerivAt (0 : ℝ) hc
  have := ((h1.const_sub t.re).pow 2).add ((h2.const_sub t.im).pow 2)
  refine this.congr_deriv ?_
  simp
  ring

theorem sqSum_range (u : Nat) (T p : Nat → Cf w ℝ) :
    sqSum ((List.range u).map T) ((List.range u).map p)
      = ∑ k ∈ Finset.range u, ‖(T k).toC - (p k).toC‖ ^ 2 := by
  unfold sqSum
  rw [zip_range_map, List.map_map, ← sum_range_list]
  rfl

theorem Chain.snoc_inv {α P : Type} [CplxOps α P] {ls : List (Layer α)} {l : Layer α}
    {x : IOType α} {zs : List (IOType α)} (h : Chain (ls ++ [l]) x zs) :
    ∃ ys y prev, zs = ys ++ [y] ∧ Chain ls x ys ∧ (x :: ys).getLast? = some prev
      ∧ l.forward prev = some (.ok y) := by
  induction ls generalizing x zs with
  | nil => cases h with
    | cons h t => cases t; exact ⟨[], _, x, rfl, .nil _, rfl, h⟩
  | cons l' ls ih => cases h with
    | cons h t =>
      obtain ⟨ys, y, prev, rfl, h1, h2, h3⟩ := ih t
      exact ⟨_ :: ys, y, prev, rfl, .cons h h1, by rw [List.getLast?_cons_cons]; exact h2, h3⟩

/-- The gradient of a network from its chain of layers. -/
theorem net_gradient {n : Net (Cf w ℝ)} (hn : n.layers ≠ []) (f : LossFunc) {x : IOType (Cf w ℝ)}
    {ys : List (IOType (Cf w ℝ))} (hc : Chain n.layers x ys) {u : Nat} {a : Nat → Cf w ℝ}
    (hl : (x :: ys).getLast? = some (.scalar ((List.range u).map a)))
    (hr : ChainRight .full n.layers x ys (.vec u) a) (t : List (Cf w ℝ)) (ht : t.length = u) :
    ∃ gs, sampleGrads n f (x, .scalar t) = some gs ∧ IsNetGradient n x t gs := by
  have : Nonempty (Cf w ℝ) := ⟨0⟩
  obtain ⟨T, hT⟩ := exists_range_map t
  rw [ht] at hT
  subst hT
  obtain ⟨gs, h1, h2, h3⟩ := hr (fun k => Loss.dSqError (T k) (a k))
    (fun k => CplxOps.conj (Loss.dSqError (T k) (a k))) (fun _ _ => rfl)
  refine ⟨gs.reverse, ?_, h2, ?_⟩
  · unfold sampleGrads
    rw [(C44_collect n hn x _).mpr ⟨ys, hc, rfl⟩]
    simp only [Option.bind_eq_bind, Option.bind_some, unwrap]
    rw [List.head?_reverse, hl]
    have hd : CplxOps.dLoss f (IOType.scalar ((List.range u).map T))
        (IOType.scalar ((List.range u).map a))
        = Except.ok ((List.range u).map fun k => Loss.dSqError (T k) (a k)) := by
      have : Loss.dMeanSq ((List.range u).map T) ((List.range u).map a)
          = (List.range u).map fun k => Loss.dSqError (T k) (a k) := by
        unfold Loss.dMeanSq
        rw [zip_range_map, List.map_map]; rfl
      cases f <;> exact congrArg Except.ok this
    simp only [Option.bind_some, hd]
    rw [List.map_map]
    exact congrArg (Option.map List.reverse) h1
  · intro δs hδ
    obtain ⟨c, v, k1, -, k2, k3⟩ := h3 δs hδ
    refine ⟨fun s => sqSum ((List.range u).map T) ((List.range u).map fun k => Cf.ofC (c k s)),
      ?_, ?_⟩
    · filter_upwards [k2] with s hs
      obtain ⟨Y, e1, e2⟩ := hs
      cases Y with
      | matrix ms => exact absurd e2 id
      | scalar p =>
        have hp : p = (List.range u).map fun k => Cf.ofC (c k s) := e2
        subst hp
        refine ⟨_, ?_, rfl⟩
        rw [Net.forward_eq]
        · show Option.map _ ((List.zipWith _ n.layers δs).foldlM _ x) = _
          exact congrArg _ e1
        · intro h0
          have := hδ.length_eq
          have h4 : (List.zipWith (Layer.zipParams fun p d => Cf.ofC (p.toC + (s : ℂ) * d.toC))
            n.layers δs).length = 0 := by
            rw [show List.zipWith (Layer.zipParams fun p d => Cf.ofC (p.toC + (s : ℂ) * d.toC))
              n.layers δs = [] from h0]; rfl
          rw [List.length_zipWith, this, Nat.min_self] at h4
          exact hn (List.length_eq_zero_iff.mp h4)
    · simp only [sqSum_range, Cf.toC_ofC]
      rw [← k3]
      have : HasDerivAt (fun s => ∑ k ∈ Finset.range u, ‖(T k).toC - c k s‖ ^ 2)
          (∑ k ∈ Finset.range u, 2 * (conj (c k 0 - (T k).toC) * v k).re) 0 :=
        HasDerivAt.fun_sum fun k hk => hasDerivAt_sq_curve (k1 k (Finset.mem_range.mp hk)).1
      refine this.congr_deriv ?_
      rw [← Finset.mul_sum, Complex.re_sum]
      congr 1
      refine Finset.sum_congr rfl fun k hk => ?_
      rw [(k1 k (Finset.mem_range.mp hk)).2, Loss.dSqError, Cf.toC_conj, Cf.toC_sub]

/-- A layer of a fully connected network. -/
def Layer.DenseOrFlatten {α : Type} : Layer α → Prop
  | .dense _ => True
  | .flatten _ => True
  | _ => False

theorem zip_snoc {α : Type} (ls : List (Layer α)) (l : Layer α) (x prev y : IOType α)
    (ys : List (IOType α)) (hlen : ys.length = ls.length) (h2 : (x :: ys).getLast? = some prev) :
    (x :: (ys ++ [y])).zip (ls ++ [l]) = (x :: ys).zip ls ++ [(prev, l)] := by
  have e : x :: ys = (x :: ys).dropLast ++ [prev] := by
    rw [List.getLast?_eq_some_iff] at h2
    obtain ⟨t, ht⟩ := h2
    rw [ht]; simp
  have hd : (x :: ys).dropLast.length = ls.length := by simp [hlen]
  have e2 : (x :: ys).zip ls = (x :: ys).dropLast.zip ls := by
    conv_lhs => rw [e, ← List.append_nil ls]
    rw [List.zip_append hd]; simp
  rw [e2, ← List.cons_append]
  conv_lhs => rw [e]
  rw [List.append_assoc, List.zip_append hd]
  simp

theorem dense_chain {ls : List (Layer (Cf w ℝ))} (hw : ∀ l ∈ ls, l.WF)
    (hk : ∀ l ∈ ls, l.DenseOrFlatten) {x : IOType (Cf w ℝ)} {ys : List (IOType (Cf w ℝ))}
    (hc : Chain ls x ys) {σ : Size} (hx : x.HasSize σ)
    (hs : ∀ p ∈ (x :: ys).zip ls, p.2.ActsRight p.1) :
    ∃ σ' a y, (x :: ys).getLast? = some y ∧ y.HasFlat σ' a ∧ ChainRight .full ls x ys σ' a := by
  induction ls using List.reverseRecOn generalizing ys with
  | nil =>
    cases hc
    obtain ⟨a, ha⟩ := hx.exists_flat
    exact ⟨σ, a, x, rfl, ha, (ChainRight.nil ha).to_any.to_full⟩
  | append_singleton ls l ih =>
    obtain ⟨ys, y, prev, rfl, h1, h2, h3⟩ := hc.snoc_inv
    have hlen := h1.length
    rw [zip_snoc ls l x prev y ys hlen h2] at hs
    obtain ⟨σ', a, p, e1, e2, e3⟩ := ih (fun l hl => hw l (by simp [hl]))
      (fun l hl => hk l (by simp [hl])) h1 (fun p hp => hs p (by simp [hp]))
    rw [h2] at e1
    cases e1
    have hsl := hs (prev, l) (by simp)
    have hwl := hw l (by simp)
    have hkl := hk l (by simp)
    have hlast : (x :: (ys ++ [y])).getLast? = some y := by
      rw [← List.cons_append]; exact List.getLast?_eq_some_iff.mpr ⟨_, rfl⟩
    cases l with
    | conv l => exact absurd hkl id
    | reduce l => exact absurd hkl id
    | flatten l =>
      cases prev with
      | scalar v => simp [Layer.forward, Flatten.forward] at h3
      | matrix ms => cases σ' with
        | vec n => exact absurd e2 id
        | maps n r c =>
          simp only [Layer.forward] at h3
          rw [flatten_flat e2] at h3
          simp only [Option.some.injEq, Except.ok.injEq] at h3
          subst h3
          exact ⟨.vec (n * (r * c)), a, _, hlast, rfl, e3.snoc h2 (flatten_right .full)⟩
    | dense l =>
      obtain ⟨u, a', k1, k2⟩ := dense_right hwl e2 h3 hsl .full (.inl rfl)
      exact ⟨.vec u, a', y, hlast, k1, e3.snoc h2 k2⟩

/-- C48, the part that holds. For every network of dense and flatten layers, every input it forwards
and every target of the prediction's length: if the activation derivatives the code uses are right at
all values that occur, then back-propagation returns and its result is the gradient of the squared
error with respect to all weights and biases, whichever loss option is selected. (Missing: at values
where the code's activation derivative itself is wrong, see `C29_refuted_sigmoid`,
`C29_refuted_cardioid`, the result is wrong, see `C48_refuted`.) -/
theorem C48_partial (n : Net (Cf w ℝ)) (hn : n.layers ≠ []) (f : LossFunc)
    (hw : ∀ l ∈ n.layers, l.WF) (hk : ∀ l ∈ n.layers, l.DenseOrFlatten)
    (x : IOType (Cf w ℝ)) (σ : Size) (hx : x.HasSize σ) (acts : List (IOType (Cf w ℝ)))
    (ha : n.collectActs x = some (.ok acts)) (p t : List (Cf w ℝ))
    (hp : n.forward x = some (.ok (.scalar p))) (ht : t.length = p.length)
    (hs : ∀ q ∈ acts.zip n.layers, q.2.ActsRight q.1) :
    ∃ gs, sampleGrads n f (x, .scalar t) = some gs ∧ IsNetGradient n x t gs := by
  obtain ⟨ys, hc, he⟩ := (C44_collect n hn x _).mp ha
  cases he
  obtain ⟨σ', a, y, h1, h2, h3⟩ := dense_chain hw hk hc hx hs
  have hy : y = .scalar p := by
    obtain ⟨ys', y', hc', h4, h5⟩ := (C44_forward n hn x _).mp hp
    cases h5
    rw [hc.unique hc'] at h1
    cases ys' with
    | nil => cases h4
    | cons b ys' =>
      rw [List.getLast?_cons_cons, h4] at h1
      exact (Option.some.inj h1).symm
  subst hy
  cases σ' with
  | maps n r c => exact absurd h2 id
  | vec u =>
    have hpu : p = (List.range u).map a := h2
    subst hpu
    exact net_gradient hn f hc h1 h3 t (by simpa using ht)

/-- C48 for the activations whose derivatives are right wherever they exist: it is enough that the
activation is differentiable at the values that occur. -/
theorem C48_partial_differentiable (n : Net (Cf w ℝ)) (hn : n.layers ≠ []) (f : LossFunc)
    (hw : ∀ l ∈ n.layers, l.WF) (hk : ∀ l ∈ n.layers, l.DenseOrFlatten)
    (ho : ∀ l ∈ n.layers, l.act ≠ .ritSigmoid ∧ l.act ≠ .cardioid)
    (x : IOType (Cf w ℝ)) (σ : Size) (hx : x.HasSize σ) (acts : List (IOType (Cf w ℝ)))
    (ha : n.collectActs x = some (.ok acts)) (p t : List (Cf w ℝ))
    (hp : n.forward x = some (.ok (.scalar p))) (ht : t.length = p.length)
    (hs : ∀ q ∈ acts.zip n.layers, ∀ v, q.2.preActs q.1 = some v →
      ∀ z ∈ v, RunDifferentiableAt (Act.activate q.2.act) z) :
    ∃ gs, sampleGrads n f (x, .scalar t) = some gs ∧ IsNetGradient n x t gs :=
  C48_partial n hn f hw hk x σ hx acts ha p t hp ht fun q hq v hv z hz =>
    have hl := ho q.2 (List.of_mem_zip hq).2
    C29_partial _ hl.1 hl.2 z (hs q hq v hv z hz)

end Renplex
