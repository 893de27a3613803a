import Verif.Spec.Hidden
import Verif.Props.Dead
/-!
# Renumbering the units of a hidden layer
-/

namespace Renplex
variable {α P : Type} [CplxOps α P] [CommRing α] [LawfulOps α]

omit [CplxOps α P] [LawfulOps α] in
theorem sum_perm {σ : Equiv.Perm Nat} {u : Nat} (hσ : ∀ j, σ j < u ↔ j < u) (F : Nat → α) :
    ∑ i ∈ Finset.range u, F (σ i) = ∑ i ∈ Finset.range u, F i :=
  Finset.sum_equiv σ (by simp [hσ]) fun _ _ => rfl

/-! ## One dense layer -/

theorem Dense.forward_inv {l : Dense α} {u m : Nat} {W : Nat → Nat → α} {b : Nat → α} {f : ActFunc}
    (h : l.Is u m W b f) (hm : 0 < m) {x y : IOType α} (hf : l.forward x = some (.ok y)) :
    ∃ X Y : Nat → α, x = .scalar ((List.range m).map X) ∧ y = .scalar ((List.range u).map Y)
      ∧ ∀ j, j < u → CplxOps.activate f ((∑ i ∈ Finset.range m, W j i * X i) + b j) = some (Y j) := by
  have : Nonempty α := ⟨0⟩
  cases x with
  | matrix ms => cases hf
  | scalar v =>
    have hv : v.length = m := by
      by_contra hne
      rw [C38_wrong_length h v hne] at hf
      cases hf
    obtain ⟨X, hX⟩ := exists_range_map v
    rw [hv] at hX
    subst hX
    have hex : ∀ j, j < u → ∃ z, CplxOps.activate f ((∑ i ∈ Finset.range m, W j i * X i) + b j)
        = some z := by
      intro j hj
      cases hz : CplxOps.activate f ((∑ i ∈ Finset.range m, W j i * X i) + b j) with
      | some z => exact ⟨z, rfl⟩
      | none =>
        rw [C38_panic_activation h hm X j hj (by rw [dotN_sum, LawfulOps.addAssign_eq]; exact hz)] at hf
        cases hf
    choose! Y hY using hex
    rw [C38_forward_exact_partial h hm X Y hY] at hf
    cases hf
    exact ⟨X, Y, rfl, rfl, hY⟩

theorem Dense.derivatives_data {l : Dense α} {u m : Nat} {W : Nat → Nat → α}
    {b : Nat → α} {f : ActFunc} (h : l.Is u m W b f) (hm : 0 < m) {X : Nat → α}
    {D DC : List α} {r : Derivs α}
    (hr : ((Layer.dense l).computeDerivatives (.scalar ((List.range m).map X)) D DC >>= unwrap)
      = some r) :
    ∃ g gc d dc : Nat → α, D = (List.range u).map g ∧ DC = (List.range u).map gc
      ∧ (∀ j, j < u → CplxOps.dActivate f ((∑ i ∈ Finset.range m, W j i * X i) + b j) = some (d j))
      ∧ (∀ j, j < u → CplxOps.dConjActivate f ((∑ i ∈ Finset.range m, W j i * X i) + b j) = some (dc j))
      ∧ r = (table u m (fun j i => X i * (d j * g j + CplxOps.conj (dc j) * gc j)),
          (List.range u).map (fun j => d j * g j + CplxOps.conj (dc j) * gc j),
          (List.range m).map (fun i => ∑ j ∈ Finset.range u,
            W j i * (d j * g j + CplxOps.conj (dc j) * gc j)),
          ((List.range m).map (fun i => ∑ j ∈ Finset.range u,
            W j i * (d j * g j + CplxOps.conj (dc j) * gc j))).map CplxOps.conj) := by
  have : Nonempty α := ⟨0⟩
  have hr' : (l.computeDerivatives (.scalar ((List.range m).map X)) D DC >>= unwrap) = some r := hr
  have hD : D.length = u := by
    by_contra hne
    unfold Dense.computeDerivatives at hr'
    rw [if_pos (by rw [h.1.1]; exact hne)] at hr'
    cases hr'
  have hDC : DC.length = u := by
    by_contra hne
    unfold Dense.computeDerivatives at hr'
    rw [if_neg (by rw [h.1.1]; simpa using hD), if_pos (by rw [h.1.1]; exact hne)] at hr'
    cases hr'
  obtain ⟨g, hg⟩ := exists_range_map D
  obtain ⟨gc, hgc⟩ := exists_range_map DC
  rw [hD] at hg
  rw [hDC] at hgc
  have hex : ∀ j, j < u → ∃ d, CplxOps.dActivate f ((∑ i ∈ Finset.range m, W j i * X i) + b j)
      = some d := by
    intro j hj
    cases hv : CplxOps.dActivate f ((∑ i ∈ Finset.range m, W j i * X i) + b j) with
    | some d => exact ⟨d, rfl⟩
    | none =>
      exfalso
      unfold Dense.computeDerivatives at hr'
      rw [if_neg (by rw [h.1.1]; simpa using hD), if_neg (by rw [h.1.1]; simpa using hDC)] at hr'
      simp only [Dense.computeQ_is h hm, Option.bind_eq_bind, Option.bind_some, hg, zip_range_map,
        mapM_map', h.2.2, dotN_sum, LawfulOps.addAssign_eq] at hr'
      rw [mapM_eq_none_of _ _ j (List.mem_range.mpr hj) (by simp [hv])] at hr'
      cases hr'
  have hexc : ∀ j, j < u → ∃ d, CplxOps.dConjActivate f ((∑ i ∈ Finset.range m, W j i * X i) + b j)
      = some d := by
    intro j hj
    cases hv : CplxOps.dConjActivate f ((∑ i ∈ Finset.range m, W j i * X i) + b j) with
    | some d => exact ⟨d, rfl⟩
    | none =>
      exfalso
      unfold Dense.computeDerivatives at hr'
      rw [if_neg (by rw [h.1.1]; simpa using hD), if_neg (by rw [h.1.1]; simpa using hDC)] at hr'
      simp only [Dense.computeQ_is h hm, Option.bind_eq_bind, Option.bind_some, hg, hgc,
        zip_range_map, mapM_map', h.2.2, dotN_sum, LawfulOps.addAssign_eq] at hr'
      obtain ⟨q, hq, hr'⟩ := Option.bind_eq_some_iff.mp hr'
      obtain ⟨q', hq', hr''⟩ := Option.bind_eq_some_iff.mp hq
      rw [mapM_eq_none_of _ _ j (List.mem_range.mpr hj) (by simp [hv])] at hr''
      cases hr''
  choose! d hd using hex
  choose! dc hdc using hexc
  refine ⟨g, gc, d, dc, hg, hgc, hd, hdc, ?_⟩
  rw [hg, hgc, Dense.computeDerivatives_is h hm X g gc d dc hd hdc] at hr'
  cases hr'
  rfl

omit [CommRing α] [LawfulOps α] in
theorem Chain.append {a b : List (Layer α)} {x y : IOType α} {ys ws : List (IOType α)}
    (h : Chain a x ys) (hy : (x :: ys).getLast? = some y) (h' : Chain b y ws) :
    Chain (a ++ b) x (ys ++ ws) := by
  induction h with
  | nil => cases hy; exact h'
  | cons h _ ih => exact .cons h (ih (by simpa using hy))

/-- The two layers compute the same with renumbered units in between. -/
theorem pair_forward {σ : Equiv.Perm Nat} {u m v : Nat} (hσ : ∀ j, σ j < u ↔ j < u) (hu : 0 < u)
    (hm : 0 < m) {a a' b b' : Dense α} {W V : Nat → Nat → α} {c d : Nat → α} {f g : ActFunc}
    (ha : a.Is u m W c f) (ha' : a'.Is u m (fun j i => W (σ j) i) (fun j => c (σ j)) f)
    (hb : b.Is v u V d g) (hb' : b'.Is v u (fun j i => V j (σ i)) d g) {x h y : IOType α}
    (h1 : a.forward x = some (.ok h)) (h2 : b.forward h = some (.ok y)) :
    ∃ X H : Nat → α, x = .scalar ((List.range m).map X) ∧ h = .scalar ((List.range u).map H)
      ∧ a'.forward x = some (.ok (.scalar ((List.range u).map fun j => H (σ j))))
      ∧ b'.forward (.scalar ((List.range u).map fun j => H (σ j))) = some (.ok y) := by
  obtain ⟨X, H, rfl, rfl, e1⟩ := Dense.forward_inv ha hm h1
  obtain ⟨H', Y, e2, rfl, e3⟩ := Dense.forward_inv hb hu h2
  have e : ∀ i, i < u → H i = H' i := by
    intro i hi
    rw [IOType.scalar.injEq] at e2
    have := congrArg (fun q => q[i]?) e2
    simpa [hi] using this
  refine ⟨X, H, rfl, rfl, ?_, ?_⟩
  · exact C38_forward_exact_partial ha' hm X _ fun j hj => e1 (σ j) ((hσ j).mpr hj)
  · refine C38_forward_exact_partial hb' hu _ Y fun j hj => ?_
    rw [sum_perm hσ (fun i => V j i * H i),
      Finset.sum_congr rfl fun i hi => by rw [e i (Finset.mem_range.mp hi)]]
    exact e3 j hj

/-- The renumbering of a vector of derivatives of the two layers. -/
def VecPerm (σ : Equiv.Perm Nat) (k u m v : Nat) (gs gs' : List (LayerVec α)) : Prop :=
  ∃ (G1 G2 : List (LayerVec α)) (A : Nat → Nat → α) (s : Nat → α) (B : Nat → Nat → α) (t : List α),
    G1.length = k
    ∧ gs = G1 ++ (table u m A, (List.range u).map s) :: (table v u B, t) :: G2
    ∧ gs' = G1 ++ (table u m (fun j i => A (σ j) i), (List.range u).map fun j => s (σ j))
        :: (table v u (fun j i => B j (σ i)), t) :: G2

omit [CommRing α] [LawfulOps α] in
theorem backGrads_replace {C C' : List (IOType α × Layer α)}
    {Rel : List (LayerVec α) → List (LayerVec α) → Prop}
    (hR : ∀ d dc gs, backGrads C d dc = some gs → ∃ gs', backGrads C' d dc = some gs' ∧ Rel gs gs')
    (B : List (IOType α × Layer α)) {d dc : List α} {gs : List (LayerVec α)}
    (h : backGrads (B ++ C) d dc = some gs) :
    ∃ g1 g2 g2', gs = g1 ++ g2 ∧ backGrads (B ++ C') d dc = some (g1 ++ g2') ∧ Rel g2 g2' := by
  induction B generalizing d dc gs with
  | nil =>
    obtain ⟨gs', h1, h2⟩ := hR d dc gs h
    exact ⟨[], gs, gs', rfl, h1, h2⟩
  | cons p B ih =>
    obtain ⟨pv, l⟩ := p
    simp only [List.cons_append, backGrads] at h ⊢
    split at h
    · rename_i hp
      obtain ⟨r, h1, h⟩ := Option.bind_eq_some_iff.mp h
      obtain ⟨gs1, h2, rfl⟩ := Option.map_eq_some_iff.mp h
      obtain ⟨g1, g2, g2', rfl, k2, k3⟩ := ih h2
      exact ⟨(r.1, r.2.1) :: g1, g2, g2', rfl, by rw [if_pos hp, h1]; simp [k2], k3⟩
    · rename_i hp
      obtain ⟨gs1, h2, rfl⟩ := Option.map_eq_some_iff.mp h
      obtain ⟨g1, g2, g2', rfl, k2, k3⟩ := ih h2
      exact ⟨([], []) :: g1, g2, g2', rfl, by rw [if_neg hp]; simp [k2], k3⟩

/-- What comes back through the two layers. -/
theorem pair_back {σ : Equiv.Perm Nat} {u m v : Nat} (hσ : ∀ j, σ j < u ↔ j < u) (hu : 0 < u)
    (hm : 0 < m) {a a' b b' : Dense α} {W V : Nat → Nat → α} {c d : Nat → α} {f g : ActFunc}
    (ha : a.Is u m W c f) (ha' : a'.Is u m (fun j i => W (σ j) i) (fun j => c (σ j)) f)
    (hb : b.Is v u V d g) (hb' : b'.Is v u (fun j i => V j (σ i)) d g) (X H : Nat → α)
    (A : List (IOType α × Layer α)) (D DC : List α) (gs : List (LayerVec α))
    (h : backGrads ((.scalar ((List.range u).map H), .dense b)
      :: (.scalar ((List.range m).map X), .dense a) :: A) D DC = some gs) :
    ∃ gs', backGrads ((.scalar ((List.range u).map fun j => H (σ j)), .dense b')
        :: (.scalar ((List.range m).map X), .dense a') :: A) D DC = some gs'
      ∧ ∃ g2 F s B t, gs = (table v u B, t) :: (table u m F, (List.range u).map s) :: g2
        ∧ gs' = (table v u (fun j i => B j (σ i)), t)
          :: (table u m (fun j i => F (σ j) i), (List.range u).map fun j => s (σ j)) :: g2
        ∧ g2.length = A.length := by
  have hp : ∀ l : Dense α, (Layer.dense l).propagates = true := fun _ => rfl
  simp only [backGrads, hp, if_true] at h ⊢
  obtain ⟨r, h1, h⟩ := Option.bind_eq_some_iff.mp h
  obtain ⟨gs1, h2, rfl⟩ := Option.map_eq_some_iff.mp h
  obtain ⟨q, h3, h2⟩ := Option.bind_eq_some_iff.mp h2
  obtain ⟨g2, h4, rfl⟩ := Option.map_eq_some_iff.mp h2
  obtain ⟨γ, γc, δ, δc, rfl, rfl, d1, d2, rfl⟩ := Dense.derivatives_data hb hu h1
  obtain ⟨η, ηc, ε, εc, e1, e2, d3, d4, rfl⟩ := Dense.derivatives_data ha hm h3
  have f1 := Dense.computeDerivatives_is hb' hu (fun j => H (σ j)) γ γc δ δc
    (fun j hj => by rw [sum_perm hσ (fun i => V j i * H i)]; exact d1 j hj)
    (fun j hj => by rw [sum_perm hσ (fun i => V j i * H i)]; exact d2 j hj)
  have f2 := Dense.computeDerivatives_is ha' hm X (fun j => η (σ j)) (fun j => ηc (σ j))
    (fun j => ε (σ j)) (fun j => εc (σ j)) (fun j hj => d3 (σ j) ((hσ j).mpr hj))
    (fun j hj => d4 (σ j) ((hσ j).mpr hj))
  have p1 : (List.range u).map (fun i => ∑ j ∈ Finset.range v,
      V j (σ i) * (δ j * γ j + CplxOps.conj (δc j) * γc j)) = (List.range u).map fun j => η (σ j) := by
    apply List.map_congr_left
    intro i hi
    have := congrArg (fun q => q[σ i]?) e1
    simpa [(hσ i).mpr (List.mem_range.mp hi)] using this
  have p2 : ((List.range u).map (fun i => ∑ j ∈ Finset.range v,
      V j (σ i) * (δ j * γ j + CplxOps.conj (δc j) * γc j))).map CplxOps.conj
        = (List.range u).map fun j => ηc (σ j) := by
    rw [List.map_map]
    apply List.map_congr_left
    intro i hi
    have := congrArg (fun q => q[σ i]?) e2
    simpa [(hσ i).mpr (List.mem_range.mp hi)] using this
  refine ⟨_, ?_, g2, _, _, _, _, rfl, rfl, backGrads_length h4⟩
  rw [show (Layer.dense b').computeDerivatives = b'.computeDerivatives from rfl, f1]
  simp only [Option.bind_eq_bind, Option.bind_some, unwrap]
  rw [p2, p1, show (Layer.dense a').computeDerivatives = a'.computeDerivatives from rfl, f2]
  simp only [Option.bind_some, unwrap]
  have p3 : ∀ i, ∑ j ∈ Finset.range u, W (σ j) i * (ε (σ j) * η (σ j) + CplxOps.conj (εc (σ j)) * ηc (σ j))
      = ∑ j ∈ Finset.range u, W j i * (ε j * η j + CplxOps.conj (εc j) * ηc j) :=
    fun i => sum_perm hσ fun j => W j i * (ε j * η j + CplxOps.conj (εc j) * ηc j)
  simp only [p3]
  rw [h4]
  rfl

/-! ## The network -/

omit [CommRing α] [LawfulOps α] in
/-- The activations and layers in the order of back-propagation. -/
theorem acts_zip {n : Net α} {pre L : List (Layer α)} (hn : n.layers = pre ++ L) {x prev : IOType α}
    {ys vs as : List (IOType α)} (h1 : x :: ys = as ++ [prev]) (h2 : as.length = pre.length)
    (h3 : vs.length = L.length) (h4 : vs ≠ []) :
    (x :: (ys ++ vs)).reverse.tail.zip n.layers.reverse
      = ((prev :: vs).dropLast.reverse.zip L.reverse) ++ as.reverse.zip pre.reverse := by
  have e1 : (x :: (ys ++ vs)).reverse.tail = (prev :: vs).dropLast.reverse ++ as.reverse := by
    rw [List.tail_reverse, ← List.cons_append, h1, List.append_assoc,
      List.dropLast_append_of_ne_nil (by simp)]
    simp
  rw [e1, hn, List.reverse_append, List.zip_append (by simp [h3])]

theorem hidden_sample {σ : Equiv.Perm Nat} {n n' : Net α} {pre post : List (Layer α)}
    {a a' b b' : Dense α} {u m v : Nat} {W V : Nat → Nat → α} {c d : Nat → α} {f g : ActFunc}
    (hσ : ∀ j, σ j < u ↔ j < u) (hu : 0 < u) (hm : 0 < m)
    (hn : n.layers = pre ++ .dense a :: .dense b :: post)
    (hn' : n'.layers = pre ++ .dense a' :: .dense b' :: post)
    (ha : a.Is u m W c f) (ha' : a'.Is u m (fun j i => W (σ j) i) (fun j => c (σ j)) f)
    (hb : b.Is v u V d g) (hb' : b'.Is v u (fun j i => V j (σ i)) d g) (lf : LossFunc)
    (p : IOType α × IOType α) {gs : List (LayerVec α)} (h : sampleGrads n lf p = some gs) :
    ∃ gs', sampleGrads n' lf p = some gs' ∧ VecPerm σ pre.length u m v gs gs' := by
  unfold sampleGrads at h ⊢
  obtain ⟨acts, hac, h⟩ := Option.bind_eq_some_iff.mp h
  obtain ⟨pred, h1, h⟩ := Option.bind_eq_some_iff.mp h
  obtain ⟨dl, hd, h⟩ := Option.bind_eq_some_iff.mp h
  obtain ⟨gs0, hbk, rfl⟩ := Option.map_eq_some_iff.mp h
  obtain ⟨r0, h2, h3⟩ := Option.bind_eq_some_iff.mp hac
  obtain ⟨zs, hc, rfl⟩ := (C44_collect n (by rw [hn]; simp) _ r0).mp h2
  cases h3
  rw [hn] at hc
  obtain ⟨ys, ws, as, prev, rfl, c1, c2, c3, c4⟩ := hc.append_inv
  cases c4 with
  | @cons _ _ _ hh _ q1 t =>
  cases t with
  | @cons _ _ _ y ws q2 t =>
    obtain ⟨X, H, rfl, rfl, q3, q4⟩ := pair_forward hσ hu hm ha ha' hb hb' q1 q2
    have hlast : (p.1 :: ys).getLast? = some (.scalar ((List.range m).map X)) := by rw [c2]; simp
    have hc' : Chain n'.layers p.1
        (ys ++ .scalar ((List.range u).map fun j => H (σ j)) :: y :: ws) := by
      rw [hn']
      exact c1.append hlast (.cons q3 (.cons q4 t))
    have hlen := t.length
    rw [acts_zip hn c2 c3 (by simp [hlen]) (by simp)] at hbk
    have hca : (n'.collectActs p.1 >>= unwrap)
        = some (p.1 :: (ys ++ .scalar ((List.range u).map fun j => H (σ j)) :: y :: ws)) := by
      rw [(C44_collect n' (by rw [hn']; simp) p.1 _).mpr ⟨_, hc', rfl⟩]
      rfl
    rw [hca]
    simp only [Option.bind_eq_bind, Option.bind_some]
    have hh : (p.1 :: (ys ++ IOType.scalar ((List.range u).map fun j => H (σ j)) :: y :: ws)).reverse.head?
        = some pred := by
      rw [← h1]
      simp only [List.head?_reverse]
      rw [← List.cons_append, ← List.cons_append, List.getLast?_append_of_ne_nil _ (by simp),
        List.getLast?_append_of_ne_nil _ (by simp)]
      simp
    rw [hh, acts_zip hn' c2 c3 (by simp [hlen]) (by simp)]
    simp only [Option.bind_some, hd]
    have key : ∀ (z z' : IOType α) (l l' : Layer α), ((z :: z' :: y :: ws).dropLast.reverse.zip
        (l :: l' :: post).reverse) ++ as.reverse.zip pre.reverse
        = ((y :: ws).dropLast.reverse.zip post.reverse) ++ (z', l') :: (z, l)
          :: as.reverse.zip pre.reverse := by
      intro z z' l l'
      rw [List.dropLast_cons_of_ne_nil (by simp), List.dropLast_cons_of_ne_nil (by simp)]
      simp only [List.reverse_cons, List.append_assoc]
      rw [List.zip_append (by simp [hlen])]
      simp
    rw [key] at hbk
    rw [key]
    obtain ⟨g1, g2, g2', rfl, k2, e⟩ := backGrads_replace
      (Rel := fun gs gs' => ∃ g2 F s B t, gs = (table v u B, t) :: (table u m F, (List.range u).map s) :: g2
        ∧ gs' = (table v u (fun j i => B j (σ i)), t)
          :: (table u m (fun j i => F (σ j) i), (List.range u).map fun j => s (σ j)) :: g2
        ∧ g2.length = (as.reverse.zip pre.reverse).length)
      (fun D DC gs h => pair_back hσ hu hm ha ha' hb hb' X H _ D DC gs h) _ hbk
    obtain ⟨g3, F, s, B, t', rfl, rfl, e3⟩ := e
    refine ⟨_, by rw [k2]; rfl, g3.reverse, g1.reverse, F, s, B, t', ?_, by simp, by simp⟩
    rw [List.length_reverse, e3, List.length_zip, List.length_reverse, List.length_reverse, c3,
      Nat.min_self]

omit [CplxOps α P] [LawfulOps α] in
theorem VecPerm.add {σ : Equiv.Perm Nat} {k u m v : Nat} {x x' y y' : List (LayerVec α)}
    (h : VecPerm σ k u m v x x') (h' : VecPerm σ k u m v y y') :
    VecPerm σ k u m v (List.zipWith LayerVec.add x y) (List.zipWith LayerVec.add x' y') := by
  obtain ⟨G1, G2, A, s, B, t, e1, rfl, rfl⟩ := h
  obtain ⟨K1, K2, A', s', B', t', e1', rfl, rfl⟩ := h'
  refine ⟨List.zipWith LayerVec.add G1 K1, List.zipWith LayerVec.add G2 K2, fun j i => A j i + A' j i,
    fun j => s j + s' j, fun j i => B j i + B' j i, List.zipWith (· + ·) t t', by simp [e1, e1'], ?_, ?_⟩
  · rw [List.zipWith_append (e1.trans e1'.symm)]
    simp only [List.zipWith_cons_cons, LayerVec.add, table_zipWith, List.zipWith_map, List.zipWith_self]
  · rw [List.zipWith_append (e1.trans e1'.symm)]
    simp only [List.zipWith_cons_cons, LayerVec.add, table_zipWith, List.zipWith_map, List.zipWith_self]

omit [CplxOps α P] [LawfulOps α] in
theorem zero_dense {l : Dense α} {u m : Nat} {W : Nat → Nat → α} {b : Nat → α} {f : ActFunc}
    (hl : l.Is u m W b f) :
    LayerVec.zero (.dense l) = (table u m fun _ _ => (0 : α), (List.range u).map fun _ => 0) := by
  unfold LayerVec.zero
  rw [if_pos (by rfl)]
  have e1 : (Layer.dense l).paramsLen = (u * m, u) := by
    show (l.weights.shape.1 * l.weights.shape.2, l.biases.length) = _
    rw [hl.1.1, hl.2.1]; simp
  rw [e1, range_map_const]
  congr 1
  symm
  rw [List.eq_replicate_iff]
  refine ⟨table_length _ _ _, ?_⟩
  intro x hx
  simp only [table, List.mem_flatMap, List.mem_map] at hx
  obtain ⟨_, _, _, _, rfl⟩ := hx
  rfl

omit [CplxOps α P] [LawfulOps α] in
theorem hidden_zero {σ : Equiv.Perm Nat} {n n' : Net α} {pre post : List (Layer α)}
    {a a' b b' : Dense α} {u m v : Nat} {W V : Nat → Nat → α} {c d : Nat → α} {f g : ActFunc}
    (hn : n.layers = pre ++ .dense a :: .dense b :: post)
    (hn' : n'.layers = pre ++ .dense a' :: .dense b' :: post)
    (ha : a.Is u m W c f) (ha' : a'.Is u m (fun j i => W (σ j) i) (fun j => c (σ j)) f)
    (hb : b.Is v u V d g) (hb' : b'.Is v u (fun j i => V j (σ i)) d g) :
    VecPerm σ pre.length u m v (n.layers.map LayerVec.zero) (n'.layers.map LayerVec.zero) := by
  refine ⟨pre.map LayerVec.zero, post.map LayerVec.zero, fun _ _ => 0, fun _ => 0, fun _ _ => 0,
    (List.range v).map fun _ => 0, by simp, ?_, ?_⟩
  · rw [hn, List.map_append, List.map_cons, List.map_cons, zero_dense ha, zero_dense hb]
  · rw [hn', List.map_append, List.map_cons, List.map_cons, zero_dense ha', zero_dense hb']

omit [CplxOps α P] [LawfulOps α] in
theorem hidden_sum {σ : Equiv.Perm Nat} {k u m v : Nat} {gss gss' : List (List (LayerVec α))}
    (h : List.Forall₂ (VecPerm σ k u m v) gss gss') {acc acc' : List (LayerVec α)}
    (h0 : VecPerm σ k u m v acc acc') : VecPerm σ k u m v (gss.foldl (List.zipWith LayerVec.add) acc)
      (gss'.foldl (List.zipWith LayerVec.add) acc') := by
  induction h generalizing acc acc' with
  | nil => exact h0
  | cons h _ ih => exact ih (h0.add h)

omit [CplxOps α P] [LawfulOps α] [CommRing α] in
theorem Dense.zipParams_is {l : Dense α} {u m : Nat} {W A : Nat → Nat → α} {b s : Nat → α} {f : ActFunc}
    (h : l.Is u m W b f) (upd : α → α → α) :
    ∃ l', Layer.zipParams upd (.dense l) (table u m A, (List.range u).map s) = .dense l'
      ∧ l'.Is u m (fun j i => upd (W j i) (A j i)) (fun j => upd (b j) (s j)) f := by
  refine ⟨_, rfl, ⟨h.1.1, ?_⟩, ?_, h.2.2⟩
  · show List.zipWith upd l.weights.body (table u m A) = _
    rw [h.1.2, table_zipWith]
  · show List.zipWith upd l.biases _ = _
    rw [h.2.1, List.zipWith_map, List.zipWith_self]

omit [CplxOps α P] [LawfulOps α] in
theorem hidden_update {σ : Equiv.Perm Nat} {n n' : Net α} {pre post : List (Layer α)}
    {a a' b b' : Dense α} {u m v : Nat} {W V : Nat → Nat → α} {c d : Nat → α} {f g : ActFunc}
    (hσ : ∀ j, σ j < u ↔ j < u) (hu : 0 < u) (hm : 0 < m)
    (hn : n.layers = pre ++ .dense a :: .dense b :: post)
    (hn' : n'.layers = pre ++ .dense a' :: .dense b' :: post)
    (ha : a.Is u m W c f) (ha' : a'.Is u m (fun j i => W (σ j) i) (fun j => c (σ j)) f)
    (hb : b.Is v u V d g) (hb' : b'.Is v u (fun j i => V j (σ i)) d g) (upd : α → α → α)
    {G G' : List (LayerVec α)} (hG : VecPerm σ pre.length u m v G G')
    (hf : List.Forall₂ LayerVec.Fits G n.layers) :
    HiddenPerm σ pre.length u (n.zipParams upd G) (n'.zipParams upd G')
      ∧ List.Forall₂ LayerVec.Fits G' n'.layers := by
  have : Nonempty α := ⟨0⟩
  obtain ⟨G1, G2, A, s, B, t, e1, rfl, rfl⟩ := hG
  rw [hn] at hf
  obtain ⟨K1, K2, hK, f1, f2⟩ := forall₂_append_inv hf.flip
  have hlen : K1.length = G1.length := by rw [← f1.length_eq, e1]
  obtain ⟨rfl, rfl⟩ := List.append_inj hK hlen.symm
  cases f2 with
  | cons f2 f3 =>
  cases f3 with
  | cons f3 f4 =>
    have f3' : LayerVec.Fits (table v u B, t) (.dense b) := f3
    have ht : t.length = v := by
      unfold LayerVec.Fits at f3'
      rw [if_pos (by rfl)] at f3'
      rw [f3'.2]; show b.biases.length = v; rw [hb.2.1]; simp
    obtain ⟨τ, hτ⟩ := exists_range_map t
    rw [ht] at hτ
    subst hτ
    obtain ⟨l1, k1, i1⟩ := Dense.zipParams_is ha (A := A) (s := s) upd
    obtain ⟨l2, k2, i2⟩ := Dense.zipParams_is hb (A := B) (s := τ) upd
    obtain ⟨l3, k3, i3⟩ := Dense.zipParams_is ha' (A := fun j i => A (σ j) i) (s := fun j => s (σ j)) upd
    obtain ⟨l4, k4, i4⟩ := Dense.zipParams_is hb' (A := fun j i => B j (σ i)) (s := τ) upd
    refine ⟨⟨hσ, hu, List.zipWith (Layer.zipParams upd) pre G1, l1, l3, l2, l4,
      List.zipWith (Layer.zipParams upd) post G2, m, v, _, _, f, _, _, g, by simp [e1], hm, ?_, ?_,
      i1, i3, i2, i4⟩, ?_⟩
    · show List.zipWith _ n.layers _ = _
      rw [hn, List.zipWith_append e1.symm, List.zipWith_cons_cons, List.zipWith_cons_cons, k1, k2]
    · show List.zipWith _ n'.layers _ = _
      rw [hn', List.zipWith_append e1.symm, List.zipWith_cons_cons, List.zipWith_cons_cons, k3, k4]
    · rw [hn']
      have fit : ∀ {l : Dense α} {u m : Nat} {W : Nat → Nat → α} {b : Nat → α} {f : ActFunc}
          (F : Nat → Nat → α) (s : Nat → α), l.Is u m W b f →
          LayerVec.Fits (table u m F, (List.range u).map s) (.dense l) := by
        intro l u m W b f F s hl
        unfold LayerVec.Fits
        rw [if_pos (by rfl)]
        constructor
        · rw [table_length]; show _ = l.weights.shape.1 * l.weights.shape.2; rw [hl.1.1]
        · show _ = l.biases.length; rw [hl.2.1]; simp
      exact List.rel_append f1.flip (.cons (fit _ _ ha') (.cons (fit _ _ hb') f4.flip))

omit [CplxOps α P] [LawfulOps α] [CommRing α] in
theorem HiddenPerm.wf {σ : Equiv.Perm Nat} {k u : Nat} {n n' : Net α} (h : HiddenPerm σ k u n n')
    (hw : ∀ l ∈ n.layers, l.WF) : ∀ l ∈ n'.layers, l.WF := by
  obtain ⟨-, -, pre, a, a', b, b', post, m, v, W, c, f, V, d, g, -, -, hn, hn', -, ha', -, hb'⟩ := h
  rw [hn] at hw
  rw [hn']
  have key : ∀ {l : Dense α} {u m : Nat} {W : Nat → Nat → α} {b : Nat → α} {f : ActFunc},
      l.Is u m W b f → (Layer.dense l).WF := by
    intro l u m W b f hl
    exact ⟨hl.1.rect, by rw [hl.2.1, hl.1.1]; simp⟩
  intro l hl
  simp only [List.mem_append, List.mem_cons] at hl
  rcases hl with hl | rfl | rfl | hl
  · exact hw l (by simp [hl])
  · exact key ha'
  · exact key hb'
  · exact hw l (by simp [hl])

omit [CplxOps α P] [LawfulOps α] [CommRing α] in
theorem HiddenPerm.symm {σ : Equiv.Perm Nat} {k u : Nat} {n n' : Net α} (h : HiddenPerm σ k u n n') :
    HiddenPerm σ.symm k u n' n := by
  obtain ⟨hσ, hu, pre, a, a', b, b', post, m, v, W, c, f, V, d, g, hk, hm, hn, hn', ha, ha', hb, hb'⟩ := h
  refine ⟨fun j => ?_, hu, pre, a', a, b', b, post, m, v, _, _, f, _, _, g, hk, hm, hn', hn, ha', ?_, hb', ?_⟩
  · rw [← hσ (σ.symm j), Equiv.apply_symm_apply]
  · simpa only [Equiv.apply_symm_apply] using ha
  · simpa only [Equiv.apply_symm_apply] using hb

theorem hidden_step {σ : Equiv.Perm Nat} {k u : Nat} {n n' : Net α} (h : HiddenPerm σ k u n n')
    (hw : ∀ l ∈ n.layers, l.WF) {data : Dataset α} {lf : LossFunc} {lr : α} {r : Except ForwardErr Unit}
    {n1 : Net α} (hg : n.gradientOpt data lf lr = some (r, n1)) :
    ∃ n1', n'.gradientOpt data lf lr = some (r, n1') ∧ HiddenPerm σ k u n1 n1' := by
  have hw' := h.wf hw
  obtain ⟨hσ, hu, pre, a, a', b, b', post, m, v, W, c, f, V, d, g, rfl, hm, hn, hn', ha, ha', hb, hb'⟩ := h
  obtain ⟨rfl, gss, scale, h1, h2, rfl⟩ := (C50_step n n1 (by rw [hn]; simp; omega) hw data lf lr r).mp hg
  have hss : ∃ gss', List.Forall₂ (fun p gs => sampleGrads n' lf p = some gs) data.points gss'
      ∧ List.Forall₂ (VecPerm σ pre.length u m v) gss gss' := by
    clear hg
    generalize data.points = pts at h1
    induction h1 with
    | nil => exact ⟨[], .nil, .nil⟩
    | @cons p gs pts gss hp _ ih =>
      obtain ⟨gss', i1, i2⟩ := ih
      obtain ⟨gs', k1, k2⟩ := hidden_sample hσ hu hm hn hn' ha ha' hb hb' lf p hp.1
      exact ⟨gs' :: gss', .cons k1 i1, .cons k2 i2⟩
  obtain ⟨gss', j1, j2⟩ := hss
  have hfit := sumGrads_fits n gss fun gs hgs => by
    obtain ⟨p, -, hp⟩ := forall₂_mem_right h1 gs hgs
    exact hp.2
  obtain ⟨q1, -⟩ := hidden_update hσ hu hm hn hn' ha ha' hb hb'
    (fun p d => p - CplxOps.conj (BasicOps.mulAssign d scale))
    (hidden_sum j2 (hidden_zero hn hn' ha ha' hb hb')) hfit
  refine ⟨_, (C50_step n' _ (by rw [hn']; simp; omega) hw' data lf lr (.ok ())).mpr
    ⟨rfl, gss', scale, ?_, h2, rfl⟩, q1⟩
  have hfits : List.Forall₂ (fun gs gs' => List.Forall₂ LayerVec.Fits gs n.layers →
      List.Forall₂ LayerVec.Fits gs' n'.layers) gss gss' :=
    j2.imp fun gs gs' hv hf => (hidden_update hσ hu hm hn hn' ha ha' hb hb' (fun p _ => p) hv hf).2
  clear hg q1 hfit
  generalize data.points = pts at h1 j1
  clear j2
  induction h1 generalizing gss' with
  | nil => cases hfits; exact .nil
  | cons hp _ ih =>
    cases hfits with
    | cons f1 f2 =>
    cases j1 with
    | cons j1 j2 => exact .cons ⟨j1, f1 hp.2⟩ (ih _ f2 j2)

/-- C96. Renumbering the units of a hidden dense layer does not change what the network predicts:
for every input both return the same or both panic. -/
theorem C96_forward {σ : Equiv.Perm Nat} {k u : Nat} (n n' : Net α) (h : HiddenPerm σ k u n n')
    (x : IOType α) : n'.forward x = n.forward x := by
  have key : ∀ {τ : Equiv.Perm Nat} {n n' : Net α}, HiddenPerm τ k u n n' → ∀ r, n.forward x = some r →
      n'.forward x = some r := by
    intro τ n n' h r hr
    obtain ⟨hσ, hu, pre, a, a', b, b', post, m, v, W, c, f, V, d, g, -, hm, hn, hn', ha, ha', hb, hb'⟩ := h
    obtain ⟨zs, y, hc, hy, rfl⟩ := (C44_forward n (by rw [hn]; simp) x r).mp hr
    rw [hn] at hc
    obtain ⟨ys, ws, as, prev, rfl, c1, c2, c3, c4⟩ := hc.append_inv
    cases c4 with
    | @cons _ _ _ hh _ q1 t =>
    cases t with
    | @cons _ _ _ y' ws q2 t =>
      obtain ⟨X, H, rfl, rfl, q3, q4⟩ := pair_forward hσ hu hm ha ha' hb hb' q1 q2
      have hlast : (x :: ys).getLast? = some (.scalar ((List.range m).map X)) := by rw [c2]; simp
      refine (C44_forward n' (by rw [hn']; simp) x _).mpr
        ⟨ys ++ .scalar ((List.range u).map fun j => H (τ j)) :: y' :: ws, y, ?_, ?_, rfl⟩
      · rw [hn']
        exact c1.append hlast (.cons q3 (.cons q4 t))
      · rw [← hy, List.getLast?_append_of_ne_nil _ (by simp), List.getLast?_append_of_ne_nil _ (by simp)]
        simp
  cases hr : n.forward x with
  | some r => exact key h r hr
  | none =>
    cases hr' : n'.forward x with
    | none => rfl
    | some r => rw [key h.symm r hr'] at hr; cases hr

/-- C96. So the losses and accuracies of the two networks are the same too, and they panic on the same
data. -/
theorem C96_measures [RealOps P] {σ : Equiv.Perm Nat} {k u : Nat} (n n' : Net α)
    (h : HiddenPerm σ k u n n') (data : Dataset α) :
    (∀ lf, n'.loss data lf = n.loss data lf) ∧ n'.maxPredTest data = n.maxPredTest data := by
  constructor
  · intro lf
    unfold Net.loss
    simp only [C96_forward n n' h]
  · unfold Net.maxPredTest
    simp only [C96_forward n n' h]

/-- C96. Training commutes with renumbering: a training call returns for one network exactly if it
returns for the other, with the same result, and the networks it leaves differ by the same
renumbering. This is for any arithmetic in which numbers form a commutative ring. -/
theorem C96_step {σ : Equiv.Perm Nat} {k u : Nat} (n n' : Net α) (h : HiddenPerm σ k u n n')
    (hw : ∀ l ∈ n.layers, l.WF) (data : Dataset α) (lf : LossFunc) (lr : α) :
    Option.Rel (fun o o' => o.1 = o'.1 ∧ HiddenPerm σ k u o.2 o'.2) (n.gradientOpt data lf lr)
      (n'.gradientOpt data lf lr) := by
  cases hr : n.gradientOpt data lf lr with
  | some o =>
    obtain ⟨n1', h1, h2⟩ := hidden_step h hw (r := o.1) (n1 := o.2) hr
    rw [h1]
    exact .some ⟨rfl, h2⟩
  | none =>
    cases hr' : n'.gradientOpt data lf lr with
    | none => exact .none
    | some o =>
      obtain ⟨n1', h1, -⟩ := hidden_step h.symm (h.wf hw) (r := o.1) (n1 := o.2) hr'
      rw [h1] at hr
      cases hr

/-- C96. The same for any history of training calls. -/
theorem C96_train {σ : Equiv.Perm Nat} {k u : Nat} (n n' : Net α) (h : HiddenPerm σ k u n n')
    (hw : ∀ l ∈ n.layers, l.WF) (steps : List (TrainStep α)) :
    Option.Rel (HiddenPerm σ k u) (n.train steps) (n'.train steps) := by
  induction steps generalizing n n' with
  | nil => exact .some h
  | cons s steps ih =>
    simp only [Net.train, List.foldlM_cons, Option.bind_eq_bind]
    have := C96_step n n' h hw s.1 s.2.1 s.2.2
    cases hr : n.gradientOpt s.1 s.2.1 s.2.2 with
    | none =>
      rw [hr] at this
      cases hr' : n'.gradientOpt s.1 s.2.1 s.2.2 with
      | none => exact .none
      | some o => rw [hr'] at this; cases this
    | some o =>
      rw [hr] at this
      cases hr' : n'.gradientOpt s.1 s.2.1 s.2.2 with
      | none => rw [hr'] at this; cases this
      | some o' =>
        rw [hr'] at this
        cases this with
        | some this =>
          exact ih o.2 o'.2 this.2 (sameShape_wf (Net.gradientOpt_shape hw (r := o.1) (n' := o.2) hr))

omit [CplxOps α P] [LawfulOps α] [CommRing α] in
theorem swap_lt {p q u : Nat} (hp : p < u) (hq : q < u) (j : Nat) : Equiv.swap p q j < u ↔ j < u := by
  rw [Equiv.swap_apply_def]
  split
  · rename_i h; subst h; exact ⟨fun _ => hp, fun _ => hq⟩
  · split
    · rename_i h; subst h; exact ⟨fun _ => hq, fun _ => hp⟩
    · rfl

/-! ### Examples -/

/-- Two networks that differ in the order of their hidden units. -/
example (p q r s t w : Cf .w64 ℝ) (f g : ActFunc) : HiddenPerm (Equiv.swap 0 1) 0 2
    ⟨[.dense ⟨Mat.fromBody [p, q] (2, 1), [r, s], f⟩, .dense ⟨Mat.fromBody [t, w] (1, 2), [p], g⟩]⟩
    ⟨[.dense ⟨Mat.fromBody [q, p] (2, 1), [s, r], f⟩, .dense ⟨Mat.fromBody [w, t] (1, 2), [p], g⟩]⟩ := by
  refine ⟨swap_lt (by omega) (by omega), by omega, [], _, _, _, _, [], 1, 1,
    fun j _ => if j = 0 then p else q, fun j => if j = 0 then r else s, f,
    fun _ i => if i = 0 then t else w, fun _ => p, g, rfl, by omega, rfl, rfl, ⟨⟨rfl, ?_⟩, ?_, rfl⟩,
    ⟨⟨rfl, ?_⟩, ?_, rfl⟩, ⟨⟨rfl, ?_⟩, ?_, rfl⟩, ⟨⟨rfl, ?_⟩, ?_, rfl⟩⟩ <;>
    simp [Mat.fromBody, table, List.range_succ]

end Renplex
