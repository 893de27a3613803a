import Verif.Props.Hidden
import Verif.Props.IeeeComplex
/-!
# Units with the same parameters

Nothing is assumed of the numbers here: units with equal parameters go through the same operations in
the same order.
-/

namespace Renplex
variable {α P : Type} [CplxOps α P]

/-! ## One dense layer -/

theorem addSliceMut_range [BasicOps α] (n : Nat) (x y : Nat → α) :
    unwrap (addSliceMut ((List.range n).map x) ((List.range n).map y))
      = some ((List.range n).map fun i => BasicOps.addAssign (x i) (y i)) := by
  unfold addSliceMut
  rw [if_neg (by simp), zipUpd_eq_zipWith _ _ _ (by simp)]
  simp [unwrap, List.zipWith_map, List.zipWith_self]

theorem Dense.derivLoop_raw [BasicOps α] {n : Nat} (x : Nat → α) (W : Nat → Nat → α) (v cv : Nat → α)
    (js : List Nat) (a b : List α) (nd : Nat → α) :
    Dense.derivLoop ((List.range n).map x)
      (js.map fun j => ((v j, cv j), (List.range n).map (W j))) (a, b, (List.range n).map nd)
      = some (a ++ js.flatMap (fun j => (List.range n).map fun i => BasicOps.mul (x i) (BasicOps.add (v j) (cv j))),
          b ++ js.map (fun j => BasicOps.add (v j) (cv j)),
          (List.range n).map fun i => js.foldl (fun acc j =>
            BasicOps.addAssign acc (BasicOps.mul (W j i) (BasicOps.add (v j) (cv j)))) (nd i)) := by
  induction js generalizing a b nd with
  | nil => simp [Dense.derivLoop]
  | cons j js ih =>
    simp only [List.map_cons, Dense.derivLoop, List.map_map]
    rw [show ((fun e => BasicOps.mul e (BasicOps.add (v j) (cv j))) ∘ W j)
      = fun i => BasicOps.mul (W j i) (BasicOps.add (v j) (cv j)) from rfl, addSliceMut_range]
    simp only [Option.bind_eq_bind, Option.bind_some]
    rw [ih]
    simp [List.append_assoc, Function.comp_def]

theorem Dense.computeDerivatives_raw {l : Dense α}
    {u n : Nat} {W : Nat → Nat → α} {b : Nat → α} {f : ActFunc} (h : l.Is u n W b f) (hn : 0 < n)
    (x g gc d dc : Nat → α)
    (hd : ∀ j, j < u → CplxOps.dActivate f (BasicOps.addAssign (dotN n (W j) x) (b j)) = some (d j))
    (hdc : ∀ j, j < u →
      CplxOps.dConjActivate f (BasicOps.addAssign (dotN n (W j) x) (b j)) = some (dc j)) {r : Derivs α}
    (hr : (l.computeDerivatives (.scalar ((List.range n).map x)) ((List.range u).map g)
        ((List.range u).map gc) >>= unwrap) = some r) :
    ∃ M : Nat → α, (M = fun j => BasicOps.add (BasicOps.mul (d j) (g j))
          (BasicOps.mul (CplxOps.conj (dc j)) (gc j)))
      ∧ r.1 = table u n (fun j i => BasicOps.mul (x i) (M j)) ∧ r.2.1 = (List.range u).map M
      ∧ r.2.2.1 = (List.range n).map (fun i => (List.range u).foldl (fun acc j =>
            BasicOps.addAssign acc (BasicOps.mul (W j i) (M j))) BasicOps.zero)
      ∧ r.2.2.2 = r.2.2.1.map CplxOps.conj := by
  unfold Dense.computeDerivatives at hr
  rw [if_neg (by simp [h.1.1]), if_neg (by simp [h.1.1])] at hr
  simp only [Dense.computeQ_is h hn, Option.bind_eq_bind, Option.bind_some, zip_range_map,
    mapM_map', h.2.2] at hr
  rw [mapM_some_of _ (fun j => BasicOps.mul (d j) (g j)) _ (by
      intro j hj; simp [hd j (List.mem_range.mp hj)]),
    mapM_some_of _ (fun j => BasicOps.mul (CplxOps.conj (dc j)) (gc j)) _ (by
      intro j hj; simp [hdc j (List.mem_range.mp hj)])] at hr
  have hrows : l.weights.rowsAsIter
      = some ((List.range u).map fun j => (List.range n).map (W j)) := by
    unfold Mat.rowsAsIter
    rw [h.1.2, h.1.1]
    exact chunks_table u n W hn
  simp only [Option.bind_some, hrows, zip_range_map, h.1.1] at hr
  have hz : List.replicate n (BasicOps.zero : α) = (List.range n).map fun _ => BasicOps.zero := by
    rw [range_map_const]
  rw [hz, Dense.derivLoop_raw] at hr
  simp only [List.nil_append, Option.bind_some, unwrap, Option.some.injEq] at hr
  subst hr
  exact ⟨_, rfl, rfl, rfl, rfl, rfl⟩

/-- The derivatives of a dense layer in any arithmetic. -/
theorem Dense.derivatives_raw {l : Dense α} {u m : Nat} {W : Nat → Nat → α}
    {b : Nat → α} {f : ActFunc} (h : l.Is u m W b f) (hm : 0 < m) {X : Nat → α}
    {D DC : List α} {r : Derivs α}
    (hr : ((Layer.dense l).computeDerivatives (.scalar ((List.range m).map X)) D DC >>= unwrap)
      = some r) :
    ∃ g gc d dc M : Nat → α, D = (List.range u).map g ∧ DC = (List.range u).map gc
      ∧ (∀ j, j < u → CplxOps.dActivate f (BasicOps.addAssign (dotN m (W j) X) (b j)) = some (d j))
      ∧ (∀ j, j < u → CplxOps.dConjActivate f (BasicOps.addAssign (dotN m (W j) X) (b j)) = some (dc j))
      ∧ (M = fun j => BasicOps.add (BasicOps.mul (d j) (g j))
          (BasicOps.mul (CplxOps.conj (dc j)) (gc j)))
      ∧ r.1 = table u m (fun j i => BasicOps.mul (X i) (M j)) ∧ r.2.1 = (List.range u).map M
      ∧ r.2.2.1 = (List.range m).map (fun i => (List.range u).foldl (fun acc j =>
            BasicOps.addAssign acc (BasicOps.mul (W j i) (M j))) BasicOps.zero)
      ∧ r.2.2.2 = r.2.2.1.map CplxOps.conj := by
  have : Nonempty α := ⟨BasicOps.zero⟩
  have hr' : (l.computeDerivatives (.scalar ((List.range m).map X)) D DC >>= unwrap) = some r := hr
  have hD : D.length = u := by
    by_contra hne
    unfold Dense.computeDerivatives at hr'
    rw [if_pos (by rw [h.1.1]; exact hne)] at hr'
    cases hr'
  have hDC : DC.length = u := by
    by_contra hne
    unfold Dense.computeDerivatives at hr'
    rw [if_neg (by rw [h.1.1]; simpa using hD), if_pos (by rw [h.1.1]; exact hne)] at hr'
    cases hr'
  obtain ⟨g, hg⟩ := exists_range_map D
  obtain ⟨gc, hgc⟩ := exists_range_map DC
  rw [hD] at hg
  rw [hDC] at hgc
  have hex : ∀ j, j < u → ∃ d, CplxOps.dActivate f (BasicOps.addAssign (dotN m (W j) X) (b j))
      = some d := by
    intro j hj
    cases hv : CplxOps.dActivate f (BasicOps.addAssign (dotN m (W j) X) (b j)) with
    | some d => exact ⟨d, rfl⟩
    | none =>
      exfalso
      unfold Dense.computeDerivatives at hr'
      rw [if_neg (by rw [h.1.1]; simpa using hD), if_neg (by rw [h.1.1]; simpa using hDC)] at hr'
      simp only [Dense.computeQ_is h hm, Option.bind_eq_bind, Option.bind_some, hg, zip_range_map,
        mapM_map', h.2.2] at hr'
      rw [mapM_eq_none_of _ _ j (List.mem_range.mpr hj) (by simp [hv])] at hr'
      cases hr'
  have hexc : ∀ j, j < u → ∃ d, CplxOps.dConjActivate f (BasicOps.addAssign (dotN m (W j) X) (b j))
      = some d := by
    intro j hj
    cases hv : CplxOps.dConjActivate f (BasicOps.addAssign (dotN m (W j) X) (b j)) with
    | some d => exact ⟨d, rfl⟩
    | none =>
      exfalso
      unfold Dense.computeDerivatives at hr'
      rw [if_neg (by rw [h.1.1]; simpa using hD), if_neg (by rw [h.1.1]; simpa using hDC)] at hr'
      simp only [Dense.computeQ_is h hm, Option.bind_eq_bind, Option.bind_some, hg, hgc,
        zip_range_map, mapM_map', h.2.2] at hr'
      obtain ⟨q, hq, hr'⟩ := Option.bind_eq_some_iff.mp hr'
      obtain ⟨q', hq', hr''⟩ := Option.bind_eq_some_iff.mp hq
      rw [mapM_eq_none_of _ _ j (List.mem_range.mpr hj) (by simp [hv])] at hr''
      cases hr''
  choose! d hd using hex
  choose! dc hdc using hexc
  rw [hg, hgc] at hr'
  obtain ⟨M, h1⟩ := Dense.computeDerivatives_raw h hm X g gc d dc hd hdc hr'
  exact ⟨g, gc, d, dc, M, hg, hgc, hd, hdc, h1⟩

theorem Dense.forward_raw {l : Dense α} {u m : Nat} {W : Nat → Nat → α} {b : Nat → α} {f : ActFunc}
    (h : l.Is u m W b f) (hm : 0 < m) {x y : IOType α} (hf : l.forward x = some (.ok y)) :
    ∃ X Y : Nat → α, x = .scalar ((List.range m).map X) ∧ y = .scalar ((List.range u).map Y)
      ∧ ∀ j, j < u → CplxOps.activate f (BasicOps.addAssign (dotN m (W j) X) (b j)) = some (Y j) := by
  have : Nonempty α := ⟨BasicOps.zero⟩
  cases x with
  | matrix ms => cases hf
  | scalar v =>
    have hv : v.length = m := by
      by_contra hne
      rw [C38_wrong_length h v hne] at hf
      cases hf
    obtain ⟨X, hX⟩ := exists_range_map v
    rw [hv] at hX
    subst hX
    have hex : ∀ j, j < u → ∃ z, CplxOps.activate f (BasicOps.addAssign (dotN m (W j) X) (b j)) = some z := by
      intro j hj
      cases hz : CplxOps.activate f (BasicOps.addAssign (dotN m (W j) X) (b j)) with
      | some z => exact ⟨z, rfl⟩
      | none =>
        rw [C38_panic_activation h hm X j hj hz] at hf
        cases hf
    choose! Y hY using hex
    rw [C38_forward_partial h hm X Y hY] at hf
    cases hf
    exact ⟨X, Y, rfl, rfl, hY⟩

omit [CplxOps α P] in
theorem dotN_congr [BasicOps α] {n : Nat} {x y z : Nat → α} (h : ∀ i, i < n → x i = y i) :
    dotN n x z = dotN n y z := by
  unfold dotN
  refine List.foldl_ext _ _ _ fun a i hi => ?_
  rw [h i (List.mem_range.mp hi)]

/-! ## One sample -/

/-- A vector of derivatives in which units `p` and `q` have the same entries. -/
def TwinVec (k u m v p q : Nat) (gs : List (LayerVec α)) : Prop :=
  ∃ (G1 G2 : List (LayerVec α)) (A : Nat → Nat → α) (s : Nat → α) (B : Nat → Nat → α) (t : Nat → α),
    G1.length = k
    ∧ gs = G1 ++ (table u m A, (List.range u).map s) :: (table v u B, (List.range v).map t) :: G2
    ∧ s p = s q ∧ (∀ i, i < m → A p i = A q i) ∧ ∀ j, j < v → B j p = B j q

theorem twin_back {u m v p q : Nat} (hp : p < u) (hq : q < u) (hm : 0 < m) {a b : Dense α}
    {W V : Nat → Nat → α} {c d : Nat → α} {f g : ActFunc} (ha : a.Is u m W c f) (hb : b.Is v u V d g)
    (e1 : c p = c q) (e2 : ∀ i, i < m → W p i = W q i) (e3 : ∀ j, j < v → V j p = V j q)
    {X H : Nat → α} (hH : H p = H q) (A B : List (IOType α × Layer α)) (D DC : List α)
    (gs : List (LayerVec α))
    (h : backGrads (B ++ (.scalar ((List.range u).map H), .dense b)
      :: (.scalar ((List.range m).map X), .dense a) :: A) D DC = some gs) :
    TwinVec A.length u m v p q gs.reverse := by
  have hpr : ∀ l : Dense α, (Layer.dense l).propagates = true := fun _ => rfl
  obtain ⟨D', DC', r, g1, g2, h1, h2, rfl, h3⟩ := backGrads_split (hpr b) h
  simp only [backGrads, hpr, if_true] at h2
  obtain ⟨r', h4, h2⟩ := Option.bind_eq_some_iff.mp h2
  obtain ⟨g3, h5, rfl⟩ := Option.map_eq_some_iff.mp h2
  obtain ⟨γ, γc, δ, δc, M, rfl, rfl, d1, d2, hM, r1, r2, r3, r4⟩ := Dense.derivatives_raw hb (by omega) h1
  rw [r4, r3] at h4
  obtain ⟨η, ηc, ε, εc, N, k1, k2, d3, d4, hN, s1, s2, -, -⟩ := Dense.derivatives_raw ha hm h4
  have hfold : (List.range v).foldl (fun acc j => BasicOps.addAssign acc (BasicOps.mul (V j p) (M j)))
      BasicOps.zero = (List.range v).foldl (fun acc j =>
        BasicOps.addAssign acc (BasicOps.mul (V j q) (M j))) BasicOps.zero :=
    List.foldl_ext _ _ _ fun x j hj => by rw [e3 j (List.mem_range.mp hj)]
  have hη : η p = η q := by
    have t1 := congrArg (fun l => l[p]?) k1
    have t2 := congrArg (fun l => l[q]?) k1
    simp only [List.getElem?_map, List.getElem?_range hp, List.getElem?_range hq, Option.map_some,
      Option.some.injEq] at t1 t2
    rw [← t1, ← t2]; exact hfold
  have hηc : ηc p = ηc q := by
    have t1 := congrArg (fun l => l[p]?) k2
    have t2 := congrArg (fun l => l[q]?) k2
    simp only [List.getElem?_map, List.getElem?_range hp, List.getElem?_range hq, Option.map_some,
      Option.some.injEq] at t1 t2
    rw [← t1, ← t2]; exact congrArg CplxOps.conj hfold
  have hQ : BasicOps.addAssign (dotN m (W p) X) (c p) = BasicOps.addAssign (dotN m (W q) X) (c q) := by
    rw [dotN_congr e2, e1]
  have hNe : N p = N q := by
    have t1 := d3 p hp
    have t2 := d4 p hp
    rw [hQ, d3 q hq] at t1
    rw [hQ, d4 q hq] at t2
    simp only [hN]
    rw [hη, hηc, Option.some.inj t1, Option.some.inj t2]
  refine ⟨g3.reverse, g1.reverse, fun j i => BasicOps.mul (X i) (N j), N,
    fun j i => BasicOps.mul (H i) (M j), M, ?_, ?_, hNe, ?_, ?_⟩
  · rw [List.length_reverse, backGrads_length h5]
  · simp [r1, r2, s1, s2]
  · intro i _; show BasicOps.mul _ _ = BasicOps.mul _ _; rw [hNe]
  · intro j _; show BasicOps.mul _ _ = BasicOps.mul _ _; rw [hH]

theorem twin_sample {n : Net α} {pre post : List (Layer α)} {u m v p q : Nat} (hp : p < u) (hq : q < u)
    (hm : 0 < m) {a b : Dense α} {W V : Nat → Nat → α} {c d : Nat → α} {f g : ActFunc}
    (hn : n.layers = pre ++ .dense a :: .dense b :: post) (ha : a.Is u m W c f) (hb : b.Is v u V d g)
    (e1 : c p = c q) (e2 : ∀ i, i < m → W p i = W q i) (e3 : ∀ j, j < v → V j p = V j q)
    (lf : LossFunc) (pt : IOType α × IOType α) {gs : List (LayerVec α)}
    (h : sampleGrads n lf pt = some gs) : TwinVec pre.length u m v p q gs := by
  unfold sampleGrads at h
  obtain ⟨acts, hac, h⟩ := Option.bind_eq_some_iff.mp h
  obtain ⟨pred, h1, h⟩ := Option.bind_eq_some_iff.mp h
  obtain ⟨dl, hd, h⟩ := Option.bind_eq_some_iff.mp h
  obtain ⟨gs0, hbk, rfl⟩ := Option.map_eq_some_iff.mp h
  obtain ⟨r0, h2, h3⟩ := Option.bind_eq_some_iff.mp hac
  obtain ⟨zs, hc, rfl⟩ := (C44_collect n (by rw [hn]; simp) _ r0).mp h2
  cases h3
  rw [hn] at hc
  obtain ⟨ys, ws, as, prev, rfl, c1, c2, c3, c4⟩ := hc.append_inv
  cases c4 with
  | @cons _ _ _ hh _ q1 t =>
  cases t with
  | @cons _ _ _ y ws q2 t =>
    obtain ⟨X, H, rfl, rfl, k1⟩ := Dense.forward_raw ha hm q1
    have hlen := t.length
    rw [acts_zip hn c2 c3 (by simp [hlen]) (by simp)] at hbk
    have key : ((IOType.scalar ((List.range m).map X) :: .scalar ((List.range u).map H) :: y :: ws).dropLast.reverse.zip
        (.dense a :: .dense b :: post).reverse) ++ as.reverse.zip pre.reverse
        = ((y :: ws).dropLast.reverse.zip post.reverse) ++ (.scalar ((List.range u).map H), .dense b)
          :: (.scalar ((List.range m).map X), .dense a) :: as.reverse.zip pre.reverse := by
      rw [List.dropLast_cons_of_ne_nil (by simp), List.dropLast_cons_of_ne_nil (by simp)]
      simp only [List.reverse_cons, List.append_assoc]
      rw [List.zip_append (by simp [hlen])]
      simp
    rw [key] at hbk
    have hH : H p = H q := by
      have t1 := k1 p hp
      rw [dotN_congr e2, e1, k1 q hq] at t1
      exact (Option.some.inj t1).symm
    have := twin_back hp hq hm ha hb e1 e2 e3 hH _ _ _ _ _ hbk
    simpa [c3] using this

/-! ## A batch -/

theorem addPair_table {u m : Nat} {A B : Nat → Nat → α} {s t : Nat → α} {r : LayerVec α}
    (h : addPair (table u m A, (List.range u).map s) (table u m B, (List.range u).map t) = some r) :
    r = (table u m (fun j i => BasicOps.addAssign (A j i) (B j i)),
      (List.range u).map fun j => BasicOps.addAssign (s j) (t j)) := by
  unfold addPair at h
  rw [addSliceMut_range] at h
  have e : unwrap (addSliceMut (table u m A) (table u m B))
      = some (table u m fun j i => BasicOps.addAssign (A j i) (B j i)) := by
    unfold addSliceMut
    rw [if_neg (by simp [table_length]), zipUpd_eq_zipWith _ _ _ (by simp [table_length]), table_zipWith]
    rfl
  rw [e] at h
  cases h
  rfl

theorem TwinVec.add {k u m v p q : Nat} {x y z : List (LayerVec α)} (hx : TwinVec k u m v p q x)
    (hy : TwinVec k u m v p q y) (h : ((x.zip y).mapM fun r => addPair r.1 r.2) = some z) :
    TwinVec k u m v p q z := by
  obtain ⟨G1, G2, A, s, B, t, e1, rfl, a1, a2, a3⟩ := hx
  obtain ⟨K1, K2, A', s', B', t', e1', rfl, b1, b2, b3⟩ := hy
  rw [List.zip_append (e1.trans e1'.symm), List.mapM_append] at h
  obtain ⟨z1, h1, h⟩ := Option.bind_eq_some_iff.mp h
  obtain ⟨z2, h2, h⟩ := Option.bind_eq_some_iff.mp h
  cases h
  rw [List.zip_cons_cons, List.zip_cons_cons, List.mapM_cons, List.mapM_cons] at h2
  obtain ⟨w1, h3, h2⟩ := Option.bind_eq_some_iff.mp h2
  obtain ⟨w2, h4, h2⟩ := Option.bind_eq_some_iff.mp h2
  cases h2
  obtain ⟨w3, h5, h4⟩ := Option.bind_eq_some_iff.mp h4
  obtain ⟨w4, h6, h4⟩ := Option.bind_eq_some_iff.mp h4
  cases h4
  rw [addPair_table h3, addPair_table h5]
  refine ⟨z1, w4, _, _, _, _, ?_, rfl, ?_, ?_, ?_⟩
  · rw [mapM_length h1]; simp [e1, e1']
  · show BasicOps.addAssign _ _ = BasicOps.addAssign _ _; rw [a1, b1]
  · intro i hi; show BasicOps.addAssign _ _ = BasicOps.addAssign _ _; rw [a2 i hi, b2 i hi]
  · intro i hi; show BasicOps.addAssign _ _ = BasicOps.addAssign _ _; rw [a3 i hi, b3 i hi]

theorem addAll_nonprop {acc gs acc' : List (LayerVec α)} {ls : List (Layer α)}
    (ha : List.Forall₂ (fun a l => Layer.propagates l = false → a = ([], [])) acc ls)
    (hg : List.Forall₂ (fun g l => Layer.propagates l = false → g = ([], [])) gs ls)
    (h : ((acc.zip gs).mapM fun q => addPair q.1 q.2) = some acc') :
    List.Forall₂ (fun a l => Layer.propagates l = false → a = ([], [])) acc' ls := by
  induction ha generalizing gs acc' with
  | nil => cases hg; cases h; exact .nil
  | cons h0 _ ih =>
    cases hg with
    | cons h' t =>
      rw [List.zip_cons_cons, List.mapM_cons] at h
      obtain ⟨b, h1, h⟩ := Option.bind_eq_some_iff.mp h
      obtain ⟨r, h2, h⟩ := Option.bind_eq_some_iff.mp h
      cases h
      refine .cons (fun hl => ?_) (ih t h2)
      rw [h0 hl, h' hl] at h1
      cases h1
      rfl

theorem twin_init {l : Dense α} {u m : Nat} {W : Nat → Nat → α} {b : Nat → α} {f : ActFunc}
    (hl : l.Is u m W b f) : Net.initAcc (.dense l)
      = (table u m fun _ _ => BasicOps.zero, (List.range u).map fun _ => BasicOps.zero) := by
  unfold Net.initAcc
  rw [if_pos (by rfl)]
  have e1 : (Layer.dense l).paramsLen = (u * m, u) := by
    show (l.weights.shape.1 * l.weights.shape.2, l.biases.length) = _
    rw [hl.1.1, hl.2.1]; simp
  rw [e1, ← range_map_mul u m fun _ => BasicOps.zero, range_map_const, range_map_const]

theorem updateLayer_dense {l : Dense α} {l' : Layer α} {u m : Nat} {W A : Nat → Nat → α} {b s : Nat → α}
    {f : ActFunc} (hl : l.Is u m W b f) {scale : α}
    (h : Net.updateLayer scale (table u m A, (List.range u).map s) (.dense l) = some l') :
    ∃ d, l' = .dense d ∧ d.Is u m
      (fun j i => BasicOps.subAssign (W j i) (CplxOps.conj (BasicOps.mulAssign (A j i) scale)))
      (fun j => BasicOps.subAssign (b j) (CplxOps.conj (BasicOps.mulAssign (s j) scale))) f := by
  unfold Net.updateLayer at h
  rw [if_pos (by rfl)] at h
  have e : (Layer.dense l).negConjAdjustment (mulMutScalar (table u m A) scale)
      (mulMutScalar ((List.range u).map s) scale) = some (.ok (), .dense { l with
        weights := { l.weights with
          body := (table u m fun j i =>
            BasicOps.subAssign (W j i) (CplxOps.conj (BasicOps.mulAssign (A j i) scale))) }
        biases := ((List.range u).map fun j =>
          BasicOps.subAssign (b j) (CplxOps.conj (BasicOps.mulAssign (s j) scale))) }) := by
    simp only [Layer.negConjAdjustment, Dense.negConjAdjustment, mulMutScalar, table_map, hl.1.2, hl.2.1,
      List.map_map]
    rw [if_neg (by simp), if_neg (by simp [table_length]),
      zipUpd_eq_zipWith _ _ _ (by simp [table_length]), zipUpd_eq_zipWith _ _ _ (by simp), table_zipWith,
      List.zipWith_map, List.zipWith_self]
    rfl
  rw [e] at h
  cases h
  exact ⟨_, rfl, ⟨hl.1.1, rfl⟩, rfl, hl.2.2⟩

theorem twin_update {n : Net α} {pre post ls : List (Layer α)} {u m v p q : Nat} (hp : p < u) (hq : q < u)
    (hm : 0 < m) {a b : Dense α} {W V : Nat → Nat → α} {c d : Nat → α} {f g : ActFunc}
    (hn : n.layers = pre ++ .dense a :: .dense b :: post) (ha : a.Is u m W c f) (hb : b.Is v u V d g)
    (e1 : c p = c q) (e2 : ∀ i, i < m → W p i = W q i) (e3 : ∀ j, j < v → V j p = V j q)
    {acc : List (LayerVec α)} (hacc : TwinVec pre.length u m v p q acc) {scale : α}
    (h : ((acc.zip n.layers).mapM fun r => Net.updateLayer scale r.1 r.2) = some ls) :
    Twins pre.length u p q ⟨ls⟩ := by
  obtain ⟨G1, G2, A, s, B, t, g1, rfl, a1, a2, a3⟩ := hacc
  rw [hn, List.zip_append g1, List.mapM_append] at h
  obtain ⟨z1, h1, h⟩ := Option.bind_eq_some_iff.mp h
  obtain ⟨z2, h2, h⟩ := Option.bind_eq_some_iff.mp h
  cases h
  rw [List.zip_cons_cons, List.zip_cons_cons, List.mapM_cons, List.mapM_cons] at h2
  obtain ⟨w1, h3, h2⟩ := Option.bind_eq_some_iff.mp h2
  obtain ⟨w2, h4, h2⟩ := Option.bind_eq_some_iff.mp h2
  cases h2
  obtain ⟨w3, h5, h4⟩ := Option.bind_eq_some_iff.mp h4
  obtain ⟨w4, h6, h4⟩ := Option.bind_eq_some_iff.mp h4
  cases h4
  obtain ⟨d1, rfl, i1⟩ := updateLayer_dense ha h3
  obtain ⟨d2, rfl, i2⟩ := updateLayer_dense hb h5
  refine ⟨hp, hq, z1, d1, d2, w4, m, v, _, _, f, _, _, g, ?_, hm, rfl, i1, i2, ?_, ?_, ?_⟩
  · rw [mapM_length h1]; simp [g1]
  · simp only [a1, e1]
  · intro i hi; simp only [a2 i hi, e2 i hi]
  · intro i hi; simp only [a3 i hi, e3 i hi]

theorem twin_step {k u p q : Nat} {n n1 : Net α} (h : Twins k u p q n) {data : Dataset α} {lf : LossFunc}
    {lr : α} {r : Except ForwardErr Unit} (hg : n.gradientOpt data lf lr = some (r, n1)) :
    Twins k u p q n1 := by
  have h0 := h
  obtain ⟨hp, hq, pre, a, b, post, m, v, W, c, f, V, d, g, rfl, hm, hn, ha, hb, e1, e2, e3⟩ := h
  unfold Net.gradientOpt at hg
  rw [if_neg (by rw [hn]; simp; omega)] at hg
  obtain ⟨acc, h1, hg⟩ := Option.bind_eq_some_iff.mp hg
  obtain ⟨scale, h2, hg⟩ := Option.bind_eq_some_iff.mp hg
  obtain ⟨ls, h3, hg⟩ := Option.bind_eq_some_iff.mp hg
  cases hg
  refine twin_update hp hq hm hn ha hb e1 e2 e3 ?_ h3
  have key : ∀ (pts : List (IOType α × IOType α)) (x y : List (LayerVec α)),
      TwinVec pre.length u m v p q x →
      List.Forall₂ (fun a l => Layer.propagates l = false → a = ([], [])) x n.layers →
      pts.foldlM (Net.sampleStep n lf) x = some y → TwinVec pre.length u m v p q y := by
    intro pts
    induction pts with
    | nil => intro x y hx _ h; cases h; exact hx
    | cons pt pts ih =>
      intro x y hx hx' h
      rw [List.foldlM_cons] at h
      obtain ⟨z, h4, h⟩ := Option.bind_eq_some_iff.mp h
      rw [Net.sampleStep_eq n lf x hx'] at h4
      obtain ⟨gs, h5, h6⟩ := Option.bind_eq_some_iff.mp h4
      exact ih z y (hx.add (twin_sample hp hq hm hn ha hb e1 e2 e3 lf pt h5) h6)
        (addAll_nonprop hx' (sampleGrads_nonprop h5) h6) h
  refine key _ _ _ ?_ ?_ h1
  · rw [hn, List.map_append, List.map_cons, List.map_cons, twin_init ha, twin_init hb]
    exact ⟨_, _, _, _, _, _, by simp, rfl, rfl, fun _ _ => rfl, fun _ _ => rfl⟩
  · rw [List.forall₂_map_left_iff]
    refine List.forall₂_same.mpr fun l _ hl => ?_
    unfold Net.initAcc
    rw [if_neg (by simp [hl])]

/-- C96. Units that start equal stay equal: if two units of a hidden dense layer have the same bias,
the same incoming and the same outgoing weights, then so they have after any history of training
calls. No training can tell them apart. This holds in any arithmetic, floating point included. -/
theorem C96_twins {k u p q : Nat} (n n' : Net α) (h : Twins k u p q n) (steps : List (TrainStep α))
    (ht : n.train steps = some n') : Twins k u p q n' := by
  induction steps generalizing n with
  | nil => cases ht; exact h
  | cons s steps ih =>
    simp only [Net.train, List.foldlM_cons, Option.bind_eq_bind] at ht
    obtain ⟨n1, h1, h2⟩ := Option.bind_eq_some_iff.mp ht
    obtain ⟨⟨r, n2⟩, h3, rfl⟩ := Option.map_eq_some_iff.mp h1
    exact ih n2 (twin_step h h3) h2

/-! ### Examples -/

/-- Two hidden units with the same parameters. -/
noncomputable def exTwins : Net (Cf .w32 ℝ) :=
  ⟨[.dense ⟨Mat.fromBody [⟨1, 2⟩, ⟨1, 2⟩] (2, 1), [⟨0, 1⟩, ⟨0, 1⟩], .ritSigmoid⟩,
    .dense ⟨Mat.fromBody [⟨3, 0⟩, ⟨3, 0⟩] (1, 2), [⟨0, 0⟩], .none⟩]⟩

theorem exTwins_ready : exTwins.Ready (.vec 1) (.vec 1) where
  layers := by simp [exTwins]
  wf := by simp [exTwins, Layer.WF, Mat.fromBody, Mat.Rect]
  fits := .cons (s₁ := .vec 2) ⟨by omega, rfl⟩ (.cons (s₁ := .vec 1) ⟨by omega, rfl⟩ (.nil _))
  total := by
    intro l hl
    simp only [exTwins, List.mem_cons, List.not_mem_nil, or_false] at hl
    rcases hl with rfl | rfl
    · exact fun z => C46_total _ (by simp) z
    · exact fun z => C46_total _ (by simp) z
  totalBack := by
    intro l hl
    simp only [exTwins, List.mem_cons, List.not_mem_nil, or_false] at hl
    rcases hl with rfl | rfl
    · exact ⟨fun z => (C66_total _ (by simp) z).1, fun z => (C66_total _ (by simp) z).2⟩
    · exact ⟨fun z => (C66_total _ (by simp) z).1, fun z => (C66_total _ (by simp) z).2⟩

theorem exTwins_twins : Twins 0 2 0 1 exTwins := by
  refine ⟨by omega, by omega, [], _, _, [], 1, 1, fun _ _ => ⟨1, 2⟩, fun _ => ⟨0, 1⟩, .ritSigmoid,
    fun _ _ => ⟨3, 0⟩, fun _ => ⟨0, 0⟩, .none, rfl, by omega, rfl, ⟨⟨rfl, ?_⟩, ?_, rfl⟩, ⟨⟨rfl, ?_⟩, ?_, rfl⟩,
    rfl, fun _ _ => rfl, fun _ _ => rfl⟩ <;> simp [Mat.fromBody, table, List.range_succ]

/-- Trained on one point as often as one likes, the two units stay twins. -/
example (lf : LossFunc) (lr x t : Cf .w32 ℝ) (k : Nat) :
    ∃ n', exTwins.train (List.replicate k (⟨[.scalar [x]], [.scalar [t]]⟩, lf, lr)) = some n'
      ∧ Twins 0 2 0 1 n' := by
  obtain ⟨n', h, -⟩ := C66_exact exTwins exTwins_ready
    (List.replicate k (⟨[.scalar [x]], [.scalar [t]]⟩, lf, lr)) (by
      intro st hst
      rw [(List.mem_replicate.mp hst).2]
      refine ⟨?_, by simp⟩
      intro p hp
      have hp : p ∈ [(IOType.scalar [x], IOType.scalar [t])] := hp
      simp only [List.mem_singleton] at hp
      subst hp
      exact ⟨rfl, rfl⟩)
  exact ⟨n', h, C96_twins _ _ exTwins_twins _ h⟩

/-- The same network in floating point: whatever the steps, as long as training returns. -/
example {B : Binary} {L : Libm B} (n n' : Net (Cf .w32 (Fl L))) (h : Twins 0 2 0 1 n)
    (steps : List (TrainStep (Cf .w32 (Fl L)))) (ht : n.train steps = some n') : Twins 0 2 0 1 n' :=
  C96_twins n n' h steps ht

/-! ## Renumbering in floating point -/

section ieee
variable {w : Width} {B : Binary} {L : Libm B}

/-- The number is finite and stands for the real number `v`. -/
def IsRe (z : Cf w (Fl L)) (v : ℝ) : Prop :=
  (z.x.fp.Finite ∧ z.x.fp.val = v) ∧ z.y.fp.Finite ∧ z.y.fp.val = 0

/-- `v` is in the format. -/
def Fits (B : Binary) (v : ℝ) : Prop := B.near |v| < B.top ∧ B.round v = v

theorem fits_zero : Fits B 0 := by
  refine ⟨?_, B.round_zero⟩
  rw [abs_zero, B.near_zero]
  unfold Binary.top
  positivity

theorem IsRe.add {a b : Cf w (Fl L)} {v u : ℝ} (ha : IsRe a v) (hb : IsRe b u) (h : Fits B (v + u)) :
    IsRe (Cf.add a b) (v + u) := by
  obtain ⟨⟨a1, a2⟩, a3, a4⟩ := ha
  obtain ⟨⟨b1, b2⟩, b3, b4⟩ := hb
  have h0 := fits_zero (B := B)
  obtain ⟨k1, k2⟩ := Fp.add_spec a1 b1 (by rw [a2, b2]; exact h.1)
  obtain ⟨k3, k4⟩ := Fp.add_spec a3 b3 (by rw [a4, b4, add_zero]; exact h0.1)
  rw [a2, b2, h.2] at k2
  rw [a4, b4, add_zero, h0.2] at k4
  exact ⟨⟨k1, k2⟩, k3, k4⟩

theorem IsRe.mul {a b : Cf w (Fl L)} {v u : ℝ} (ha : IsRe a v) (hb : IsRe b u) (h : Fits B (v * u)) :
    IsRe (Cf.mul a b) (v * u) := by
  obtain ⟨⟨a1, a2⟩, a3, a4⟩ := ha
  obtain ⟨⟨b1, b2⟩, b3, b4⟩ := hb
  have h0 := fits_zero (B := B)
  obtain ⟨k1, k2⟩ := Fp.mul_spec a1 b1 (by rw [a2, b2]; exact h.1)
  obtain ⟨k3, k4⟩ := Fp.mul_spec a3 b3 (by rw [a4, b4, mul_zero]; exact h0.1)
  obtain ⟨k5, k6⟩ := Fp.mul_spec a1 b3 (by rw [b4, mul_zero]; exact h0.1)
  obtain ⟨k7, k8⟩ := Fp.mul_spec a3 b1 (by rw [a4, zero_mul]; exact h0.1)
  rw [a2, b2, h.2] at k2
  rw [a4, b4, mul_zero, h0.2] at k4
  rw [b4, mul_zero, h0.2] at k6
  rw [a4, zero_mul, h0.2] at k8
  obtain ⟨q1, q2⟩ := Fp.sub_spec k1 k3 (by rw [k2, k4, sub_zero]; exact h.1)
  obtain ⟨q3, q4⟩ := Fp.add_spec k5 k7 (by rw [k6, k8, add_zero]; exact h0.1)
  rw [k2, k4, sub_zero, h.2] at q2
  rw [k6, k8, add_zero, h0.2] at q4
  exact ⟨⟨q1, q2⟩, q3, q4⟩

theorem isRe_zero : IsRe (BasicOps.zero : Cf w (Fl L)) 0 := ⟨Fl.zero_finite, Fl.zero_finite⟩

theorem isRe_ofReal {v : ℝ} (h : Fits B v) : IsRe (⟨⟨.ofReal v⟩, Scalar.zero⟩ : Cf w (Fl L)) v := by
  obtain ⟨h1, h2⟩ := Fp.ofReal_spec h.1
  exact ⟨⟨h1, h2.trans h.2⟩, Fl.zero_finite⟩

theorem fits_pow {k : ℤ} (h1 : B.kmin ≤ k - (B.p - 1)) (h2 : k - (B.p - 1) ≤ B.kmax) :
    Fits B (2 ^ k) ∧ Fits B (-2 ^ k) := by
  have hp : (0 : ℝ) < 2 ^ k := by positivity
  have e := B.near_two_pow h1 h2
  have ht : B.near (2 ^ k) < B.top := by
    rw [e]
    exact zpow_lt_zpow_right₀ one_lt_two (by omega)
  refine ⟨⟨by rwa [abs_of_pos hp], by rw [B.round_of_nonneg hp.le, e]⟩, by rwa [abs_neg, abs_of_pos hp], ?_⟩
  rw [B.round_neg, B.round_of_nonneg hp.le, e]

/-- The real number `v` in the format. -/
noncomputable def re (w : Width) (L : Libm B) (v : ℝ) : Cf w (Fl L) := ⟨⟨.ofReal v⟩, Scalar.zero⟩

/-- A hidden layer of three equal units. -/
noncomputable def exIn (w : Width) (L : Libm B) : Dense (Cf w (Fl L)) :=
  ⟨⟨table 3 1 fun _ _ => re w L 1, (3, 1), 3⟩, (List.range 3).map fun _ => BasicOps.zero, .none⟩

/-- One unit with weights `v`. -/
noncomputable def exOut (w : Width) (L : Libm B) (v : Nat → ℝ) : Dense (Cf w (Fl L)) :=
  ⟨⟨table 1 3 fun _ i => re w L (v i), (1, 3), 3⟩, (List.range 1).map fun _ => BasicOps.zero, .none⟩

theorem exIn_is : (exIn w L).Is 3 1 (fun _ _ => re w L 1) (fun _ => BasicOps.zero) .none :=
  ⟨⟨rfl, rfl⟩, rfl, rfl⟩

theorem exOut_is (v : Nat → ℝ) :
    (exOut w L v).Is 1 3 (fun _ i => re w L (v i)) (fun _ => BasicOps.zero) .none := ⟨⟨rfl, rfl⟩, rfl, rfl⟩

/-- The two layers. -/
noncomputable def exOrder (w : Width) (L : Libm B) (v : Nat → ℝ) : Net (Cf w (Fl L)) :=
  ⟨[.dense (exIn w L), .dense (exOut w L v)]⟩

theorem exOrder_perm (v : Nat → ℝ) {σ : Equiv.Perm Nat} (hσ : ∀ j, σ j < 3 ↔ j < 3) :
    HiddenPerm σ 0 3 (exOrder w L v) (exOrder w L fun i => v (σ i)) :=
  ⟨hσ, by omega, [], _, _, _, _, [], 1, 1, _, _, _, _, _, _, rfl, by omega, rfl, rfl, exIn_is, exIn_is,
    exOut_is v, exOut_is _⟩

theorem Fp.inf_add_finite {a : Fp B} (h : a.Finite) (s : Bool) : (Fp.inf s).add a = .inf s := by
  cases a with
  | nan => exact h.elim
  | inf t => exact h.elim
  | num => rfl

/-- What the network predicts for the input 1. -/
theorem exOrder_forward (v : Nat → ℝ) : ∃ H : Nat → Cf w (Fl L), (∀ j, IsRe (H j) 1)
    ∧ (exOrder w L v).forward (.scalar ((List.range 1).map fun _ => re w L 1))
      = some (.ok (.scalar [Cf.add (dotN 3 (fun i => re w L (v i)) H) BasicOps.zero])) := by
  have hd := B.digits; have hs := B.small; have hl := B.large
  have f1 : Fits B 1 := by
    have := (fits_pow (B := B) (k := 0) (by omega) (by omega)).1
    rwa [zpow_zero] at this
  have one : IsRe (re w L 1) 1 := isRe_ofReal f1
  refine ⟨fun _ => Cf.add (dotN 1 (fun _ => re w L 1) fun _ => re w L 1) BasicOps.zero, fun j => ?_, ?_⟩
  · have e1 : IsRe (Cf.mul (re w L 1) (re w L 1)) (1 * 1) := one.mul one (by rwa [mul_one])
    have e2 := isRe_zero.add e1 (by rwa [mul_one, zero_add])
    have e3 := e2.add isRe_zero (by rwa [mul_one, zero_add, add_zero])
    rw [mul_one, zero_add, add_zero] at e3
    exact e3
  · have h1 := C38_forward_partial (exIn_is (w := w) (L := L)) (by omega)
      (fun _ => re w L 1) (fun _ => Cf.add (dotN 1 (fun _ => re w L 1) fun _ => re w L 1) BasicOps.zero)
      (fun j _ => rfl)
    have h2 := C38_forward_partial (exOut_is (w := w) (L := L) v) (by omega)
      (fun _ => Cf.add (dotN 1 (fun _ => re w L 1) fun _ => re w L 1) BasicOps.zero)
      (fun _ => Cf.add (dotN 3 (fun i => re w L (v i)) fun _ =>
        Cf.add (dotN 1 (fun _ => re w L 1) fun _ => re w L 1) BasicOps.zero) BasicOps.zero) (fun j _ => rfl)
    exact (C44_forward _ (by simp [exOrder]) _ _).mpr ⟨_, _, .cons h1 (.cons h2 (.nil _)), rfl, rfl⟩

/-- C96. In floating point renumbering does change predictions: with outgoing weights `m, m, -m`, where
`m` is the largest power of two, three hidden units of value 1 give infinity; with `m, -m, m` they give
`m`. -/
theorem C96_rounding (w : Width) (L : Libm B) : ∃ (n n' : Net (Cf w (Fl L))) (x : IOType (Cf w (Fl L)))
    (z z' : Cf w (Fl L)), HiddenPerm (Equiv.swap 1 2) 0 3 n n' ∧ n.forward x = some (.ok (.scalar [z]))
      ∧ n'.forward x = some (.ok (.scalar [z'])) ∧ z.x.fp = .inf false ∧ z'.x.fp.Finite := by
  have hd := B.digits; have hs := B.small; have hl := B.large
  obtain ⟨fm, fm'⟩ := fits_pow (B := B) (k := B.kmax + (B.p - 1)) (by omega) (by omega)
  set M : ℝ := 2 ^ (B.kmax + ((B.p : ℤ) - 1)) with hM
  have hMp : 0 < M := by positivity
  obtain ⟨H, hH, e⟩ := exOrder_forward (w := w) (L := L) fun i => if i = 2 then -M else M
  obtain ⟨H', hH', e'⟩ := exOrder_forward (w := w) (L := L) fun i =>
    if Equiv.swap 1 2 i = 2 then -M else M
  have m1 : IsRe (re w L M) M := isRe_ofReal fm
  have m2 : IsRe (re w L (-M)) (-M) := isRe_ofReal fm'
  refine ⟨_, _, _, _, _, exOrder_perm _ (swap_lt (by omega) (by omega)), e, e', ?_, ?_⟩
  · have t1 := m1.mul (hH 0) (by rwa [mul_one])
    have t2 := m1.mul (hH 1) (by rwa [mul_one])
    have t3 := m2.mul (hH 2) (by rwa [mul_one])
    rw [mul_one] at t1 t2 t3
    have s1 := isRe_zero.add t1 (by rwa [zero_add])
    rw [zero_add] at s1
    have s2 : (Cf.add (Cf.add BasicOps.zero (Cf.mul (re w L M) (H 0))) (Cf.mul (re w L M) (H 1))).x.fp
        = .inf false := by
      rcases Fp.add_nonneg_cases s1.1.1 t2.1.1 (by rw [s1.1.2]; exact hMp.le) (by rw [t2.1.2]; exact hMp.le)
        with h | h
      · exact h.1
      · exfalso
        have h3 := h.2.2
        rw [s1.1.2, t2.1.2] at h3
        have h4 := (B.near_lt_top_iff (by positivity)).mp h3
        have h5 : M + M = B.top := by
          rw [hM, ← two_mul, Binary.top, ← zpow_one_add₀ two_ne_zero]
          congr 1
          ring
        linarith [show (0 : ℝ) < 2 ^ (B.kmax - 1) by positivity]
    change (Fp.add (Fp.add (Cf.add (Cf.add BasicOps.zero (Cf.mul (re w L M) (H 0)))
      (Cf.mul (re w L M) (H 1))).x.fp (Cf.mul (re w L (-M)) (H 2)).x.fp) (Scalar.zero : Fl L).fp) = _
    rw [s2, Fp.inf_add_finite t3.1.1, Fp.inf_add_finite Fl.zero_finite.1]
  · have t1 := m1.mul (hH' 0) (by rwa [mul_one])
    have t2 := m2.mul (hH' 1) (by rwa [mul_one])
    have t3 := m1.mul (hH' 2) (by rwa [mul_one])
    rw [mul_one] at t1 t2 t3
    have s1 := isRe_zero.add t1 (by rwa [zero_add])
    have s2 := s1.add t2 (by rw [zero_add, add_neg_cancel]; exact fits_zero)
    have s3 := s2.add t3 (by rwa [zero_add, add_neg_cancel, zero_add])
    have s4 := s3.add isRe_zero (by rwa [zero_add, add_neg_cancel, zero_add, add_zero])
    exact s4.1.1

end ieee

end Renplex
