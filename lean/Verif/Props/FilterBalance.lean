import Verif.Spec.FilterBalance
import Verif.Props.FilterTurn
import Verif.Props.DeadFilters
/-!
# C129: training keeps filters balanced
-/

namespace Renplex
open ComplexConjugate
variable {w : Width}

/-- The pairing of the parameters of filter `o` with the derivatives by them. -/
noncomputable def filterPair (m p q : Nat) (K D : Nat → Nat → Nat → Nat → Cf w ℝ) (c e : Nat → Cf w ℝ) (o : Nat) : ℂ :=
  (∑ ch ∈ Finset.range m, ∑ x ∈ Finset.range p, ∑ y ∈ Finset.range q, (K o ch x y).toC * (D o ch x y).toC)
    + (c o).toC * (e o).toC

/-- The pairing of the weights that receive the map of filter `o` with the derivatives by them. -/
noncomputable def readPair (v r c : Nat) (V B : Nat → Nat → Cf w ℝ) (o : Nat) : ℂ :=
  ∑ k ∈ Finset.range v, ∑ i ∈ Finset.range r, ∑ j ∈ Finset.range c,
    (V k (o * (r * c) + (i * c + j))).toC * (B k (o * (r * c) + (i * c + j))).toC

theorem filterPair_add (m p q : Nat) (K D D' : Nat → Nat → Nat → Nat → Cf w ℝ) (c e e' : Nat → Cf w ℝ) (o : Nat) :
    filterPair m p q K (fun o ch x y => D o ch x y + D' o ch x y) c (fun o => e o + e' o) o
      = filterPair m p q K D c e o + filterPair m p q K D' c e' o := by
  simp only [filterPair, Cf.toC_hom_add, mul_add, Finset.sum_add_distrib]
  ring

theorem readPair_add (v r c : Nat) (V B B' : Nat → Nat → Cf w ℝ) (o : Nat) :
    readPair v r c V (fun j i => B j i + B' j i) o = readPair v r c V B o + readPair v r c V B' o := by
  simp only [readPair, Cf.toC_hom_add, mul_add, Finset.sum_add_distrib]

theorem filterSq_step (m p q : Nat) (K D : Nat → Nat → Nat → Nat → Cf w ℝ) (c e : Nat → Cf w ℝ) (ρ : ℝ) (o : Nat) :
    filterSq m p q (fun o ch x y => Cf.ofC (w := w) ((K o ch x y).toC - conj ((ρ : ℂ) * (D o ch x y).toC)))
      (fun o => Cf.ofC ((c o).toC - conj ((ρ : ℂ) * (e o).toC))) o
      = filterSq m p q K c o - 2 * ρ * (filterPair m p q K D c e o).re + ρ ^ 2 * filterSq m p q D e o := by
  unfold filterSq filterPair
  simp only [Cf.toC_ofC, normSq_step, Finset.sum_add_distrib, Finset.sum_sub_distrib, ← Finset.mul_sum,
    Complex.add_re, Complex.re_sum]
  ring

theorem readSq_step (v r c : Nat) (V B : Nat → Nat → Cf w ℝ) (ρ : ℝ) (o : Nat) :
    readSq v r c (fun j i => Cf.ofC (w := w) ((V j i).toC - conj ((ρ : ℂ) * (B j i).toC))) o
      = readSq v r c V o - 2 * ρ * (readPair v r c V B o).re + ρ ^ 2 * readSq v r c B o := by
  unfold readSq readPair
  simp only [Cf.toC_ofC, normSq_step, Finset.sum_add_distrib, Finset.sum_sub_distrib, ← Finset.mul_sum,
    Complex.re_sum]

theorem zero_toC : (0 : Cf w ℝ).toC = 0 := rfl

theorem sum_out (m p q R : Nat) (F : Nat → Nat → Nat → Nat → ℂ) :
    ∑ ch ∈ Finset.range m, ∑ x ∈ Finset.range p, ∑ y ∈ Finset.range q, ∑ i ∈ Finset.range R, F ch x y i
      = ∑ i ∈ Finset.range R, ∑ ch ∈ Finset.range m, ∑ x ∈ Finset.range p, ∑ y ∈ Finset.range q, F ch x y i := by
  rw [Finset.sum_comm]
  refine (Finset.sum_congr rfl fun x _ => Finset.sum_congr rfl fun ch _ => Finset.sum_comm).trans ?_
  rw [Finset.sum_comm]
  refine (Finset.sum_congr rfl fun ch _ => Finset.sum_comm).trans ?_
  rw [Finset.sum_comm]

/-- The pairing of a filter for one point: a sum over the places of its map. -/
theorem filterPair_sample (m p q R C : Nat) (X : Nat → Nat → Nat → Cf w ℝ) (K : Nat → Nat → Nat → Nat → Cf w ℝ)
    (c : Nat → Cf w ℝ) (M : Nat → Nat → Nat → Cf w ℝ) (o : Nat) :
    filterPair m p q K (fun o ch => kernelGrad R C (X ch) (M o)) c
        (fun o => ∑ i ∈ Finset.range R, ∑ j ∈ Finset.range C, M o i j) o
      = ∑ i ∈ Finset.range R, ∑ j ∈ Finset.range C, (convPre m p q X K c o i j).toC * (M o i j).toC := by
  simp only [convPre_sum, Cf.toC_hom_add, toC_sum, Cf.toC_hom_mul, add_mul, Finset.sum_add_distrib, filterPair,
    kernelGrad, Finset.mul_sum, Finset.sum_mul]
  congr 1
  rw [sum_out]
  refine Finset.sum_congr rfl fun i _ => ?_
  rw [sum_out]
  refine Finset.sum_congr rfl fun j _ => Finset.sum_congr rfl fun ch _ =>
    Finset.sum_congr rfl fun x _ => Finset.sum_congr rfl fun y _ => ?_
  rw [Nat.add_comm x i, Nat.add_comm y j]
  ring

/-- The identity of Euler for one place of a map. -/
theorem euler_place {f : ActFunc} (hf : f = .none ∨ f = .ritReLU ∨ f = .zReLU) {z h d dc : Cf w ℝ}
    (hv : CplxOps.activate f z = some h) (hd : CplxOps.dActivate f z = some d)
    (hdc : CplxOps.dConjActivate f z = some dc) (g : Cf w ℝ) :
    (z.toC * (d * g + CplxOps.conj dc * CplxOps.conj g).toC).re = (h.toC * g.toC).re := by
  rw [← act_euler hf hv hd hdc, Cf.toC_hom_add, Cf.toC_hom_mul, Cf.toC_hom_mul, conj_toC, conj_toC]
  have : (z.toC * (conj dc.toC * conj g.toC)).re = (conj z.toC * dc.toC * g.toC).re := by
    rw [← Complex.conj_re]
    simp only [map_mul, Complex.conj_conj]
    ring_nf
  rw [mul_add, Complex.add_re, this, add_mul, Complex.add_re, ← mul_assoc]

/-! ## One point -/

/-- The derivatives by the parameters of a convolutional layer and of the dense layer that reads its maps, with a
relation that is kept by sums. -/
def FilterVec (k nf m p q v N : Nat) (Q : (Nat → Nat → Nat → Nat → Cf w ℝ) → (Nat → Cf w ℝ) → (Nat → Nat → Cf w ℝ) → Prop)
    (gs : List (LayerVec (Cf w ℝ))) : Prop :=
  ∃ (G1 G2 : List (LayerVec (Cf w ℝ))) (D : Nat → Nat → Nat → Nat → Cf w ℝ) (e : Nat → Cf w ℝ)
    (B : Nat → Nat → Cf w ℝ) (t : Nat → Cf w ℝ), G1.length = k
    ∧ gs = G1 ++ (kvec nf m p q D, (List.range nf).map e) :: ([], []) :: (table v N B, (List.range v).map t) :: G2
    ∧ Q D e B

theorem Chain.lastSize {ls : List (Layer (Cf w ℝ))} {x y : IOType (Cf w ℝ)} {ys : List (IOType (Cf w ℝ))} {σ σ' : Size}
    (h : Chain ls x ys) (hf : FitsChain ls σ σ') (hw : ∀ l ∈ ls, l.WF) (ht : ∀ l ∈ ls, l.Total) (hx : x.HasSize σ)
    (hy : (x :: ys).getLast? = some y) : y.HasSize σ' := by
  induction h generalizing σ with
  | nil x => cases hf; cases hy; exact hx
  | cons h t ih =>
    cases hf with
    | cons f1 f2 =>
      obtain ⟨z, z1, z2⟩ := Layer.forward_fits (hw _ (by simp)) (ht _ (by simp)) f1 hx
      rw [h] at z1
      cases z1
      exact ih f2 (fun l hl => hw l (by simp [hl])) (fun l hl => ht l (by simp [hl])) z2 (by simpa using hy)

theorem filter_sample {n : Net (Cf w ℝ)} {σ σ' : Size} (hr : n.Ready σ σ') {pre post : List (Layer (Cf w ℝ))}
    {a : Conv (Cf w ℝ)} {l : Flatten} {b : Dense (Cf w ℝ)} {nf m p q R C v : Nat}
    {K : Nat → Nat → Nat → Nat → Cf w ℝ} {V : Nat → Nat → Cf w ℝ} {c d : Nat → Cf w ℝ} {f g : ActFunc}
    (hf : f = .none ∨ f = .ritReLU ∨ f = .zReLU)
    (hn : n.layers = pre ++ .conv a :: .flatten l :: .dense b :: post) (ha : a.Is nf m p q K c f)
    (hl : l.inputSize = ((R, C), nf)) (hb : b.Is v (nf * (R * C)) V d g) {lf : LossFunc} {x t : IOType (Cf w ℝ)}
    (hx : x.HasSize σ) (ht : t.HasSize σ') {gs : List (LayerVec (Cf w ℝ))} (h : sampleGrads n lf (x, t) = some gs) :
    FilterVec pre.length nf m p q v (nf * (R * C)) (fun D e B => ∀ o, o < nf →
      (filterPair m p q K D c e o).re = (readPair v R C V B o).re) gs := by
  have hn' : n.layers = (pre ++ [.conv a, .flatten l]) ++ .dense b :: post := by rw [hn]; simp
  obtain ⟨s₁, s₂, ys, prev, e, ec, g0, z, A, B, f1, f2, c1, c2, c3, he, hec, hbk, hA, hA', hs⟩ :=
    mid_sample hr hn' (dLoss_total lf) hx ht
  rw [h] at hs
  obtain rfl := Option.some.inj hs
  have htot := hr.total (.conv a) (by rw [hn]; simp)
  have hback := hr.totalBack (.conv a) (by rw [hn]; simp)
  have hbackb := hr.totalBack (.dense b) (by rw [hn]; simp)
  obtain ⟨rfl, rfl, hN⟩ := (Dense.fits_dims hb).mp f2
  have e0 : pre ++ [Layer.conv a, .flatten l] = (pre ++ [.conv a]) ++ [.flatten l] := by simp
  rw [e0] at f1 c1 hA
  obtain ⟨s3, f5, f3⟩ := f1.split
  obtain ⟨s4, f6, f4⟩ := f5.split
  clear f1 f5 f2
  cases f3 with
  | cons f3 t3 =>
  cases t3
  cases f4 with
  | cons f4 t4 =>
  cases t4
  obtain ⟨r, c0, rfl, rfl, h1, h2, h3, h4, h5, h6⟩ := (Conv.fits_dims ha).mp f4
  have hdim := f3.1
  rw [hl] at hdim
  simp only [Prod.mk.injEq, and_true] at hdim
  obtain ⟨rfl, rfl⟩ := hdim
  obtain ⟨ys1, u2, u1, rfl, c1, k1, k2⟩ := c1.snoc_inv
  obtain ⟨ys0, u1', u0, rfl, c1, k3, k4⟩ := c1.snoc_inv
  obtain rfl : u1' = u1 := by
    rw [← List.cons_append, List.getLast?_append_of_ne_nil _ (by simp)] at k1
    simpa using k1
  obtain rfl : u2 = prev := by
    rw [← List.cons_append, List.getLast?_append_of_ne_nil _ (by simp)] at c2
    simpa using c2
  rw [backPairs_append _ _ _ _ _ _ k1, backPairs_append _ _ _ _ _ _ k3] at hA
  have hu0 := c1.lastSize f6 (fun l hl => hr.wf l (by rw [hn]; simp [hl]))
    (fun l hl => hr.total l (by rw [hn]; simp [hl])) hx k3
  have : Nonempty (Cf w ℝ) := ⟨0⟩
  cases u0 with
  | scalar _ => exact hu0.elim
  | matrix ms =>
  obtain ⟨X, hX⟩ := MapsAre.exists_of hu0
  obtain ⟨hD, hDC⟩ := hback
  obtain ⟨hE, hEC⟩ := hbackb
  have htot : ∀ z : Cf w ℝ, ∃ y, CplxOps.activate a.func z = some y := htot
  rw [ha.2.2.1] at hD hDC htot
  rw [hb.2.2] at hE hEC
  choose Ac hAc using htot
  choose D hD using hD
  choose DC hDC using hDC
  choose E hE using hE
  choose EC hEC using hEC
  have k5 : (Layer.conv a).forward (.matrix ms) = _ := Conv.forward_maps ha h1 h2 h3 h4 h5 h6 hX Ac hAc
  rw [k4] at k5
  cases k5
  have k6 := C41_flatten (l := l) (mapsAre_fromBody nf (r - p + 1) (c0 - q + 1)
    fun o i j => Ac (convPre m p q X K c o i j))
  replace k6 := k2.symm.trans k6
  cases k6
  obtain ⟨ge, hge⟩ := exists_range_map e
  obtain ⟨gec, hgec⟩ := exists_range_map ec
  rw [he] at hge
  rw [hec] at hgec
  simp only [Size.len] at hge hgec
  subst hge hgec
  generalize hR : r - p + 1 = R at *
  generalize hC : c0 - q + 1 = C at *
  obtain ⟨H, hH⟩ : ∃ H : Nat → Nat → Nat → Cf w ℝ, ∀ o i j, H o i j = Ac (convPre m p q X K c o i j) := ⟨_, fun _ _ _ => rfl⟩
  have hcube : ((List.range nf).flatMap fun ch => (List.range R).flatMap fun i =>
      (List.range C).map fun j => Ac (convPre m p q X K c ch i j)) = (List.range (nf * (R * C))).map (flatOf R C H) := by
    rw [← cube_flat]
    unfold cube table
    simp only [hH]
  rw [hcube] at hbk
  obtain ⟨mid, hmid⟩ : ∃ mid : Nat → Cf w ℝ, ∀ j, mid j
      = E ((∑ i ∈ Finset.range (nf * (R * C)), V j i * flatOf R C H i) + d j) * ge j
      + CplxOps.conj (EC ((∑ i ∈ Finset.range (nf * (R * C)), V j i * flatOf R C H i) + d j)) * gec j :=
    ⟨_, fun _ => rfl⟩
  rw [Dense.back_is hb hN (flatOf R C H) ge gec E EC hE hEC mid hmid] at hbk
  cases hbk
  simp only [backGrads_cons, range_map_cube] at hA
  obtain ⟨r1, b1, hA⟩ := Option.bind_eq_some_iff.mp hA
  cases b1
  obtain ⟨A1, hA1, rfl⟩ := Option.map_eq_some_iff.mp hA
  obtain ⟨r2, b2, hA2⟩ := Option.bind_eq_some_iff.mp hA1
  obtain ⟨A2, hA3, rfl⟩ := Option.map_eq_some_iff.mp hA2
  have b3 := Conv.back_is ha h1 h2 h3 h4 h5 h6 hX
    (fun o i j => ∑ k ∈ Finset.range v, V k (o * (R * C) + (i * C + j)) * mid k)
    (fun o i j => CplxOps.conj (∑ k ∈ Finset.range v, V k (o * (R * C) + (i * C + j)) * mid k)) D DC hD hDC
  rw [hR, hC] at b3
  rw [b3] at b2
  cases b2
  refine ⟨A2.reverse, B, _, _, _, _, ?_,
    by simp only [List.reverse_cons, List.append_assoc, List.cons_append, List.nil_append]; rfl, fun o ho => ?_⟩
  · simpa using hA'
  · rw [filterPair_sample]
    have e2 : readPair v R C V (fun j i => flatOf R C H i * mid j) o
        = ∑ i ∈ Finset.range R, ∑ j ∈ Finset.range C, (H o i j).toC
          * (∑ k ∈ Finset.range v, V k (o * (R * C) + (i * C + j)) * mid k).toC := by
      unfold readPair
      rw [Finset.sum_comm]
      refine Finset.sum_congr rfl fun i hi => ?_
      rw [Finset.sum_comm]
      refine Finset.sum_congr rfl fun j hj => ?_
      rw [toC_sum, Finset.mul_sum]
      refine Finset.sum_congr rfl fun k _ => ?_
      beta_reduce
      rw [flatOf_idx H o (Finset.mem_range.mp hi) (Finset.mem_range.mp hj), Cf.toC_hom_mul, Cf.toC_hom_mul]
      ring
    rw [e2]
    simp only [Complex.re_sum]
    refine Finset.sum_congr rfl fun i _ => Finset.sum_congr rfl fun j _ => ?_
    rw [hH]
    exact euler_place hf (hAc _) (hD _) (hDC _) _

/-! ## A batch -/

theorem FilterVec.sum {k nf m p q v N : Nat}
    {Q : (Nat → Nat → Nat → Nat → Cf w ℝ) → (Nat → Cf w ℝ) → (Nat → Nat → Cf w ℝ) → Prop}
    (hQ : ∀ D e B D' e' B', Q D e B → Q D' e' B' → Q (fun o ch x y => D o ch x y + D' o ch x y)
      (fun o => e o + e' o) fun j i => B j i + B' j i)
    {gss : List (List (LayerVec (Cf w ℝ)))} (h : ∀ gs ∈ gss, FilterVec k nf m p q v N Q gs)
    {acc : List (LayerVec (Cf w ℝ))} (h0 : FilterVec k nf m p q v N Q acc) :
    FilterVec k nf m p q v N Q (gss.foldl (List.zipWith LayerVec.add) acc) := by
  induction gss generalizing acc with
  | nil => exact h0
  | cons gs gss ih =>
    refine ih (fun g hg => h g (by simp [hg])) ?_
    obtain ⟨G1, G2, D, e, B, t, e1, rfl, e2⟩ := h0
    obtain ⟨K1, K2, D', e', B', t', e1', rfl, e2'⟩ := h gs (by simp)
    refine ⟨List.zipWith LayerVec.add G1 K1, List.zipWith LayerVec.add G2 K2, _, _, _, fun j => t j + t' j,
      by simp [e1, e1'], ?_, hQ _ _ _ _ _ _ e2 e2'⟩
    rw [List.zipWith_append (by rw [e1, e1']), List.zipWith_cons_cons, List.zipWith_cons_cons, List.zipWith_cons_cons]
    simp only [LayerVec.add, kvec_zipWith, table_zipWith, List.zipWith_map, List.zipWith_self]
    rfl

/-- C129. Training keeps every filter balanced up to second order. Let a convolutional layer without activation, with
RITReLU or with zReLU be read by a `Flatten` layer and a dense layer. A step with the real rate `ρ` changes the squared
norm of the kernels and the bias of a filter and the squared norm of the weights that read its map by the same amount,
up to `(ρ/B)²` times the difference of the squared norms of the summed derivatives. -/
theorem C129_balance {n n' : Net (Cf w ℝ)} {σ σ' : Size} (hr : n.Ready σ σ') {pre post : List (Layer (Cf w ℝ))}
    {a : Conv (Cf w ℝ)} {l : Flatten} {b : Dense (Cf w ℝ)} {nf m p q R C v : Nat}
    {K : Nat → Nat → Nat → Nat → Cf w ℝ} {V : Nat → Nat → Cf w ℝ} {c d : Nat → Cf w ℝ} {f g : ActFunc}
    (hf : f = .none ∨ f = .ritReLU ∨ f = .zReLU)
    (hn : n.layers = pre ++ .conv a :: .flatten l :: .dense b :: post) (ha : a.Is nf m p q K c f)
    (hl : l.inputSize = ((R, C), nf)) (hb : b.Is v (nf * (R * C)) V d g) {data : Dataset (Cf w ℝ)}
    (hs : data.HasSize σ σ') (hB : data.inputs ≠ []) {lf : LossFunc} {ρ : ℝ} {r : Except ForwardErr Unit}
    (h : n.gradientOpt data lf ⟨ρ, 0⟩ = some (r, n')) :
    ∃ gss, List.Forall₂ (fun p gs => sampleGrads n lf p = some gs) data.points gss
      ∧ ∃ (G1 G2 : List (LayerVec (Cf w ℝ))) (pre' post' : List (Layer (Cf w ℝ))) (a' : Conv (Cf w ℝ))
        (b' : Dense (Cf w ℝ)) (D K' : Nat → Nat → Nat → Nat → Cf w ℝ) (B V' : Nat → Nat → Cf w ℝ)
        (e t c' d' : Nat → Cf w ℝ), G1.length = pre.length ∧ pre'.length = pre.length
      ∧ sumGrads n gss = G1 ++ (kvec nf m p q D, (List.range nf).map e) :: ([], [])
          :: (table v (nf * (R * C)) B, (List.range v).map t) :: G2
      ∧ n'.layers = pre' ++ .conv a' :: .flatten l :: .dense b' :: post' ∧ a'.Is nf m p q K' c' f
      ∧ b'.Is v (nf * (R * C)) V' d' g
      ∧ ∀ o, o < nf → filterSq m p q K' c' o - readSq v R C V' o = filterSq m p q K c o - readSq v R C V o
        + (ρ / data.inputs.length) ^ 2 * (filterSq m p q D e o - readSq v R C B o) := by
  obtain ⟨rfl, gss, h1, rfl⟩ := (C50_partial n n' hr.layers hr.wf data hB lf ⟨ρ, 0⟩ rfl r).mp h
  have hsum : FilterVec pre.length nf m p q v (nf * (R * C)) (fun D e B => ∀ o, o < nf →
      (filterPair m p q K D c e o).re = (readPair v R C V B o).re) (sumGrads n gss) := by
    refine FilterVec.sum (fun D e B D' e' B' q1 q2 o ho => by
      rw [filterPair_add, readPair_add, Complex.add_re, Complex.add_re, q1 o ho, q2 o ho]) (fun gs hgs => ?_) ?_
    · obtain ⟨⟨x, t⟩, hp, hp'⟩ := forall₂_mem_right h1 gs hgs
      obtain ⟨z1, z2⟩ := hs _ hp
      exact filter_sample hr hf hn ha hl hb z1 z2 hp'.1
    · refine ⟨pre.map LayerVec.zero, post.map LayerVec.zero, fun _ _ _ _ => 0, fun _ => 0, fun _ _ => 0, fun _ => 0,
        by simp, ?_, fun o _ => by simp [filterPair, readPair, zero_toC]⟩
      rw [hn, List.map_append, List.map_cons, List.map_cons, List.map_cons, zero_conv ha, zero_dense hb]
      rfl
  obtain ⟨G1, G2, D, e, B, t, e1, e2, e3⟩ := hsum
  have er : ((⟨ρ, 0⟩ : Cf w ℝ).toC / (data.inputs.length : ℂ)) = ((ρ / data.inputs.length : ℝ) : ℂ) := by
    have : (⟨ρ, 0⟩ : Cf w ℝ).toC = (ρ : ℂ) := rfl
    rw [this]; push_cast; rfl
  rw [e2, er]
  obtain ⟨a', k1, i1⟩ := Conv.move_is ha (fun p d => Cf.ofC (p.toC
    - conj (((ρ / data.inputs.length : ℝ) : ℂ) * d.toC))) D e
  obtain ⟨b', k2, i2⟩ := Dense.zipParams_is hb (A := B) (s := t) fun p d => Cf.ofC (p.toC
    - conj (((ρ / data.inputs.length : ℝ) : ℂ) * d.toC))
  refine ⟨gss, h1.imp fun _ _ h => h.1, G1, G2, List.zipWith (Layer.zipParams fun p d => Cf.ofC (p.toC
      - conj (((ρ / data.inputs.length : ℝ) : ℂ) * d.toC))) pre G1,
    List.zipWith (Layer.zipParams fun p d => Cf.ofC (p.toC
      - conj (((ρ / data.inputs.length : ℝ) : ℂ) * d.toC))) post G2, a', b', D, _, B, _, e, t, _, _, e1, by simp [e1], e2, ?_, i1, i2,
    fun o ho => ?_⟩
  · show List.zipWith _ n.layers _ = _
    rw [hn, List.zipWith_append e1.symm, List.zipWith_cons_cons, List.zipWith_cons_cons, List.zipWith_cons_cons, k2]
    exact congrArg (fun z => _ ++ z :: _) k1
  · rw [filterSq_step, readSq_step, e3 o ho]
    ring

/-- The network of one filter satisfies the conditions. -/
example (K V : Cf w ℝ) : ∃ a b, (oneFilter .ritReLU K V).layers = [] ++ .conv a :: .flatten ⟨((1, 1), 1)⟩ :: .dense b :: []
    ∧ a.Is 1 1 1 1 (fun _ _ _ _ => K) (fun _ => K) .ritReLU ∧ b.Is 1 (1 * (1 * 1)) (fun _ _ => V) (fun _ => 0) .none
    ∧ (oneFilter .ritReLU K V).Ready (.maps 1 1 1) (.vec 1) :=
  ⟨_, _, rfl, ⟨rfl, rfl, rfl, _, Mat.fromBody_is 1 1 _, fun _ _ _ _ => Mat.fromBody_is 1 1 _⟩,
    ⟨Mat.fromBody_is 1 1 _, rfl, rfl⟩, oneFilter_ready ⟨fun _ => ⟨_, rfl⟩, fun _ => ⟨_, rfl⟩, fun _ => ⟨_, rfl⟩⟩ K V⟩

end Renplex
