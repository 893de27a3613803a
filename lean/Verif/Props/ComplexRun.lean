import Verif.Props.LeastSquares
import Verif.Props.ComplexRate
import Verif.Props.Affine
import Verif.Lemmas.Twist
/-!
# C122: training a single layer with a complex learning rate
-/

namespace Renplex
open ComplexConjugate Filter Topology
variable {w : Width} {pre : List (Layer (Cf w ℝ))} {s : Size} {u m : Nat}
  {pts : List (IOType (Cf w ℝ) × List (Cf w ℝ))}
  {l : Dense (Cf w ℝ)} {W : Nat → Nat → Cf w ℝ} {b : Nat → Cf w ℝ}

/-- One training call on the network with any learning rate: the new parameters. -/
theorem FixedFront.step_any (h : FixedFront pre s m) (hl : l.Is u m W b .none) (hB : pts ≠ [])
    (hp : ∀ q ∈ pts, q.1.HasSize s ∧ q.2.length = u) (f : LossFunc) (lr : Cf w ℝ) :
    ∃ l' : Dense (Cf w ℝ),
      (withHead pre l).gradientOpt (batchOf pts) f lr = some (.ok (), withHead pre l')
      ∧ l'.Is u m (fun j i => Cf.ofC ((W j i).toC - bump (lr.x / pts.length) (lr.y / pts.length)
          (pts.map fun q => conj (at' (features pre q.1) i).toC
            * ((headOut pre m W b q.1 j).toC - (at' q.2 j).toC)).sum))
        (fun j => Cf.ofC ((b j).toC - bump (lr.x / pts.length) (lr.y / pts.length)
          (pts.map fun q => (headOut pre m W b q.1 j).toC - (at' q.2 j).toC).sum)) .none := by
  have hr := h.ready hl
  have hs : (batchOf pts).HasSize s (.vec u) := by
    intro p hpp
    rw [batchOf_points] at hpp
    obtain ⟨q, hq, rfl⟩ := List.mem_map.mp hpp
    exact hp q hq
  have hin : (batchOf pts).inputs ≠ [] := by simpa [batchOf] using hB
  obtain ⟨n', hn', -⟩ := C66_exact (withHead pre l) hr [(batchOf pts, f, lr)] (by
    intro st hst
    obtain rfl := List.mem_singleton.mp hst
    exact ⟨hs, hin⟩)
  simp only [Net.train, List.foldlM_cons, List.foldlM_nil, Option.bind_eq_bind] at hn'
  obtain ⟨n1, hn1, e1⟩ := Option.bind_eq_some_iff.mp hn'
  cases e1
  obtain ⟨⟨res, n2⟩, hn2, rfl⟩ := Option.map_eq_some_iff.mp hn1
  obtain ⟨rfl, gss, hg, he⟩ := (C50_partial_value (withHead pre l) n2 hr.layers hr.wf (batchOf pts) hin f
    lr res).mp hn2
  rw [batchOf_points, List.forall₂_map_left_iff] at hg
  have hg' : List.Forall₂ (fun q gs => ∃ g0, gs = g0 ++ [(table u m fun j i =>
      at' (features pre q.1) i * CplxOps.conj (headOut pre m W b q.1 j - at' q.2 j),
        (List.range u).map fun j => CplxOps.conj (headOut pre m W b q.1 j - at' q.2 j))]
      ∧ g0.length = pre.length) pts gss := by
    have hmem : ∀ q ∈ pts, q ∈ pts := fun _ h => h
    revert hmem
    generalize hP : pts = ps
    rw [hP] at hg
    intro hmem
    have hp' : ∀ q ∈ ps, q.1.HasSize s ∧ q.2.length = u := hP ▸ hp
    clear hmem hP he
    induction hg with
    | nil => exact .nil
    | @cons q gs ps gss h1 _ ih =>
      refine .cons ?_ (ih fun q hq => hp' q (by simp [hq]))
      have := hp' q (by simp)
      exact h.sample hl this.1 this.2 h1.1
  obtain ⟨A', hA', hsum⟩ := foldl_last _ _ hg' (pre.map LayerVec.zero) (by simp) (fun _ _ => 0)
    (fun _ => 0)
  obtain ⟨gw, gb, hgw, hgb, hG⟩ : ∃ gw gb, gw = (table u m fun j i => (0 : Cf w ℝ)
      + (pts.map fun q => at' (features pre q.1) i
        * CplxOps.conj (headOut pre m W b q.1 j - at' q.2 j)).sum)
      ∧ gb = ((List.range u).map fun j => (0 : Cf w ℝ)
        + (pts.map fun q => CplxOps.conj (headOut pre m W b q.1 j - at' q.2 j)).sum)
      ∧ sumGrads (withHead pre l) gss = A' ++ [(gw, gb)] := by
    refine ⟨_, _, rfl, rfl, ?_⟩
    rw [← hsum]
    unfold sumGrads
    congr 1
    simp only [withHead, List.map_append, List.map_cons, List.map_nil]
    rw [LayerVec.zero_dense hl]
  have hlen : (batchOf pts).inputs.length = pts.length := by simp [batchOf]
  have hupd : (fun p d : Cf w ℝ =>
            let B : ℝ := (batchOf pts).inputs.length
            let x := d.x * (lr.x / B) - d.y * (lr.y / B)
            p - (⟨x, -(x * (lr.y / B) + d.y * (lr.x / B))⟩ : Cf w ℝ))
      = fun p d => Cf.ofC (p.toC - bump (lr.x / pts.length) (lr.y / pts.length) (conj d.toC)) := by
    funext p d
    simp only [hlen]
    apply Cf.ext
    · show p.x - (d.x * (lr.x / pts.length) - d.y * (lr.y / pts.length))
        = p.x - (lr.x / pts.length * d.x + lr.y / pts.length * -d.y)
      ring
    · show p.y - -((d.x * (lr.x / pts.length) - d.y * (lr.y / pts.length)) * (lr.y / pts.length)
          + d.y * (lr.x / pts.length))
        = p.y - (-(lr.x / pts.length * (lr.y / pts.length) * d.x)
          + (lr.x / pts.length - (lr.y / pts.length) ^ 2) * -d.y)
      ring
  rw [hupd] at he
  refine ⟨⟨⟨List.zipWith (fun p d : Cf w ℝ => Cf.ofC (p.toC - bump (lr.x / pts.length) (lr.y / pts.length)
        (conj d.toC))) l.weights.body gw, l.weights.shape, l.weights.capacity⟩,
      List.zipWith (fun p d : Cf w ℝ => Cf.ofC (p.toC - bump (lr.x / pts.length) (lr.y / pts.length)
        (conj d.toC))) l.biases gb, l.func⟩, ?_, ⟨hl.1.1, ?_⟩, ?_, hl.2.2⟩
  · rw [hn2, he, hG]
    unfold Net.zipParams withHead
    rw [List.zipWith_append (by rw [hA']), zipParams_fixed h.fixed hA']
    rfl
  · show List.zipWith _ l.weights.body _ = _
    rw [hl.1.2, hgw, table_zipWith]
    congr 1
    funext j i
    rw [zero_add, conj_list_sum, List.map_map]
    congr 4
    refine List.map_congr_left fun q _ => ?_
    simp only [Function.comp_apply, Cf.toC_hom_mul, toC_conj', map_mul, Complex.conj_conj, Cf.toC_hom_sub]
  · show List.zipWith _ l.biases _ = _
    rw [hl.2.1, hgb, List.zipWith_map, List.zipWith_self]
    congr 1
    funext j
    rw [zero_add, conj_list_sum, List.map_map]
    congr 4
    refine List.map_congr_left fun q _ => ?_
    simp only [Function.comp_apply, toC_conj', Complex.conj_conj, Cf.toC_hom_sub]

/-- C122. Training never fails, for any batch, loss and complex learning rate. -/
theorem C122_run (h : FixedFront pre s m) (hl : l.Linear u m) (hB : pts ≠ [])
    (hp : ∀ q ∈ pts, q.1.HasSize s ∧ q.2.length = u) (f : LossFunc) (lr : Cf w ℝ) :
    ∃ L e, L 0 = l ∧ ComplexRun pre u m pts f lr L e := by
  have hstep : ∀ l : {l : Dense (Cf w ℝ) // l.Linear u m}, ∃ l' : {l : Dense (Cf w ℝ) // l.Linear u m},
      (withHead pre l.1).gradientOpt (batchOf pts) f lr = some (.ok (), withHead pre l'.1) := by
    rintro ⟨l, W, b, hl⟩
    obtain ⟨l', h1, h2⟩ := h.step_any hl hB hp f lr
    exact ⟨⟨l', _, _, h2⟩, h1⟩
  choose F hF using hstep
  have herr : ∀ l : {l : Dense (Cf w ℝ) // l.Linear u m}, ∃ e, BatchError (withHead pre l.1) pts e := by
    rintro ⟨l, W, b, hl⟩
    exact ⟨_, (h.error hl hp _).mpr rfl⟩
  choose E hE using herr
  refine ⟨fun T => (F^[T] ⟨l, hl⟩).1, fun T => E (F^[T] ⟨l, hl⟩), rfl, fun T => (F^[T] ⟨l, hl⟩).2, ?_,
    fun T => hE _⟩
  intro T
  induction T with
  | zero => rfl
  | succ T ih =>
    rw [List.replicate_succ', Net.train, List.foldlM_append]
    rw [Net.train] at ih
    rw [ih]
    simp only [Option.bind_eq_bind, Option.bind_some, List.foldlM_cons, List.foldlM_nil, hF,
      Option.map_some, Function.iterate_succ_apply']
    rfl

/-! ## One point -/

variable {x : IOType (Cf w ℝ) × List (Cf w ℝ)}

theorem sum_features {β : Type} [AddCommMonoid β] (v : List (Cf w ℝ)) {m : Nat} (hm : v.length = m)
    (g : Cf w ℝ → β) : (v.map g).sum = ∑ i ∈ Finset.range m, g (at' v i) := by
  conv_lhs => rw [← range_at' v, hm, List.map_map]
  rw [← sum_range_list]
  rfl

theorem FixedFront.features_length (h : FixedFront pre s m) {x : IOType (Cf w ℝ)} (hx : x.HasSize s) :
    (features pre x).length = m := by
  obtain ⟨-, -, -, h3⟩ := h.chain hx
  exact h3

theorem FixedFront.magnitude_eq (h : FixedFront pre s m) {x : IOType (Cf w ℝ)} (hx : x.HasSize s) :
    magnitude pre x = 1 + ∑ i ∈ Finset.range m, ‖(at' (features pre x) i).toC‖ ^ 2 := by
  rw [magnitude, sum_features _ (h.features_length hx)]

theorem FixedFront.squareOf_eq (h : FixedFront pre s m) {x : IOType (Cf w ℝ)} (hx : x.HasSize s) :
    squareOf pre x = 1 + ∑ i ∈ Finset.range m, (at' (features pre x) i).toC ^ 2 := by
  rw [squareOf, sum_features _ (h.features_length hx)]

theorem FixedFront.magnitude_ge (h : FixedFront pre s m) {x : IOType (Cf w ℝ)} (hx : x.HasSize s) :
    1 ≤ magnitude pre x ∧ ‖squareOf pre x‖ ≤ magnitude pre x
      ∧ 2 - magnitude pre x ≤ ‖squareOf pre x‖ := by
  have h1 : ‖∑ i ∈ Finset.range m, (at' (features pre x) i).toC ^ 2‖
      ≤ ∑ i ∈ Finset.range m, ‖(at' (features pre x) i).toC‖ ^ 2 := by
    refine (norm_sum_le _ _).trans_eq (Finset.sum_congr rfl fun i _ => ?_)
    rw [norm_pow]
  have h0 : 0 ≤ ∑ i ∈ Finset.range m, ‖(at' (features pre x) i).toC‖ ^ 2 :=
    Finset.sum_nonneg fun i _ => sq_nonneg _
  rw [h.magnitude_eq hx, h.squareOf_eq hx]
  refine ⟨by linarith, ?_, ?_⟩
  · refine (norm_add_le _ _).trans ?_
    rw [norm_one]
    linarith
  · have h2 := norm_sub_le (1 + ∑ i ∈ Finset.range m, (at' (features pre x) i).toC ^ 2)
      (∑ i ∈ Finset.range m, (at' (features pre x) i).toC ^ 2)
    rw [add_sub_cancel_right, norm_one] at h2
    linarith

/-- The deviation of an output from its target. -/
noncomputable def deviation (pre : List (Layer (Cf w ℝ))) (m : Nat) (W : Nat → Nat → Cf w ℝ)
    (b : Nat → Cf w ℝ) (x : IOType (Cf w ℝ) × List (Cf w ℝ)) (j : Nat) : ℂ :=
  (headOut pre m W b x.1 j).toC - (at' x.2 j).toC

theorem headOut_toC (W : Nat → Nat → Cf w ℝ) (b : Nat → Cf w ℝ) (x : IOType (Cf w ℝ)) (j : Nat) :
    (headOut pre m W b x j).toC
      = (∑ i ∈ Finset.range m, (W j i).toC * (at' (features pre x) i).toC) + (b j).toC := by
  unfold headOut
  rw [Cf.toC_hom_add]
  congr 1
  induction (Finset.range m) using Finset.induction_on with
  | empty => simp [Cf.toC_hom_zero]
  | insert a S ha ih => rw [Finset.sum_insert ha, Finset.sum_insert ha, Cf.toC_hom_add, Cf.toC_hom_mul, ih]

/-- The deviation after a training call on one point. -/
theorem FixedFront.deviation_next (h : FixedFront pre s m) (hx : x.1.HasSize s) (a c : ℝ) (j : Nat) :
    deviation pre m (fun j i => Cf.ofC ((W j i).toC - bump a c
          (conj (at' (features pre x.1) i).toC * deviation pre m W b x j)))
        (fun j => Cf.ofC ((b j).toC - bump a c (deviation pre m W b x j))) x j
      = twistNext (magnitude pre x.1) (squareOf pre x.1) a c (deviation pre m W b x j) := by
  have e1 : ∀ v : ℂ, ∑ i ∈ Finset.range m, bump a c (conj (at' (features pre x.1) i).toC * v)
      * (at' (features pre x.1) i).toC + bump a c v
      = magnitude pre x.1 * bumpA a c * v + squareOf pre x.1 * bumpB a c * conj v := by
    intro v
    rw [h.magnitude_eq hx, h.squareOf_eq hx]
    push_cast
    simp only [bump_eq, add_mul, one_mul, map_mul, Complex.conj_conj, Finset.sum_mul, Finset.sum_add_distrib]
    have k1 : ∀ i, bumpA a c * (conj (at' (features pre x.1) i).toC * v) * (at' (features pre x.1) i).toC
        = (‖(at' (features pre x.1) i).toC‖ : ℂ) ^ 2 * bumpA a c * v := by
      intro i
      rw [← Complex.mul_conj']
      ring
    have k2 : ∀ i, bumpB a c * ((at' (features pre x.1) i).toC * conj v) * (at' (features pre x.1) i).toC
        = (at' (features pre x.1) i).toC ^ 2 * bumpB a c * conj v := by
      intro i
      ring
    simp only [k1, k2]
    ring
  obtain ⟨D, hD⟩ : ∃ D, D = deviation pre m W b x := ⟨_, rfl⟩
  rw [← hD]
  unfold twistNext
  rw [← e1 (D j)]
  have hv : D j = deviation pre m W b x j := by rw [hD]
  unfold deviation at hv ⊢
  rw [headOut_toC] at hv ⊢
  simp only [Cf.toC_ofC, sub_mul, Finset.sum_sub_distrib]
  linear_combination -hv

/-- The deviations along a run. -/
theorem FixedFront.deviations (h : FixedFront pre s m) (hx : x.1.HasSize s ∧ x.2.length = u)
    {f : LossFunc} {lr : Cf w ℝ} {L : Nat → Dense (Cf w ℝ)} {e : Nat → ℝ}
    (hrun : ComplexRun pre u m [x] f lr L e) :
    ∃ v : Nat → Nat → ℂ,
      (∀ T j, j < u → v (T + 1) j
        = twistNext (magnitude pre x.1) (squareOf pre x.1) lr.x lr.y (v T j))
      ∧ (∀ T, e T = ∑ j ∈ Finset.range u, ‖v T j‖ ^ 2)
      ∧ (∀ T y, TwistedError pre (L T) x lr y ↔ y = ∑ j ∈ Finset.range u,
          twist (magnitude pre x.1) (squareOf pre x.1) lr.x lr.y (v T j)) := by
  have hp : ∀ q ∈ [x], q.1.HasSize s ∧ q.2.length = u := by simpa using hx
  choose W b hL using hrun.linear
  have hx2 : (List.range u).map (at' x.2) = x.2 := by rw [← hx.2]; exact range_at' _
  refine ⟨fun T => deviation pre m (W T) (b T) x, ?_, ?_, ?_⟩
  · intro T j hj
    obtain ⟨l', h1, h2⟩ := h.step_any (hL T) (List.cons_ne_nil _ _) hp f lr
    have h4 := hrun.train (T + 1)
    rw [List.replicate_succ', Net.train, List.foldlM_append] at h4
    have h5 := hrun.train T
    rw [Net.train] at h5
    rw [h5] at h4
    simp only [Option.bind_eq_bind, Option.bind_some, List.foldlM_cons, List.foldlM_nil, h1,
      Option.map_some] at h4
    have h6 : l' = L (T + 1) := withHead_inj (Option.some.inj h4)
    subst h6
    rw [← h.deviation_next hx.1]
    have e1 := (h.forward (hL (T + 1)) hx.1).symm.trans (h.forward h2 hx.1)
    simp only [Option.some.injEq, Except.ok.injEq, IOType.scalar.injEq] at e1
    have e2 := List.map_inj_left.mp e1 j (List.mem_range.mpr hj)
    beta_reduce
    unfold deviation
    rw [e2]
    simp only [List.map_cons, List.map_nil, List.sum_cons, List.sum_nil, add_zero, List.length_singleton,
      Nat.cast_one, div_one]
  · intro T
    rw [(h.error_sum (hL T) (fun q hq => (hp q hq).1) _).mp (hrun.error T), List.map_singleton,
      List.sum_singleton]
    conv_lhs => rw [← hx2]
    rw [sqSum_range]
    refine Finset.sum_congr rfl fun j _ => ?_
    rw [norm_sub_rev]
    rfl
  · intro T y
    unfold TwistedError
    rw [h.forward (hL T) hx.1]
    have e3 : ((((List.range u).map (headOut pre m (W T) (b T) x.1)).zip x.2).map fun z =>
        twist (magnitude pre x.1) (squareOf pre x.1) lr.x lr.y (z.1.toC - z.2.toC)).sum
        = ∑ j ∈ Finset.range u, twist (magnitude pre x.1) (squareOf pre x.1) lr.x lr.y
          (deviation pre m (W T) (b T) x j) := by
      conv_lhs => rw [← hx2]
      rw [zip_range_map, List.map_map, ← sum_range_list]
      rfl
    rw [← e3]
    simp

/-- C122. One point: every training call multiplies the twisted error by the same factor, for every complex
learning rate, every input and any initial parameters. -/
theorem C122_factor (h : FixedFront pre s m) (hx : x.1.HasSize s ∧ x.2.length = u)
    {f : LossFunc} {lr : Cf w ℝ} {L : Nat → Dense (Cf w ℝ)} {e : Nat → ℝ}
    (hrun : ComplexRun pre u m [x] f lr L e) :
    ∃ y, ∀ T : Nat, TwistedError pre (L T) x lr
      (twistFactor (magnitude pre x.1) (squareOf pre x.1) lr.x lr.y ^ T * y) := by
  obtain ⟨v, h1, -, h3⟩ := h.deviations hx hrun
  refine ⟨_, fun T => (h3 T _).mpr (Eq.symm (?_ : _ = _ * ∑ j ∈ Finset.range u,
    twist (magnitude pre x.1) (squareOf pre x.1) lr.x lr.y (v 0 j)))⟩
  induction T with
  | zero => rw [pow_zero, one_mul]
  | succ T ih =>
    rw [pow_succ', mul_assoc, ← ih, Finset.mul_sum]
    refine Finset.sum_congr rfl fun j hj => ?_
    rw [h1 T j (Finset.mem_range.mp hj), twist_next]

theorem TwistedError.unique {lr : Cf w ℝ} {y y' : ℝ} (h : TwistedError pre l x lr y)
    (h' : TwistedError pre l x lr y') : y = y' := by
  obtain ⟨p, h1, rfl⟩ := h
  obtain ⟨p', h2, rfl⟩ := h'
  rw [h1] at h2
  cases h2
  rfl

/-- The twisted error against the error. -/
theorem FixedFront.twist_bounds (h : FixedFront pre s m) (hx : x.1.HasSize s ∧ x.2.length = u)
    {f : LossFunc} {lr : Cf w ℝ} {L : Nat → Dense (Cf w ℝ)} {e : Nat → ℝ}
    (hrun : ComplexRun pre u m [x] f lr L e) {T : Nat} {y : ℝ} (hy : TwistedError pre (L T) x lr y) :
    (magnitude pre x.1 * (1 + lr.x) - ‖squareOf pre x.1 * (⟨lr.y, 1 - lr.x⟩ : ℂ)‖) * e T ≤ y
      ∧ |y| ≤ (|magnitude pre x.1 * (1 + lr.x)| + ‖squareOf pre x.1 * (⟨lr.y, 1 - lr.x⟩ : ℂ)‖) * e T := by
  obtain ⟨v, -, h2, h3⟩ := h.deviations hx hrun
  rw [(h3 T y).mp hy, h2 T, Finset.mul_sum, Finset.mul_sum]
  refine ⟨Finset.sum_le_sum fun j _ => twist_low _, ?_⟩
  exact (Finset.abs_sum_le_sum_abs _ _).trans (Finset.sum_le_sum fun j _ => twist_high _)

theorem ComplexRun.error_nonneg {f : LossFunc} {lr : Cf w ℝ} {L : Nat → Dense (Cf w ℝ)} {e : Nat → ℝ}
    (h : FixedFront pre s m) (hx : x.1.HasSize s ∧ x.2.length = u)
    (hrun : ComplexRun pre u m [x] f lr L e) (T : Nat) : 0 ≤ e T := by
  obtain ⟨v, -, h2, -⟩ := h.deviations hx hrun
  rw [h2 T]
  exact Finset.sum_nonneg fun j _ => sq_nonneg _

theorem twistFactor_nonneg {c : ℝ} {s : ℂ} {a b : ℝ} (hd : ‖s * (⟨b, 1 - a⟩ : ℂ)‖ < c * (1 + a)) :
    0 ≤ twistFactor c s a b := by
  have h1 := twist_low (c := c) (s := s) (a := a) (b := b) 1
  have h2 := twist_low (c := c) (s := s) (a := a) (b := b) (twistNext c s a b 1)
  rw [twist_next] at h2
  rw [norm_one, one_pow, mul_one] at h1
  have h3 : 0 ≤ twistFactor c s a b * twist c s a b 1 :=
    le_trans (mul_nonneg (by linarith) (sq_nonneg _)) h2
  exact nonneg_of_mul_nonneg_left h3 (by linarith)

/-- C122. When the twisted error is positive definite, the error after `T` calls is at most a constant times
the `T`-th power of the factor. -/
theorem C122_bound (h : FixedFront pre s m) (hx : x.1.HasSize s ∧ x.2.length = u)
    {f : LossFunc} {lr : Cf w ℝ} {L : Nat → Dense (Cf w ℝ)} {e : Nat → ℝ}
    (hrun : ComplexRun pre u m [x] f lr L e)
    (hd : ‖squareOf pre x.1 * (⟨lr.y, 1 - lr.x⟩ : ℂ)‖ < magnitude pre x.1 * (1 + lr.x)) (T : Nat) :
    (magnitude pre x.1 * (1 + lr.x) - ‖squareOf pre x.1 * (⟨lr.y, 1 - lr.x⟩ : ℂ)‖) * e T
      ≤ twistFactor (magnitude pre x.1) (squareOf pre x.1) lr.x lr.y ^ T
        * ((magnitude pre x.1 * (1 + lr.x) + ‖squareOf pre x.1 * (⟨lr.y, 1 - lr.x⟩ : ℂ)‖) * e 0) := by
  obtain ⟨y, hy⟩ := C122_factor h hx hrun
  refine (h.twist_bounds hx hrun (hy T)).1.trans ?_
  have h0 := hy 0
  rw [pow_zero, one_mul] at h0
  have h1 := (h.twist_bounds hx hrun h0).2
  rw [abs_of_pos (lt_of_le_of_lt (norm_nonneg _) hd)] at h1
  exact mul_le_mul_of_nonneg_left ((le_abs_self y).trans h1) (pow_nonneg (twistFactor_nonneg hd) T)

theorem ComplexRun.vanishes (h : FixedFront pre s m) (hx : x.1.HasSize s ∧ x.2.length = u)
    {f : LossFunc} {lr : Cf w ℝ} {L : Nat → Dense (Cf w ℝ)} {e : Nat → ℝ}
    (hrun : ComplexRun pre u m [x] f lr L e)
    (hd : ‖squareOf pre x.1 * (⟨lr.y, 1 - lr.x⟩ : ℂ)‖ < magnitude pre x.1 * (1 + lr.x))
    (hf : twistFactor (magnitude pre x.1) (squareOf pre x.1) lr.x lr.y < 1) :
    Tendsto e atTop (𝓝 0) := by
  have hpos := sub_pos.mpr hd
  have h1 := (tendsto_pow_atTop_nhds_zero_of_lt_one (twistFactor_nonneg hd) hf).mul_const
    ((magnitude pre x.1 * (1 + lr.x) + ‖squareOf pre x.1 * (⟨lr.y, 1 - lr.x⟩ : ℂ)‖) * e 0
      / (magnitude pre x.1 * (1 + lr.x) - ‖squareOf pre x.1 * (⟨lr.y, 1 - lr.x⟩ : ℂ)‖))
  rw [zero_mul] at h1
  refine squeeze_zero (hrun.error_nonneg h hx) (fun T => ?_) h1
  have h2 := C122_bound h hx hrun hd T
  rw [← mul_div_assoc, le_div_iff₀ hpos, mul_comm (e T)]
  exact h2

/-- C122. One point: the error goes to 0 for every complex learning rate `r` with `|r|²·(1 + ‖x‖²) < 2·Re r`,
the range in which a step with the exact product would make it vanish, although the step is another one. -/
theorem C122_intended (h : FixedFront pre s m) (hx : x.1.HasSize s ∧ x.2.length = u)
    {f : LossFunc} {lr : Cf w ℝ} {L : Nat → Dense (Cf w ℝ)} {e : Nat → ℝ}
    (hrun : ComplexRun pre u m [x] f lr L e)
    (hr : magnitude pre x.1 * (lr.x ^ 2 + lr.y ^ 2) < 2 * lr.x) : Tendsto e atTop (𝓝 0) := by
  obtain ⟨h1, h2, h3⟩ := h.magnitude_ge hx.1
  obtain ⟨h4, h5⟩ := twist_wider h1 h2 h3 hr
  exact hrun.vanishes h hx h4 h5

/-- C122. One point and a factor above 1: the error grows beyond every bound, unless the twisted error is 0
at the start. -/
theorem C122_diverges (h : FixedFront pre s m) (hx : x.1.HasSize s ∧ x.2.length = u)
    {f : LossFunc} {lr : Cf w ℝ} {L : Nat → Dense (Cf w ℝ)} {e : Nat → ℝ}
    (hrun : ComplexRun pre u m [x] f lr L e)
    (hf : 1 < twistFactor (magnitude pre x.1) (squareOf pre x.1) lr.x lr.y)
    (h0 : ¬ TwistedError pre (L 0) x lr 0) : Tendsto e atTop atTop := by
  obtain ⟨y, hy⟩ := C122_factor h hx hrun
  have hy0 := hy 0
  rw [pow_zero, one_mul] at hy0
  have hne : y ≠ 0 := by
    rintro rfl
    exact h0 hy0
  have hb := fun T => (h.twist_bounds hx hrun (hy T)).2
  have hC : 0 < |magnitude pre x.1 * (1 + lr.x)| + ‖squareOf pre x.1 * (⟨lr.y, 1 - lr.x⟩ : ℂ)‖ := by
    refine lt_of_le_of_ne (by positivity) fun h => ?_
    have := hb 0
    rw [← h, zero_mul, pow_zero, one_mul] at this
    exact hne (abs_eq_zero.mp (le_antisymm this (abs_nonneg _)))
  have h1 := (tendsto_pow_atTop_atTop_of_one_lt hf).atTop_mul_const (div_pos (abs_pos.mpr hne) hC)
  refine tendsto_atTop_mono (fun T => ?_) h1
  have := hb T
  rw [abs_mul, abs_pow, abs_of_pos (by linarith : (0 : ℝ) < twistFactor _ _ _ _)] at this
  rw [← mul_div_assoc, div_le_iff₀ hC, mul_comm (e T)]
  exact this

/-- C122. One point and a factor of at least 1: the error does not go to 0, unless the twisted error is 0 at
the start. -/
theorem C122_stuck (h : FixedFront pre s m) (hx : x.1.HasSize s ∧ x.2.length = u)
    {f : LossFunc} {lr : Cf w ℝ} {L : Nat → Dense (Cf w ℝ)} {e : Nat → ℝ}
    (hrun : ComplexRun pre u m [x] f lr L e)
    (hf : 1 ≤ twistFactor (magnitude pre x.1) (squareOf pre x.1) lr.x lr.y)
    (h0 : ¬ TwistedError pre (L 0) x lr 0) : ¬ Tendsto e atTop (𝓝 0) := by
  intro ht
  obtain ⟨y, hy⟩ := C122_factor h hx hrun
  have hy0 := hy 0
  rw [pow_zero, one_mul] at hy0
  have hne : y ≠ 0 := by
    rintro rfl
    exact h0 hy0
  have hb := fun T => (h.twist_bounds hx hrun (hy T)).2
  have h1 := ht.const_mul (|magnitude pre x.1 * (1 + lr.x)| + ‖squareOf pre x.1 * (⟨lr.y, 1 - lr.x⟩ : ℂ)‖)
  rw [mul_zero] at h1
  have h2 : |y| ≤ 0 := by
    refine ge_of_tendsto' h1 fun T => le_trans ?_ (hb T)
    rw [abs_mul, abs_pow]
    refine le_mul_of_one_le_left (abs_nonneg _) (one_le_pow₀ ?_)
    exact hf.trans (le_abs_self _)
  exact hne (abs_eq_zero.mp (le_antisymm h2 (abs_nonneg _)))

/-- C122. One point and a learning rate other than 0 without positive real part, for example an imaginary one:
the error grows beyond every bound, unless the twisted error is 0 at the start. -/
theorem C122_left (h : FixedFront pre s m) (hx : x.1.HasSize s ∧ x.2.length = u)
    {f : LossFunc} {lr : Cf w ℝ} {L : Nat → Dense (Cf w ℝ)} {e : Nat → ℝ}
    (hrun : ComplexRun pre u m [x] f lr L e) (hr : lr.x ≤ 0) (hne : lr ≠ 0)
    (h0 : ¬ TwistedError pre (L 0) x lr 0) : Tendsto e atTop atTop := by
  obtain ⟨h1, h2, -⟩ := h.magnitude_ge hx.1
  refine C122_diverges h hx hrun ?_ h0
  unfold twistFactor
  have hD : 0 ≤ (magnitude pre x.1 ^ 2 - ‖squareOf pre x.1‖ ^ 2)
      * (lr.y ^ 2 * (lr.y ^ 2 + (1 - lr.x) ^ 2)) / 4 := by
    have : 0 ≤ magnitude pre x.1 ^ 2 - ‖squareOf pre x.1‖ ^ 2 := by
      nlinarith [norm_nonneg (squareOf pre x.1)]
    positivity
  have hpos : 0 < lr.y ^ 2 - 2 * lr.x := by
    rcases hr.lt_or_eq with h | h
    · nlinarith [sq_nonneg lr.y]
    · have : lr.y ≠ 0 := fun hy => hne (Cf.ext h hy)
      rw [h, mul_zero, sub_zero]
      positivity
  have h3 : 0 < magnitude pre x.1 * (lr.y ^ 2 - 2 * lr.x) := mul_pos (by linarith) hpos
  nlinarith [sq_nonneg (magnitude pre x.1 * lr.x)]

/-! ## Real inputs -/

theorem FixedFront.square_real (h : FixedFront pre s m) {x : IOType (Cf w ℝ)} (hx : x.HasSize s)
    (hre : ∀ z ∈ features pre x, z.y = 0) : squareOf pre x = magnitude pre x := by
  rw [h.squareOf_eq hx, h.magnitude_eq hx]
  push_cast
  congr 1
  refine Finset.sum_congr rfl fun i hi => ?_
  have h1 : at' (features pre x) i ∈ features pre x := by
    rw [Finset.mem_range, ← h.features_length hx] at hi
    unfold at'
    rw [List.getD_eq_getElem?_getD, List.getElem?_eq_getElem hi]
    exact List.getElem_mem hi
  have h2 : (at' (features pre x) i).toC = ((at' (features pre x) i).x : ℂ) := by
    apply Complex.ext
    · rfl
    · exact hre _ h1
  rw [h2, Complex.norm_real, Real.norm_eq_abs, ← Complex.ofReal_pow, ← Complex.ofReal_pow, sq_abs]

/-- C122. One point with real features: the error goes to 0 from all initial parameters exactly for the
learning rates `a + b·i` with `(1 + ‖x‖²)·a² < 2·a - b²`. -/
theorem C122_real (h : FixedFront pre s m) (hu : 0 < u) (hx : x.1.HasSize s ∧ x.2.length = u)
    (hre : ∀ z ∈ features pre x.1, z.y = 0) (f : LossFunc) (lr : Cf w ℝ) :
    (∀ L e, ComplexRun pre u m [x] f lr L e → Tendsto e atTop (𝓝 0))
      ↔ magnitude pre x.1 * lr.x ^ 2 < 2 * lr.x - lr.y ^ 2 := by
  have hc := (h.magnitude_ge hx.1).1
  have hsq := h.square_real hx.1 hre
  have hiff := twist_real (a := lr.x) (b := lr.y) hc hsq
  constructor
  · intro hall
    by_contra hn
    have hp : ∀ q ∈ [x], q.1.HasSize s ∧ q.2.length = u := by simpa using hx
    have hl : (Dense.of u m (fun _ _ => (0 : Cf w ℝ)) (fun j => Cf.ofC ((at' x.2 j).toC + Complex.I))
      .none).Is u m (fun _ _ => (0 : Cf w ℝ)) (fun j => Cf.ofC ((at' x.2 j).toC + Complex.I)) .none :=
      Dense.of_is _ _ _ _ _
    obtain ⟨L, e, h0, hrun⟩ := C122_run h ⟨_, _, hl⟩ (List.cons_ne_nil x []) hp f lr
    have hfac : 1 ≤ twistFactor (magnitude pre x.1) (squareOf pre x.1) lr.x lr.y := by
      rw [hsq]
      unfold twistFactor
      rw [Complex.norm_real, Real.norm_eq_abs, sq_abs, sub_self, zero_mul, zero_div, add_zero]
      nlinarith
    refine C122_stuck h hx hrun hfac ?_ (hall L e hrun)
    rw [h0]
    rintro ⟨p, h1, h2⟩
    rw [h.forward hl hx.1] at h1
    simp only [Option.some.injEq, Except.ok.injEq, IOType.scalar.injEq] at h1
    subst h1
    have hx2 : (List.range u).map (at' x.2) = x.2 := by rw [← hx.2]; exact range_at' _
    obtain ⟨B, hBdef⟩ : ∃ B : Nat → Cf w ℝ, B = fun j => Cf.ofC ((at' x.2 j).toC + Complex.I) := ⟨_, rfl⟩
    rw [← hBdef] at h2
    conv_rhs at h2 => rw [← hx2]
    rw [zip_range_map, List.map_map, sum_range_list, hBdef] at h2
    have hone : ∀ j, twist (magnitude pre x.1) (squareOf pre x.1) lr.x lr.y
        ((headOut pre m (fun _ _ => (0 : Cf w ℝ)) (fun j => Cf.ofC ((at' x.2 j).toC + Complex.I)) x.1 j).toC
          - (at' x.2 j).toC) = 2 * magnitude pre x.1 := by
      intro j
      rw [headOut_toC]
      simp only [Cf.toC_hom_zero, zero_mul, Finset.sum_const_zero, zero_add, Cf.toC_ofC, add_sub_cancel_left]
      rw [hsq]
      simp [twist]
      ring
    have h3 : (0 : ℝ) = ∑ _j ∈ Finset.range u, 2 * magnitude pre x.1 :=
      h2.trans (Finset.sum_congr rfl fun j _ => hone j)
    rw [Finset.sum_const, Finset.card_range, nsmul_eq_mul] at h3
    have : (0 : ℝ) < u := by exact_mod_cast hu
    nlinarith
  · intro hr L e hrun
    obtain ⟨h4, h5⟩ := hiff.mpr hr
    exact hrun.vanishes h hx h4 h5

/-! ## Non-vacuity -/

/-- The input 1 and the learning rate `1/2 + (3/5)·i`: the error goes to 0, although
`|r|²·(1 + ‖x‖²) = 1.22` exceeds `2·Re r = 1`. -/
example (f : LossFunc) : ∃ (L : Nat → Dense (Cf .w64 ℝ)) (e : Nat → ℝ), L 0 = exHead 1
    ∧ ComplexRun exFront 1 1 [exPoint 1] f ⟨1 / 2, 3 / 5⟩ L e ∧ Tendsto e atTop (𝓝 0) := by
  have hx := exPoint_size (w := .w64) 1 _ (List.mem_singleton_self _)
  obtain ⟨L, e, h0, hrun⟩ := C122_run (l := exHead 1) (exFront_front (w := .w64)) ⟨_, _, exHead_is 1⟩
    (List.cons_ne_nil _ []) (exPoint_size 1) f ⟨1 / 2, 3 / 5⟩
  refine ⟨L, e, h0, hrun, (C122_real exFront_front (by omega) hx ?_ f ⟨1 / 2, 3 / 5⟩).mpr ?_ L e hrun⟩
  · rw [exFront_features]
    simp
  · have : ‖Cf.toC (⟨1, 0⟩ : Cf .w64 ℝ)‖ ^ 2 = 1 := by
      have : Cf.toC (⟨1, 0⟩ : Cf .w64 ℝ) = 1 := rfl
      rw [this]
      norm_num
    simp only [magnitude, exFront_features, List.map_cons, List.map_nil, List.sum_cons, List.sum_nil, this]
    norm_num

end Renplex
