import Verif.Spec.Shared
import Verif.Props.ConvLaw
import Verif.Props.Hidden
import Verif.Props.Affine
import Verif.Props.Dead
/-!
# A convolutional layer is a dense layer with shared weights
-/

namespace Renplex

section sums
variable {α : Type} [CommRing α]

/-- The window of a filter, as a sum over the whole map. -/
theorem window_sum {r c p q i j : Nat} (hi : i + p ≤ r) (hj : j + q ≤ c) (k X : Nat → Nat → α) :
    (∑ y ∈ Finset.range r, ∑ x ∈ Finset.range c,
      (if i ≤ y ∧ y < i + p then (if j ≤ x ∧ x < j + q then k (y - i) (x - j) else 0) else 0) * X y x)
      = ∑ a ∈ Finset.range p, ∑ e ∈ Finset.range q, X (i + a) (j + e) * k a e := by
  have h1 : ∀ y, (∑ x ∈ Finset.range c,
      (if i ≤ y ∧ y < i + p then (if j ≤ x ∧ x < j + q then k (y - i) (x - j) else 0) else 0) * X y x)
      = if i ≤ y ∧ y < i + p then ∑ e ∈ Finset.range q, X y (j + e) * k (y - i) e else 0 := by
    intro y
    by_cases hy : i ≤ y ∧ y < i + p
    · simp only [if_pos hy, ite_mul, zero_mul]
      rw [sum_window c j q hj]
      refine Finset.sum_congr rfl fun e _ => ?_
      rw [Nat.add_sub_cancel_left, mul_comm]
    · simp only [if_neg hy, zero_mul, Finset.sum_const_zero]
  simp only [h1]
  rw [sum_window r i p hi]
  refine Finset.sum_congr rfl fun a _ => ?_
  simp only [Nat.add_sub_cancel_left]

/-- The only kernel entry that lies over a given entry of the map. -/
theorem window_single {p q i j y x : Nat} (k : Nat → Nat → α) :
    (∑ a ∈ Finset.range p, ∑ e ∈ Finset.range q, (if i + a = y ∧ j + e = x then 1 else 0) * k a e)
      = if i ≤ y ∧ y < i + p then (if j ≤ x ∧ x < j + q then k (y - i) (x - j) else 0) else 0 := by
  by_cases hy : i ≤ y ∧ y < i + p
  · rw [if_pos hy, Finset.sum_eq_single (y - i)]
    · by_cases hx : j ≤ x ∧ x < j + q
      · rw [if_pos hx, Finset.sum_eq_single (x - j)]
        · rw [if_pos (by omega), one_mul]
        · intro e _ he
          rw [if_neg (by omega), zero_mul]
        · intro h
          rw [Finset.mem_range] at h
          omega
      · rw [if_neg hx]
        refine Finset.sum_eq_zero fun e he => ?_
        rw [Finset.mem_range] at he
        rw [if_neg (by omega), zero_mul]
    · intro a _ ha
      refine Finset.sum_eq_zero fun e _ => ?_
      rw [if_neg (by omega), zero_mul]
    · intro h
      rw [Finset.mem_range] at h
      omega
  · rw [if_neg hy]
    refine Finset.sum_eq_zero fun a ha => Finset.sum_eq_zero fun e _ => ?_
    rw [Finset.mem_range] at ha
    rw [if_neg (by omega), zero_mul]

variable [BasicOps α] [LawfulOps α]

/-- The derivative with respect to an input entry, as a sum over all positions of the filter. -/
theorem inputGrad_window {r c p q : Nat} (hp : 1 ≤ p) (hpr : p ≤ r) (hq : 1 ≤ q) (hqc : q ≤ c)
    (m k : Nat → Nat → α) {y x : Nat} (hy : y < r) (hx : x < c) :
    inputGrad (r - p + 1) (c - q + 1) p q m k y x
      = ∑ i ∈ Finset.range (r - p + 1), ∑ j ∈ Finset.range (c - q + 1),
        (if i ≤ y ∧ y < i + p then (if j ≤ x ∧ x < j + q then k (y - i) (x - j) else 0) else 0)
          * m i j := by
  have h := inputGrad_pair r c p q hp hpr hq hqc (fun u v => if u = y ∧ v = x then (1 : α) else 0) m k
  simp only [window_single] at h
  have h2 : (∑ u ∈ Finset.range r, ∑ v ∈ Finset.range c,
      inputGrad (r - p + 1) (c - q + 1) p q m k u v * (if u = y ∧ v = x then 1 else 0))
      = inputGrad (r - p + 1) (c - q + 1) p q m k y x := by
    rw [Finset.sum_eq_single y, Finset.sum_eq_single x]
    · rw [if_pos ⟨rfl, rfl⟩, mul_one]
    · intro v _ hv
      rw [if_neg (by omega), mul_zero]
    · intro h
      exact absurd (Finset.mem_range.mpr hx) h
    · intro u _ hu
      refine Finset.sum_eq_zero fun v _ => ?_
      rw [if_neg (by omega), mul_zero]
    · intro h
      exact absurd (Finset.mem_range.mpr hy) h
  rw [← h2, ← h]
  exact Finset.sum_congr rfl fun i _ => Finset.sum_congr rfl fun j _ => mul_comm _ _

end sums

section layer
variable {α P : Type} [CommRing α] [CplxOps α P] [LawfulOps α] {l : Conv α} {d : Dense α}
  {nf n p q r c : Nat} {K : Nat → Nat → Nat → Nat → α} {b : Nat → α} {f : ActFunc}

/-- An activation that panics at one position makes the convolution panic. -/
theorem Conv.forward_panic (h : l.Is nf n p q K b f) (hf : 0 < nf) (hn : 0 < n) (hp : 1 ≤ p)
    (hpr : p ≤ r) (hq : 1 ≤ q) (hqc : q ≤ c) {maps : List (Mat α)} {X : Nat → Nat → Nat → α}
    (hX : MapsAre maps n r c X) {o i j : Nat} (ho : o < nf) (hi : i < r - p + 1)
    (hj : j < c - q + 1) (hy : CplxOps.activate f (convPre n p q X K b o i j) = none) :
    l.forward (.matrix maps) = none := by
  have ho' := Conv.outShape_is h hf hn hp hpr hq hqc hX
  obtain ⟨-, hb, hfn, M, hk, hM⟩ := h
  obtain ⟨Mx, rfl, hMx⟩ := hX.exists_fun
  unfold Conv.forward
  simp only [Option.bind_eq_bind]
  rw [ho']
  simp only [Option.bind_some, hk.1, List.length_map, List.length_range, ne_eq,
    not_true_eq_false, if_false]
  rw [C18_rows hk hn, hb]
  simp only [Option.bind_some]
  rw [zip_range_map, mapM_map', mapM_eq_none_of _ _ o (List.mem_range.mpr ho)]
  · rfl
  · simp only
    rw [Conv.feature_is hp hpr hq hqc hMx (hM o ho)]
    simp only [Option.bind_some, Mat.fromBody, activateMut, hfn]
    have : (table (r - p + 1) (c - q + 1) fun i j => BasicOps.addAssign
        (accN n fun ch => corr p q (X ch) (K o ch) i j) (b o)).mapM (CplxOps.activate f) = none := by
      refine mapM_eq_none_of _ _ (convPre n p q X K b o i j) ?_ hy
      unfold table
      simp only [List.mem_flatMap, List.mem_map, List.mem_range]
      exact ⟨i, hi, j, hj, rfl⟩
    rw [this]; rfl

/-- The weighted sums of the two layers agree. -/
theorem shared_pre {W : Nat → Nat → α} {B : Nat → α} {o i j : Nat} (hpr : p ≤ r) (hqc : q ≤ c)
    (hi : i < r - p + 1) (hj : j < c - q + 1)
    (h : B (o * ((r - p + 1) * (c - q + 1)) + (i * (c - q + 1) + j)) = b o
      ∧ ∀ ch, ch < n → ∀ y, y < r → ∀ x, x < c →
        W (o * ((r - p + 1) * (c - q + 1)) + (i * (c - q + 1) + j)) (ch * (r * c) + (y * c + x))
          = if i ≤ y ∧ y < i + p then (if j ≤ x ∧ x < j + q then K o ch (y - i) (x - j) else 0) else 0)
    (a : Nat → α) :
    (∑ k ∈ Finset.range (n * (r * c)),
        W (o * ((r - p + 1) * (c - q + 1)) + (i * (c - q + 1) + j)) k * a k)
      + B (o * ((r - p + 1) * (c - q + 1)) + (i * (c - q + 1) + j))
      = convPre n p q (fun ch y x => a (ch * (r * c) + (y * c + x))) K b o i j := by
  rw [convPre_sum, h.1, sum_cube]
  congr 1
  refine Finset.sum_congr rfl fun ch hch => ?_
  rw [← window_sum (r := r) (c := c) (by omega) (by omega) (K o ch)
    fun y x => a (ch * (r * c) + (y * c + x))]
  refine Finset.sum_congr rfl fun y hy => Finset.sum_congr rfl fun x hx => ?_
  rw [h.2 ch (Finset.mem_range.mp hch) y (Finset.mem_range.mp hy) x (Finset.mem_range.mp hx)]

end layer

variable {w : Width} {l : Conv (Cf w ℝ)} {d : Dense (Cf w ℝ)} {nf n p q r c : Nat}
  {K : Nat → Nat → Nat → Nat → Cf w ℝ} {b : Nat → Cf w ℝ} {f : ActFunc}

/-- C107. For every convolution and every size of maps there is a dense layer with its shared
weights. -/
theorem C107_exists (nf n p q r c : Nat) (K : Nat → Nat → Nat → Nat → Cf w ℝ) (b : Nat → Cf w ℝ)
    (f : ActFunc) : ∃ d : Dense (Cf w ℝ), d.Shares nf n p q r c K b f := by
  refine ⟨_, _, _, Dense.of_is (nf * ((r - p + 1) * (c - q + 1))) (n * (r * c))
    (flatOf (r - p + 1) (c - q + 1) fun o i j => flatOf r c fun ch y x =>
      if i ≤ y ∧ y < i + p then (if j ≤ x ∧ x < j + q then K o ch (y - i) (x - j) else 0) else 0)
    (flatOf (r - p + 1) (c - q + 1) fun o _ _ => b o) f, fun o _ i hi j hj => ⟨?_, ?_⟩⟩
  · rw [flatOf_idx _ _ hi hj]
  · intro ch _ y hy x hx
    rw [flatOf_idx _ _ hi hj, flatOf_idx _ _ hy hx]

theorem shared_forward (hl : l.Is nf n p q K b f) (hd : d.Shares nf n p q r c K b f) (hf : 0 < nf)
    (hn : 0 < n) (hp : 1 ≤ p) (hpr : p ≤ r) (hq : 1 ≤ q) (hqc : q ≤ c) (x : IOType (Cf w ℝ))
    (hx : x.HasSize (.maps n r c)) :
    d.forward (.scalar x.flat) = (l.forward x).map (Except.map fun y => .scalar y.flat)
    ∧ ∀ y, l.forward x = some (.ok y) → y.HasSize (.maps nf (r - p + 1) (c - q + 1)) := by
  obtain ⟨a, ha⟩ := hx.exists_flat
  obtain ⟨W, B, hd, hW⟩ := hd
  have hN : 0 < n * (r * c) := Nat.mul_pos hn (Nat.mul_pos (by omega) (by omega))
  cases x with
  | scalar v => exact absurd hx id
  | matrix maps =>
    rw [ha.flat]
    have hX : MapsAre maps n r c fun ch i j => a (ch * (r * c) + (i * c + j)) := ha
    by_cases hall : ∀ o, o < nf → ∀ i, i < r - p + 1 → ∀ j, j < c - q + 1 → ∃ y, CplxOps.activate f
        (convPre n p q (fun ch i j => a (ch * (r * c) + (i * c + j))) K b o i j) = some y
    · have hall' : ∀ o i j, ∃ y, o < nf → i < r - p + 1 → j < c - q + 1 → CplxOps.activate f
          (convPre n p q (fun ch i j => a (ch * (r * c) + (i * c + j))) K b o i j) = some y := by
        intro o i j
        by_cases h : o < nf ∧ i < r - p + 1 ∧ j < c - q + 1
        · obtain ⟨y, hy⟩ := hall o h.1 i h.2.1 j h.2.2
          exact ⟨y, fun _ _ _ => hy⟩
        · exact ⟨0, fun h1 h2 h3 => absurd ⟨h1, h2, h3⟩ h⟩
      choose y hy using hall'
      obtain ⟨outs, ho, hO⟩ := C40_forward hl hf hn hp hpr hq hqc hX y
        fun o h1 i h2 j h3 => hy o i j h1 h2 h3
      rw [ho]
      have hflat : (IOType.matrix outs).HasFlat (.maps nf (r - p + 1) (c - q + 1))
          (flatOf (r - p + 1) (c - q + 1) y) := by
        refine ⟨hO.1, fun ch m hm => ⟨(hO.2 ch m hm).1, ?_⟩⟩
        rw [(hO.2 ch m hm).2]
        exact table_congr fun i hi j hj => (flatOf_idx y ch hi hj).symm
      simp only [Option.map_some, Except.map]
      rw [hflat.flat]
      refine ⟨?_, fun y hy => by cases hy; exact hflat.hasSize⟩
      refine C38_forward_exact_partial hd hN a _ (flat_ind fun o ho i hi j hj => ?_)
      rw [shared_pre hpr hqc hi hj (hW o ho i hi j hj), flatOf_idx _ _ hi hj]
      exact hy o i j ho hi hj
    · push Not at hall
      obtain ⟨o, ho, i, hi, j, hj, hne⟩ := hall
      have hnone := Option.eq_none_iff_forall_ne_some.mpr hne
      rw [Conv.forward_panic hl hf hn hp hpr hq hqc hX ho hi hj hnone]
      refine ⟨?_, fun y hy => by cases hy⟩
      refine C38_panic_activation hd hN a _ (idx_lt ho (idx_lt hi hj)) ?_
      rw [dotN_sum, LawfulOps.addAssign_eq, shared_pre hpr hqc hi hj (hW o ho i hi j hj)]
      exact hnone

/-- C107. A convolutional layer computes what the dense layer with its shared weights computes from
the flattened maps; one panics if the other does. -/
theorem C107_forward (hl : l.Is nf n p q K b f) (hd : d.Shares nf n p q r c K b f) (hf : 0 < nf)
    (hn : 0 < n) (hp : 1 ≤ p) (hpr : p ≤ r) (hq : 1 ≤ q) (hqc : q ≤ c) (x : IOType (Cf w ℝ))
    (hx : x.HasSize (.maps n r c)) :
    d.forward (.scalar x.flat) = (l.forward x).map (Except.map fun y => .scalar y.flat) :=
  (shared_forward hl hd hf hn hp hpr hq hqc x hx).1

/-- C107. Wherever the dense layer computes derivatives from the flattened maps, so does the
convolution from the maps. Its derivative with respect to a kernel entry is the sum of those of all the
weights that share it, and so for the biases. What the dense layer passes on is the sum of the two
vectors that the convolution passes on. (So the first of them alone, which the layer before reads as the
derivative, is not what the dense layer passes on; see `C107_refuted`.) -/
theorem C107_backward_partial (hl : l.Is nf n p q K b f) (hd : d.Shares nf n p q r c K b f)
    (hf : 0 < nf) (hn : 0 < n) (hp : 1 ≤ p) (hpr : p ≤ r) (hq : 1 ≤ q) (hqc : q ≤ c)
    (x : IOType (Cf w ℝ)) (hx : x.HasSize (.maps n r c)) (D DC dw dB dX dXC : List (Cf w ℝ))
    (h : d.computeDerivatives (.scalar x.flat) D DC = some (.ok (dw, dB, dX, dXC))) :
    ∃ dk db dx dxc, l.computeDerivatives x D DC = some (.ok (dk, db, dx, dxc))
      ∧ SumsShared nf n p q r c (dw, dB) (dk, db)
      ∧ dX = List.zipWith (· + ·) dx dxc ∧ dXC = dX.map CplxOps.conj := by
  obtain ⟨a, ha⟩ := hx.exists_flat
  obtain ⟨W, B, hd, hW⟩ := hd
  have hN : 0 < n * (r * c) := Nat.mul_pos hn (Nat.mul_pos (by omega) (by omega))
  cases x with
  | scalar v => exact absurd hx id
  | matrix maps =>
    rw [ha.flat] at h
    have hX : MapsAre maps n r c fun ch i j => a (ch * (r * c) + (i * c + j)) := ha
    have h' : ((Layer.dense d).computeDerivatives (.scalar ((List.range (n * (r * c))).map a)) D DC
        >>= unwrap) = some (dw, dB, dX, dXC) := by
      simp only [Layer.computeDerivatives]
      have h2 : d.computeDerivatives (.scalar ((List.range (n * (r * c))).map a)) D DC
        = some (.ok (dw, dB, dX, dXC)) := h
      rw [h2]; rfl
    obtain ⟨g, gc, δ, δc, rfl, rfl, h1, h2, h3⟩ := Dense.derivatives_data hd hN h'
    simp only [Prod.mk.injEq] at h3
    obtain ⟨rfl, rfl, rfl, rfl⟩ := h3
    have key := Conv.computeDerivatives_is hl hf hn hp hpr hq hqc hX
      (fun o i j => g (o * ((r - p + 1) * (c - q + 1)) + (i * (c - q + 1) + j)))
      (fun o i j => gc (o * ((r - p + 1) * (c - q + 1)) + (i * (c - q + 1) + j)))
      (fun o i j => δ (o * ((r - p + 1) * (c - q + 1)) + (i * (c - q + 1) + j)))
      (fun o i j => δc (o * ((r - p + 1) * (c - q + 1)) + (i * (c - q + 1) + j)))
      (fun o ho i hi j hj => by
        rw [← shared_pre hpr hqc hi hj (hW o ho i hi j hj)]
        exact h1 _ (idx_lt ho (idx_lt hi hj)))
      (fun o ho i hi j hj => by
        rw [← shared_pre hpr hqc hi hj (hW o ho i hi j hj)]
        exact h2 _ (idx_lt ho (idx_lt hi hj)))
    rw [range_map_cube, range_map_cube]
    refine ⟨_, _, _, _, key, ?_, ?_, by with_reducible rfl⟩
    · refine ⟨fun j i => a i * (δ j * g j + CplxOps.conj (δc j) * gc j),
        fun j => δ j * g j + CplxOps.conj (δc j) * gc j, by with_reducible rfl, ?_⟩
      rw [Prod.mk.injEq]
      refine ⟨?_, by with_reducible rfl⟩
      unfold cube kernelGrad
      simp only [Nat.add_comm _ (_ : Nat)]
    · rw [cube_zipWith, range_map_cube]
      refine cube_congr fun ch hch y hy x hx => ?_
      rw [← Finset.sum_add_distrib, sum_cube]
      refine Finset.sum_congr rfl fun o ho => ?_
      rw [← inputGrad_add, inputGrad_window hp hpr hq hqc _ _ hy hx]
      refine Finset.sum_congr rfl fun i hi => Finset.sum_congr rfl fun j hj => ?_
      rw [(hW o (Finset.mem_range.mp ho) i (Finset.mem_range.mp hi) j (Finset.mem_range.mp hj)).2
        ch hch y hy x hx]

theorem flatten_value (fl : Flatten) {x : IOType (Cf w ℝ)} {n r c : Nat} (hx : x.HasSize (.maps n r c)) :
    fl.forward x = some (.ok (.scalar x.flat)) := by
  obtain ⟨a, ha⟩ := hx.exists_flat
  cases x with
  | scalar v => exact absurd hx id
  | matrix ms => rw [flatten_flat ha, ha.flat]; rfl

/-- The two pairs of layers turn the same input into the same values. -/
theorem shared_chain (hl : l.Is nf n p q K b f) (hd : d.Shares nf n p q r c K b f) (hf : 0 < nf)
    (hn : 0 < n) (hp : 1 ≤ p) (hpr : p ≤ r) (hq : 1 ≤ q) (hqc : q ≤ c) {x : IOType (Cf w ℝ)}
    (hx : x.HasSize (.maps n r c)) (fl fl' : Flatten) (B : List (Layer (Cf w ℝ)))
    (ys : List (IOType (Cf w ℝ))) :
    (∀ y, Chain (.conv l :: .flatten fl :: B) x (y :: ys) → Chain (.flatten fl' :: .dense d :: B) x (.scalar x.flat :: ys))
    ∧ (∀ y, Chain (.flatten fl' :: .dense d :: B) x (y :: ys) → y = .scalar x.flat
      ∧ ∃ y, Chain (.conv l :: .flatten fl :: B) x (y :: ys)) := by
  obtain ⟨key, hsize⟩ := shared_forward hl hd hf hn hp hpr hq hqc x hx
  constructor
  · intro y h
    cases h with
    | cons h t => cases t with
      | cons h2 t =>
        have h : l.forward x = some (.ok y) := h
        have hy := hsize y h
        have h2 : fl.forward y = _ := h2
        rw [flatten_value _ hy] at h2
        rw [h] at key
        refine .cons (flatten_value fl' hx) (.cons (key.trans ?_) t)
        exact h2
  · intro y h
    cases h with
    | cons h t => cases t with
      | cons h2 t =>
        have h : fl'.forward x = some (.ok y) := h
        rw [flatten_value _ hx] at h
        obtain rfl : IOType.scalar x.flat = y := by simpa using h
        refine ⟨rfl, ?_⟩
        have h2 : d.forward (.scalar x.flat) = some (.ok _) := h2
        rw [key] at h2
        obtain ⟨e, he, h3⟩ := Option.map_eq_some_iff.mp h2
        cases e with
        | error e => cases h3
        | ok y =>
          have hy := hsize y he
          exact ⟨y, .cons he (.cons ((flatten_value fl hy).trans (congrArg some h3)) t)⟩

theorem chain_length {α P : Type} [CplxOps α P] {a : Layer α} {ls : List (Layer α)} {x : IOType α}
    {ys : List (IOType α)} (h : Chain (a :: ls) x ys) : ∃ y t, ys = y :: t ∧ t.length = ls.length := by
  cases h with
  | cons h t => exact ⟨_, _, rfl, t.length⟩

/-- C107. In a network, a convolution and the flattening behind it can be replaced by a flattening and
the dense layer with the shared weights: all predictions stay the same. -/
theorem C107_network (hl : l.Is nf n p q K b f) (hd : d.Shares nf n p q r c K b f) (hf : 0 < nf)
    (hn : 0 < n) (hp : 1 ≤ p) (hpr : p ≤ r) (hq : 1 ≤ q) (hqc : q ≤ c) (fl fl' : Flatten)
    (B : List (Layer (Cf w ℝ))) (x : IOType (Cf w ℝ)) (hx : x.HasSize (.maps n r c)) :
    (⟨.flatten fl' :: .dense d :: B⟩ : Net (Cf w ℝ)).forward x
      = (⟨.conv l :: .flatten fl :: B⟩ : Net (Cf w ℝ)).forward x := by
  refine Option.ext fun e => ?_
  rw [C44_forward _ (by simp), C44_forward _ (by simp)]
  constructor
  · rintro ⟨ys, y, h1, h2, h3⟩
    obtain ⟨z, t, rfl, ht⟩ := chain_length h1
    obtain ⟨-, y', h4⟩ := (shared_chain hl hd hf hn hp hpr hq hqc hx fl fl' B t).2 _ h1
    refine ⟨_, y, h4, ?_, h3⟩
    cases t with
    | nil => simp at ht
    | cons u t => simpa using h2
  · rintro ⟨ys, y, h1, h2, h3⟩
    obtain ⟨z, t, rfl, ht⟩ := chain_length h1
    have h4 := (shared_chain hl hd hf hn hp hpr hq hqc hx fl fl' B t).1 _ h1
    refine ⟨_, y, h4, ?_, h3⟩
    cases t with
    | nil => simp at ht
    | cons u t => simpa using h2

theorem zip_two {α : Type} (x y z : IOType α) (ys : List (IOType α)) (a b : Layer α)
    (B : List (Layer α)) (h : ys.length = B.length) :
    (x :: y :: z :: ys).reverse.tail.zip (a :: b :: B).reverse
      = (z :: ys).dropLast.reverse.zip B.reverse ++ [(y, b), (x, a)] := by
  rw [List.tail_reverse]
  have : (x :: y :: z :: ys).dropLast = [x, y] ++ (z :: ys).dropLast := by simp
  have h2 : (a :: b :: B) = [a, b] ++ B := rfl
  rw [this, h2, List.reverse_append, List.reverse_append, List.zip_append (by simp [h])]
  rfl

/-- C107. So it is with training: if the convolution is the first layer of the network, then every
sample gives the layers behind the same derivatives in both networks, and the convolution the sums of
the derivatives of the weights and biases that share a parameter. -/
theorem C107_training (hl : l.Is nf n p q K b f) (hd : d.Shares nf n p q r c K b f) (hf : 0 < nf)
    (hn : 0 < n) (hp : 1 ≤ p) (hpr : p ≤ r) (hq : 1 ≤ q) (hqc : q ≤ c) (fl fl' : Flatten)
    (B : List (Layer (Cf w ℝ))) (loss : LossFunc) (x t : IOType (Cf w ℝ))
    (hx : x.HasSize (.maps n r c)) (gs : List (LayerVec (Cf w ℝ)))
    (h : sampleGrads (⟨.flatten fl' :: .dense d :: B⟩ : Net (Cf w ℝ)) loss (x, t) = some gs) :
    ∃ γ γ' rest, gs = ([], []) :: γ' :: rest ∧ SumsShared nf n p q r c γ' γ
      ∧ sampleGrads (⟨.conv l :: .flatten fl :: B⟩ : Net (Cf w ℝ)) loss (x, t)
        = some (γ :: ([], []) :: rest) := by
  unfold sampleGrads at h
  obtain ⟨acts, ha, h⟩ := Option.bind_eq_some_iff.mp h
  obtain ⟨pred, h1, h⟩ := Option.bind_eq_some_iff.mp h
  obtain ⟨D, hD, h⟩ := Option.bind_eq_some_iff.mp h
  obtain ⟨gs', hb, rfl⟩ := Option.map_eq_some_iff.mp h
  obtain ⟨r0, h2, h3⟩ := Option.bind_eq_some_iff.mp ha
  obtain ⟨zs, hc, rfl⟩ := (C44_collect _ (by simp) _ r0).mp h2
  cases h3
  obtain ⟨z, zs, rfl, hz⟩ := chain_length hc
  obtain ⟨rfl, y, h4⟩ := (shared_chain hl hd hf hn hp hpr hq hqc hx fl fl' B zs).2 _ hc
  cases zs with
  | nil => simp at hz
  | cons u zs =>
    have hlen : zs.length = B.length := by simpa using hz
    rw [zip_two _ _ _ _ _ _ _ hlen] at hb
    have hR : ∀ D DC gs, backGrads [(IOType.scalar x.flat, Layer.dense d), (x, .flatten fl')] D DC = some gs
        → ∃ gs', backGrads [(y, Layer.flatten fl), (x, .conv l)] D DC = some gs'
          ∧ ∃ γ γ', gs = [γ', ([], [])] ∧ gs' = [([], []), γ] ∧ SumsShared nf n p q r c γ' γ := by
      intro D DC gs h
      rw [backGrads, if_pos (show (Layer.dense d).propagates = true from rfl)] at h
      obtain ⟨⟨dw, dB, dX, dXC⟩, k1, k2⟩ := Option.bind_eq_some_iff.mp h
      obtain ⟨k3, k4⟩ : d.computeDerivatives (.scalar x.flat) D DC = some (.ok (dw, dB, dX, dXC))
          ∧ gs = [(dw, dB), ([], [])] := by
        constructor
        · obtain ⟨e, he, h⟩ := Option.bind_eq_some_iff.mp k1
          simp only [Layer.computeDerivatives] at he
          cases e with
          | error e => cases h
          | ok v => rw [he]; cases h; rfl
        · rw [backGrads, if_neg (show ¬ (Layer.flatten fl' : Layer (Cf w ℝ)).propagates = true from Bool.false_ne_true), backGrads] at k2
          simpa using k2.symm
      obtain ⟨dk, db, dx, dxc, k5, k6, -⟩ := C107_backward_partial hl hd hf hn hp hpr hq hqc x hx D DC
        dw dB dX dXC k3
      refine ⟨[([], []), (dk, db)], ?_, _, _, k4, rfl, k6⟩
      rw [backGrads, if_neg (show ¬ (Layer.flatten fl : Layer (Cf w ℝ)).propagates = true from Bool.false_ne_true), backGrads, if_pos (show (Layer.conv l).propagates = true from rfl)]
      simp only [Layer.computeDerivatives]
      rw [k5]
      rfl
    obtain ⟨g1, g2, g2', rfl, e1, γ, γ', rfl, rfl, e2⟩ := backGrads_replace hR _ hb
    refine ⟨γ, γ', g1.reverse, by simp, e2, ?_⟩
    unfold sampleGrads
    rw [show (⟨.conv l :: .flatten fl :: B⟩ : Net (Cf w ℝ)).collectActs x
        = some (.ok (x :: y :: u :: zs)) from (C44_collect _ (by simp) _ _).mpr ⟨_, h4, rfl⟩]
    have h1' : (x :: y :: u :: zs).reverse.head? = some pred := by
      rw [List.head?_reverse] at h1 ⊢
      simpa using h1
    have hu : unwrap (.ok (x :: y :: u :: zs) : Except ForwardErr _) = some (x :: y :: u :: zs) := rfl
    simp only [Option.bind_eq_bind, Option.bind_some, hu, h1']
    have hD : unwrap (CplxOps.dLoss loss t pred) = some D := hD
    rw [hD]
    simp only [Option.bind_some]
    rw [zip_two _ _ _ _ _ _ _ hlen, e1]
    simp

/-- C107 is false of the code in deeper positions: wherever the conjugate derivative of the activation is
not zero, a convolution with one 1 × 1 kernel passes another vector on to the layer before it than the
dense layer with its shared weights does. -/
theorem C107_refuted {f : ActFunc} {x e dc g : Cf w ℝ} (he : Act.dActivate f x = some e)
    (hc : Act.dConjActivate f x = some dc) (h0 : dc ≠ 0) (hg : g ≠ 0) :
    ∃ (l : Conv (Cf w ℝ)) (d : Dense (Cf w ℝ)) (dw dB dX dXC dk db dx dxc : List (Cf w ℝ)),
      l.Is 1 1 1 1 (fun _ _ _ _ => 1) (fun _ => 0) f
      ∧ d.Shares 1 1 1 1 1 1 (fun _ _ _ _ => 1) (fun _ => 0) f
      ∧ d.computeDerivatives (.scalar (exMap x).flat) [g] [CplxOps.conj g] = some (.ok (dw, dB, dX, dXC))
      ∧ l.computeDerivatives (exMap x) [g] [CplxOps.conj g] = some (.ok (dk, db, dx, dxc))
      ∧ dx ≠ dX := by
  obtain ⟨d, hd⟩ := C107_exists (w := w) 1 1 1 1 1 1 (fun _ _ _ _ => 1) (fun _ => 0) f
  have hl := exConvAct_is f (0 : Cf w ℝ)
  have hd' := hd
  obtain ⟨W, B, hI, hW⟩ := hd'
  obtain ⟨hB, hW⟩ := hW 0 (by norm_num) 0 (by norm_num) 0 (by norm_num)
  have hW := hW 0 (by norm_num) 0 (by norm_num) 0 (by norm_num)
  norm_num at hB hW
  have hpre : ∀ j, j < 1 → (∑ i ∈ Finset.range 1, W j i * x) + B j = x := by
    intro j hj
    obtain rfl : j = 0 := by omega
    rw [Finset.sum_range_one, hW, hB, one_mul, add_zero]
  have hI : d.Is 1 1 W B f := hI
  have h := Dense.computeDerivatives_is hI one_pos (fun _ => x) (fun _ => g) (fun _ => CplxOps.conj g)
    (fun _ => e) (fun _ => dc) (fun j hj => by rw [hpre j hj]; exact he)
    (fun j hj => by rw [hpre j hj]; exact hc)
  have hk := exConvAct_derivs (f := f) (b := 0) (g := g) (gc := CplxOps.conj g)
    (by rw [add_zero]; exact he) (by rw [add_zero]; exact hc) (exMap_is x)
  refine ⟨exConvAct f 0, d, _, _, _, _, _, _, _, _, hl, hd, h, hk, fun hx => ?_⟩
  simp only [List.range_one, List.map_cons, List.map_nil, Finset.sum_range_one, hW, one_mul, List.cons.injEq,
    and_true] at hx
  exact mul_ne_zero (conj_ne_zero h0) (conj_ne_zero hg) (left_eq_add.mp hx)

/-- Such a value: `tanh` at 1. -/
example : ∃ (e dc : Cf w ℝ), Act.dActivate .ritTanh ⟨1, 0⟩ = some e
    ∧ Act.dConjActivate .ritTanh ⟨1, 0⟩ = some dc ∧ dc ≠ 0 := by
  obtain ⟨dc, h1, h2⟩ := tanh_conj_ne (w := w) ⟨1, 0⟩ rfl
  exact ⟨_, dc, rfl, h1, h2⟩

/-- The hypotheses can be met: a 2 × 2 kernel on maps of 3 × 3, for every kernel, bias, activation and
map. -/
example (K : Nat → Nat → Nat → Nat → Cf .w32 ℝ) (b : Nat → Cf .w32 ℝ) (f : ActFunc)
    (X : Nat → Nat → Cf .w32 ℝ) : ∃ (l : Conv (Cf .w32 ℝ)) (d : Dense (Cf .w32 ℝ)) (x : IOType (Cf .w32 ℝ)),
    l.Is 1 1 2 2 K b f ∧ d.Shares 1 1 2 2 3 3 K b f ∧ x.HasSize (.maps 1 3 3) := by
  obtain ⟨d, hd⟩ := C107_exists 1 1 2 2 3 3 K b f
  refine ⟨⟨1, Mat.fromBody [Mat.fromBody (table 2 2 (K 0 0)) (2, 2)] (1, 1), [b 0], f⟩, d,
    .matrix [Mat.fromBody (table 3 3 X) (3, 3)], ⟨rfl, rfl, rfl, fun o ch => Mat.fromBody (table 2 2 (K 0 0)) (2, 2),
      ⟨rfl, rfl⟩, fun o ho ch hch => ?_⟩, hd, rfl, fun m hm => ?_⟩
  · obtain rfl : o = 0 := by omega
    obtain rfl : ch = 0 := by omega
    exact Mat.fromBody_is ..
  · rw [List.mem_singleton] at hm
    subst hm
    exact ⟨by simp [Mat.Rect, Mat.fromBody, table_length], rfl⟩

end Renplex
