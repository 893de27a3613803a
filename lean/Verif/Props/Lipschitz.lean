import Verif.Spec.Lipschitz
import Verif.Spec.Rounding
import Verif.Props.NetworkSize
import Verif.Props.ReduceLaw
import Verif.Props.ActExact
import Verif.Props.NetGradRefuted
/-!
# C83: how much a network can stretch distances
-/

namespace Renplex

variable {w : Width}

theorem tanh_short (a b : ℝ) : |Real.tanh a - Real.tanh b| ≤ |a - b| := by
  have hd : ∀ v ∈ (Set.univ : Set ℝ), HasDerivWithinAt Real.tanh (Act.sech2 v) Set.univ v :=
    fun v _ => (hasDerivAt_tanh v).hasDerivWithinAt
  have hb : ∀ v ∈ (Set.univ : Set ℝ), ‖Act.sech2 v‖ ≤ 1 := by
    intro v _
    have h1 : 1 ≤ Real.cosh v := Real.one_le_cosh v
    have h2 : (Act.sech2 v : ℝ) = 1 / Real.cosh v ^ 2 := by simp [Act.sech2]
    rw [h2, Real.norm_of_nonneg (by positivity)]
    exact (div_le_one (by positivity)).mpr (one_le_pow₀ h1)
  have := convex_univ.norm_image_sub_le_of_norm_hasDerivWithin_le hd hb (Set.mem_univ b) (Set.mem_univ a)
  simpa using this

theorem relu_short (a b : ℝ) : |Act.relu a - Act.relu b| ≤ |a - b| := by
  rw [relu_eq, relu_eq]
  rw [max_comm 0, max_comm 0]
  exact abs_max_sub_max_le_abs _ _ _

theorem short_of_parts {z z' y y' : Cf w ℝ} (h1 : |y.x - y'.x| ≤ |z.x - z'.x|)
    (h2 : |y.y - y'.y| ≤ |z.y - z'.y|) : ‖y.toC - y'.toC‖ ≤ ‖z.toC - z'.toC‖ := by
  rw [Complex.norm_eq_sqrt_sq_add_sq, Complex.norm_eq_sqrt_sq_add_sq]
  refine Real.sqrt_le_sqrt ?_
  simp only [Complex.sub_re, Complex.sub_im, Cf.toC_re, Cf.toC_im]
  exact add_le_add (sq_le_sq.mpr h1) (sq_le_sq.mpr h2)

/-- C83. `None`, `RITTanh` and `RITReLU` are total and never increase distances. -/
theorem C83_activation {f : ActFunc} (hf : f.Short) (z z' : Cf w ℝ) :
    ∃ y y', Act.activate f z = some y ∧ Act.activate f z' = some y'
      ∧ ‖y.toC - y'.toC‖ ≤ ‖z.toC - z'.toC‖ := by
  rcases hf with rfl | rfl | rfl
  · exact ⟨_, _, rfl, rfl, le_rfl⟩
  · exact ⟨_, _, rfl, rfl, short_of_parts (tanh_short _ _) (tanh_short _ _)⟩
  · exact ⟨_, _, rfl, rfl, short_of_parts (relu_short _ _) (relu_short _ _)⟩

/-! ## Entries -/

theorem near_range {δ : ℝ} {n : Nat} {f g : Nat → Cf w ℝ} :
    Near2 δ ((List.range n).map f) ((List.range n).map g) ↔ ∀ i < n, ‖(f i).toC - (g i).toC‖ ≤ δ := by
  unfold Near2
  rw [List.forall₂_map_left_iff, List.forall₂_map_right_iff, List.forall₂_same]
  simp

theorem near_table {δ : ℝ} {r c : Nat} {f g : Nat → Nat → Cf w ℝ} :
    Near2 δ (table r c f) (table r c g) ↔ ∀ i < r, ∀ j < c, ‖(f i j).toC - (g i j).toC‖ ≤ δ := by
  constructor
  · intro h i hi j hj
    have h1 := table_getElem? r c f hi hj
    have h2 := table_getElem? r c g hi hj
    obtain ⟨k1, e1⟩ := List.getElem?_eq_some_iff.mp h1
    obtain ⟨k2, e2⟩ := List.getElem?_eq_some_iff.mp h2
    have := List.Forall₂.get h (i := i * c + j) k1 k2
    simpa [e1, e2] using this
  · intro h
    refine List.forall₂_iff_get.mpr ⟨by rw [table_length, table_length], fun k h1 h2 => ?_⟩
    rw [table_length] at h1
    have hc : 0 < c := by
      rcases Nat.eq_zero_or_pos c with rfl | h
      · omega
      · exact h
    have hi : k / c < r := Nat.div_lt_of_lt_mul (by rwa [Nat.mul_comm] at h1)
    have hj : k % c < c := Nat.mod_lt _ hc
    have e : k / c * c + k % c = k := Nat.div_add_mod' k c
    have e1 := table_getElem? r c f hi hj
    have e2 := table_getElem? r c g hi hj
    rw [e] at e1 e2
    obtain ⟨_, e1⟩ := List.getElem?_eq_some_iff.mp e1
    obtain ⟨_, e2⟩ := List.getElem?_eq_some_iff.mp e2
    simp only [List.get_eq_getElem, e1, e2]
    exact h _ hi _ hj

theorem apart_maps {δ : ℝ} {n r c : Nat} {X X' : Nat → Nat → Nat → Cf w ℝ} {u v : List (Mat (Cf w ℝ))}
    (hu : MapsAre u n r c X) (hv : MapsAre v n r c X') : IOType.Apart δ (.matrix u) (.matrix v)
      ↔ ∀ ch < n, ∀ i < r, ∀ j < c, ‖(X ch i j).toC - (X' ch i j).toC‖ ≤ δ := by
  constructor
  · intro h ch hch
    have k1 : ch < u.length := by rw [hu.1]; exact hch
    have k2 : ch < v.length := by rw [hv.1]; exact hch
    have := (List.Forall₂.get h k1 k2).2
    simp only [List.get_eq_getElem] at this
    rw [(hu.2 ch _ (List.getElem?_eq_getElem k1)).2, (hv.2 ch _ (List.getElem?_eq_getElem k2)).2] at this
    exact near_table.mp this
  · intro h
    refine List.forall₂_iff_get.mpr ⟨by rw [hu.1, hv.1], fun ch k1 k2 => ?_⟩
    have a1 := hu.2 ch _ (List.getElem?_eq_getElem k1)
    have a2 := hv.2 ch _ (List.getElem?_eq_getElem k2)
    simp only [List.get_eq_getElem]
    refine ⟨a1.1.trans a2.1.symm, ?_⟩
    rw [a1.2, a2.2]
    exact near_table.mpr (h ch (by rw [← hu.1]; exact k1))

theorem near_length {δ : ℝ} {u v : List (Cf w ℝ)} (h : Near2 δ u v) : u.length = v.length :=
  List.Forall₂.length_eq h

theorem IOType.Apart.hasSize {δ : ℝ} {x x' : IOType (Cf w ℝ)} (h : x.Apart δ x') {s : Size}
    (hx : x.HasSize s) : x'.HasSize s := by
  cases x <;> cases x' <;> first | exact h.elim | skip
  · cases s
    · exact (near_length h).symm.trans hx
    · exact hx.elim
  · cases s
    · exact hx.elim
    · refine ⟨(List.Forall₂.length_eq h).symm.trans hx.1, fun m' hm' => ?_⟩
      obtain ⟨i, hi, rfl⟩ := List.getElem_of_mem hm'
      have hi' := hi
      rw [← List.Forall₂.length_eq h] at hi'
      have h1 := List.Forall₂.get h hi' hi
      simp only [List.get_eq_getElem] at h1
      obtain ⟨h2, h3⟩ := hx.2 _ (List.getElem_mem hi')
      exact ⟨by unfold Mat.Rect; rw [← near_length h1.2, ← h1.1]; exact h2, h1.1.symm.trans h3⟩

theorem norm_sum_mul_le {n : Nat} {a b : Nat → ℂ} {δ : ℝ} (h : ∀ i < n, ‖b i‖ ≤ δ) :
    ‖∑ i ∈ Finset.range n, a i * b i‖ ≤ (∑ i ∈ Finset.range n, ‖a i‖) * δ := by
  refine (norm_sum_le _ _).trans ?_
  rw [Finset.sum_mul]
  refine Finset.sum_le_sum fun i hi => ?_
  rw [norm_mul]
  exact mul_le_mul_of_nonneg_left (h i (Finset.mem_range.mp hi)) (norm_nonneg _)

/-! ## Layers -/

theorem toC_sum (n : Nat) (f : Nat → Cf w ℝ) :
    (∑ i ∈ Finset.range n, f i).toC = ∑ i ∈ Finset.range n, (f i).toC := by
  rw [← Cf.toCHom_apply, map_sum]
  rfl

/-- C83. A layer stretches the distance of two inputs at most by the largest sum of absolute weights. -/
theorem C83_layer {l : Layer (Cf w ℝ)} {L : ℝ} (hL : l.Gain L) {s s' : Size} (hf : l.Fits s s')
    {x x' : IOType (Cf w ℝ)} (hx : x.HasSize s) {δ : ℝ} (hδ : 0 ≤ δ) (h : x.Apart δ x') :
    ∃ y y', l.forward x = some (.ok y) ∧ l.forward x' = some (.ok y') ∧ y.Apart (L * δ) y'
      ∧ y.HasSize s' := by
  have hx' := h.hasSize hx
  cases l with
  | dense l =>
    cases s <;> cases s' <;> try exact hf.elim
    rename_i n u
    cases x <;> cases x' <;> first | exact h.elim | exact hx.elim | skip
    rename_i v v'
    obtain ⟨hn, hs⟩ := hf
    obtain ⟨ha, u', n', W, b, hW, hg⟩ := hL
    obtain ⟨rfl, rfl⟩ : u' = u ∧ n' = n := by
      have := hW.1.1
      rw [hs] at this
      exact ⟨(congrArg Prod.fst this).symm, (congrArg Prod.snd this).symm⟩
    obtain ⟨f, hv⟩ := exists_range_map v
    obtain ⟨f', hv'⟩ := exists_range_map v'
    rw [show v.length = n' from hx] at hv
    rw [show v'.length = n' from hx'] at hv'
    rw [hv, hv'] at h
    have hd := near_range.mp h
    choose y y' h1 h2 h3 using fun j => C83_activation ha
      ((∑ i ∈ Finset.range n', W j i * f i) + b j) ((∑ i ∈ Finset.range n', W j i * f' i) + b j)
    refine ⟨_, _, by rw [hv]; exact C38_forward_exact_partial hW hn f y fun j _ => h1 j,
      by rw [hv']; exact C38_forward_exact_partial hW hn f' y' fun j _ => h2 j, ?_, by simp [IOType.HasSize]⟩
    refine near_range.mpr fun j hj => (h3 j).trans ?_
    have e : ((∑ i ∈ Finset.range n', W j i * f i) + b j).toC - ((∑ i ∈ Finset.range n', W j i * f' i) + b j).toC
        = ∑ i ∈ Finset.range n', (W j i).toC * ((f i).toC - (f' i).toC) := by
      simp only [Cf.toC_hom_add, toC_sum, Cf.toC_hom_mul, mul_sub, Finset.sum_sub_distrib]
      ring
    rw [e]
    exact (norm_sum_mul_le hd).trans (mul_le_mul_of_nonneg_right (hg j hj) hδ)
  | conv l =>
    cases s <;> cases s' <;> try exact hf.elim
    rename_i n r c nf r' c'
    cases x <;> cases x' <;> first | exact h.elim | exact hx.elim | skip
    rename_i v v'
    obtain ⟨hn, hnf, hs, p, q, hk, hp, hpr, hq, hqc, rfl, rfl⟩ := hf
    obtain ⟨ha, nf', n', p', q', K, b, hK, hg⟩ := hL
    obtain ⟨M, hM, hMK⟩ := hK.2.2.2
    obtain ⟨rfl, rfl⟩ : nf' = nf ∧ n' = n := by
      have := hM.1
      rw [hs] at this
      exact ⟨(congrArg Prod.fst this).symm, (congrArg Prod.snd this).symm⟩
    obtain ⟨rfl, rfl⟩ : p' = p ∧ q' = q := by
      have h1 := (hMK 0 hnf 0 hn).1
      rw [hk (M 0 0) (by rw [hM.2]; exact List.mem_iff_getElem?.mpr ⟨_, table_getElem? _ _ M hnf hn⟩)] at h1
      exact ⟨(congrArg Prod.fst h1).symm, (congrArg Prod.snd h1).symm⟩
    have : Nonempty (Cf w ℝ) := ⟨0⟩
    obtain ⟨X, hX⟩ := MapsAre.exists_of hx
    obtain ⟨X', hX'⟩ := MapsAre.exists_of hx'
    have hd := (apart_maps hX hX').mp h
    choose y y' h1 h2 h3 using fun o i j => C83_activation ha
      (b o + ∑ ch ∈ Finset.range n', ∑ a ∈ Finset.range p', ∑ b ∈ Finset.range q',
        X ch (i + a) (j + b) * K o ch a b)
      (b o + ∑ ch ∈ Finset.range n', ∑ a ∈ Finset.range p', ∑ b ∈ Finset.range q',
        X' ch (i + a) (j + b) * K o ch a b)
    obtain ⟨outs, k1, k2⟩ := C40_forward_exact hK hnf hn hp hpr hq hqc hX y fun o _ i _ j _ => h1 o i j
    obtain ⟨outs', k1', k2'⟩ := C40_forward_exact hK hnf hn hp hpr hq hqc hX' y' fun o _ i _ j _ => h2 o i j
    refine ⟨_, _, k1, k1', (apart_maps k2 k2').mpr fun o ho i hi j hj => (h3 o i j).trans ?_, k2.hasSize⟩
    refine le_trans ?_ (mul_le_mul_of_nonneg_right (hg o ho) hδ)
    simp only [Cf.toC_hom_add, toC_sum, Cf.toC_hom_mul, add_sub_add_left_eq_sub, ← Finset.sum_sub_distrib,
      ← sub_mul]
    refine (norm_sum_le _ _).trans ?_
    rw [Finset.sum_mul]
    refine Finset.sum_le_sum fun ch hch => (norm_sum_le _ _).trans ?_
    rw [Finset.sum_mul]
    refine Finset.sum_le_sum fun a ha' => (norm_sum_le _ _).trans ?_
    rw [Finset.sum_mul]
    refine Finset.sum_le_sum fun b hb => ?_
    rw [norm_mul, mul_comm]
    have := Finset.mem_range.mp ha'
    have := Finset.mem_range.mp hb
    exact mul_le_mul_of_nonneg_left (hd ch (Finset.mem_range.mp hch) _ (by omega) _ (by omega)) (norm_nonneg _)
  | reduce l =>
    cases s <;> cases s' <;> try exact hf.elim
    cases x <;> cases x' <;> first | exact h.elim | exact hx.elim | skip
    rename_i v v'
    obtain ⟨rfl, -, hr, hc, hp, hq, rfl, rfl⟩ := hf
    have : Nonempty (Cf w ℝ) := ⟨0⟩
    obtain ⟨X, hX⟩ := MapsAre.exists_of hx
    obtain ⟨X', hX'⟩ := MapsAre.exists_of hx'
    have hd := (apart_maps hX hX').mp h
    set B : (Nat → Nat → Nat → Cf w ℝ) → Nat → Nat → Nat → List (Cf w ℝ) := fun X ch i j =>
      table l.blockSize.1 l.blockSize.2 fun a b => X ch (i * l.blockSize.1 + a) (j * l.blockSize.2 + b) with hB
    rename_i n r' c'
    have key : ∀ ch i j, ∃ y y', ch < n → i < r' → j < c' → l.blockFunc (B X ch i j) = some y
        ∧ l.blockFunc (B X' ch i j) = some y' ∧ ‖y.toC - y'.toC‖ ≤ L * δ := by
      intro ch i j
      by_cases hc : ch < n ∧ i < r' ∧ j < c'
      · obtain ⟨y, y', h1, h2, h3⟩ := hL (B X ch i j) (B X' ch i j) δ hδ (table_length _ _ _)
          (near_table.mpr fun a ha b hb => hd ch hc.1 _ (by nlinarith [hc.2.1]) _ (by nlinarith [hc.2.2]))
        exact ⟨y, y', fun _ _ _ => ⟨h1, h2, h3⟩⟩
      · exact ⟨0, 0, fun h1 h2 h3 => absurd ⟨h1, h2, h3⟩ hc⟩
    choose y y' hy using key
    obtain ⟨outs, k1, k2⟩ := C41_reduce (l := l) rfl hp hq hr hc hX (Y := y)
      fun ch h1 i h2 j h3 => (hy ch i j h1 h2 h3).1
    obtain ⟨outs', k1', k2'⟩ := C41_reduce (l := l) rfl hp hq hr hc hX' (Y := y')
      fun ch h1 i h2 j h3 => (hy ch i j h1 h2 h3).2.1
    exact ⟨_, _, k1, k1', (apart_maps k2 k2').mpr fun ch h1 i h2 j h3 => (hy ch i j h1 h2 h3).2.2, k2.hasSize⟩
  | flatten l =>
    cases s <;> cases s' <;> try exact hf.elim
    cases x <;> cases x' <;> first | exact h.elim | exact hx.elim | skip
    rename_i v v'
    obtain ⟨y, h1, h2⟩ := Layer.forward_fits (l := .flatten l) trivial trivial (s := .maps _ _ _) (s' := .vec _) hf hx
    refine ⟨_, _, rfl, rfl, ?_, ?_⟩
    · have hL : 1 ≤ L := hL
      have h3 : Near2 δ (v.flatMap Mat.getBody) (v'.flatMap Mat.getBody) := by
        clear hx hx' h1 h2
        change List.Forall₂ (fun m m' => m.shape = m'.shape ∧ Near2 δ m.body m'.body) v v' at h
        induction h with
        | nil => exact .nil
        | cons e _ ih =>
          rw [List.flatMap_cons, List.flatMap_cons]
          exact List.rel_append e.2 ih
      exact h3.imp fun a b hab => hab.trans (by nlinarith)
    · cases h1
      exact h2

/-- C83. A whole network stretches the distance of two inputs at most by the product of the gains of its
layers; in particular it returns on both. -/
theorem C83_network {n : Net (Cf w ℝ)} (hn : n.layers ≠ []) {Ls : List ℝ}
    (hL : List.Forall₂ Layer.Gain n.layers Ls) (hL0 : ∀ L ∈ Ls, 0 ≤ L) {s s' : Size}
    (hf : FitsChain n.layers s s') {x x' : IOType (Cf w ℝ)} (hx : x.HasSize s) {δ : ℝ} (hδ : 0 ≤ δ)
    (h : x.Apart δ x') :
    ∃ y y', n.forward x = some (.ok y) ∧ n.forward x' = some (.ok y') ∧ y.Apart (Ls.prod * δ) y' := by
  have key : ∀ {ls : List (Layer (Cf w ℝ))} {s s' : Size}, FitsChain ls s s' → ∀ {Ls : List ℝ},
      List.Forall₂ Layer.Gain ls Ls → (∀ L ∈ Ls, 0 ≤ L) → ∀ {x x' : IOType (Cf w ℝ)} {δ : ℝ}, x.HasSize s →
      0 ≤ δ → x.Apart δ x' → ∃ ys ys' y y', Chain ls x ys ∧ Chain ls x' ys' ∧ (x :: ys).getLast? = some y
        ∧ (x' :: ys').getLast? = some y' ∧ y.Apart (Ls.prod * δ) y' := by
    intro ls s s' hf
    induction hf with
    | nil s =>
      intro Ls hL _ x x' δ _ _ h
      cases hL
      exact ⟨[], [], x, x', .nil x, .nil x', rfl, rfl, by simpa using h⟩
    | @cons l ls s s₁ s' hl t ih =>
      intro Ls hL hL0 x x' δ hx hδ h
      cases hL with
      | @cons _ L _ Ls h1 h2 =>
        have hL := hL0 L (by simp)
        obtain ⟨y, y', k1, k2, k3, k4⟩ := C83_layer h1 hl hx hδ h
        obtain ⟨ys, ys', z, z', a1, a2, a3, a4, a5⟩ := ih h2 (fun L hL => hL0 L (by simp [hL])) k4
          (mul_nonneg hL hδ) k3
        refine ⟨y :: ys, y' :: ys', z, z', .cons k1 a1, .cons k2 a2, by rw [List.getLast?_cons_cons]; exact a3,
          by rw [List.getLast?_cons_cons]; exact a4, ?_⟩
        rw [List.prod_cons, mul_comm L, mul_assoc]
        exact a5
  obtain ⟨ys, ys', y, y', h1, h2, h3, h4, h5⟩ := key hf hL hL0 hx hδ h
  have e : ∀ {x y : IOType (Cf w ℝ)} {ys : List (IOType (Cf w ℝ))}, Chain n.layers x ys →
      (x :: ys).getLast? = some y → n.forward x = some (.ok y) := by
    intro x y ys h1 h3
    refine (C44_forward n hn x _).mpr ⟨ys, y, h1, ?_, rfl⟩
    have := h1.length
    cases ys with
    | nil => exact absurd (List.length_eq_zero_iff.mp this.symm) hn
    | cons a ys => rw [List.getLast?_cons_cons] at h3; exact h3
  exact ⟨y, y', e h1 h3, e h2 h4, h5⟩

/-! ## Mean pooling -/

theorem meanBlock_eq (b : List (Cf w ℝ)) (hb : b ≠ []) :
    ∃ y, meanBlock b = some y ∧ y.toC = (b.map Cf.toC).sum / b.length := by
  have hfold : ∀ (l : List (Cf w ℝ)) (a : Cf w ℝ), (l.foldl Cf.add a).toC = a.toC + (l.map Cf.toC).sum := by
    intro l
    induction l with
    | nil => simp
    | cons x l ih =>
      intro a
      rw [List.foldl_cons, ih, List.map_cons, List.sum_cons, Cf.toC_add]
      ring
  have hl : (Cf.new (Scalar.ofNat b.length) Scalar.zero : Cf w ℝ).toC = (b.length : ℂ) := by
    apply Complex.ext <;> simp [Cf.new, Cf.toC, Scalar.zero, Scalar.ofNat, Scalar.lit]
  have hne : (b.length : ℂ) ≠ 0 := by
    simpa using hb
  obtain ⟨z, h1, h2⟩ := div_toC (b.foldl Cf.add Cf.default) (Cf.new (Scalar.ofNat b.length) Scalar.zero)
    (by rwa [hl])
  refine ⟨z, h1, ?_⟩
  rw [h2, hl, hfold, Cf.toC_default, zero_add]

/-- C83. Mean pooling does not stretch distances. -/
theorem C83_mean {l : Reduce (Cf w ℝ)} (hl : l.blockFunc = meanBlock)
    (hs : 0 < l.blockSize.1 * l.blockSize.2) : (Layer.reduce l).Gain 1 := by
  intro u v δ hδ hu h
  have hu0 : u ≠ [] := by
    rintro rfl
    exact absurd hu.symm hs.ne'
  have hlen := near_length h
  have hv0 : v ≠ [] := by
    rintro rfl
    exact hu0 (List.length_eq_zero_iff.mp hlen)
  obtain ⟨y, h1, e1⟩ := meanBlock_eq u hu0
  obtain ⟨y', h2, e2⟩ := meanBlock_eq v hv0
  refine ⟨y, y', by rw [hl]; exact h1, by rw [hl]; exact h2, ?_⟩
  have hs : ‖(u.map Cf.toC).sum - (v.map Cf.toC).sum‖ ≤ u.length * δ := by
    clear h1 h2 e1 e2 hu hu0 hv0 hlen
    induction h with
    | nil => simp
    | @cons a b u v hab _ ih =>
      simp only [List.map_cons, List.sum_cons, List.length_cons, Nat.cast_add, Nat.cast_one]
      rw [add_sub_add_comm]
      refine (norm_add_le _ _).trans ?_
      linarith
  have hp : (0 : ℝ) < u.length := by
    have := List.length_pos_iff.mpr hu0
    exact_mod_cast this
  rw [e1, e2, ← hlen, ← sub_div, norm_div, Complex.norm_natCast, one_mul, div_le_iff₀ hp, mul_comm δ]
  exact hs

/-! ## The bound is sharp -/

/-- C83. No smaller bound holds for a dense layer without activation: for every unit there are two inputs
at distance `δ` on which its outputs differ by its sum of absolute weights times `δ`. -/
theorem C83_sharp {l : Dense (Cf w ℝ)} {u n : Nat} {W : Nat → Nat → Cf w ℝ} {b : Nat → Cf w ℝ}
    (hl : l.Is u n W b .none) (hn : 0 < n) {j : Nat} (hj : j < u) {δ : ℝ} (hδ : 0 ≤ δ) :
    ∃ x x' y y', (IOType.scalar x).Apart δ (.scalar x') ∧ l.forward (.scalar x) = some (.ok (.scalar y))
      ∧ l.forward (.scalar x') = some (.ok (.scalar y')) ∧ ∃ z z', y[j]? = some z ∧ y'[j]? = some z'
        ∧ ‖z.toC - z'.toC‖ = (∑ i ∈ Finset.range n, ‖(W j i).toC‖) * δ := by
  set f : Nat → Cf w ℝ := fun i => Cf.ofC (δ * (starRingEnd ℂ (W j i).toC / ‖(W j i).toC‖)) with hf
  refine ⟨(List.range n).map f, (List.range n).map fun _ => 0, _, _, near_range.mpr fun i hi => ?_,
    C38_forward_exact_partial hl hn f (fun j => (∑ i ∈ Finset.range n, W j i * f i) + b j) fun _ _ => rfl,
    C38_forward_exact_partial hl hn (fun _ => 0) (fun j => (∑ i ∈ Finset.range n, W j i * 0) + b j) fun _ _ => rfl,
    _, _, by simp [hj]; rfl, by simp [hj]; rfl, ?_⟩
  · simp only [hf, Cf.toC_ofC, Cf.toC_hom_zero, sub_zero, norm_mul, norm_div, RCLike.norm_conj,
      Complex.norm_real, norm_norm, Real.norm_of_nonneg hδ]
    by_cases h0 : ‖(W j i).toC‖ = 0
    · rw [h0]; simpa using hδ
    · rw [div_self h0, mul_one]
  · have e : ∀ i, (W j i).toC * (f i).toC = ((‖(W j i).toC‖ * δ : ℝ) : ℂ) := by
      intro i
      simp only [hf, Cf.toC_ofC]
      by_cases h0 : (W j i).toC = 0
      · simp [h0]
      · have : (‖(W j i).toC‖ : ℂ) ≠ 0 := by simpa using h0
        have h2 := Complex.mul_conj' (W j i).toC
        field_simp
        push_cast
        linear_combination (δ : ℂ) * h2
    simp only [Cf.toC_hom_add, toC_sum, Cf.toC_hom_mul, e, add_sub_cancel_right, ← Complex.ofReal_sum, ← Finset.sum_mul, Complex.norm_real]
    exact Real.norm_of_nonneg (mul_nonneg (Finset.sum_nonneg fun _ _ => norm_nonneg _) hδ)

theorem steep {f : ActFunc} {c : ℝ} (hc : 0 < c) (h : ∀ ε > 0, ∃ z z' y y' : Cf w ℝ, Act.activate f z = some y
    ∧ Act.activate f z' = some y' ∧ ‖z.toC - z'.toC‖ ≤ ε ∧ c ≤ ‖y.toC - y'.toC‖) (L : ℝ) :
    ∃ z z' y y' : Cf w ℝ, Act.activate f z = some y ∧ Act.activate f z' = some y'
      ∧ L * ‖z.toC - z'.toC‖ < ‖y.toC - y'.toC‖ := by
  have hL : 0 < |L| + 1 := by positivity
  obtain ⟨z, z', y, y', h1, h2, h3, h4⟩ := h (c / (2 * (|L| + 1))) (by positivity)
  refine ⟨z, z', y, y', h1, h2, lt_of_lt_of_le ?_ h4⟩
  have h5 : L * ‖z.toC - z'.toC‖ ≤ (|L| + 1) * (c / (2 * (|L| + 1))) :=
    mul_le_mul (by linarith [le_abs_self L]) h3 (norm_nonneg _) hL.le
  have h6 : (|L| + 1) * (c / (2 * (|L| + 1))) = c / 2 := by field_simp
  linarith

theorem modZ_value {a : ℝ} (ha : a ≠ 0) : ∃ y : Cf w ℝ, Act.activate .modZ ⟨a, 0⟩ = some y
    ∧ y.toC = ((a / |a| : ℝ) : ℂ) := by
  have hn : (⟨a, 0⟩ : Cf w ℝ).norm = |a| := by
    rw [Cf.norm_eq]
    have : (⟨a, 0⟩ : Cf w ℝ).toC = (a : ℂ) := rfl
    rw [this, Complex.norm_real, Real.norm_eq_abs]
  have hc : (Cf.new |a| Scalar.zero : Cf w ℝ).toC = ((|a| : ℝ) : ℂ) := by
    apply Complex.ext <;> simp [Cf.new, Cf.toC, Scalar.zero, Scalar.lit]
  obtain ⟨y, h1, h2⟩ := div_toC (⟨a, 0⟩ : Cf w ℝ) (Cf.new |a| Scalar.zero) (by
    rw [hc]
    simpa using ha)
  refine ⟨y, by simpa [Act.activate, Act.modZ, hn] using h1, ?_⟩
  rw [h2, hc]
  have : (⟨a, 0⟩ : Cf w ℝ).toC = (a : ℂ) := rfl
  rw [this]
  push_cast
  rfl

/-- C83. The other four activations are not Lipschitz continuous with any constant. -/
theorem C83_jumps {f : ActFunc} (hf : ¬ f.Short) (L : ℝ) : ∃ z z' y y' : Cf w ℝ, Act.activate f z = some y
    ∧ Act.activate f z' = some y' ∧ L * ‖z.toC - z'.toC‖ < ‖y.toC - y'.toC‖ := by
  cases f with
  | none => exact absurd (.inl rfl) hf
  | ritTanh => exact absurd (.inr (.inl rfl)) hf
  | ritReLU => exact absurd (.inr (.inr rfl)) hf
  | modZ =>
    refine steep (c := 2) two_pos (fun ε hε => ?_) L
    obtain ⟨y, h1, e1⟩ := modZ_value (w := w) (a := ε / 2) (by positivity)
    obtain ⟨y', h2, e2⟩ := modZ_value (w := w) (a := -(ε / 2)) (by
      have : 0 < ε / 2 := by positivity
      linarith)
    refine ⟨_, _, y, y', h1, h2, ?_, ?_⟩
    · have : (⟨ε / 2, 0⟩ : Cf w ℝ).toC - (⟨-(ε / 2), 0⟩ : Cf w ℝ).toC = ((ε : ℝ) : ℂ) := by
        apply Complex.ext <;> simp
      rw [this, Complex.norm_real, Real.norm_of_nonneg hε.le]
    · have hp : |ε / 2| = ε / 2 := abs_of_pos (by positivity)
      have h3 : ε / 2 / (ε / 2) = 1 := div_self (by positivity)
      rw [e1, e2, abs_neg, hp, neg_div, h3]
      norm_num
  | ritSigmoid =>
    by_contra hcon
    push Not at hcon
    have hl : LipschitzWith |L|.toNNReal (Act.sigmoid w : ℝ → ℝ) := by
      refine LipschitzWith.of_dist_le_mul fun a b => ?_
      have h1 := hcon ⟨a, 0⟩ ⟨b, 0⟩ _ _ rfl rfl
      have e1 : (⟨a, 0⟩ : Cf w ℝ).toC - (⟨b, 0⟩ : Cf w ℝ).toC = ((a - b : ℝ) : ℂ) := by
        apply Complex.ext <;> simp
      have e2 : (Act.ritSigmoid (⟨a, 0⟩ : Cf w ℝ)).toC - (Act.ritSigmoid (⟨b, 0⟩ : Cf w ℝ)).toC
          = ((Act.sigmoid w a - Act.sigmoid w b : ℝ) : ℂ) := by
        apply Complex.ext <;> simp [Act.ritSigmoid]
      rw [e1, e2, Complex.norm_real, Complex.norm_real] at h1
      rw [Real.coe_toNNReal _ (abs_nonneg L), Real.dist_eq, Real.dist_eq]
      exact h1.trans (mul_le_mul_of_nonneg_right (le_abs_self L) (abs_nonneg _))
    refine sigmoid_jump (w := w) (v := threshold w) (abs_of_pos ?_) hl.continuous.continuousAt
    cases w <;> norm_num [threshold]
  | zReLU =>
    refine steep (c := 1) one_pos (fun ε hε => ?_) L
    refine ⟨⟨0, 1⟩, ⟨-ε, 1⟩, ⟨0, 1⟩, Cf.default, congrArg some (zRelu_pos _ le_rfl zero_le_one),
      congrArg some (zRelu_neg _ (.inl (neg_lt_zero.mpr hε))), ?_, ?_⟩
    · have : (⟨0, 1⟩ : Cf w ℝ).toC - (⟨-ε, 1⟩ : Cf w ℝ).toC = ((ε : ℝ) : ℂ) := by
        apply Complex.ext <;> simp
      rw [this, Complex.norm_real, Real.norm_of_nonneg hε.le]
    · rw [Cf.toC_default, sub_zero]
      have : (⟨0, 1⟩ : Cf w ℝ).toC = Complex.I := rfl
      rw [this, Complex.norm_I]
  | cardioid =>
    have h0 : ∀ ε > 0, Act.activate .cardioid (⟨ε, 0⟩ : Cf w ℝ) = some ⟨4, 0⟩ := by
      intro ε hε
      have hp : (⟨ε, 0⟩ : Cf w ℝ).phase = 0 := by
        cases w with
        | w32 => exact Complex.arg_ofReal_of_nonneg hε.le
        | w64 => simp [Cf.phase]
      refine congrArg some ?_
      unfold Act.card
      simp only [hp, scos, ssin, Real.cos_zero, Real.sin_zero, smul', stwo, sadd, sone, Cf.mk.injEq]
      norm_num
    refine steep (c := 1) one_pos (fun ε hε => ?_) L
    cases w with
    | w32 =>
      have hp : (⟨-(ε / 2), 0⟩ : Cf .w32 ℝ).phase = Real.pi :=
        Complex.arg_ofReal_of_neg (neg_lt_zero.mpr (by positivity))
      refine ⟨⟨ε / 2, 0⟩, ⟨-(ε / 2), 0⟩, _, ⟨0, 0⟩, h0 _ (by positivity), congrArg some ?_, ?_, ?_⟩
      · unfold Act.card
        simp only [hp, scos, ssin, Real.cos_pi, Real.sin_pi, smul', stwo, sadd, sone, Cf.mk.injEq]
        norm_num
      · have : (⟨ε / 2, 0⟩ : Cf .w32 ℝ).toC - (⟨-(ε / 2), 0⟩ : Cf .w32 ℝ).toC = ((ε : ℝ) : ℂ) := by
          apply Complex.ext <;> simp
        rw [this, Complex.norm_real, Real.norm_of_nonneg hε.le]
      · have : (⟨4, 0⟩ : Cf .w32 ℝ).toC - (⟨0, 0⟩ : Cf .w32 ℝ).toC = ((4 : ℝ) : ℂ) := by
          apply Complex.ext <;> simp
        rw [this, Complex.norm_real]
        norm_num
    | w64 =>
      have hp : (⟨ε, ε⟩ : Cf .w64 ℝ).phase = Real.pi / 4 := by
        simp only [Cf.phase, sdiv, satan, div_self hε.ne', Real.arctan_one]
      refine ⟨⟨ε, 0⟩, ⟨ε, ε⟩, _, _, h0 _ hε, rfl, ?_, ?_⟩
      · have : (⟨ε, 0⟩ : Cf .w64 ℝ).toC - (⟨ε, ε⟩ : Cf .w64 ℝ).toC = ((-ε : ℝ) : ℂ) * Complex.I := by
          apply Complex.ext <;> simp
        rw [this, norm_mul, Complex.norm_real, Complex.norm_I, norm_neg, mul_one, Real.norm_of_nonneg hε.le]
      · refine le_trans ?_ (Complex.abs_im_le_norm _)
        have h2 : √2 * √2 = 2 := Real.mul_self_sqrt (by norm_num)
        have h3 : 0 ≤ √2 := Real.sqrt_nonneg 2
        have e : ((⟨4, 0⟩ : Cf .w64 ℝ).toC - (Act.card (⟨ε, ε⟩ : Cf .w64 ℝ)).toC).im = -(√2 + 1) := by
          rw [Complex.sub_im, Cf.toC_im, Cf.toC_im]
          unfold Act.card
          simp only [hp, scos, ssin, Real.cos_pi_div_four, Real.sin_pi_div_four, smul', stwo, sadd, sone]
          linarith
        rw [e, abs_neg, abs_of_nonneg (by linarith)]
        linarith

/-! ## Every network of such layers is Lipschitz continuous -/

theorem exists_bound (n : Nat) (g : Nat → ℝ) : ∃ L, 0 ≤ L ∧ ∀ j < n, g j ≤ L := by
  induction n with
  | zero => exact ⟨0, le_rfl, fun j hj => absurd hj (Nat.not_lt_zero j)⟩
  | succ n ih =>
    obtain ⟨L, h0, h⟩ := ih
    refine ⟨max L (g n), le_max_of_le_left h0, fun j hj => ?_⟩
    rcases Nat.lt_succ_iff_lt_or_eq.mp hj with hj | rfl
    · exact le_max_of_le_left (h j hj)
    · exact le_max_right _ _

theorem Layer.exists_gain {l : Layer (Cf w ℝ)} (hw : l.WF) (ha : l.act.Short)
    (hm : ∀ d, l = .reduce d → d.blockFunc = meanBlock ∧ 0 < d.blockSize.1 * d.blockSize.2) :
    ∃ L, 0 ≤ L ∧ l.Gain L := by
  have : Nonempty (Cf w ℝ) := ⟨0⟩
  cases l with
  | dense l =>
    obtain ⟨W, b, h⟩ := Dense.exists_is hw
    obtain ⟨L, h0, hL⟩ := exists_bound l.weights.shape.1
      fun j => ∑ i ∈ Finset.range l.weights.shape.2, ‖(W j i).toC‖
    exact ⟨L, h0, ha, _, _, W, b, h, hL⟩
  | conv l =>
    obtain ⟨⟨p, q⟩, hs⟩ := hw.2.2.2.2
    obtain ⟨K, b, h⟩ := Conv.exists_is hw hs
    obtain ⟨L, h0, hL⟩ := exists_bound l.kernels.shape.1
      fun o => ∑ ch ∈ Finset.range l.kernels.shape.2, ∑ a ∈ Finset.range p, ∑ b ∈ Finset.range q,
        ‖(K o ch a b).toC‖
    exact ⟨L, h0, ha, _, _, p, q, K, b, h, hL⟩
  | reduce l => exact ⟨1, zero_le_one, C83_mean (hm l rfl).1 (hm l rfl).2⟩
  | flatten l => exact ⟨1, zero_le_one, le_refl (1 : ℝ)⟩

/-- C83. Every network of dense, convolutional, mean pooling and flatten layers with these activations
is Lipschitz continuous on the inputs it fits. -/
theorem C83_lipschitz {n : Net (Cf w ℝ)} (hn : n.layers ≠ []) (hw : ∀ l ∈ n.layers, l.WF)
    (ha : ∀ l ∈ n.layers, l.act.Short) (hm : n.MeanPools) {s s' : Size} (hf : FitsChain n.layers s s') :
    ∃ L, 0 ≤ L ∧ ∀ {x x' : IOType (Cf w ℝ)} {δ : ℝ}, x.HasSize s → 0 ≤ δ → x.Apart δ x' →
      ∃ y y', n.forward x = some (.ok y) ∧ n.forward x' = some (.ok y') ∧ y.Apart (L * δ) y' := by
  have hp : ∀ {ls : List (Layer (Cf w ℝ))} {s s' : Size}, FitsChain ls s s' → ∀ d, Layer.reduce d ∈ ls →
      0 < d.blockSize.1 * d.blockSize.2 := by
    intro ls s s' hf
    induction hf with
    | nil s => simp
    | @cons l ls s s₁ s' h t ih =>
      intro d hd
      rcases List.mem_cons.mp hd with rfl | hd
      · cases s <;> cases s₁ <;> try exact h.elim
        exact Nat.mul_pos h.2.2.2.2.1 h.2.2.2.2.2.1
      · exact ih d hd
  have key : ∀ ls : List (Layer (Cf w ℝ)), (∀ l ∈ ls, ∃ L, 0 ≤ L ∧ l.Gain L) →
      ∃ Ls : List ℝ, List.Forall₂ Layer.Gain ls Ls ∧ ∀ L ∈ Ls, 0 ≤ L := by
    intro ls
    induction ls with
    | nil => exact fun _ => ⟨[], .nil, by simp⟩
    | cons l ls ih =>
      intro h
      obtain ⟨L, h0, h1⟩ := h l (by simp)
      obtain ⟨Ls, h2, h3⟩ := ih fun l hl => h l (by simp [hl])
      exact ⟨L :: Ls, .cons h1 h2, by simpa [h0] using h3⟩
  obtain ⟨Ls, h1, h2⟩ := key n.layers fun l hl => Layer.exists_gain (hw l hl) (ha l hl)
    fun d hd => by subst hd; exact ⟨hm d hl, hp hf d hl⟩
  exact ⟨Ls.prod, List.prod_nonneg h2, fun hx hδ h => C83_network hn h1 h2 hf hx hδ h⟩

/-! ## Non-vacuity -/

/-- Two dense layers with a `tanh` between them do not stretch distances. -/
example (x x' : Cf w ℝ) : ∃ y y', (exActNet .ritTanh).forward (.scalar [x]) = some (.ok y)
    ∧ (exActNet .ritTanh).forward (.scalar [x']) = some (.ok y') ∧ y.Apart ‖x.toC - x'.toC‖ y' := by
  have h1 : (exAct .ritTanh 0 : Layer (Cf w ℝ)).Gain 1 :=
    ⟨.inr (.inl rfl), 1, 1, fun _ _ => 1, fun _ => 0, ⟨⟨rfl, rfl⟩, rfl, rfl⟩, fun j _ => by simp [Cf.toC_hom_one]⟩
  have h2 : (exUnit : Layer (Cf w ℝ)).Gain 1 :=
    ⟨.inl rfl, 1, 1, fun _ _ => 1, fun _ => 0, ⟨⟨rfl, rfl⟩, rfl, rfl⟩, fun j _ => by simp [Cf.toC_hom_one]⟩
  obtain ⟨y, y', k1, k2, k3⟩ := C83_network (n := exActNet .ritTanh) (by simp [exActNet]) (Ls := [1, 1])
    (.cons h1 (.cons h2 .nil)) (by simp) (s := .vec 1) (s' := .vec 1)
    (.cons (s₁ := .vec 1) ⟨one_pos, rfl⟩ (.cons (s₁ := .vec 1) ⟨one_pos, rfl⟩ (.nil _))) (x := .scalar [x]) (x' := .scalar [x']) rfl
    (norm_nonneg (x.toC - x'.toC)) (.cons le_rfl .nil)
  exact ⟨y, y', k1, k2, by simpa using k3⟩

end Renplex
