import Verif.Props.Loss
import Verif.Props.NetworkEval
import Mathlib.Algebra.Order.BigOperators.Ring.Finset
import Mathlib.Algebra.Order.Chebyshev
/-!
# C101: the loss bounds the share of wrong predictions
-/

namespace Renplex
open Loss
variable {w : Width}

/-! ## A wrong prediction -/

theorem oneHot_length (m k : Nat) : (oneHot m k : List (Cf w ℝ)).length = m := by simp [oneHot]

theorem oneHot_first {m k : Nat} (hk : k < m) : FirstLargest (oneHot m k : List (Cf w ℝ)) k := by
  have h1 : ‖(⟨1, 0⟩ : Cf w ℝ).toC‖ = 1 := by
    have : (⟨1, 0⟩ : Cf w ℝ).toC = 1 := by apply Complex.ext <;> simp [Cf.toC]
    rw [this, norm_one]
  have h0 : ‖(⟨0, 0⟩ : Cf w ℝ).toC‖ = 0 := by
    have : (⟨0, 0⟩ : Cf w ℝ).toC = 0 := by apply Complex.ext <;> simp [Cf.toC]
    rw [this, norm_zero]
  refine ⟨⟨1, 0⟩, by simp [oneHot, hk], fun y hy => ?_, fun j y hj hy => ?_⟩
  · obtain ⟨i, -, rfl⟩ := List.mem_map.mp hy
    rw [h1]
    split_ifs
    · exact h1.le
    · rw [h0]; norm_num
  · have hjm : j < m := hj.trans hk
    simp only [oneHot, List.getElem?_map, List.getElem?_range hjm, Option.map_some, hj.ne, if_false,
      Option.some.injEq] at hy
    rw [← hy, h1, h0]
    norm_num

/-- If the class predicted is not `k`, some other class is at least as large as `k`. -/
theorem wrong_other {p : List (Cf w ℝ)} {k : Nat} (hk : k < p.length) (h : Net.argmax p ≠ k) :
    ∃ j, j < p.length ∧ j ≠ k
      ∧ ‖(p.getD k ⟨0, 0⟩).toC‖ ≤ ‖(p.getD j ⟨0, 0⟩).toC‖ := by
  have hne : p ≠ [] := by rintro rfl; simp at hk
  obtain ⟨z, hz, hmax, -⟩ := C56_argmax p hne
  obtain ⟨hj, hz'⟩ := List.getElem?_eq_some_iff.mp hz
  refine ⟨Net.argmax p, hj, h, ?_⟩
  rw [List.getD_eq_getElem?_getD, List.getD_eq_getElem?_getD, hz, List.getElem?_eq_getElem hk]
  exact hmax _ (List.getElem_mem hk)

theorem list_getD_range (p : List (Cf w ℝ)) :
    p = (List.range p.length).map fun i => p.getD i ⟨0, 0⟩ := by
  apply List.ext_getElem (by simp)
  intro i h1 h2
  simp [List.getD_eq_getElem?_getD, h1]

theorem sqSum_oneHot (p : List (Cf w ℝ)) (k : Nat) :
    sqSum (oneHot p.length k) p
      = ∑ i ∈ Finset.range p.length, ‖(if i = k then 1 else 0) - (p.getD i ⟨0, 0⟩).toC‖ ^ 2 := by
  unfold sqSum oneHot
  conv_lhs => rw [list_getD_range p]
  rw [List.length_map, List.length_range, zip_range_map, List.map_map, sum_range_list]
  refine Finset.sum_congr rfl fun i _ => ?_
  have : (if i = k then (⟨1, 0⟩ : Cf w ℝ) else ⟨0, 0⟩).toC = if i = k then 1 else 0 := by
    split_ifs <;> apply Complex.ext <;> simp [Cf.toC]
  simp only [Function.comp, this]

theorem pair_le_sum {m j k : Nat} (hj : j < m) (hk : k < m) (h : j ≠ k) (f : Nat → ℝ)
    (hf : ∀ i, 0 ≤ f i) : f k + f j ≤ ∑ i ∈ Finset.range m, f i := by
  have hs : ({k, j} : Finset Nat) ⊆ Finset.range m := by
    intro i hi
    rcases Finset.mem_insert.mp hi with rfl | hi
    · exact Finset.mem_range.mpr hk
    · rw [Finset.mem_singleton.mp hi]; exact Finset.mem_range.mpr hj
  have := Finset.sum_le_sum_of_subset_of_nonneg hs fun i _ _ => hf i
  rwa [Finset.sum_pair (Ne.symm h)] at this

/-- C101. A wrong prediction has squared error at least one half. -/
theorem C101_square (p : List (Cf w ℝ)) (k : Nat) (hk : k < p.length) (h : Net.argmax p ≠ k) :
    1 / 2 ≤ sqSum (oneHot p.length k) p := by
  obtain ⟨j, hj, hjk, hle⟩ := wrong_other hk h
  rw [sqSum_oneHot]
  have h2 := pair_le_sum hj hk hjk
    (fun i => ‖(if i = k then 1 else 0) - (p.getD i ⟨0, 0⟩).toC‖ ^ 2) fun i => by positivity
  refine le_trans ?_ h2
  simp only [if_true, hjk, if_false, zero_sub, norm_neg]
  have h3 := norm_sub_norm_le (1 : ℂ) (p.getD k ⟨0, 0⟩).toC
  rw [norm_one] at h3
  have h4 := norm_nonneg (p.getD k ⟨0, 0⟩).toC
  have h5 := norm_nonneg (1 - (p.getD k ⟨0, 0⟩).toC)
  generalize ‖(p.getD k ⟨0, 0⟩).toC‖ = a at *
  generalize ‖(p.getD j ⟨0, 0⟩).toC‖ = b at *
  generalize ‖1 - (p.getD k ⟨0, 0⟩).toC‖ = c at *
  nlinarith [sq_nonneg (2 * a - 1), sq_nonneg (c - b), sq_nonneg (c + b - 1)]

/-- C101. A wrong prediction gives the true class a soft-max probability of at most one half, so its
cross-entropy is at least `log 2`. -/
theorem C101_entropy (p : List (Cf w ℝ)) (k : Nat) (hk : k < p.length) (h : Net.argmax p ≠ k) :
    softmax p k ≤ 1 / 2 ∧ Real.log 2 ≤ normCe (oneHot p.length k) p := by
  obtain ⟨j, hj, hjk, hle⟩ := wrong_other hk h
  have hS : (p.map fun z => Real.exp (‖z.toC‖ ^ 2)).sum
      = ∑ i ∈ Finset.range p.length, Real.exp (‖(p.getD i ⟨0, 0⟩).toC‖ ^ 2) := by
    conv_lhs => rw [list_getD_range p]
    rw [List.map_map, sum_range_list]
    rfl
  have h2 := pair_le_sum hj hk hjk (fun i => Real.exp (‖(p.getD i ⟨0, 0⟩).toC‖ ^ 2))
    fun i => (Real.exp_pos _).le
  have h3 : Real.exp (‖(p.getD k ⟨0, 0⟩).toC‖ ^ 2) ≤ Real.exp (‖(p.getD j ⟨0, 0⟩).toC‖ ^ 2) :=
    Real.exp_le_exp.mpr (pow_le_pow_left₀ (norm_nonneg _) hle 2)
  have h4 := Real.exp_pos (‖(p.getD k ⟨0, 0⟩).toC‖ ^ 2)
  have hs : softmax p k ≤ 1 / 2 := by
    unfold softmax
    rw [hS, div_le_iff₀ (by linarith)]
    linarith
  refine ⟨hs, ?_⟩
  have hpos : 0 < softmax p k := by
    unfold softmax
    rw [hS]
    exact div_pos h4 (by linarith)
  rw [normCe_oneHot p k hk]
  have := Real.log_le_log hpos hs
  rw [one_div, Real.log_inv] at this
  linarith

/-! ## The share of wrong predictions -/

theorem filter_share {β : Type} (l : List β) (P : β → Prop) [DecidablePred P] (f : β → ℝ) (c : ℝ)
    (hf : ∀ x ∈ l, 0 ≤ f x) (h : ∀ x ∈ l, ¬ P x → c ≤ f x) :
    ((l.length : ℝ) - (l.filter fun x => P x).length) * c ≤ (l.map f).sum := by
  induction l with
  | nil => simp
  | cons a l ih =>
    have ih := ih (fun x hx => hf x (by simp [hx])) fun x hx => h x (by simp [hx])
    have ha := hf a (by simp)
    rw [List.map_cons, List.sum_cons, List.filter_cons]
    by_cases hP : P a
    · simp only [hP, decide_true, if_true, List.length_cons, Nat.cast_add, Nat.cast_one]
      linarith
    · have := h a (by simp) hP
      simp only [hP, decide_false, Bool.false_eq_true, if_false, List.length_cons, Nat.cast_add,
        Nat.cast_one]
      linarith

/-- A non-empty batch of points whose targets are one-hot vectors of length `m` and which the
network forwards to vectors of that length: `pr` the predictions, `cls` the classes. -/
structure Classifies (n : Net (Cf w ℝ)) (data : Dataset (Cf w ℝ)) (m : Nat)
    (pr : IOType (Cf w ℝ) × IOType (Cf w ℝ) → List (Cf w ℝ))
    (cls : IOType (Cf w ℝ) × IOType (Cf w ℝ) → Nat) : Prop where
  len : data.inputs.length = data.target.length
  ne : data.points ≠ []
  fwd : ∀ p ∈ data.points, n.forward p.1 = some (.ok (.scalar (pr p)))
  size : ∀ p ∈ data.points, (pr p).length = m
  targ : ∀ p ∈ data.points, p.2 = .scalar (oneHot m (cls p)) ∧ cls p < m

variable {n : Net (Cf w ℝ)} {data : Dataset (Cf w ℝ)} {m : Nat}
  {pr : IOType (Cf w ℝ) × IOType (Cf w ℝ) → List (Cf w ℝ)}
  {cls : IOType (Cf w ℝ) × IOType (Cf w ℝ) → Nat}

/-- The accuracy and the loss of a classification batch. -/
theorem Classifies.values (h : Classifies n data m pr cls) (f : LossFunc) :
    n.maxPredTest data = some
        (((data.points.filter fun p => Net.argmax (pr p) = cls p).length : ℝ) / data.points.length)
      ∧ n.loss data f = some
        ((data.points.map fun p => func f (oneHot m (cls p)) (pr p)).sum / data.points.length) := by
  have hm : ∀ p ∈ data.points, 0 < m := fun p hp => Nat.zero_lt_of_lt (h.targ p hp).2
  constructor
  · rw [C56_accuracy n data h.len pr (fun p => oneHot m (cls p)) fun p hp =>
      ⟨h.fwd p hp, (h.targ p hp).1, fun h0 => by
        have := h.size p hp; rw [h0] at this; have := hm p hp; simp_all, fun h0 => by
        have := congrArg List.length h0; rw [oneHot_length] at this; have := hm p hp; simp_all⟩]
    congr 4
    refine List.filter_congr fun p hp => ?_
    have hne : pr p ≠ [] := fun h0 => by
      have := h.size p hp; rw [h0] at this; have := hm p hp; simp_all
    have hk := oneHot_first (w := w) (h.targ p hp).2
    rw [decide_eq_decide]
    constructor
    · rintro ⟨i, hi, hi'⟩
      rw [C56_unique _ _ _ (C56_argmax _ hne) hi, C56_unique _ _ _ hi' hk]
    · intro he
      exact ⟨cls p, by rw [← he]; exact C56_argmax _ hne, hk⟩
  · refine C57_mean n data f h.ne _ fun p hp => ⟨_, h.fwd p hp, ?_⟩
    rw [(h.targ p hp).1]
    rfl

/-- C101. The share of wrong predictions is at most `2 (m - 1)` times the mean-square loss. -/
theorem C101_meanSquare (h : Classifies n data m pr cls) (hm : 2 ≤ m) :
    ∃ acc L, n.maxPredTest data = some acc ∧ n.loss data .meanSquare = some L
      ∧ 1 - acc ≤ 2 * (m - 1) * L := by
  obtain ⟨h1, h2⟩ := h.values .meanSquare
  refine ⟨_, _, h1, h2, ?_⟩
  have hB : (0 : ℝ) < data.points.length := by
    exact_mod_cast List.length_pos_iff.mpr h.ne
  have hm' : (2 : ℝ) ≤ m := by exact_mod_cast hm
  have hv : ∀ p ∈ data.points, func .meanSquare (oneHot m (cls p)) (pr p)
      = sqSum (oneHot m (cls p)) (pr p) / (m - 1) := by
    intro p hp
    show meanSq _ _ = _
    rw [meanSq_real, List.length_zip, oneHot_length, h.size p hp, Nat.min_self,
      Nat.cast_sub (by omega), Nat.cast_one]
  have hs := filter_share data.points (fun p => Net.argmax (pr p) = cls p)
    (fun p => func .meanSquare (oneHot m (cls p)) (pr p)) (1 / 2 / (m - 1))
    (fun p hp => by rw [hv p hp]; exact div_nonneg (sqSum_nonneg _ _) (by linarith))
    fun p hp hw => by
      rw [hv p hp]
      have := C101_square (pr p) (cls p) (by rw [h.size p hp]; exact (h.targ p hp).2) hw
      rw [h.size p hp] at this
      exact div_le_div_of_nonneg_right this (by linarith)
  generalize (data.points.map fun p => func .meanSquare (oneHot m (cls p)) (pr p)).sum = S at *
  generalize ((data.points.filter fun p => Net.argmax (pr p) = cls p).length : ℝ) = k at *
  rw [div_div, mul_one_div, div_le_iff₀ (by linarith)] at hs
  rw [← mul_div_assoc, one_sub_div hB.ne']
  exact div_le_div_of_nonneg_right (by linarith) hB.le

/-- C101. The share of wrong predictions is at most the cross-entropy loss over `log 2`. -/
theorem C101_crossEntropy (h : Classifies n data m pr cls) :
    ∃ acc L, n.maxPredTest data = some acc ∧ n.loss data .normCrossEntropy = some L
      ∧ 1 - acc ≤ L / Real.log 2 := by
  obtain ⟨h1, h2⟩ := h.values .normCrossEntropy
  refine ⟨_, _, h1, h2, ?_⟩
  have hB : (0 : ℝ) < data.points.length := by
    exact_mod_cast List.length_pos_iff.mpr h.ne
  have hlog : 0 < Real.log 2 := Real.log_pos (by norm_num)
  have hk : ∀ p ∈ data.points, cls p < (pr p).length := fun p hp => by
    rw [h.size p hp]; exact (h.targ p hp).2
  have hs := filter_share data.points (fun p => Net.argmax (pr p) = cls p)
    (fun p => func .normCrossEntropy (oneHot m (cls p)) (pr p)) (Real.log 2)
    (fun p hp => by
      obtain ⟨L, hL, -, -, -, h0⟩ := C35_oneHot (pr p) (cls p) (hk p hp)
      rw [h.size p hp] at hL
      cases hL
      exact h0)
    fun p hp hw => by
      have := (C101_entropy (pr p) (cls p) (hk p hp) hw).2
      rw [h.size p hp] at this
      exact this
  generalize (data.points.map fun p => func .normCrossEntropy (oneHot m (cls p)) (pr p)).sum = S at *
  generalize ((data.points.filter fun p => Net.argmax (pr p) = cls p).length : ℝ) = k at *
  rw [one_sub_div hB.ne', div_div, div_le_div_iff₀ hB (by positivity)]
  nlinarith

/-- C101. If the mean-square loss of `B` points is below `1 / (2 (m - 1) B)`, or the cross-entropy
below `log 2 / B`, every prediction is right. -/
theorem C101_all (h : Classifies n data m pr cls) (hm : 2 ≤ m) {f : LossFunc} {L : ℝ}
    (hL : n.loss data f = some L)
    (hsmall : match f with
      | .meanSquare => 2 * (m - 1) * L * data.points.length < 1
      | .normCrossEntropy => L * data.points.length < Real.log 2) :
    n.maxPredTest data = some 1 := by
  have hB : (0 : ℝ) < data.points.length := by
    exact_mod_cast List.length_pos_iff.mpr h.ne
  have key : ∀ acc, n.maxPredTest data = some acc → (1 - acc) * data.points.length < 1 → acc = 1 := by
    intro acc ha hlt
    rw [(h.values f).1] at ha
    cases ha
    have hle := List.length_filter_le (fun p => decide (Net.argmax (pr p) = cls p)) data.points
    rw [one_sub_div hB.ne', div_mul_cancel₀ _ hB.ne'] at hlt
    rw [div_eq_one_iff_eq hB.ne']
    have : data.points.length < (data.points.filter fun p => Net.argmax (pr p) = cls p).length + 1 := by
      exact_mod_cast (by linarith : (data.points.length : ℝ)
        < ((data.points.filter fun p => Net.argmax (pr p) = cls p).length : ℝ) + 1)
    exact_mod_cast (by omega :
      (data.points.filter fun p => Net.argmax (pr p) = cls p).length = data.points.length)
  cases f with
  | meanSquare =>
    obtain ⟨acc, L', h1, h2, h3⟩ := C101_meanSquare h hm
    rw [hL] at h2
    cases h2
    rw [h1, key acc h1 (lt_of_le_of_lt (mul_le_mul_of_nonneg_right h3 hB.le) hsmall)]
  | normCrossEntropy =>
    have hlog : 0 < Real.log 2 := Real.log_pos (by norm_num)
    obtain ⟨acc, L', h1, h2, h3⟩ := C101_crossEntropy h
    rw [hL] at h2
    cases h2
    rw [h1, key acc h1 (lt_of_le_of_lt (mul_le_mul_of_nonneg_right h3 hB.le) ?_)]
    rw [div_mul_eq_mul_div, div_lt_one hlog]
    exact hsmall

/-! ## The bounds are the best -/

/-- C101. The bounds are attained: with two classes, predicting one half for both puts the second
class wrong with squared error one half; predicting one for both, with cross-entropy `log 2`. -/
theorem C101_sharp :
    (Net.argmax [(⟨1 / 2, 0⟩ : Cf w ℝ), ⟨1 / 2, 0⟩] ≠ 1
      ∧ sqSum (oneHot 2 1) [(⟨1 / 2, 0⟩ : Cf w ℝ), ⟨1 / 2, 0⟩] = 1 / 2)
    ∧ Net.argmax [(⟨1, 0⟩ : Cf w ℝ), ⟨1, 0⟩] ≠ 1
      ∧ normCe (oneHot 2 1) [(⟨1, 0⟩ : Cf w ℝ), ⟨1, 0⟩] = Real.log 2 := by
  have first : ∀ a : Cf w ℝ, Net.argmax [a, a] ≠ 1 := by
    intro a h
    obtain ⟨z, hz, -, h2⟩ := C56_argmax [a, a] (by simp)
    rw [h] at hz h2
    have := h2 0 a (by omega) rfl
    simp only [List.getElem?_cons_succ, List.getElem?_cons_zero, Option.some.injEq] at hz
    rw [hz] at this
    exact lt_irrefl _ this
  refine ⟨⟨first _, ?_⟩, first _, ?_⟩
  · have := sqSum_oneHot [(⟨1 / 2, 0⟩ : Cf w ℝ), ⟨1 / 2, 0⟩] 1
    simp only [List.length_cons, List.length_nil] at this
    rw [this]
    have hc : (⟨1 / 2, 0⟩ : Cf w ℝ).toC = ((1 / 2 : ℝ) : ℂ) := by
      apply Complex.ext <;> simp [Cf.toC]
    have h1 : ‖(1 : ℂ) - ((1 / 2 : ℝ) : ℂ)‖ = 1 / 2 := by
      rw [← Complex.ofReal_one, ← Complex.ofReal_sub, Complex.norm_real]; norm_num
    have h2 : ‖((1 / 2 : ℝ) : ℂ)‖ = 1 / 2 := by rw [Complex.norm_real]; norm_num
    rw [Finset.sum_range_succ, Finset.sum_range_succ, Finset.sum_range_zero]
    simp only [List.getD_cons_zero, List.getD_cons_succ, hc, zero_ne_one, if_false, if_true, zero_sub,
      norm_neg, h1, h2]
    norm_num
  · have := normCe_oneHot [(⟨1, 0⟩ : Cf w ℝ), ⟨1, 0⟩] 1 (by simp)
    simp only [List.length_cons, List.length_nil] at this
    rw [this]
    unfold softmax
    simp only [List.getD_cons_succ, List.getD_cons_zero, List.map_cons, List.map_nil, List.sum_cons,
      List.sum_nil, add_zero]
    generalize he : Real.exp (‖(⟨1, 0⟩ : Cf w ℝ).toC‖ ^ 2) = e
    have he0 : e ≠ 0 := by rw [← he]; exact (Real.exp_pos _).ne'
    rw [show e / (e + e) = 2⁻¹ by field_simp; norm_num, Real.log_inv, neg_neg]

/-- A batch of one point that `Classifies` describes: an identity network on its own one-hot. -/
example : ∃ (n : Net (Cf .w32 ℝ)) (data : Dataset (Cf .w32 ℝ)) (pr : _) (cls : _),
    Classifies n data 2 pr cls := by
  refine ⟨⟨[.flatten ⟨(1, 1), 2⟩]⟩,
    ⟨[.matrix [Mat.fromBody [⟨3, 0⟩] (1, 1), Mat.fromBody [⟨1, 0⟩] (1, 1)]], [.scalar (oneHot 2 0)]⟩,
    fun _ => [⟨3, 0⟩, ⟨1, 0⟩], fun _ => 0, rfl, by simp [Dataset.points], ?_, by simp, ?_⟩
  · intro p hp
    simp only [Dataset.points, List.zip_cons_cons, List.zip_nil_left, List.mem_singleton] at hp
    rw [hp]
    rfl
  · intro p hp
    simp only [Dataset.points, List.zip_cons_cons, List.zip_nil_left, List.mem_singleton] at hp
    rw [hp]
    exact ⟨rfl, by norm_num⟩

end Renplex
