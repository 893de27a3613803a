import Verif.Lemmas.Exact
import Verif.Lemmas.Table
import Verif.Spec.Loss
import Mathlib.Analysis.Calculus.Deriv.Add
import Mathlib.Analysis.Calculus.Deriv.Mul
import Mathlib.Analysis.Calculus.Deriv.Pow
import Mathlib.Analysis.Calculus.Deriv.Comp
import Mathlib.Algebra.Order.BigOperators.Group.List
/-!
# C33–C36: losses
-/

namespace Renplex
open Loss ComplexConjugate
variable {w : Width}

/-! ## The model's folds -/

theorem zipIdx_foldl {β R : Type} (add : R → β → R) (l : List β) (k m : Nat) (a : R) :
    (l.zipIdx k).foldl (fun (acc : Nat × R) (p : β × Nat) => (p.2, add acc.2 p.1)) (m, a)
      = (if l = [] then m else k + l.length - 1, l.foldl add a) := by
  induction l generalizing k m a with
  | nil => simp
  | cons b l ih =>
    rw [List.zipIdx_cons, List.foldl_cons, ih]
    by_cases h : l = []
    · simp [h]
    · have : 0 < l.length := List.length_pos_iff.mpr h
      simp [h]
      try omega

/-- The code's mean-square loss, for any float arithmetic: the sum over the pairs, divided by the
number of pairs *minus one*. -/
theorem meanSq_eq {R : Type} [Scalar R] (t p : List (Cf w R)) :
    meanSq t p = Scalar.div ((t.zip p).foldl (fun a q => Scalar.add a (sqError q.1 q.2)) Scalar.zero)
      (Scalar.ofNat ((t.zip p).length - 1)) := by
  unfold meanSq
  rw [zipIdx_foldl (fun (a : R) (q : Cf w R × Cf w R) => Scalar.add a (sqError q.1 q.2))]
  simp only [Nat.zero_add]
  split
  · rename_i h; simp [h]
  · rfl

theorem foldl_add_eq_sum {β : Type} (g : β → ℝ) (l : List β) (a : ℝ) :
    l.foldl (fun a x => Scalar.add a (g x)) a = a + (l.map g).sum := by
  induction l generalizing a with
  | nil => simp
  | cons b l ih => rw [List.foldl_cons, ih, sadd, List.map_cons, List.sum_cons]; ring

theorem foldl_sub_eq_sum {β : Type} (g : β → ℝ) (l : List β) (a : ℝ) :
    l.foldl (fun a x => Scalar.sub a (g x)) a = a - (l.map g).sum := by
  induction l generalizing a with
  | nil => simp
  | cons b l ih => rw [List.foldl_cons, ih, ssub, List.map_cons, List.sum_cons]; ring

theorem sqError_eq (t p : Cf w ℝ) : sqError t p = ‖t.toC - p.toC‖ ^ 2 := by
  rw [sqError, Cf.normSq_eq, Complex.normSq_eq_norm_sq, Cf.toC_sub]

theorem meanSq_real (t p : List (Cf w ℝ)) :
    meanSq t p = sqSum t p / ((t.zip p).length - 1 : Nat) := by
  rw [meanSq_eq, foldl_add_eq_sum]
  simp only [szero, zero_add, sdiv, sofNat]
  unfold sqSum
  congr 2
  exact List.map_congr_left fun q _ => sqError_eq q.1 q.2

theorem sqSum_nonneg (t p : List (Cf w ℝ)) : 0 ≤ sqSum t p :=
  List.sum_nonneg (by simp only [List.mem_map]; rintro x ⟨q, -, rfl⟩; positivity)

theorem sqSum_cons (a b : Cf w ℝ) (t p : List (Cf w ℝ)) :
    sqSum (a :: t) (b :: p) = ‖a.toC - b.toC‖ ^ 2 + sqSum t p := by
  simp [sqSum]

theorem sqSum_eq_zero (t p : List (Cf w ℝ)) (h : t.length = p.length) :
    sqSum t p = 0 ↔ t = p := by
  induction t generalizing p with
  | nil => cases p with
    | nil => simp [sqSum]
    | cons b p => simp at h
  | cons a t ih => cases p with
    | nil => simp at h
    | cons b p =>
      have h1 := sqSum_nonneg t p
      rw [sqSum_cons]
      constructor
      · intro h0
        have e1 : ‖a.toC - b.toC‖ ^ 2 = 0 := by nlinarith [sq_nonneg ‖a.toC - b.toC‖]
        have e2 : sqSum t p = 0 := by nlinarith [sq_nonneg ‖a.toC - b.toC‖]
        rw [(ih p (by simpa using h)).mp e2]
        have : a.toC - b.toC = 0 := by simpa using e1
        rw [Cf.toC_inj.mp (sub_eq_zero.mp this)]
      · intro h0
        obtain ⟨rfl, rfl⟩ := List.cons_eq_cons.mp h0
        rw [(ih t rfl).mpr rfl]; simp

/-! ## C33 mean square -/

/-- C33, the part that holds: for two or more components the reported loss is the sum of squared
errors over `n - 1`; it is non-negative and zero exactly when target and prediction agree (missing:
the divisor is not `n`, and `n = 1` divides by zero). -/
theorem C33_partial (t p : List (Cf w ℝ)) (h : t.length = p.length) (hn : 2 ≤ p.length) :
    ∃ L, compute .meanSquare (.scalar t) (.scalar p) = .ok L
      ∧ L = sqSum t p / (p.length - 1) ∧ 0 ≤ L ∧ (L = 0 ↔ t = p) := by
  have hl : (t.zip p).length = p.length := by simp [h]
  have hL : meanSq t p = sqSum t p / (p.length - 1) := by
    rw [meanSq_real, hl, Nat.cast_sub (by omega)]; simp
  have hpos : (0 : ℝ) < p.length - 1 := by
    have : (2 : ℝ) ≤ p.length := by exact_mod_cast hn
    linarith
  refine ⟨_, rfl, hL, ?_, ?_⟩
  · show 0 ≤ meanSq t p
    rw [hL]; exact div_nonneg (sqSum_nonneg t p) hpos.le
  · show meanSq t p = 0 ↔ _
    rw [hL, div_eq_zero_iff, or_iff_left hpos.ne', sqSum_eq_zero t p h]

/-- C33 is false of the code: for every length from 2 on and every prediction that differs from the
target the reported loss is not the mean `(1/n)·Σ|tᵢ-pᵢ|²` (it divides by `n-1`). -/
theorem C33_refuted (t p : List (Cf w ℝ)) (h : t.length = p.length) (hn : 2 ≤ p.length)
    (hne : t ≠ p) :
    ∃ L, compute .meanSquare (.scalar t) (.scalar p) = .ok L ∧ L ≠ sqSum t p / p.length := by
  obtain ⟨L, h1, h2, -, -⟩ := C33_partial t p h hn
  refine ⟨L, h1, ?_⟩
  have h0 : sqSum t p ≠ 0 := fun h0 => hne ((sqSum_eq_zero t p h).mp h0)
  have hn' : (2 : ℝ) ≤ p.length := by exact_mod_cast hn
  rw [h2]
  intro he
  rw [div_eq_div_iff (by linarith) (by linarith)] at he
  have := mul_left_cancel₀ h0 he
  linarith

/-- C33 is false of the code for one component: the loss is a division by the number zero, in any
float arithmetic. -/
theorem C33_refuted_single {R : Type} [Scalar R] (t p : Cf w R) :
    compute .meanSquare (.scalar [t]) (.scalar [p])
      = .ok (Scalar.div (Scalar.add Scalar.zero (sqError t p)) (Scalar.ofNat 0)) := by
  simp [compute, func, meanSq_eq]

example : (2 : Nat) ≤ ([⟨1, 0⟩, ⟨0, 1⟩] : List (Cf .w32 ℝ)).length := by simp

/-! ## C34 derivative of the loss -/

theorem move_cons (a d : Cf w ℝ) (p δ : List (Cf w ℝ)) (s : ℝ) :
    move (a :: p) (d :: δ) s = Cf.ofC (a.toC + s * d.toC) :: move p δ s := rfl

theorem pairing_cons (a d : Cf w ℝ) (g δ : List (Cf w ℝ)) :
    pairing (a :: g) (d :: δ) = a.toC * d.toC + pairing g δ := by simp [pairing]

theorem move_length {p δ : List (Cf w ℝ)} (h : δ.length = p.length) (s : ℝ) :
    (move p δ s).length = p.length := by simp [move, h]

theorem hasDerivAt_sq_line (t a d : ℂ) :
    HasDerivAt (fun s : ℝ => ‖t - (a + s * d)‖ ^ 2) (2 * (conj (a - t) * d).re) 0 := by
  have e : (fun s : ℝ => ‖t - (a + s * d)‖ ^ 2)
      = fun s : ℝ => (t.re - (a.re + s * d.re)) ^ 2 + (t.im - (a.im + s * d.im)) ^ 2 := by
    funext s
    rw [← Complex.normSq_eq_norm_sq, Complex.normSq_apply]
    simp; ring
  rw [e]
  have l1 : ∀ u v x : ℝ, HasDerivAt (fun s : ℝ => (u - (v + s * x)) ^ 2) (2 * (u - v) * -x) 0 := by
    intro u v x
    have h := ((((hasDerivAt_id (0 : ℝ)).mul_const x).const_add v).const_sub u).pow 2
    exact h.congr_deriv (by simp)
  have h := (l1 t.re a.re d.re).add (l1 t.im a.im d.im)
  exact h.congr_deriv (by simp; ring)

theorem sqSum_gradient (t p : List (Cf w ℝ)) (h : t.length = p.length) :
    IsGradient (sqSum t) p (dMeanSq t p) := by
  refine ⟨by simp [dMeanSq, h], ?_⟩
  intro δ hδ
  induction t generalizing p δ with
  | nil =>
    cases p with
    | nil =>
      have : (fun s : ℝ => sqSum ([] : List (Cf w ℝ)) (move [] δ s)) = fun _ => 0 := by
        funext s; simp [sqSum]
      rw [this]
      simpa [dMeanSq, pairing] using hasDerivAt_const (0 : ℝ) (0 : ℝ)
    | cons b p => simp at h
  | cons a t ih => cases p with
    | nil => simp at h
    | cons b p => cases δ with
      | nil => simp at hδ
      | cons d δ =>
        have ih' := ih p (by simpa using h) δ (by simpa using hδ)
        have h1 := hasDerivAt_sq_line a.toC b.toC d.toC
        have e : (fun s : ℝ => sqSum (a :: t) (move (b :: p) (d :: δ) s))
            = fun s : ℝ => ‖a.toC - (b.toC + s * d.toC)‖ ^ 2 + sqSum t (move p δ s) := by
          funext s; rw [move_cons, sqSum_cons]; simp
        have e2 : dMeanSq (a :: t) (b :: p) = dSqError a b :: dMeanSq t p := rfl
        rw [e, e2, pairing_cons]
        refine (h1.add ih').congr_deriv ?_
        rw [dSqError, Cf.toC_conj, Cf.toC_sub, Complex.add_re]
        ring

theorem IsGradient.unique {L : List (Cf w ℝ) → ℝ} {p g g' : List (Cf w ℝ)}
    (h : IsGradient L p g) (h' : IsGradient L p g') : g = g' := by
  obtain ⟨hl, h⟩ := h
  obtain ⟨hl', h'⟩ := h'
  have key : ∀ δ : List (Cf w ℝ), δ.length = p.length → (pairing g δ).re = (pairing g' δ).re := by
    intro δ hδ
    have := (h δ hδ).unique (h' δ hδ)
    linarith
  clear h h'
  induction p generalizing g g' with
  | nil => rw [List.length_eq_zero_iff.mp hl, List.length_eq_zero_iff.mp hl']
  | cons b p ih => cases g with
    | nil => simp at hl
    | cons a g => cases g' with
      | nil => simp at hl'
      | cons a' g' =>
        have hz : ∀ q : List (Cf w ℝ), ∀ n, pairing q (List.replicate n ⟨0, 0⟩) = 0 := by
          intro q n
          induction n generalizing q with
          | zero => cases q <;> simp [pairing]
          | succ n ih => cases q with
            | nil => simp [pairing]
            | cons c q =>
              rw [List.replicate_succ, pairing_cons, ih]
              have : (⟨0, 0⟩ : Cf w ℝ).toC = 0 := rfl
              rw [this]; simp
        have k1 := key (⟨1, 0⟩ :: List.replicate p.length ⟨0, 0⟩) (by simp)
        have k2 := key (⟨0, 1⟩ :: List.replicate p.length ⟨0, 0⟩) (by simp)
        rw [pairing_cons, pairing_cons, hz, hz] at k1 k2
        simp at k1 k2
        have ea : a = a' := Cf.ext k1 k2
        subst ea
        refine congrArg _ (ih (by simpa using hl) (by simpa using hl') ?_)
        intro δ hδ
        have := key (⟨0, 0⟩ :: δ) (by simpa using hδ)
        rw [pairing_cons, pairing_cons] at this
        simpa using this

/-- C34, the part that holds: for both loss functions the returned vector is the gradient of the
*undivided* sum of squared errors, for every target and prediction of equal length (missing: it is
the gradient of the reported loss only for mean-square with two components, see
`C34_partial_iff`). -/
theorem C34_partial (f : LossFunc) (t p : List (Cf w ℝ)) (h : t.length = p.length) :
    ∃ g, computeD f (.scalar t) (.scalar p) = .ok g ∧ IsGradient (sqSum t) p g := by
  cases f
  · exact ⟨_, rfl, sqSum_gradient t p h⟩
  · exact ⟨_, rfl, sqSum_gradient t p h⟩

/-- The reported loss as a function of the prediction. -/
noncomputable def reported (f : LossFunc) (t p : List (Cf w ℝ)) : ℝ :=
  match compute f (.scalar t) (.scalar p) with
  | .ok L => L
  | .error _ => 0

theorem pairing_smul (c : ℝ) (g δ : List (Cf w ℝ)) :
    (pairing (g.map fun z => ⟨c * z.x, c * z.y⟩) δ).re = c * (pairing g δ).re := by
  induction g generalizing δ with
  | nil => simp [pairing]
  | cons a g ih => cases δ with
    | nil => simp [pairing]
    | cons d δ =>
      rw [List.map_cons, pairing_cons, pairing_cons, Complex.add_re, Complex.add_re, ih]
      simp; ring

/-- C34 for mean-square: from two components on, the returned vector is the gradient of the reported
loss exactly if there are two components, or the prediction already equals the target. -/
theorem C34_partial_iff (t p : List (Cf w ℝ)) (h : t.length = p.length) (hn : 2 ≤ p.length) :
    ∃ g, computeD .meanSquare (.scalar t) (.scalar p) = .ok g
      ∧ (IsGradient (reported .meanSquare t) p g ↔ p.length = 2 ∨ t = p) := by
  refine ⟨dMeanSq t p, rfl, ?_⟩
  have hn' : (2 : ℝ) ≤ p.length := by exact_mod_cast hn
  have hne : (p.length - 1 : ℝ) ≠ 0 := by linarith
  obtain ⟨hl, hg⟩ := sqSum_gradient t p h
  have htrue : IsGradient (reported .meanSquare t) p
      ((dMeanSq t p).map fun z => ⟨(1 / (p.length - 1 : ℝ)) * z.x, (1 / (p.length - 1 : ℝ)) * z.y⟩) := by
    refine ⟨by simpa using hl, fun δ hδ => ?_⟩
    have e : (fun s : ℝ => reported .meanSquare t (move p δ s))
        = fun s : ℝ => (1 / (p.length - 1 : ℝ)) * sqSum t (move p δ s) := by
      funext s
      obtain ⟨L, h1, h2, -, -⟩ := C33_partial t (move p δ s) (by rw [move_length hδ, h])
        (by rw [move_length hδ]; exact hn)
      rw [reported, h1]
      simp only
      rw [h2, move_length hδ]; ring
    rw [e, pairing_smul]
    exact ((hg δ hδ).const_mul (1 / (p.length - 1 : ℝ))).congr_deriv (by ring)
  constructor
  · intro hc
    by_cases h2 : p.length = 2
    · exact Or.inl h2
    · right
      have he := hc.unique htrue
      have h3 : (1 / (p.length - 1 : ℝ)) ≠ 1 := by
        intro h1
        rw [div_eq_one_iff_eq hne] at h1
        apply h2
        have : (p.length : ℝ) = 2 := by linarith
        exact_mod_cast this
      have hzero : ∀ z ∈ dMeanSq t p, z.toC = 0 := by
        intro z hz
        obtain ⟨i, hi, rfl⟩ := List.getElem_of_mem hz
        have e1 := List.getElem_of_eq he hi
        rw [List.getElem_map] at e1
        have ex := congrArg Cf.x e1
        have ey := congrArg Cf.y e1
        simp only at ex ey
        have kx : (dMeanSq t p)[i].x * (1 - 1 / (p.length - 1 : ℝ)) = 0 := by linear_combination ex
        have ky : (dMeanSq t p)[i].y * (1 - 1 / (p.length - 1 : ℝ)) = 0 := by linear_combination ey
        have hd : (1 - 1 / (p.length - 1 : ℝ)) ≠ 0 := fun h0 => h3 (by linarith)
        apply Complex.ext
        · exact (mul_eq_zero.mp kx).resolve_right hd
        · exact (mul_eq_zero.mp ky).resolve_right hd
      apply List.ext_getElem h
      intro i hi hi'
      have := hzero (dSqError t[i] p[i]) (by
        unfold dMeanSq
        refine List.mem_map.mpr ⟨(t[i], p[i]), ?_, rfl⟩
        rw [List.mem_iff_getElem]
        exact ⟨i, by simp [hi, hi'], by simp⟩)
      rw [dSqError, Cf.toC_conj, Cf.toC_sub] at this
      have : (p[i]).toC - (t[i]).toC = 0 := (map_eq_zero _).mp this
      exact Cf.toC_inj.mp (sub_eq_zero.mp this).symm
  · rintro (h2 | rfl)
    · convert htrue using 1
      rw [h2]
      norm_num
    · convert htrue using 1
      symm
      calc _ = (dMeanSq t t).map id := by
            apply List.map_congr_left
            intro z hz
            unfold dMeanSq at hz
            obtain ⟨q, hq, rfl⟩ := List.mem_map.mp hz
            have hqq : q.1 = q.2 := by
              obtain ⟨i, hi, rfl⟩ := List.getElem_of_mem hq
              simp
            have hz0 : dSqError q.1 q.2 = ⟨0, 0⟩ := by
              rw [hqq]
              apply Cf.ext <;> simp [dSqError, Cf.conj, Cf.sub]
            rw [hz0]
            simp
        _ = dMeanSq t t := List.map_id _

/-- C34 is false of the code for mean-square: three components, zero target, prediction (1,0,0). -/
theorem C34_refuted : ∃ (t p g : List (Cf w ℝ)), t.length = p.length
    ∧ computeD .meanSquare (.scalar t) (.scalar p) = .ok g
    ∧ ¬ IsGradient (reported .meanSquare t) p g := by
  obtain ⟨g, h1, h2⟩ := C34_partial_iff (w := w) [⟨0, 0⟩, ⟨0, 0⟩, ⟨0, 0⟩]
    [⟨1, 0⟩, ⟨0, 0⟩, ⟨0, 0⟩] rfl (by simp)
  refine ⟨_, _, g, ?_, h1, fun h => ?_⟩
  · rfl
  · simpa using h2.mp h

/-! ### Cross-entropy -/

/-- `Σ exp |pⱼ|²`. -/
noncomputable def expSum (p : List (Cf w ℝ)) : ℝ := (p.map fun z => Real.exp (‖z.toC‖ ^ 2)).sum

theorem exp_normSq (z : Cf w ℝ) : Scalar.exp z.normSq = Real.exp (‖z.toC‖ ^ 2) := by
  rw [sexp, Cf.normSq_eq, Complex.normSq_eq_norm_sq]

theorem normCe_real (t p : List (Cf w ℝ)) :
    normCe t p = -((t.zip p).map fun q =>
      q.1.x * Real.log (Real.exp (‖q.2.toC‖ ^ 2) / expSum p)).sum := by
  have e1 : (p.map fun z : Cf w ℝ => Scalar.exp z.normSq)
      = p.map fun z => Real.exp (‖z.toC‖ ^ 2) :=
    List.map_congr_left fun z _ => exp_normSq z
  have e2 : (p.map fun z : Cf w ℝ => Real.exp (‖z.toC‖ ^ 2)).foldl Scalar.add Scalar.zero
      = expSum p := by
    have := foldl_add_eq_sum (fun x : ℝ => x) (p.map fun z => Real.exp (‖z.toC‖ ^ 2)) Scalar.zero
    rw [this]
    simp [expSum]
    rfl
  unfold normCe
  simp only [e1, e2]
  have := foldl_sub_eq_sum (fun q : ℝ × ℝ => q.1 * Real.log (q.2 / expSum p))
    ((t.map Cf.re).zip (p.map fun z => Real.exp (‖z.toC‖ ^ 2))) Scalar.zero
  simp only [szero, zero_sub, ssub] at this
  simp only [szero, ssub, smul', sln, sdiv]
  rw [this, List.zip_map, List.map_map]
  rfl

/-- The cross-entropy depends only on the moduli of the prediction. -/
theorem normCe_congr (t p p' : List (Cf w ℝ))
    (h : p.map (fun z => ‖z.toC‖) = p'.map fun z => ‖z.toC‖) : normCe t p = normCe t p' := by
  have key : ∀ (F : ℝ → ℝ → ℝ), ∀ (t q : List (Cf w ℝ)),
      (t.zip q).map (fun a => F a.1.x ‖a.2.toC‖)
        = (t.zip (q.map fun z => ‖z.toC‖)).map (fun a => F a.1.x a.2) := by
    intro F t q
    rw [List.zip_map_right, List.map_map]; rfl
  have hS : expSum p = expSum p' := by
    have : ∀ q : List (Cf w ℝ),
        expSum q = ((q.map fun z => ‖z.toC‖).map fun r => Real.exp (r ^ 2)).sum := by
      intro q; rw [List.map_map]; rfl
    rw [this, this, h]
  rw [normCe_real, normCe_real, hS,
    key (fun x r => x * Real.log (Real.exp (r ^ 2) / expSum p')),
    key (fun x r => x * Real.log (Real.exp (r ^ 2) / expSum p')), h]

theorem HasDerivAt.even_zero {f : ℝ → ℝ} {a : ℝ} (h : HasDerivAt f a 0) (he : ∀ s, f (-s) = f s) :
    a = 0 := by
  have h1 : HasDerivAt (fun s => f (-s)) (a * -1) 0 := by
    have h0 : HasDerivAt f a (-(0 : ℝ)) := by simpa using h
    exact h0.comp (0 : ℝ) (hasDerivAt_neg 0)
  have h2 : (fun s => f (-s)) = f := funext he
  rw [h2] at h1
  have := h.unique h1
  linarith

theorem move_zero (t : List (Cf w ℝ)) (s : ℝ) :
    move (List.replicate t.length ⟨0, 0⟩) t s = t.map fun d => Cf.ofC (s * d.toC) := by
  induction t with
  | nil => rfl
  | cons a t ih =>
    rw [List.length_cons, List.replicate_succ, move_cons, ih, List.map_cons]
    have : (⟨0, 0⟩ : Cf w ℝ).toC = 0 := rfl
    rw [this, zero_add]

theorem pairing_zero (t : List (Cf w ℝ)) :
    (pairing (dMeanSq t (List.replicate t.length ⟨0, 0⟩)) t).re
      = -(t.map fun z => ‖z.toC‖ ^ 2).sum := by
  induction t with
  | nil => simp [pairing, dMeanSq]
  | cons a t ih =>
    have e : dMeanSq (a :: t) (List.replicate (a :: t).length ⟨0, 0⟩)
        = dSqError a ⟨0, 0⟩ :: dMeanSq t (List.replicate t.length ⟨0, 0⟩) := rfl
    rw [e, pairing_cons, Complex.add_re, ih, List.map_cons, List.sum_cons]
    have h0 : (⟨0, 0⟩ : Cf w ℝ).toC = 0 := rfl
    rw [dSqError, Cf.toC_conj, Cf.toC_sub, h0, ← Complex.normSq_eq_norm_sq, Complex.normSq_apply]
    simp
    ring

/-- C34 is false of the code for cross-entropy: for *every* non-zero target, at the zero prediction
the returned vector is not the gradient of the reported loss. -/
theorem C34_refuted_ce (t : List (Cf w ℝ)) (ht : ∃ z ∈ t, z.toC ≠ 0) :
    ∃ g, computeD .normCrossEntropy (.scalar t) (.scalar (List.replicate t.length ⟨0, 0⟩)) = .ok g
      ∧ ¬ IsGradient (reported .normCrossEntropy t) (List.replicate t.length ⟨0, 0⟩) g := by
  refine ⟨dMeanSq t (List.replicate t.length ⟨0, 0⟩), rfl, ?_⟩
  rintro ⟨-, h⟩
  have h1 := h t (by simp)
  have h2 := HasDerivAt.even_zero h1 (fun s => by
    show normCe t _ = normCe t _
    apply normCe_congr
    rw [move_zero, move_zero, List.map_map, List.map_map]
    apply List.map_congr_left
    intro d _
    simp)
  rw [pairing_zero] at h2
  obtain ⟨z, hz, hz0⟩ := ht
  have h3 : ‖z.toC‖ ^ 2 ≤ (t.map fun z => ‖z.toC‖ ^ 2).sum :=
    List.single_le_sum (by simp only [List.mem_map]; rintro x ⟨q, -, rfl⟩; positivity) _
      (List.mem_map.mpr ⟨z, hz, rfl⟩)
  have : 0 < ‖z.toC‖ ^ 2 := by have := norm_pos_iff.mpr hz0; positivity
  linarith

/-! ## C35 cross-entropy -/

theorem expSum_pos {p : List (Cf w ℝ)} (h : p ≠ []) : 0 < expSum p := by
  cases p with
  | nil => exact absurd rfl h
  | cons a p =>
    have : 0 ≤ (p.map fun z => Real.exp (‖z.toC‖ ^ 2)).sum :=
      List.sum_nonneg (by simp only [List.mem_map]; rintro x ⟨q, -, rfl⟩; positivity)
    have h1 := Real.exp_pos (‖a.toC‖ ^ 2)
    simp only [expSum, List.map_cons, List.sum_cons]
    linarith

theorem normCe_oneHot (p : List (Cf w ℝ)) (k : Nat) (hk : k < p.length) :
    normCe (oneHot p.length k) p = -Real.log (softmax p k) := by
  rw [normCe_real]
  congr 1
  have hp : p = (List.range p.length).map fun i => p.getD i ⟨0, 0⟩ := by
    apply List.ext_getElem (by simp)
    intro i h1 h2
    simp [List.getD_eq_getElem?_getD, h1]
  unfold softmax oneHot
  generalize hS : expSum p = S
  have hS' : (p.map fun z => Real.exp (‖z.toC‖ ^ 2)).sum = S := hS
  rw [hS']
  conv_lhs => rw [hp]
  rw [List.length_map, List.length_range, zip_range_map, List.map_map, sum_range_list]
  rw [Finset.sum_eq_single k]
  · simp
  · intro i _ hi; simp [hi]
  · intro h; exact absurd (Finset.mem_range.mpr hk) h

/-- C35. For a one-hot target the cross-entropy is minus the logarithm of the soft-max probability
of the true class, which lies in (0,1]; hence it is non-negative. -/
theorem C35_oneHot (p : List (Cf w ℝ)) (k : Nat) (hk : k < p.length) :
    ∃ L, compute .normCrossEntropy (.scalar (oneHot p.length k)) (.scalar p) = .ok L
      ∧ L = -Real.log (softmax p k) ∧ 0 < softmax p k ∧ softmax p k ≤ 1 ∧ 0 ≤ L := by
  have hne : p ≠ [] := by rintro rfl; simp at hk
  have hS := expSum_pos hne
  have h0 : 0 < softmax p k := div_pos (Real.exp_pos _) hS
  have h1 : softmax p k ≤ 1 := by
    unfold softmax
    rw [div_le_one (show 0 < (p.map fun z => Real.exp (‖z.toC‖ ^ 2)).sum from hS), List.getD_eq_getElem?_getD, List.getElem?_eq_getElem hk]
    exact List.single_le_sum (by simp only [List.mem_map]; rintro x ⟨q, -, rfl⟩; positivity) _
      (List.mem_map.mpr ⟨p[k], List.getElem_mem hk, rfl⟩)
  refine ⟨_, rfl, normCe_oneHot p k hk, h0, h1, ?_⟩
  show 0 ≤ normCe _ _
  rw [normCe_oneHot p k hk]
  have := Real.log_nonpos h0.le h1
  linarith

theorem softmax_split (p : List (Cf w ℝ)) (k : Nat) (hk : k < p.length) :
    ∃ B : ℝ, 0 ≤ B ∧ (2 ≤ p.length → 0 < B) ∧ ∀ z : Cf w ℝ,
      softmax (p.set k z) k = Real.exp (‖z.toC‖ ^ 2) / (Real.exp (‖z.toC‖ ^ 2) + B) := by
  have nn : ∀ l : List (Cf w ℝ), 0 ≤ expSum l := fun l =>
    List.sum_nonneg (by simp only [List.mem_map]; rintro x ⟨q, -, rfl⟩; positivity)
  refine ⟨expSum (p.take k) + expSum (p.drop (k + 1)), add_nonneg (nn _) (nn _), ?_, ?_⟩
  · intro h2
    rcases Nat.eq_zero_or_pos k with h0 | h0
    · have : 0 < expSum (p.drop (k + 1)) := expSum_pos (by
        intro h; have := congrArg List.length h; simp at this; omega)
      linarith [nn (p.take k)]
    · have : 0 < expSum (p.take k) := expSum_pos (by
        intro h; have := congrArg List.length h; rw [List.length_take, List.length_nil] at this
        omega)
      linarith [nn (p.drop (k + 1))]
  · intro z
    unfold softmax
    have e1 : (p.set k z).getD k ⟨0, 0⟩ = z := by
      rw [List.getD_eq_getElem?_getD, List.getElem?_set_self hk]; rfl
    rw [e1, List.set_eq_take_append_cons_drop, if_pos hk]
    simp only [List.map_append, List.map_cons, List.sum_append, List.sum_cons, expSum]
    congr 1
    ring

/-- C35. The loss does not grow when the modulus of the true class grows and the others are kept,
and strictly decreases if there is another class. -/
theorem C35_decreasing (p : List (Cf w ℝ)) (k : Nat) (hk : k < p.length) (z z' : Cf w ℝ)
    (hz : ‖z.toC‖ ≤ ‖z'.toC‖) :
    ∃ L L', compute .normCrossEntropy (.scalar (oneHot p.length k)) (.scalar (p.set k z)) = .ok L
      ∧ compute .normCrossEntropy (.scalar (oneHot p.length k)) (.scalar (p.set k z')) = .ok L'
      ∧ L' ≤ L ∧ (2 ≤ p.length → ‖z.toC‖ < ‖z'.toC‖ → L' < L) := by
  obtain ⟨B, hB, hB2, hs⟩ := softmax_split p k hk
  have hlen : ∀ z : Cf w ℝ, (p.set k z).length = p.length := fun z => by simp
  have hL : ∀ z : Cf w ℝ, normCe (oneHot p.length k) (p.set k z)
      = -Real.log (Real.exp (‖z.toC‖ ^ 2) / (Real.exp (‖z.toC‖ ^ 2) + B)) := by
    intro z
    have := normCe_oneHot (p.set k z) k (by rw [hlen]; exact hk)
    rw [hlen] at this
    rw [this, hs]
  refine ⟨_, _, rfl, rfl, ?_, ?_⟩
  · show normCe _ _ ≤ normCe _ _
    rw [hL, hL]
    have h1 := Real.exp_pos (‖z.toC‖ ^ 2)
    have h2 : Real.exp (‖z.toC‖ ^ 2) ≤ Real.exp (‖z'.toC‖ ^ 2) :=
      Real.exp_le_exp.mpr (pow_le_pow_left₀ (norm_nonneg _) hz 2)
    apply neg_le_neg
    apply Real.log_le_log (by positivity)
    rw [div_le_div_iff₀ (by positivity) (by positivity)]
    nlinarith
  · intro hn hlt
    show normCe _ _ < normCe _ _
    rw [hL, hL]
    have hBp := hB2 hn
    have h1 := Real.exp_pos (‖z.toC‖ ^ 2)
    have h2 : Real.exp (‖z.toC‖ ^ 2) < Real.exp (‖z'.toC‖ ^ 2) :=
      Real.exp_lt_exp.mpr (pow_lt_pow_left₀ hlt (norm_nonneg _) (by norm_num))
    apply neg_lt_neg
    apply Real.log_lt_log (by positivity)
    rw [div_lt_div_iff₀ (by positivity) (by positivity)]
    nlinarith

/-- Two classes, equal zero predictions: the loss is log 2. -/
example : ∃ L, compute .normCrossEntropy (.scalar (oneHot 2 1))
    (.scalar ([⟨0, 0⟩, ⟨0, 0⟩] : List (Cf .w32 ℝ))) = .ok L ∧ L = Real.log 2 := by
  obtain ⟨L, h1, h2, -⟩ := C35_oneHot ([⟨0, 0⟩, ⟨0, 0⟩] : List (Cf .w32 ℝ)) 1 (by simp)
  refine ⟨L, h1, ?_⟩
  have h0 : (⟨0, 0⟩ : Cf .w32 ℝ).toC = 0 := rfl
  rw [h2]
  simp only [softmax, List.map_cons, List.map_nil, List.sum_cons, List.sum_nil, List.getD_cons_succ,
    List.getD_cons_zero, h0]
  norm_num
  rw [one_div, Real.log_inv, neg_neg]

/-! ## C36 kinds -/

/-- The scalars in a value, in order: a list of scalars as it is, matrices one after the other in
row-major order. -/
def scalars {α : Type} : IOType α → List α
  | .scalar v => v
  | .matrix ms => (ms.map fun m => m.body).flatten

/-- Whether a value is a list of scalars. -/
def isScalar {α : Type} : IOType α → Bool
  | .scalar _ => true
  | .matrix _ => false

/-- C36. For any float arithmetic: loss and derivative report an error exactly if one of target and
prediction is scalars and the other matrices; otherwise both return and the derivative has as many
entries as the shorter of the two. -/
theorem C36_kinds {R : Type} [Scalar R] (f : LossFunc) (t p : IOType (Cf w R)) :
    (compute f t p = .error .inconsistentIO ↔ isScalar t ≠ isScalar p)
      ∧ (computeD f t p = .error .inconsistentIO ↔ isScalar t ≠ isScalar p)
      ∧ (isScalar t = isScalar p → (∃ L, compute f t p = .ok L)
          ∧ ∃ g, computeD f t p = .ok g
            ∧ g.length = min (scalars t).length (scalars p).length) := by
  have hd : ∀ a b : List (Cf w R), (dFunc f a b).length = min a.length b.length := by
    intro a b; cases f <;> simp [dFunc, dNormCe, dMeanSq]
  cases t <;> cases p <;>
    simp [compute, computeD, isScalar, scalars, hd, Mat.getBody, List.length_flatMap,
      List.length_flatten, List.map_map, Function.comp_def]

example : isScalar (.scalar [] : IOType Nat) ≠ isScalar (.matrix [] : IOType Nat) := by
  simp [isScalar]

end Renplex
