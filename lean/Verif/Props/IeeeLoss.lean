import Verif.Props.IeeePred
import Verif.Props.Loss
/-!
# The losses in `f32` and `f64`
-/

namespace Renplex
open Loss

noncomputable section
variable {w : Width} {B : Binary} {L : Libm B}

/-! ## What is not finite stays so -/

theorem Fp.add_nf {a b : Fp B} (h : ¬ a.Finite ∨ ¬ b.Finite) : ¬ (a.add b).Finite := fun hf =>
  h.elim (fun h => h (Fp.add_err hf).1) (fun h => h (Fp.add_err hf).2.1)

theorem Fp.div_nf {a : Fp B} (h : ¬ a.Finite) (b : Fp B) : ¬ (a.div b).Finite := by
  cases a with
  | nan => exact id
  | inf s => cases b <;> exact id
  | num => exact absurd trivial h

theorem Fp.nf_div_nf {a b : Fp B} (ha : ¬ a.Finite) (hb : ¬ b.Finite) : a.div b = .nan := by
  cases a with
  | nan => rfl
  | inf s => cases b with
    | nan => rfl
    | inf t => rfl
    | num => exact absurd trivial hb
  | num => exact absurd trivial ha

theorem foldl_nf {l : List (Fl L)} {a : Fl L} (h : ¬ a.fp.Finite ∨ ∃ b ∈ l, ¬ b.fp.Finite) :
    ¬ (l.foldl Scalar.add a).fp.Finite := by
  induction l generalizing a with
  | nil => simpa using h
  | cons b l ih =>
    rw [List.foldl_cons]
    apply ih
    rcases h with h | ⟨c, hc, h⟩
    · exact .inl (Fp.add_nf (.inl h))
    · rcases List.mem_cons.mp hc with rfl | hc
      · exact .inl (Fp.add_nf (.inr h))
      · exact .inr ⟨c, hc, h⟩

theorem Fl.ofNat_zero_fp : (Scalar.ofNat 0 : Fl L).fp = .zero false := by
  change (Fp.ofReal ((0 : Nat) : ℝ) : Fp B) = _
  have h0 : roundEven 0 = 0 := by
    have := roundEven_natCast 0
    rwa [Nat.cast_zero] at this
  have hs : B.Stored 0 B.kmin :=
    ⟨by positivity, le_rfl, by have := B.small; have := B.large; omega, .inr rfl⟩
  rw [Nat.cast_zero]
  unfold Fp.ofReal Fp.ofAbs
  simp only [abs_zero, B.place_zero, zero_div, h0, lt_irrefl, decide_false]
  rw [dif_pos hs]
  rfl

/-- C92. Falsified: the mean-square loss of one component is never finite; it is NaN for a perfect
prediction. -/
theorem C92_refuted_single (t p : Cf w (Fl L)) :
    (meanSq [t] [p]).fp = if (sqError t p).fp.size = 0 then .nan else .inf false := by
  rw [meanSq_eq]
  change ((Scalar.zero : Fl L).fp.add (sqError t p).fp).div (Scalar.ofNat 0 : Fl L).fp = _
  rw [Fl.ofNat_zero_fp]
  have hp : (sqError t p).fp.Pos := Cf.normSq_pos _
  generalize (sqError t p).fp = e at *
  obtain ⟨z1, z2⟩ := Fl.zero_finite (L := L)
  cases e with
  | nan =>
    rw [if_pos (show (Fp.nan : Fp B).size = 0 from rfl), Fp.add_nan]
    rfl
  | inf s =>
    cases hp
    rw [if_neg (by exact (EReal.zero_lt_top).ne')]
    generalize (Scalar.zero : Fl L).fp = z at *
    cases z with
    | nan => exact z1.elim
    | inf => exact z1.elim
    | num => rfl
  | num s m k h =>
    have hf : (Fp.num s m k h : Fp B).Finite := trivial
    have hv : B.near |(Scalar.zero : Fl L).fp.val + (Fp.num s m k h).val| < B.top := by
      rw [z2, zero_add, ← B.abs_round, B.round_val hf]
      exact Fp.abs_val_lt_top _
    obtain ⟨h1, h2⟩ := Fp.add_spec z1 hf hv
    rw [z2, zero_add, B.round_val hf] at h2
    change _ = if ((Fp.num s m k h).val : EReal) = 0 then _ else _
    rw [← h2]
    have hpos : 0 ≤ ((Scalar.zero : Fl L).fp.add (Fp.num s m k h)).val := h2 ▸ hp
    generalize (Scalar.zero : Fl L).fp.add (Fp.num s m k h) = y at *
    cases y with
    | nan => exact h1.elim
    | inf => exact h1.elim
    | num s' m' k' h' =>
      by_cases e : (Fp.num s' m' k' h').val = 0
      · have hm := (Fp.val_eq_zero _ _).mp e
        rw [if_pos (by rw [e]; rfl)]
        simp [Fp.div, Fp.zero, hm]
      · have hm := mt (Fp.val_eq_zero _ _).mpr e
        have hs := mt (Fp.sign_num s' h' e).mp (not_lt.mpr hpos)
        rw [if_neg (by exact_mod_cast e)]
        simp [Fp.div, Fp.zero, hm, hs]

/-- C92. Falsified: so the mean-square loss of a network with one output is not finite for any batch. -/
theorem C92_refuted_one_output {n : Net (Cf w (Fl L))} {data : Dataset (Cf w (Fl L))}
    (h : ∀ p ∈ data.points, ∃ y t, n.forward p.1 = some (.ok (.scalar [y])) ∧ p.2 = .scalar [t]) {l : Fl L}
    (hl : n.loss data .meanSquare = some l) : ¬ l.fp.Finite := by
  unfold Net.loss at hl
  obtain ⟨vals, h1, hl⟩ := Option.bind_eq_some_iff.mp hl
  obtain ⟨total, h2, hl⟩ := Option.bind_eq_some_iff.mp hl
  have hv : ∀ v ∈ vals, ¬ v.fp.Finite := by
    intro v hv
    obtain ⟨p, hp, e⟩ := mapM_mem h1 hv
    obtain ⟨y, t, e1, e2⟩ := h p hp
    rw [e1, e2] at e
    change some (meanSq [t] [y]) = some v at e
    cases e
    rw [C92_refuted_single]
    split_ifs <;> exact id
  cases vals with
  | nil => cases h2
  | cons v vs =>
    cases h2
    change some (Scalar.div (vs.foldl Scalar.add v) (Scalar.ofNat _)) = some l at hl
    cases hl
    exact Fp.div_nf (foldl_nf (.inl (hv v (by simp)))) _

/-- C92. Falsified: if the exponential of a squared modulus overflows, the cross-entropy is NaN, whatever the
target. -/
theorem C92_refuted_overflow (hl : L.ln .nan = .nan) {t p : List (Cf w (Fl L))} (h : p.length ≤ t.length)
    (hp : ∃ z ∈ p, ¬ (L.exp z.normSq.fp).Finite) : (normCe t p).fp = .nan := by
  unfold normCe
  simp only
  set E := p.map fun z => (Scalar.exp z.normSq : Fl L) with hE
  have hsum : ¬ (E.foldl Scalar.add Scalar.zero).fp.Finite := by
    obtain ⟨z, hz, hf⟩ := hp
    exact foldl_nf (.inr ⟨Scalar.exp z.normSq, List.mem_map_of_mem hz, hf⟩)
  generalize E.foldl Scalar.add Scalar.zero = S at hsum
  have key : ∀ (l : List (Fl L × Fl L)) (a : Fl L), (a.fp = .nan ∨ ∃ q ∈ l, ¬ q.2.fp.Finite) →
      (l.foldl (fun acc q => Scalar.sub acc (Scalar.mul q.1 (Scalar.ln (Scalar.div q.2 S)))) a).fp = .nan := by
    intro l
    induction l with
    | nil => intro a ha; simpa using ha
    | cons q l ih =>
      intro a ha
      rw [List.foldl_cons]
      apply ih
      rcases ha with ha | ⟨r, hr, hf⟩
      · left
        change a.fp.sub _ = _
        rw [ha, Fp.nan_sub]
      · rcases List.mem_cons.mp hr with rfl | hr
        · left
          change a.fp.sub (r.1.fp.mul (L.ln (r.2.fp.div S.fp))) = _
          rw [Fp.nf_div_nf hf hsum, hl, Fp.mul_nan, Fp.sub_nan]
        · exact .inr ⟨r, hr, hf⟩
  apply key
  right
  obtain ⟨z, hz, hf⟩ := hp
  obtain ⟨i, hi, rfl⟩ := List.getElem_of_mem hz
  refine ⟨((t[i]).re, Scalar.exp (p[i]).normSq), ?_, hf⟩
  refine List.mem_iff_getElem.mpr ⟨i, by simp [hE]; omega, by simp [hE]⟩

/-- C92. So in `f32` with correctly rounded functions a prediction with a component 10 has cross-entropy NaN. -/
theorem C92_refuted_f32 {t p : List (Cf w (Fl (Libm.rounded binary32)))} (h : p.length ≤ t.length)
    (hp : ∃ z ∈ p, z.x.fp = .ofReal 10 ∧ z.y.fp = .zero false) : (normCe t p).fp = .nan := by
  refine C92_refuted_overflow rfl h ?_
  obtain ⟨z, hz, hx, hy⟩ := hp
  refine ⟨z, hz, ?_⟩
  obtain ⟨x1, x2⟩ := C84_integers (B := binary32) (n := 10) (by norm_num [binary32])
  have e10 : ((10 : Int) : ℝ) = 10 := by norm_num
  rw [e10, ← hx] at x1 x2
  have hfin : z.Finite := ⟨x1, by rw [hy]; trivial⟩
  have hN : z.normSq.fp.Finite ∧ z.normSq.fp.val = 100 := by
    have r100 : binary32.round 100 = 100 := by
      have := Binary.near_natCast (B := binary32) (n := 100) (by norm_num [binary32])
      rw [binary32.round_of_nonneg (by norm_num)]
      exact_mod_cast this
    have hlt : binary32.near |(100 : ℝ)| < binary32.top := by
      rw [abs_of_nonneg (by norm_num)]
      exact binary32.near_lt_top (by norm_num) (by norm_num [binary32])
    have e1 : z.x.fp.val * z.x.fp.val = 100 := by rw [x2]; norm_num
    obtain ⟨m1, m2⟩ := Fp.mul_spec x1 x1 (by rw [e1]; exact hlt)
    rw [e1, r100] at m2
    obtain ⟨k1, k2⟩ := Fp.times_zero hfin.2 hfin.2 (by rw [hy, Fp.zero_val])
    obtain ⟨a1, a2⟩ := Fp.add_spec m1 k1 (by rw [m2, k2, add_zero]; exact hlt)
    rw [m2, k2, add_zero, r100] at a2
    exact ⟨a1, a2⟩
  obtain ⟨n1, n2⟩ := hN
  change ¬ (Fp.lib Real.exp _ _ z.normSq.fp).Finite
  generalize z.normSq.fp = a at *
  cases a with
  | nan => exact n1.elim
  | inf => exact n1.elim
  | num s m k hs =>
    change ¬ (Fp.ofReal (Real.exp (Fp.num s m k hs).val) : Fp binary32).Finite
    rw [n2]
    obtain ⟨s, e⟩ := (C84_overflow (B := binary32) (Real.exp 100)).mpr (by
      rw [abs_of_pos (Real.exp_pos _)]
      have h1 : binary32.top = 2 ^ 128 := by
        change (2 : ℝ) ^ (((24 : Nat) : ℤ) + 104) = _
        norm_num
      have h2 : (0 : ℝ) < 2 ^ (binary32.kmax - 1) := by positivity
      have h3 : Real.exp 100 = Real.exp 1 ^ 100 := by rw [← Real.exp_nat_mul]; norm_num
      have h4 : (2.7 : ℝ) ^ 100 ≤ Real.exp 1 ^ 100 :=
        pow_le_pow_left₀ (by norm_num) (by linarith [Real.exp_one_gt_d9]) _
      have h5 : (2 : ℝ) ^ 128 ≤ 2.7 ^ 100 := by norm_num
      rw [h1, h3]
      linarith)
    rw [e]
    exact id

/-! ## Rounding error of the mean square -/

/-- The number, if finite, differs from `x ≥ 0` by at most `j` roundings of `x` and other errors `t`; under
the assumption `F` it is finite if the bound is small. -/
def Fp.Near (F : Prop) (a : Fp B) (x t : ℝ) (j : Nat) : Prop :=
  0 ≤ x ∧ 0 ≤ t ∧ (a.Finite → |a.val - x| ≤ (1 + B.ulp) ^ j * (x + t) - x)
    ∧ (F → (1 + B.ulp) ^ j * (x + t) ≤ B.top / 2 → a.Finite)

section
variable {F : Prop}

theorem Fp.Near.mono {a : Fp B} {x t : ℝ} {j i : Nat} (h : a.Near F x t j) (hj : j ≤ i) : a.Near F x t i := by
  have := pow_le_pow_right₀ (show 1 ≤ 1 + B.ulp by linarith [B.ulp_nonneg]) hj
  have h0 := mul_le_mul_of_nonneg_right this (add_nonneg h.1 h.2.1)
  exact ⟨h.1, h.2.1, fun ha => (h.2.2.1 ha).trans (by linarith), fun hF hb => h.2.2.2 hF (by linarith)⟩

theorem Fp.Near.add {a b : Fp B} {x y s t : ℝ} {j : Nat} (ha : a.Near F x s j) (hb : b.Near F y t j) :
    (a.add b).Near F (x + y) (s + t) (j + 1) := by
  have hu := B.ulp_nonneg
  have x0 := ha.1
  have y0 := hb.1
  have s0 := ha.2.1
  have t0 := hb.2.1
  have q1 : 1 ≤ (1 + B.ulp) ^ j := one_le_pow₀ (by linarith)
  have key : a.Finite → b.Finite → |a.val + b.val| ≤ (1 + B.ulp) ^ j * (x + s) + (1 + B.ulp) ^ j * (y + t) := by
    intro h1 h2
    have e1 := abs_le.mp (ha.2.2.1 h1)
    have e2 := abs_le.mp (hb.2.2.1 h2)
    exact abs_le.mpr ⟨by linarith [e1.1, e2.1], by linarith [e1.2, e2.2]⟩
  refine ⟨add_nonneg x0 y0, add_nonneg s0 t0, fun h => ?_, fun hF h => ?_⟩
  · obtain ⟨h1, h2, h3⟩ := Fp.add_err h
    have e1 := abs_le.mp (ha.2.2.1 h1)
    have e2 := abs_le.mp (hb.2.2.1 h2)
    have e3 := abs_le.mp h3
    have e4 := key h1 h2
    rw [pow_succ]
    generalize (1 + B.ulp) ^ j = q at *
    have e5 := mul_le_mul_of_nonneg_left e4 hu
    refine abs_le.mpr ⟨?_, ?_⟩
    · nlinarith [e1.1, e2.1, e3.1]
    · nlinarith [e1.2, e2.2, e3.2]
  · rw [pow_succ] at h
    have ga := ha.2.2.2 hF
    have gb := hb.2.2.2 hF
    generalize (1 + B.ulp) ^ j = q at *
    have k1 : 0 ≤ q * (x + s) := by positivity
    have k2 : 0 ≤ q * (y + t) := by positivity
    have k3 : q * (x + s) + q * (y + t) ≤ B.top / 2 := by nlinarith [mul_nonneg hu k1, mul_nonneg hu k2]
    have h1 := ga (by linarith)
    have h2 := gb (by linarith)
    exact (Fp.add_spec h1 h2 (B.near_half ((key h1 h2).trans k3))).1

theorem Fp.near_sq {a b : Fp B} (hab : F → a.Finite ∧ b.Finite) :
    ((a.sub b).mul (a.sub b)).Near F ((a.val - b.val) ^ 2) B.tiny 3 := by
  have hu := B.ulp_nonneg
  have ht := B.tiny_nonneg
  have key : (a.sub b).Finite → |(a.sub b).val * (a.sub b).val - (a.val - b.val) ^ 2|
      ≤ B.ulp * (2 + B.ulp) * (a.val - b.val) ^ 2 := by
    intro h1
    obtain ⟨-, -, h3⟩ := Fp.sub_err h1
    generalize (a.sub b).val = d at *
    generalize a.val - b.val = D at *
    have e1 : |d| ≤ (1 + B.ulp) * |D| := by
      have := abs_sub_abs_le_abs_sub d D
      linarith
    have e2 : |d + D| ≤ (2 + B.ulp) * |D| := (abs_add_le d D).trans (by linarith)
    rw [show d * d - D ^ 2 = (d - D) * (d + D) by ring, abs_mul, ← sq_abs D]
    calc |d - D| * |d + D| ≤ (B.ulp * |D|) * ((2 + B.ulp) * |D|) :=
          mul_le_mul h3 e2 (abs_nonneg _) (by positivity)
      _ = _ := by ring
  refine ⟨sq_nonneg _, ht, fun h => ?_, fun hF h => ?_⟩
  · obtain ⟨h1, -, h2⟩ := Fp.mul_err h
    have e4 := abs_le.mp (key h1)
    rw [abs_mul_self] at h2
    generalize (a.sub b).val = d at *
    generalize a.val - b.val = D at *
    generalize ((a.sub b).mul (a.sub b)).val = c at *
    have e5 := abs_le.mp h2
    have e6 : B.ulp * (d * d) ≤ B.ulp * ((1 + B.ulp) ^ 2 * D ^ 2) :=
      mul_le_mul_of_nonneg_left (by nlinarith [e4.2]) hu
    have e7 : B.tiny ≤ (1 + B.ulp) ^ 3 * B.tiny := le_mul_of_one_le_left ht (one_le_pow₀ (by linarith))
    refine abs_le.mpr ⟨?_, ?_⟩
    · nlinarith [e4.1, e5.1]
    · nlinarith [e4.2, e5.2]
  · obtain ⟨fa, fb⟩ := hab hF
    have t1 : 1 ≤ B.top / 2 := by
      have hd := B.digits
      have hl := B.large
      unfold Binary.top
      have : (2 : ℝ) ^ (1 : ℤ) ≤ 2 ^ ((B.p : ℤ) + B.kmax) := zpow_le_zpow_right₀ one_le_two (by omega)
      norm_num at this ⊢
      linarith
    have d0 := sq_nonneg (a.val - b.val)
    have p3 : (1 + B.ulp) ^ 2 ≤ (1 + B.ulp) ^ 3 := pow_le_pow_right₀ (by linarith) (by norm_num)
    have h2 : (1 + B.ulp) ^ 2 * (a.val - b.val) ^ 2 ≤ B.top / 2 := by
      refine le_trans ?_ h
      refine (mul_le_mul_of_nonneg_right p3 d0).trans (mul_le_mul_of_nonneg_left (by linarith) (by positivity))
    have h3 : (a.val - b.val) ^ 2 ≤ B.top / 2 :=
      (le_mul_of_one_le_left d0 (one_le_pow₀ (by linarith))).trans h2
    have h4 : |a.val - b.val| ≤ B.top / 2 := by
      rcases le_total |a.val - b.val| 1 with h5 | h5
      · linarith
      · refine le_trans ?_ h3
        rw [← sq_abs]
        nlinarith
    have f1 := (Fp.sub_spec fa fb (B.near_half h4)).1
    have e4 := abs_le.mp (key f1)
    refine (Fp.mul_spec f1 f1 (B.near_half ?_)).1
    rw [abs_mul_self]
    nlinarith [e4.2]

/-- The sum of squared differences of the exact values. -/
def exactSq (t p : List (Cf w (Fl L))) : ℝ := ((t.zip p).map fun q => ‖q.1.val - q.2.val‖ ^ 2).sum

theorem near_sqError {t p : Cf w (Fl L)} (h : F → t.Finite ∧ p.Finite) :
    (sqError t p).fp.Near F (‖t.val - p.val‖ ^ 2) (2 * B.tiny) 4 := by
  have := (Fp.near_sq (F := F) fun hF => ⟨(h hF).1.1, (h hF).2.1⟩).add
    (Fp.near_sq (F := F) fun hF => ⟨(h hF).1.2, (h hF).2.2⟩)
  rw [← two_mul] at this
  have e : ‖t.val - p.val‖ ^ 2 = (t.x.fp.val - p.x.fp.val) ^ 2 + (t.y.fp.val - p.y.fp.val) ^ 2 := by
    rw [Complex.sq_norm, Complex.normSq_apply, ← sq, ← sq]; rfl
  rw [e]
  exact this

theorem near_sum (l : List (Cf w (Fl L) × Cf w (Fl L))) (hl : F → ∀ q ∈ l, q.1.Finite ∧ q.2.Finite) (j : Nat) (a : Fl L)
    (x s : ℝ) (h : a.fp.Near F x s (j + 4)) :
    (l.foldl (fun a q => Scalar.add a (sqError q.1 q.2)) a).fp.Near F (x + (l.map fun q => ‖q.1.val - q.2.val‖ ^ 2).sum)
      (s + l.length * (2 * B.tiny)) (j + 4 + l.length) := by
  induction l generalizing j a x s with
  | nil => simpa using h
  | cons q l ih =>
    have := ih (fun hF q hq => hl hF q (List.mem_cons_of_mem _ hq)) (j + 1) (Scalar.add a (sqError q.1 q.2))
      (x + ‖q.1.val - q.2.val‖ ^ 2) (s + 2 * B.tiny)
      ((h.add ((near_sqError fun hF => hl hF q (by simp)).mono (by omega))).mono (by omega))
    rw [List.foldl_cons, List.map_cons, List.sum_cons, List.length_cons]
    push_cast
    convert this using 1 <;> ring

theorem near_all {t p : List (Cf w (Fl L))} (h : t.length = p.length) (hF : F → (∀ z ∈ t, z.Finite) ∧ ∀ z ∈ p, z.Finite) :
    ((t.zip p).foldl (fun a q => Scalar.add a (sqError q.1 q.2)) (Scalar.zero : Fl L)).fp.Near F (exactSq t p)
      (p.length * (2 * B.tiny)) (p.length + 4) := by
  have hlen : (t.zip p).length = p.length := by rw [List.length_zip, h, Nat.min_self]
  obtain ⟨z1, z2⟩ := Fl.zero_finite (L := L)
  have hs := near_sum (F := F) (t.zip p) (fun h q hq => ⟨(hF h).1 _ (List.of_mem_zip hq).1, (hF h).2 _ (List.of_mem_zip hq).2⟩)
    0 (Scalar.zero : Fl L) 0 0 ⟨le_rfl, le_rfl, fun _ => by rw [z2]; simp, fun _ _ => z1⟩
  rw [zero_add, zero_add, hlen] at hs
  rw [show p.length + 4 = 0 + 4 + p.length by omega]
  exact hs

end

/-- C92. The mean-square loss of two or more finite components is finite if the exact one is well below the
overflow threshold. -/
theorem C92_finite_partial {t p : List (Cf w (Fl L))} (h : t.length = p.length) (h2 : 2 ≤ p.length)
    (hn : p.length ≤ 2 ^ B.p) (ht : ∀ z ∈ t, z.Finite) (hp : ∀ z ∈ p, z.Finite)
    (hs : (1 + B.ulp) ^ (p.length + 4) * (exactSq t p + p.length * (2 * B.tiny)) ≤ B.top / 2) :
    (meanSq t p).fp.Finite := by
  rw [meanSq_eq]
  have hlen : (t.zip p).length = p.length := by rw [List.length_zip, h, Nat.min_self]
  rw [hlen]
  have k := near_all (F := True) h fun _ => ⟨ht, hp⟩
  obtain ⟨c1, c2⟩ := Fl.ofNat_spec (L := L) (n := p.length - 1) (by omega)
  have f := k.2.2.2 trivial hs
  have e := abs_le.mp (k.2.2.1 f)
  have k0 := k.1
  generalize (t.zip p).foldl (fun a q => Scalar.add a (sqError q.1 q.2)) (Scalar.zero : Fl L) = S at *
  have hN : (1 : ℝ) ≤ ((p.length - 1 : Nat) : ℝ) := by exact_mod_cast (by omega : 1 ≤ p.length - 1)
  refine (Fp.div_spec f c1 (by rw [c2]; linarith) (B.near_half ?_)).1
  have hS : |S.fp.val| ≤ B.top / 2 := abs_le.mpr ⟨by linarith [e.1], by linarith [e.2]⟩
  rw [c2, abs_div, abs_of_pos (show (0 : ℝ) < ((p.length - 1 : Nat) : ℝ) by linarith)]
  exact (div_le_self (abs_nonneg _) hN).trans hS

/-- C92. The mean-square loss of two or more components, if finite, is the exact sum over `n - 1` up to
`n + 5` roundings. -/
theorem C92_mean_square_partial {t p : List (Cf w (Fl L))} (h : t.length = p.length) (h2 : 2 ≤ p.length)
    (hn : p.length ≤ 2 ^ B.p) (hf : (meanSq t p).fp.Finite) :
    |(meanSq t p).fp.val - exactSq t p / (p.length - 1)|
      ≤ ((1 + B.ulp) ^ (p.length + 5) * (exactSq t p + p.length * (2 * B.tiny)) - exactSq t p) / (p.length - 1) + B.tiny := by
  have hu := B.ulp_nonneg
  have ht := B.tiny_nonneg
  rw [meanSq_eq] at hf ⊢
  have hlen : (t.zip p).length = p.length := by rw [List.length_zip, h, Nat.min_self]
  rw [hlen] at hf ⊢
  have hs := near_all (F := False) h False.elim
  obtain ⟨c1, c2⟩ := Fl.ofNat_spec (L := L) (n := p.length - 1) (by omega)
  generalize (t.zip p).foldl (fun a q => Scalar.add a (sqError q.1 q.2)) (Scalar.zero : Fl L) = S at *
  obtain ⟨s1, -, s2⟩ := Fp.div_err c1 hf
  rw [c2, Nat.cast_sub (by omega), Nat.cast_one] at s2
  have hN : (0 : ℝ) < p.length - 1 := by
    have : (2 : ℝ) ≤ p.length := by exact_mod_cast h2
    linarith
  have s3 := abs_le.mp (hs.2.2.1 s1)
  have s4 := abs_le.mp s2
  have e := hs.1
  rw [show p.length + 5 = p.length + 4 + 1 by omega, pow_succ]
  generalize (1 + B.ulp) ^ (p.length + 4) = q at *
  change |(Scalar.div S (Scalar.ofNat (p.length - 1))).fp.val - _| ≤ _
  have a1 : |S.fp.val| ≤ q * (exactSq t p + p.length * (2 * B.tiny)) := abs_le.mpr ⟨by linarith [s3.1], by linarith [s3.2]⟩
  have a2 : B.ulp * |S.fp.val / (p.length - 1)| ≤ B.ulp * (q * (exactSq t p + p.length * (2 * B.tiny)) / (p.length - 1)) := by
    rw [abs_div, abs_of_pos hN]
    exact mul_le_mul_of_nonneg_left (div_le_div_of_nonneg_right a1 hN.le) hu
  have a3 : S.fp.val / (p.length - 1) - exactSq t p / (p.length - 1) ≤ (q * (exactSq t p + p.length * (2 * B.tiny)) - exactSq t p) / (p.length - 1) := by
    rw [← sub_div]
    exact div_le_div_of_nonneg_right s3.2 hN.le
  have a4 : -((q * (exactSq t p + p.length * (2 * B.tiny)) - exactSq t p) / (p.length - 1)) ≤ S.fp.val / (p.length - 1) - exactSq t p / (p.length - 1) := by
    rw [← sub_div, ← neg_div]
    exact div_le_div_of_nonneg_right s3.1 hN.le
  have a5 : ((q * (1 + B.ulp)) * (exactSq t p + p.length * (2 * B.tiny)) - exactSq t p) / ((p.length : ℝ) - 1)
      = (q * (exactSq t p + p.length * (2 * B.tiny)) - exactSq t p) / (p.length - 1)
        + B.ulp * (q * (exactSq t p + p.length * (2 * B.tiny)) / (p.length - 1)) := by
    field_simp
    ring
  rw [a5]
  refine abs_le.mpr ⟨?_, ?_⟩
  · have := s4.1
    change _ ≤ (Scalar.div S (Scalar.ofNat (p.length - 1))).fp.val - _ at this
    linarith
  · have := s4.2
    change (Scalar.div S (Scalar.ofNat (p.length - 1))).fp.val - _ ≤ _ at this
    linarith

example (L : Libm binary32) : ∃ t p : List (Cf .w32 (Fl L)), t.length = p.length ∧ 2 ≤ p.length
    ∧ p.length ≤ 2 ^ binary32.p ∧ (∀ z ∈ t, z.Finite) ∧ (∀ z ∈ p, z.Finite)
    ∧ (1 + binary32.ulp) ^ (p.length + 4) * (exactSq t p + p.length * (2 * binary32.tiny)) ≤ binary32.top / 2 := by
  have hf : (Cf.default : Cf .w32 (Fl L)).Finite := Cf.default_finite.1
  refine ⟨[Cf.default, Cf.default], [Cf.default, Cf.default], rfl, le_rfl, ?_, by simpa using hf, by simpa using hf, ?_⟩
  · change 2 ≤ 2 ^ 24
    norm_num
  · have h0 := binary32.ulp_nonneg
    have h1 := binary32.ulp_le
    have h2 : binary32.tiny ≤ 1 := by
      change (2 : ℝ) ^ (-149 - 1 : ℤ) ≤ 1
      exact zpow_le_one_of_nonpos₀ one_le_two (by norm_num)
    have t0 := binary32.tiny_nonneg
    have h3 : binary32.top = 2 ^ (((24 : Nat) : ℤ) + 104) := rfl
    have h4 : (1 + binary32.ulp) ^ (2 + 4) ≤ 2 ^ (2 + 4) := pow_le_pow_left₀ (by linarith) (by linarith) _
    have e : exactSq [(Cf.default : Cf .w32 (Fl L)), Cf.default] [Cf.default, Cf.default] = 0 := by simp [exactSq]
    rw [e, h3, zero_add]
    have h5 : (1 + binary32.ulp) ^ (2 + 4) * (((2 : Nat) : ℝ) * (2 * binary32.tiny)) ≤ 2 ^ (2 + 4) * 4 :=
      mul_le_mul h4 (by push_cast; linarith) (by positivity) (by norm_num)
    refine h5.trans ?_
    norm_num

end
end Renplex
