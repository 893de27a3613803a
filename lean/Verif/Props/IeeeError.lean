import Verif.Props.IeeeInit
import Verif.Props.ConvGrad
/-!
# Rounding errors in `f32` and `f64`
-/

namespace Renplex
variable {B : Binary}

/-- The relative error of an operation. -/
noncomputable def Binary.ulp (B : Binary) : ℝ := 2 ^ (-(B.p : ℤ))
/-- The absolute error of an operation whose result is below the normal range. -/
noncomputable def Binary.tiny (B : Binary) : ℝ := 2 ^ (B.kmin - 1)

theorem Binary.ulp_nonneg : 0 ≤ B.ulp := by unfold Binary.ulp; positivity
theorem Binary.tiny_nonneg : 0 ≤ B.tiny := by unfold Binary.tiny; positivity
theorem Binary.ulp_le : B.ulp ≤ 1 / 4 := by
  unfold Binary.ulp
  have := B.digits
  calc (2 : ℝ) ^ (-(B.p : ℤ)) ≤ 2 ^ (-2 : ℤ) := zpow_le_zpow_right₀ one_le_two (by omega)
    _ = 1 / 4 := by norm_num

theorem Binary.round_err (x : ℝ) : |B.round x - x| ≤ B.ulp * |x| + B.tiny :=
  (B.abs_round_sub_le x).trans (sup_le (by have := B.tiny_nonneg; unfold Binary.ulp; linarith)
    (by have := mul_nonneg B.ulp_nonneg (abs_nonneg x); unfold Binary.tiny; linarith))

namespace Fp
variable {a b : Fp B}

/-- Stored numbers are multiples of the smallest one. -/
theorem val_multiple (ha : a.Finite) : ∃ n : ℤ, a.val = n * 2 ^ B.kmin := by
  cases a with
  | nan => exact ha.elim
  | inf s => exact ha.elim
  | num s m k hs =>
    obtain ⟨d, hd⟩ := Int.eq_ofNat_of_zero_le (sub_nonneg.mpr hs.2.1)
    refine ⟨(if s then -1 else 1) * (m * 2 ^ d), ?_⟩
    rw [val, show k = d + B.kmin by omega, zpow_add₀ two_ne_zero, zpow_natCast]
    cases s <;> · push_cast; simp; ring

/-- Sums are exact below the normal range. -/
theorem sum_err {x : ℝ} {n : ℤ} (hx : x = n * 2 ^ B.kmin) : |B.round x - x| ≤ B.ulp * |x| := by
  have hr : |B.round x - x| = |B.near (abs x) - abs x| := by
    rcases le_total 0 x with h | h
    · rw [B.round_of_nonneg h, abs_of_nonneg h]
    · have := B.round_neg (-x)
      rw [neg_neg] at this
      rw [this, B.round_of_nonneg (neg_nonneg.mpr h), abs_of_nonpos h, ← abs_neg]
      congr 1
      ring
  rw [hr]
  rcases (B.kmin_le_place |x|).lt_or_eq with h | h
  · have h0 : 0 < |x| := by
      refine (abs_nonneg x).lt_of_ne fun e => ?_
      rw [← e, B.place_zero] at h
      exact lt_irrefl _ h
    refine (B.abs_near_sub (abs_nonneg x)).trans ?_
    have h1 := B.le_of_place h0 h
    calc (2 : ℝ) ^ (B.place |x| - 1) = 2 ^ (-(B.p : ℤ)) * 2 ^ (B.place |x| + B.p - 1) := by
          rw [← zpow_add₀ two_ne_zero]; congr 1; omega
      _ ≤ _ := mul_le_mul_of_nonneg_left h1 (by positivity)
  · have h1 : |x| < 2 ^ (B.kmin + B.p) := by
      have := B.lt_of_place (x := |x|)
      rwa [← h] at this
    have e : |x| = (n.natAbs : ℝ) * 2 ^ B.kmin := by
      rw [hx, abs_mul, abs_of_pos (show (0 : ℝ) < 2 ^ B.kmin by positivity), Nat.cast_natAbs, Int.cast_abs]
    have h2 : n.natAbs < 2 ^ B.p := by
      rw [e, add_comm, zpow_add₀ two_ne_zero, zpow_natCast] at h1
      exact_mod_cast lt_of_mul_lt_mul_right h1 (by positivity)
    rw [e, B.near_stored ⟨h2, le_rfl, by have := B.small; have := B.large; omega, .inr rfl⟩, sub_self, abs_zero]
    have := B.ulp_nonneg
    positivity

theorem top_pos : 0 < B.top := by unfold Binary.top; positivity

theorem finite_ofAbs {s : Bool} {x : ℝ} (hx : 0 ≤ x) (h : (ofAbs s x : Fp B).Finite) : B.near x < B.top := by
  by_contra hc
  rw [ofAbs_inf hx (not_lt.mp hc)] at h
  exact h

/-- A finite sum has finite terms and a small relative error. -/
theorem add_err (h : (a.add b).Finite) :
    a.Finite ∧ b.Finite ∧ |(a.add b).val - (a.val + b.val)| ≤ B.ulp * |a.val + b.val| := by
  have hf : a.Finite ∧ b.Finite := by
    cases a with
    | nan => cases b <;> exact h.elim
    | inf s => cases b with
      | nan => exact h.elim
      | inf t => by_cases e : s = t <;> simp [add, e, Finite] at h
      | num => exact h.elim
    | num => cases b with
      | nan => exact h.elim
      | inf t => exact h.elim
      | num => exact ⟨trivial, trivial⟩
  obtain ⟨ha, hb⟩ := hf
  have hn : B.near |a.val + b.val| < B.top := by
    cases a with
    | nan => exact ha.elim
    | inf => exact ha.elim
    | num s m k hs =>
      cases b with
      | nan => exact hb.elim
      | inf => exact hb.elim
      | num t m' k' hs' =>
        by_cases e : (num s m k hs).val + (num t m' k' hs').val = 0
        · rw [e, abs_zero, B.near_zero]; exact top_pos
        · simp only [add, if_neg e] at h
          exact finite_ofAbs (abs_nonneg _) h
  refine ⟨ha, hb, ?_⟩
  rw [(add_spec ha hb hn).2]
  obtain ⟨n, hn⟩ := val_multiple ha
  obtain ⟨n', hn'⟩ := val_multiple hb
  exact sum_err (n := n + n') (by rw [hn, hn']; push_cast; ring)

theorem neg_finite : a.neg.Finite ↔ a.Finite := by cases a <;> exact Iff.rfl

theorem sub_err (h : (a.sub b).Finite) :
    a.Finite ∧ b.Finite ∧ |(a.sub b).val - (a.val - b.val)| ≤ B.ulp * |a.val - b.val| := by
  obtain ⟨h1, h2, h3⟩ := add_err (a := a) (b := b.neg) h
  have hb := neg_finite.mp h2
  rw [(neg_spec hb).2, ← sub_eq_add_neg] at h3
  exact ⟨h1, hb, h3⟩

theorem mul_err (h : (a.mul b).Finite) :
    a.Finite ∧ b.Finite ∧ |(a.mul b).val - a.val * b.val| ≤ B.ulp * |a.val * b.val| + B.tiny := by
  have ha : a.Finite := by
    by_contra hc
    exact mul_nf_left hc b h
  have hb : b.Finite := by
    by_contra hc
    exact mul_nf_right hc a h
  have hn : B.near |a.val * b.val| < B.top := by
    cases a with
    | nan => exact ha.elim
    | inf => exact ha.elim
    | num s m k hs =>
      cases b with
      | nan => exact hb.elim
      | inf => exact hb.elim
      | num t m' k' hs' => exact finite_ofAbs (abs_nonneg _) h
  refine ⟨ha, hb, ?_⟩
  rw [(mul_spec ha hb hn).2]
  exact B.round_err _

/-- A finite quotient by a finite number. -/
theorem div_err (hb : b.Finite) (h : (a.div b).Finite) :
    a.Finite ∧ b.val ≠ 0 ∧ |(a.div b).val - a.val / b.val| ≤ B.ulp * |a.val / b.val| + B.tiny := by
  have h0 : b.val ≠ 0 := fun e => div_zero_nf a hb e h
  have ha : a.Finite := by
    cases a with
    | nan => exact h.elim
    | inf s => cases b with
      | nan => exact hb.elim
      | inf => exact hb.elim
      | num => exact h.elim
    | num => trivial
  have hn : B.near |a.val / b.val| < B.top := by
    cases a with
    | nan => exact ha.elim
    | inf => exact ha.elim
    | num s m k hs =>
      cases b with
      | nan => exact hb.elim
      | inf => exact hb.elim
      | num t m' k' hs' =>
        have : m' ≠ 0 := fun e => h0 ((val_eq_zero t hs').mpr e)
        simp only [div, if_neg this] at h
        exact finite_ofAbs (abs_nonneg _) h
  refine ⟨ha, h0, ?_⟩
  rw [(div_spec ha hb h0 hn).2]
  exact B.round_err _

end Fp

/-! ## Complex numbers -/

theorem norm_le_of_parts {z v : ℂ} {c T : ℝ} (hc : 0 ≤ c) (hT : 0 ≤ T) (h1 : |z.re| ≤ c * |v.re| + T)
    (h2 : |z.im| ≤ c * |v.im| + T) : ‖z‖ ≤ c * ‖v‖ + 3 / 2 * T := by
  have e : ‖z‖ ^ 2 = |z.re| ^ 2 + |z.im| ^ 2 := by
    rw [Complex.sq_norm, Complex.normSq_apply, sq_abs, sq_abs]; ring
  have e' : ‖v‖ ^ 2 = |v.re| ^ 2 + |v.im| ^ 2 := by
    rw [Complex.sq_norm, Complex.normSq_apply, sq_abs, sq_abs]; ring
  have hv := norm_nonneg v
  have h0 := abs_nonneg v.re
  have h0' := abs_nonneg v.im
  have h3 : |v.re| + |v.im| ≤ 3 / 2 * ‖v‖ := by
    refine abs_le_of_sq_le_sq' ?_ (by positivity) |>.2
    nlinarith [sq_nonneg (|v.re| - |v.im|)]
  refine abs_le_of_sq_le_sq' ?_ (by positivity) |>.2
  have h4 : |z.re| ^ 2 ≤ (c * |v.re| + T) ^ 2 := pow_le_pow_left₀ (abs_nonneg _) h1 2
  have h5 : |z.im| ^ 2 ≤ (c * |v.im| + T) ^ 2 := pow_le_pow_left₀ (abs_nonneg _) h2 2
  have h6 : c * T * (|v.re| + |v.im|) ≤ c * T * (3 / 2 * ‖v‖) :=
    mul_le_mul_of_nonneg_left h3 (mul_nonneg hc hT)
  have h7 : c ^ 2 * ‖v‖ ^ 2 = c ^ 2 * (|v.re| ^ 2 + |v.im| ^ 2) := by rw [e']
  rw [e]
  nlinarith [sq_nonneg T]

section
variable {w : Width} {L : Libm B}

/-- The complex number a pair of finite numbers stands for. -/
noncomputable def Cf.val (z : Cf w (Fl L)) : ℂ := ⟨z.x.fp.val, z.y.fp.val⟩

theorem Cf.add_err {a b : Cf w (Fl L)} (h : (Cf.add a b).Finite) :
    a.Finite ∧ b.Finite ∧ ‖(Cf.add a b).val - (a.val + b.val)‖ ≤ B.ulp * ‖a.val + b.val‖ := by
  obtain ⟨h1, h2, h3⟩ := Fp.add_err h.1
  obtain ⟨h4, h5, h6⟩ := Fp.add_err h.2
  refine ⟨⟨h1, h4⟩, ⟨h2, h5⟩, ?_⟩
  have := norm_le_of_parts (z := (Cf.add a b).val - (a.val + b.val)) (v := a.val + b.val) B.ulp_nonneg le_rfl
    (by rw [add_zero]; exact h3) (by rw [add_zero]; exact h6)
  linarith

theorem Cf.sub_err {a b : Cf w (Fl L)} (h : (Cf.sub a b).Finite) :
    a.Finite ∧ b.Finite ∧ ‖(Cf.sub a b).val - (a.val - b.val)‖ ≤ B.ulp * ‖a.val - b.val‖ := by
  obtain ⟨h1, h2, h3⟩ := Fp.sub_err h.1
  obtain ⟨h4, h5, h6⟩ := Fp.sub_err h.2
  refine ⟨⟨h1, h4⟩, ⟨h2, h5⟩, ?_⟩
  have := norm_le_of_parts (z := (Cf.sub a b).val - (a.val - b.val)) (v := a.val - b.val) B.ulp_nonneg le_rfl
    (by rw [add_zero]; exact h3) (by rw [add_zero]; exact h6)
  linarith

/-- Two products, rounded, and their sum or difference, rounded. -/
theorem two_products {p q s P Q S M : ℝ} (hp : |p - P| ≤ B.ulp * |P| + B.tiny) (hq : |q - Q| ≤ B.ulp * |Q| + B.tiny)
    (hs : |s - (p + q)| ≤ B.ulp * |p + q|) (hS : S = P + Q) (hM : |P| + |Q| ≤ M) :
    |s - S| ≤ B.ulp * |S| + (1 + B.ulp) * (B.ulp * M + 2 * B.tiny) := by
  have hu := B.ulp_nonneg
  subst hS
  have e : |p + q - (P + Q)| ≤ B.ulp * M + 2 * B.tiny := by
    calc |p + q - (P + Q)| = |(p - P) + (q - Q)| := by congr 1; ring
      _ ≤ |p - P| + |q - Q| := abs_add_le _ _
      _ ≤ B.ulp * (|P| + |Q|) + 2 * B.tiny := by linarith
      _ ≤ _ := by linarith [mul_le_mul_of_nonneg_left hM hu]
  have h1 : |p + q| ≤ |P + Q| + |p + q - (P + Q)| := by
    have := abs_add_le (P + Q) (p + q - (P + Q))
    rwa [add_sub_cancel] at this
  have h2 : |s - (P + Q)| ≤ |s - (p + q)| + |p + q - (P + Q)| := by
    have := abs_add_le (s - (p + q)) (p + q - (P + Q))
    rwa [sub_add_sub_cancel] at this
  nlinarith

theorem parts_le (a b : ℂ) : |a.re * b.re| + |a.im * b.im| ≤ ‖a‖ * ‖b‖ ∧ |a.re * b.im| + |a.im * b.re| ≤ ‖a‖ * ‖b‖ := by
  have e : ∀ z : ℂ, ‖z‖ ^ 2 = |z.re| ^ 2 + |z.im| ^ 2 := fun z => by
    rw [Complex.sq_norm, Complex.normSq_apply, sq_abs, sq_abs]; ring
  have h0 : 0 ≤ ‖a‖ * ‖b‖ := by positivity
  simp only [abs_mul]
  constructor
  · refine abs_le_of_sq_le_sq' ?_ h0 |>.2
    rw [mul_pow, e, e]
    nlinarith [sq_nonneg (|a.re| * |b.im| - |a.im| * |b.re|)]
  · refine abs_le_of_sq_le_sq' ?_ h0 |>.2
    rw [mul_pow, e, e]
    nlinarith [sq_nonneg (|a.re| * |b.re| - |a.im| * |b.im|)]

theorem Cf.mul_err {a b : Cf w (Fl L)} (h : (Cf.mul a b).Finite) :
    a.Finite ∧ b.Finite
      ∧ ‖(Cf.mul a b).val - a.val * b.val‖ ≤ 3 * B.ulp * (‖a.val‖ * ‖b.val‖) + 4 * B.tiny := by
  obtain ⟨h1, h2, h3⟩ := Fp.sub_err h.1
  obtain ⟨h4, h5, h6⟩ := Fp.add_err h.2
  obtain ⟨p1, p2, p3⟩ := Fp.mul_err h1
  obtain ⟨q1, q2, q3⟩ := Fp.mul_err h2
  obtain ⟨-, -, p3'⟩ := Fp.mul_err h4
  obtain ⟨-, -, q3'⟩ := Fp.mul_err h5
  refine ⟨⟨p1, q1⟩, ⟨p2, q2⟩, ?_⟩
  obtain ⟨m1, m2⟩ := parts_le a.val b.val
  have hu := B.ulp_nonneg
  have hu' := B.ulp_le
  have ht := B.tiny_nonneg
  have hM : 0 ≤ ‖a.val‖ * ‖b.val‖ := by positivity
  have e1 := two_products (M := ‖a.val‖ * ‖b.val‖) (S := (a.val * b.val).re) p3
    (q := -(a.y.fp.mul b.y.fp).val) (Q := -(a.y.fp.val * b.y.fp.val))
    (by rw [neg_sub_neg, abs_sub_comm, abs_neg]; exact q3) (by rw [← sub_eq_add_neg]; exact h3)
    (by rw [Complex.mul_re, ← sub_eq_add_neg]; rfl) (by rw [abs_neg]; exact m1)
  have e2 := two_products (M := ‖a.val‖ * ‖b.val‖) (S := (a.val * b.val).im) p3' q3' h6
    (Complex.mul_im _ _) m2
  have := norm_le_of_parts (z := (Cf.mul a b).val - a.val * b.val) (v := a.val * b.val)
    (T := (1 + B.ulp) * (B.ulp * (‖a.val‖ * ‖b.val‖) + 2 * B.tiny)) hu (by positivity) e1 e2
  rw [norm_mul] at this
  have h7 : (1 + B.ulp) * (B.ulp * (‖a.val‖ * ‖b.val‖) + 2 * B.tiny)
      ≤ 5 / 4 * (B.ulp * (‖a.val‖ * ‖b.val‖) + 2 * B.tiny) :=
    mul_le_mul_of_nonneg_right (by linarith) (by positivity)
  have h8 : 0 ≤ B.ulp * (‖a.val‖ * ‖b.val‖) := by positivity
  linarith

/-! ## Counting roundings -/

/-- The floating-point number `z`, if finite, stands for the exact number `x` up to `j` roundings of
terms whose absolute values add up to `m`, and other errors adding up to `t`. -/
def Cf.Counts (z : Cf w (Fl L)) (x : ℂ) (m t : ℝ) (j : Nat) : Prop :=
  ‖x‖ ≤ m ∧ 0 ≤ t ∧ (z.Finite → ‖z.val - x‖ ≤ (1 + B.ulp) ^ j * (m + t) - m)

theorem Cf.Counts.mono {z : Cf w (Fl L)} {x : ℂ} {m t : ℝ} {j i : Nat} (h : z.Counts x m t j) (hj : j ≤ i) :
    z.Counts x m t i := by
  refine ⟨h.1, h.2.1, fun hz => (h.2.2 hz).trans ?_⟩
  have := pow_le_pow_right₀ (show 1 ≤ 1 + B.ulp by linarith [B.ulp_nonneg]) hj
  have h0 : 0 ≤ m + t := add_nonneg ((norm_nonneg x).trans h.1) h.2.1
  nlinarith

theorem Cf.counts_val (z : Cf w (Fl L)) : z.Counts z.val ‖z.val‖ 0 0 :=
  ⟨le_rfl, le_rfl, fun _ => by simp⟩

theorem Cf.Counts.add {z z' : Cf w (Fl L)} {x x' : ℂ} {m m' t t' : ℝ} {j : Nat} (h : z.Counts x m t j)
    (h' : z'.Counts x' m' t' j) : (Cf.add z z').Counts (x + x') (m + m') (t + t') (j + 1) := by
  refine ⟨(norm_add_le _ _).trans (add_le_add h.1 h'.1), add_nonneg h.2.1 h'.2.1, fun hf => ?_⟩
  obtain ⟨h1, h2, h3⟩ := Cf.add_err hf
  have h4 := h.2.2 h1
  have h5 := h'.2.2 h2
  have e1 : ‖z.val + z'.val - (x + x')‖ ≤ ‖z.val - x‖ + ‖z'.val - x'‖ := by
    rw [add_sub_add_comm]; exact norm_add_le _ _
  have e2 : ‖z.val + z'.val‖ ≤ ‖z.val + z'.val - (x + x')‖ + ‖x + x'‖ := by
    have := norm_add_le (z.val + z'.val - (x + x')) (x + x')
    rwa [sub_add_cancel] at this
  have e3 : ‖(Cf.add z z').val - (x + x')‖
      ≤ ‖(Cf.add z z').val - (z.val + z'.val)‖ + ‖z.val + z'.val - (x + x')‖ := by
    have := norm_add_le ((Cf.add z z').val - (z.val + z'.val)) (z.val + z'.val - (x + x'))
    rwa [sub_add_sub_cancel] at this
  have e4 := (norm_add_le x x').trans (add_le_add h.1 h'.1)
  have hu := B.ulp_nonneg
  have e5 : ‖z.val + z'.val‖ ≤ (1 + B.ulp) ^ j * (m + m' + (t + t')) := by linarith
  have e6 := mul_le_mul_of_nonneg_left e5 hu
  rw [pow_succ]
  linarith

theorem Cf.Counts.mul {z z' : Cf w (Fl L)} {x x' : ℂ} {m m' t t' : ℝ} {j j' : Nat} (h : z.Counts x m t j)
    (h' : z'.Counts x' m' t' j') :
    (Cf.mul z z').Counts (x * x') (m * m') (m * t' + t * m' + t * t' + 4 * B.tiny) (j + j' + 3) := by
  have hm := (norm_nonneg x).trans h.1
  have hm' := (norm_nonneg x').trans h'.1
  have hu := B.ulp_nonneg
  have ht := B.tiny_nonneg
  have ht1 := h.2.1
  have ht2 := h'.2.1
  refine ⟨by rw [norm_mul]; exact mul_le_mul h.1 h'.1 (norm_nonneg _) hm, by positivity, fun hf => ?_⟩
  obtain ⟨h1, h2, h3⟩ := Cf.mul_err hf
  have h4 := h.2.2 h1
  have h5 := h'.2.2 h2
  set p := (1 + B.ulp) ^ j * (m + t) with hp
  set p' := (1 + B.ulp) ^ j' * (m' + t') with hp'
  have e0 : ‖z.val‖ ≤ p := by
    have := norm_add_le (z.val - x) x
    rw [sub_add_cancel] at this
    linarith [h.1]
  have e0' : ‖z'.val‖ ≤ p' := by
    have := norm_add_le (z'.val - x') x'
    rw [sub_add_cancel] at this
    linarith [h'.1]
  have e1 : ‖z.val * z'.val - x * x'‖ ≤ p * p' - m * m' := by
    have e : z.val * z'.val - x * x' = (z.val - x) * z'.val + x * (z'.val - x') := by ring
    rw [e]
    refine (norm_add_le _ _).trans ?_
    rw [norm_mul, norm_mul]
    have a1 := mul_le_mul h4 e0' (norm_nonneg _) ((norm_nonneg _).trans h4)
    have a2 := mul_le_mul h.1 h5 (norm_nonneg _) hm
    linarith
  have e2 : ‖z.val‖ * ‖z'.val‖ ≤ p * p' := mul_le_mul e0 e0' (norm_nonneg _) ((norm_nonneg _).trans e0)
  have e3 : ‖(Cf.mul z z').val - x * x'‖
      ≤ ‖(Cf.mul z z').val - z.val * z'.val‖ + ‖z.val * z'.val - x * x'‖ := by
    have := norm_add_le ((Cf.mul z z').val - z.val * z'.val) (z.val * z'.val - x * x')
    rwa [sub_add_sub_cancel] at this
  have e4 : 1 + 3 * B.ulp ≤ (1 + B.ulp) ^ 3 := by nlinarith [pow_nonneg hu 3, sq_nonneg B.ulp]
  have e5 : (1 : ℝ) ≤ (1 + B.ulp) ^ (j + j' + 3) := one_le_pow₀ (by linarith)
  have e6 : (1 + B.ulp) ^ (j + j' + 3) * (m * m' + (m * t' + t * m' + t * t' + 4 * B.tiny))
      = (1 + B.ulp) ^ 3 * (p * p') + (1 + B.ulp) ^ (j + j' + 3) * (4 * B.tiny) := by
    rw [hp, hp', pow_add, pow_add]; ring
  rw [e6]
  have hpp : 0 ≤ p * p' := le_trans (by positivity) e2
  nlinarith

theorem Cf.default_finite : (Cf.default : Cf w (Fl L)).Finite ∧ (Cf.default : Cf w (Fl L)).val = 0 := by
  obtain ⟨h1, h2⟩ := Fl.zero_finite (L := L)
  exact ⟨⟨h1, h1⟩, Complex.ext h2 h2⟩

theorem Cf.counts_zero (j : Nat) : (Cf.default : Cf w (Fl L)).Counts 0 0 0 j := by
  have := Cf.counts_val (Cf.default : Cf w (Fl L))
  rw [Cf.default_finite.2, norm_zero] at this
  exact this.mono (Nat.zero_le _)

theorem Cf.Counts.sum {n j : Nat} {z : Nat → Cf w (Fl L)} {x : Nat → ℂ} {m t : Nat → ℝ}
    (h : ∀ b, b < n → (z b).Counts (x b) (m b) (t b) j) :
    ((List.range n).foldl (fun acc b => Cf.add acc (z b)) Cf.default).Counts (∑ b ∈ Finset.range n, x b)
      (∑ b ∈ Finset.range n, m b) (∑ b ∈ Finset.range n, t b) (j + n) := by
  induction n with
  | zero => exact Cf.counts_zero _
  | succ n ih =>
    rw [List.range_succ, List.foldl_append, Finset.sum_range_succ, Finset.sum_range_succ, Finset.sum_range_succ]
    exact (ih fun b hb => h b (by omega)).add ((h n (by omega)).mono (by omega))

theorem Cf.counts_dot (n : Nat) (x y : Nat → Cf w (Fl L)) :
    (dotN n x y).Counts (∑ b ∈ Finset.range n, (x b).val * (y b).val)
      (∑ b ∈ Finset.range n, ‖(x b).val‖ * ‖(y b).val‖) (n * (4 * B.tiny)) (n + 3) := by
  have := Cf.Counts.sum (n := n) (fun b _ => (Cf.counts_val (x b)).mul (Cf.counts_val (y b)))
  simp only [mul_zero, zero_mul, add_zero, zero_add, Finset.sum_const, Finset.card_range, nsmul_eq_mul] at this
  rw [add_comm n]
  exact this

/-- What `Counts` says, unfolded. -/
theorem Cf.Counts.err {z : Cf w (Fl L)} {x : ℂ} {m t : ℝ} {j : Nat} (h : z.Counts x m t j) (hz : z.Finite) :
    ‖z.val - x‖ ≤ ((1 + B.ulp) ^ j - 1) * m + (1 + B.ulp) ^ j * t := by
  have := h.2.2 hz
  linarith

/-- C89. A finite sum, difference or product has finite operands and a small error. -/
theorem C89_ops (a b : Cf w (Fl L)) :
    ((Cf.add a b).Finite → a.Finite ∧ b.Finite ∧ ‖(Cf.add a b).val - (a.val + b.val)‖ ≤ B.ulp * ‖a.val + b.val‖)
    ∧ ((Cf.sub a b).Finite → a.Finite ∧ b.Finite ∧ ‖(Cf.sub a b).val - (a.val - b.val)‖ ≤ B.ulp * ‖a.val - b.val‖)
    ∧ ((Cf.mul a b).Finite → a.Finite ∧ b.Finite
      ∧ ‖(Cf.mul a b).val - a.val * b.val‖ ≤ 3 * B.ulp * ‖a.val * b.val‖ + 4 * B.tiny) :=
  ⟨Cf.add_err, Cf.sub_err, fun h => by rw [norm_mul]; exact Cf.mul_err h⟩

/-- C89. Scalar products. -/
theorem C89_dot (n : Nat) (x y : Nat → Cf w (Fl L)) (h : (dotN n x y).Finite) :
    ‖(dotN n x y).val - ∑ b ∈ Finset.range n, (x b).val * (y b).val‖
      ≤ ((1 + B.ulp) ^ (n + 3) - 1) * ∑ b ∈ Finset.range n, ‖(x b).val‖ * ‖(y b).val‖
        + (1 + B.ulp) ^ (n + 3) * (n * (4 * B.tiny)) :=
  (Cf.counts_dot n x y).err h

/-- C89. Dense layers, before the activation. -/
theorem C89_dense {l : Dense (Cf w (Fl L))} {units n : Nat} {W : Nat → Nat → Cf w (Fl L)} {b : Nat → Cf w (Fl L)}
    {f : ActFunc} (h : l.Is units n W b f) (hn : 0 < n) (x : Nat → Cf w (Fl L)) :
    ∃ q : Nat → Cf w (Fl L), l.computeQ ((List.range n).map x) = some ((List.range units).map q)
      ∧ ∀ j, (q j).Finite → ‖(q j).val - (∑ i ∈ Finset.range n, (W j i).val * (x i).val + (b j).val)‖
        ≤ ((1 + B.ulp) ^ (n + 4) - 1) * (∑ i ∈ Finset.range n, ‖(W j i).val‖ * ‖(x i).val‖ + ‖(b j).val‖)
          + (1 + B.ulp) ^ (n + 4) * (n * (4 * B.tiny)) := by
  refine ⟨_, Dense.computeQ_is h hn x, fun j hj => ?_⟩
  have := (Cf.counts_dot n (W j) x).add ((Cf.counts_val (b j)).mono (Nat.zero_le _))
  rw [add_zero] at this
  exact this.err hj

/-- C89. Convolutional layers, before the activation. -/
theorem C89_conv {l : Conv (Cf w (Fl L))} {nf n p q r c : Nat} {K : Nat → Nat → Nat → Nat → Cf w (Fl L)}
    {b : Nat → Cf w (Fl L)} {f : ActFunc} (h : l.Is nf n p q K b f) (hf : 0 < nf) (hn : 0 < n) (hp : 1 ≤ p)
    (hpr : p ≤ r) (hq : 1 ≤ q) (hqc : q ≤ c) {maps : List (Mat (Cf w (Fl L)))} {X : Nat → Nat → Nat → Cf w (Fl L)}
    (hX : MapsAre maps n r c X) :
    ∃ Q : Nat → Nat → Nat → Cf w (Fl L), l.computeQ maps = some (cube nf (r - p + 1) (c - q + 1) Q)
      ∧ ∀ o i j, (Q o i j).Finite →
        ‖(Q o i j).val - (∑ ch ∈ Finset.range n, ∑ s ∈ Finset.range p, ∑ t ∈ Finset.range q,
            (X ch (i + s) (j + t)).val * (K o ch s t).val + (b o).val)‖
        ≤ ((1 + B.ulp) ^ (n + p + q + 4) - 1) * (∑ ch ∈ Finset.range n, ∑ s ∈ Finset.range p, ∑ t ∈ Finset.range q,
            ‖(X ch (i + s) (j + t)).val‖ * ‖(K o ch s t).val‖ + ‖(b o).val‖)
          + (1 + B.ulp) ^ (n + p + q + 4) * (n * (p * (q * (4 * B.tiny)))) := by
  refine ⟨_, Conv.computeQ_is h hf hn hp hpr hq hqc hX, fun o i j hj => ?_⟩
  have h1 : ∀ ch, (corr p q (X ch) (K o ch) i j).Counts (∑ s ∈ Finset.range p, ∑ t ∈ Finset.range q,
      (X ch (i + s) (j + t)).val * (K o ch s t).val) (∑ s ∈ Finset.range p, ∑ t ∈ Finset.range q,
      ‖(X ch (i + s) (j + t)).val‖ * ‖(K o ch s t).val‖) (p * (q * (4 * B.tiny))) (q + 3 + p) := by
    intro ch
    have := Cf.Counts.sum (n := p) fun s _ => Cf.counts_dot q (fun t => X ch (i + s) (j + t)) (K o ch s)
    rw [Finset.sum_const, Finset.card_range, nsmul_eq_mul] at this
    exact this
  have h2 := Cf.Counts.sum (n := n) fun ch _ => h1 ch
  rw [Finset.sum_const, Finset.card_range, nsmul_eq_mul] at h2
  have h3 := h2.add ((Cf.counts_val (b o)).mono (Nat.zero_le _))
  rw [add_zero] at h3
  exact (h3.mono (by omega)).err hj

/-- C89. Division, if the square of the divisor is a normal number. -/
theorem C89_div {a b q : Cf w (Fl L)} (hu : B.ulp ≤ 1 / 64) (h : Cf.div a b = some q) (hq : q.Finite)
    (hd : b.den.fp.Finite) (hb : 2 ^ (B.kmin + B.p - 1) ≤ ‖b.val‖ ^ 2) :
    ‖q.val - a.val / b.val‖ ≤ 10 * B.ulp * ‖a.val / b.val‖ + (5 / ‖b.val‖ ^ 2 + 2) * B.tiny := by
  have hu0 := B.ulp_nonneg
  have ht := B.tiny_nonneg
  unfold Cf.div at h
  rw [if_neg (fun e => by rw [if_pos e] at h; cases h)] at h
  cases h
  have hD0 : 0 < ‖b.val‖ ^ 2 := lt_of_lt_of_le (by positivity) hb
  have htb : B.tiny ≤ B.ulp * ‖b.val‖ ^ 2 := by
    refine le_trans (le_of_eq ?_) (mul_le_mul_of_nonneg_left hb hu0)
    unfold Binary.tiny Binary.ulp
    rw [← zpow_add₀ two_ne_zero]
    congr 1
    ring
  have eD : ‖b.val‖ ^ 2 = b.x.fp.val * b.x.fp.val + b.y.fp.val * b.y.fp.val := by
    rw [Complex.sq_norm, Complex.normSq_apply]; rfl
  -- the denominator
  have den : |b.den.fp.val - ‖b.val‖ ^ 2| ≤ 5 * B.ulp * ‖b.val‖ ^ 2 := by
    obtain ⟨h1, h2, h3⟩ := Fp.add_err (show ((b.x.fp.mul b.x.fp).add (b.y.fp.mul b.y.fp)).Finite from hd)
    have := two_products (M := ‖b.val‖ ^ 2) (Fp.mul_err h1).2.2 (Fp.mul_err h2).2.2 h3 eD
      (by rw [abs_mul_self, abs_mul_self, eD])
    rw [abs_of_pos hD0] at this
    refine le_trans this ?_
    nlinarith [mul_nonneg hu0 hD0.le, mul_nonneg hu0 (mul_nonneg hu0 hD0.le)]
  -- the numerator
  obtain ⟨x1, x2, x3⟩ := Fp.div_err hd hq.1
  obtain ⟨y1, -, y3⟩ := Fp.div_err hd hq.2
  obtain ⟨h1, h2, h3⟩ := Fp.add_err x1
  obtain ⟨h4, h5, h6⟩ := Fp.sub_err y1
  obtain ⟨-, -, p1⟩ := Fp.mul_err h1
  obtain ⟨-, -, p2⟩ := Fp.mul_err h2
  obtain ⟨-, -, p3⟩ := Fp.mul_err h4
  obtain ⟨-, -, p4⟩ := Fp.mul_err h5
  have m := parts_le a.val b.val
  set M := ‖a.val‖ * ‖b.val‖ with hM
  have hM0 : 0 ≤ M := by positivity
  set N : ℂ := ⟨((a.x.fp.mul b.x.fp).add (a.y.fp.mul b.y.fp)).val, ((a.y.fp.mul b.x.fp).sub (a.x.fp.mul b.y.fp)).val⟩
    with hN
  have num : ‖N - a.val * star b.val‖ ≤ 3 * B.ulp * M + 4 * B.tiny := by
    have e1 := two_products (M := M) (S := (a.val * star b.val).re) p1 p2 h3
      (by rw [Complex.mul_re]; simp [Cf.val]) m.1
    have e2 := two_products (M := M) (S := (a.val * star b.val).im) p3
      (q := -(a.x.fp.mul b.y.fp).val) (Q := -(a.x.fp.val * b.y.fp.val))
      (by rw [neg_sub_neg, abs_sub_comm, abs_neg]; exact p4) (by rw [← sub_eq_add_neg]; exact h6)
      (by rw [Complex.mul_im]; simp [Cf.val]; ring) (by rw [abs_neg, add_comm]; exact m.2)
    have := norm_le_of_parts (z := N - a.val * star b.val) (v := a.val * star b.val)
      (T := (1 + B.ulp) * (B.ulp * M + 2 * B.tiny)) hu0 (by positivity) e1 e2
    rw [norm_mul, norm_star, ← hM] at this
    have h7 : (1 + B.ulp) * (B.ulp * M + 2 * B.tiny) ≤ 5 / 4 * (B.ulp * M + 2 * B.tiny) :=
      mul_le_mul_of_nonneg_right (by linarith) (by positivity)
    have h8 : 0 ≤ B.ulp * M := by positivity
    linarith
  -- the quotient
  set d := b.den.fp.val with hd'
  set D := ‖b.val‖ ^ 2 with hD
  have d1 : 59 / 64 * D ≤ d := by
    have := (abs_le.mp den).1
    nlinarith
  have d0 : 0 < d := lt_of_lt_of_le (by positivity) d1
  have quo := norm_le_of_parts (z := Cf.val (w := w) ⟨Scalar.div (Scalar.add (Scalar.mul a.x b.x) (Scalar.mul a.y b.y)) b.den,
      Scalar.div (Scalar.sub (Scalar.mul a.y b.x) (Scalar.mul a.x b.y)) b.den⟩ - N / d) (v := N / d) hu0 ht
    (by rw [Complex.sub_re, Complex.div_ofReal_re]; exact x3) (by rw [Complex.sub_im, Complex.div_ofReal_im]; exact y3)
  have eab : a.val / b.val = a.val * star b.val / D := by
    rw [hD, Complex.sq_norm]
    rw [div_eq_mul_inv, Complex.inv_def, div_eq_mul_inv]
    rw [Complex.ofReal_inv, ← mul_assoc]
    rfl
  have mid : ‖N / d - a.val / b.val‖ ≤ (8 * B.ulp * M + 4 * B.tiny) / d := by
    have e : N / d - a.val / b.val = (N - a.val * star b.val + a.val * star b.val * ((D - d : ℝ) / D : ℝ)) / d := by
      rw [eab]
      have : (D : ℂ) ≠ 0 := by exact_mod_cast hD0.ne'
      have : (d : ℂ) ≠ 0 := by exact_mod_cast d0.ne'
      push_cast
      field_simp
      ring
    rw [e, norm_div, Complex.norm_real, Real.norm_of_nonneg d0.le]
    refine div_le_div_of_nonneg_right ?_ d0.le
    refine (norm_add_le _ _).trans ?_
    have e2 : ‖a.val * star b.val * ((D - d : ℝ) / D : ℝ)‖ ≤ 5 * B.ulp * M := by
      rw [norm_mul, norm_mul, norm_star, ← hM, Complex.norm_real, norm_div, Real.norm_of_nonneg hD0.le,
        Real.norm_eq_abs, abs_sub_comm]
      have : |d - D| / D ≤ 5 * B.ulp := by rw [div_le_iff₀ hD0]; exact den
      nlinarith
    linarith
  have last : (8 * B.ulp * M + 4 * B.tiny) / d ≤ 64 / 59 * (8 * B.ulp * M + 4 * B.tiny) / D := by
    rw [div_le_div_iff₀ d0 hD0]
    have : 0 ≤ 8 * B.ulp * M + 4 * B.tiny := by positivity
    nlinarith
  have eM : ‖a.val / b.val‖ = M / D := by
    rw [eab, norm_div, norm_mul, norm_star, Complex.norm_real, Real.norm_of_nonneg hD0.le]
  have e1 : 64 / 59 * (8 * B.ulp * M + 4 * B.tiny) / D = 64 / 59 * (8 * (B.ulp * (M / D)) + 4 * (B.tiny / D)) := by
    ring
  rw [e1] at last
  have e2 : ‖N / d‖ ≤ ‖N / d - a.val / b.val‖ + M / D := by
    have := norm_add_le (N / d - a.val / b.val) (a.val / b.val)
    rwa [sub_add_cancel, eM] at this
  have e3 := norm_sub_le_norm_sub_add_norm_sub (Cf.val (w := w)
    ⟨Scalar.div (Scalar.add (Scalar.mul a.x b.x) (Scalar.mul a.y b.y)) b.den,
      Scalar.div (Scalar.sub (Scalar.mul a.y b.x) (Scalar.mul a.x b.y)) b.den⟩) (N / d) (a.val / b.val)
  have hR : 0 ≤ B.ulp * (M / D) := by positivity
  have hT : 0 ≤ B.tiny / D := by positivity
  have hE := mid.trans last
  rw [eM]
  have e4 : (5 / D + 2) * B.tiny = 5 * (B.tiny / D) + 2 * B.tiny := by ring
  rw [e4]
  have e5 : B.ulp * ‖N / d‖ ≤ 1 / 64 * ‖N / d - a.val / b.val‖ + B.ulp * (M / D) := by
    have := mul_le_mul_of_nonneg_left e2 hu0
    have := mul_le_mul_of_nonneg_right hu (norm_nonneg (N / d - a.val / b.val))
    linarith
  linarith

theorem Cf.unit_le : (Cf.unit : Cf w (Fl L)).x.Le 0 ∧ (Cf.unit : Cf w (Fl L)).y.Le 0 := by
  have := B.large
  exact ⟨Fl.lit_le (k := 0) (by omega) (by decide), Fl.lit_le (k := 0) (by omega) (by decide)⟩

end

/-- Numbers C89 speaks about: one divided by one in `f32`. -/
example (L : Libm binary32) : binary32.ulp ≤ 1 / 64 ∧ (Cf.mul Cf.unit Cf.unit : Cf .w32 (Fl L)).Finite
    ∧ ((Cf.unit : Cf .w32 (Fl L)).den).fp.Finite
    ∧ 2 ^ (binary32.kmin + binary32.p - 1) ≤ ‖(Cf.unit : Cf .w32 (Fl L)).val‖ ^ 2 := by
  obtain ⟨h1, h2⟩ := Cf.unit_le (w := .w32) (L := L)
  have m11 := h1.mul h1 (by decide) (by decide)
  have m12 := h1.mul h2 (by decide) (by decide)
  have m21 := h2.mul h1 (by decide) (by decide)
  have m22 := h2.mul h2 (by decide) (by decide)
  refine ⟨?_, ⟨(m11.sub m22 (by decide) (by decide)).1, (m12.add m21 (by decide) (by decide)).1⟩,
    (m11.add m22 (by decide) (by decide)).1, ?_⟩
  · change (2 : ℝ) ^ (-((24 : Nat) : ℤ)) ≤ _
    norm_num
  · have e1 : (Cf.unit : Cf .w32 (Fl L)).x.fp.val = 1 := by
      have := (Fl.lit_int (L := L) (n := 1) (by decide)).2
      exact_mod_cast this
    rw [Complex.sq_norm, Complex.normSq_apply]
    change (2 : ℝ) ^ (-149 + ((24 : Nat) : ℤ) - 1) ≤ (Cf.unit : Cf .w32 (Fl L)).x.fp.val * (Cf.unit : Cf .w32 (Fl L)).x.fp.val
      + (Cf.unit : Cf .w32 (Fl L)).y.fp.val * (Cf.unit : Cf .w32 (Fl L)).y.fp.val
    rw [e1]
    have : (2 : ℝ) ^ (-149 + ((24 : Nat) : ℤ) - 1) ≤ 2 ^ (0 : ℤ) := zpow_le_zpow_right₀ one_le_two (by norm_num)
    nlinarith [mul_self_nonneg (Cf.unit : Cf .w32 (Fl L)).y.fp.val]

end Renplex
