import Verif.Props.IeeeComplex
import Mathlib.Analysis.Complex.ExponentialBounds
/-!
# Activations in `f32` and `f64`
-/

namespace Renplex
variable {w : Width} {L : Libm w.binary}

/-- A finite number between 0 and 1. -/
def Fl.Unit {B : Binary} {L : Libm B} (a : Fl L) : Prop := a.fp.Finite ∧ 0 ≤ a.fp.val ∧ a.fp.val ≤ 1

namespace Fl
variable {B : Binary} {L : Libm B}

theorem lit_int {n : Int} (h : |n| ≤ 2 ^ B.p) :
    (Scalar.lit n 1 : Fl L).fp.Finite ∧ (Scalar.lit n 1 : Fl L).fp.val = n := by
  have := C84_integers h
  change (Fp.ofReal ((n : ℝ) / ((1 : Nat) : ℝ)) : Fp B).Finite ∧ (Fp.ofReal ((n : ℝ) / ((1 : Nat) : ℝ)) : Fp B).val = n
  simpa using this

theorem one_spec : (Scalar.one : Fl L).fp.Finite ∧ (Scalar.one : Fl L).fp.val = 1 := by
  have := lit_int (L := L) (n := 1) (by rw [abs_one]; exact one_le_pow₀ one_le_two)
  exact ⟨this.1, this.2.trans (by norm_num)⟩

theorem round_one : B.round 1 = 1 := by
  have := (B.near_natCast (n := 1) Nat.one_le_two_pow)
  rw [B.round_of_nonneg zero_le_one]
  simpa using this

theorem unit_of_round {a : Fp B} {x : ℝ} (h : a.Finite ∧ a.val = B.round x) (h0 : 0 ≤ x) (h1 : x ≤ 1) :
    a.Finite ∧ 0 ≤ a.val ∧ a.val ≤ 1 := by
  refine ⟨h.1, ?_, ?_⟩
  · rw [h.2, ← B.round_zero]; exact B.round_mono h0
  · rw [h.2, ← round_one (B := B)]; exact B.round_mono h1

theorem lit_unit {n : Int} {d : Nat} (h0 : 0 ≤ n) (h1 : n ≤ d) : (Scalar.lit n d : Fl L).Unit := by
  have e0 : (0 : ℝ) ≤ (n : ℝ) / d := div_nonneg (by exact_mod_cast h0) (by positivity)
  have e1 : (n : ℝ) / d ≤ 1 := div_le_one_of_le₀ (by exact_mod_cast h1) (by positivity)
  exact unit_of_round (Fp.ofReal_spec (B.lt_top_of_small (by rwa [abs_of_nonneg e0]))) e0 e1

end Fl

/-- The real threshold of the sigmoid. -/
def sigT : Width → Int
  | .w32 => 15
  | .w64 => 30

/-- Bound on `exp` below the threshold, up to which the library must be accurate. -/
def sigE : Width → ℝ
  | .w32 => 2 ^ 22
  | .w64 => 2 ^ 44

theorem exp_sigT (w : Width) : Real.exp (sigT w) ≤ sigE w := by
  have h : Real.exp 1 ≤ 2.72 := Real.exp_one_lt_d9.le.trans (by norm_num)
  cases w
  · have e : Real.exp ((sigT .w32 : Int) : ℝ) = Real.exp 1 ^ 15 := by
      rw [← Real.exp_nat_mul]; norm_num [sigT]
    rw [e]
    calc Real.exp 1 ^ 15 ≤ 2.72 ^ 15 := pow_le_pow_left₀ (Real.exp_pos 1).le h _
      _ ≤ 2 ^ 22 := by norm_num
  · have e : Real.exp ((sigT .w64 : Int) : ℝ) = Real.exp 1 ^ 30 := by
      rw [← Real.exp_nat_mul]; norm_num [sigT]
    rw [e]
    calc Real.exp 1 ^ 30 ≤ 2.72 ^ 30 := pow_le_pow_left₀ (Real.exp_pos 1).le h _
      _ ≤ 2 ^ 44 := by norm_num

theorem sigE_le (w : Width) : 2 * sigE w + 3 ≤ 2 ^ (w.binary.p : ℤ) := by
  cases w <;> norm_num [sigE, Width.binary, binary32, binary64]

/-- C86. In `f32` and `f64` the sigmoid of every number that is not NaN, infinities included, is a
finite number between 0 and 1. -/
theorem C86_sigmoid (hL : L.Accurate) (hS : L.Standard) (hu : L.u * sigE w ≤ 1) {v : Fl L} (hv : v.fp ≠ .nan) :
    (Act.sigmoid w v).Unit := by
  have hT : (Act.sigThreshold w : Fl L).fp.Finite ∧ (Act.sigThreshold w : Fl L).fp.val = sigT w := by
    cases w
    · exact Fl.lit_int (by decide)
    · exact Fl.lit_int (by decide)
  obtain ⟨hN, hN'⟩ := Fp.neg_spec hT.1
  unfold Act.sigmoid
  split_ifs with h1 h2
  · cases w <;> exact Fl.lit_unit (by norm_num) (by norm_num)
  · cases w <;> exact Fl.lit_unit (by norm_num) (by norm_num)
  · have hf : v.fp.Finite := by
      cases hv' : v.fp with
      | nan => exact hv hv'
      | inf s =>
        exfalso
        cases s
        · refine h1 ?_
          change Fp.le _ v.fp = true
          rw [hv']
          cases hT' : (Act.sigThreshold w : Fl L).fp with
          | nan => have := hT.1; rw [hT'] at this; exact this.elim
          | inf s => have := hT.1; rw [hT'] at this; exact this.elim
          | num s m k hs => rfl
        · refine h2 ?_
          change Fp.le v.fp (Fp.neg (Act.sigThreshold w : Fl L).fp) = true
          rw [hv']
          cases hT' : (Act.sigThreshold w : Fl L).fp with
          | nan => have := hT.1; rw [hT'] at this; exact this.elim
          | inf s => have := hT.1; rw [hT'] at this; exact this.elim
          | num s m k hs => rfl
      | num s m k hs => trivial
    have h3 : v.fp.val < sigT w := by
      have := mt (Fp.le_spec hT.1 hf).mpr h1
      rw [hT.2] at this
      exact not_le.mp this
    have hE := Real.exp_pos v.fp.val
    have hE' : Real.exp v.fp.val ≤ sigE w := (Real.exp_le_exp.mpr h3.le).trans (exp_sigT w)
    have hu0 : 0 ≤ L.u := le_trans (by positivity) hL.u_ge
    obtain ⟨h4, h5⟩ := hL.exp hf (by
      rw [abs_of_pos hE]
      exact (mul_le_mul_of_nonneg_left hE' hu0).trans hu)
    have h6 := hS.exp_nonneg hf h4
    have h7 : (L.exp v.fp).val ≤ 2 * sigE w + 2 := by
      have := (abs_le.mp h5).2
      rw [abs_of_pos hE] at this
      have h1E : (1 : ℝ) ≤ sigE w := by cases w <;> norm_num [sigE]
      nlinarith
    have hone := Fl.one_spec (L := L)
    have hsum : 0 ≤ (Scalar.one : Fl L).fp.val + (L.exp v.fp).val := by rw [hone.2]; linarith
    obtain ⟨h8, h9⟩ := Fp.add_spec hone.1 h4 (by
      rw [abs_of_nonneg hsum, hone.2]
      exact w.binary.near_lt_top (by linarith) (by linarith [sigE_le w]))
    rw [hone.2] at h9
    have h10 : (L.exp v.fp).val ≤ w.binary.round (1 + (L.exp v.fp).val) := by
      rw [← w.binary.round_val h4]
      exact w.binary.round_mono (by rw [w.binary.round_val h4]; linarith)
    have h11 : 1 ≤ w.binary.round (1 + (L.exp v.fp).val) := by
      rw [← Fl.round_one (B := w.binary)]
      exact w.binary.round_mono (by rw [Fl.round_one]; linarith)
    have h12 : 0 ≤ (L.exp v.fp).val / w.binary.round (1 + (L.exp v.fp).val) := by positivity
    have h13 : (L.exp v.fp).val / w.binary.round (1 + (L.exp v.fp).val) ≤ 1 := by
      rw [div_le_one (by linarith)]; exact h10
    have h14 := Fp.div_spec h4 h8 (by rw [h9]; linarith) (by
      rw [h9]
      exact w.binary.lt_top_of_small (by rwa [abs_of_nonneg h12]))
    rw [h9] at h14
    exact Fl.unit_of_round h14 h12 h13

/-- C86. So is its derivative. -/
theorem C86_dSigmoid (hL : L.Accurate) (hS : L.Standard) (hu : L.u * sigE w ≤ 1) {v : Fl L} (hv : v.fp ≠ .nan) :
    (Act.dSigmoid w v).Unit := by
  obtain ⟨h1, h2, h3⟩ := C86_sigmoid hL hS hu hv
  have hone := Fl.one_spec (L := L)
  have e0 : 0 ≤ (Scalar.one : Fl L).fp.val - (Act.sigmoid w v).fp.val := by rw [hone.2]; linarith
  have e1 : (Scalar.one : Fl L).fp.val - (Act.sigmoid w v).fp.val ≤ 1 := by rw [hone.2]; linarith
  obtain ⟨h4, h5, h6⟩ := Fl.unit_of_round (Fp.sub_spec hone.1 h1
    (w.binary.lt_top_of_small (by rwa [abs_of_nonneg e0]))) e0 e1
  have e2 := mul_nonneg h2 h5
  have e3 := mul_le_one₀ h3 h5 h6
  exact Fl.unit_of_round (Fp.mul_spec h1 h4 (w.binary.lt_top_of_small ((abs_of_nonneg e2).le.trans e3))) e2 e3

/-! ## NaN -/

section nan
variable {B : Binary} {w : Width} {L : Libm B}

theorem Fp.nan_add (a : Fp B) : Fp.nan.add a = .nan := rfl
theorem Fp.add_nan (a : Fp B) : a.add .nan = .nan := by cases a <;> rfl
theorem Fp.nan_sub (a : Fp B) : Fp.nan.sub a = .nan := rfl
theorem Fp.sub_nan (a : Fp B) : a.sub .nan = .nan := by cases a <;> rfl
theorem Fp.nan_mul (a : Fp B) : Fp.nan.mul a = .nan := rfl
theorem Fp.mul_nan (a : Fp B) : a.mul .nan = .nan := by cases a <;> rfl
theorem Fp.nan_div (a : Fp B) : Fp.nan.div a = .nan := rfl
theorem Fp.div_nan (a : Fp B) : a.div .nan = .nan := by cases a <;> rfl

/-- Both parts are NaN. -/
def Cf.IsNan (z : Cf w (Fl L)) : Prop := z.x.fp = .nan ∧ z.y.fp = .nan

/-- Both parts are (plus or minus) zero. -/
def Cf.IsZero (z : Cf w (Fl L)) : Prop := (∃ s, z.x.fp = .zero s) ∧ ∃ s, z.y.fp = .zero s

theorem Fp.zero_div_zero (s t : Bool) : (Fp.zero s : Fp B).div (.zero t) = .nan := by
  simp [Fp.zero, Fp.div]

theorem Fp.ofAbs_zero (s : Bool) : (Fp.ofAbs s 0 : Fp B) = .zero s := by
  obtain ⟨m, k, hs, e, hv⟩ := Fp.ofAbs_num (B := B) le_rfl (by
    rw [B.near_zero, Binary.top]; positivity) s
  rw [B.near_zero] at hv
  have hm : m = 0 := by
    rcases mul_eq_zero.mp hv with h | h
    · exact_mod_cast h
    · exact absurd h (by positivity)
  subst hm
  obtain rfl : k = B.kmin := hs.2.2.2.resolve_left (by simp)
  exact e

theorem Fp.zero_mul_zero (s t : Bool) : (Fp.zero s : Fp B).mul (.zero t) = .zero (s ^^ t) := by
  change Fp.ofAbs (s ^^ t) |(Fp.zero s : Fp B).val * (Fp.zero t : Fp B).val| = _
  rw [Fp.zero_val, Fp.zero_val, mul_zero, abs_zero, Fp.ofAbs_zero]

theorem Fp.zero_add_zero (s t : Bool) : (Fp.zero s : Fp B).add (.zero t) = .zero (s && t) := by
  change (if (Fp.zero s : Fp B).val + (Fp.zero t : Fp B).val = 0 then Fp.zero (s && t) else _) = _
  rw [if_pos]
  rw [Fp.zero_val, Fp.zero_val, add_zero]

theorem Fp.sqrt_zero (s : Bool) : (Fp.zero s : Fp B).sqrt = .zero s := rfl

/-- C86. In `f64` Cardioid of zero is NaN: the phase is computed from the quotient of the parts. -/
theorem C86_refuted_cardioid (hS : L.Standard) {z : Cf .w64 (Fl L)} (hz : z.IsZero) : (Act.card z).IsNan := by
  obtain ⟨⟨s, hs⟩, t, ht⟩ := hz
  have hp : z.phase.fp = .nan := by
    change L.atan (z.y.fp.div z.x.fp) = _
    rw [hs, ht, Fp.zero_div_zero, hS.atan_nan]
  constructor
  · change (((Fp.mul _ ((Scalar.one : Fl L).fp.add (L.cos z.phase.fp))).mul (L.cos z.phase.fp))) = _
    rw [hp, hS.cos_nan, Fp.mul_nan]
  · change (((Fp.mul _ ((Scalar.one : Fl L).fp.add (L.cos z.phase.fp))).mul (L.sin z.phase.fp))) = _
    rw [hp, hS.sin_nan, Fp.mul_nan]

/-- C86. In `f32` Cardioid of (plus) zero is fine, but both of its derivatives are NaN there: they
divide zero by the norm. -/
theorem C86_refuted_cardioid_derivatives (hS : L.Standard) {z : Cf .w32 (Fl L)} {s : Bool}
    (hx : z.x.fp = .zero false) (hy : z.y.fp = .zero s) :
    (Act.dCard z).IsNan ∧ (Act.dConjCard z).IsNan := by
  have hp : z.phase.fp = .zero s := by
    change L.atan2 z.y.fp z.x.fp = _
    rw [hx, hy, hS.atan2_zero]
  have hn : z.norm.fp = .zero false := by
    change (Fp.add (z.x.fp.mul z.x.fp) (z.y.fp.mul z.y.fp)).sqrt = _
    rw [hx, hy, Fp.zero_mul_zero, Fp.zero_mul_zero, Fp.zero_add_zero, Bool.xor_self, Bool.xor_self,
      Bool.and_self, Fp.sqrt_zero]
  have hf : (L.sin z.phase.fp).div z.norm.fp = .nan := by
    rw [hp, hn, hS.sin_zero, Fp.zero_div_zero]
  have h1 : (Act.cardDfdx z).IsNan := by
    constructor
    · change Fp.mul (Fp.mul _ ((L.sin z.phase.fp).div z.norm.fp)) _ = _
      rw [hf, Fp.mul_nan, Fp.nan_mul]
    · change Fp.mul (Fp.mul _ ((L.sin z.phase.fp).div z.norm.fp)) _ = _
      rw [hf, Fp.mul_nan, Fp.nan_mul]
  refine ⟨⟨?_, ?_⟩, ?_, ?_⟩
  · change (Act.cardDfdx z).x.fp.sub _ = _
    rw [h1.1, Fp.nan_sub]
  · change (Act.cardDfdx z).y.fp.sub _ = _
    rw [h1.2, Fp.nan_sub]
  · change (Act.cardDfdx z).x.fp.add _ = _
    rw [h1.1, Fp.nan_add]
  · change (Act.cardDfdx z).y.fp.add _ = _
    rw [h1.2, Fp.nan_add]

end nan

/-! ## Non-vacuity -/

theorem Libm.rounded_sig (w : Width) : (Libm.rounded w.binary).u * sigE w ≤ 1 := by
  change (2 : ℝ) ^ (-(w.binary.p : ℤ)) * sigE w ≤ 1
  cases w <;> norm_num [sigE, Width.binary, binary32, binary64]

/-- The sigmoid of both infinities on correctly rounding platforms. -/
example (w : Width) (s : Bool) : (Act.sigmoid w (⟨.inf s⟩ : Fl (Libm.rounded w.binary))).Unit :=
  C86_sigmoid (Libm.rounded_accurate _) (Libm.rounded_standard _) (Libm.rounded_sig w) (by simp)

/-- Cardioid of zero on such a platform. -/
example : (Act.card (⟨⟨.zero false⟩, ⟨.zero false⟩⟩ : Cf .w64 (Fl (Libm.rounded binary64)))).IsNan :=
  C86_refuted_cardioid (Libm.rounded_standard _) ⟨⟨_, rfl⟩, _, rfl⟩

end Renplex
