import Verif.Props.Nan
import Verif.Props.Init
/-!
# Initial weights in `f32` and `f64`
-/

namespace Renplex
open Rng
variable {B : Binary} {L : Libm B}

/-! ## Bounds by powers of two -/

/-- Finite and at most `2 ^ k`. -/
def Fl.Le (a : Fl L) (k : ℤ) : Prop := a.fp.Finite ∧ |a.fp.val| ≤ 2 ^ k

namespace Binary

theorem round_two_pow {k : ℤ} (h1 : B.kmin ≤ k - (B.p - 1)) (h2 : k - (B.p - 1) ≤ B.kmax) :
    B.round (2 ^ k) = 2 ^ k := by
  have h0 : (0 : ℝ) ≤ 2 ^ k := by positivity
  rw [B.round_of_nonneg h0, B.near_two_pow h1 h2]

theorem round_le {x : ℝ} {k : ℤ} (h0 : 0 ≤ k) (hk : k ≤ B.kmax) (h : |x| ≤ 2 ^ k) :
    B.near |x| < B.top ∧ |B.round x| ≤ 2 ^ k := by
  have := B.small; have := B.digits
  have h1 : B.near |x| ≤ 2 ^ k := by
    rw [← B.near_two_pow (k := k) (by omega) (by omega)]
    exact B.near_mono (abs_nonneg x) h
  exact ⟨h1.trans_lt (zpow_lt_zpow_right₀ one_lt_two (by omega)), by rwa [B.abs_round]⟩

theorem round_nonneg {x : ℝ} (h : 0 ≤ x) : 0 ≤ B.round x := by
  rw [B.round_of_nonneg h]
  exact B.near_nonneg x

end Binary

namespace Fl

theorem Le.mono {a : Fl L} {k l : ℤ} (h : a.Le k) (hkl : k ≤ l) : a.Le l :=
  ⟨h.1, h.2.trans (zpow_le_zpow_right₀ one_le_two hkl)⟩

theorem ofReal_le {x : ℝ} {k : ℤ} (h0 : 0 ≤ k) (hk : k ≤ B.kmax) (h : |x| ≤ 2 ^ k) :
    (⟨.ofReal x⟩ : Fl L).Le k := by
  obtain ⟨h1, h2⟩ := B.round_le h0 hk h
  obtain ⟨h3, h4⟩ := Fp.ofReal_spec h1
  exact ⟨h3, by rwa [h4]⟩

theorem Le.mul {a b : Fl L} {k l : ℤ} (ha : a.Le k) (hb : b.Le l) (h0 : 0 ≤ k + l) (hk : k + l ≤ B.kmax) :
    (Scalar.mul a b).Le (k + l) := by
  have h : |a.fp.val * b.fp.val| ≤ 2 ^ (k + l) := by
    rw [abs_mul, zpow_add₀ two_ne_zero]
    exact mul_le_mul ha.2 hb.2 (abs_nonneg _) (by positivity)
  obtain ⟨h1, h2⟩ := B.round_le h0 hk h
  obtain ⟨h3, h4⟩ := Fp.mul_spec ha.1 hb.1 h1
  refine ⟨h3, ?_⟩
  change |(a.fp.mul b.fp).val| ≤ _
  rwa [h4]

theorem Le.sub {a b : Fl L} {k : ℤ} (ha : a.Le k) (hb : b.Le k) (h0 : 0 ≤ k) (hk : k + 1 ≤ B.kmax) :
    (Scalar.sub a b).Le (k + 1) := by
  have h : |a.fp.val - b.fp.val| ≤ 2 ^ (k + 1) := by
    rw [zpow_add_one₀ two_ne_zero]
    have := abs_sub (a.fp.val) b.fp.val
    have := ha.2
    have := hb.2
    linarith
  obtain ⟨h1, h2⟩ := B.round_le (by omega) hk h
  obtain ⟨h3, h4⟩ := Fp.sub_spec ha.1 hb.1 h1
  refine ⟨h3, ?_⟩
  change |(a.fp.sub b.fp).val| ≤ _
  rwa [h4]

theorem Le.add {a b : Fl L} {k : ℤ} (ha : a.Le k) (hb : b.Le k) (h0 : 0 ≤ k) (hk : k + 1 ≤ B.kmax) :
    (Scalar.add a b).Le (k + 1) := by
  have h : |a.fp.val + b.fp.val| ≤ 2 ^ (k + 1) := by
    rw [zpow_add_one₀ two_ne_zero]
    have := abs_add_le (a.fp.val) b.fp.val
    have := ha.2
    have := hb.2
    linarith
  obtain ⟨h1, h2⟩ := B.round_le (by omega) hk h
  obtain ⟨h3, h4⟩ := Fp.add_spec ha.1 hb.1 h1
  refine ⟨h3, ?_⟩
  change |(a.fp.add b.fp).val| ≤ _
  rwa [h4]

theorem Le.sqrt {a : Fl L} {k : ℤ} (ha : a.Le (2 * k)) (hn : 0 ≤ a.fp.val) (h0 : 0 ≤ k) (hk : k ≤ B.kmax) :
    (Scalar.sqrt a).Le k := by
  have h : |Real.sqrt a.fp.val| ≤ 2 ^ k := by
    rw [abs_of_nonneg (Real.sqrt_nonneg _)]
    refine Real.sqrt_le_iff.mpr ⟨by positivity, ?_⟩
    have := (le_abs_self _).trans ha.2
    rwa [mul_comm, zpow_mul, zpow_ofNat] at this
  obtain ⟨h1, h2⟩ := B.round_le h0 hk h
  rw [abs_of_nonneg (Real.sqrt_nonneg _)] at h1
  obtain ⟨h3, h4⟩ := Fp.sqrt_spec ha.1 hn h1
  refine ⟨h3, ?_⟩
  change |a.fp.sqrt.val| ≤ _
  rwa [h4]

theorem ofNat_le {n : Nat} {k : Nat} (hk : (k : ℤ) ≤ B.kmax) (h : n ≤ 2 ^ k) :
    (Scalar.ofNat n : Fl L).Le k := by
  refine ofReal_le (by omega) hk ?_
  rw [abs_of_nonneg (by positivity), zpow_natCast]
  exact_mod_cast h

theorem one_le_ofNat {n k : Nat} (hk : (k : ℤ) ≤ B.kmax) (h : n ≤ 2 ^ k) (h1 : 1 ≤ n) :
    1 ≤ (Scalar.ofNat n : Fl L).fp.val := by
  have e : |(n : ℝ)| ≤ 2 ^ (k : ℤ) := by
    rw [abs_of_nonneg (by positivity), zpow_natCast]
    exact_mod_cast h
  change 1 ≤ (Fp.ofReal (n : ℝ) : Fp B).val
  rw [(Fp.ofReal_spec (B.round_le (by omega) hk e).1).2, ← round_one (B := B)]
  exact B.round_mono (by exact_mod_cast h1)

theorem lit_le {n : Int} {k : Nat} (hk : (k : ℤ) ≤ B.kmax) (h : |n| ≤ 2 ^ k) : (Scalar.lit n 1 : Fl L).Le k := by
  refine ofReal_le (by omega) hk ?_
  rw [Nat.cast_one, div_one, zpow_natCast]
  exact_mod_cast h

/-- Quotient by a number from 1 on. -/
theorem Le.div {a b : Fl L} {k : ℤ} (ha : a.Le k) (hb : b.fp.Finite) (h1 : 1 ≤ b.fp.val) (h0 : 0 ≤ k)
    (hk : k ≤ B.kmax) : (Scalar.div a b).Le k ∧ (0 ≤ a.fp.val → 0 ≤ (Scalar.div a b).fp.val) := by
  have h : |a.fp.val / b.fp.val| ≤ 2 ^ k := by
    rw [abs_div]
    exact (div_le_self (abs_nonneg _) (h1.trans (le_abs_self _))).trans ha.2
  obtain ⟨h1', h2⟩ := B.round_le h0 hk h
  obtain ⟨h3, h4⟩ := Fp.div_spec ha.1 hb (by linarith) h1'
  refine ⟨⟨h3, ?_⟩, fun hn => ?_⟩
  · change |(a.fp.div b.fp).val| ≤ _
    rwa [h4]
  · change 0 ≤ (a.fp.div b.fp).val
    rw [h4]
    exact B.round_nonneg (div_nonneg hn (by linarith))

theorem mul_nonneg {a b : Fl L} {k l : ℤ} (ha : a.Le k) (hb : b.Le l) (h0 : 0 ≤ k + l) (hk : k + l ≤ B.kmax)
    (h : 0 ≤ a.fp.val * b.fp.val) : 0 ≤ (Scalar.mul a b).fp.val := by
  have h' : |a.fp.val * b.fp.val| ≤ 2 ^ (k + l) := by
    rw [abs_mul, zpow_add₀ two_ne_zero]
    exact mul_le_mul ha.2 hb.2 (abs_nonneg _) (by positivity)
  change 0 ≤ (a.fp.mul b.fp).val
  rw [(Fp.mul_spec ha.1 hb.1 (B.round_le h0 hk h').1).2]
  exact B.round_nonneg h

end Fl

/-! ## The draws -/

/-- A draw of the generator from its new state. -/
noncomputable def drawOf (L : Libm B) (s : Nat) : Fl L := Scalar.div (Scalar.ofNat s) (Scalar.ofNat (2 ^ 31))

theorem lcgf_ieee (seed : Nat) (h : 1103515245 * seed + 12345 < 2 ^ 128) :
    lcgf (R := Fl L) seed = some (drawOf L (lcgNext seed), lcgNext seed) := by
  unfold lcgf
  rw [step_eq seed h]
  rfl

/-- Draws are at most 1, and positive unless the state is zero. -/
theorem drawOf_bounds (hB : 31 ≤ B.kmax) (hp : (B.kmin : ℤ) ≤ -31 - (B.p - 1)) {s : Nat} (hs : s ≤ 2 ^ 31) :
    (drawOf L s).Le 0 ∧ 0 ≤ (drawOf L s).fp.val
      ∧ (s ≠ 0 → 2 ^ (-31 : ℤ) ≤ (drawOf L s).fp.val) ∧ (drawOf L s).fp.val ≤ 1 := by
  have := B.small; have := B.digits
  have hm := Fl.ofNat_le (L := L) (n := 2 ^ 31) (k := 31) hB le_rfl
  have hmv : (Scalar.ofNat (2 ^ 31) : Fl L).fp.val = 2 ^ (31 : ℤ) := by
    change (Fp.ofReal ((2 ^ 31 : Nat) : ℝ) : Fp B).val = _
    rw [show (((2 ^ 31 : Nat) : ℝ)) = 2 ^ (31 : ℤ) by norm_num]
    rw [(Fp.ofReal_spec (B.round_le (k := 31) (by norm_num) hB (by rw [abs_of_nonneg (by positivity)])).1).2,
      B.round_two_pow (by omega) (by omega)]
  have hs' := Fl.ofNat_le (L := L) (n := s) (k := 31) hB hs
  have hr : (s : ℝ) ≤ 2 ^ (31 : ℤ) := by
    rw [show (2 : ℝ) ^ (31 : ℤ) = ((2 ^ 31 : Nat) : ℝ) by norm_num]
    exact_mod_cast hs
  have hsv : (Scalar.ofNat s : Fl L).fp.val = B.round s := by
    change (Fp.ofReal (s : ℝ) : Fp B).val = _
    exact (Fp.ofReal_spec (B.round_le (k := 31) (by norm_num) hB (by rwa [abs_of_nonneg (by positivity)])).1).2
  have h0 : 0 ≤ (Scalar.ofNat s : Fl L).fp.val := by rw [hsv]; exact B.round_nonneg (by positivity)
  have h1 : (Scalar.ofNat s : Fl L).fp.val ≤ 2 ^ (31 : ℤ) := (le_abs_self _).trans hs'.2
  have hq0 : 0 ≤ (Scalar.ofNat s : Fl L).fp.val / (Scalar.ofNat (2 ^ 31) : Fl L).fp.val :=
    div_nonneg h0 (by rw [hmv]; positivity)
  have hq1 : (Scalar.ofNat s : Fl L).fp.val / (Scalar.ofNat (2 ^ 31) : Fl L).fp.val ≤ 1 := by
    rw [hmv]
    exact div_le_one_of_le₀ h1 (by positivity)
  obtain ⟨h3, h4⟩ := B.round_le (k := 0) le_rfl (by omega) (show |_| ≤ (2 : ℝ) ^ (0 : ℤ) by
    rw [abs_of_nonneg hq0, zpow_zero]; exact hq1)
  obtain ⟨h5, h6⟩ := Fp.div_spec hs'.1 hm.1 (by rw [hmv]; positivity) h3
  have h6' : (drawOf L s).fp.val
      = B.round ((Scalar.ofNat s : Fl L).fp.val / (Scalar.ofNat (2 ^ 31) : Fl L).fp.val) := h6
  have hle : |(drawOf L s).fp.val| ≤ 2 ^ (0 : ℤ) := by rwa [h6']
  refine ⟨⟨h5, hle⟩, ?_, fun hne => ?_, ?_⟩
  · rw [h6']
    exact B.round_nonneg hq0
  · rw [h6', ← B.round_two_pow (k := -31) (by omega) (by omega)]
    refine B.round_mono ?_
    rw [hmv, le_div_iff₀ (by positivity), hsv, ← zpow_add₀ two_ne_zero]
    norm_num
    rw [← Fl.round_one (B := B)]
    exact B.round_mono (by exact_mod_cast Nat.one_le_iff_ne_zero.mpr hne)
  · rw [zpow_zero] at hle
    exact (le_abs_self _).trans hle

/-! ## The weights -/

theorem Fl.lib_le {L : Libm B} {c : Fp B} {x : ℝ} (h : L.Acc c x) {k : ℤ} (hu : L.u * (1 + |x|) ≤ 1)
    (hu0 : 0 ≤ L.u) (hk : |x| + 1 ≤ 2 ^ k) : (⟨c⟩ : Fl L).Le k := by
  obtain ⟨h1, h2⟩ := h (by nlinarith)
  refine ⟨h1, ?_⟩
  have : |c.val| ≤ |c.val - x| + |x| := by
    have := abs_add_le (c.val - x) x
    rwa [sub_add_cancel] at this
  change |c.val| ≤ _
  linarith

section
variable (hB : 100 ≤ B.kmax) (hp : (B.kmin : ℤ) ≤ -31 - (B.p - 1)) (hL : L.Accurate) (hu : L.u ≤ 1 / 32)
include hB hp hL hu

theorem angle_le {s : Nat} (hs : s ≤ 2 ^ 31) : (Gen.angle (drawOf L s)).Le 3 := by
  have h1 := (drawOf_bounds (L := L) (by omega) hp hs).1
  have h2 : (Scalar.two : Fl L).Le 1 := Fl.lit_le (k := 1) (by omega) (by decide)
  have h3 : (Scalar.pi : Fl L).Le 2 := Fl.ofReal_le (by omega) (by omega) (by
    rw [abs_of_nonneg Real.pi_pos.le]
    exact Real.pi_le_four.trans (by norm_num))
  exact ((h2.mul h1 (by omega) (by omega)).mul h3 (by omega) (by omega)).mono (by omega)

theorem trig_le {s : Nat} (hs : s ≤ 2 ^ 31) :
    (Scalar.cos (Gen.angle (drawOf L s))).Le 1 ∧ (Scalar.sin (Gen.angle (drawOf L s))).Le 1 := by
  have hu0 : 0 ≤ L.u := (show (0 : ℝ) ≤ 2 ^ (-(B.p : ℤ)) by positivity).trans hL.u_ge
  obtain ⟨h1, h2⟩ := angle_le hB hp hL hu hs
  have h3 : L.u * |(Gen.angle (drawOf L s)).fp.val| ≤ 1 := by
    norm_num at h2
    nlinarith [abs_nonneg (Gen.angle (drawOf L s)).fp.val]
  constructor
  · have h4 := Real.abs_cos_le_one (Gen.angle (drawOf L s)).fp.val
    exact Fl.lib_le (hL.cos h1 h3) (by nlinarith) hu0 (by norm_num; linarith)
  · have h4 := Real.abs_sin_le_one (Gen.angle (drawOf L s)).fp.val
    exact Fl.lib_le (hL.sin h1 h3) (by nlinarith) hu0 (by norm_num; linarith)

theorem polar_le {w : Width} {r : Fl L} {k : ℤ} (h0 : 0 ≤ k) (hk : k + 1 ≤ B.kmax) (hr : r.Le k) {s : Nat}
    (hs : s ≤ 2 ^ 31) :
    (Gen.polar r (Gen.angle (drawOf L s)) : Cf w (Fl L)).x.Le (k + 1)
      ∧ (Gen.polar r (Gen.angle (drawOf L s)) : Cf w (Fl L)).y.Le (k + 1) := by
  obtain ⟨h1, h2⟩ := trig_le hB hp hL hu hs
  exact ⟨hr.mul h1 (by omega) hk, hr.mul h2 (by omega) hk⟩

theorem log_le (hS : L.Standard) {s : Nat} (hs : s ≤ 2 ^ 31) (h0 : s ≠ 0) :
    (Scalar.sqrt (Scalar.mul (Scalar.lit (-2) 1) (Scalar.ln (drawOf L s)))).Le 3 := by
  have hu0 : 0 ≤ L.u := (show (0 : ℝ) ≤ 2 ^ (-(B.p : ℤ)) by positivity).trans hL.u_ge
  obtain ⟨h1, -, h3, h4⟩ := drawOf_bounds (L := L) (by omega) hp hs
  have h5 := h3 h0
  have hpos : 0 < (drawOf L s).fp.val := lt_of_lt_of_le (by positivity) h5
  have h6 : |Real.log (drawOf L s).fp.val| ≤ 22 := by
    rw [abs_of_nonpos (Real.log_nonpos hpos.le h4)]
    have : Real.log (2 ^ (-31 : ℤ)) ≤ Real.log (drawOf L s).fp.val := Real.log_le_log (by positivity) h5
    rw [Real.log_zpow] at this
    have h7 := Real.log_two_lt_d9
    push_cast at this
    linarith
  have h8 : (Scalar.ln (drawOf L s)).Le 5 :=
    Fl.lib_le (hL.ln h1.1 hpos) (by nlinarith) hu0 (by norm_num; linarith)
  have h9 : (Scalar.lit (-2) 1 : Fl L).Le 1 := Fl.lit_le (k := 1) (by omega) (by decide)
  have h10 : (Scalar.lit (-2) 1 : Fl L).fp.val = -2 := by
    have := (Fl.lit_int (L := L) (n := -2) (by
      calc |(-2 : ℤ)| = 2 ^ 1 := rfl
        _ ≤ 2 ^ B.p := pow_le_pow_right₀ (by norm_num) (by have := B.digits; omega))).2
    exact_mod_cast this
  have h11 : (Scalar.ln (drawOf L s)).fp.val ≤ 0 := hS.ln_nonpos h1.1 h4
  have h12 := h9.mul h8 (by omega) (by omega)
  exact (h12.mono (l := 2 * 3) (by omega)).sqrt (Fl.mul_nonneg h9 h8 (by omega) (by omega) (by
    rw [h10]; nlinarith)) (by omega) (by omega)

omit hp hL hu in
theorem unitsRoot_le {c j : Nat} (hj : j ≤ 100) (hc : c ≤ 2 ^ j) {n : Nat} (h1 : 1 ≤ n) (hn : n ≤ 2 ^ 64) :
    (Scalar.div (Scalar.lit c 1) (Scalar.ofNat n) : Fl L).Le j
      ∧ 0 ≤ (Scalar.div (Scalar.lit c 1) (Scalar.ofNat n) : Fl L).fp.val := by
  have h2 : (Scalar.lit (c : Int) 1 : Fl L).Le j := Fl.lit_le (by omega) (by
    rw [abs_of_nonneg (by positivity)]
    exact_mod_cast hc)
  have h0 : 0 ≤ (Scalar.lit (c : Int) 1 : Fl L).fp.val := by
    change 0 ≤ (Fp.ofReal (((c : Int) : ℝ) / ((1 : Nat) : ℝ)) : Fp B).val
    have hx : |((c : Int) : ℝ) / ((1 : Nat) : ℝ)| ≤ 2 ^ (j : ℤ) := by
      rw [Nat.cast_one, div_one, abs_of_nonneg (by positivity), zpow_natCast]
      exact_mod_cast hc
    rw [(Fp.ofReal_spec (B.round_le (by omega) (by omega) hx).1).2]
    exact B.round_nonneg (by positivity)
  obtain ⟨h3, h4⟩ := h2.div (Fl.ofNat_le (k := 64) (by omega) hn).1
    (Fl.one_le_ofNat (L := L) (k := 64) (by omega) hn h1) (by omega) (by omega)
  exact ⟨h3, h4 h0⟩

end

/-- Units at least 1; units and scale not above `usize::MAX + 1`. -/
def InitMethod.Sane : InitMethod → Prop
  | .uniform scale => scale ≤ 2 ^ 64
  | .xavierGlorotU n | .xavierGlorotN n | .xavier n | .heInit n => 1 ≤ n ∧ n ≤ 2 ^ 64

/-- The methods that draw from a normal distribution. -/
def InitMethod.Normal : InitMethod → Prop
  | .xavierGlorotN _ | .heInit _ => True
  | _ => False

theorem Width.binary_range (w : Width) : 100 ≤ w.binary.kmax ∧ w.binary.kmin ≤ -31 - ((w.binary.p : ℤ) - 1) := by
  cases w <;> exact ⟨by decide, by decide⟩

/-- C88. In `f32` and `f64` every initialiser draws a finite weight unless it is a normal one and the
first draw is zero. -/
theorem C88_finite_partial {w : Width} {L : Libm w.binary} (hL : L.Accurate) (hS : L.Standard) (hu : L.u ≤ 1 / 32)
    {method : InitMethod} (hm : method.Sane) {seed : Nat} (h : 1103515245 * seed + 12345 < 2 ^ 128)
    (h0 : method.Normal → lcgNext seed ≠ 0) :
    ∃ (z : Cf w (Fl L)) (s : Nat), GenOps.gen method seed = some (z, s) ∧ s < 2 ^ 31 - 1 ∧ z.Finite := by
  obtain ⟨hB, hp⟩ := w.binary_range
  have b1 : lcgNext seed ≤ 2 ^ 31 := by have := lcgNext_lt seed; omega
  have b2 : lcgNext (lcgNext seed) ≤ 2 ^ 31 := by have := lcgNext_lt (lcgNext seed); omega
  have b3 : lcgNext (lcgNext (lcgNext seed)) ≤ 2 ^ 31 := by have := lcgNext_lt (lcgNext (lcgNext seed)); omega
  have h2 := fits_of_lt (lcgNext_lt seed)
  have h3 := fits_of_lt (lcgNext_lt (lcgNext seed))
  have two : (Scalar.two : Fl L).Le 1 := Fl.lit_le (k := 1) (by omega) (by decide)
  have d1 := (drawOf_bounds (L := L) (by omega) hp b1).1
  have fin : ∀ {r : Fl L} {k : ℤ}, 0 ≤ k → k + 1 ≤ w.binary.kmax → r.Le k → ∀ {s : Nat}, s ≤ 2 ^ 31 →
      (Gen.polar r (Gen.angle (drawOf L s)) : Cf w (Fl L)).Finite := by
    intro r k h0 hk hr s hs
    have g := polar_le (w := w) hB hp hL hu h0 hk hr hs
    exact ⟨g.1.1, g.2.1⟩
  have normal : ∀ n : Nat, 1 ≤ n ∧ n ≤ 2 ^ 64 → lcgNext seed ≠ 0 →
      ∃ (z : Cf w (Fl L)) (s : Nat), Gen.genNormal seed n = some (z, s) ∧ s < 2 ^ 31 - 1 ∧ z.Finite := by
    rintro n ⟨hn1, hn2⟩ h0
    unfold Gen.genNormal
    rw [lcgf_ieee seed h]
    simp only [Option.bind_eq_bind, Option.bind_some]
    rw [lcgf_ieee _ h2]
    simp only [Option.bind_some]
    rw [lcgf_ieee _ h3]
    refine ⟨_, _, rfl, lcgNext_lt _, ?_⟩
    obtain ⟨g1, g2⟩ := unitsRoot_le (L := L) hB (c := 2) (j := 4) (by omega) (by omega) hn1 hn2
    have g3 := (g1.mono (l := 2 * 2) (by omega)).sqrt g2 (by omega) (by omega)
    have g4 := ((log_le hB hp hL hu hS b1 h0).mul (trig_le hB hp hL hu b2).1 (by omega) (by omega)).mul g3
      (by omega) (by omega)
    have g5 := polar_le (w := w) hB hp hL hu (by omega) (by omega) g4 b3
    exact ⟨g5.1.1, g5.2.1⟩
  have scaled : ∀ ρ : Fl L, ρ.Le 2 → ∃ (z : Cf w (Fl L)) (s : Nat), Gen.genScaled seed ρ = some (z, s) ∧ s < 2 ^ 31 - 1 ∧ z.Finite := by
    intro ρ hρ
    unfold Gen.genScaled
    rw [lcgf_ieee seed h]
    simp only [Option.bind_eq_bind, Option.bind_some]
    rw [lcgf_ieee _ h2]
    refine ⟨_, _, rfl, lcgNext_lt _, ?_⟩
    refine fin (k := 4) (by omega) (by omega) ?_ b2
    cases w
    · exact (d1.mul hρ (by omega) (by omega)).mono (by omega)
    · exact (((two.mul d1 (by omega) (by omega)).mul hρ (by omega) (by omega)).sub (hρ.mono (by omega)) (by omega)
        (by omega)).mono (by omega)
  cases method with
  | uniform scale =>
    simp only [GenOps.gen, Gen.gen]
    rw [lcgf_ieee seed h]
    simp only [Option.bind_eq_bind, Option.bind_some]
    rw [lcgf_ieee _ h2]
    refine ⟨_, _, rfl, lcgNext_lt _, ?_⟩
    have hsc : (Scalar.ofNat scale : Fl L).Le 64 := Fl.ofNat_le (k := 64) (by omega) hm
    refine fin (k := 66) (by omega) (by omega) ?_ b2
    cases w
    · exact (hsc.mul d1 (by omega) (by omega)).mono (by omega)
    · exact (((two.mul hsc (by omega) (by omega)).mul d1 (by omega) (by omega)).sub (hsc.mono (by omega)) (by omega)
        (by omega)).mono (by omega)
  | xavierGlorotU n =>
    simp only [InitMethod.Sane] at hm
    obtain ⟨g1, g2⟩ := unitsRoot_le (L := L) hB (c := 6) (j := 4) (by omega) (by omega) hm.1 hm.2
    simp only [GenOps.gen, Gen.genXagu]
    exact scaled _ ((g1.mono (l := 2 * 2) (by omega)).sqrt g2 (by omega) (by omega))
  | xavierGlorotN n =>
    simp only [InitMethod.Sane] at hm
    exact normal n hm (h0 trivial)
  | xavier n =>
    simp only [InitMethod.Sane] at hm
    obtain ⟨g1, g2⟩ := unitsRoot_le (L := L) hB (c := 1) (j := 0) (by omega) (by omega) hm.1 hm.2
    have g3 : (Scalar.lit 12 1 : Fl L).Le 4 := Fl.lit_le (k := 4) (by omega) (by decide)
    have g4 : (Scalar.lit 12 1 : Fl L).fp.val = 12 := by
      have := (Fl.lit_int (L := L) (n := 12) (by cases w <;> decide)).2
      exact_mod_cast this
    simp only [GenOps.gen, Gen.genXa]
    exact scaled _ ((((g1.mul g3 (by omega) (by omega))).mono (l := 2 * 2) (by omega)).sqrt
      (Fl.mul_nonneg g1 g3 (by omega) (by omega) (by rw [g4]; exact mul_nonneg g2 (by norm_num))) (by omega) (by omega))
  | heInit n =>
    simp only [InitMethod.Sane] at hm
    exact normal n hm (h0 trivial)

/-- C88. So all weights of a layer drawn by `Uniform`, `Xavier` or `XavierGlorotU` are finite. -/
theorem C88_layer {w : Width} {L : Libm w.binary} (hL : L.Accurate) (hS : L.Standard) (hu : L.u ≤ 1 / 32)
    {method : InitMethod} (hm : method.Sane) (hn : ¬ method.Normal) (n : Nat) {seed : Nat}
    (h : 1103515245 * seed + 12345 < 2 ^ 128) :
    ∃ (zs : List (Cf w (Fl L))) (s : Nat), genMany method n seed = some (zs, s) ∧ zs.length = n ∧ ∀ z ∈ zs, z.Finite := by
  induction n generalizing seed with
  | zero => exact ⟨[], seed, rfl, rfl, by simp⟩
  | succ n ih =>
    obtain ⟨z, s, h1, h2, h3⟩ := C88_finite_partial hL hS hu hm h (fun e => absurd e hn)
    obtain ⟨zs, t, h4, h5, h6⟩ := ih (fits_of_lt h2)
    refine ⟨z :: zs, t, ?_, by simp [h5], by simpa using ⟨h3, h6⟩⟩
    simp [genMany, h1, h4]

/-! ## When they are not finite -/

namespace Fp

theorem mul_nf_left {a : Fp B} (h : ¬ a.Finite) (b : Fp B) : ¬ (a.mul b).Finite := by
  rcases a with _ | s | ⟨s, m, k, ha⟩
  · cases b <;> exact id
  · rcases b with _ | t | ⟨t, m, k, hb⟩
    · exact id
    · exact id
    · by_cases h0 : m = 0 <;> simp [mul, h0, Finite]
  · exact absurd trivial h

theorem mul_nf_right {b : Fp B} (h : ¬ b.Finite) (a : Fp B) : ¬ (a.mul b).Finite := by
  rcases b with _ | s | ⟨s, m, k, hb⟩
  · cases a <;> exact id
  · rcases a with _ | t | ⟨t, m, k, ha⟩
    · exact id
    · exact id
    · by_cases h0 : m = 0 <;> simp [mul, h0, Finite]
  · exact absurd trivial h

theorem sub_nf_right {b : Fp B} (h : ¬ b.Finite) (a : Fp B) : ¬ (a.sub b).Finite := by
  rcases b with _ | s | ⟨s, m, k, hb⟩
  · cases a <;> exact id
  · rcases a with _ | t | ⟨t, m, k, ha⟩
    · exact id
    · by_cases h0 : t = !s <;> simp [sub, neg, add, h0, Finite]
    · exact id
  · exact absurd trivial h

theorem sqrt_nf {a : Fp B} (h : ¬ a.Finite) : ¬ a.sqrt.Finite := by
  rcases a with _ | s | ⟨s, m, k, ha⟩
  · exact id
  · cases s <;> simp [sqrt, Finite]
  · exact absurd trivial h

theorem div_zero_nf (a : Fp B) {b : Fp B} (h : b.Finite) (h0 : b.val = 0) : ¬ (a.div b).Finite := by
  obtain ⟨s, rfl⟩ := Fp.eq_zero h h0
  rcases a with _ | t | ⟨t, m, k, ha⟩
  · exact id
  · exact id
  · by_cases h0 : m = 0 <;> simp [div, zero, h0, Finite]

end Fp

theorem Fl.ofNat_zero : (Scalar.ofNat 0 : Fl L).fp.Finite ∧ (Scalar.ofNat 0 : Fl L).fp.val = 0 := by
  obtain ⟨h1, h2⟩ := Fp.ofReal_spec (B := B) (x := ((0 : Nat) : ℝ)) (by
    simpa [B.near_zero] using (show (0 : ℝ) < B.top from by unfold Binary.top; positivity))
  refine ⟨h1, ?_⟩
  change (Fp.ofReal ((0 : Nat) : ℝ) : Fp B).val = 0
  rw [h2, Nat.cast_zero, B.round_zero]

theorem polar_nf {w : Width} {r : Fl L} (h : ¬ r.fp.Finite) (φ : Fl L) :
    ¬ (Gen.polar r φ : Cf w (Fl L)).x.fp.Finite ∧ ¬ (Gen.polar r φ : Cf w (Fl L)).y.fp.Finite :=
  ⟨Fp.mul_nf_left h _, Fp.mul_nf_left h _⟩

/-- C88. If the first draw is zero, a normal initialiser makes a weight with no finite part. -/
theorem C88_refuted_zero_draw {w : Width} {L : Libm w.binary} (hS : L.Standard) {method : InitMethod} (hm : method.Normal)
    {seed : Nat} (h : 1103515245 * seed + 12345 < 2 ^ 128) (h0 : lcgNext seed = 0) :
    ∃ (z : Cf w (Fl L)) (s : Nat), GenOps.gen method seed = some (z, s) ∧ ¬ z.x.fp.Finite ∧ ¬ z.y.fp.Finite := by
  obtain ⟨hB, hp⟩ := w.binary_range
  have h2 := fits_of_lt (lcgNext_lt seed)
  have h3 := fits_of_lt (lcgNext_lt (lcgNext seed))
  have hz : ¬ (Scalar.ln (drawOf L (lcgNext seed))).fp.Finite := by
    obtain ⟨g1, g2, -, -⟩ := drawOf_bounds (L := L) (s := 0) (by omega) hp (by omega)
    have g3 : (drawOf L 0).fp.val = 0 := by
      have e : (Scalar.ofNat (2 ^ 31) : Fl L).fp.Finite := (Fl.ofNat_le (k := 31) (by omega) le_rfl).1
      have e1 := Fl.one_le_ofNat (L := L) (n := 2 ^ 31) (k := 31) (by omega) le_rfl (by omega)
      have := (Fp.div_spec (Fl.ofNat_zero (L := L)).1 e (by linarith) (by
        rw [Fl.ofNat_zero.2, zero_div, abs_zero, Binary.near_zero]
        unfold Binary.top; positivity)).2
      rw [Fl.ofNat_zero.2, zero_div, Binary.round_zero] at this
      exact this
    obtain ⟨s, g4⟩ := Fp.eq_zero g1.1 g3
    change ¬ (L.ln (drawOf L (lcgNext seed)).fp).Finite
    rw [h0, g4, hS.ln_zero]
    exact id
  have key : ∀ n, ∃ (z : Cf w (Fl L)) (s : Nat), Gen.genNormal seed n = some (z, s)
      ∧ ¬ z.x.fp.Finite ∧ ¬ z.y.fp.Finite := by
    intro n
    unfold Gen.genNormal
    rw [lcgf_ieee seed h]
    simp only [Option.bind_eq_bind, Option.bind_some]
    rw [lcgf_ieee _ h2]
    simp only [Option.bind_some]
    rw [lcgf_ieee _ h3]
    exact ⟨_, _, rfl, polar_nf (Fp.mul_nf_left (Fp.mul_nf_left (Fp.sqrt_nf (Fp.mul_nf_right hz _)) _) _) _⟩
  cases method with
  | xavierGlorotN n => exact key n
  | heInit n => exact key n
  | _ => exact absurd hm id

/-- C88. With zero units every initialiser that counts them makes a weight with no finite part. -/
theorem C88_refuted_zero_units {w : Width} {L : Libm w.binary} {method : InitMethod}
    (hm : method = .xavierGlorotU 0 ∨ method = .xavierGlorotN 0 ∨ method = .xavier 0 ∨ method = .heInit 0)
    {seed : Nat} (h : 1103515245 * seed + 12345 < 2 ^ 128) :
    ∃ (z : Cf w (Fl L)) (s : Nat), GenOps.gen method seed = some (z, s) ∧ ¬ z.x.fp.Finite ∧ ¬ z.y.fp.Finite := by
  have h2 := fits_of_lt (lcgNext_lt seed)
  have h3 := fits_of_lt (lcgNext_lt (lcgNext seed))
  have hz : ∀ a : Fl L, ¬ (Scalar.div a (Scalar.ofNat 0)).fp.Finite :=
    fun a => Fp.div_zero_nf _ Fl.ofNat_zero.1 Fl.ofNat_zero.2
  have normal : ∃ (z : Cf w (Fl L)) (s : Nat), Gen.genNormal seed 0 = some (z, s)
      ∧ ¬ z.x.fp.Finite ∧ ¬ z.y.fp.Finite := by
    unfold Gen.genNormal
    rw [lcgf_ieee seed h]
    simp only [Option.bind_eq_bind, Option.bind_some]
    rw [lcgf_ieee _ h2]
    simp only [Option.bind_some]
    rw [lcgf_ieee _ h3]
    exact ⟨_, _, rfl, polar_nf (Fp.mul_nf_right (Fp.sqrt_nf (hz _)) _) _⟩
  have scaled : ∀ ρ : Fl L, ¬ ρ.fp.Finite → ∃ (z : Cf w (Fl L)) (s : Nat), Gen.genScaled seed ρ = some (z, s)
      ∧ ¬ z.x.fp.Finite ∧ ¬ z.y.fp.Finite := by
    intro ρ hρ
    unfold Gen.genScaled
    rw [lcgf_ieee seed h]
    simp only [Option.bind_eq_bind, Option.bind_some]
    rw [lcgf_ieee _ h2]
    refine ⟨_, _, rfl, polar_nf ?_ _⟩
    cases w
    · exact Fp.mul_nf_right hρ _
    · exact Fp.sub_nf_right hρ _
  rcases hm with rfl | rfl | rfl | rfl
  · simp only [GenOps.gen, Gen.genXagu]
    exact scaled _ (Fp.sqrt_nf (hz _))
  · exact normal
  · simp only [GenOps.gen, Gen.genXa]
    exact scaled _ (Fp.sqrt_nf (Fp.mul_nf_left (hz _) _))
  · exact normal

/-- A platform and a seed C88 speaks about. -/
example (w : Width) : (Libm.rounded w.binary).Accurate ∧ (Libm.rounded w.binary).Standard
    ∧ (Libm.rounded w.binary).u ≤ 1 / 32 ∧ (InitMethod.heInit 784).Sane ∧ lcgNext 224783561 ≠ 0
    ∧ lcgNext 1871412062 = 0 := by
  refine ⟨Libm.rounded_accurate _, Libm.rounded_standard _, ?_, ⟨by norm_num, by norm_num⟩, by decide, by decide⟩
  cases w
  · change (2 : ℝ) ^ (-((24 : Nat) : ℤ)) ≤ _
    norm_num
  · change (2 : ℝ) ^ (-((53 : Nat) : ℤ)) ≤ _
    norm_num

end Renplex
