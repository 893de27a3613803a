import Verif.Props.Ieee
/-!
# Complex arithmetic in `f32` and `f64`
-/

namespace Renplex
variable {B : Binary}

namespace Fp
variable {a b : Fp B}

theorem abs_val_lt_top (a : Fp B) : |a.val| < B.top := by
  cases a with
  | nan => simp only [val, abs_zero, Binary.top]; positivity
  | inf s => simp only [val, abs_zero, Binary.top]; positivity
  | num s m k hs =>
    rw [abs_val_num]
    unfold Binary.top
    rw [zpow_add₀ two_ne_zero, zpow_natCast]
    have h1 : (m : ℝ) < 2 ^ B.p := by exact_mod_cast hs.1
    have h2 : (2 : ℝ) ^ k ≤ 2 ^ B.kmax := zpow_le_zpow_right₀ one_le_two hs.2.2.1
    calc (m : ℝ) * 2 ^ k ≤ m * 2 ^ B.kmax := mul_le_mul_of_nonneg_left h2 (by positivity)
      _ < _ := mul_lt_mul_of_pos_right h1 (by positivity)

theorem near_abs_val (ha : a.Finite) : B.near |a.val| = |a.val| := by
  rw [← B.abs_round, B.round_val ha]

/-- Stored numbers other than zero are not smaller than the smallest one. -/
theorem le_abs_val (ha : a.Finite) (h0 : a.val ≠ 0) : 2 ^ B.kmin ≤ |a.val| := by
  cases a with
  | nan => exact ha.elim
  | inf s => exact ha.elim
  | num s m k hs =>
    rw [abs_val_num]
    have h1 : (1 : ℝ) ≤ m := by
      exact_mod_cast Nat.one_le_iff_ne_zero.mpr (mt (val_eq_zero s hs).mpr h0)
    have h2 : (2 : ℝ) ^ B.kmin ≤ 2 ^ k := zpow_le_zpow_right₀ one_le_two hs.2.1
    nlinarith [show (0 : ℝ) < 2 ^ k by positivity]

theorem zero_lit_finite : (ofReal 0 : Fp B).Finite ∧ (ofReal 0 : Fp B).val = 0 := by
  have := C84_integers (B := B) (n := 0) (by simp)
  simpa using this

/-- A square is NaN, infinite or the rounded exact square. -/
theorem sq_cases (a : Fp B) : (a = nan ∧ a.mul a = nan) ∨ (a.mul a = inf false ∧ (a.Finite → B.top ≤ B.near (a.val ^ 2)))
    ∨ a.Finite ∧ (a.mul a).Finite ∧ (a.mul a).val = B.near (a.val ^ 2) ∧ B.near (a.val ^ 2) < B.top := by
  cases a with
  | nan => exact .inl ⟨rfl, rfl⟩
  | inf s => exact .inr (.inl ⟨by simp [mul], fun h => h.elim⟩)
  | num s m k hs =>
    have e : |(num s m k hs).val * (num s m k hs).val| = (num s m k hs).val ^ 2 := by
      rw [abs_mul_self, sq]
    by_cases h : B.near |(num s m k hs).val * (num s m k hs).val| < B.top
    · obtain ⟨h1, h2⟩ := mul_spec (a := num s m k hs) (b := num s m k hs) trivial trivial h
      refine .inr (.inr ⟨trivial, h1, ?_, by rwa [e] at h⟩)
      rw [h2, ← sq, B.round_of_nonneg (sq_nonneg _)]
    · refine .inr (.inl ⟨?_, fun _ => by rw [← e]; exact not_lt.mp h⟩)
      have := ofAbs_inf (abs_nonneg _) (not_lt.mp h) (s ^^ s)
      rw [Bool.xor_self] at this
      simp only [mul, Bool.xor_self]
      exact this

theorem sq_nan : (nan : Fp B).mul nan = nan := rfl

/-- A sum of two numbers that are not negative. -/
theorem add_nonneg_cases (ha : a.Finite) (hb : b.Finite) (ha0 : 0 ≤ a.val) (hb0 : 0 ≤ b.val) :
    (a.add b = inf false ∧ B.top ≤ B.near (a.val + b.val)) ∨ (a.add b).Finite ∧ (a.add b).val = B.near (a.val + b.val)
      ∧ B.near (a.val + b.val) < B.top := by
  have e : |a.val + b.val| = a.val + b.val := abs_of_nonneg (add_nonneg ha0 hb0)
  by_cases h : B.near |a.val + b.val| < B.top
  · obtain ⟨h1, h2⟩ := add_spec ha hb h
    refine .inr ⟨h1, ?_, by rwa [e] at h⟩
    rw [h2, B.round_of_nonneg (add_nonneg ha0 hb0)]
  · left
    refine ⟨?_, by rw [← e]; exact not_lt.mp h⟩
    have h0 : a.val + b.val ≠ 0 := by
      intro h0
      refine h ?_
      rw [h0, abs_zero, B.near_zero, Binary.top]
      positivity
    cases a with
    | nan => exact ha.elim
    | inf s => exact ha.elim
    | num s m k hs =>
      cases b with
      | nan => exact hb.elim
      | inf s => exact hb.elim
      | num t m' k' hs' =>
        simp only [add]
        rw [if_neg h0]
        have := ofAbs_inf (abs_nonneg _) (not_lt.mp h)
          (decide ((num s m k hs).val + (num t m' k' hs').val < 0))
        unfold ofReal
        rw [this, decide_eq_false (not_lt.mpr (add_nonneg ha0 hb0))]

/-- The sum of two squares, as in the norm and the divisor of complex numbers. -/
theorem sum_sq_cases (a b : Fp B) : (a.mul a).add (b.mul b) = nan ∧ (a = nan ∨ b = nan)
    ∨ ((a.mul a).add (b.mul b) = inf false ∧ (a.Finite → b.Finite → B.top ≤ B.near (a.val ^ 2)
      ∨ B.top ≤ B.near (b.val ^ 2) ∨ B.top ≤ B.near (B.near (a.val ^ 2) + B.near (b.val ^ 2))))
    ∨ a.Finite ∧ b.Finite ∧ ((a.mul a).add (b.mul b)).Finite
      ∧ ((a.mul a).add (b.mul b)).val = B.near (B.near (a.val ^ 2) + B.near (b.val ^ 2))
      ∧ B.near (a.val ^ 2) < B.top ∧ B.near (b.val ^ 2) < B.top := by
  rcases sq_cases a with ⟨h, h1⟩ | ⟨h1, h⟩ | ⟨h, h1, h1', ht⟩
  · exact .inl ⟨by rw [h1]; rfl, .inl h⟩
  · rcases sq_cases b with ⟨h', h2⟩ | ⟨h2, -⟩ | ⟨h', h2, h2', -⟩
    · exact .inl ⟨by rw [h1, h2]; rfl, .inr h'⟩
    · exact .inr (.inl ⟨by rw [h1, h2]; rfl, fun h' _ => .inl (h h')⟩)
    · refine .inr (.inl ⟨?_, fun h' _ => .inl (h h')⟩)
      rw [h1]
      revert h2
      cases b.mul b <;> intro h2 <;> first | exact h2.elim | rfl
  · rcases sq_cases b with ⟨h', h2⟩ | ⟨h2, h'⟩ | ⟨h', h2, h2', ht'⟩
    · refine .inl ⟨?_, .inr h'⟩
      rw [h2]
      cases a.mul a <;> rfl
    · refine .inr (.inl ⟨?_, fun _ h => .inr (.inl (h' h))⟩)
      rw [h2]
      revert h1
      cases a.mul a <;> intro h1 <;> first | exact h1.elim | rfl
    · right
      have := add_nonneg_cases h1 h2 (h1' ▸ B.near_nonneg _) (h2' ▸ B.near_nonneg _)
      rw [h1', h2'] at this
      rcases this with ⟨e, e'⟩ | ⟨e1, e2, -⟩
      · exact .inl ⟨e, fun _ _ => .inr (.inr e')⟩
      · exact .inr ⟨h, h', e1, e2, ht, ht'⟩

end Fp

theorem Binary.le_near {x : ℝ} (h : B.near x ≠ 0) : 2 ^ B.kmin ≤ B.near x := by
  unfold near at h ⊢
  have h1 : roundEven (x / 2 ^ B.place x) ≠ 0 := fun e => h (by rw [e]; simp)
  have h2 : (1 : ℝ) ≤ roundEven (x / 2 ^ B.place x) := by exact_mod_cast Nat.one_le_iff_ne_zero.mpr h1
  have h3 : (2 : ℝ) ^ B.kmin ≤ 2 ^ B.place x := zpow_le_zpow_right₀ one_le_two (B.kmin_le_place x)
  nlinarith [show (0 : ℝ) < 2 ^ B.place x by positivity]

theorem Binary.half_min : (2 : ℝ) ^ (B.kmin - 1) = 1 / 2 * 2 ^ B.kmin := by
  rw [zpow_sub_one₀ two_ne_zero]; ring

theorem Binary.near_sum_sq_eq_zero {x y : ℝ} :
    B.near (B.near (x ^ 2) + B.near (y ^ 2)) = 0 ↔ x ^ 2 ≤ 2 ^ (B.kmin - 1) ∧ y ^ 2 ≤ 2 ^ (B.kmin - 1) := by
  rw [← B.near_eq_zero (sq_nonneg x), ← B.near_eq_zero (sq_nonneg y)]
  constructor
  · intro h
    have hx := B.near_nonneg (x ^ 2)
    have hy := B.near_nonneg (y ^ 2)
    have key : ∀ {u v : ℝ}, 0 ≤ v → B.near (B.near (u ^ 2) + v) = 0 → B.near (u ^ 2) = 0 := by
      intro u v hv h
      by_contra hc
      have h1 := B.le_near hc
      rw [B.near_eq_zero (add_nonneg (B.near_nonneg _) hv), B.half_min] at h
      linarith [show (0 : ℝ) < 2 ^ B.kmin by positivity]
    exact ⟨key hy h, key hx (by rwa [add_comm])⟩
  · rintro ⟨h1, h2⟩
    rw [h1, h2, add_zero, B.near_zero]

variable {L : Libm B} {w : Width}

namespace Fl

theorem zero_eq : (Scalar.zero : Fl L).fp = .ofReal 0 := by
  change Fp.ofReal (((0 : Int) : ℝ) / ((1 : Nat) : ℝ)) = _
  simp

theorem zero_finite : (Scalar.zero : Fl L).fp.Finite ∧ (Scalar.zero : Fl L).fp.val = 0 := by
  rw [zero_eq]; exact Fp.zero_lit_finite

/-- Both parts are finite. -/
def _root_.Renplex.Cf.Finite (z : Cf w (Fl L)) : Prop := z.x.fp.Finite ∧ z.y.fp.Finite

/-- Both parts are so small that their squares are rounded to zero. -/
def _root_.Renplex.Cf.Tiny (z : Cf w (Fl L)) : Prop :=
  z.Finite ∧ z.x.fp.val ^ 2 ≤ 2 ^ (B.kmin - 1) ∧ z.y.fp.val ^ 2 ≤ 2 ^ (B.kmin - 1)

theorem den_zero_iff (b : Cf w (Fl L)) : Scalar.beq b.den Scalar.zero = true ↔ b.Tiny := by
  have hz := zero_finite (L := L)
  change ((b.x.fp.mul b.x.fp).add (b.y.fp.mul b.y.fp)).beq _ = true ↔ _
  rcases Fp.sum_sq_cases b.x.fp b.y.fp with ⟨e, h⟩ | ⟨e, h⟩ | ⟨h1, h2, h3, h4, -, -⟩
  · rw [e]
    refine ⟨fun h => (Bool.false_ne_true h).elim, fun h' => ?_⟩
    rcases h with h | h
    · have := h'.1.1; rw [h] at this; exact this.elim
    · have := h'.1.2; rw [h] at this; exact this.elim
  · rw [e]
    constructor
    · intro h
      have hz := hz.1
      revert hz h
      cases (Scalar.zero : Fl L).fp <;> intro h hz
      · exact hz.elim
      · exact hz.elim
      · exact (Bool.false_ne_true h).elim
    · intro h'
      exfalso
      have h5 := (B.near_sum_sq_eq_zero).mpr h'.2
      have h6 := (B.near_eq_zero (sq_nonneg _)).mpr h'.2.1
      have h7 := (B.near_eq_zero (sq_nonneg _)).mpr h'.2.2
      have h8 : ¬ B.top ≤ 0 := not_le.mpr (by unfold Binary.top; positivity)
      rcases h h'.1.1 h'.1.2 with h | h | h
      · rw [h6] at h; exact h8 h
      · rw [h7] at h; exact h8 h
      · rw [h5] at h; exact h8 h
  · rw [Fp.beq_spec h3 hz.1, hz.2, h4, B.near_sum_sq_eq_zero]
    exact ⟨fun h => ⟨⟨h1, h2⟩, h⟩, fun h => h.2⟩

theorem den_cases {z : Cf w (Fl L)} (hz : z.Finite) : z.den.fp = .inf false
    ∧ (B.top ≤ B.near (z.x.fp.val ^ 2) ∨ B.top ≤ B.near (z.y.fp.val ^ 2)
      ∨ B.top ≤ B.near (B.near (z.x.fp.val ^ 2) + B.near (z.y.fp.val ^ 2)))
    ∨ z.den.fp.Finite ∧ z.den.fp.val = B.near (B.near (z.x.fp.val ^ 2) + B.near (z.y.fp.val ^ 2))
      ∧ B.near (z.x.fp.val ^ 2) < B.top ∧ B.near (z.y.fp.val ^ 2) < B.top := by
  rcases Fp.sum_sq_cases z.x.fp z.y.fp with ⟨e, h⟩ | ⟨e, h⟩ | ⟨h1, h2, h3, h4⟩
  · exfalso
    rcases h with h | h
    · have := hz.1; rw [h] at this; exact this
    · have := hz.2; rw [h] at this; exact this
  · exact .inl ⟨e, h hz.1 hz.2⟩
  · exact .inr ⟨h3, h4⟩

theorem den_inf {z : Cf w (Fl L)} (hz : z.Finite) (h : B.top ≤ z.x.fp.val ^ 2 ∨ B.top ≤ z.y.fp.val ^ 2) :
    z.den.fp = .inf false := by
  have key : ∀ {x : ℝ}, B.top ≤ x ^ 2 → ¬ B.near (x ^ 2) < B.top := by
    intro x hx hn
    have := (B.near_lt_top_iff (sq_nonneg x)).mp hn
    linarith [show (0 : ℝ) < 2 ^ (B.kmax - 1) by positivity]
  rcases den_cases hz with h' | ⟨-, -, h1, h2⟩
  · exact h'.1
  · rcases h with h | h
    · exact absurd h1 (key h)
    · exact absurd h2 (key h)

theorem not_tiny_of_inf {z : Cf w (Fl L)} (h : z.den.fp = .inf false) : ¬ z.Tiny := by
  rw [← den_zero_iff]
  change ¬ z.den.fp.beq _ = true
  rw [h]
  have hz := (zero_finite (L := L)).1
  revert hz
  cases (Scalar.zero : Fl L).fp <;> intro hz
  · exact hz.elim
  · exact hz.elim
  · exact Bool.false_ne_true

end Fl

theorem Fp.div_inf_nan {a : Fp B} (h : ¬ a.Finite) (s : Bool) : a.div (.inf s) = .nan := by
  cases a with
  | nan => rfl
  | inf t => rfl
  | num t m k hs => exact absurd trivial h

/-! ## Division -/

/-- C85. Division by a complex number panics exactly if the squares of both parts are rounded to zero. -/
theorem C85_panics_iff (a b : Cf w (Fl L)) : (Cf.div a b = none ↔ b.Tiny) ∧ (Cf.divAssign a b = none ↔ b.Tiny) := by
  rw [← Fl.den_zero_iff]
  unfold Cf.div Cf.divAssign
  constructor <;> split_ifs with h <;> simp [h]

/-- C85. So division by `2 ^ -75` panics in `f32`, division by `2 ^ -538` in `f64`, although these numbers
are not zero, far from the smallest ones, and division by zero is the only one that should panic. -/
theorem C85_refuted_tiny (w : Width) (L : Libm binary32) (L' : Libm binary64) :
    (∀ a b : Cf w (Fl L), b.x.fp = .ofReal (2 ^ (-75 : ℤ)) → b.y.fp = .zero false →
      b.x.fp.val = 2 ^ (-75 : ℤ) ∧ Cf.div a b = none)
    ∧ ∀ a b : Cf w (Fl L'), b.x.fp = .ofReal (2 ^ (-538 : ℤ)) → b.y.fp = .zero false →
      b.x.fp.val = 2 ^ (-538 : ℤ) ∧ Cf.div a b = none := by
  have key : ∀ (B : Binary) (L : Libm B) (k : ℤ), B.kmin ≤ k - (B.p - 1) → k ≤ 0 → 2 * k ≤ B.kmin - 1 →
      ∀ a b : Cf w (Fl L), b.x.fp = .ofReal (2 ^ k) → b.y.fp = .zero false →
      b.x.fp.val = 2 ^ k ∧ Cf.div a b = none := by
    intro B L k h1 h0 h2 a b hx hy
    have hd := B.digits; have hl := B.large
    have h3 := B.near_two_pow h1 (by omega)
    have hle : (2 : ℝ) ^ k ≤ 1 := zpow_le_one_of_nonpos₀ one_le_two h0
    have hp : (0 : ℝ) < 2 ^ k := by positivity
    obtain ⟨h4, h5⟩ := Fp.ofReal_spec (B := B) (x := 2 ^ k) (B.lt_top_of_small (by rwa [abs_of_pos hp]))
    have hv : b.x.fp.val = 2 ^ k := by rw [hx, h5, B.round_of_nonneg hp.le, h3]
    refine ⟨hv, ((C85_panics_iff a b).1).mpr ⟨⟨by rw [hx]; exact h4, by rw [hy]; trivial⟩, ?_, ?_⟩⟩
    · rw [hv, ← zpow_natCast, ← zpow_mul, mul_comm]
      exact zpow_le_zpow_right₀ one_le_two h2
    · rw [hy, Fp.zero_val, zero_pow two_ne_zero]
      positivity
  exact ⟨key binary32 L (-75) (by decide) (by decide) (by decide),
    key binary64 L' (-538) (by decide) (by decide) (by decide)⟩

/-- C85. If the square of a part is too large for the format, a finite number divided by itself is NaN. -/
theorem C85_refuted_self {z : Cf w (Fl L)} (hz : z.Finite) (h : B.top ≤ z.x.fp.val ^ 2 ∨ B.top ≤ z.y.fp.val ^ 2) :
    ∃ q, Cf.div z z = some q ∧ q.x.fp = .nan := by
  have hd := Fl.den_inf hz h
  have hn := mt (Fl.den_zero_iff z).mp (Fl.not_tiny_of_inf hd)
  refine ⟨_, if_neg hn, ?_⟩
  change ((z.x.fp.mul z.x.fp).add (z.y.fp.mul z.y.fp)).div z.den.fp = _
  change z.den.fp.div z.den.fp = _
  rw [hd]
  rfl

/-- C85. `ModZ` of a finite number panics exactly if the squares of both parts are rounded to zero. -/
theorem C85_modZ_iff {z : Cf w (Fl L)} (hz : z.Finite) : Act.modZ z = none ↔ z.Tiny := by
  have hz0 := Fl.zero_finite (L := L)
  unfold Act.modZ
  rw [(C85_panics_iff z _).1]
  have hk : (0 : ℝ) < 2 ^ B.kmin := by positivity
  have hk2 : (2 : ℝ) ^ B.kmin ≤ 1 / 4 := by
    rw [show (1 / 4 : ℝ) = 2 ^ (-2 : ℤ) by norm_num]
    exact zpow_le_zpow_right₀ one_le_two (by have := B.small; have := B.digits; omega)
  have e1 : (Cf.new z.norm Scalar.zero : Cf w (Fl L)).x.fp = z.den.fp.sqrt := rfl
  rcases Fl.den_cases hz with ⟨hd, -⟩ | ⟨h1, h2, -⟩
  · refine iff_of_false (fun h => ?_) (Fl.not_tiny_of_inf hd)
    have := h.1.1
    rw [e1, hd] at this
    exact this
  · have hd0 : 0 ≤ z.den.fp.val := h2 ▸ B.near_nonneg _
    have hv := Fp.near_abs_val h1
    have ht := Fp.abs_val_lt_top z.den.fp
    rw [abs_of_nonneg hd0] at hv ht
    have hs : B.near (Real.sqrt z.den.fp.val) < B.top := by
      refine (B.near_mono (Real.sqrt_nonneg _) (show _ ≤ max 1 z.den.fp.val from ?_)).trans_lt ?_
      · rcases le_or_gt 1 z.den.fp.val with h | h
        · refine le_max_of_le_right ?_
          rw [Real.sqrt_le_left hd0]
          nlinarith
        · exact le_max_of_le_left (Real.sqrt_le_one.mpr h.le)
      · rcases max_choice 1 z.den.fp.val with h | h <;> rw [h]
        · have := B.lt_top_of_small (x := 1) (by simp)
          rwa [abs_one] at this
        · rwa [hv]
    obtain ⟨h3, h4⟩ := Fp.sqrt_spec h1 hd0 hs
    rw [B.round_of_nonneg (Real.sqrt_nonneg _)] at h4
    have e2 : (Cf.new z.norm Scalar.zero : Cf w (Fl L)).Tiny ↔ (B.near (Real.sqrt z.den.fp.val)) ^ 2 ≤ 2 ^ (B.kmin - 1) := by
      unfold Cf.Tiny
      rw [e1, h4]
      refine ⟨fun h => h.2.1, fun h => ⟨⟨h3, hz0.1⟩, h, ?_⟩⟩
      change (Scalar.zero : Fl L).fp.val ^ 2 ≤ _
      rw [hz0.2, zero_pow two_ne_zero]
      positivity
    rw [e2]
    constructor
    · intro h
      refine ⟨hz, (B.near_sum_sq_eq_zero).mp (h2.symm.trans ?_)⟩
      by_contra h0
      have h5 := Fp.le_abs_val h1 h0
      rw [abs_of_nonneg hd0] at h5
      have hsq := Real.sq_sqrt hd0
      have hsn := Real.sqrt_nonneg z.den.fp.val
      have h6 := (abs_le.mp (B.abs_near_sub_le hsn)).1
      have hp4 : (2 : ℝ) ^ (-(B.p : ℤ)) ≤ 1 / 4 := by
        rw [show (1 / 4 : ℝ) = 2 ^ (-2 : ℤ) by norm_num]
        exact zpow_le_zpow_right₀ one_le_two (by have := B.digits; omega)
      have h7 : (2 : ℝ) ^ (-(B.p : ℤ)) * Real.sqrt z.den.fp.val ⊔ 2 ^ (B.kmin - 1) ≤ 1 / 4 * Real.sqrt z.den.fp.val := by
        refine max_le (mul_le_mul_of_nonneg_right hp4 hsn) ?_
        rw [B.half_min]
        nlinarith
      have h8 : 3 / 4 * Real.sqrt z.den.fp.val ≤ B.near (Real.sqrt z.den.fp.val) := by linarith
      rw [B.half_min] at h
      nlinarith
    · intro h
      have : z.den.fp.val = 0 := h2.trans ((B.near_sum_sq_eq_zero).mpr h.2)
      rw [this, Real.sqrt_zero, B.near_zero, zero_pow two_ne_zero]
      positivity

/-- C85. If the square of a part is too large for the format, `ModZ` of a finite number is NaN. -/
theorem C85_refuted_modZ {z : Cf w (Fl L)} (hz : z.Finite) (h : B.top ≤ z.x.fp.val ^ 2 ∨ B.top ≤ z.y.fp.val ^ 2) :
    ∃ q, Act.modZ z = some q ∧ q.x.fp = .nan := by
  have hd := Fl.den_inf hz h
  have hz0 := (Fl.zero_finite (L := L))
  have e1 : (Cf.new z.norm Scalar.zero : Cf w (Fl L)).x.fp = .inf false := by
    change z.den.fp.sqrt = _
    rw [hd]
    rfl
  have h00 : ((Scalar.zero : Fl L).fp.mul (Scalar.zero : Fl L).fp).Finite := by
    refine (Fp.mul_spec hz0.1 hz0.1 ?_).1
    rw [hz0.2, mul_zero, abs_zero, B.near_zero, Binary.top]
    positivity
  have hden : (Cf.new z.norm Scalar.zero : Cf w (Fl L)).den.fp = .inf false := by
    change ((Cf.new z.norm Scalar.zero : Cf w (Fl L)).x.fp.mul (Cf.new z.norm Scalar.zero : Cf w (Fl L)).x.fp).add
      ((Scalar.zero : Fl L).fp.mul (Scalar.zero : Fl L).fp) = _
    rw [e1]
    revert h00
    cases (Scalar.zero : Fl L).fp.mul (Scalar.zero : Fl L).fp <;> intro h <;> first | exact h.elim | rfl
  have hn := mt (Fl.den_zero_iff _).mp (Fl.not_tiny_of_inf hden)
  refine ⟨_, if_neg hn, ?_⟩
  change ((z.x.fp.mul (Cf.new z.norm Scalar.zero : Cf w (Fl L)).x.fp).add (z.y.fp.mul (Scalar.zero : Fl L).fp)).div
    (Cf.new z.norm Scalar.zero : Cf w (Fl L)).den.fp = _
  rw [hden, e1]
  refine Fp.div_inf_nan ?_ _
  have h1 : ¬ (z.x.fp.mul (.inf false)).Finite := by
    cases z.x.fp with
    | nan => exact id
    | inf s => exact id
    | num s m k hs =>
      simp only [Fp.mul]
      split_ifs <;> exact id
  revert h1
  cases z.x.fp.mul (.inf false) with
  | nan => exact fun _ => id
  | inf s => 
    intro _
    cases z.y.fp.mul (Scalar.zero : Fl L).fp with
    | nan => exact id
    | inf t => 
      simp only [Fp.add]
      split_ifs <;> exact id
    | num t m k hs => exact id
  | num s m k hs => exact fun h => absurd trivial h

/-! ## Non-vacuity -/

/-- In `f32`, `2 ^ 64` divided by itself is NaN. -/
example (L : Libm binary32) (w : Width) : ∃ q,
    Cf.div (⟨⟨.ofReal (2 ^ (64 : ℤ))⟩, ⟨.zero false⟩⟩ : Cf w (Fl L)) ⟨⟨.ofReal (2 ^ (64 : ℤ))⟩, ⟨.zero false⟩⟩ = some q
      ∧ q.x.fp = .nan := by
  have h0 : (0 : ℝ) ≤ 2 ^ (64 : ℤ) := by positivity
  have hn : binary32.near |(2 : ℝ) ^ (64 : ℤ)| = 2 ^ (64 : ℤ) := by
    rw [abs_of_nonneg h0]
    exact binary32.near_two_pow (k := 64) (by norm_num [binary32]) (by norm_num [binary32])
  obtain ⟨h1, h2⟩ := Fp.ofReal_spec (B := binary32) (x := 2 ^ (64 : ℤ)) (by
    rw [hn]
    norm_num [Binary.top, binary32])
  have e : binary32.round (2 ^ (64 : ℤ)) = 2 ^ (64 : ℤ) := by
    rw [Binary.round, if_neg (by linarith)]
    exact hn
  refine C85_refuted_self ⟨h1, trivial⟩ (.inl ?_)
  change _ ≤ (Fp.ofReal (2 ^ (64 : ℤ)) : Fp binary32).val ^ 2
  rw [h2, e]
  norm_num [Binary.top, binary32]

end Renplex
