import Verif.Lemmas.Ieee
import Verif.Props.Rounding
/-!
# `f32` and `f64`
-/

namespace Renplex
variable {B : Binary}

/-! ## The nearest number -/

theorem roundEven_nearest {y : ℝ} (hy : 0 ≤ y) (n : Int) : |(roundEven y : ℝ) - y| ≤ |(n : ℝ) - y| := by
  have h1 := Nat.floor_le hy
  have h2 := Nat.lt_floor_add_one y
  have h3 : (n : ℝ) ≤ ⌊y⌋₊ ∨ (⌊y⌋₊ : ℝ) + 1 ≤ n := by
    rcases le_or_gt n ⌊y⌋₊ with h | h
    · exact .inl (by exact_mod_cast h)
    · exact .inr (by exact_mod_cast h)
  unfold roundEven
  rcases h3 with h3 | h3
  · rw [abs_of_nonpos (show (n : ℝ) - y ≤ 0 by linarith)]
    split_ifs <;> rw [abs_le] <;> push_cast <;> constructor <;> linarith
  · rw [abs_of_nonneg (show (0 : ℝ) ≤ (n : ℝ) - y by linarith)]
    split_ifs <;> rw [abs_le] <;> push_cast <;> constructor <;> linarith

theorem Binary.near_nearest {x : ℝ} (hx : 0 ≤ x) {m : Nat} {k : Int} (h : B.Stored m k) :
    |B.near x - x| ≤ |(m : ℝ) * 2 ^ k - x| := by
  have hp : (0 : ℝ) < 2 ^ B.place x := by positivity
  have key : ∀ n : Int, |B.near x - x| ≤ |(n : ℝ) * 2 ^ B.place x - x| := by
    intro n
    have h1 := roundEven_nearest (show 0 ≤ x / 2 ^ B.place x by positivity) n
    have e : ∀ c : ℝ, |c * 2 ^ B.place x - x| = |c - x / 2 ^ B.place x| * 2 ^ B.place x := by
      intro c
      rw [← abs_of_pos hp, ← abs_mul, abs_of_pos hp]
      congr 1
      field_simp
    unfold near
    rw [e, e]
    exact mul_le_mul_of_nonneg_right h1 hp.le
  rcases le_or_gt (B.place x) k with hk | hk
  · obtain ⟨j, hj⟩ := Int.eq_ofNat_of_zero_le (sub_nonneg.mpr hk)
    have e : (m : ℝ) * 2 ^ k = ((m * 2 ^ j : Int) : ℝ) * 2 ^ B.place x := by
      rw [show k = j + B.place x by omega, zpow_add₀ two_ne_zero]
      push_cast
      rw [zpow_natCast]
      ring
    rw [e]
    exact key _
  · have hx' : 0 < x := by
      refine hx.lt_of_ne fun e => ?_
      rw [← e, B.place_zero] at hk
      exact absurd h.2.1 hk.not_ge
    have h1 := B.le_of_place hx' (h.2.1.trans_lt hk)
    have h2 : (m : ℝ) * 2 ^ k ≤ 2 ^ (B.place x + B.p - 1) := by
      calc (m : ℝ) * 2 ^ k ≤ 2 ^ B.p * 2 ^ k :=
            mul_le_mul_of_nonneg_right (by exact_mod_cast h.1.le) (by positivity)
        _ = 2 ^ ((B.p : ℤ) + k) := by rw [zpow_add₀ two_ne_zero, zpow_natCast]
        _ ≤ _ := zpow_le_zpow_right₀ one_le_two (by omega)
    have e : (2 : ℝ) ^ (B.place x + B.p - 1) = ((2 ^ (B.p - 1) : Int) : ℝ) * 2 ^ B.place x := by
      push_cast
      rw [← zpow_natCast, ← zpow_add₀ two_ne_zero]
      congr 1
      have := B.digits
      omega
    refine (key (2 ^ (B.p - 1))).trans ?_
    rw [← e, abs_of_nonpos (by linarith), abs_of_nonpos (by linarith)]
    linarith

/-! ## Overflow -/

theorem Binary.place_le {x : ℝ} (hx : 0 ≤ x) (h : x < B.top) : B.place x ≤ B.kmax := by
  have := B.small; have := B.large; have := B.digits
  rcases hx.lt_or_eq with hx | rfl
  · rw [B.place_eq hx]
    refine max_le (by omega) ?_
    have := (Int.lt_zpow_iff_log_lt (R := ℝ) (b := 2) one_lt_two hx (x := (B.p : ℤ) + B.kmax)).mp
      (by exact_mod_cast h)
    omega
  · rw [B.place_zero]; omega

theorem Binary.top_eq : B.top = ((2 ^ B.p : Nat) : ℝ) * 2 ^ B.kmax := by
  unfold top
  rw [zpow_add₀ two_ne_zero, zpow_natCast]
  push_cast
  rfl

theorem Binary.half_place : (2 : ℝ) ^ (B.kmax - 1) = 1 / 2 * 2 ^ B.kmax := by
  rw [zpow_sub_one₀ two_ne_zero]; ring

theorem Binary.near_lt_top_iff {x : ℝ} (hx : 0 ≤ x) : B.near x < B.top ↔ x < B.top - 2 ^ (B.kmax - 1) := by
  have hk : (0 : ℝ) < 2 ^ B.kmax := by positivity
  have h1 : 1 ≤ 2 ^ B.p := Nat.one_le_two_pow
  constructor
  · intro h
    by_contra hc
    rw [not_lt] at hc
    refine absurd h (not_lt.mpr ?_)
    refine le_trans ?_ (B.near_mono (by
      rw [B.top_eq, B.half_place]
      have : (1 : ℝ) ≤ ((2 ^ B.p : Nat) : ℝ) := by exact_mod_cast h1
      nlinarith) hc)
    have hpl : B.place (B.top - 2 ^ (B.kmax - 1)) = B.kmax := by
      have hpos : (0 : ℝ) < B.top - 2 ^ (B.kmax - 1) := by
        rw [B.top_eq, B.half_place]
        have : (1 : ℝ) ≤ ((2 ^ B.p : Nat) : ℝ) := by exact_mod_cast h1
        nlinarith
      refine le_antisymm (B.place_le hpos.le (by rw [B.half_place]; linarith)) ?_
      rw [B.place_eq hpos]
      refine le_trans ?_ (le_max_right _ _)
      have h2 : (2 : ℝ) ^ ((B.p : ℤ) - 1 + B.kmax) ≤ B.top - 2 ^ (B.kmax - 1) := by
        rw [show (B.p : ℤ) - 1 + B.kmax = (B.p : ℤ) + B.kmax - 1 by ring, zpow_sub_one₀ two_ne_zero]
        change B.top * _ ≤ _
        rw [B.top_eq, B.half_place]
        have : (1 : ℝ) ≤ ((2 ^ B.p : Nat) : ℝ) := by exact_mod_cast h1
        nlinarith
      have := (Int.zpow_le_iff_le_log (R := ℝ) (b := 2) one_lt_two hpos
        (x := (B.p : ℤ) - 1 + B.kmax)).mp (by exact_mod_cast h2)
      omega
    unfold near
    rw [hpl]
    have e : (B.top - 2 ^ (B.kmax - 1)) / 2 ^ B.kmax = ((2 ^ B.p - 1 : Nat) : ℝ) + 1 / 2 := by
      rw [B.top_eq, B.half_place, Nat.cast_sub h1]
      field_simp
      push_cast
      ring
    have hf : ⌊((2 ^ B.p - 1 : Nat) : ℝ) + 1 / 2⌋₊ = 2 ^ B.p - 1 :=
      (Nat.floor_eq_iff (by positivity)).mpr ⟨by linarith, by linarith⟩
    have hr : roundEven (((2 ^ B.p - 1 : Nat) : ℝ) + 1 / 2) = 2 ^ B.p := by
      unfold roundEven
      rw [hf, if_neg (by norm_num), if_neg (by norm_num), if_neg, Nat.sub_add_cancel h1]
      rw [Nat.not_even_iff_odd]
      refine Nat.Even.sub_odd h1 ?_ odd_one
      exact (Nat.even_pow.mpr ⟨even_two, by have := B.digits; omega⟩)
    rw [e, hr, B.top_eq]
  · intro h
    have hxt : x < B.top := h.trans (by linarith [show (0 : ℝ) < 2 ^ (B.kmax - 1) by positivity])
    rcases (B.place_le hx hxt).lt_or_eq with hp | hp
    · refine lt_of_le_of_lt ?_ (zpow_lt_zpow_right₀ one_lt_two
        (show (B.p : ℤ) + B.place x < B.p + B.kmax by omega))
      unfold near
      rw [zpow_add₀ two_ne_zero, zpow_natCast]
      exact mul_le_mul_of_nonneg_right (by exact_mod_cast B.mant_le x) (by positivity)
    · unfold near
      rw [hp, B.top_eq]
      refine mul_lt_mul_of_pos_right ?_ hk
      have h2 := (abs_le.mp (abs_roundEven_sub (show 0 ≤ x / 2 ^ B.kmax by positivity))).2
      have h3 : x / 2 ^ B.kmax < ((2 ^ B.p : Nat) : ℝ) - 1 / 2 := by
        rw [div_lt_iff₀ hk]
        rw [B.top_eq, B.half_place] at h
        linarith
      linarith

/-- C84. The number a real number is rounded to is a nearest one of the finite numbers, as long as it is
below the overflow limit. -/
theorem C84_nearest {x : ℝ} (h : |x| < B.top - 2 ^ (B.kmax - 1)) :
    (Fp.ofReal x : Fp B).Finite ∧ ∀ c : Fp B, c.Finite → |(Fp.ofReal x : Fp B).val - x| ≤ |c.val - x| := by
  obtain ⟨h1, h2⟩ := Fp.ofReal_spec ((B.near_lt_top_iff (abs_nonneg x)).mpr h)
  refine ⟨h1, fun c hc => ?_⟩
  have e : |(Fp.ofReal x : Fp B).val - x| = |B.near (|x|) - (|x|)| := by
    rw [h2]
    unfold Binary.round
    split_ifs with hx
    · rw [abs_of_neg hx, ← abs_neg]
      congr 1
      ring
    · rw [abs_of_nonneg (not_lt.mp hx)]
  rw [e]
  cases c with
  | nan => exact hc.elim
  | inf s => exact hc.elim
  | num s m k hs =>
    refine (B.near_nearest (abs_nonneg x) hs).trans ?_
    rw [← Fp.abs_val_num s hs]
    exact abs_abs_sub_abs_le _ _

/-- C84. Beyond that limit it is infinite. -/
theorem C84_overflow (x : ℝ) : (∃ s, (Fp.ofReal x : Fp B) = .inf s) ↔ B.top - 2 ^ (B.kmax - 1) ≤ |x| := by
  rw [← not_lt, ← B.near_lt_top_iff (abs_nonneg x)]
  constructor
  · rintro ⟨s, hs⟩ h
    have := (Fp.ofReal_spec h).1
    rw [hs] at this
    exact this
  · intro h
    exact ⟨_, Fp.ofAbs_inf (abs_nonneg x) (not_lt.mp h) _⟩

theorem Fp.eq_zero {a : Fp B} (ha : a.Finite) (h0 : a.val = 0) : ∃ s, a = .zero s := by
  cases a with
  | nan => exact ha.elim
  | inf s => exact ha.elim
  | num s m k hs =>
    obtain rfl := (Fp.val_eq_zero s hs).mp h0
    obtain rfl : k = B.kmin := hs.2.2.2.resolve_left (by simp)
    exact ⟨s, rfl⟩

theorem Binary.lt_top_of_small {x : ℝ} (h : |x| ≤ 1) : B.near |x| < B.top :=
  B.near_lt_top (abs_nonneg x) (h.trans (one_le_zpow₀ one_le_two (by omega)))

/-- C84. Exactly the numbers up to half of the smallest one are rounded to zero. -/
theorem C84_underflow (x : ℝ) : (∃ s, (Fp.ofReal x : Fp B) = .zero s) ↔ |x| ≤ 2 ^ (B.kmin - 1) := by
  constructor
  · rintro ⟨s, hs⟩
    by_cases h : B.near |x| < B.top
    · rw [← B.round_eq_zero, ← (Fp.ofReal_spec h).2, hs, Fp.zero_val]
    · have : (Fp.ofReal x : Fp B) = _ := Fp.ofAbs_inf (abs_nonneg x) (not_lt.mp h) _
      rw [this] at hs
      cases hs
  · intro h
    have h1 : B.near |x| < B.top := B.lt_top_of_small (h.trans (zpow_le_one_of_nonpos₀ one_le_two (by
      have := B.small; have := B.digits; omega)))
    obtain ⟨h2, h3⟩ := Fp.ofReal_spec h1
    exact Fp.eq_zero h2 (h3.trans (B.round_eq_zero.mpr h))

theorem Binary.near_natCast {n : Nat} (h : n ≤ 2 ^ B.p) : B.near (n : ℝ) = n := by
  rcases Nat.eq_zero_or_pos n with rfl | hn
  · rw [Nat.cast_zero, B.near_zero]
  have hn' : (0 : ℝ) < n := by exact_mod_cast hn
  have hd := B.digits
  have hsm := B.small
  suffices H : ∃ j : Nat, (n : ℝ) / 2 ^ B.place n = j by
    obtain ⟨j, hj⟩ := H
    unfold near
    rw [hj, roundEven_natCast, ← hj]
    field_simp
  rcases le_or_gt (B.place (n : ℝ)) 0 with hp | hp
  · obtain ⟨i, hi⟩ := Int.eq_ofNat_of_zero_le (neg_nonneg.mpr hp)
    refine ⟨n * 2 ^ i, ?_⟩
    rw [div_eq_mul_inv, ← zpow_neg, hi]
    push_cast
    rfl
  · have h1 := B.le_of_place hn' (by omega)
    have h2 : (n : ℝ) ≤ 2 ^ (B.p : ℤ) := by exact_mod_cast h
    have h3 := (zpow_le_zpow_iff_right₀ (one_lt_two (α := ℝ))).mp (h1.trans h2)
    have h4 : B.place (n : ℝ) = 1 := by omega
    rw [h4] at h1 ⊢
    have h5 : (n : ℝ) = 2 ^ (B.p : ℤ) := le_antisymm h2 (by rwa [add_sub_cancel_left] at h1)
    refine ⟨2 ^ (B.p - 1), ?_⟩
    rw [h5, ← zpow_sub₀ two_ne_zero]
    push_cast
    rw [← zpow_natCast]
    congr 1
    omega

/-- C84. Whole numbers up to `2 ^ p` are exact. -/
theorem C84_integers {n : Int} (h : |n| ≤ 2 ^ B.p) :
    (Fp.ofReal (n : ℝ) : Fp B).Finite ∧ (Fp.ofReal (n : ℝ) : Fp B).val = n := by
  have e : |(n : ℝ)| = ((n.natAbs : Nat) : ℝ) := by rw [Nat.cast_natAbs]; push_cast; rfl
  have h1 : n.natAbs ≤ 2 ^ B.p := by
    have : ((n.natAbs : Nat) : ℤ) ≤ ((2 ^ B.p : Nat) : ℤ) := by push_cast; exact h
    exact_mod_cast this
  have h2 := B.near_natCast h1
  obtain ⟨h3, h4⟩ := Fp.ofReal_spec (B := B) (x := n) (by
    rw [e]
    exact B.near_lt_top (by positivity) (by exact_mod_cast h1))
  refine ⟨h3, h4.trans ?_⟩
  unfold Binary.round
  rw [e, h2, ← e]
  split_ifs with hn
  · rw [abs_of_neg hn, neg_neg]
  · rw [abs_of_nonneg (not_lt.mp hn)]

/-- C84. If the library functions are accurate, `f32` and `f64` are formats in the sense of
`Spec/Rounding`, so that C78 applies to them. -/
theorem C84_sound {L : Libm B} (h : L.Accurate) : L.format.Sound := h.sound

/-! ## Non-vacuity -/

/-- Correctly rounded library functions are accurate and standard. -/
theorem Libm.rounded_accurate (B : Binary) : (Libm.rounded B).Accurate := by
  have hu : (2 : ℝ) ^ (-(B.p : ℤ)) ≤ (Libm.rounded B).u := le_rfl
  have key : ∀ x : ℝ, (Libm.rounded B).Acc (.ofReal x) x := fun x hx => by
    obtain ⟨h1, h2⟩ := Fp.ofReal_spec ((Libm.rounded B).near_lt hu hx)
    exact ⟨h1, (Libm.rounded B).round_close hu h2⟩
  have any : ∀ (f : ℝ → ℝ) p n (a : Fp B), a.Finite → (Libm.rounded B).Acc (Fp.lib f p n a) (f a.val) := by
    intro f p n a ha
    cases a with
    | nan => exact ha.elim
    | inf s => exact ha.elim
    | num s m k hs => exact key _
  have zero : ∀ a : Fp B, a.isZero = true → a.val = 0 := by
    intro a ha
    cases a with
    | nan => cases ha
    | inf s => cases ha
    | num s m k hs => exact (Fp.val_eq_zero s hs).mpr (by simpa [Fp.isZero] using ha)
  have hpos : (0 : ℝ) < (Libm.rounded B).u := show (0 : ℝ) < 2 ^ (-(B.p : ℤ)) by positivity
  refine ⟨hu, any _ _ _ _, fun {a} h h0 => ?_, fun h _ => any _ _ _ _ h, fun {a} h _ => ?_, any _ _ _ _, any _ _ _ _,
    any _ _ _ _, fun {a b} ha hb h0 => ?_⟩
  · have h1 : a.val ≠ 0 := h0.ne'
    have h2 : ¬ a.isZero = true := fun e => h1 (zero a e)
    have h3 : ¬ a.negative = true := fun e => absurd ((Fp.negative_spec h h1).mp e) h0.not_gt
    change (Libm.rounded B).Acc (if _ then _ else if _ then _ else _) _
    rw [if_neg h2, if_neg h3]
    exact any _ _ _ _ h
  · change (Libm.rounded B).Acc (if _ then _ else _) _
    split_ifs with h1
    · refine fun _ => ⟨h, ?_⟩
      rw [zero a h1, Real.sin_zero]
      simpa using hpos.le
    · exact any _ _ _ _ h
  · have hn : ¬ (a.isNan || b.isNan) = true := by
      cases a <;> cases b <;> first | exact ha.elim | exact hb.elim | exact Bool.false_ne_true
    change (Libm.rounded B).Acc (if _ then _ else if _ then _ else _) _
    rw [if_neg hn, if_neg]
    · exact key _
    · intro h
      rw [Bool.and_eq_true, Bool.and_eq_true] at h
      rcases h0 with h0 | h0
      · exact h0.ne' (zero b h.1.2)
      · exact h0 (zero a h.1.1)

theorem Libm.rounded_standard (B : Binary) : (Libm.rounded B).Standard where
  exp_nonneg {a} ha he := by
    cases a with
    | nan => exact ha.elim
    | inf s => exact ha.elim
    | num s m k hs =>
      have h0 : 0 ≤ Real.exp (Fp.num s m k hs).val := (Real.exp_pos _).le
      change 0 ≤ (Fp.ofReal (Real.exp _) : Fp B).val
      change (Fp.ofReal (Real.exp _) : Fp B).Finite at he
      by_cases h : B.near |Real.exp (Fp.num s m k hs).val| < B.top
      · rw [(Fp.ofReal_spec h).2, B.round_of_nonneg h0]
        exact B.near_nonneg _
      · have : (Fp.ofReal (Real.exp (Fp.num s m k hs).val) : Fp B) = _ :=
          Fp.ofAbs_inf (abs_nonneg _) (not_lt.mp h) _
        rw [this] at he
        exact he.elim
  ln_zero s := rfl
  ln_nonpos {a} ha h1 := by
    change (if a.isZero = true then (.inf true : Fp B) else if a.negative = true then .nan
      else Fp.lib Real.log (.inf false) .nan a).val ≤ 0
    split_ifs with h2 h3
    · exact le_rfl
    · exact le_rfl
    · cases a with
      | nan => exact ha.elim
      | inf s => exact ha.elim
      | num s m k hs =>
        have h0 : 0 ≤ (Fp.num s m k hs).val := by
          by_contra hc
          exact h3 ((Fp.negative_spec ha (not_le.mp hc).ne).mpr (not_le.mp hc))
        have hl : Real.log (Fp.num s m k hs).val ≤ 0 := Real.log_nonpos h0 h1
        change (Fp.ofReal (Real.log (Fp.num s m k hs).val) : Fp B).val ≤ 0
        by_cases h : B.near |Real.log (Fp.num s m k hs).val| < B.top
        · rw [(Fp.ofReal_spec h).2, ← B.round_eq_zero.mpr (show |(0 : ℝ)| ≤ _ by simp; positivity)]
          exact B.round_mono hl
        · have : (Fp.ofReal (Real.log (Fp.num s m k hs).val) : Fp B) = _ :=
            Fp.ofAbs_inf (abs_nonneg _) (not_lt.mp h) _
          rw [this]
          exact le_rfl
  cos_zero s := by
    change Fp.ofReal (Real.cos (Fp.zero s).val) = _
    rw [Fp.zero_val, Real.cos_zero]
    rfl
  sin_zero s := rfl
  cos_nan := rfl
  sin_nan := rfl
  atan_nan := rfl
  tanh_nan := rfl
  exp_nan := rfl
  atan2_zero s := rfl
  atan2_nan a := rfl

/-- `f32` and `f64` with such functions are formats of precision `2 ^ -24` and `2 ^ -53`. -/
example : (Libm.rounded binary32).format.Sound ∧ (Libm.rounded binary64).format.Sound
    ∧ (Libm.rounded binary32).format.u = 2 ^ (-24 : ℤ) ∧ (Libm.rounded binary64).format.u = 2 ^ (-53 : ℤ) :=
  ⟨C84_sound (Libm.rounded_accurate _), C84_sound (Libm.rounded_accurate _), rfl, rfl⟩

end Renplex
