import Verif.Spec.Ieee
import Mathlib.Algebra.Order.Floor.Semiring
/-!
# Rounding to the nearest number of a binary format
-/

namespace Renplex

/-! ## Rounding to natural numbers -/

theorem roundEven_le (y : ℝ) : roundEven y ≤ ⌊y⌋₊ + 1 := by
  unfold roundEven; split_ifs <;> omega

theorem le_roundEven (y : ℝ) : ⌊y⌋₊ ≤ roundEven y := by
  unfold roundEven; split_ifs <;> omega

theorem roundEven_natCast (n : Nat) : roundEven n = n := by
  unfold roundEven
  rw [Nat.floor_natCast, if_pos (by norm_num)]

theorem roundEven_mono {x y : ℝ} (h : x ≤ y) : roundEven x ≤ roundEven y := by
  have hf : ⌊x⌋₊ ≤ ⌊y⌋₊ := Nat.floor_mono h
  rcases hf.lt_or_eq with hlt | heq
  · exact (roundEven_le x).trans ((Nat.succ_le_of_lt hlt).trans (le_roundEven y))
  · unfold roundEven
    rw [heq]
    split_ifs <;> first | omega | (exfalso; linarith)

theorem abs_roundEven_sub {y : ℝ} (hy : 0 ≤ y) : |(roundEven y : ℝ) - y| ≤ 1 / 2 := by
  have h1 := Nat.floor_le hy
  have h2 := Nat.lt_floor_add_one y
  unfold roundEven
  split_ifs <;> rw [abs_le] <;> push_cast <;> constructor <;> linarith

theorem roundEven_eq_zero {y : ℝ} (hy : 0 ≤ y) : roundEven y = 0 ↔ y ≤ 1 / 2 := by
  constructor
  · intro h
    have := abs_le.mp (abs_roundEven_sub hy)
    rw [h] at this
    push_cast at this
    linarith
  · intro h
    have h0 : ⌊y⌋₊ = 0 := Nat.floor_eq_zero.mpr (by linarith)
    unfold roundEven
    rw [h0]
    split_ifs with h1 h2 h3
    · rfl
    · push_cast at h2; linarith
    · rfl
    · exact absurd Even.zero h3

/-! ## The last place -/

namespace Binary
variable (B : Binary)

/-- The value a non-negative number is rounded to if the exponents have no upper limit. -/
noncomputable def near (x : ℝ) : ℝ := roundEven (x / 2 ^ B.place x) * 2 ^ B.place x

/-- The first power of two that is too large. -/
noncomputable def top : ℝ := 2 ^ ((B.p : ℤ) + B.kmax)

theorem place_zero : B.place 0 = B.kmin := if_pos rfl

theorem place_eq {x : ℝ} (hx : 0 < x) : B.place x = max B.kmin (Int.log 2 x - (B.p - 1)) := if_neg hx.ne'

theorem kmin_le_place (x : ℝ) : B.kmin ≤ B.place x := by
  unfold place
  split_ifs
  · exact le_rfl
  · exact le_max_left _ _

theorem lt_of_place {x : ℝ} : x < 2 ^ (B.place x + B.p) := by
  by_cases hx : x = 0
  · rw [hx]; positivity
  refine (Int.lt_zpow_succ_log_self (R := ℝ) (b := 2) one_lt_two x).trans_le ?_
  push_cast
  refine zpow_le_zpow_right₀ one_le_two ?_
  have : Int.log 2 x - (B.p - 1) ≤ B.place x := (le_max_right _ _).trans (if_neg hx).ge
  omega

theorem le_of_place {x : ℝ} (hx : 0 < x) (h : B.kmin < B.place x) : 2 ^ (B.place x + B.p - 1) ≤ x := by
  have e : B.place x = Int.log 2 x - (B.p - 1) := by
    rw [B.place_eq hx] at h ⊢
    rcases max_choice B.kmin (Int.log 2 x - (B.p - 1)) with h' | h'
    · rw [h'] at h; exact absurd h (lt_irrefl _)
    · exact h'
  have := Int.zpow_log_le_self (R := ℝ) (b := 2) one_lt_two hx
  push_cast at this
  refine le_trans (le_of_eq ?_) this
  congr 1
  omega

theorem place_mono {x y : ℝ} (hx : 0 < x) (h : x ≤ y) : B.place x ≤ B.place y := by
  rw [B.place_eq hx, B.place_eq (hx.trans_le h)]
  exact max_le_max_left _ (sub_le_sub_right (Int.log_mono_right hx h) _)

theorem mant_le (x : ℝ) : roundEven (x / 2 ^ B.place x) ≤ 2 ^ B.p := by
  have h : x / 2 ^ B.place x ≤ ((2 ^ B.p : Nat) : ℝ) := by
    rw [div_le_iff₀ (by positivity)]
    push_cast
    rw [← zpow_natCast, ← zpow_add₀ two_ne_zero, add_comm]
    exact B.lt_of_place.le
  exact (roundEven_mono h).trans (roundEven_natCast _).le

theorem le_mant {x : ℝ} (hx : 0 < x) (h : B.kmin < B.place x) :
    2 ^ (B.p - 1) ≤ roundEven (x / 2 ^ B.place x) := by
  have h' : ((2 ^ (B.p - 1) : Nat) : ℝ) ≤ x / 2 ^ B.place x := by
    rw [le_div_iff₀ (by positivity)]
    push_cast
    rw [← zpow_natCast, ← zpow_add₀ two_ne_zero]
    refine le_trans (le_of_eq ?_) (B.le_of_place hx h)
    congr 1
    have := B.digits
    omega
  exact (roundEven_natCast _).ge.trans (roundEven_mono h')

theorem near_nonneg (x : ℝ) : 0 ≤ B.near x := by unfold near; positivity

theorem near_zero : B.near 0 = 0 := by
  unfold near
  rw [zero_div, show (0 : ℝ) = ((0 : Nat) : ℝ) from Nat.cast_zero.symm, roundEven_natCast]
  simp

/-- The rounding error. -/
theorem abs_near_sub {x : ℝ} (hx : 0 ≤ x) : |B.near x - x| ≤ 2 ^ (B.place x - 1) := by
  have h : B.near x - x = (roundEven (x / 2 ^ B.place x) - x / 2 ^ B.place x) * 2 ^ B.place x := by
    unfold near
    field_simp
  rw [h, abs_mul, abs_of_pos (show (0 : ℝ) < 2 ^ B.place x by positivity), zpow_sub_one₀ two_ne_zero]
  rw [mul_comm ((2 : ℝ) ^ _)]
  exact mul_le_mul_of_nonneg_right ((abs_roundEven_sub (by positivity)).trans (by norm_num)) (by positivity)

theorem abs_near_sub_le {x : ℝ} (hx : 0 ≤ x) :
    |B.near x - x| ≤ 2 ^ (-(B.p : ℤ)) * x ⊔ 2 ^ (B.kmin - 1) := by
  refine (B.abs_near_sub hx).trans ?_
  rcases (B.kmin_le_place x).lt_or_eq with h | h
  · refine le_sup_of_le_left ?_
    have hx' : 0 < x := by
      refine hx.lt_of_ne fun e => ?_
      rw [← e, place_zero] at h
      exact lt_irrefl _ h
    have h1 := B.le_of_place hx' h
    calc (2 : ℝ) ^ (B.place x - 1) = 2 ^ (-(B.p : ℤ)) * 2 ^ (B.place x + B.p - 1) := by
          rw [← zpow_add₀ two_ne_zero]; congr 1; omega
      _ ≤ _ := mul_le_mul_of_nonneg_left h1 (by positivity)
  · rw [← h]; exact le_sup_right

theorem near_mono {x y : ℝ} (hx : 0 ≤ x) (h : x ≤ y) : B.near x ≤ B.near y := by
  rcases hx.lt_or_eq with hx | rfl
  · rcases (B.place_mono hx h).lt_or_eq with hp | hp
    · have h1 : B.near x ≤ 2 ^ ((B.p : ℤ) + B.place x) := by
        unfold near
        rw [zpow_add₀ two_ne_zero, zpow_natCast]
        exact mul_le_mul_of_nonneg_right (by exact_mod_cast B.mant_le x) (by positivity)
      have h2 : 2 ^ ((B.p : ℤ) - 1 + B.place y) ≤ B.near y := by
        unfold near
        rw [zpow_add₀ two_ne_zero, show (B.p : ℤ) - 1 = ((B.p - 1 : Nat) : ℤ) by
          have := B.digits; omega, zpow_natCast]
        exact mul_le_mul_of_nonneg_right
          (by exact_mod_cast B.le_mant (hx.trans_le h) ((B.kmin_le_place x).trans_lt hp)) (by positivity)
      exact h1.trans ((zpow_le_zpow_right₀ one_le_two (by omega)).trans h2)
    · unfold near
      rw [← hp]
      refine mul_le_mul_of_nonneg_right ?_ (by positivity)
      exact_mod_cast roundEven_mono (div_le_div_of_nonneg_right h (by positivity))
  · rw [near_zero]; exact B.near_nonneg y

/-- What is stored is not rounded. -/
theorem near_stored {m : Nat} {k : Int} (h : B.Stored m k) : B.near (m * 2 ^ k) = m * 2 ^ k := by
  rcases Nat.eq_zero_or_pos m with rfl | hm
  · rw [Nat.cast_zero, zero_mul, near_zero]
  have hm' : (0 : ℝ) < m := by exact_mod_cast hm
  have e : B.place ((m : ℝ) * 2 ^ k) = k := by
    have hlt : (m : ℝ) * 2 ^ k < 2 ^ ((B.p : ℤ) + k) := by
      rw [zpow_add₀ two_ne_zero, zpow_natCast]
      exact mul_lt_mul_of_pos_right (by exact_mod_cast h.1) (by positivity)
    have hle : B.place ((m : ℝ) * 2 ^ k) ≤ k := by
      rw [B.place_eq (by positivity)]
      refine max_le h.2.1 ?_
      have := (Int.lt_zpow_iff_log_lt (R := ℝ) (b := 2) one_lt_two
        (show (0 : ℝ) < m * 2 ^ k by positivity) (x := (B.p : ℤ) + k)).mp (by exact_mod_cast hlt)
      omega
    refine le_antisymm hle ?_
    rcases h.2.2.2 with hp | rfl
    · rw [B.place_eq (by positivity)]
      refine le_trans ?_ (le_max_right _ _)
      have h2 : (2 : ℝ) ^ ((B.p : ℤ) - 1 + k) ≤ m * 2 ^ k := by
        rw [zpow_add₀ two_ne_zero, show (B.p : ℤ) - 1 = ((B.p - 1 : Nat) : ℤ) by
          have := B.digits; omega, zpow_natCast]
        exact mul_le_mul_of_nonneg_right (by exact_mod_cast hp) (by positivity)
      have := (Int.zpow_le_iff_le_log (R := ℝ) (b := 2) one_lt_two
        (show (0 : ℝ) < m * 2 ^ k by positivity) (x := (B.p : ℤ) - 1 + k)).mp (by exact_mod_cast h2)
      omega
    · exact B.kmin_le_place _
  unfold near
  rw [e, mul_div_assoc, div_self (by positivity), mul_one, roundEven_natCast]

/-- Numbers that are rounded to zero. -/
theorem near_eq_zero {x : ℝ} (hx : 0 ≤ x) : B.near x = 0 ↔ x ≤ 2 ^ (B.kmin - 1) := by
  have h0 : (0 : ℝ) < 2 ^ B.kmin := by positivity
  constructor
  · intro h
    have h1 : roundEven (x / 2 ^ B.place x) = 0 := by
      unfold near at h
      have := mul_eq_zero.mp h
      rcases this with h | h
      · exact_mod_cast h
      · exact absurd h (by positivity)
    rcases (B.kmin_le_place x).lt_or_eq with hk | hk
    · rcases hx.lt_or_eq with hx | rfl
      · have := B.le_mant hx hk
        rw [h1] at this
        exact absurd this (by simp)
      · positivity
    · rw [← hk, roundEven_eq_zero (by positivity), div_le_iff₀ h0] at h1
      rw [zpow_sub_one₀ two_ne_zero]
      linarith
  · intro h
    have hk : B.place x = B.kmin := by
      rcases hx.lt_or_eq with hx | rfl
      · rw [B.place_eq hx]
        refine max_eq_left ?_
        have := (Int.lt_zpow_iff_log_lt (R := ℝ) (b := 2) one_lt_two hx (x := B.kmin)).mp (by
          refine lt_of_le_of_lt h ?_
          push_cast
          exact zpow_lt_zpow_right₀ one_lt_two (by omega))
        have := B.digits
        omega
      · exact B.place_zero
    unfold near
    rw [hk, (roundEven_eq_zero (by positivity)).mpr, Nat.cast_zero, zero_mul]
    rw [div_le_iff₀ h0]
    rw [zpow_sub_one₀ two_ne_zero] at h
    linarith

end Binary

/-! ## Rounding to numbers of the format -/

namespace Fp
variable {B : Binary}

theorem zero_val (s : Bool) : (zero s : Fp B).val = 0 := by simp [zero, val]

theorem zero_finite (s : Bool) : (zero s : Fp B).Finite := trivial

theorem ofAbs_num {x : ℝ} (hx : 0 ≤ x) (h : B.near x < B.top) (s : Bool) :
    ∃ m k, ∃ hs : B.Stored m k, (ofAbs s x : Fp B) = num s m k hs ∧ (m : ℝ) * 2 ^ k = B.near x := by
  have hk : B.place x ≤ B.kmax := by
    by_contra hk
    rw [not_le] at hk
    have hl := B.large; have hsm := B.small; have hd := B.digits
    have hx' : 0 < x := by
      refine hx.lt_of_ne fun e => ?_
      rw [← e, B.place_zero] at hk
      omega
    have h1 : 2 ^ ((B.p : ℤ) - 1 + B.place x) ≤ B.near x := by
      unfold Binary.near
      rw [zpow_add₀ two_ne_zero, show (B.p : ℤ) - 1 = ((B.p - 1 : Nat) : ℤ) by omega, zpow_natCast]
      exact mul_le_mul_of_nonneg_right (by exact_mod_cast B.le_mant hx' (by omega)) (by positivity)
    refine absurd h (not_lt.mpr (le_trans ?_ h1))
    exact zpow_le_zpow_right₀ one_le_two (by omega)
  have hlow : 2 ^ (B.p - 1) ≤ roundEven (x / 2 ^ B.place x) ∨ B.place x = B.kmin := by
    rcases (B.kmin_le_place x).lt_or_eq with hk' | hk'
    · rcases hx.lt_or_eq with hx | rfl
      · exact .inl (B.le_mant hx hk')
      · exact .inr B.place_zero
    · exact .inr hk'.symm
  rcases (B.mant_le x).lt_or_eq with hm | hm
  · have hs : B.Stored (roundEven (x / 2 ^ B.place x)) (B.place x) := ⟨hm, B.kmin_le_place x, hk, hlow⟩
    refine ⟨_, _, hs, ?_, rfl⟩
    unfold ofAbs
    exact dif_pos hs
  · have hn : ¬ B.Stored (roundEven (x / 2 ^ B.place x)) (B.place x) := fun h => absurd h.1 hm.ge.not_gt
    have hp : 2 ^ B.p = 2 * 2 ^ (B.p - 1) := by
      rw [← pow_succ']
      congr 1
      have := B.digits
      omega
    have hv : B.near x = 2 ^ ((B.p : ℤ) + B.place x) := by
      unfold Binary.near
      rw [hm, zpow_add₀ two_ne_zero, zpow_natCast]
      push_cast
      rfl
    have hk1 : B.place x + 1 ≤ B.kmax := by
      rw [hv, Binary.top] at h
      have := (zpow_lt_zpow_iff_right₀ (one_lt_two (α := ℝ))).mp h
      omega
    have hs : B.Stored (2 ^ (B.p - 1)) (B.place x + 1) := by
      refine ⟨?_, by have := B.kmin_le_place x; omega, hk1, .inl le_rfl⟩
      rw [hp]
      have : 0 < 2 ^ (B.p - 1) := by positivity
      omega
    refine ⟨_, _, hs, ?_, ?_⟩
    · unfold ofAbs
      rw [dif_neg hn, dif_pos hs]
    · rw [hv]
      push_cast
      rw [← zpow_natCast, ← zpow_add₀ two_ne_zero]
      congr 1
      have := B.digits
      omega

theorem ofAbs_inf {x : ℝ} (hx : 0 ≤ x) (h : B.top ≤ B.near x) (s : Bool) : (ofAbs s x : Fp B) = inf s := by
  have hb : ∀ m k, B.Stored m k → (m : ℝ) * 2 ^ k < B.top := by
    intro m k hs
    unfold Binary.top
    rw [zpow_add₀ two_ne_zero, zpow_natCast]
    have h1 : (m : ℝ) < 2 ^ B.p := by exact_mod_cast hs.1
    have h2 : (2 : ℝ) ^ k ≤ 2 ^ B.kmax := zpow_le_zpow_right₀ one_le_two hs.2.2.1
    calc (m : ℝ) * 2 ^ k ≤ m * 2 ^ B.kmax := mul_le_mul_of_nonneg_left h2 (by positivity)
      _ < _ := mul_lt_mul_of_pos_right h1 (by positivity)
  have h1 : ¬ B.Stored (roundEven (x / 2 ^ B.place x)) (B.place x) := fun hs => absurd (hb _ _ hs) h.not_gt
  have h2 : ¬ B.Stored (2 ^ (B.p - 1)) (B.place x + 1) := by
    intro hs
    refine absurd h (not_le.mpr ?_)
    refine lt_of_le_of_lt ?_ (zpow_lt_zpow_right₀ one_lt_two
      (show (B.p : ℤ) + B.place x < B.p + B.kmax by have := hs.2.2.1; omega))
    unfold Binary.near
    rw [zpow_add₀ two_ne_zero, zpow_natCast]
    exact mul_le_mul_of_nonneg_right (by exact_mod_cast B.mant_le x) (by positivity)
  unfold ofAbs
  rw [dif_neg h1, dif_neg h2]

theorem val_num (s : Bool) {m : Nat} {k : Int} (h : B.Stored m k) :
    (num s m k h).val = (if s then -1 else 1) * ((m : ℝ) * 2 ^ k) := rfl

theorem abs_val_num (s : Bool) {m : Nat} {k : Int} (h : B.Stored m k) :
    |(num s m k h).val| = (m : ℝ) * 2 ^ k := by
  rw [val_num, abs_mul, abs_of_nonneg (show (0 : ℝ) ≤ m * 2 ^ k by positivity)]
  cases s <;> simp

theorem val_eq_zero (s : Bool) {m : Nat} {k : Int} (h : B.Stored m k) :
    (num s m k h).val = 0 ↔ m = 0 := by
  rw [← abs_eq_zero, abs_val_num, mul_eq_zero]
  refine ⟨fun h => h.elim (fun h => by exact_mod_cast h) fun h => absurd h (by positivity), fun h => .inl (by rw [h]; simp)⟩

/-- Rounding to the nearest number, exponents being unlimited. -/
noncomputable def _root_.Renplex.Binary.round (B : Binary) (x : ℝ) : ℝ :=
  if x < 0 then -B.near |x| else B.near |x|

theorem ofReal_spec {x : ℝ} (h : B.near |x| < B.top) :
    (ofReal x : Fp B).Finite ∧ (ofReal x : Fp B).val = B.round x := by
  obtain ⟨m, k, hs, e, hv⟩ := ofAbs_num (B := B) (abs_nonneg x) h (decide (x < 0))
  unfold ofReal Binary.round
  rw [e]
  refine ⟨trivial, ?_⟩
  rw [val_num, hv]
  by_cases hx : x < 0 <;> simp [hx]

theorem ofAbs_spec {s : Bool} {x : ℝ} (hs : x ≠ 0 → (s = true ↔ x < 0)) (h : B.near |x| < B.top) :
    (ofAbs s |x| : Fp B).Finite ∧ (ofAbs s |x| : Fp B).val = B.round x := by
  obtain ⟨m, k, hm, e, hv⟩ := ofAbs_num (B := B) (abs_nonneg x) h s
  unfold Binary.round
  rw [e]
  refine ⟨trivial, ?_⟩
  rw [val_num, hv]
  by_cases hx : x = 0
  · rw [hx]; simp [B.near_zero]
  · have := hs hx
    by_cases hx : x < 0
    · rw [if_pos hx, if_pos (this.mpr hx)]; ring
    · rw [if_neg hx, if_neg fun h => hx (this.mp h)]; ring

end Fp

/-! ## Properties of rounding -/

namespace Binary
variable (B : Binary)

theorem round_zero : B.round 0 = 0 := by simp [round, near_zero]

theorem round_of_nonneg {x : ℝ} (hx : 0 ≤ x) : B.round x = B.near x := by
  rw [round, if_neg hx.not_gt, abs_of_nonneg hx]

theorem round_neg (x : ℝ) : B.round (-x) = -B.round x := by
  unfold round
  rw [abs_neg]
  rcases lt_trichotomy x 0 with h | rfl | h
  · rw [if_pos h, if_neg (by linarith), neg_neg]
  · simp [near_zero]
  · rw [if_neg h.not_gt, if_pos (by linarith)]

theorem abs_round (x : ℝ) : |B.round x| = B.near |x| := by
  unfold round
  split_ifs
  · rw [abs_neg, abs_of_nonneg (B.near_nonneg _)]
  · rw [abs_of_nonneg (B.near_nonneg _)]

theorem round_mono {x y : ℝ} (h : x ≤ y) : B.round x ≤ B.round y := by
  rcases lt_or_ge x 0 with hx | hx
  · rcases lt_or_ge y 0 with hy | hy
    · unfold round
      rw [if_pos hx, if_pos hy, neg_le_neg_iff]
      exact B.near_mono (abs_nonneg _) (by rw [abs_of_neg hx, abs_of_neg hy]; linarith)
    · rw [B.round_of_nonneg hy, round, if_pos hx]
      have := B.near_nonneg |x|; have := B.near_nonneg y
      linarith
  · rw [B.round_of_nonneg hx, B.round_of_nonneg (hx.trans h)]
    exact B.near_mono hx h

/-- The error of rounding: half a unit in the last place. -/
theorem abs_round_sub_le (x : ℝ) : |B.round x - x| ≤ 2 ^ (-(B.p : ℤ)) * |x| ⊔ 2 ^ (B.kmin - 1) := by
  have h := B.abs_near_sub_le (abs_nonneg x)
  unfold round
  split_ifs with hx
  · rw [abs_of_neg hx] at h ⊢
    rw [show -B.near (-x) - x = -(B.near (-x) - -x) by ring, abs_neg]
    exact h
  · rw [abs_of_nonneg (not_lt.mp hx)] at h ⊢
    exact h

theorem round_val {a : Fp B} (h : a.Finite) : B.round a.val = a.val := by
  cases a with
  | nan => exact h.elim
  | inf s => exact h.elim
  | num s m k hs =>
    have h1 := B.near_stored hs
    have h2 : B.round ((m : ℝ) * 2 ^ k) = m * 2 ^ k := by rw [B.round_of_nonneg (by positivity), h1]
    rw [Fp.val_num]
    cases s
    · simpa using h2
    · simpa [B.round_neg] using h2

theorem round_eq_zero {x : ℝ} : B.round x = 0 ↔ |x| ≤ 2 ^ (B.kmin - 1) := by
  rw [← abs_eq_zero, B.abs_round, B.near_eq_zero (abs_nonneg x)]

theorem stored_two_pow {k : ℤ} (h1 : B.kmin ≤ k - (B.p - 1)) (h2 : k - (B.p - 1) ≤ B.kmax) :
    B.Stored (2 ^ (B.p - 1)) (k - (B.p - 1)) :=
  ⟨Nat.pow_lt_pow_right one_lt_two (by have := B.digits; omega), h1, h2, .inl le_rfl⟩

theorem near_two_pow {k : ℤ} (h1 : B.kmin ≤ k - (B.p - 1)) (h2 : k - (B.p - 1) ≤ B.kmax) :
    B.near (2 ^ k) = 2 ^ k := by
  have e : (2 : ℝ) ^ k = ((2 ^ (B.p - 1) : Nat) : ℝ) * 2 ^ (k - (B.p - 1)) := by
    push_cast
    rw [← zpow_natCast, ← zpow_add₀ two_ne_zero]
    congr 1
    have := B.digits
    omega
  rw [e, B.near_stored (B.stored_two_pow h1 h2)]

theorem near_lt_top {x : ℝ} (h0 : 0 ≤ x) (h : x ≤ 2 ^ (B.p : ℤ)) : B.near x < B.top := by
  have := B.small; have := B.large; have := B.digits
  refine (B.near_mono h0 h).trans_lt ?_
  rw [B.near_two_pow (by omega) (by omega)]
  exact zpow_lt_zpow_right₀ one_lt_two (by omega)

end Binary

/-! ## The operations on finite numbers -/

namespace Fp
variable {B : Binary} {a b : Fp B}

theorem neg_spec (ha : a.Finite) : a.neg.Finite ∧ a.neg.val = -a.val := by
  cases a with
  | nan => exact ha.elim
  | inf s => exact ha.elim
  | num s m k hs => exact ⟨trivial, by cases s <;> simp [neg, val]⟩

theorem add_spec (ha : a.Finite) (hb : b.Finite) (h : B.near |a.val + b.val| < B.top) :
    (a.add b).Finite ∧ (a.add b).val = B.round (a.val + b.val) := by
  cases a with
  | nan => exact ha.elim
  | inf s => exact ha.elim
  | num s m k hs =>
    cases b with
    | nan => exact hb.elim
    | inf s => exact hb.elim
    | num t m' k' hs' =>
      simp only [add]
      split_ifs with h0
      · rw [h0, B.round_zero]
        exact ⟨zero_finite _, zero_val _⟩
      · exact ofReal_spec h

theorem sub_spec (ha : a.Finite) (hb : b.Finite) (h : B.near |a.val - b.val| < B.top) :
    (a.sub b).Finite ∧ (a.sub b).val = B.round (a.val - b.val) := by
  obtain ⟨h1, h2⟩ := neg_spec hb
  have := add_spec ha h1 (by rw [h2, ← sub_eq_add_neg]; exact h)
  rw [h2, ← sub_eq_add_neg] at this
  exact this

theorem sign_num (s : Bool) {m : Nat} {k : Int} (h : B.Stored m k) (h0 : (num s m k h).val ≠ 0) :
    s = true ↔ (num s m k h).val < 0 := by
  have : (0 : ℝ) < m * 2 ^ k := by
    rw [← abs_val_num s h]
    exact abs_pos.mpr h0
  rw [val_num]
  cases s
  · simp only [Bool.false_eq_true, if_false, one_mul, false_iff, not_lt]; exact this.le
  · simp only [if_true, true_iff]; linarith

theorem mul_spec (ha : a.Finite) (hb : b.Finite) (h : B.near |a.val * b.val| < B.top) :
    (a.mul b).Finite ∧ (a.mul b).val = B.round (a.val * b.val) := by
  cases a with
  | nan => exact ha.elim
  | inf s => exact ha.elim
  | num s m k hs =>
    cases b with
    | nan => exact hb.elim
    | inf s => exact hb.elim
    | num t m' k' hs' =>
      refine ofAbs_spec (fun h0 => ?_) h
      have h1 := sign_num s hs (left_ne_zero_of_mul h0)
      have h2 := sign_num t hs' (right_ne_zero_of_mul h0)
      rw [mul_neg_iff]
      have h3 := left_ne_zero_of_mul h0
      have h4 := right_ne_zero_of_mul h0
      cases s <;> cases t <;> simp only [Bool.false_eq_true, false_iff, true_iff, not_lt, Bool.xor_false,
        Bool.xor_true, Bool.not_true, Bool.not_false] at h1 h2 ⊢
      · rintro (h | h) <;> linarith [h.1, h.2]
      · exact .inl ⟨lt_of_le_of_ne h1 h3.symm, h2⟩
      · exact .inr ⟨h1, lt_of_le_of_ne h2 h4.symm⟩
      · rintro (h | h) <;> linarith [h.1, h.2]

theorem div_spec (ha : a.Finite) (hb : b.Finite) (hb0 : b.val ≠ 0) (h : B.near |a.val / b.val| < B.top) :
    (a.div b).Finite ∧ (a.div b).val = B.round (a.val / b.val) := by
  cases a with
  | nan => exact ha.elim
  | inf s => exact ha.elim
  | num s m k hs =>
    cases b with
    | nan => exact hb.elim
    | inf s => exact hb.elim
    | num t m' k' hs' =>
      simp only [div]
      rw [if_neg (mt (val_eq_zero t hs').mpr hb0)]
      refine ofAbs_spec (fun h0 => ?_) h
      have h3 : (num s m k hs).val ≠ 0 := fun e => h0 (by rw [e, zero_div])
      have h1 := sign_num s hs h3
      have h2 := sign_num t hs' hb0
      rw [div_neg_iff]
      cases s <;> cases t <;> simp only [Bool.false_eq_true, false_iff, true_iff, not_lt, Bool.xor_false,
        Bool.xor_true, Bool.not_true, Bool.not_false] at h1 h2 ⊢
      · rintro (h | h) <;> linarith [h.1, h.2]
      · exact .inl ⟨lt_of_le_of_ne h1 h3.symm, h2⟩
      · exact .inr ⟨h1, lt_of_le_of_ne h2 hb0.symm⟩
      · rintro (h | h) <;> linarith [h.1, h.2]

theorem sqrt_spec (ha : a.Finite) (h0 : 0 ≤ a.val) (h : B.near (Real.sqrt a.val) < B.top) :
    a.sqrt.Finite ∧ a.sqrt.val = B.round (Real.sqrt a.val) := by
  cases a with
  | nan => exact ha.elim
  | inf s => exact ha.elim
  | num s m k hs =>
    simp only [sqrt]
    split_ifs with hm hs'
    · have := (val_eq_zero s hs).mpr hm
      refine ⟨trivial, ?_⟩
      rw [this, Real.sqrt_zero, B.round_zero]
    · exfalso
      have h1 : (num s m k hs).val ≠ 0 := mt (val_eq_zero s hs).mp hm
      exact absurd ((sign_num s hs h1).mp hs') h0.not_gt
    · have := ofAbs_spec (B := B) (s := false) (x := Real.sqrt (num s m k hs).val)
        (fun _ => by simp only [Bool.false_eq_true, false_iff, not_lt]; positivity)
        (by rwa [abs_of_nonneg (Real.sqrt_nonneg _)])
      rwa [abs_of_nonneg (Real.sqrt_nonneg _)] at this

theorem lt_spec (ha : a.Finite) (hb : b.Finite) : a.lt b = true ↔ a.val < b.val := by
  cases a with
  | nan => exact ha.elim
  | inf s => exact ha.elim
  | num s m k hs =>
    cases b with
    | nan => exact hb.elim
    | inf s => exact hb.elim
    | num t m' k' hs' => simp [lt]

theorem beq_spec (ha : a.Finite) (hb : b.Finite) : a.beq b = true ↔ a.val = b.val := by
  cases a with
  | nan => exact ha.elim
  | inf s => exact ha.elim
  | num s m k hs =>
    cases b with
    | nan => exact hb.elim
    | inf s => exact hb.elim
    | num t m' k' hs' => simp [beq]

theorem le_spec (ha : a.Finite) (hb : b.Finite) : a.le b = true ↔ a.val ≤ b.val := by
  rw [le, Bool.or_eq_true, lt_spec ha hb, beq_spec ha hb, le_iff_lt_or_eq]

theorem negative_spec (ha : a.Finite) (h0 : a.val ≠ 0) : a.negative = true ↔ a.val < 0 := by
  cases a with
  | nan => exact ha.elim
  | inf s => exact ha.elim
  | num s m k hs => exact sign_num s hs h0

end Fp

/-! ## The format is sound -/

theorem Libm.near_lt {B : Binary} {L : Libm B} (hu : (2 : ℝ) ^ (-(B.p : ℤ)) ≤ L.u) {x : ℝ} (hx : L.u * |x| ≤ 1) :
    B.near |x| < B.top := by
  refine B.near_lt_top (abs_nonneg x) ?_
  have h : (2 : ℝ) ^ (-(B.p : ℤ)) * |x| ≤ 1 := (mul_le_mul_of_nonneg_right hu (abs_nonneg x)).trans hx
  rwa [zpow_neg, inv_mul_le_iff₀ (by positivity), mul_one] at h

theorem Libm.round_close {B : Binary} {L : Libm B} (hu : (2 : ℝ) ^ (-(B.p : ℤ)) ≤ L.u) {c x : ℝ} (hc : c = B.round x) :
    |c - x| ≤ L.u * (1 + |x|) := by
  subst hc
  have h0 : (0 : ℝ) < 2 ^ (-(B.p : ℤ)) := by positivity
  have h1 : (2 : ℝ) ^ (B.kmin - 1) ≤ 2 ^ (-(B.p : ℤ)) :=
    zpow_le_zpow_right₀ one_le_two (by have := B.small; omega)
  refine (B.abs_round_sub_le x).trans (max_le ?_ ?_)
  · nlinarith [abs_nonneg x]
  · nlinarith [abs_nonneg x]

theorem Libm.Accurate.sound {B : Binary} {L : Libm B} (h : L.Accurate) : L.format.Sound where
  u_nonneg := le_trans (by positivity) h.u_ge
  add ha hb := fun hx => by
    obtain ⟨h1, h2⟩ := Fp.add_spec ha hb (L.near_lt h.u_ge hx)
    exact ⟨h1, L.round_close h.u_ge h2⟩
  sub ha hb := fun hx => by
    obtain ⟨h1, h2⟩ := Fp.sub_spec ha hb (L.near_lt h.u_ge hx)
    exact ⟨h1, L.round_close h.u_ge h2⟩
  mul ha hb := fun hx => by
    obtain ⟨h1, h2⟩ := Fp.mul_spec ha hb (L.near_lt h.u_ge hx)
    exact ⟨h1, L.round_close h.u_ge h2⟩
  div ha hb h0 := fun hx => by
    obtain ⟨h1, h2⟩ := Fp.div_spec ha hb h0 (L.near_lt h.u_ge hx)
    exact ⟨h1, L.round_close h.u_ge h2⟩
  neg ha := fun hx => by
    obtain ⟨h1, h2⟩ := Fp.neg_spec ha
    refine ⟨h1, ?_⟩
    have : (0 : ℝ) ≤ L.u := le_trans (by positivity) h.u_ge
    exact (abs_eq_zero.mpr (sub_eq_zero.mpr h2)).le.trans (mul_nonneg this (by positivity))
  lit n d hd := fun hx => by
    obtain ⟨h1, h2⟩ := Fp.ofReal_spec (L.near_lt h.u_ge hx)
    exact ⟨h1, L.round_close h.u_ge h2⟩
  ofNat n := fun hx => by
    obtain ⟨h1, h2⟩ := Fp.ofReal_spec (L.near_lt h.u_ge hx)
    exact ⟨h1, L.round_close h.u_ge h2⟩
  sq {a} ha := fun hx => by
    rw [sq] at hx ⊢
    obtain ⟨h1, h2⟩ := Fp.mul_spec ha ha (L.near_lt h.u_ge hx)
    exact ⟨h1, L.round_close h.u_ge h2⟩
  sqrt ha h0 := fun hx => by
    obtain ⟨h1, h2⟩ := Fp.sqrt_spec ha h0 (by
      have := L.near_lt h.u_ge hx
      rwa [abs_of_nonneg (Real.sqrt_nonneg _)] at this)
    exact ⟨h1, L.round_close h.u_ge h2⟩
  exp ha := h.exp ha
  ln ha _ h0 := h.ln ha h0
  cos ha hx := h.cos ha hx
  sin ha hx := h.sin ha hx
  tanh ha := h.tanh ha
  cosh ha := h.cosh ha
  atan ha := h.atan ha
  atan2 ha hb h0 := h.atan2 ha hb h0
  pi := fun hx => by
    obtain ⟨h1, h2⟩ := Fp.ofReal_spec (L.near_lt h.u_ge hx)
    exact ⟨h1, L.round_close h.u_ge h2⟩
  lt ha hb := Fp.lt_spec ha hb
  le ha hb := Fp.le_spec ha hb
  beq ha hb := Fp.beq_spec ha hb
  signNeg {a} ha h0 := by
    obtain ⟨a⟩ := a
    cases a with
    | nan => exact ha.elim
    | inf s => exact ha.elim
    | num s m k hs => exact Fp.sign_num s hs h0

end Renplex
