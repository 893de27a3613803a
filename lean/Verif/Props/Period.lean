import Verif.Props.Random
import Mathlib.NumberTheory.LucasPrimality
import Mathlib.Tactic.NormNum.Prime
import Mathlib.GroupTheory.OrderOfElement
import Mathlib.Algebra.BigOperators.Intervals
/-!
# C72: the period of the random numbers
-/

namespace Renplex
open Rng

/-! ## Affine maps modulo a prime -/

section
variable {p a b c : Nat}

theorem affine_iter (f : Nat → Nat) (hf : ∀ s, f s = (a * s + b) % p) (hc : (a * c + b) % p = c % p)
    (s k : Nat) : ((f^[k] s : Nat) : ZMod p) - c = (a : ZMod p) ^ k * ((s : ZMod p) - c) := by
  have hc' : (a : ZMod p) * c + b = c := by
    have := congrArg (Nat.cast (R := ZMod p)) hc
    simpa using this
  induction k with
  | zero => simp
  | succ k ih =>
    rw [Function.iterate_succ_apply', hf]
    simp only [ZMod.natCast_mod, Nat.cast_add, Nat.cast_mul]
    rw [pow_succ, mul_comm _ (a : ZMod p), mul_assoc, ← ih]
    linear_combination hc'

variable [Fact p.Prime] (f : Nat → Nat) (hf : ∀ s, f s = (a * s + b) % p)
  (hc : (a * c + b) % p = c % p) (ho : orderOf (a : ZMod p) = p - 1)

include hf hc ho in
/-- A state away from the fixed point comes back exactly after the multiples of `p - 1`. -/
theorem affine_return {s : Nat} (hs : s % p ≠ c % p) (i j : Nat) :
    f^[i] s % p = f^[j] s % p ↔ i ≡ j [MOD (p - 1)] := by
  have hp : 0 < p - 1 := by have := (Fact.out : p.Prime).two_le; omega
  have hne : (s : ZMod p) - c ≠ 0 := by
    rw [sub_ne_zero]
    intro h
    exact hs ((ZMod.natCast_eq_natCast_iff' _ _ _).mp h)
  have ha : (a : ZMod p) ≠ 0 := by
    intro h0
    rw [h0, orderOf_eq_zero_iff'.mpr (fun n hn => by rw [zero_pow hn.ne']; exact zero_ne_one)] at ho
    omega
  have hu : orderOf (Units.mk0 (a : ZMod p) ha) = p - 1 := by
    rw [← orderOf_units, Units.val_mk0, ho]
  rw [← hu, ← pow_eq_pow_iff_modEq, ← ZMod.natCast_eq_natCast_iff', ← sub_left_inj (a := (c : ZMod p)),
    affine_iter f hf hc, affine_iter f hf hc, mul_left_inj' hne, Units.ext_iff]
  simp only [Units.val_pow_eq_pow_val, Units.val_mk0]

include hf hc ho in
/-- All states but the fixed point form one cycle. -/
theorem affine_cycle {s : Nat} (hs : s < p) (hcp : c < p) (hne : s ≠ c) :
    (Finset.range (p - 1)).image (fun k => f^[k] s) = (Finset.range p).erase c := by
  have hp0 : 0 < p := by omega
  have hlt : ∀ k, f^[k] s < p := by
    intro k
    cases k with
    | zero => exact hs
    | succ k => rw [Function.iterate_succ_apply', hf]; exact Nat.mod_lt _ hp0
  have hs' : s % p ≠ c % p := by rwa [Nat.mod_eq_of_lt hs, Nat.mod_eq_of_lt hcp]
  have hret := affine_return f hf hc ho hs'
  refine Finset.eq_of_subset_of_card_le ?_ ?_
  · intro t ht
    obtain ⟨k, -, rfl⟩ := Finset.mem_image.mp ht
    refine Finset.mem_erase.mpr ⟨fun h => ?_, Finset.mem_range.mpr (hlt k)⟩
    have h1 := affine_iter f hf hc s k
    rw [h, sub_self] at h1
    rcases mul_eq_zero.mp h1.symm with h2 | h2
    · have h0 := eq_zero_of_pow_eq_zero h2
      have hp := (Fact.out : p.Prime).two_le
      rw [h0, orderOf_eq_zero_iff'.mpr (fun n hn => by rw [zero_pow hn.ne']; exact zero_ne_one)] at ho
      omega
    · exact hs' ((ZMod.natCast_eq_natCast_iff' _ _ _).mp (sub_eq_zero.mp h2))
  · rw [Finset.card_erase_of_mem (Finset.mem_range.mpr hcp), Finset.card_range,
      Finset.card_image_of_injOn, Finset.card_range]
    intro i hi j hj hij
    have := (hret i j).mp (by rw [show f^[i] s = f^[j] s from hij])
    have hi := Finset.mem_range.mp (Finset.mem_coe.mp hi)
    have hj := Finset.mem_range.mp (Finset.mem_coe.mp hj)
    rwa [Nat.ModEq, Nat.mod_eq_of_lt hi, Nat.mod_eq_of_lt hj] at this

end

/-! ## The multiplier -/

theorem factor_cases {q : Nat} (hq : q.Prime) (h : q ∣ 2147483646) :
    q = 2 ∨ q = 3 ∨ q = 7 ∨ q = 11 ∨ q = 31 ∨ q = 151 ∨ q = 331 := by
  rw [show 2147483646 = 2 * 3 * 3 * 7 * 11 * 31 * 151 * 331 by norm_num] at h
  simp only [hq.dvd_mul] at h
  have e : ∀ r : Nat, r.Prime → q ∣ r → q = r := fun r hr => (Nat.prime_dvd_prime_iff_eq hq hr).mp
  have p2 := e 2 (by norm_num)
  have p3 := e 3 (by norm_num)
  have p7 := e 7 (by norm_num)
  have p11 := e 11 (by norm_num)
  have p31 := e 31 (by norm_num)
  have p151 := e 151 (by norm_num)
  have p331 := e 331 (by norm_num)
  rcases h with ((((((h | h) | h) | h) | h) | h) | h) | h
  · exact .inl (p2 h)
  · exact .inr (.inl (p3 h))
  · exact .inr (.inl (p3 h))
  · exact .inr (.inr (.inl (p7 h)))
  · exact .inr (.inr (.inr (.inl (p11 h))))
  · exact .inr (.inr (.inr (.inr (.inl (p31 h)))))
  · exact .inr (.inr (.inr (.inr (.inr (.inl (p151 h))))))
  · exact .inr (.inr (.inr (.inr (.inr (.inr (p331 h))))))

/-- Powers by repeated squaring, at most `f` bits. -/
def powMod (m : Nat) : Nat → Nat → Nat → Nat
  | 0, _, _ => 1 % m
  | f + 1, a, e => if e % 2 = 1 then a * powMod m f (a * a % m) (e / 2) % m
      else powMod m f (a * a % m) (e / 2)

theorem powMod_eq (m f a e : Nat) (h : e < 2 ^ f) : powMod m f a e = a ^ e % m := by
  induction f generalizing a e with
  | zero =>
    obtain rfl : e = 0 := by simpa using h
    rfl
  | succ f ih =>
    have h1 : e / 2 < 2 ^ f := by rw [pow_succ] at h; omega
    have h2 : (a * a % m) ^ (e / 2) % m = a ^ (2 * (e / 2)) % m := by
      rw [← Nat.pow_mod, pow_mul, pow_two]
    rw [powMod, ih _ _ h1, h2]
    split
    · rw [Nat.mul_mod, Nat.mod_mod, ← Nat.mul_mod, ← pow_succ']
      congr 2
      omega
    · congr 2
      omega

theorem cast_pow_one (n : Nat) (h : n < 2 ^ 31) : ((1103515245 : Nat) : ZMod 2147483647) ^ n = 1
    ↔ powMod 2147483647 31 1103515245 n = 1 := by
  rw [powMod_eq _ _ _ _ h, ← Nat.cast_pow, ← Nat.cast_one, ZMod.natCast_eq_natCast_iff',
    Nat.mod_eq_of_lt (a := 1) (by norm_num)]

theorem multiplier_pow : ((1103515245 : Nat) : ZMod 2147483647) ^ 2147483646 = 1 := by
  rw [cast_pow_one _ (by norm_num)]; decide

theorem multiplier_div (q : Nat) (hq : q.Prime) (h : q ∣ 2147483646) :
    ((1103515245 : Nat) : ZMod 2147483647) ^ (2147483646 / q) ≠ 1 := by
  rw [ne_eq, cast_pow_one _ (Nat.lt_of_le_of_lt (Nat.div_le_self _ _) (by norm_num))]
  rcases factor_cases hq h with rfl | rfl | rfl | rfl | rfl | rfl | rfl
  all_goals decide

theorem modulus_prime : Nat.Prime 2147483647 :=
  lucas_primality _ _ multiplier_pow multiplier_div

theorem multiplier_order : orderOf ((1103515245 : Nat) : ZMod 2147483647) = 2147483646 :=
  orderOf_eq_of_pow_and_pow_div_prime (by norm_num) multiplier_pow multiplier_div

/-! ## C72 -/

theorem lcgNext_eq (s : Nat) : lcgNext s = (1103515245 * s + 12345) % 2147483647 := rfl

theorem iterate_lt (s k : Nat) : lcgNext^[k + 1] s < 2147483647 := by
  rw [Function.iterate_succ_apply']; exact lcgNext_lt _

/-- C72. From every seed not congruent to 1934915413 modulo 2^31-1, the states after `i` and after `j`
draws agree exactly if `i` and `j` differ by a multiple of 2^31-2. -/
theorem C72_period (seed : Nat) (hs : seed % (2 ^ 31 - 1) ≠ 1934915413) (i j : Nat) :
    lcgNext^[i + 1] seed = lcgNext^[j + 1] seed ↔ i ≡ j [MOD 2 ^ 31 - 2] := by
  haveI : Fact (Nat.Prime 2147483647) := ⟨modulus_prime⟩
  have key := affine_return (p := 2147483647) (a := 1103515245) (b := 12345) (c := 1934915413) lcgNext
    lcgNext_eq (by norm_num) multiplier_order (s := seed) (by
      rw [Nat.mod_eq_of_lt (a := 1934915413) (by norm_num)]; exact hs) (i + 1) (j + 1)
  rw [Nat.mod_eq_of_lt (iterate_lt seed i), Nat.mod_eq_of_lt (iterate_lt seed j)] at key
  rw [key]
  exact ⟨fun h => Nat.ModEq.add_right_cancel' 1 h, fun h => Nat.ModEq.add_right 1 h⟩

/-- C72. The seeds congruent to 1934915413 are stuck: every draw leaves the same state. -/
theorem C72_stuck (seed : Nat) (hs : seed % (2 ^ 31 - 1) = 1934915413) (k : Nat) :
    lcgNext^[k + 1] seed = 1934915413 := by
  induction k with
  | zero =>
    have : lcgNext seed = 1934915413 := by
      have h := Nat.ModEq.add_right 12345 (Nat.ModEq.mul_left 1103515245
        (show seed ≡ 1934915413 [MOD 2147483647] from hs.trans (by norm_num)))
      rw [lcgNext_eq, h]
    exact this
  | succ k ih => rw [Function.iterate_succ_apply', ih, lcgNext_eq]

theorem lcgNext_stuck (s : Nat) (hs : s % (2 ^ 31 - 1) ≠ 1934915413) :
    lcgNext s ≠ 1934915413 := by
  intro h
  have h1 := C72_period s hs 0 1
  simp only [Function.iterate_succ_apply', Function.iterate_zero, id_eq, h] at h1
  have h2 : lcgNext 1934915413 = 1934915413 := C72_stuck 1934915413 (by norm_num) 0
  rw [h2] at h1
  have h3 := h1.mp rfl
  rw [Nat.ModEq] at h3
  norm_num at h3

/-- C72. In 2^31-2 consecutive draws from such a seed every state below 2^31-1 other than 1934915413
occurs, and exactly once. -/
theorem C72_cycle (seed : Nat) (hs : seed % (2 ^ 31 - 1) ≠ 1934915413) (t : Nat)
    (ht : t < 2 ^ 31 - 1) (hne : t ≠ 1934915413) :
    ∃! k, k < 2 ^ 31 - 2 ∧ lcgNext^[k + 1] seed = t := by
  haveI : Fact (Nat.Prime 2147483647) := ⟨modulus_prime⟩
  have key := affine_cycle (p := 2147483647) (a := 1103515245) (b := 12345) (c := 1934915413) lcgNext
    lcgNext_eq (by norm_num) multiplier_order (s := lcgNext seed) (lcgNext_lt seed) (by norm_num)
    (lcgNext_stuck seed hs)
  have hm : t ∈ (Finset.range 2147483647).erase 1934915413 :=
    Finset.mem_erase.mpr ⟨hne, Finset.mem_range.mpr ht⟩
  rw [← key] at hm
  obtain ⟨k, hk, e⟩ := Finset.mem_image.mp hm
  have hk : k < 2 ^ 31 - 2 := Finset.mem_range.mp hk
  refine ⟨k, ⟨hk, e⟩, ?_⟩
  rintro k' ⟨h1, h2⟩
  have := (C72_period seed hs k' k).mp (h2.trans e.symm)
  rw [Nat.ModEq, Nat.mod_eq_of_lt h1, Nat.mod_eq_of_lt hk] at this
  exact this

/-- C72, in terms of the calls: any sequence of draws, of whatever kinds, brings a state below 2^31-1
other than the stuck one back exactly if its length is a multiple of 2^31-2. -/
theorem C72_calls {R : Type} [Scalar R] (s : Nat) (h : s < 2 ^ 31 - 1) (hne : s ≠ 1934915413)
    (ds : List Draw) (hd : ∀ l, Draw.index l ∈ ds → 1 ≤ l ∧ l ≤ 2 ^ 31 - 1) :
    ds.foldlM (Draw.run R) s = some s ↔ 2 ^ 31 - 2 ∣ ds.length := by
  obtain ⟨s', h1, h2, -⟩ := C24_state (R := R) s (fits_of_lt h) ds hd
  have h : s < 2147483647 := h
  haveI : Fact (Nat.Prime 2147483647) := ⟨modulus_prime⟩
  have key := affine_return (p := 2147483647) (a := 1103515245) (b := 12345) (c := 1934915413) lcgNext
    lcgNext_eq (by norm_num) multiplier_order (s := s) (by
      rw [Nat.mod_eq_of_lt (a := 1934915413) (by norm_num), Nat.mod_eq_of_lt h]; exact hne)
      ds.length 0
  have hlt : lcgNext^[ds.length] s < 2147483647 := by
    cases ds with
    | nil => exact h
    | cons d ds => exact iterate_lt s ds.length
  rw [Function.iterate_zero_apply, Nat.mod_eq_of_lt hlt, Nat.mod_eq_of_lt h] at key
  rw [h1, h2, Option.some_inj, key]
  exact Nat.modEq_zero_iff_dvd

theorem cycle_image (seed : Nat) (hs : seed % (2 ^ 31 - 1) ≠ 1934915413) :
    (Finset.range (2 ^ 31 - 2)).image (fun k => lcgNext^[k + 1] seed)
      = (Finset.range (2 ^ 31 - 1)).erase 1934915413 := by
  ext t
  rw [Finset.mem_image, Finset.mem_erase, Finset.mem_range]
  constructor
  · rintro ⟨k, -, rfl⟩
    refine ⟨?_, iterate_lt seed k⟩
    intro h
    have h1 := C72_period seed hs k (k + 1)
    rw [Function.iterate_succ_apply' lcgNext (k + 1), h] at h1
    have h2 : lcgNext 1934915413 = 1934915413 := C72_stuck 1934915413 (by norm_num) 0
    rw [h2] at h1
    have h3 := h1.mp rfl
    have h4 := (Nat.modEq_iff_dvd' (Nat.le_succ k)).mp h3
    rw [show k.succ - k = 1 by omega] at h4
    have := Nat.le_of_dvd Nat.one_pos h4
    norm_num at this
  · rintro ⟨h1, h2⟩
    obtain ⟨k, ⟨h3, h4⟩, -⟩ := C72_cycle seed hs t h2 h1
    exact ⟨k, Finset.mem_range.mpr h3, h4⟩

theorem cycle_sum (seed : Nat) (hs : seed % (2 ^ 31 - 1) ≠ 1934915413) (g : Nat → ℝ) :
    ∑ k ∈ Finset.range (2 ^ 31 - 2), g (lcgNext^[k + 1] seed)
      = ∑ t ∈ (Finset.range (2 ^ 31 - 1)).erase 1934915413, g t := by
  rw [← cycle_image seed hs, Finset.sum_image]
  intro i hi j hj hij
  have hi := Finset.mem_range.mp (Finset.mem_coe.mp hi)
  have hj := Finset.mem_range.mp (Finset.mem_coe.mp hj)
  have := (C72_period seed hs i j).mp hij
  rwa [Nat.ModEq, Nat.mod_eq_of_lt hi, Nat.mod_eq_of_lt hj] at this

/-- C72, exact arithmetic. The draws in `[0,1)` repeat exactly with that period. -/
theorem C72_draws (seed : Nat) (hs : seed % (2 ^ 31 - 1) ≠ 1934915413) (i j : Nat) :
    draw seed i = draw seed j ↔ i ≡ j [MOD 2 ^ 31 - 2] := by
  rw [← C72_period seed hs, draw, draw, div_left_inj' (by positivity), Nat.cast_inj]

/-- C72, exact arithmetic. Over a full period the draws are equally distributed: for every `T` up to
2^31-1, exactly `T` of them lie below `T / 2^31` (one less if the stuck state lies below `T`). -/
theorem C72_uniform (seed : Nat) (hs : seed % (2 ^ 31 - 1) ≠ 1934915413) (T : Nat)
    (hT : T ≤ 2 ^ 31 - 1) :
    ((Finset.range (2 ^ 31 - 2)).filter fun k => draw seed k < T / 2 ^ 31).card
      = if 1934915413 < T then T - 1 else T := by
  have h1 : ∀ k, draw seed k < T / 2 ^ 31 ↔ lcgNext^[k + 1] seed < T := by
    intro k
    rw [draw, div_lt_div_iff_of_pos_right (by positivity), Nat.cast_lt]
  rw [Finset.filter_congr fun k _ => h1 k]
  have h2 : ((Finset.range (2 ^ 31 - 2)).filter fun k => lcgNext^[k + 1] seed < T).card
      = (((Finset.range (2 ^ 31 - 1)).erase 1934915413).filter fun t => t < T).card := by
    have := cycle_sum seed hs fun t => if t < T then 1 else 0
    rw [Finset.sum_boole, Finset.sum_boole] at this
    exact_mod_cast this
  have h3 : ((Finset.range (2 ^ 31 - 1)).erase 1934915413).filter (fun t => t < T)
      = (Finset.range T).erase 1934915413 := by
    ext t
    simp only [Finset.mem_filter, Finset.mem_erase, Finset.mem_range]
    constructor
    · rintro ⟨⟨a1, a2⟩, a3⟩; exact ⟨a1, a3⟩
    · rintro ⟨a1, a3⟩; exact ⟨⟨a1, Nat.lt_of_lt_of_le a3 hT⟩, a3⟩
  rw [h2, h3]
  split
  · rename_i h
    rw [Finset.card_erase_of_mem (Finset.mem_range.mpr h), Finset.card_range]
  · rename_i h
    rw [Finset.erase_eq_of_notMem (by rwa [Finset.mem_range]), Finset.card_range]

theorem sum_erase (n c : Nat) (h : c < n) (d : ℝ) :
    ∑ t ∈ (Finset.range n).erase c, ((t : ℝ) / d) = ((n : ℝ) * (n - 1) / 2 - c) / d := by
  have h3 : ∀ m : Nat, ∑ t ∈ Finset.range m, (t : ℝ) = m * (m - 1) / 2 := by
    intro m
    induction m with
    | zero => simp
    | succ m ih => rw [Finset.sum_range_succ, ih]; push_cast; ring
  rw [← Finset.sum_div, Finset.sum_erase_eq_sub (Finset.mem_range.mpr h), h3]

/-- C72, exact arithmetic. Their mean over a full period differs from 1/2 by less than 10⁻⁹. -/
theorem C72_mean (seed : Nat) (hs : seed % (2 ^ 31 - 1) ≠ 1934915413) :
    |(∑ k ∈ Finset.range (2 ^ 31 - 2), draw seed k) / (2 ^ 31 - 2) - 1 / 2| < 1 / 10 ^ 9 := by
  have h1 := cycle_sum seed hs fun t => (t : ℝ) / 2 ^ 31
  have h2 := sum_erase (2 ^ 31 - 1) 1934915413 (by norm_num) (2 ^ 31)
  have h6 : ∑ k ∈ Finset.range (2 ^ 31 - 2), draw seed k
      = ((2 ^ 31 - 1) * (2 ^ 31 - 2) / 2 - 1934915413) / 2 ^ 31 := by
    rw [show ∑ k ∈ Finset.range (2 ^ 31 - 2), draw seed k = _ from h1, h2, Nat.cast_ofNat,
      Nat.cast_sub (by norm_num), Nat.cast_pow, Nat.cast_ofNat, Nat.cast_one]
    ring
  rw [h6, abs_lt]
  constructor <;> norm_num

/-- The seed of the example programs is not stuck, nor are the two seeds of the signals. -/
example : 224783561 % (2 ^ 31 - 1) ≠ 1934915413 ∧ 223895746827 % (2 ^ 31 - 1) ≠ 1934915413
    ∧ 4346877248692 % (2 ^ 31 - 1) ≠ 1934915413 := by norm_num

end Renplex
