import Verif.Spec.Streams
import Verif.Props.Period
import Verif.Props.SignalValue
import Verif.Props.ExampleNets
/-!
# C115: the stretches of random numbers the programs use
-/

namespace Renplex
open Rng

/-! ## One cycle -/

/-- C115. All seeds but the stuck one give the same endless sequence of states, each from another place
on. The distance between two seeds is unique below the period. -/
theorem C115_shift (s t : Nat) (hs : s % (2 ^ 31 - 1) ≠ 1934915413) (ht : t % (2 ^ 31 - 1) ≠ 1934915413) :
    ∃! k, k < 2 ^ 31 - 2 ∧ ∀ i, lcgNext^[i + 1] t = lcgNext^[k + i + 1] s := by
  obtain ⟨k, ⟨h1, h2⟩, h3⟩ := C72_cycle s hs (lcgNext t) (lcgNext_lt t) (lcgNext_stuck t ht)
  refine ⟨k, ⟨h1, fun i => ?_⟩, fun k' h' => h3 k' ⟨h'.1, ?_⟩⟩
  · rw [Function.iterate_add_apply lcgNext i 1, show k + i + 1 = i + (k + 1) by omega,
      Function.iterate_add_apply lcgNext i (k + 1), h2]
    rfl
  · exact (h'.2 0).symm

/-- C115. When two stretches of draws have a state in common: exactly if one starts within the other. -/
theorem C115_overlap (s t k : Nat) (hs : s % (2 ^ 31 - 1) ≠ 1934915413) (hk : k < 2 ^ 31 - 2)
    (h : lcgNext t = lcgNext^[k + 1] s) {n m : Nat} (hn : 0 < n) (hn' : n ≤ 2 ^ 31 - 2) (hm : 0 < m)
    (hm' : m ≤ 2 ^ 31 - 2) :
    Disjoint (visited s n) (visited t m) ↔ n ≤ k ∧ m ≤ 2 ^ 31 - 2 - k := by
  have ht : ∀ i, lcgNext^[i + 1] t = lcgNext^[k + i + 1] s := by
    intro i
    rw [Function.iterate_add_apply lcgNext i 1, show k + i + 1 = i + (k + 1) by omega,
      Function.iterate_add_apply lcgNext i (k + 1), ← h]
    rfl
  rw [Finset.disjoint_left]
  simp only [visited, Finset.mem_image, Finset.mem_range, not_exists, not_and, forall_exists_index, and_imp, forall_apply_eq_imp_iff₂]
  constructor
  · intro hd
    constructor
    · by_contra hc
      exact hd k (by omega) 0 hm (by rw [ht 0])
    · by_contra hc
      refine hd 0 hn (2 ^ 31 - 2 - k) (by omega) ?_
      rw [ht, C72_period s hs]
      have : k + (2 ^ 31 - 2 - k) = 2 ^ 31 - 2 := by omega
      rw [this]
      exact (Nat.modEq_zero_iff_dvd.mpr (dvd_refl _))
  · rintro ⟨h1, h2⟩ i hi j hj e
    rw [ht, C72_period s hs] at e
    have : k + j ≡ i [MOD 2 ^ 31 - 2] := e
    rw [Nat.ModEq, Nat.mod_eq_of_lt (by omega), Nat.mod_eq_of_lt (by omega)] at this
    omega

/-- C115. Within a period no state comes twice. -/
theorem C115_distinct (s : Nat) (hs : s % (2 ^ 31 - 1) ≠ 1934915413) {n : Nat} (hn : n ≤ 2 ^ 31 - 2) :
    (visited s n).card = n := by
  rw [visited, Finset.card_image_of_injOn, Finset.card_range]
  intro i hi j hj hij
  have hi := Finset.mem_range.mp (Finset.mem_coe.mp hi)
  have hj := Finset.mem_range.mp (Finset.mem_coe.mp hj)
  have := (C72_period s hs i j).mp hij
  rwa [Nat.ModEq, Nat.mod_eq_of_lt (by omega), Nat.mod_eq_of_lt (by omega)] at this

/-- C115. The state after `k` draws in closed form, for jumping ahead: the distance from the stuck state is
multiplied by the `k`-th power of the multiplier. -/
theorem C115_jump (s k : Nat) : lcgNext^[k + 1] s
    = (1103515245 ^ (k + 1) * (s + 212568234) + 1934915413) % (2 ^ 31 - 1) := by
  have h := affine_iter (p := 2147483647) (a := 1103515245) (b := 12345) (c := 1934915413) lcgNext lcgNext_eq
    (by norm_num) s (k + 1)
  have hc : -((1934915413 : Nat) : ZMod 2147483647) = ((212568234 : Nat) : ZMod 2147483647) := by
    rw [neg_eq_iff_add_eq_zero, ← Nat.cast_add]
    exact (ZMod.natCast_eq_zero_iff _ _).mpr (by norm_num)
  have h' : ((lcgNext^[k + 1] s : Nat) : ZMod 2147483647)
      = ((1103515245 ^ (k + 1) * (s + 212568234) + 1934915413 : Nat) : ZMod 2147483647) := by
    rw [sub_eq_iff_eq_add.mp h, Nat.cast_add, Nat.cast_mul, Nat.cast_add, Nat.cast_pow, ← hc, sub_eq_add_neg]
  have := (ZMod.natCast_eq_natCast_iff' _ _ _).mp h'
  rwa [Nat.mod_eq_of_lt (iterate_lt s k)] at this

/-- C115. Seeds that differ by `d` give states that differ by `d` times the same powers of the multiplier,
whatever the seeds. -/
theorem C115_difference (s d k : Nat) :
    lcgNext^[k + 1] (s + d) ≡ lcgNext^[k + 1] s + 1103515245 ^ (k + 1) * d [MOD 2 ^ 31 - 1] := by
  rw [C115_jump, C115_jump]
  refine (Nat.mod_modEq _ _).trans (Nat.ModEq.trans ?_ ((Nat.mod_modEq _ _).symm.add_right _))
  rw [show 1103515245 ^ (k + 1) * (s + d + 212568234) + 1934915413
    = 1103515245 ^ (k + 1) * (s + 212568234) + 1934915413 + 1103515245 ^ (k + 1) * d by ring]

/-- The seed of the programs and its successor: all draws but one in common. -/
example : ¬ Disjoint (visited 224783561 10) (visited (lcgNext 224783561) 10) := by
  rw [C115_overlap 224783561 _ 1 (by norm_num) (by norm_num) rfl (by norm_num) (by norm_num) (by norm_num)
    (by norm_num)]
  norm_num

/-! ## The signals -/

theorem waveCount_bounds (s : Nat) : 1 ≤ waveCount s ∧ waveCount s ≤ 9 := by
  have := lcgNext_lt s
  unfold waveCount
  omega

/-- C115. Where the seeds stand after `k` signals. -/
theorem C115_consumed (samples seed k : Nat) :
    (nextTrain samples)^[k] seed = lcgNext^[trainDraws samples seed k] seed
      ∧ (nextTest samples)^[k] seed = lcgNext^[testDraws samples seed k] seed
      ∧ k * (samples + 4) ≤ trainDraws samples seed k ∧ trainDraws samples seed k ≤ k * (samples + 28)
      ∧ k * (3 * samples + 4) ≤ testDraws samples seed k
      ∧ testDraws samples seed k ≤ k * (3 * samples + 28) := by
  induction k with
  | zero => simp [trainDraws, testDraws]
  | succ k ih =>
    obtain ⟨h1, h2, h3, h4, h5, h6⟩ := ih
    have w1 := waveCount_bounds ((nextTrain samples)^[k] seed)
    have w2 := waveCount_bounds ((nextTest samples)^[k] seed)
    refine ⟨?_, ?_, ?_, ?_, ?_, ?_⟩
    · rw [Function.iterate_succ_apply', trainDraws, Nat.add_comm (trainDraws _ _ _), Function.iterate_add_apply,
        ← h1]
      rfl
    · rw [Function.iterate_succ_apply', testDraws, Nat.add_comm (testDraws _ _ _), Function.iterate_add_apply,
        ← h2]
      rfl
    all_goals
      simp only [trainDraws, testDraws, Nat.add_mul, Nat.one_mul]
      omega

/-- C115. No two training signals are made from the same states of the generator, as long as fewer draws
than a period have been taken; the same for the draws from the test seed. -/
theorem C115_signals (samples seed : Nat) (hs : seed % (2 ^ 31 - 1) ≠ 1934915413) {j k : Nat} (hjk : j < k) :
    (trainDraws samples seed (k + 1) ≤ 2 ^ 31 - 2 →
      Disjoint (visited ((nextTrain samples)^[j] seed) (1 + 3 * waveCount ((nextTrain samples)^[j] seed) + samples))
        (visited ((nextTrain samples)^[k] seed) (1 + 3 * waveCount ((nextTrain samples)^[k] seed) + samples)))
    ∧ (testDraws samples seed (k + 1) ≤ 2 ^ 31 - 2 →
      Disjoint (visited ((nextTest samples)^[j] seed) (1 + 3 * waveCount ((nextTest samples)^[j] seed) + 3 * samples))
        (visited ((nextTest samples)^[k] seed) (1 + 3 * waveCount ((nextTest samples)^[k] seed) + 3 * samples))) := by
  have key : ∀ e n e' n', e + n ≤ e' → e' + n' ≤ 2 ^ 31 - 2 →
      Disjoint (visited (lcgNext^[e] seed) n) (visited (lcgNext^[e'] seed) n') := by
    intro e n e' n' h1 h2
    rw [Finset.disjoint_left]
    simp only [visited, Finset.mem_image, Finset.mem_range, not_exists, not_and, forall_exists_index, and_imp,
      forall_apply_eq_imp_iff₂]
    intro i hi i' hi' h
    rw [← Function.iterate_add_apply, ← Function.iterate_add_apply, show i' + 1 + e' = i' + e' + 1 by omega,
      show i + 1 + e = i + e + 1 by omega, C72_period seed hs, Nat.ModEq, Nat.mod_eq_of_lt (by omega),
      Nat.mod_eq_of_lt (by omega)] at h
    omega
  have mono : ∀ {f : Nat → Nat}, (∀ i, f i ≤ f (i + 1)) → f (j + 1) ≤ f k :=
    fun h => monotone_nat_of_le_succ h hjk
  constructor
  · intro h
    have e1 := (C115_consumed samples seed j).1
    have e2 := (C115_consumed samples seed k).1
    have := mono (f := trainDraws samples seed) fun i => Nat.le_add_right _ _
    simp only [trainDraws] at this h
    generalize waveCount ((nextTrain samples)^[j] seed) = x at *
    generalize waveCount ((nextTrain samples)^[k] seed) = y at *
    rw [e1, e2]
    exact key _ _ _ _ this h
  · intro h
    have e1 := (C115_consumed samples seed j).2.1
    have e2 := (C115_consumed samples seed k).2.1
    have := mono (f := testDraws samples seed) fun i => Nat.le_add_right _ _
    simp only [testDraws] at this h
    generalize waveCount ((nextTest samples)^[j] seed) = x at *
    generalize waveCount ((nextTest samples)^[k] seed) = y at *
    rw [e1, e2]
    exact key _ _ _ _ this h

/-! ## The programs -/

theorem jump_eq (s t k : Nat) (hk : k + 1 < 2 ^ 31)
    (h : (powMod 2147483647 31 1103515245 (k + 1) * (s + 212568234) + 1934915413) % 2147483647
      = lcgNext t) : lcgNext t = lcgNext^[k + 1] s := by
  rw [C115_jump, ← h, powMod_eq _ _ _ _ hk]
  exact (Nat.ModEq.add_right _ (Nat.ModEq.mul_right _ (Nat.mod_modEq _ _)))

/-- Where the seeds of the two programs lie on the cycle, in draws after the seed in use. -/
def placed : List (Nat × Nat) := [(0, 224783561), (11989861, 891298565), (272546462, 981347827),
  (506838549, 4346877248692), (689362973, 918232853), (1085642485, 348769349), (1131959623, 223895746827),
  (2046216998, 328557473)]

theorem placed_right : ∀ q ∈ placed, q.1 < 2 ^ 31 - 2 ∧ q.2 % (2 ^ 31 - 1) ≠ 1934915413
    ∧ lcgNext q.2 = lcgNext^[q.1 + 1] 224783561 := by
  simp only [placed, List.mem_cons, List.not_mem_nil, or_false, forall_eq_or_imp, forall_eq]
  refine ⟨⟨by norm_num, by norm_num, ?_⟩, ⟨by norm_num, by norm_num, ?_⟩, ⟨by norm_num, by norm_num, ?_⟩,
    ⟨by norm_num, by norm_num, ?_⟩, ⟨by norm_num, by norm_num, ?_⟩, ⟨by norm_num, by norm_num, ?_⟩,
    ⟨by norm_num, by norm_num, ?_⟩, by norm_num, by norm_num, ?_⟩
  all_goals exact jump_eq _ _ _ (by norm_num) (by decide)

/-- Stretches from two of these seeds. -/
theorem placed_apart {q r : Nat × Nat} (hq : q ∈ placed) (hr : r ∈ placed) (h : q.1 < r.1) {n m : Nat}
    (hn : q.1 + n ≤ r.1) (hm : r.1 + m ≤ 2 ^ 31 - 2 + q.1) :
    Disjoint (visited q.2 n) (visited r.2 m) := by
  obtain ⟨q1, q2, q3⟩ := placed_right q hq
  obtain ⟨r1, r2, r3⟩ := placed_right r hr
  rcases Nat.eq_zero_or_pos n with rfl | h0
  · simp [visited]
  rcases Nat.eq_zero_or_pos m with rfl | h0'
  · simp [visited]
  refine (C115_overlap q.2 r.2 (r.1 - q.1) q2 (by omega) ?_ h0 (by omega) h0' (by omega)).mpr (by omega)
  rw [r3, Function.iterate_add_apply lcgNext (r.1 - q.1) 1, Function.iterate_one, q3,
    ← Function.iterate_add_apply, show r.1 - q.1 + (q.1 + 1) = r.1 + 1 by omega]

/-- C115. The two seeds listed in the programs for the initial weights that are closest to each other on
the cycle are eleven million draws apart, so networks started from different ones share no draw: the three
networks of the programs take 45632, 65944 and 174080 draws. -/
theorem C115_seeds {s t n : Nat}
    (hs : s ∈ [891298565, 918232853, 328557473, 348769349, 224783561, 981347827])
    (ht : t ∈ [891298565, 918232853, 328557473, 348769349, 224783561, 981347827]) (hst : s ≠ t)
    (hn : n ≤ 11989861) : Disjoint (visited s n) (visited t n) := by
  have key : ∀ s ∈ [891298565, 918232853, 328557473, 348769349, 224783561, 981347827],
      ∃ q ∈ placed, q.2 = s := by decide
  have apart : ∀ q ∈ placed, ∀ r ∈ placed, q.1 < r.1 →
      q.1 + 11989861 ≤ r.1 ∧ r.1 + 11989861 ≤ 2147483646 + q.1 := by decide
  have same : ∀ q ∈ placed, ∀ r ∈ placed, q.1 = r.1 → q.2 = r.2 := by decide
  obtain ⟨q, hq, rfl⟩ := key s hs
  obtain ⟨r, hr, rfl⟩ := key t ht
  rcases Nat.lt_trichotomy q.1 r.1 with h | h | h
  · have := apart q hq r hr h
    exact placed_apart hq hr h (by omega) (by omega)
  · exact absurd (same q hq r hr h) hst
  · have := apart r hr q hq h
    exact (placed_apart hr hq h (by omega) (by omega)).symm

/-- C115. In the regression program the initial weights, the training seed and the test seed use three
stretches of the cycle that have no state in common, and no state comes twice in any of them. An epoch
makes 20000 signals of each kind; all epochs start from the same two seeds. -/
theorem C115_regression :
    let N := trainDraws 512 223895746827 20000
    let M := testDraws 512 4346877248692 20000
    N ≤ 10800000 ∧ M ≤ 31280000
      ∧ Disjoint (visited 224783561 174080) (visited 223895746827 N)
      ∧ Disjoint (visited 224783561 174080) (visited 4346877248692 M)
      ∧ Disjoint (visited 223895746827 N) (visited 4346877248692 M)
      ∧ (visited 224783561 174080).card = 174080 ∧ (visited 223895746827 N).card = N
      ∧ (visited 4346877248692 M).card = M := by
  intro N M
  have hN : N ≤ 10800000 := (C115_consumed 512 223895746827 20000).2.2.2.1
  have hM : M ≤ 31280000 := (C115_consumed 512 4346877248692 20000).2.2.2.2.2
  have h0 : (0, 224783561) ∈ placed := by decide
  have h1 : (1131959623, 223895746827) ∈ placed := by decide
  have h2 : (506838549, 4346877248692) ∈ placed := by decide
  refine ⟨hN, hM, placed_apart h0 h1 (by norm_num) (by norm_num) ?_, placed_apart h0 h2 (by norm_num) (by norm_num) ?_,
    (placed_apart h2 h1 (by norm_num) ?_ ?_).symm, C115_distinct _ (by norm_num) (by norm_num),
    C115_distinct _ (by norm_num) ?_, C115_distinct _ (by norm_num) ?_⟩
  all_goals
    clear_value N M
    try simp only
    omega

/-- C115. That these are the draws the program takes: its network ends the stretch for the weights, and an
epoch those of the two seeds. -/
theorem C115_program (thr : ℝ) :
    (∃ n : Net (Cf .w32 ℝ), Examples.autoEncoder 224783561 512 = some ((3, n), lcgNext^[174080] 224783561))
      ∧ ∃ d dt : Dataset (Cf .w32 ℝ), Signal.reconstruction 512 thr 20000 223895746827 4346877248692 Dataset.new
        Dataset.new = some ((d, dt), lcgNext^[trainDraws 512 223895746827 20000] 223895746827,
          lcgNext^[testDraws 512 4346877248692 20000] 4346877248692) := by
  constructor
  · obtain ⟨n, h, -⟩ := C69_auto_encoder (R := ℝ) 512 (by norm_num) 224783561 (by norm_num)
    exact ⟨n, h⟩
  · obtain ⟨d, dt, h, -⟩ := C68_partial 512 (by norm_num) thr 20000 223895746827 4346877248692 (by norm_num)
      (by norm_num)
    rw [(C115_consumed 512 223895746827 20000).1, (C115_consumed 512 4346877248692 20000).2.1] at h
    exact ⟨d, dt, h⟩

end Renplex
