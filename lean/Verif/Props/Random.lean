import Verif.Lemmas.Exact
import Verif.Model.Gen
import Verif.Spec.Random
import Mathlib.NumberTheory.LucasLehmer
/-!
# C24–C28: random numbers and initial values
-/

namespace Renplex
open Rng

/-! ## C24 state range -/

/-- One call of a generator function: `lcgf32`/`lcgf64` or `lcgi(limit)`. -/
inductive Draw
  | float
  | index (limit : Nat)

/-- The seed after the call. -/
def Draw.run (R : Type) [Scalar R] (seed : Nat) : Draw → Run Nat
  | .float => (lcgf (R := R) seed).map (·.2)
  | .index limit => (lcgi seed limit).map (·.2)

theorem lcgNext_lt (s : Nat) : lcgNext s < 2 ^ 31 - 1 := Nat.mod_lt _ (by norm_num)

theorem step_eq (s : Nat) (h : 1103515245 * s + 12345 < 2 ^ 128) : step s = some (lcgNext s) := by
  have h' : a * s + b < u128 := h
  simp only [step, h', if_true]; rfl

theorem step_none (s : Nat) (h : ¬ 1103515245 * s + 12345 < 2 ^ 128) : step s = none := by
  have h' : ¬ a * s + b < u128 := h
  simp only [step, h', if_false]

theorem fits_of_lt {s : Nat} (h : s < 2 ^ 31 - 1) : 1103515245 * s + 12345 < 2 ^ 128 := by
  omega

theorem Draw.run_eq {R : Type} [Scalar R] (s : Nat) (h : 1103515245 * s + 12345 < 2 ^ 128)
    (d : Draw) (hd : ∀ l, d = .index l → 1 ≤ l ∧ l ≤ 2 ^ 31 - 1) :
    d.run R s = some (lcgNext s) := by
  cases d with
  | float => simp [Draw.run, lcgf, step_eq s h]
  | index l =>
    obtain ⟨h1, h2⟩ := hd l rfl
    have h3 : (m - 1) / l ≠ 0 := by
      have : 1 ≤ (m - 1) / l := (Nat.one_le_div_iff (by omega)).mpr (by simpa [m] using h2)
      omega
    simp only [Draw.run, lcgi, step_eq s h, Option.bind_eq_bind, Option.bind_some]
    rw [if_neg (by omega), if_neg h3]
    rfl

/-- C24. From any seed the first multiplication can hold, any sequence of draws (indices with a
limit between 1 and 2^31-1) runs without overflow; the seed is the iterated update, hence depends
only on the seed and the number of draws, and lies below 2^31-1. -/
theorem C24_state {R : Type} [Scalar R] (seed : Nat) (h : 1103515245 * seed + 12345 < 2 ^ 128)
    (ds : List Draw) (hd : ∀ l, Draw.index l ∈ ds → 1 ≤ l ∧ l ≤ 2 ^ 31 - 1) :
    ∃ s, ds.foldlM (Draw.run R) seed = some s ∧ s = lcgNext^[ds.length] seed
      ∧ (ds ≠ [] → s < 2 ^ 31 - 1) := by
  induction ds generalizing seed with
  | nil => exact ⟨seed, rfl, rfl, fun h => absurd rfl h⟩
  | cons d ds ih =>
    have h1 := Draw.run_eq (R := R) seed h d (fun l hl => hd l (by simp [hl]))
    obtain ⟨s, hs1, hs2, hs3⟩ := ih (lcgNext seed) (fits_of_lt (lcgNext_lt seed))
      (fun l hl => hd l (by simp [hl]))
    refine ⟨s, by rw [List.foldlM_cons, h1]; exact hs1, by rw [hs2]; rfl, fun _ => ?_⟩
    cases ds with
    | nil =>
      have : s = lcgNext seed := by rw [hs2]; rfl
      rw [this]; exact lcgNext_lt seed
    | cons d' ds => exact hs3 (by simp)

/-- C24. Seeds the first multiplication cannot hold panic. -/
theorem C24_overflow {R : Type} [Scalar R] (seed : Nat)
    (h : ¬ 1103515245 * seed + 12345 < 2 ^ 128) (d : Draw) : d.run R seed = none := by
  cases d <;> simp [Draw.run, lcgf, lcgi, step_none seed h]

/-- The seed of the documentation examples, 10 draws. -/
example : 1103515245 * 12345 + 12345 < 2 ^ 128 := by norm_num

/-! ## C25 draws in [0,1) -/

theorem lcgf_real (seed : Nat) (h : 1103515245 * seed + 12345 < 2 ^ 128) :
    lcgf (R := ℝ) seed = some ((lcgNext seed : ℝ) / 2 ^ 31, lcgNext seed) := by
  have hm : ((m : ℕ) : ℝ) = 2 ^ 31 := by unfold m; norm_num
  simp only [lcgf, step_eq seed h, Option.bind_eq_bind, Option.bind_some, sdiv, sofNat, hm]

theorem draw_range (s : Nat) : (0 : ℝ) ≤ (lcgNext s : ℝ) / 2 ^ 31 ∧ (lcgNext s : ℝ) / 2 ^ 31 < 1 := by
  refine ⟨by positivity, ?_⟩
  rw [div_lt_one (by positivity)]
  have := lcgNext_lt s
  have h2 : lcgNext s < 2 ^ 31 := by omega
  exact_mod_cast h2

theorem mersenne31_prime : Nat.Prime (2 ^ 31 - 1) :=
  lucas_lehmer_sufficiency 31 (by norm_num) (by norm_num)

theorem lcgNext_inj {s t : Nat} (hs : s < 2 ^ 31 - 1) (ht : t < 2 ^ 31 - 1)
    (h : lcgNext s = lcgNext t) : s = t := by
  unfold lcgNext at h
  have h1 : 1103515245 * s + 12345 ≡ 1103515245 * t + 12345 [MOD (2 ^ 31 - 1)] := h
  have h2 : 1103515245 * s ≡ 1103515245 * t [MOD (2 ^ 31 - 1)] := Nat.ModEq.add_right_cancel' _ h1
  have h3 : s ≡ t [MOD (2 ^ 31 - 1)] := Nat.ModEq.cancel_left_of_coprime (by norm_num) h2
  exact Nat.ModEq.eq_of_lt_of_lt h3 hs ht

/-- C25, the part that holds: in exact arithmetic (which `f64` performs here, see `C25_partial_f64`)
the draws lie in [0,1), and distinct states give distinct
draws; in `f32` arithmetic the draws lie in [0,1] (missing: `< 1` for `lcgf32`). -/
theorem C25_partial (seed : Nat) (h : 1103515245 * seed + 12345 < 2 ^ 128) :
    (∃ u s, lcgf (R := ℝ) seed = some (u, s) ∧ 0 ≤ u ∧ u < 1)
      ∧ (∀ seed', seed < 2 ^ 31 - 1 → seed' < 2 ^ 31 - 1 →
          (lcgf (R := ℝ) seed).map (·.1) = (lcgf (R := ℝ) seed').map (·.1) → seed = seed') := by
  constructor
  · exact ⟨_, _, lcgf_real seed h, draw_range seed⟩
  · intro seed' h1 h2 he
    rw [lcgf_real seed (fits_of_lt h1), lcgf_real seed' (fits_of_lt h2)] at he
    simp only [Option.map_some, Option.some.injEq] at he
    have := (div_left_inj' (by norm_num : (2 : ℝ) ^ 31 ≠ 0)).mp he
    exact lcgNext_inj h1 h2 (by exact_mod_cast this)

/-- C25, `f32`: the draw (in units of 2^-31) never exceeds 2^31, i.e. 1.0. -/
theorem C25_partial_f32 (seed : Nat) (n s : Nat) (h : lcgf32 seed = some (n, s)) : n ≤ 2 ^ 31 := by
  unfold lcgf32 at h
  by_cases hf : 1103515245 * seed + 12345 < 2 ^ 128
  · rw [step_eq seed hf] at h
    simp only [Option.bind_eq_bind, Option.bind_some, Option.some.injEq, Prod.mk.injEq] at h
    obtain ⟨rfl, -⟩ := h
    have hlt := lcgNext_lt seed
    generalize lcgNext seed = k at hlt
    unfold f32OfNat
    by_cases hk : k < 2 ^ 24
    · rw [if_pos hk]; omega
    · rw [if_neg hk]
      have hlog : Nat.log2 k ≤ 30 := by
        have : Nat.log2 k < 31 := (Nat.log2_lt (by omega)).mpr (by omega)
        omega
      have hlog' : 24 ≤ Nat.log2 k := (Nat.le_log2 (by omega)).mpr (by omega)
      generalize he : Nat.log2 k - 23 = e
      have hk2 : k < 2 ^ (24 + e) := by
        have h1 : Nat.log2 k < 24 + e := by omega
        exact (Nat.log2_lt (by omega)).mp h1
      have hq : k / 2 ^ e < 2 ^ 24 := by
        apply Nat.div_lt_of_lt_mul
        rw [← pow_add, Nat.add_comm]; exact hk2
      have hb : (2 ^ 24) * 2 ^ e ≤ 2 ^ 31 := by
        rw [← pow_add]; exact Nat.pow_le_pow_right (by norm_num) (by omega)
      simp only
      refine le_trans (Nat.mul_le_mul_right _ ?_) hb
      split <;> omega
  · rw [step_none seed hf] at h; simp at h

/-- C25, `f64` with its rounding: the draw (in units of 2^-31) is below 2^31, i.e. in [0,1), it is
exactly the new state, and distinct states give distinct draws. -/
theorem C25_partial_f64 (seed : Nat) (h : 1103515245 * seed + 12345 < 2 ^ 128) :
    (∃ n s, lcgf64 seed = some (n, s) ∧ n < 2 ^ 31 ∧ s = lcgNext seed ∧ n = s)
      ∧ (∀ seed', seed < 2 ^ 31 - 1 → seed' < 2 ^ 31 - 1 →
          (lcgf64 seed).map (·.1) = (lcgf64 seed').map (·.1) → seed = seed') := by
  have key : ∀ t, 1103515245 * t + 12345 < 2 ^ 128 →
      lcgf64 t = some (lcgNext t, lcgNext t) := by
    intro t ht
    have := lcgNext_lt t
    have e : f64OfNat (lcgNext t) = lcgNext t := if_pos (by omega)
    simp only [lcgf64, step_eq t ht, Option.bind_eq_bind, Option.bind_some, e]
  constructor
  · have := lcgNext_lt seed
    exact ⟨_, _, key seed h, by omega, rfl, rfl⟩
  · intro seed' h1 h2 he
    rw [key seed h, key seed' (fits_of_lt h2)] at he
    exact lcgNext_inj h1 h2 (Option.some.inj he)

/-- C25, `f32` with its rounding: the draw is below 1.0 exactly when the new state is below
2^31-64; the 63 states above it all give 1.0. -/
theorem C25_partial_f32_iff (seed : Nat) (h : 1103515245 * seed + 12345 < 2 ^ 128) :
    ∃ n, lcgf32 seed = some (n, lcgNext seed) ∧ (n < 2 ^ 31 ↔ lcgNext seed < 2 ^ 31 - 64)
      ∧ (2 ^ 31 - 64 ≤ lcgNext seed → n = 2 ^ 31) := by
  have hlt := lcgNext_lt seed
  refine ⟨f32OfNat (lcgNext seed), by
    simp only [lcgf32, step_eq seed h, Option.bind_eq_bind, Option.bind_some], ?_⟩
  generalize lcgNext seed = k at hlt
  have hup : 2 ^ 31 - 64 ≤ k → f32OfNat k = 2 ^ 31 := by
    intro hk
    have hlog : Nat.log2 k = 30 := by
      have h1 : Nat.log2 k < 31 := (Nat.log2_lt (by omega)).mpr (by omega)
      have h2 : 30 ≤ Nat.log2 k := (Nat.le_log2 (by omega)).mpr (by omega)
      omega
    unfold f32OfNat
    rw [if_neg (by omega), hlog]
    simp only
    rw [if_neg (by omega)]
    omega
  refine ⟨⟨fun hn => ?_, fun hk => ?_⟩, hup⟩
  · by_contra hc
    rw [hup (by omega)] at hn
    omega
  · unfold f32OfNat
    by_cases h24 : k < 2 ^ 24
    · rw [if_pos h24]; omega
    · rw [if_neg h24]
      have h1 : Nat.log2 k < 31 := (Nat.log2_lt (by omega)).mpr (by omega)
      have h2 : 24 ≤ Nat.log2 k := (Nat.le_log2 (by omega)).mpr (by omega)
      rcases Nat.lt_or_ge (Nat.log2 k) 30 with h3 | h3
      · generalize he : Nat.log2 k - 23 = e
        have hk2 : k < 2 ^ (24 + e) := (Nat.log2_lt (by omega)).mp (by omega)
        have hq : k / 2 ^ e < 2 ^ 24 := by
          apply Nat.div_lt_of_lt_mul
          rw [← pow_add, Nat.add_comm]; exact hk2
        have hb : (2 ^ 24) * 2 ^ e ≤ 2 ^ 30 := by
          rw [← pow_add]; exact Nat.pow_le_pow_right (by norm_num) (by omega)
        simp only
        refine lt_of_le_of_lt (le_trans (Nat.mul_le_mul_right _ ?_) hb) (by norm_num)
        split <;> omega
      · have e : Nat.log2 k = 30 := by omega
        rw [e]
        simp only
        split <;> omega

/-- C25 is false of the code: `lcgf32` returns exactly 1.0 from seed 1914008856 (whose successor
state 2147483646 rounds to 2^31 as an `f32`). -/
theorem C25_refuted : lcgf32 1914008856 = some (2 ^ 31, 2147483646) := by decide

/-- C25: distinct *seeds* (as opposed to generator states) may give the same draw. -/
theorem C25_refuted_seeds : lcgf (R := ℝ) 0 = lcgf (R := ℝ) (2 ^ 31 - 1) := by
  rw [lcgf_real _ (by norm_num), lcgf_real _ (by norm_num)]
  rw [show lcgNext 0 = lcgNext (2 ^ 31 - 1) by decide]

/-! ## C26 random index -/

/-- C26 is false of the code: for *every* limit from 2 to 46340 there is a seed on which
`lcgi(seed, limit)` returns `limit` itself. -/
theorem C26_refuted (limit : Nat) (h2 : 2 ≤ limit) (hm : limit ≤ 46340) :
    ∃ s, lcgi 1914008856 limit = some (limit, s) := by
  have hs : lcgNext 1914008856 = 2147483646 := by decide
  have hq : (m - 1) / limit ≠ 0 := by
    have : 1 ≤ (m - 1) / limit := (Nat.one_le_div_iff (by omega)).mpr (by simp [m]; omega)
    omega
  refine ⟨2147483646, ?_⟩
  simp only [lcgi, step_eq 1914008856 (by norm_num), hs, Option.bind_eq_bind, Option.bind_some]
  rw [if_neg (by omega), if_neg hq]
  congr 2
  have hp : ¬ limit ∣ 2 ^ 31 - 1 := by
    intro hd
    rcases (Nat.dvd_prime mersenne31_prime).mp hd with h | h
    · omega
    · omega
  have e : m - 1 = 2147483647 := by decide
  rw [e] at hq ⊢
  have hmod : 2147483647 % limit ≠ 0 := fun h => hp (Nat.dvd_of_mod_eq_zero h)
  have hdm : limit * (2147483647 / limit) + 2147483647 % limit = 2147483647 :=
    Nat.div_add_mod _ _
  have hml : 2147483647 % limit < limit := Nat.mod_lt _ (by omega)
  generalize hQ : 2147483647 / limit = q at *
  have hqbig : 46340 ≤ q := by
    rw [← hQ]
    calc 46340 ≤ 2147483647 / 46340 := by decide
      _ ≤ 2147483647 / limit := Nat.div_le_div_left hm (by omega)
  apply Nat.div_eq_of_lt_le
  · omega
  · rw [Nat.succ_mul]; omega

/-- C26, the part that holds: for limits from 1 to 46340 the index is at most `limit`, and it is
below `limit` exactly when the new state is below `limit·⌊(2^31-1)/limit⌋` (missing: `< limit` for
the remaining states, which is false). -/
theorem C26_partial (seed limit : Nat) (h : 1103515245 * seed + 12345 < 2 ^ 128) (h1 : 1 ≤ limit)
    (hm : limit ≤ 46340) :
    ∃ i s, lcgi seed limit = some (i, s) ∧ s = lcgNext seed ∧ i ≤ limit
      ∧ (i < limit ↔ s < limit * ((2 ^ 31 - 1) / limit)) := by
  have hq : (m - 1) / limit ≠ 0 := by
    have : 1 ≤ (m - 1) / limit := (Nat.one_le_div_iff (by omega)).mpr (by simp [m]; omega)
    omega
  refine ⟨lcgNext seed / ((m - 1) / limit), lcgNext seed, ?_, rfl, ?_, ?_⟩
  · simp only [lcgi, step_eq seed h, Option.bind_eq_bind, Option.bind_some]
    rw [if_neg (by omega), if_neg hq]
  · have hlt := lcgNext_lt seed
    have e : m - 1 = 2147483647 := by decide
    rw [e] at hq ⊢
    have hdm : limit * (2147483647 / limit) + 2147483647 % limit = 2147483647 :=
      Nat.div_add_mod _ _
    have hml : 2147483647 % limit < limit := Nat.mod_lt _ (by omega)
    generalize hQ : 2147483647 / limit = q at *
    have hqbig : 46340 ≤ q := by
      rw [← hQ]
      calc 46340 ≤ 2147483647 / 46340 := by decide
        _ ≤ 2147483647 / limit := Nat.div_le_div_left hm (by omega)
    have : lcgNext seed / q < limit + 1 := by
      apply Nat.div_lt_of_lt_mul
      rw [Nat.mul_succ, Nat.mul_comm q limit]; omega
    omega
  · rw [Nat.div_lt_iff_lt_mul (Nat.pos_of_ne_zero hq)]
    rfl

/-- C26 for every limit the code does not panic on: the new state is that of the generator, and the
index is below `limit` exactly when the state is below `limit·⌊(2^31-1)/limit⌋` (missing: `< limit`
for the remaining states, which is false). -/
theorem C26_partial_any_limit (seed limit : Nat) (h : 1103515245 * seed + 12345 < 2 ^ 128)
    (h1 : 1 ≤ limit) (hm : limit ≤ 2 ^ 31 - 1) :
    ∃ i, lcgi seed limit = some (i, lcgNext seed) ∧ i = lcgNext seed / ((2 ^ 31 - 1) / limit)
      ∧ (i < limit ↔ lcgNext seed < limit * ((2 ^ 31 - 1) / limit)) := by
  have hq : (m - 1) / limit ≠ 0 := by
    have : 1 ≤ (m - 1) / limit := (Nat.one_le_div_iff (by omega)).mpr (by simp [m]; omega)
    omega
  refine ⟨lcgNext seed / ((m - 1) / limit), ?_, rfl, ?_⟩
  · simp only [lcgi, step_eq seed h, Option.bind_eq_bind, Option.bind_some]
    rw [if_neg (by omega), if_neg hq]
  · rw [Nat.div_lt_iff_lt_mul (Nat.pos_of_ne_zero hq)]
    rfl

/-- C26 holds of the code for exactly two limits: `lcgi` stays below `limit` for every seed it
accepts if and only if the limit is 1 or 2^31-1. -/
theorem C26_refuted_iff (limit : Nat) (h1 : 1 ≤ limit) (hm : limit ≤ 2 ^ 31 - 1) :
    (∀ seed i s, lcgi seed limit = some (i, s) → i < limit) ↔ limit = 1 ∨ limit = 2 ^ 31 - 1 := by
  have hdm : limit * ((2 ^ 31 - 1) / limit) + (2 ^ 31 - 1) % limit = 2 ^ 31 - 1 :=
    Nat.div_add_mod _ _
  constructor
  · intro hall
    by_contra hne
    have hp : ¬ limit ∣ 2 ^ 31 - 1 := by
      intro hd
      exact hne ((Nat.dvd_prime mersenne31_prime).mp hd)
    have hmod : (2 ^ 31 - 1) % limit ≠ 0 := fun h => hp (Nat.dvd_of_mod_eq_zero h)
    obtain ⟨i, e1, -, e3⟩ := C26_partial_any_limit 1914008856 limit (by norm_num) h1 hm
    have hs : lcgNext 1914008856 = 2147483646 := by decide
    have := e3.mp (hall _ _ _ e1)
    omega
  · intro hl seed i s hi
    have hfit : 1103515245 * seed + 12345 < 2 ^ 128 := by
      by_contra hf
      have : step seed = none := if_neg hf
      simp [lcgi, this] at hi
    obtain ⟨j, e1, -, e3⟩ := C26_partial_any_limit seed limit hfit h1 hm
    rw [e1] at hi
    cases hi
    refine e3.mpr ?_
    have := lcgNext_lt seed
    rcases hl with rfl | rfl
    · simpa using this
    · rw [Nat.div_self (by norm_num)]; omega

/-- C26: a limit of zero, or above 2^31-1, panics (division by zero). -/
theorem C26_panic (seed limit : Nat) (h : limit = 0 ∨ 2 ^ 31 - 1 < limit) :
    lcgi seed limit = none := by
  unfold lcgi
  cases step seed with
  | none => rfl
  | some s =>
    simp only [Option.bind_eq_bind, Option.bind_some]
    rcases h with h | h
    · simp [h]
    · rw [if_neg (by omega), if_pos (Nat.div_eq_of_lt (by simpa [m] using h))]

example : (lcgi 12345 11).map (·.1) = some 7 := by decide

/-! ## C27 permutation -/

/-- C27 is false of the code: the state 1934915413 is a fixed point, every later draw repeats it. -/
theorem C27_refuted : step 1934915413 = some 1934915413 := by decide

/-- C27, the part that holds: the update is a permutation of the states below 2^31-1, and
1934915413 is its only fixed point (missing: "no fixed point", which is false). -/
theorem C27_partial :
    (∀ s t, s < 2 ^ 31 - 1 → t < 2 ^ 31 - 1 → step s = step t → s = t)
      ∧ (∀ t, t < 2 ^ 31 - 1 → ∃ s, s < 2 ^ 31 - 1 ∧ step s = some t)
      ∧ (∀ s, s < 2 ^ 31 - 1 → step s = some s → s = 1934915413) := by
  refine ⟨?_, ?_, ?_⟩
  · intro s t hs ht h
    rw [step_eq s (fits_of_lt hs), step_eq t (fits_of_lt ht)] at h
    exact lcgNext_inj hs ht (Option.some.inj h)
  · intro t ht
    refine ⟨2104886853 * (t + 2147471302) % (2 ^ 31 - 1), Nat.mod_lt _ (by norm_num), ?_⟩
    rw [step_eq _ (fits_of_lt (Nat.mod_lt _ (by norm_num))), lcgNext]
    refine congrArg some ?_
    have h1 : 1103515245 * (2104886853 * (t + 2147471302) % (2 ^ 31 - 1)) + 12345
        ≡ 1103515245 * (2104886853 * (t + 2147471302)) + 12345 [MOD (2 ^ 31 - 1)] :=
      Nat.ModEq.add_right _ (Nat.ModEq.mul_left _ (Nat.mod_modEq _ _))
    have h2 : 1103515245 * (2104886853 * (t + 2147471302)) + 12345 ≡ t [MOD (2 ^ 31 - 1)] := by
      have e : 1103515245 * (2104886853 * (t + 2147471302)) + 12345
          = t + (2 ^ 31 - 1) * (1081626272 * (t + 2147471302) + 1) := by omega
      rw [e]
      exact (Nat.modEq_iff_dvd' (by omega)).mpr ⟨1081626272 * (t + 2147471302) + 1, by omega⟩ |>.symm
    have h3 := h1.trans h2
    unfold Nat.ModEq at h3
    rw [h3, Nat.mod_eq_of_lt ht]
  · intro s hs h
    rw [step_eq s (fits_of_lt hs)] at h
    have h := Option.some.inj h
    unfold lcgNext at h
    have h1 : 1103515245 * s + 12345 ≡ s [MOD (2 ^ 31 - 1)] := by
      have : s % (2 ^ 31 - 1) = s := Nat.mod_eq_of_lt hs
      unfold Nat.ModEq
      rw [h, this]
    have h2 : 1103515244 * s + 12345 ≡ 1103515244 * 1934915413 + 12345 [MOD (2 ^ 31 - 1)] := by
      have h3 : 1103515244 * s + 12345 + s ≡ 0 + s [MOD (2 ^ 31 - 1)] := by
        have e : 1103515244 * s + 12345 + s = 1103515245 * s + 12345 := by ring
        rw [e, Nat.zero_add]; exact h1
      have h4 := Nat.ModEq.add_right_cancel' _ h3
      refine h4.trans ?_
      unfold Nat.ModEq; norm_num
    have h5 := Nat.ModEq.add_right_cancel' _ h2
    have h6 : s ≡ 1934915413 [MOD (2 ^ 31 - 1)] :=
      Nat.ModEq.cancel_left_of_coprime (by norm_num) h5
    exact Nat.ModEq.eq_of_lt_of_lt h6 hs (by norm_num)

/-! ## C28 initialisers -/

variable {w : Width}

theorem polar_norm (r phi : ℝ) : (Gen.polar r phi : Cf w ℝ).norm = |r| := by
  simp only [Cf.norm, Gen.polar, ssqrt, sadd, ssq, smul', scos, ssin]
  rw [show (r * Real.cos phi) ^ 2 + (r * Real.sin phi) ^ 2 = r ^ 2 by
    nlinarith [Real.sin_sq_add_cos_sq phi]]
  exact Real.sqrt_sq_eq_abs r

theorem abs_unit_draw (u s : ℝ) (h0 : 0 ≤ u) (h1 : u < 1) (hs : 0 ≤ s) : |u * s| ≤ s := by
  rw [abs_of_nonneg (by positivity)]; nlinarith

theorem abs_sym_draw (u s : ℝ) (h0 : 0 ≤ u) (h1 : u < 1) (hs : 0 ≤ s) : |2 * u * s - s| ≤ s := by
  rw [abs_le]; constructor <;> nlinarith

/-- The radius of each uniform-type initialiser (for a non-zero number of units: the code divides by
it). The two normal initialisers have none. -/
noncomputable def initRadius : InitMethod → Option ℝ
  | .uniform scale => some scale
  | .xavierGlorotU n => if n = 0 then none else some (Real.sqrt (6 / n))
  | .xavier n => if n = 0 then none else some (Real.sqrt (12 / n))
  | .xavierGlorotN _ => none
  | .heInit _ => none

/-- How many generator steps one weight takes. -/
def initSteps : InitMethod → Nat
  | .heInit _ => 3
  | .xavierGlorotN _ => 3
  | _ => 2

theorem genScaled_eq (seed : Nat) (h : 1103515245 * seed + 12345 < 2 ^ 128) (scale : ℝ) :
    ∃ z : Cf w ℝ, Gen.genScaled seed scale = some (z, lcgNext^[2] seed) ∧
      (0 ≤ scale → z.norm ≤ scale) := by
  have h2 := fits_of_lt (lcgNext_lt seed)
  unfold Gen.genScaled
  rw [lcgf_real seed h]
  simp only [Option.bind_eq_bind, Option.bind_some]
  rw [lcgf_real _ h2]
  refine ⟨_, rfl, ?_⟩
  · intro hs
    rw [polar_norm]
    cases w with
    | w32 => exact abs_unit_draw _ _ (draw_range seed).1 (draw_range seed).2 hs
    | w64 =>
      simp only [ssub, smul', stwo]
      exact abs_sym_draw _ _ (draw_range seed).1 (draw_range seed).2 hs

theorem gen_eq (seed : Nat) (h : 1103515245 * seed + 12345 < 2 ^ 128) (scale : Nat) :
    ∃ z : Cf w ℝ, Gen.gen seed scale = some (z, lcgNext^[2] seed) ∧ z.norm ≤ scale := by
  have h2 := fits_of_lt (lcgNext_lt seed)
  unfold Gen.gen
  rw [lcgf_real seed h]
  simp only [Option.bind_eq_bind, Option.bind_some]
  rw [lcgf_real _ h2]
  refine ⟨_, rfl, ?_⟩
  · rw [polar_norm]
    cases w with
    | w32 =>
      simp only [smul', sofNat]
      rw [mul_comm]
      exact abs_unit_draw _ _ (draw_range seed).1 (draw_range seed).2 (Nat.cast_nonneg _)
    | w64 =>
      simp only [ssub, smul', stwo, sofNat]
      rw [show (2 : ℝ) * scale * ((lcgNext seed : ℝ) / 2 ^ 31) - scale
        = 2 * ((lcgNext seed : ℝ) / 2 ^ 31) * scale - scale by ring]
      exact abs_sym_draw _ _ (draw_range seed).1 (draw_range seed).2 (Nat.cast_nonneg _)

theorem genNormal_eq (seed : Nat) (h : 1103515245 * seed + 12345 < 2 ^ 128) (n : Nat) :
    ∃ z : Cf w ℝ, Gen.genNormal seed n = some (z, lcgNext^[3] seed) := by
  have h2 := fits_of_lt (lcgNext_lt seed)
  have h3 := fits_of_lt (lcgNext_lt (lcgNext seed))
  unfold Gen.genNormal
  rw [lcgf_real seed h]
  simp only [Option.bind_eq_bind, Option.bind_some]
  rw [lcgf_real _ h2]
  simp only [Option.bind_some]
  rw [lcgf_real _ h3]
  exact ⟨_, rfl⟩

/-- C28. Every method advances the generator by a fixed number of steps; the uniform, Xavier and
Xavier–Glorot-uniform methods draw a number of modulus at most their radius. -/
theorem C28_init (method : InitMethod) (seed : Nat) (h : 1103515245 * seed + 12345 < 2 ^ 128) :
    ∃ z : Cf w ℝ, GenOps.gen method seed = some (z, lcgNext^[initSteps method] seed)
      ∧ ∀ ρ, initRadius method = some ρ → z.norm ≤ ρ := by
  cases method with
  | uniform scale =>
    obtain ⟨z, h1, h2⟩ := gen_eq (w := w) seed h scale
    exact ⟨z, h1, fun ρ hρ => by simp only [initRadius, Option.some.injEq] at hρ; rwa [← hρ]⟩
  | xavierGlorotU n =>
    obtain ⟨z, h1, h2⟩ := genScaled_eq (w := w) seed h (Real.sqrt (6 / n))
    refine ⟨z, ?_, ?_⟩
    · refine Eq.trans ?_ h1
      simp only [GenOps.gen, Gen.genXagu, ssqrt, sdiv, slit, sofNat]
      norm_num
    · intro ρ hρ
      simp only [initRadius] at hρ
      split at hρ
      · simp at hρ
      · rw [← Option.some.inj hρ]; exact h2 (Real.sqrt_nonneg _)
  | xavierGlorotN n =>
    obtain ⟨z, h1⟩ := genNormal_eq (w := w) seed h n
    exact ⟨z, h1, fun ρ hρ => by simp [initRadius] at hρ⟩
  | xavier n =>
    obtain ⟨z, h1, h2⟩ := genScaled_eq (w := w) seed h (Real.sqrt (12 / n))
    refine ⟨z, ?_, ?_⟩
    · refine Eq.trans ?_ h1
      simp only [GenOps.gen, Gen.genXa, ssqrt, sdiv, slit, sofNat, smul', sone]
      rw [show (1 : ℝ) / n * (((12 : ℤ) : ℝ) / ((1 : ℕ) : ℝ)) = 12 / n by push_cast; ring]
    · intro ρ hρ
      simp only [initRadius] at hρ
      split at hρ
      · simp at hρ
      · rw [← Option.some.inj hρ]; exact h2 (Real.sqrt_nonneg _)
  | heInit n =>
    obtain ⟨z, h1⟩ := genNormal_eq (w := w) seed h n
    exact ⟨z, h1, fun ρ hρ => by simp [initRadius] at hρ⟩

/-- C28 for a whole sequence of weights: `n` weights advance the generator by `n` times the fixed
number of steps, and all stay within the radius. -/
theorem C28_init_many (method : InitMethod) (n seed : Nat)
    (h : 1103515245 * seed + 12345 < 2 ^ 128) :
    ∃ zs : List (Cf w ℝ), genMany method n seed = some (zs, lcgNext^[n * initSteps method] seed)
      ∧ zs.length = n ∧ ∀ z ∈ zs, ∀ ρ, initRadius method = some ρ → z.norm ≤ ρ := by
  induction n generalizing seed with
  | zero => exact ⟨[], by simp [genMany], rfl, by simp⟩
  | succ n ih =>
    obtain ⟨z, h1, h2⟩ := C28_init (w := w) method seed h
    have hfit : 1103515245 * (lcgNext^[initSteps method] seed) + 12345 < 2 ^ 128 := by
      apply fits_of_lt
      have : initSteps method = (initSteps method - 1) + 1 := by cases method <;> rfl
      rw [this, Function.iterate_succ_apply']
      exact lcgNext_lt _
    obtain ⟨zs, h3, h4, h5⟩ := ih _ hfit
    refine ⟨z :: zs, ?_, by simp [h4], ?_⟩
    · simp only [genMany, h1, h3, Option.bind_eq_bind, Option.bind_some]
      rw [← Function.iterate_add_apply, Nat.succ_mul]
    · intro z' hz'
      rcases List.mem_cons.mp hz' with rfl | hz'
      · exact h2
      · exact h5 z' hz'

/-- Weights of a layer with 30 input and 20 output units: the radius is below 1. -/
example : ∃ ρ, initRadius (.xavierGlorotU 50) = some ρ ∧ ρ < 1 := by
  refine ⟨Real.sqrt (6 / (50 : ℕ)), by rw [initRadius, if_neg (by norm_num)], ?_⟩
  rw [Real.sqrt_lt' (by norm_num)]; norm_num

end Renplex
