import Verif.Props.Signal
import Verif.Props.Init
/-!
# The synthetic signals, sample by sample: C68
-/

namespace Renplex
namespace Signal

theorem draw_shift (seed n k : Nat) : draw (lcgNext^[n] seed) k = draw seed (n + k) := by
  unfold draw
  rw [← Function.iterate_add_apply, show k + 1 + n = n + k + 1 by omega]

theorem fits_iter (seed n : Nat) (h : Fits seed) : Fits (lcgNext^[n] seed) := by
  cases n with
  | zero => exact h
  | succ n => rw [Function.iterate_succ_apply']; exact fits_next _

theorem lcgf_draw (seed : Nat) (h : Fits seed) :
    Rng.lcgf (R := ℝ) seed = some (draw seed 0, lcgNext^[1] seed) := lcgf_real seed h

/-- The `k`-th wave from a seed whose first draw belongs to the first wave. -/
noncomputable def waveFrom (seed k : Nat) : ℝ × ℝ × ℝ :=
  (draw seed (3 * k) * (9 / 10) + 1 / 10, draw seed (3 * k + 1) * (9 / 10) + 1 / 10,
    2 * Real.pi * draw seed (3 * k + 2))

theorem wave_eq (seed : Nat) (h : Fits seed) :
    wave (R := ℝ) seed = some (waveFrom seed 0, lcgNext^[3] seed) := by
  simp only [wave, lcgf_draw seed h, lcgf_draw _ (fits_iter _ _ h), Option.bind_eq_bind,
    Option.bind_some, ← Function.iterate_add_apply, draw_shift]
  simp [waveFrom]

theorem waves_eq (n : Nat) : ∀ seed, Fits seed →
    waves (R := ℝ) n seed = some ((List.range n).map (waveFrom seed), lcgNext^[3 * n] seed) := by
  induction n with
  | zero => exact fun seed h => rfl
  | succ n ih =>
    intro seed h
    rw [waves, wave_eq seed h]
    simp only [Option.bind_eq_bind, Option.bind_some]
    rw [ih _ (fits_iter _ _ h)]
    simp only [Option.bind_some, List.range_succ_eq_map, List.map_cons, List.map_map,
      ← Function.iterate_add_apply]
    rw [show 3 * n + 3 = 3 * (n + 1) by omega]
    simp only [Option.some.injEq, Prod.mk.injEq, List.cons.injEq, and_true, true_and]
    apply List.map_congr_left
    intro k _
    simp only [waveFrom, Function.comp, draw_shift, Nat.succ_eq_add_one]
    rw [show 3 + 3 * k = 3 * (k + 1) by omega, show 3 + (3 * k + 1) = 3 * (k + 1) + 1 by omega,
      show 3 + (3 * k + 2) = 3 * (k + 1) + 2 by omega]

theorem waveFrom_next (seed k : Nat) : waveFrom (lcgNext seed) k = waveAt seed k := by
  have := draw_shift seed 1
  simp only [Function.iterate_one] at this
  simp only [waveFrom, waveAt, this]
  rw [show 1 + 3 * k = 3 * k + 1 by omega, show 1 + (3 * k + 1) = 3 * k + 2 by omega,
    show 1 + (3 * k + 2) = 3 * k + 3 by omega]

theorem maxNorm_eq (s : List (Cf .w32 ℝ)) :
    maxNorm s = (s.map fun z => ‖z.toC‖).foldl max 0 := by
  have : ∀ acc : ℝ, s.foldl (fun acc z => if Scalar.lt acc z.norm then z.norm else acc) acc
      = (s.map fun z => ‖z.toC‖).foldl max acc := by
    induction s with
    | nil => intro acc; rfl
    | cons z s ih =>
      intro acc
      simp only [List.foldl_cons, List.map_cons, slt, Cf.norm_eq] at ih ⊢
      rw [ih]
      congr 1
      split
      · rename_i h; exact (max_eq_right h.le).symm
      · rename_i h; exact (max_eq_left (not_lt.mp h)).symm
  simpa [maxNorm] using this 0

theorem normalise_eq (s : List (Cf .w32 ℝ)) :
    normalise s = some (s.map fun z => Cf.ofC (z.toC / (maxNorm s : ℝ))) := by
  obtain ⟨h1, h2, h3⟩ := maxNorm_spec s
  by_cases hm : maxNorm s = 0
  · have hz : ∀ z ∈ s, z.toC = 0 := fun z hz => by
      have := h1 z hz
      rw [hm] at this
      exact norm_eq_zero.mp (le_antisymm this (norm_nonneg _))
    have e : normalise s = some s := by simp [normalise, hm]
    rw [e]
    congr 1
    conv_lhs => rw [← List.map_id s]
    apply List.map_congr_left
    intro z hz'
    rw [hz z hz', zero_div, ← hz z hz', Cf.ofC_toC]
    rfl
  · have hq : ∀ z ∈ s, Cf.divAssign z (Cf.new (maxNorm s) Scalar.zero)
        = some (Cf.ofC (z.toC / (maxNorm s : ℝ))) := fun z _ => by
      obtain ⟨q, e1, e2⟩ := divAssign_real z _ hm
      rw [e1, ← e2, Cf.ofC_toC]
    unfold normalise
    simp only
    have hb : Scalar.beq (maxNorm s) Scalar.zero = false := by
      rw [Bool.eq_false_iff]; simpa using hm
    rw [hb]
    exact mapM_some_of _ _ _ hq

theorem clean_eq (samples seed : Nat) :
    normalise ((times samples).map (sample ((List.range (waveCount seed)).map (waveAt seed))))
      = some ((List.range samples).map fun i => Cf.ofC (cleanAt samples seed i)) := by
  have e : ((times samples).map (sample ((List.range (waveCount seed)).map (waveAt seed)))).map
      (fun z => ‖z.toC‖) = (List.range samples).map fun i => ‖rawSignal samples seed i‖ := by
    simp only [times, List.map_map]
    apply List.map_congr_left
    intro i _
    simp [sample_toC, rawSignal]
  rw [normalise_eq, maxNorm_eq, e]
  simp only [times, List.map_map]
  congr 1
  apply List.map_congr_left
  intro i _
  simp [sample_toC, cleanAt, rawSignal, peakOf]

theorem noisyPair_eq (thr : ℝ) (z1 z2 : ℂ) (u1 u2 v1 v2 : ℝ) :
    noisyPair thr (Cf.ofC z1) (Cf.ofC z2) u1 u2 v1 v2
      = [Cf.ofC (z1 + noiseAt thr u1 u2 v1 0 z1), Cf.ofC (z2 + noiseAt thr u1 u2 v2 1 z2)] := by
  simp only [noisyPair, List.cons.injEq, and_true]
  constructor
  · apply Cf.toC_inj.mp
    rw [Cf.toC_add, newe_toC, Cf.toC_ofC, Cf.toC_ofC]
    simp [noiseAt, direction, Cf.norm_eq]
    ring
  · apply Cf.toC_inj.mp
    rw [Cf.toC_add, newe_toC, Cf.toC_ofC, Cf.toC_ofC]
    simp [noiseAt, direction, Cf.norm_eq]
    ring

theorem noiseAt_two (thr u1 u2 v : ℝ) (i : Nat) (z : ℂ) :
    noiseAt thr u1 u2 v (i + 2) z = noiseAt thr u1 u2 v i z := by
  simp [noiseAt]

theorem range_pair {β : Type} (n : Nat) (f : Nat → β) :
    (List.range (2 * (n + 1))).map f = f 0 :: f 1 :: (List.range (2 * n)).map fun i => f (i + 2) := by
  rw [show 2 * (n + 1) = 2 * n + 1 + 1 by omega, List.range_succ_eq_map, List.map_cons,
    List.range_succ_eq_map, List.map_cons, List.map_cons, List.map_map, List.map_map]
  rfl

theorem corruptTrain_eq (thr : ℝ) (n : Nat) : ∀ (fuel : Nat) (f : Nat → ℂ) (train test : Nat),
    2 * n ≤ fuel → Fits train → Fits test →
    corruptTrain thr (chunksAux 2 fuel ((List.range (2 * n)).map fun i => Cf.ofC (f i))) train test
      = some ((List.range (2 * n)).map (fun i => Cf.ofC (f i
          + noiseAt thr (draw test (2 * (i / 2))) (draw test (2 * (i / 2) + 1)) (draw train i) i
            (f i))),
        lcgNext^[2 * n] train, lcgNext^[2 * n] test) := by
  induction n with
  | zero =>
    intro fuel f train test _ _ _
    cases fuel <;> rfl
  | succ n ih =>
    intro fuel f train test hf h1 h2
    obtain ⟨fuel, rfl⟩ : ∃ k, fuel = k + 1 := ⟨fuel - 1, by omega⟩
    rw [range_pair, range_pair]
    show corruptTrain thr ([Cf.ofC (f 0), Cf.ofC (f 1)] :: chunksAux 2 fuel _) train test = _
    rw [corruptTrain]
    simp only [List.getElem?_cons_zero, List.getElem?_cons_succ, lcgf_draw train h1,
      lcgf_draw test h2, lcgf_draw _ (fits_iter _ _ h1), lcgf_draw _ (fits_iter _ _ h2),
      Option.bind_eq_bind, Option.bind_some, ← Function.iterate_add_apply, draw_shift,
      List.drop_succ_cons, List.drop_zero]
    rw [ih fuel (fun i => f (i + 2)) _ _ (by omega) (fits_iter _ _ h1) (fits_iter _ _ h2)]
    simp only [Option.bind_some, noisyPair_eq, List.cons_append, List.nil_append, noiseAt_two,
      ← Function.iterate_add_apply, draw_shift]
    rw [show 2 * n + (1 + 1) = 2 * (n + 1) by omega]
    simp only [Nat.reduceAdd, Nat.reduceDiv, Nat.reduceMul, Nat.reduceMod, Nat.add_zero,
      Option.some.injEq, Prod.mk.injEq, List.cons.injEq, and_true, true_and]
    apply List.map_congr_left
    intro i _
    rw [show (i + 2) / 2 = i / 2 + 1 by omega,
      show 2 + 2 * (i / 2) = 2 * (i / 2 + 1) by omega,
      show 2 + (2 * (i / 2) + 1) = 2 * (i / 2 + 1) + 1 by omega,
      show 2 + i = i + 2 by omega]

theorem corruptTest_eq (thr : ℝ) (n : Nat) : ∀ (fuel : Nat) (f : Nat → ℂ) (test : Nat),
    2 * n ≤ fuel → Fits test →
    corruptTest thr (chunksAux 2 fuel ((List.range (2 * n)).map fun i => Cf.ofC (f i))) test
      = some ((List.range (2 * n)).map (fun i => Cf.ofC (f i
          + noiseAt thr (draw test (4 * (i / 2))) (draw test (4 * (i / 2) + 1))
            (draw test (4 * (i / 2) + 2 + i % 2)) i (f i))),
        lcgNext^[2 * (2 * n)] test) := by
  induction n with
  | zero =>
    intro fuel f test _ _
    cases fuel <;> rfl
  | succ n ih =>
    intro fuel f test hf h2
    obtain ⟨fuel, rfl⟩ : ∃ k, fuel = k + 1 := ⟨fuel - 1, by omega⟩
    rw [range_pair, range_pair]
    show corruptTest thr ([Cf.ofC (f 0), Cf.ofC (f 1)] :: chunksAux 2 fuel _) test = _
    rw [corruptTest]
    simp only [List.getElem?_cons_zero, List.getElem?_cons_succ,
      lcgf_draw test h2, lcgf_draw _ (fits_iter _ _ h2),
      Option.bind_eq_bind, Option.bind_some, ← Function.iterate_add_apply, draw_shift,
      List.drop_succ_cons, List.drop_zero]
    rw [ih fuel (fun i => f (i + 2)) _ (by omega) (fits_iter _ _ h2)]
    simp only [Option.bind_some, noisyPair_eq, List.cons_append, List.nil_append, noiseAt_two,
      ← Function.iterate_add_apply, draw_shift]
    rw [show 2 * (2 * n) + (1 + (1 + (1 + 1))) = 2 * (2 * (n + 1)) by omega]
    simp only [Nat.reduceAdd, Nat.reduceDiv, Nat.reduceMul, Nat.reduceMod, Nat.add_zero,
      Option.some.injEq, Prod.mk.injEq, List.cons.injEq, and_true, true_and]
    apply List.map_congr_left
    intro i _
    rw [show (i + 2) / 2 = i / 2 + 1 by omega, show (i + 2) % 2 = i % 2 by omega,
      show 4 + 4 * (i / 2) = 4 * (i / 2 + 1) by omega,
      show 4 + (4 * (i / 2) + 1) = 4 * (i / 2 + 1) + 1 by omega,
      show 4 + (4 * (i / 2) + 2 + i % 2) = 4 * (i / 2 + 1) + 2 + i % 2 by omega]

theorem lcgi_eight (seed : Nat) (h : Fits seed) :
    Rng.lcgi seed 8 = some (waveCount seed - 1, lcgNext seed) := by
  obtain ⟨i, e1, e2, -⟩ := C26_partial_any_limit seed 8 h (by norm_num) (by norm_num)
  rw [e1, e2]
  rfl

theorem point_eq (samples : Nat) (he : samples % 2 = 0) (thr : ℝ) (train test : Nat)
    (h1 : Fits train) (h2 : Fits test) :
    point samples thr train test
      = some (((List.range samples).map (fun i => Cf.ofC (trainAt samples thr train test i)),
          (List.range samples).map (fun i => Cf.ofC (cleanAt samples train i))),
        ((List.range samples).map (fun i => Cf.ofC (testAt samples thr test i)),
          (List.range samples).map (fun i => Cf.ofC (cleanAt samples test i))),
        nextTrain samples train, nextTest samples test) := by
  obtain ⟨n, rfl⟩ : ∃ n, samples = 2 * n := ⟨samples / 2, by omega⟩
  have hw : ∀ s, waveCount s - 1 + 1 = waveCount s := fun s => rfl
  have hl : ∀ f : Nat → Cf .w32 ℝ, chunks 2 ((List.range (2 * n)).map f)
      = some (chunksAux 2 (2 * n) ((List.range (2 * n)).map f)) := by
    intro f
    simp only [chunks, chunksPos]
    rw [if_neg (by norm_num), List.length_map, List.length_range]
  rw [point, lcgi_eight train h1]
  simp only [Option.bind_eq_bind, Option.bind_some, hw]
  rw [waves_eq _ _ (fits_next _)]
  simp only [Option.bind_some]
  rw [lcgi_eight test h2]
  simp only [Option.bind_some, hw]
  rw [waves_eq _ _ (fits_next _)]
  simp only [Option.bind_some, funext (waveFrom_next _)]
  rw [clean_eq, clean_eq]
  simp only [Option.bind_some, hl]
  rw [corruptTrain_eq _ _ _ _ _ _ le_rfl (fits_iter _ _ (fits_next _))
    (fits_iter _ _ (fits_next _))]
  simp only [Option.bind_some]
  rw [corruptTest_eq _ _ _ _ _ le_rfl (fits_iter _ _ (fits_iter _ _ (fits_next _)))]
  have e : ∀ k s, lcgNext^[k] (lcgNext s) = lcgNext^[1 + k] s := fun k s => by
    rw [Nat.add_comm]; rfl
  simp only [Option.bind_some, e, ← Function.iterate_add_apply, draw_shift]
  simp only [Option.some.injEq, Prod.mk.injEq]
  refine ⟨⟨?_, trivial⟩, ⟨?_, trivial⟩, ?_, ?_⟩
  · apply List.map_congr_left
    intro i _
    rw [trainAt]
    simp only [Nat.add_assoc]
  · apply List.map_congr_left
    intro i _
    rw [testAt]
    simp only [Nat.add_assoc, Nat.add_left_comm, Nat.add_comm]
  · rw [nextTrain, Nat.add_comm]
  · rw [nextTest]
    congr 1
    omega

theorem fits_nextTrain (samples s : Nat) (h : Fits s) : Fits (nextTrain samples s) :=
  fits_iter _ _ h
theorem fits_nextTest (samples s : Nat) (h : Fits s) : Fits (nextTest samples s) :=
  fits_iter _ _ h

theorem reconstruction_eq (samples : Nat) (he : samples % 2 = 0) (thr : ℝ) (b : Nat) :
    ∀ (train test : Nat) (d dt : List (IOType (Cf .w32 ℝ) × IOType (Cf .w32 ℝ))),
    Fits train → Fits test →
    reconstruction samples thr b train test (Dataset.ofPoints d) (Dataset.ofPoints dt)
      = some ((Dataset.ofPoints (d ++ (List.range b).map fun m =>
            (samplesOf samples (trainAt samples thr ((nextTrain samples)^[m] train)
              ((nextTest samples)^[m] test)),
            samplesOf samples (cleanAt samples ((nextTrain samples)^[m] train)))),
          Dataset.ofPoints (dt ++ (List.range b).map fun m =>
            (samplesOf samples (testAt samples thr ((nextTest samples)^[m] test)),
            samplesOf samples (cleanAt samples ((nextTest samples)^[m] test))))),
        (nextTrain samples)^[b] train, (nextTest samples)^[b] test) := by
  induction b with
  | zero =>
    intro train test d dt _ _
    simp [reconstruction]
  | succ b ih =>
    intro train test d dt h1 h2
    rw [reconstruction, point_eq samples he thr train test h1 h2]
    simp only [Option.bind_eq_bind, Option.bind_some]
    rw [C58_add, C58_add, ih _ _ _ _ (fits_nextTrain _ _ h1) (fits_nextTest _ _ h2)]
    simp only [List.range_succ_eq_map, List.map_cons, List.map_map, List.append_assoc,
      List.singleton_append]
    rfl

end Signal

open Signal

/-- C68, exact arithmetic. The two batches, sample by sample, and the two seeds left behind, for an
even number of samples and seeds the generator can hold: point `m` is made from the seeds after `m`
points; its target is the clean signal of its seed, its input the clean signal plus the noise. The
test batch and the training targets are determined by their own seed. (Missing: the training inputs
depend on the test seed as well, see `C68_refuted`; other seeds panic, see `C61_refuted_seed`.) -/
theorem C68_partial (samples : Nat) (he : samples % 2 = 0) (thr : ℝ) (b train test : Nat)
    (h1 : 1103515245 * train + 12345 < 2 ^ 128) (h2 : 1103515245 * test + 12345 < 2 ^ 128) :
    ∃ dTrain dTest, reconstruction samples thr b train test Dataset.new Dataset.new
        = some ((dTrain, dTest), (nextTrain samples)^[b] train, (nextTest samples)^[b] test)
      ∧ dTrain.points = ((List.range b).map fun m =>
        let s := (nextTrain samples)^[m] train
        let st := (nextTest samples)^[m] test
        (samplesOf samples (trainAt samples thr s st), samplesOf samples (cleanAt samples s)))
      ∧ dTest.points = ((List.range b).map fun m =>
        let st := (nextTest samples)^[m] test
        (samplesOf samples (testAt samples thr st), samplesOf samples (cleanAt samples st))) := by
  refine ⟨_, _, reconstruction_eq samples he thr b train test [] [] h1 h2, ?_, ?_⟩
  · rw [(C58_points _).2.2.2.1]; rfl
  · rw [(C58_points _).2.2.2.1]; rfl

/-- C68 is false of the code in that the training batch depends on the test seed: with any training
seed, any positive noise threshold and any positive numbers of samples and points, the test seeds
1782866145 and 1356163792 give different training batches. -/
theorem C68_refuted (samples : Nat) (he : samples % 2 = 0) (h0 : 0 < samples) (thr : ℝ)
    (ht : 0 < thr) (b : Nat) (hb : 0 < b) (train : Nat)
    (h1 : 1103515245 * train + 12345 < 2 ^ 128) :
    ∃ d dt s st d' dt' s' st',
      reconstruction samples thr b train 1782866145 Dataset.new Dataset.new = some ((d, dt), s, st)
      ∧ reconstruction samples thr b train 1356163792 Dataset.new Dataset.new
        = some ((d', dt'), s', st')
      ∧ d.points ≠ d'.points := by
  obtain ⟨d, dt, e, p, -⟩ := C68_partial samples he thr b train 1782866145 h1 (by norm_num)
  obtain ⟨d', dt', e', p', -⟩ := C68_partial samples he thr b train 1356163792 h1 (by norm_num)
  refine ⟨d, dt, _, _, d', dt', _, _, e, e', ?_⟩
  rw [p, p']
  obtain ⟨b, rfl⟩ : ∃ k, b = k + 1 := ⟨b - 1, by omega⟩
  obtain ⟨n, rfl⟩ : ∃ k, samples = k + 1 := ⟨samples - 1, by omega⟩
  intro h
  simp only [List.range_succ_eq_map, List.map_cons, List.cons.injEq, Prod.mk.injEq, samplesOf,
    IOType.scalar.injEq, Function.iterate_zero, id_eq] at h
  have h := congrArg Cf.toC h.1.1.1
  rw [Cf.toC_ofC, Cf.toC_ofC] at h
  simp only [trainAt, add_right_inj, Nat.zero_div, Nat.mul_zero, Nat.add_zero] at h
  have w1 : waveCount 1782866145 = 6 := by decide
  have w2 : waveCount 1356163792 = 1 := by decide
  have d1 : lcgNext^[20] 1782866145 = 1871412062 := by decide
  have d2 : lcgNext^[21] 1782866145 = 0 := by decide
  have d3 : lcgNext^[5] 1356163792 = 1850113665 := by decide
  have d4 : lcgNext^[6] 1356163792 = 1073741824 := by decide
  rw [w1, w2] at h
  simp only [draw, noiseAt, Nat.reduceMul, Nat.reduceAdd, d1, d2, d3, d4, Nat.zero_mod, if_true]
    at h
  have hd : ∀ v, direction v ≠ 0 := fun v => Complex.exp_ne_zero _
  have h := mul_right_cancel₀ (hd _) h
  have h := Complex.ofReal_injective h
  have hc1 : Real.cos (2 * Real.pi * (((0 : ℕ) : ℝ) / 2 ^ 31)) = 1 := by simp
  have hc2 : Real.cos (2 * Real.pi * (((1073741824 : ℕ) : ℝ) / 2 ^ 31)) = -1 := by
    have e2 : (((1073741824 : ℕ) : ℝ) / 2 ^ 31) = 1 / 2 := by norm_num
    rw [e2, show 2 * Real.pi * (1 / 2 : ℝ) = Real.pi by ring]
    exact Real.cos_pi
  rw [hc1, hc2] at h
  have hl : ∀ k : ℕ, 0 < k → k < 2 ^ 31 →
      0 < Real.sqrt (-2 * Real.log ((k : ℝ) / 2 ^ 31)) := by
    intro k hk hk'
    apply Real.sqrt_pos.mpr
    have : Real.log ((k : ℝ) / 2 ^ 31) < 0 := by
      apply Real.log_neg
      · positivity
      · rw [div_lt_one (by norm_num)]
        exact_mod_cast hk'
    linarith
  have ha : 0 < thr + thr / 20 * ‖cleanAt (n + 1) train 0‖ := by positivity
  have p1 := mul_pos ha (hl 1871412062 (by norm_num) (by norm_num))
  have p2 := mul_pos ha (hl 1850113665 (by norm_num) (by norm_num))
  rw [mul_one, mul_neg_one, mul_neg] at h
  rw [h] at p1
  exact absurd p1 (not_lt.mpr (neg_nonpos.mpr p2.le))

/-- Both cases occur: 64 samples with the seeds of the regression example. -/
example : ∃ dTrain dTest s st,
    reconstruction 64 (1 / 2 : ℝ) 3 891298565 1782866145 Dataset.new Dataset.new
      = some ((dTrain, dTest), s, st) ∧ dTrain.points.length = 3 := by
  obtain ⟨d, dt, e, p, -⟩ := C68_partial 64 rfl (1 / 2) 3 891298565 1782866145 (by norm_num)
    (by norm_num)
  exact ⟨d, dt, _, _, e, by rw [p]; simp⟩

end Renplex
