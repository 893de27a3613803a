import Verif.Spec.Exact
import Verif.Spec.Init
import Verif.Spec.Random
import Mathlib.Analysis.SpecialFunctions.Complex.Circle
/-!
# Specification of the synthetic signals
-/

namespace Renplex

/-- The superposition `Σ a e^{i(w t + φ)}` of waves `(a, w, φ)` at time `t`. -/
noncomputable def superpose (ws : List (ℝ × ℝ × ℝ)) (t : ℝ) : ℂ :=
  (ws.map fun p => (p.1 : ℂ) * Complex.exp ((p.2.1 * t + p.2.2 : ℝ) * Complex.I)).sum

/-- Amplitude and frequency span one order of magnitude, the phase one turn. -/
def WaveParams (p : ℝ × ℝ × ℝ) : Prop :=
  1 / 10 ≤ p.1 ∧ p.1 < 1 ∧ 1 / 10 ≤ p.2.1 ∧ p.2.1 < 1 ∧ 0 ≤ p.2.2 ∧ p.2.2 < 2 * Real.pi

/-- A clean signal: one to nine waves sampled at equidistant times in `[0, 4π)`, scaled to peak
modulus 1 (unless all samples vanish). -/
structure CleanSignal (samples : Nat) (sig : List (Cf .w32 ℝ)) : Prop where
  length : sig.length = samples
  waves : ∃ (ws : List (ℝ × ℝ × ℝ)) (scale : ℝ), 1 ≤ ws.length ∧ ws.length ≤ 9
    ∧ (∀ p ∈ ws, WaveParams p) ∧ 0 < scale
    ∧ ∀ (i : Nat) (h : i < sig.length),
      sig[i].toC = superpose ws (4 * Real.pi / samples * i) / scale
  bounded : ∀ z ∈ sig, ‖z.toC‖ ≤ 1
  peak : (∀ z ∈ sig, z.toC = 0) ∨ ∃ z ∈ sig, ‖z.toC‖ = 1

/-! ## The signals, given the seeds

`draw seed k` is the `k`-th draw after `seed`. -/

/-- The first draw chooses the number of waves (1 to 8, rarely 9). -/
def waveCount (seed : Nat) : Nat := lcgNext seed / ((2 ^ 31 - 1) / 8) + 1

/-- The waves: amplitude and frequency in `[0.1, 1)`, phase in `[0, 2π)`, three draws each. -/
noncomputable def waveAt (seed k : Nat) : ℝ × ℝ × ℝ :=
  (draw seed (3 * k + 1) * (9 / 10) + 1 / 10, draw seed (3 * k + 2) * (9 / 10) + 1 / 10,
    2 * Real.pi * draw seed (3 * k + 3))

/-- Their superposition at sample `i`. -/
noncomputable def rawSignal (samples seed i : Nat) : ℂ :=
  superpose ((List.range (waveCount seed)).map (waveAt seed)) (4 * Real.pi / samples * i)

/-- The largest modulus. -/
noncomputable def peakOf (samples seed : Nat) : ℝ :=
  ((List.range samples).map fun i => ‖rawSignal samples seed i‖).foldl max 0

/-- The target: scaled to peak 1 (all zero if the superposition vanishes everywhere). -/
noncomputable def cleanAt (samples seed i : Nat) : ℂ :=
  rawSignal samples seed i / peakOf samples seed

/-- Noise on sample `i` of value `z`: a normal number (Box–Muller, cosine on even samples and sine
on odd ones) of standard deviation `thr + thr/20·|z|`, in a uniform direction. -/
noncomputable def noiseAt (thr u₁ u₂ v : ℝ) (i : Nat) (z : ℂ) : ℂ :=
  (((thr + thr / 20 * ‖z‖) * (Real.sqrt (-2 * Real.log u₁)
    * (if i % 2 = 0 then Real.cos (2 * Real.pi * u₂) else Real.sin (2 * Real.pi * u₂))) : ℝ) : ℂ)
    * direction v

/-- The training input: after the draws for the waves, the moduli of the noise come from the *test*
seed (two draws for each pair of samples) and the directions from the training seed. -/
noncomputable def trainAt (samples : Nat) (thr : ℝ) (train test i : Nat) : ℂ :=
  let k := 1 + 3 * waveCount test + 2 * (i / 2)
  cleanAt samples train i
    + noiseAt thr (draw test k) (draw test (k + 1)) (draw train (1 + 3 * waveCount train + i)) i
      (cleanAt samples train i)

/-- The test input: then four draws from the test seed for each pair. -/
noncomputable def testAt (samples : Nat) (thr : ℝ) (test i : Nat) : ℂ :=
  let k := 1 + 3 * waveCount test + samples + 4 * (i / 2)
  cleanAt samples test i
    + noiseAt thr (draw test k) (draw test (k + 1)) (draw test (k + 2 + i % 2)) i
      (cleanAt samples test i)

/-- The seeds after one point. -/
def nextTrain (samples seed : Nat) : Nat := lcgNext^[1 + 3 * waveCount seed + samples] seed
/-- The seeds after one point. -/
def nextTest (samples seed : Nat) : Nat := lcgNext^[1 + 3 * waveCount seed + 3 * samples] seed

/-- A vector of samples as layer input. -/
noncomputable def samplesOf (samples : Nat) (f : Nat → ℂ) : IOType (Cf .w32 ℝ) :=
  .scalar ((List.range samples).map fun i => Cf.ofC (f i))

end Renplex
