import Verif.Spec.Signal
/-!
# Stretches of the random numbers
-/

namespace Renplex

/-- The states the generator takes on in the first `n` draws from a seed. -/
def visited (seed n : Nat) : Finset Nat := (Finset.range n).image fun i => lcgNext^[i + 1] seed

/-- How many draws the first `k` training signals of `samples` samples take from the training seed. -/
def trainDraws (samples seed : Nat) : Nat → Nat
  | 0 => 0
  | k + 1 => trainDraws samples seed k + (1 + 3 * waveCount ((nextTrain samples)^[k] seed) + samples)

/-- How many draws the first `k` signals, both kinds, take from the test seed. -/
def testDraws (samples seed : Nat) : Nat → Nat
  | 0 => 0
  | k + 1 => testDraws samples seed k + (1 + 3 * waveCount ((nextTest samples)^[k] seed) + 3 * samples)

end Renplex
