import Verif.Spec.Rounding
/-!
# Specification vocabulary for the stability of training
-/

namespace Renplex
variable {w : Width}

/-- Exact arithmetic as a number format. -/
noncomputable abbrev Format.exact : Format := Format.ofRound (T := ℝ) id id 0

/-- Layers of the same shape, no two corresponding parameters of which differ by more than `η` in their real or
imaginary parts. Pooling layers, which have nothing to train, must be the same. -/
def Layer.Near (η : ℝ) (d e : Layer (Cf w ℝ)) : Prop :=
  Layer.Within (F := Format.exact) η d e ∧ ∀ r, e = .reduce r → d = .reduce r

/-- The same for networks. -/
def Net.Near (η : ℝ) (n n' : Net (Cf w ℝ)) : Prop := List.Forall₂ (Layer.Near η) n.layers n'.layers

/-- The training calls of one epoch, repeated `k` times. -/
def epochs {α : Type} (s : List (TrainStep α)) (k : Nat) : List (TrainStep α) := (List.replicate k s).flatten

/-- The exact run `n 0, n 1, …`, in each step of which the epoch `s` is trained, is uniformly asymptotically stable:
networks that are close to the run stay close to it, and networks at distance at most `R` come close to it. -/
structure Attracts (R : ℝ) (s : List (TrainStep (Cf w ℝ))) (n : Nat → Net (Cf w ℝ)) : Prop where
  pos : 0 < R
  pools : (n 0).MeanPools
  run : ∀ T, (n T).train s = some (n (T + 1))
  bounded : ∃ B, ∀ T, (n T).Near B (n 0)
  stays : ∀ ε > 0, ∃ η > 0, ∀ (T : Nat) (m : Net (Cf w ℝ)), m.Near η (n T) →
    ∀ k : Nat, ∃ m' : Net (Cf w ℝ), m.train (epochs s k) = some m' ∧ m'.Near ε (n (T + k))
  comes : ∀ ε > 0, ∃ k₀ : Nat, ∀ (T : Nat) (m : Net (Cf w ℝ)), m.Near R (n T) →
    ∀ k : Nat, k₀ ≤ k → ∃ m' : Net (Cf w ℝ), m.train (epochs s k) = some m' ∧ m'.Near ε (n (T + k))

end Renplex
