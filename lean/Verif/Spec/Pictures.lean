import Verif.Spec.Express
/-!
# What convolutional networks can express
-/

namespace Renplex
variable {w : Width}

/-- `n` maps of `r` rows and `c` columns of complex numbers. -/
abbrev Picture (n r c : Nat) := Fin n → Fin r → Fin c → ℂ

/-- The pixels by number. -/
noncomputable def Picture.pixel {n r c : Nat} (X : Picture n r c) (ch i j : Nat) : Cf w ℝ :=
  if h : ch < n ∧ i < r ∧ j < c then Cf.ofC (X ⟨ch, h.1⟩ ⟨i, h.2.1⟩ ⟨j, h.2.2⟩) else 0

/-- A picture as the value that a network takes. -/
noncomputable def pic {n r c : Nat} (X : Picture n r c) : IOType (Cf w ℝ) :=
  .matrix ((List.range n).map fun ch => Mat.fromBody (table r c (X.pixel ch)) (r, c))

/-- A convolutional layer of `nf` filters with `p × q` kernels on `n` maps. -/
def Conv.Has (l : Conv (Cf w ℝ)) (nf n p q : Nat) (f : ActFunc) : Prop :=
  ∃ (K : Nat → Nat → Nat → Nat → Cf w ℝ) (b : Nat → Cf w ℝ), l.Is nf n p q K b f

/-- A convolutional layer whose `nf` maps of `R` rows and `C` columns are flattened, followed by a network on
vectors. -/
def pictureNet (nf R C : Nat) (l : Conv (Cf w ℝ)) (N : Net (Cf w ℝ)) : Net (Cf w ℝ) :=
  ⟨.conv l :: .flatten ⟨((R, C), nf)⟩ :: N.layers⟩

/-- All pixels are 0 except those of the first map in the upper left corner and in the lower right one. -/
noncomputable def corners (n r c : Nat) (s t : ℂ) : Picture n r c := fun ch i j =>
  if ch.val = 0 ∧ i.val = 0 ∧ j.val = 0 then s
  else if ch.val = 0 ∧ i.val + 1 = r ∧ j.val + 1 = c then t else 0

end Renplex
