import Verif.Lemmas.Exact
/-!
# C19–C23: `Cf32`/`Cf64` in exact arithmetic
-/

namespace Renplex
variable {w : Width}

/-! ## C19 field operations -/

theorem div_toC (a b : Cf w ℝ) (hb : b.toC ≠ 0) : ∃ q, a.div b = some q ∧ q.toC = a.toC / b.toC := by
  have hd : b.den ≠ 0 := by rw [Cf.den_eq]; exact (Complex.normSq_pos.mpr hb).ne'
  refine ⟨⟨(a.x * b.x + a.y * b.y) / b.den, (a.y * b.x - a.x * b.y) / b.den⟩, ?_, ?_⟩
  · unfold Cf.div
    rw [if_neg (by simpa using hd)]
    simp
  · rw [Cf.den_eq]
    apply Complex.ext
    · simp [Complex.div_re]; ring
    · simp [Complex.div_im]; ring

/-- C19. Addition, subtraction, multiplication and conjugation are those of `ℂ`. -/
theorem C19_ring (a b : Cf w ℝ) :
    (a.add b).toC = a.toC + b.toC ∧ (a.sub b).toC = a.toC - b.toC
      ∧ (a.mul b).toC = a.toC * b.toC ∧ a.conj.toC = starRingEnd ℂ a.toC := by simp

/-- C19. Division is that of `ℂ`, and panics exactly for a zero divisor. -/
theorem C19_div (a b : Cf w ℝ) :
    (b.toC ≠ 0 → ∃ q, a.div b = some q ∧ q.toC = a.toC / b.toC)
      ∧ (a.div b = none ↔ b.toC = 0) := by
  refine ⟨div_toC a b, ?_, ?_⟩
  · intro h
    by_contra hb
    obtain ⟨q, hq, -⟩ := div_toC a b hb
    rw [hq] at h
    cases h
  · intro h
    unfold Cf.div
    rw [if_pos]
    rw [sbeq, Cf.den_eq, h]
    simp

/-- C19. The operations make `Cf32`/`Cf64` (in exact arithmetic) the field `ℂ`: the reading `toC`
is a bijection. -/
theorem C19_bijective : Function.Bijective (Cf.toC : Cf w ℝ → ℂ) := Cf.equivC.bijective

example : ∃ q, (⟨1, 2⟩ : Cf .w32 ℝ).div ⟨0, 1⟩ = some q ∧ q.toC = ⟨2, -1⟩ := by
  obtain ⟨q, h1, h2⟩ := (C19_div (⟨1, 2⟩ : Cf .w32 ℝ) ⟨0, 1⟩).1 (by
    intro h; simpa using congrArg Complex.im h)
  refine ⟨q, h1, ?_⟩
  rw [h2]
  apply Complex.ext <;> simp [Cf.toC, Complex.div_re, Complex.div_im, Complex.normSq_apply]

/-! ## C20 compound assignment -/

/-- C20 is false of the code: `*=` and `/=` read the real part they have just overwritten.
`(1+2i) *= (3+4i)` leaves `-5-14i` instead of `-5+10i`; `(1+i) /= (2i)` leaves `½-¼i` instead of
`½-½i`. -/
theorem C20_refuted :
    (∃ a b : Cf w ℝ, a.mulAssign b ≠ a.mul b) ∧ (∃ a b : Cf w ℝ, a.divAssign b ≠ a.div b) := by
  constructor
  · refine ⟨⟨1, 2⟩, ⟨3, 4⟩, fun h => ?_⟩
    have := congrArg Cf.y h
    norm_num [Cf.mulAssign, Cf.mul] at this
  · refine ⟨⟨1, 1⟩, ⟨0, 2⟩, fun h => ?_⟩
    have hd : ¬ (Scalar.beq (Cf.den (⟨0, 2⟩ : Cf w ℝ)) Scalar.zero = true) := by
      norm_num [Cf.den]
    unfold Cf.divAssign Cf.div at h
    rw [if_neg hd, if_neg hd] at h
    have := congrArg Cf.y (Option.some.inj h)
    norm_num [Cf.den] at this

/-- C20, the part that holds: `+=` and `-=` are operate-then-assign; `*=` and `/=` are, exactly
when the right operand is real or the real part happens not to change (missing: the general case
of `*=` and `/=`, which is false). -/
theorem C20_partial (a b : Cf w ℝ) :
    a.addAssign b = a.add b ∧ a.subAssign b = a.sub b
      ∧ (a.mulAssign b = a.mul b ↔ b.y = 0 ∨ (a.mul b).x = a.x)
      ∧ (a.divAssign b = a.div b ↔ b.toC = 0 ∨ b.y = 0 ∨ ∃ q, a.div b = some q ∧ q.x = a.x) := by
  refine ⟨rfl, rfl, ?_, ?_⟩
  · constructor
    · intro h
      have := congrArg Cf.y h
      simp only [Cf.mulAssign, Cf.mul, sadd, smul', ssub] at this ⊢
      have : (a.x * b.x - a.y * b.y - a.x) * b.y = 0 := by linarith
      rcases mul_eq_zero.mp this with h | h
      · right; linarith
      · left; exact h
    · rintro (h | h)
      · ext <;> simp [Cf.mulAssign, Cf.mul, h]
      · simp only [Cf.mul, ssub, smul'] at h
        ext <;> simp [Cf.mulAssign, Cf.mul, h]
  · by_cases hb : b.toC = 0
    · have hd : Scalar.beq b.den Scalar.zero = true := by rw [sbeq, Cf.den_eq, hb]; simp
      unfold Cf.divAssign Cf.div
      rw [if_pos hd, if_pos hd]
      simp [hb]
    · have hd0 : b.den ≠ 0 := by rw [Cf.den_eq]; exact (Complex.normSq_pos.mpr hb).ne'
      have hd : ¬ (Scalar.beq b.den Scalar.zero = true) := by simpa using hd0
      unfold Cf.divAssign Cf.div
      rw [if_neg hd, if_neg hd]
      simp only [Option.some.injEq, Cf.mk.injEq, true_and, sdiv, ssub, smul', sadd,
        exists_eq_left', hb, false_or]
      constructor
      · intro h
        rw [div_left_inj' hd0] at h
        have : ((a.x * b.x + a.y * b.y) / b.den - a.x) * b.y = 0 := by linarith
        rcases mul_eq_zero.mp this with h | h
        · right; linarith
        · left; exact h
      · rintro (h | h)
        · simp [h]
        · rw [h]

/-! ## C21 norm and conjugate -/

/-- C20. The operators of the primitive floats, as the generic code sees them: each compound assignment is
operate-then-assign, division never panics, `>` is the strict order. -/
theorem C20_primitives (a b : ℝ) :
    BasicOps.zero = (0 : ℝ) ∧ BasicOps.add a b = a + b ∧ BasicOps.sub a b = a - b ∧ BasicOps.mul a b = a * b
      ∧ BasicOps.div a b = some (a / b) ∧ BasicOps.addAssign a b = a + b ∧ BasicOps.subAssign a b = a - b
      ∧ BasicOps.mulAssign a b = a * b ∧ BasicOps.divAssign a b = some (a / b)
      ∧ (BasicOps.gt a b = true ↔ b < a) := by
  refine ⟨by simp [BasicOps.zero, Scalar.zero, Scalar.lit], rfl, rfl, rfl, rfl, rfl, rfl, rfl, rfl, ?_⟩
  exact decide_eq_true_iff

/-- C21. Conjugation is an involutive automorphism; `z·conj z = norm_sq z`; `norm_sq` is
multiplicative and vanishes only at zero; `norm` is its square root and satisfies the triangle
inequality. -/
theorem C21_norm_conj (a b : Cf w ℝ) :
    a.conj.conj = a ∧ (a.add b).conj = a.conj.add b.conj ∧ (a.mul b).conj = a.conj.mul b.conj
      ∧ a.mul a.conj = ⟨a.normSq, 0⟩ ∧ (a.mul b).normSq = a.normSq * b.normSq
      ∧ (a.normSq = 0 ↔ a = Cf.default) ∧ 0 ≤ a.norm ∧ a.norm ^ 2 = a.normSq
      ∧ (a.add b).norm ≤ a.norm + b.norm ∧ (a.mul b).norm = a.norm * b.norm := by
  refine ⟨?_, ?_, ?_, ?_, ?_, ?_, ?_, ?_, ?_, ?_⟩
  · apply Cf.toC_inj.mp; simp
  · apply Cf.toC_inj.mp; simp
  · apply Cf.toC_inj.mp; simp
  · ext <;> simp [Cf.mul, Cf.conj, Cf.normSq] <;> ring
  · simp [Cf.normSq_eq]
  · rw [Cf.normSq_eq, Complex.normSq_eq_zero, ← Cf.toC_inj, Cf.toC_default]
  · rw [Cf.norm_eq]; exact norm_nonneg _
  · rw [Cf.norm_eq, Cf.normSq_eq, Complex.sq_norm]
  · simp only [Cf.norm_eq, Cf.toC_add]; exact norm_add_le _ _
  · simp only [Cf.norm_eq, Cf.toC_mul]; exact norm_mul _ _

/-! ## C22 comparison -/

/-- C22, the part that holds: the four comparison operators order by modulus, hence form a total
preorder, and agree with each other and with `partial_cmp`, which never returns `None`. -/
theorem C22_partial (a b : Cf w ℝ) :
    (a.lt b = true ↔ ‖a.toC‖ < ‖b.toC‖) ∧ (a.le b = true ↔ ‖a.toC‖ ≤ ‖b.toC‖)
      ∧ (a.gt b = true ↔ ‖b.toC‖ < ‖a.toC‖) ∧ (a.ge b = true ↔ ‖b.toC‖ ≤ ‖a.toC‖)
      ∧ (a.partialCmp b = some .lt ↔ a.lt b = true) ∧ (a.partialCmp b = some .gt ↔ a.gt b = true)
      ∧ (a.partialCmp b = some .eq ↔ ‖a.toC‖ = ‖b.toC‖) ∧ a.partialCmp b ≠ none
      ∧ (a.eq b = true ↔ a = b) := by
  have e : ∀ {u v : ℂ}, Complex.normSq u ≤ Complex.normSq v ↔ ‖u‖ ≤ ‖v‖ := by
    intro u v
    rw [← Complex.sq_norm, ← Complex.sq_norm]
    exact pow_le_pow_iff_left₀ (norm_nonneg _) (norm_nonneg _) two_ne_zero
  have e' : ∀ {u v : ℂ}, Complex.normSq u < Complex.normSq v ↔ ‖u‖ < ‖v‖ := by
    intro u v; rw [← not_le, e, not_le]
  have h1 : (a.lt b = true ↔ ‖a.toC‖ < ‖b.toC‖) := by
    simp only [Cf.lt, slt, Cf.normSq_eq, e']
  have h3 : (a.gt b = true ↔ ‖b.toC‖ < ‖a.toC‖) := by
    simp only [Cf.gt, slt, Cf.normSq_eq, e']
  have hab : (Scalar.le a.normSq b.normSq = true) ↔ ‖a.toC‖ ≤ ‖b.toC‖ := by
    simp only [sle, Cf.normSq_eq, e]
  have hba : (Scalar.le b.normSq a.normSq = true) ↔ ‖b.toC‖ ≤ ‖a.toC‖ := by
    simp only [sle, Cf.normSq_eq, e]
  have ht := le_total ‖a.toC‖ ‖b.toC‖
  refine ⟨h1, hab, h3, hba, ?_, ?_, ?_, ?_, ?_⟩
  · rw [h1]; unfold Cf.partialCmp
    cases h5 : Scalar.le a.normSq b.normSq <;> cases h6 : Scalar.le b.normSq a.normSq <;>
      simp_all [← not_le]
  · rw [h3]; unfold Cf.partialCmp
    cases h5 : Scalar.le a.normSq b.normSq <;> cases h6 : Scalar.le b.normSq a.normSq <;>
      simp_all [← not_le]
  · unfold Cf.partialCmp
    rw [show ‖a.toC‖ = ‖b.toC‖ ↔ ‖a.toC‖ ≤ ‖b.toC‖ ∧ ‖b.toC‖ ≤ ‖a.toC‖ from le_antisymm_iff,
      ← hab, ← hba]
    cases h5 : Scalar.le a.normSq b.normSq <;> cases h6 : Scalar.le b.normSq a.normSq <;> simp
  · unfold Cf.partialCmp
    have := le_total ‖a.toC‖ ‖b.toC‖
    rw [← hab, ← hba] at this
    cases h5 : Scalar.le a.normSq b.normSq <;> cases h6 : Scalar.le b.normSq a.normSq <;> simp_all
  · simp only [Cf.eq, Bool.and_eq_true, sbeq]
    exact ⟨fun h => Cf.ext h.1 h.2, fun h => by rw [h]; exact ⟨rfl, rfl⟩⟩

/-- C22 is false of the code: `partial_cmp` says `Equal` for different numbers of equal modulus,
such as `1` and `i`, which `==` distinguishes. -/
theorem C22_refuted : ∃ a b : Cf w ℝ, a.partialCmp b = some .eq ∧ a.eq b = false := by
  refine ⟨Cf.unit, Cf.iunit, ?_, ?_⟩
  · rw [(C22_partial _ _).2.2.2.2.2.2.1]; simp
  · rw [← Bool.not_eq_true, (C22_partial _ _).2.2.2.2.2.2.2.2]
    intro h
    have := congrArg Cf.x h
    simp [Cf.unit, Cf.iunit] at this

/-- C22. The order is total and transitive. -/
theorem C22_total_preorder (a b c : Cf w ℝ) :
    (a.le b = true ∨ b.le a = true) ∧ (a.le b = true → b.le c = true → a.le c = true)
      ∧ (a.lt b = true ↔ b.le a = false) ∧ (a.gt b = b.lt a) ∧ (a.ge b = b.le a) := by
  have h := fun x y : Cf w ℝ => (C22_partial x y).2.1
  have h' := fun x y : Cf w ℝ => (C22_partial x y).1
  refine ⟨?_, ?_, ?_, rfl, rfl⟩
  · rw [h, h]; exact le_total _ _
  · rw [h, h, h]; exact le_trans
  · rw [h', ← Bool.not_eq_true, h, not_le]

/-! ## C23 polar form -/

/-- C23, the part that holds: for `Cf32` the polar round-trip is exact for every number; for `Cf64`
it is for numbers with positive real part (missing: the other half plane, where it is false; on the
imaginary axis the code divides by zero, which exact arithmetic does not represent). -/
theorem C23_partial :
    (∀ z : Cf .w32 ℝ, Cf.newe z.norm z.phase = z)
      ∧ (∀ z : Cf .w64 ℝ, 0 < z.x → Cf.newe z.norm z.phase = z) := by
  constructor
  · intro z
    have e : z.phase = Complex.arg z.toC := rfl
    ext
    · simp only [Cf.newe, smul', scos, Cf.norm_eq, e]
      exact Complex.norm_mul_cos_arg z.toC
    · simp only [Cf.newe, smul', ssin, Cf.norm_eq, e]
      exact Complex.norm_mul_sin_arg z.toC
  · intro z hx
    have e : z.phase = Complex.arg z.toC := by
      have h1 : z.phase = Real.arctan (z.toC.im / z.toC.re) := rfl
      rw [h1, ← Complex.tan_arg, Real.arctan_tan]
      · have := Complex.abs_arg_lt_pi_div_two_iff.mpr (Or.inl (show 0 < z.toC.re from hx))
        exact (abs_lt.mp this).1
      · have := Complex.abs_arg_lt_pi_div_two_iff.mpr (Or.inl (show 0 < z.toC.re from hx))
        exact (abs_lt.mp this).2
    ext
    · simp only [Cf.newe, smul', scos, Cf.norm_eq, e]
      exact Complex.norm_mul_cos_arg z.toC
    · simp only [Cf.newe, smul', ssin, Cf.norm_eq, e]
      exact Complex.norm_mul_sin_arg z.toC

/-- C23 is false of the code for `Cf64`: *every* number with negative real part comes back
negated. -/
theorem C23_refuted (z : Cf .w64 ℝ) (hx : z.x < 0) :
    Cf.newe z.norm z.phase = (⟨-z.x, -z.y⟩ : Cf .w64 ℝ) ∧ Cf.newe z.norm z.phase ≠ z := by
  have key : Cf.newe z.norm z.phase = (⟨-z.x, -z.y⟩ : Cf .w64 ℝ) := by
    have h := C23_partial.2 (⟨-z.x, -z.y⟩ : Cf .w64 ℝ) (by simpa using hx)
    have e1 : Cf.phase (⟨-z.x, -z.y⟩ : Cf .w64 ℝ) = z.phase := by
      simp only [Cf.phase, satan, sdiv, neg_div_neg_eq]
    have e2 : Cf.norm (⟨-z.x, -z.y⟩ : Cf .w64 ℝ) = z.norm := by
      simp [Cf.norm]
    rw [e1, e2] at h
    exact h
  refine ⟨key, fun h => ?_⟩
  rw [key] at h
  have := congrArg Cf.x h
  simp only at this
  linarith

example : ∃ z : Cf .w64 ℝ, z.x < 0 := ⟨⟨-1, 0⟩, by norm_num⟩

end Renplex
