import Verif.Props.MatrixOps
/-!
# C16: exactly when up-sampling is right, and exactly when it panics
-/

namespace Renplex
open Mat
variable {α : Type} [BasicOps α]

/-- Before the kernel is looked at: a block whose odd width is at most half its height panics. -/
theorem upsampling_narrow {m k : Mat α} {r c p q : Nat} {f : Nat → Nat → α} (hm : m.Is r c f)
    (hc : 0 < c) (hp : 0 < p) (ho : q % 2 = 1) (hq : q ≤ (p - 1) / 2) :
    m.fractionalUpsampling (p, q) k = none := by
  unfold Mat.fractionalUpsampling
  rw [C18_rows hm hc, hm.1]
  have hl : halfOffset q p = some ((p - 1) / 2) := by
    unfold halfOffset usub
    rw [if_neg (by omega), if_pos (by omega)]; rfl
  have hr : (usub q ((p - 1) / 2)).bind (fun x => usub x 1) = none := by
    unfold usub
    by_cases h : (p - 1) / 2 ≤ q
    · rw [if_pos h]
      simp only [Option.bind_some]
      rw [if_neg (by omega)]
    · rw [if_neg h]; rfl
  simp only [Option.bind_eq_bind, Option.bind_some, hl, hr, Option.bind_none, Option.bind_fun_none]

/-- The stuffing succeeds for all other blocks. -/
theorem upsampling_stuffed {m k : Mat α} {r c p q kr kc : Nat} {f g : Nat → Nat → α} (hm : m.Is r c f)
    (hk : k.Is kr kc g) (hc : 0 < c) (hp : 0 < p) (hq : 0 < q) (hl : leftOff p q < q) :
    m.fractionalUpsampling (p, q) k
      = if kr % 2 = 0 ∨ kc % 2 = 0 then some (.error .invalidRHS) else
        (usub kr 2).bind fun d =>
          ((fromBody (table (r * p) (c * q) (spread p q (upOff p) (leftOff p q) f))
            (r * p, c * q)).pad (d, d)).bind fun pm =>
          (pm.convolution k).bind fun out => (unwrap out).bind fun out => some (.ok out) := by
  unfold Mat.fractionalUpsampling
  rw [C18_rows hm hc, hm.1, hk.1]
  simp only [Option.bind_eq_bind, Option.bind_some]
  have hu : upOff p < p := by unfold upOff; split <;> omega
  have h1 : halfOffset p p = some (upOff p) := by
    unfold upOff halfOffset usub
    by_cases he : p % 2 = 0
    · simp only [he, if_true]; rw [if_pos (by omega)]
    · simp only [he, if_false]; rw [if_pos (by omega)]; rfl
  have h2 : halfOffset q p = some (leftOff p q) := by
    unfold leftOff halfOffset usub
    by_cases he : q % 2 = 0
    · simp only [he, if_true]; rw [if_pos (by omega)]
    · simp only [he, if_false]; rw [if_pos (by omega)]; rfl
  have h3' : (usub p (upOff p)).bind (fun x => usub x 1) = some (p - upOff p - 1) := by
    unfold usub
    rw [if_pos (by omega)]
    simp only [Option.bind_some]
    rw [if_pos (by omega)]
  have h4 : (usub q (leftOff p q)).bind (fun x => usub x 1) = some (q - leftOff p q - 1) := by
    unfold usub
    rw [if_pos (by omega)]
    simp only [Option.bind_some]
    rw [if_pos (by omega)]
  simp only [h1, h2, h3', h4, Option.bind_some]
  rw [stuffLoop_eq r c p q _ _ hu hl f]
  simp only [Option.bind_some]
  rw [if_neg (by simp [table_length])]

/-- C16, for every non-empty matrix, every block and every kernel of odd size: when the call returns a
matrix it has `kr - 3` rows and `2·kr - kc - 3` columns more than it should, when it does not it
panics. -/
theorem C16_partial_all {m k : Mat α} {r c p q kr kc : Nat} {f g : Nat → Nat → α} (hm : m.Is r c f)
    (hk : k.Is kr kc g) (hr : 0 < r) (hc : 0 < c) (hp : 0 < p) (hq : 0 < q) (h1 : kr % 2 = 1)
    (h2 : kc % 2 = 1) :
    (m.fractionalUpsampling (p, q) k = none
        ↔ kr = 1 ∨ c * q + 2 * (kr - 2) < kc ∨ q % 2 = 1 ∧ q ≤ (p - 1) / 2)
      ∧ ∀ x, m.fractionalUpsampling (p, q) k = some x → ∃ m', x = .ok m'
        ∧ m'.Is (r * p + kr - 3) (c * q + 2 * kr - 3 - kc)
          (corr kr kc (padded (r * p) (c * q) (kr - 2) (kr - 2)
            (spread p q (upOff p) (leftOff p q) f)) g) := by
  have e1 : 0 < r * p := Nat.mul_pos hr hp
  by_cases hn : q % 2 = 1 ∧ q ≤ (p - 1) / 2
  · have := upsampling_narrow (k := k) hm hc hp hn.1 hn.2
    rw [this]
    exact ⟨⟨fun _ => .inr (.inr hn), fun _ => rfl⟩, fun x h => by cases h⟩
  · have hl : leftOff p q < q := by
      unfold leftOff
      by_cases h : q % 2 = 0
      · rw [if_pos h]; omega
      · rw [if_neg h]; omega
    have e := upsampling_stuffed hm hk hc hp hq hl
    rw [if_neg (by omega)] at e
    by_cases h3 : kr = 1
    · have hu : usub kr 2 = none := by unfold usub; rw [if_neg (by omega)]
      rw [hu] at e
      have e' : m.fractionalUpsampling (p, q) k = none := e
      rw [e']
      exact ⟨⟨fun _ => .inl h3, fun _ => rfl⟩, fun x h => by cases h⟩
    · have hu : usub kr 2 = some (kr - 2) := by unfold usub; rw [if_pos (by omega)]
      by_cases h4 : c * q + 2 * (kr - 2) < kc
      · rw [hu] at e
        simp only [Option.bind_eq_bind, Option.bind_some] at e
        rw [pad_is (Mat.fromBody_is _ _ _)] at e
        simp only [Option.bind_some] at e
        rw [C12_too_large _ _ (.inr (by rw [hk.1]; exact h4))] at e
        have e' : m.fractionalUpsampling (p, q) k = none := e
        rw [e']
        exact ⟨⟨fun _ => .inr (.inl h4), fun _ => rfl⟩, fun x h => by cases h⟩
      · have := upsampling_eq hm hk hc hp hq hl h1 h2 (by omega) (by omega) (by omega)
        rw [this]
        refine ⟨⟨fun h => (by cases h), fun h => by omega⟩, fun x h => ?_⟩
        cases h
        refine ⟨_, rfl, ?_⟩
        have d1 : r * p + 2 * (kr - 2) - kr + 1 = r * p + kr - 3 := by omega
        have d2 : c * q + 2 * (kr - 2) - kc + 1 = c * q + 2 * kr - 3 - kc := by omega
        rw [d1, d2]
        exact ⟨rfl, rfl⟩

/-- C16, exactly when the shape is restored: with 3 × 3 kernels, unless an odd block width is at most
half the block height. -/
theorem C16_partial_iff {m k : Mat α} {r c p q kr kc : Nat} {f g : Nat → Nat → α} (hm : m.Is r c f)
    (hk : k.Is kr kc g) (hr : 0 < r) (hc : 0 < c) (hp : 0 < p) (hq : 0 < q) (h1 : kr % 2 = 1)
    (h2 : kc % 2 = 1) :
    (∃ m', m.fractionalUpsampling (p, q) k = some (.ok m') ∧ m'.shape = (r * p, c * q))
      ↔ kr = 3 ∧ kc = 3 ∧ (q % 2 = 1 → (p - 1) / 2 < q) := by
  obtain ⟨a1, a2⟩ := C16_partial_all hm hk hr hc hp hq h1 h2
  have e1 : 0 < r * p := Nat.mul_pos hr hp
  have e2 : 0 < c * q := Nat.mul_pos hc hq
  constructor
  · rintro ⟨m', h, hs⟩
    obtain ⟨m'', h', hm''⟩ := a2 _ h
    cases h'
    have hn : ¬ (kr = 1 ∨ c * q + 2 * (kr - 2) < kc ∨ q % 2 = 1 ∧ q ≤ (p - 1) / 2) := by
      rw [← a1, h]; simp
    rw [hm''.1, Prod.mk.injEq] at hs
    refine ⟨by omega, by omega, by omega⟩
  · rintro ⟨rfl, rfl, h3⟩
    obtain ⟨m', -, -, h, hi⟩ := C16_partial hm hk hr hc hp hq h3
    exact ⟨m', h, hi.1⟩

/-- C16. A kernel with an even side is rejected with an error, unless the block alone makes the call
panic. -/
theorem C16_even {m k : Mat α} {r c p q kr kc : Nat} {f g : Nat → Nat → α} (hm : m.Is r c f)
    (hk : k.Is kr kc g) (hc : 0 < c) (hp : 0 < p) (hq : 0 < q) (h : kr % 2 = 0 ∨ kc % 2 = 0) :
    m.fractionalUpsampling (p, q) k
      = if q % 2 = 1 ∧ q ≤ (p - 1) / 2 then none else some (.error .invalidRHS) := by
  split
  · rename_i hn
    exact upsampling_narrow hm hc hp hn.1 hn.2
  · have hl : leftOff p q < q := by
      unfold leftOff
      by_cases h : q % 2 = 0
      · rw [if_pos h]; omega
      · rw [if_neg h]; omega
    rw [upsampling_stuffed hm hk hc hp hq hl, if_pos h]

example : (Mat.fromBody [1, 2] (1, 2) : Mat Int).fractionalUpsampling (3, 1)
    (Mat.fromBody [0, 0, 0, 0, 1, 0, 0, 0, 0] (3, 3)) = none := rfl
example : (Mat.fromBody [1] (1, 1) : Mat Int).fractionalUpsampling (1, 1)
    (Mat.fromBody [1, 1, 1, 1, 1] (1, 5)) = none := rfl
example : (Mat.fromBody [1] (1, 1) : Mat Int).fractionalUpsampling (1, 1)
    (Mat.fromBody [1, 2, 3] (3, 1)) = some (.ok (Mat.fromBody [0, 2, 0] (1, 3))) := rfl
example : (Mat.fromBody [1] (1, 1) : Mat Int).fractionalUpsampling (1, 1)
    (Mat.fromBody [1, 2] (1, 2)) = some (.error .invalidRHS) := rfl

end Renplex
