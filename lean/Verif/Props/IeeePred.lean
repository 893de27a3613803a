import Verif.Props.IeeeNet
import Mathlib.Data.EReal.Basic
/-!
# The predicted class in `f32` and `f64`
-/

namespace Renplex

/-- The index fold of `max_pred_test` for an ordering by a score. -/
theorem argmax_fold_score {α T : Type} [BasicOps α] [LinearOrder T] {P : α → Prop} {σ : α → T}
    (h : ∀ a z, P z → (BasicOps.gt a z = true ↔ σ z < σ a) ∧ (BasicOps.gt a z = true → P a))
    (v : List α) (k : Nat) (i0 : Nat) (z0 : α) (hz : P z0) :
    let r := (v.zipIdx k).foldl (fun (acc : Nat × α) (e : α × Nat) =>
      if BasicOps.gt e.1 acc.2 then (e.2, e.1) else acc) (i0, z0)
    (r = (i0, z0) ∧ ∀ y ∈ v, σ y ≤ σ z0)
      ∨ ∃ i, r.1 = k + i ∧ v[i]? = some r.2 ∧ σ z0 < σ r.2 ∧ (∀ y ∈ v, σ y ≤ σ r.2)
        ∧ ∀ (j : Nat) (y : α), j < i → v[j]? = some y → σ y < σ r.2 := by
  induction v generalizing k i0 z0 with
  | nil => left; simp
  | cons a v ih =>
    simp only [List.zipIdx_cons, List.foldl_cons]
    obtain ⟨hgt, hP⟩ := h a z0 hz
    by_cases hc : BasicOps.gt a z0 = true
    · rw [if_pos hc]
      have h' := hgt.mp hc
      right
      rcases ih (k + 1) k a (hP hc) with ⟨hr, hy⟩ | ⟨i, h1, h2, h3, h4, h5⟩
      · rw [hr]
        refine ⟨0, rfl, rfl, h', ?_, by simp⟩
        intro y hm
        rcases List.mem_cons.mp hm with rfl | hm
        · exact le_rfl
        · exact hy y hm
      · refine ⟨i + 1, by rw [h1]; omega, by simpa using h2, h'.trans h3, ?_, ?_⟩
        · intro y hm
          rcases List.mem_cons.mp hm with rfl | hm
          · exact h3.le
          · exact h4 y hm
        · intro j y hj hy
          cases j with
          | zero => obtain rfl : a = y := by simpa using hy
                    exact h3
          | succ j => exact h5 j y (by omega) (by simpa using hy)
    · rw [if_neg hc]
      have h' := not_lt.mp (fun hlt => hc (hgt.mpr hlt))
      rcases ih (k + 1) i0 z0 hz with ⟨hr, hy⟩ | ⟨i, h1, h2, h3, h4, h5⟩
      · left
        refine ⟨hr, ?_⟩
        intro y hm
        rcases List.mem_cons.mp hm with rfl | hm
        · exact h'
        · exact hy y hm
      · right
        refine ⟨i + 1, by rw [h1]; omega, by simpa using h2, h3, ?_, ?_⟩
        · intro y hm
          rcases List.mem_cons.mp hm with rfl | hm
          · exact h'.trans h3.le
          · exact h4 y hm
        · intro j y hj hy
          cases j with
          | zero => obtain rfl : a = y := by simpa using hy
                    exact h'.trans_lt h3
          | succ j => exact h5 j y (by omega) (by simpa using hy)

noncomputable section
variable {w : Width} {B : Binary} {L : Libm B}

/-- The size of a number that is not negative; NaN counts as zero. -/
def Fp.size : Fp B → EReal
  | .nan => 0
  | .inf _ => ⊤
  | .num s m k h => ((Fp.num s m k h).val : EReal)

/-- What `max_pred_test` compares: the computed square of the modulus; NaN counts as zero. -/
def Cf.score (z : Cf w (Fl L)) : EReal := z.normSq.fp.size

/-- NaN, plus infinity or a number that is not negative. -/
def Fp.Pos : Fp B → Prop
  | .nan => True
  | .inf s => s = false
  | .num s m k h => 0 ≤ (Fp.num s m k h).val

theorem Fp.pos_ofAbs {x : ℝ} (hx : 0 ≤ x) : (Fp.ofAbs false x : Fp B).Pos := by
  by_cases h : B.near x < B.top
  · have h1 := Fp.ofAbs_spec (B := B) (s := false) (x := x) (fun _ => by simp [not_lt.mpr hx]) (by rwa [abs_of_nonneg hx])
    rw [abs_of_nonneg hx] at h1
    have h2 : 0 ≤ (Fp.ofAbs false x : Fp B).val := by
      rw [h1.2, B.round_of_nonneg hx]
      exact B.near_nonneg x
    generalize (Fp.ofAbs false x : Fp B) = a at *
    cases a with
    | nan => trivial
    | inf s => exact h1.1.elim
    | num s m k h => exact h2
  · rw [Fp.ofAbs_inf hx (not_lt.mp h)]
    rfl

theorem Fp.pos_mul_self (a : Fp B) : (a.mul a).Pos := by
  cases a with
  | nan => trivial
  | inf s => simp [Fp.mul, Fp.Pos]
  | num s m k h =>
    simp only [Fp.mul, Bool.xor_self]
    exact Fp.pos_ofAbs (abs_nonneg _)

theorem Fp.pos_add {a b : Fp B} (ha : a.Pos) (hb : b.Pos) : (a.add b).Pos := by
  cases a with
  | nan => cases b <;> trivial
  | inf s =>
    cases ha
    cases b with
    | nan => trivial
    | inf t => cases hb; simp [Fp.add, Fp.Pos]
    | num => rfl
  | num s m k h =>
    cases b with
    | nan => trivial
    | inf t => exact hb
    | num t m' k' h' =>
      simp only [Fp.add]
      split_ifs with e
      · change 0 ≤ (Fp.zero (s && t) : Fp B).val
        rw [Fp.zero_val]
      · unfold Fp.ofReal
        have h0 : 0 ≤ (Fp.num s m k h).val + (Fp.num t m' k' h').val := add_nonneg ha hb
        rw [decide_eq_false (not_lt.mpr h0)]
        exact Fp.pos_ofAbs (abs_nonneg _)

theorem Cf.normSq_pos (z : Cf w (Fl L)) : z.normSq.fp.Pos := Fp.pos_add (Fp.pos_mul_self _) (Fp.pos_mul_self _)

theorem Fp.size_nonneg {a : Fp B} (ha : a.Pos) : 0 ≤ a.size := by
  cases a with
  | nan => exact le_rfl
  | inf s => exact le_top
  | num s m k h => exact EReal.coe_nonneg.mpr ha

theorem Fp.lt_iff_size {a b : Fp B} (ha : a.Pos) (hb : b.Pos) (hn : a ≠ .nan) :
    (a.lt b = true ↔ a.size < b.size) ∧ (a.lt b = true → b ≠ .nan) := by
  cases a with
  | nan => exact absurd rfl hn
  | inf s =>
    cases ha
    refine ⟨?_, ?_⟩
    · cases b with
      | nan => simp [Fp.lt, Fp.size]
      | inf t => cases hb; simp [Fp.lt, Fp.size]
      | num t m k h => simp [Fp.lt, Fp.size]
    · cases b <;> simp [Fp.lt]
  | num s m k h =>
    refine ⟨?_, ?_⟩
    · cases b with
      | nan =>
        have : 0 ≤ (Fp.num s m k h).val := ha
        simp only [Fp.lt, Fp.size, Bool.false_eq_true, false_iff, not_lt]
        exact EReal.coe_nonneg.mpr this
      | inf t =>
        cases hb
        simp [Fp.lt, Fp.size]
      | num t m' k' h' => simp [Fp.lt, Fp.size]
    · cases b <;> simp [Fp.lt]

/-- C91. In `f32` and `f64` the predicted class is the first index of a largest score. -/
theorem C91_argmax {v : List (Cf w (Fl L))} (hv : v ≠ []) :
    ∃ z, v[Net.argmax v]? = some z ∧ (∀ y ∈ v, y.score ≤ z.score)
      ∧ ∀ (j : Nat) (y : Cf w (Fl L)), j < Net.argmax v → v[j]? = some y → y.score < z.score := by
  have hg : ∀ a z : Cf w (Fl L), z.normSq.fp ≠ .nan → (BasicOps.gt a z = true ↔ z.score < a.score)
      ∧ (BasicOps.gt a z = true → a.normSq.fp ≠ .nan) :=
    fun a z hz => Fp.lt_iff_size z.normSq_pos a.normSq_pos hz
  have h0 : (BasicOps.zero : Cf w (Fl L)).normSq.fp.Finite ∧ (BasicOps.zero : Cf w (Fl L)).normSq.fp.val = 0 := by
    obtain ⟨z1, z2⟩ := Fl.zero_finite (L := L)
    obtain ⟨m1, m2⟩ := Fp.times_zero z1 z1 z2
    have hlt : B.near |((Scalar.zero : Fl L).fp.mul (Scalar.zero : Fl L).fp).val
        + ((Scalar.zero : Fl L).fp.mul (Scalar.zero : Fl L).fp).val| < B.top := by
      rw [m2, add_zero, abs_zero, B.near_zero]; exact Fp.top_pos
    have := Fp.add_spec m1 m1 hlt
    rw [m2, add_zero, B.round_zero] at this
    exact this
  have hs0 : (BasicOps.zero : Cf w (Fl L)).score = 0 := by
    unfold Cf.score
    revert h0
    generalize (BasicOps.zero : Cf w (Fl L)).normSq.fp = a
    rintro ⟨h1, h2⟩
    cases a with
    | nan => exact h1.elim
    | inf => exact h1.elim
    | num => simp only [Fp.size, h2]; rfl
  have h := argmax_fold_score hg v 0 0 BasicOps.zero (by
    intro e
    rw [e] at h0
    exact h0.1)
  simp only at h
  rcases h with ⟨hr, hy⟩ | ⟨i, h1, h2, h3, h4, h5⟩
  · cases v with
    | nil => exact absurd rfl hv
    | cons a v =>
      have h0 : Net.argmax (a :: v) = 0 := by unfold Net.argmax; rw [hr]
      rw [h0]
      refine ⟨a, rfl, fun y hm => ?_, by simp⟩
      have := hy y hm
      rw [hs0] at this
      exact this.trans (Fp.size_nonneg a.normSq_pos)
  · refine ⟨_, ?_, h4, ?_⟩
    · rw [← h2]
      congr 1
      unfold Net.argmax
      rw [h1, Nat.zero_add]
    · intro j y hj hy
      refine h5 j y ?_ hy
      unfold Net.argmax at hj
      rw [h1, Nat.zero_add] at hj
      exact hj

/-- The index is determined by the scores. -/
theorem argmax_unique {v : List (Cf w (Fl L))} {i : Nat} {z : Cf w (Fl L)} (hz : v[i]? = some z)
    (h1 : ∀ y ∈ v, y.score ≤ z.score) (h2 : ∀ (j : Nat) (y : Cf w (Fl L)), j < i → v[j]? = some y → y.score < z.score) :
    Net.argmax v = i := by
  have hv : v ≠ [] := by rintro rfl; simp at hz
  obtain ⟨a, ha, ha1, ha2⟩ := C91_argmax hv
  rcases Nat.lt_trichotomy i (Net.argmax v) with h | h | h
  · exact absurd (ha2 i z h hz) (not_lt.mpr (h1 a (List.mem_iff_getElem?.mpr ⟨_, ha⟩)))
  · exact h.symm
  · exact absurd (h2 _ a h ha) (not_lt.mpr (ha1 z (List.mem_iff_getElem?.mpr ⟨i, hz⟩)))

theorem Cf.score_of_finite {z : Cf w (Fl L)} (h : z.normSq.fp.Finite) : z.score = (z.normSq.fp.val : EReal) := by
  unfold Cf.score
  revert h
  generalize z.normSq.fp = a
  intro h
  cases a with
  | nan => exact h.elim
  | inf => exact h.elim
  | num => rfl

theorem Cf.score_nan {z : Cf w (Fl L)} (h : z.HasNan) : z.score = 0 := by
  have : z.normSq.fp = .nan := by
    change (z.x.fp.mul z.x.fp).add (z.y.fp.mul z.y.fp) = _
    rcases h with h | h
    · rw [h, Fp.mul_nan, Fp.nan_add]
    · rw [h, Fp.mul_nan, Fp.add_nan]
  unfold Cf.score
  rw [this]
  rfl

/-- C91. Falsified: the predicted class need not be an index of largest modulus. If every output is NaN or
zero after rounding its square, the class is 0. -/
theorem C91_refuted_lost {v : List (Cf w (Fl L))} (h : ∀ z ∈ v, z.HasNan ∨ z.Tiny) : Net.argmax v = 0 := by
  cases v with
  | nil => rfl
  | cons a v =>
    have hs : ∀ z ∈ a :: v, z.score = 0 := by
      intro z hz
      rcases h z hz with hz | hz
      · exact Cf.score_nan hz
      · have h1 := (Fl.den_zero_iff z).mpr hz
        have h2 : z.normSq.fp.beq (Scalar.zero : Fl L).fp = true := h1
        obtain ⟨z1, z2⟩ := Fl.zero_finite (L := L)
        have h3 : z.normSq.fp.Finite := by
          revert h2 z1
          generalize z.normSq.fp = a
          generalize (Scalar.zero : Fl L).fp = b
          intro h2 z1
          cases a <;> cases b <;> first | trivial | exact z1.elim | cases h2
        rw [Cf.score_of_finite h3, (Fp.beq_spec h3 z1).mp h2, z2]
        rfl
    exact argmax_unique (z := a) rfl (fun y hy => by rw [hs y hy, hs a (by simp)]) (fun j y hj => by omega)

theorem Cf.score_inf {z : Cf w (Fl L)} (hz : z.Finite) (h : B.top ≤ z.x.fp.val ^ 2 ∨ B.top ≤ z.y.fp.val ^ 2) :
    z.score = ⊤ := by
  have : z.normSq.fp = .inf false := Fl.den_inf hz h
  unfold Cf.score
  rw [this]
  rfl

/-- C91. Falsified: if the square of a part of the first output overflows, the class is 0, however large
the other outputs are. -/
theorem C91_refuted_overflow {a : Cf w (Fl L)} (ha : a.Finite)
    (h : B.top ≤ a.x.fp.val ^ 2 ∨ B.top ≤ a.y.fp.val ^ 2) (v : List (Cf w (Fl L))) : Net.argmax (a :: v) = 0 :=
  argmax_unique (z := a) rfl (fun y _ => by rw [Cf.score_inf ha h]; exact le_top) (fun j y hj => by omega)

/-- C91. So for outputs `2 ^ 70` and `2 ^ 80` in `f32` the class is 0, and the exact one is 1. -/
theorem C91_refuted_f32 (L : Libm binary32) {a b : Cf w (Fl L)} (ha : a.x.fp = .ofReal (2 ^ (70 : ℤ)))
    (ha' : a.y.fp = .zero false) (hb : b.x.fp = .ofReal (2 ^ (80 : ℤ))) (hb' : b.y.fp = .zero false) :
    a.Finite ∧ b.Finite ∧ Net.argmax [a, b] = 0 ∧ Net.argmax [a.exact, b.exact] = 1 := by
  have key : ∀ k : ℤ, 0 ≤ k → k ≤ 100 → (Fp.ofReal (2 ^ k) : Fp binary32).Finite
      ∧ (Fp.ofReal (2 ^ k) : Fp binary32).val = 2 ^ k := by
    intro k h0 h1
    have hp : (0 : ℝ) < 2 ^ k := by positivity
    have e : binary32.near (2 ^ k) = 2 ^ k := binary32.near_two_pow
      (by change (-149 : ℤ) ≤ k - (((24 : Nat) : ℤ) - 1); omega) (by change k - (((24 : Nat) : ℤ) - 1) ≤ (104 : ℤ); omega)
    obtain ⟨h4, h5⟩ := Fp.ofReal_spec (B := binary32) (x := 2 ^ k) (by
      rw [abs_of_pos hp, e]
      change (2 : ℝ) ^ k < 2 ^ (104 + ((24 : Nat) : ℤ))
      exact zpow_lt_zpow_right₀ one_lt_two (by push_cast; omega))
    exact ⟨h4, by rw [h5, binary32.round_of_nonneg hp.le, e]⟩
  obtain ⟨a1, a2⟩ := key 70 (by norm_num) (by norm_num)
  obtain ⟨b1, b2⟩ := key 80 (by norm_num) (by norm_num)
  rw [← ha] at a1 a2
  rw [← hb] at b1 b2
  have fa : a.Finite := ⟨a1, by rw [ha']; trivial⟩
  refine ⟨fa, ⟨b1, by rw [hb']; trivial⟩, C91_refuted_overflow fa (.inl ?_) [b], ?_⟩
  · rw [a2, ← zpow_natCast, ← zpow_mul]
    exact zpow_le_zpow_right₀ one_le_two (by change (104 + ((24 : Nat) : ℤ)) ≤ _; norm_num)
  · have na : ‖a.exact.toC‖ = 2 ^ (70 : ℤ) := by
      have : a.exact.toC = ((2 ^ (70 : ℤ) : ℝ) : ℂ) := by
        apply Complex.ext
        · exact a2
        · change a.y.fp.val = 0
          rw [ha', Fp.zero_val]
      rw [this, Complex.norm_real, Real.norm_of_nonneg (by positivity)]
    have nb : ‖b.exact.toC‖ = 2 ^ (80 : ℤ) := by
      have : b.exact.toC = ((2 ^ (80 : ℤ) : ℝ) : ℂ) := by
        apply Complex.ext
        · exact b2
        · change b.y.fp.val = 0
          rw [hb', Fp.zero_val]
      rw [this, Complex.norm_real, Real.norm_of_nonneg (by positivity)]
    have hlt : (2 : ℝ) ^ (70 : ℤ) < 2 ^ (80 : ℤ) := zpow_lt_zpow_right₀ one_lt_two (by norm_num)
    refine C56_unique _ _ _ (C56_argmax _ (by simp)) ⟨b.exact, rfl, fun y hy => ?_, fun j y hj hy => ?_⟩
    · rcases List.mem_pair.mp hy with rfl | rfl
      · rw [na, nb]; exact hlt.le
      · exact le_rfl
    · obtain rfl : j = 0 := by omega
      cases hy
      rw [na, nb]
      exact hlt

/-- C91. Falsified: a network whose parameters are all NaN predicts class 0 for every input. -/
theorem C91_refuted_network {n : Net (Cf w (Fl L))} (hw : ∀ l ∈ n.layers, l.WF) (hl : ∀ l ∈ n.layers, l.Carries Cf.IsNan)
    (hd : ∃ d, Layer.dense d ∈ n.layers) (hb : ∀ l ∈ n.layers, l.AllParams Cf.IsNan)
    {x : IOType (Cf w (Fl L))} {v : List (Cf w (Fl L))} (h : n.forward x = some (.ok (.scalar v))) : Net.argmax v = 0 :=
  C91_refuted_lost fun z hz => .inl (.inl ((C87_lost hw hl hd hb h).2 z hz).1)

/-! ## Agreement with the exact class -/

/-- Bounds for the computed square of a modulus `N`. -/
def Binary.sqUp (B : Binary) (N : ℝ) : ℝ := (1 + 3 * B.ulp) * N ^ 2 + 3 * B.tiny
def Binary.sqDown (B : Binary) (N : ℝ) : ℝ := (1 - 3 * B.ulp) * N ^ 2 - 3 * B.tiny

/-- C91. The computed square of the modulus of a finite number, if it cannot overflow. -/
theorem C91_square {z : Cf w (Fl L)} (hz : z.Finite) (h : B.sqUp ‖z.val‖ ≤ B.top / 2) :
    z.normSq.fp.Finite ∧ B.sqDown ‖z.val‖ ≤ z.normSq.fp.val ∧ z.normSq.fp.val ≤ B.sqUp ‖z.val‖ := by
  have hu := B.ulp_nonneg
  have hu1 := B.ulp_le
  have ht := B.tiny_nonneg
  unfold Binary.sqUp at h
  have eD : ‖z.val‖ ^ 2 = z.x.fp.val * z.x.fp.val + z.y.fp.val * z.y.fp.val := by
    rw [Complex.sq_norm, Complex.normSq_apply]; rfl
  have hx := mul_self_nonneg z.x.fp.val
  have hy := mul_self_nonneg z.y.fp.val
  set N := ‖z.val‖ ^ 2 with hN
  have h0 : 0 ≤ N := by positivity
  have hN1 : N ≤ B.top / 2 := by nlinarith [mul_nonneg hu h0]
  obtain ⟨f1, -⟩ := Fp.mul_spec hz.1 hz.1 (B.near_half (by rw [abs_of_nonneg hx]; linarith))
  obtain ⟨f2, -⟩ := Fp.mul_spec hz.2 hz.2 (B.near_half (by rw [abs_of_nonneg hy]; linarith))
  have e1 := (Fp.mul_err f1).2.2
  have e2 := (Fp.mul_err f2).2.2
  have e3 : |(z.x.fp.mul z.x.fp).val + (z.y.fp.mul z.y.fp).val - N| ≤ B.ulp * N + 2 * B.tiny := by
    rw [abs_of_nonneg hx] at e1
    rw [abs_of_nonneg hy] at e2
    rw [eD]
    calc _ = |((z.x.fp.mul z.x.fp).val - z.x.fp.val * z.x.fp.val) + ((z.y.fp.mul z.y.fp).val - z.y.fp.val * z.y.fp.val)| := by
            congr 1; ring
      _ ≤ _ := abs_add_le _ _
      _ ≤ _ := by linarith
  have e4 := abs_le.mp e3
  have f3 : z.normSq.fp.Finite := by
    refine (Fp.add_spec f1 f2 (B.near_half (abs_le.mpr ⟨?_, ?_⟩))).1
    · nlinarith [mul_nonneg hu h0]
    · nlinarith [mul_nonneg hu h0]
  have e5 : |z.normSq.fp.val - N| ≤ B.ulp * |N| + (1 + B.ulp) * (B.ulp * N + 2 * B.tiny) :=
    two_products e1 e2 (Fp.add_err f3).2.2 eD (by rw [abs_of_nonneg hx, abs_of_nonneg hy, eD])
  rw [abs_of_nonneg h0] at e5
  have e6 := abs_le.mp e5
  have e7 : B.ulp * N + (1 + B.ulp) * (B.ulp * N + 2 * B.tiny) ≤ 3 * B.ulp * N + 3 * B.tiny := by
    nlinarith [mul_nonneg hu h0, mul_nonneg hu (mul_nonneg hu h0), mul_nonneg hu ht]
  refine ⟨f3, ?_, ?_⟩
  · unfold Binary.sqDown; linarith [e6.1]
  · unfold Binary.sqUp; linarith [e6.2]

theorem Binary.sqUp_mono {a b : ℝ} (h0 : 0 ≤ a) (h : a ≤ b) : B.sqUp a ≤ B.sqUp b := by
  have hu := B.ulp_nonneg
  have := pow_le_pow_left₀ h0 h 2
  unfold Binary.sqUp
  nlinarith

theorem Binary.sqDown_mono {a b : ℝ} (h0 : 0 ≤ a) (h : a ≤ b) : B.sqDown a ≤ B.sqDown b := by
  have hu := B.ulp_le
  have := pow_le_pow_left₀ h0 h 2
  unfold Binary.sqDown
  nlinarith

theorem Binary.sq_le (a : ℝ) : B.sqDown a ≤ a ^ 2 ∧ a ^ 2 ≤ B.sqUp a := by
  have hu := B.ulp_nonneg
  have ht := B.tiny_nonneg
  have := mul_nonneg hu (sq_nonneg a)
  unfold Binary.sqDown Binary.sqUp
  constructor <;> linarith

/-- The `i`-th entry beats all the others by more than errors up to `δ` and the rounding of the squares, and
its square does not overflow. -/
def Clear (B : Binary) (δ : ℝ) (v : List (Cf w ℝ)) (i : Nat) : Prop :=
  ∃ x, v[i]? = some x ∧ δ ≤ ‖x.toC‖ ∧ B.sqUp (‖x.toC‖ + δ) ≤ B.top / 2
    ∧ ∀ (j : Nat) (y : Cf w ℝ), j ≠ i → v[j]? = some y → B.sqUp (‖y.toC‖ + δ) < B.sqDown (‖x.toC‖ - δ)

example : Clear binary32 (1 / 10) [(⟨1, 0⟩ : Cf .w32 ℝ), ⟨3, 4⟩] 1 := by
  have h0 := binary32.ulp_nonneg
  have t0 := binary32.tiny_nonneg
  have h1 : binary32.ulp ≤ 1 / 100 := by change (2 : ℝ) ^ (-((24 : Nat) : ℤ)) ≤ _; norm_num
  have h2 : binary32.tiny ≤ 1 := by
    change (2 : ℝ) ^ (-149 - 1 : ℤ) ≤ 1
    exact zpow_le_one_of_nonpos₀ one_le_two (by norm_num)
  have h3 : binary32.top = 2 ^ (104 + ((24 : Nat) : ℤ)) := rfl
  have n1 : ‖(⟨1, 0⟩ : Cf .w32 ℝ).toC‖ = 1 := by
    change ‖(⟨1, 0⟩ : ℂ)‖ = 1
    rw [show (⟨1, 0⟩ : ℂ) = 1 from rfl, norm_one]
  have n5 : ‖(⟨3, 4⟩ : Cf .w32 ℝ).toC‖ = 5 := by
    change ‖(⟨3, 4⟩ : ℂ)‖ = 5
    rw [Complex.norm_def, Complex.normSq_mk, show (3 : ℝ) * 3 + 4 * 4 = 5 ^ 2 by norm_num, Real.sqrt_sq (by norm_num)]
  refine ⟨⟨3, 4⟩, rfl, by rw [n5]; norm_num, ?_, ?_⟩
  · rw [n5, h3]
    have h6 : (100 : ℝ) ≤ 2 ^ (104 + ((24 : Nat) : ℤ)) / 2 := by norm_num
    unfold Binary.sqUp
    nlinarith
  · intro j y hj hy
    rw [n5]
    obtain rfl : j = 0 := by
      have := (List.getElem?_eq_some_iff.mp hy).1
      simp at this
      omega
    cases hy
    rw [n1]
    unfold Binary.sqUp Binary.sqDown
    nlinarith

/-- C91. Entries within `δ` of the exact ones, whose largest one is clear: both arithmetics pick it. -/
theorem C91_stable_partial {δ : ℝ} (hδ : 0 ≤ δ) {v : List (Cf w (Fl L))} {v' : List (Cf w ℝ)}
    (h : List.Forall₂ (fun z x => z.Finite ∧ ‖z.val - x.toC‖ ≤ δ) v v') {i : Nat} (hc : Clear B δ v' i) :
    Net.argmax v = i ∧ Net.argmax v' = i := by
  obtain ⟨x, hx, h1, h2, h3⟩ := hc
  have hi : i < v'.length := by
    by_contra hi
    rw [List.getElem?_eq_none (not_lt.mp hi)] at hx
    cases hx
  have hl := h.length_eq
  have near : ∀ (j : Nat) (y : Cf w ℝ), v'[j]? = some y → ∃ z, v[j]? = some z ∧ z.Finite ∧ ‖z.val‖ ≤ ‖y.toC‖ + δ ∧ ‖y.toC‖ - δ ≤ ‖z.val‖ := by
    intro j y hy
    obtain ⟨hj, rfl⟩ := List.getElem?_eq_some_iff.mp hy
    obtain ⟨k1, k2⟩ := List.Forall₂.get h (i := j) (by omega) hj
    simp only [List.get_eq_getElem] at k1 k2
    refine ⟨_, List.getElem?_eq_getElem (by omega), k1, ?_, ?_⟩
    · have := norm_add_le (v[j].val - v'[j].toC) v'[j].toC
      rw [sub_add_cancel] at this
      linarith
    · have := norm_sub_norm_le v'[j].toC v[j].val
      rw [norm_sub_rev] at this
      linarith
  obtain ⟨z, hz, z1, z2, z3⟩ := near i x hx
  have sz := C91_square z1 ((B.sqUp_mono (norm_nonneg _) z2).trans h2)
  have up : B.sqDown (‖x.toC‖ - δ) ≤ z.normSq.fp.val := (B.sqDown_mono (by linarith) z3).trans sz.2.1
  have top : B.sqDown (‖x.toC‖ - δ) ≤ B.sqUp (‖x.toC‖ + δ) := by
    refine (B.sq_le _).1.trans (le_trans ?_ (B.sq_le _).2)
    exact pow_le_pow_left₀ (by linarith) (by linarith) 2
  have lt : ∀ (j : Nat) (y : Cf w (Fl L)), j ≠ i → v[j]? = some y → y.score < z.score := by
    intro j y hj hy
    have hjl : j < v.length := (List.getElem?_eq_some_iff.mp hy).1
    obtain ⟨y0, e0, y1, y2, -⟩ := near j v'[j] (List.getElem?_eq_getElem (by omega))
    rw [hy] at e0
    cases e0
    have k := h3 j _ hj (List.getElem?_eq_getElem (by omega))
    have k2 := B.sqUp_mono (norm_nonneg _) y2
    have sy := C91_square y1 (k2.trans (k.le.trans (top.trans h2)))
    rw [Cf.score_of_finite sy.1, Cf.score_of_finite sz.1, EReal.coe_lt_coe_iff]
    linarith [sy.2.2]
  have lt' : ∀ (j : Nat) (y : Cf w ℝ), j ≠ i → v'[j]? = some y → ‖y.toC‖ < ‖x.toC‖ := by
    intro j y hj hy
    have k := h3 j y hj hy
    have k1 := (B.sq_le (‖y.toC‖ + δ)).2
    have k2 := (B.sq_le (‖x.toC‖ - δ)).1
    have := lt_of_pow_lt_pow_left₀ 2 (by linarith) (k1.trans_lt (k.trans_le k2))
    linarith
  constructor
  · refine argmax_unique hz (fun y hy => ?_) (fun j y hj hy => lt j y hj.ne hy)
    obtain ⟨j, hj⟩ := List.mem_iff_getElem?.mp hy
    by_cases e : j = i
    · subst e
      rw [hz] at hj
      cases hj
      exact le_rfl
    · exact (lt j y e hj).le
  · refine C56_unique _ _ _ (C56_argmax _ (by rintro rfl; simp at hx)) ⟨x, hx, fun y hy => ?_, fun j y hj hy => lt' j y hj.ne hy⟩
    obtain ⟨j, hj⟩ := List.mem_iff_getElem?.mp hy
    by_cases e : j = i
    · subst e
      rw [hx] at hj
      cases hj
      exact le_rfl
    · exact (lt' j y e hj).le

/-- C91. A network that cannot overflow predicts the exact class if the exact outputs are clear. -/
theorem C91_network_partial (hL : L.Accurate) (hu : L.u ≤ 1) {n : Net (Cf w (Fl L))} {n' : Net (Cf w ℝ)} (hn : n.layers ≠ [])
    {bs : List Bounds} (ho : ObeyChain bs n.layers n'.layers) (hb : ∀ b ∈ bs, 0 ≤ b.gain ∧ 0 ≤ b.bias)
    {s s' : Size} (hf : FitsChain n.layers s s') {x : IOType (Cf w (Fl L))} {x' : IOType (Cf w ℝ)} (hx : x.HasSize s)
    {A δ : ℝ} (hA : 0 ≤ A) (hδ : 0 ≤ δ) (h : x.Meets (fun z v => z.Finite ∧ ‖v.toC‖ ≤ A ∧ ‖z.val - v.toC‖ ≤ δ) x')
    (hl : ∀ l ∈ n.layers, l.AllParams Cf.Finite) (hs : SafeChain B (3 * L.u) bs A δ)
    {v' : List (Cf w ℝ)} (hv : n'.forward x' = some (.ok (.scalar v'))) {i : Nat}
    (hc : Clear B (errs B (3 * L.u) bs A δ).2 v' i) :
    ∃ v, n.forward x = some (.ok (.scalar v)) ∧ Net.argmax v = i ∧ Net.argmax v' = i := by
  obtain ⟨y, y', h1, h2, h3⟩ := C90_safe hL hu hn ho hb hf hx hA hδ h hl hs
  rw [hv] at h2
  cases h2
  cases y with
  | matrix => exact h3.elim
  | scalar v =>
    have h0 : 0 ≤ (errs B (3 * L.u) bs A δ).2 := by
      cases h3 with
      | nil => obtain ⟨x, hx, -⟩ := hc; simp at hx
      | cons a _ => exact (norm_nonneg _).trans a.2
    exact ⟨v, h1, C91_stable_partial h0 h3 hc⟩

/-- C91. If both arithmetics agree on every point, they count the same points, and in `f32` or `f64` the
accuracy is the exact one up to one rounding. -/
theorem C91_accuracy_partial {n : Net (Cf w (Fl L))} {n' : Net (Cf w ℝ)} {data : Dataset (Cf w (Fl L))}
    {data' : Dataset (Cf w ℝ)}
    (hp : List.Forall₂ (fun p p' => ∃ v v' t t', n.forward p.1 = some (.ok (.scalar v)) ∧ p.2 = .scalar t
      ∧ n'.forward p'.1 = some (.ok (.scalar v')) ∧ p'.2 = .scalar t'
      ∧ Net.argmax v = Net.argmax v' ∧ Net.argmax t = Net.argmax t') data.points data'.points)
    (ht : data.target.length = data'.target.length) (h0 : 0 < data.target.length) (h1 : data.target.length ≤ 2 ^ B.p) :
    ∃ (acc : Fl L) (acc' : ℝ), n.maxPredTest data = some acc ∧ n'.maxPredTest data' = some acc' ∧ acc.fp.Finite
      ∧ acc.fp.val = B.round acc' := by
  obtain ⟨r, hr, hr'⟩ : ∃ r, (data.points.mapM fun p => do
      let prediction ← n.forward p.1 >>= unwrap
      let pred ← prediction.asSlice
      let targ ← p.2.asSlice
      some (if Net.argmax targ = Net.argmax pred then 1 else 0)) = some r ∧ (data'.points.mapM fun p => do
      let prediction ← n'.forward p.1 >>= unwrap
      let pred ← prediction.asSlice
      let targ ← p.2.asSlice
      some (if Net.argmax targ = Net.argmax pred then 1 else 0)) = some r := by
    clear ht h0 h1
    generalize data.points = l at hp
    generalize data'.points = l' at hp
    induction hp with
    | nil => exact ⟨[], rfl, rfl⟩
    | cons a _ ih =>
      obtain ⟨r, ih1, ih2⟩ := ih
      obtain ⟨v, v', t, t', a1, a2, a3, a4, a5, a6⟩ := a
      rw [List.mapM_cons, List.mapM_cons, ih1, ih2]
      simp only [a1, a2, a3, a4, IOType.asSlice, unwrap, Option.bind_eq_bind, Option.bind_some, a5, a6]
      exact ⟨_, rfl, rfl⟩
  have hle : r.sum ≤ data.target.length := by
    have k1 : ∀ x ∈ r, x ≤ 1 := by
      intro x hx
      obtain ⟨p, -, hp⟩ := mapM_mem hr hx
      obtain ⟨_, -, hp⟩ := Option.bind_eq_some_iff.mp hp
      obtain ⟨_, -, hp⟩ := Option.bind_eq_some_iff.mp hp
      obtain ⟨_, -, hp⟩ := Option.bind_eq_some_iff.mp hp
      cases hp
      split_ifs <;> omega
    have k2 := List.sum_le_card_nsmul r 1 k1
    have k3 := mapM_length hr
    rw [Dataset.points, List.length_zip] at k3
    rw [smul_eq_mul, mul_one] at k2
    exact k2.trans (k3 ▸ Nat.min_le_right _ _)
  have e' : n'.maxPredTest data' = some ((r.sum : ℝ) / data'.target.length) := by
    unfold Net.maxPredTest
    rw [hr']
    rfl
  have e : n.maxPredTest data = some (Scalar.div (Scalar.ofNat r.sum) (Scalar.ofNat data.target.length)) := by
    unfold Net.maxPredTest
    rw [hr]
    rfl
  refine ⟨_, _, e, e', ?_⟩
  obtain ⟨a1, a2⟩ := Fl.ofNat_spec (L := L) (hle.trans h1)
  obtain ⟨b1, b2⟩ := Fl.ofNat_spec (L := L) h1
  have hB : (0 : ℝ) < data.target.length := by exact_mod_cast h0
  have hq : |(r.sum : ℝ) / data.target.length| ≤ 1 := by
    rw [abs_of_nonneg (by positivity)]
    exact div_le_one_of_le₀ (by exact_mod_cast hle) (by positivity)
  have := Fp.div_spec a1 b1 (by rw [b2]; exact hB.ne') (by rw [a2, b2]; exact B.lt_top_of_small hq)
  rw [a2, b2] at this
  rw [← ht]
  exact this

end
end Renplex
