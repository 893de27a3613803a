import Verif.Spec.Rounding
import Verif.Lemmas.RelateNet
import Verif.Props.Loss
import Mathlib.Analysis.SpecialFunctions.Trigonometric.ArctanDeriv
import Mathlib.Analysis.SpecialFunctions.Complex.Log
import Mathlib.Analysis.SpecialFunctions.Log.Basic
import Mathlib.Analysis.SpecialFunctions.Sqrt
import Mathlib.Topology.Algebra.Order.Field
/-!
# Operations on numbers that tend to exact ones
-/

namespace Renplex
namespace Rounding

open Filter Topology Relate

variable {ι : Type} {l : Filter ι} {F : ι → Format}

/-- Formats whose precision tends to zero. -/
structure Finer (l : Filter ι) (F : ι → Format) : Prop where
  sound : ∀ k, (F k).Sound
  lim : Tendsto (fun k => (F k).u) l (𝓝 0)

/-- An accurate operation with a convergent exact result. -/
theorem near_of (hF : Finer l F) {c : ∀ k, (F k).T} {e : ι → ℝ} {x : ℝ}
    (hc : ∀ᶠ k in l, (F k).Acc (c k) (e k)) (he : Tendsto e l (𝓝 x)) : Near l c x := by
  have h1 : Tendsto (fun k => (F k).u * |e k|) l (𝓝 0) := by
    simpa using hF.lim.mul he.abs
  have h2 : ∀ᶠ k in l, (F k).u * |e k| ≤ 1 := (h1.eventually_lt_const zero_lt_one).mono fun _ h => h.le
  have h3 : ∀ᶠ k in l, (F k).Close (c k) (e k) := by
    filter_upwards [hc, h2] with k h h' using h h'
  refine ⟨h3.mono fun k h => h.1, ?_⟩
  have h4 : Tendsto (fun k => (F k).u * (1 + |e k|)) l (𝓝 0) := by
    simpa using hF.lim.mul (he.abs.const_add 1)
  have h5 : Tendsto (fun k => (F k).val (c k) - e k) l (𝓝 0) :=
    squeeze_zero_norm' (h3.mono fun k h => h.2) h4
  simpa using h5.add he

section ops
variable {a b : ∀ k, (F k).T} {x y : ℝ}

theorem Near.add (hF : Finer l F) (ha : Near l a x) (hb : Near l b y) :
    Near l (fun k => Scalar.add (a k) (b k)) (x + y) :=
  near_of hF (by filter_upwards [ha.1, hb.1] with k h h' using (hF.sound k).add h h') (ha.2.add hb.2)

theorem Near.sub (hF : Finer l F) (ha : Near l a x) (hb : Near l b y) :
    Near l (fun k => Scalar.sub (a k) (b k)) (x - y) :=
  near_of hF (by filter_upwards [ha.1, hb.1] with k h h' using (hF.sound k).sub h h') (ha.2.sub hb.2)

theorem Near.mul (hF : Finer l F) (ha : Near l a x) (hb : Near l b y) :
    Near l (fun k => Scalar.mul (a k) (b k)) (x * y) :=
  near_of hF (by filter_upwards [ha.1, hb.1] with k h h' using (hF.sound k).mul h h') (ha.2.mul hb.2)

theorem Near.div (hF : Finer l F) (ha : Near l a x) (hb : Near l b y) (hy : y ≠ 0) :
    Near l (fun k => Scalar.div (a k) (b k)) (x / y) :=
  near_of hF (by
    filter_upwards [ha.1, hb.1, hb.2.eventually_ne hy] with k h h' h0 using (hF.sound k).div h h' h0)
    (ha.2.div hb.2 hy)

theorem Near.neg (hF : Finer l F) (ha : Near l a x) : Near l (fun k => Scalar.neg (a k)) (-x) :=
  near_of hF (ha.1.mono fun k h => (hF.sound k).neg h) ha.2.neg

theorem near_lit (hF : Finer l F) (n : Int) {d : Nat} (hd : d ≠ 0) :
    Near l (fun k => (Scalar.lit n d : (F k).T)) (n / d) :=
  near_of hF (.of_forall fun k => (hF.sound k).lit n d hd) tendsto_const_nhds

theorem near_zero (hF : Finer l F) : Near l (fun k => (Scalar.zero : (F k).T)) (Scalar.zero : ℝ) :=
  near_lit hF 0 one_ne_zero

theorem near_one (hF : Finer l F) : Near l (fun k => (Scalar.one : (F k).T)) (Scalar.one : ℝ) :=
  near_lit hF 1 one_ne_zero

theorem near_two (hF : Finer l F) : Near l (fun k => (Scalar.two : (F k).T)) (Scalar.two : ℝ) :=
  near_lit hF 2 one_ne_zero

theorem near_ofNat (hF : Finer l F) (n : Nat) : Near l (fun k => (Scalar.ofNat n : (F k).T)) n :=
  near_of hF (.of_forall fun k => (hF.sound k).ofNat n) tendsto_const_nhds

theorem Near.sq (hF : Finer l F) (ha : Near l a x) : Near l (fun k => Scalar.sq (a k)) (x ^ 2) :=
  near_of hF (ha.1.mono fun k h => (hF.sound k).sq h) (ha.2.pow 2)

theorem Near.sqrt (hF : Finer l F) (ha : Near l a x) (hx : 0 < x) :
    Near l (fun k => Scalar.sqrt (a k)) (Real.sqrt x) :=
  near_of hF (by
    filter_upwards [ha.1, ha.2.eventually_const_lt hx] with k h h' using (hF.sound k).sqrt h h'.le)
    ha.2.sqrt

theorem Near.exp (hF : Finer l F) (ha : Near l a x) : Near l (fun k => Scalar.exp (a k)) (Real.exp x) :=
  near_of hF (ha.1.mono fun k h => (hF.sound k).exp h) ((Real.continuous_exp.tendsto x).comp ha.2)

theorem Near.ln (hF : Finer l F) (ha : Near l a x) (hx : 0 < x) :
    Near l (fun k => Scalar.ln (a k)) (Real.log x) :=
  near_of hF (by
    filter_upwards [ha.1, ha.2.eventually_const_lt (half_lt_self hx),
      hF.lim.eventually_lt_const (half_pos hx)] with k h h1 h2 using
      (hF.sound k).ln h (h2.trans h1).le ((half_pos hx).trans h1))
    (ha.2.log hx.ne')

theorem Near.moderate (hF : Finer l F) (ha : Near l a x) :
    ∀ᶠ k in l, (F k).u * |(F k).val (a k)| ≤ 1 := by
  have h1 : Tendsto (fun k => (F k).u * |(F k).val (a k)|) l (𝓝 0) := by
    simpa using hF.lim.mul ha.2.abs
  exact (h1.eventually_lt_const zero_lt_one).mono fun _ h => h.le

theorem Near.cos (hF : Finer l F) (ha : Near l a x) : Near l (fun k => Scalar.cos (a k)) (Real.cos x) :=
  near_of hF (by
    filter_upwards [ha.1, ha.moderate hF] with k h h' using (hF.sound k).cos h h')
    ((Real.continuous_cos.tendsto x).comp ha.2)

theorem Near.sin (hF : Finer l F) (ha : Near l a x) : Near l (fun k => Scalar.sin (a k)) (Real.sin x) :=
  near_of hF (by
    filter_upwards [ha.1, ha.moderate hF] with k h h' using (hF.sound k).sin h h')
    ((Real.continuous_sin.tendsto x).comp ha.2)

theorem continuous_tanh : Continuous Real.tanh := by
  have : Real.tanh = fun x => Real.sinh x / Real.cosh x := funext Real.tanh_eq_sinh_div_cosh
  rw [this]
  exact Real.continuous_sinh.div Real.continuous_cosh fun x => (Real.cosh_pos x).ne'

theorem Near.tanh (hF : Finer l F) (ha : Near l a x) :
    Near l (fun k => Scalar.tanh (a k)) (Real.tanh x) :=
  near_of hF (ha.1.mono fun k h => (hF.sound k).tanh h) ((continuous_tanh.tendsto x).comp ha.2)

theorem Near.cosh (hF : Finer l F) (ha : Near l a x) :
    Near l (fun k => Scalar.cosh (a k)) (Real.cosh x) :=
  near_of hF (ha.1.mono fun k h => (hF.sound k).cosh h) ((Real.continuous_cosh.tendsto x).comp ha.2)

theorem Near.atan (hF : Finer l F) (ha : Near l a x) :
    Near l (fun k => Scalar.atan (a k)) (Real.arctan x) :=
  near_of hF (ha.1.mono fun k h => (hF.sound k).atan h) ((Real.continuous_arctan.tendsto x).comp ha.2)

theorem Near.atan2 (hF : Finer l F) (ha : Near l a x) (hb : Near l b y) (h : 0 < y ∨ x ≠ 0) :
    Near l (fun k => Scalar.atan2 (a k) (b k)) (Complex.arg ⟨y, x⟩) := by
  refine near_of hF (e := fun k => Complex.arg ⟨(F k).val (b k), (F k).val (a k)⟩) ?_ ?_
  · have h' : ∀ᶠ k in l, 0 < (F k).val (b k) ∨ (F k).val (a k) ≠ 0 := by
      rcases h with h | h
      · exact (hb.2.eventually_const_lt h).mono fun _ => .inl
      · exact (ha.2.eventually_ne h).mono fun _ => .inr
    filter_upwards [ha.1, hb.1, h'] with k h h' h0 using (hF.sound k).atan2 h h' h0
  · have hc : Tendsto (fun k => (⟨(F k).val (b k), (F k).val (a k)⟩ : ℂ)) l (𝓝 ⟨y, x⟩) := by
      have := (Complex.equivRealProdCLM.symm.continuous.tendsto (y, x)).comp (hb.2.prodMk_nhds ha.2)
      exact this
    refine (Complex.continuousAt_arg ?_).tendsto.comp hc
    exact h

theorem Near.congr {c : ∀ k, (F k).T} (h : ∀ᶠ k in l, a k = c k) (hc : Near l c x) : Near l a x :=
  ⟨by filter_upwards [h, hc.1] with k e h; rwa [e],
    hc.2.congr' (h.mono fun k e => by simp only [e])⟩

/-- Comparisons decided by a strict inequality. -/
theorem Near.le_iff (hF : Finer l F) (ha : Near l a x) (hb : Near l b y) (h : x ≠ y) :
    ∀ᶠ k in l, (Scalar.le (a k) (b k) = true ↔ x ≤ y) := by
  rcases lt_or_gt_of_ne h with h | h
  · have := ha.2.eventually_lt hb.2 h
    filter_upwards [ha.1, hb.1, this] with k h1 h2 h3
    rw [(hF.sound k).le h1 h2]
    exact iff_of_true h3.le h.le
  · have := hb.2.eventually_lt ha.2 h
    filter_upwards [ha.1, hb.1, this] with k h1 h2 h3
    rw [(hF.sound k).le h1 h2]
    exact iff_of_false (not_le.mpr h3) (not_le.mpr h)

theorem Near.beq_iff (hF : Finer l F) (ha : Near l a x) (hb : Near l b y) (h : x ≠ y) :
    ∀ᶠ k in l, (Scalar.beq (a k) (b k) = true ↔ x = y) := by
  have := (ha.2.sub hb.2).eventually_ne (sub_ne_zero.mpr h)
  filter_upwards [ha.1, hb.1, this] with k h1 h2 h3
  rw [(hF.sound k).beq h1 h2]
  exact iff_of_false (fun e => h3 (sub_eq_zero.mpr e)) h

theorem Near.sign_iff (hF : Finer l F) (ha : Near l a x) (h : x ≠ 0) :
    ∀ᶠ k in l, (Scalar.signNeg (a k) = true ↔ x < 0) := by
  have h0 := ha.2.eventually_ne h
  rcases lt_or_gt_of_ne h with h | h
  · filter_upwards [ha.1, h0, ha.2.eventually_lt_const h] with k h1 h2 h3
    rw [(hF.sound k).signNeg h1 h2]
    exact iff_of_true h3 h
  · filter_upwards [ha.1, h0, ha.2.eventually_const_lt h] with k h1 h2 h3
    rw [(hF.sound k).signNeg h1 h2]
    exact iff_of_false h3.not_gt h.not_gt

theorem near_ev : Ev l (Near l (F := F)) := fun _ _ _ h hg => Near.congr h hg

theorem Near.ite {p : ι → Prop} {q : Prop} [∀ k, Decidable (p k)] [Decidable q] (h : ∀ᶠ k in l, (p k ↔ q))
    (h1 : q → Near l a x) (h2 : ¬ q → Near l b y) :
    Near l (fun k => if p k then a k else b k) (if q then x else y) := near_ev.ite h h1 h2

end ops

theorem zero_real : (Scalar.zero : ℝ) = 0 := by simp [Scalar.zero, Scalar.lit]
theorem one_real : (Scalar.one : ℝ) = 1 := by simp [Scalar.one, Scalar.lit]
theorem two_real : (Scalar.two : ℝ) = 2 := by simp [Scalar.two, Scalar.lit]

/-! ## Activations -/

section act
variable {a : ∀ k, (F k).T} {x : ℝ}

theorem near_sig (hF : Finer l F) (w : Width) :
    Near l (fun k => (Act.sigThreshold w : (F k).T)) (Act.sigThreshold w)
    ∧ Near l (fun k => (Act.sigHi w : (F k).T)) (Act.sigHi w)
    ∧ Near l (fun k => (Act.sigLo w : (F k).T)) (Act.sigLo w) := by
  cases w with
  | w32 => exact ⟨near_lit hF _ one_ne_zero, near_lit hF _ (by norm_num), near_lit hF _ (by norm_num)⟩
  | w64 => exact ⟨near_lit hF _ one_ne_zero, near_lit hF _ (by norm_num), near_lit hF _ (by norm_num)⟩

theorem Near.sigmoid (hF : Finer l F) (w : Width) (ha : Near l a x)
    (h : |x| ≠ Act.sigThreshold w) : Near l (fun k => Act.sigmoid w (a k)) (Act.sigmoid w x) := by
  obtain ⟨h1, h2, h3⟩ := near_sig hF w
  have ht : (0 : ℝ) ≤ Act.sigThreshold w := by
    cases w <;> simp [Act.sigThreshold, Scalar.lit]
  unfold Act.sigmoid
  have e1 : ∀ {p q : Prop} [Decidable q], (p ↔ q) → (p ↔ decide q = true) := fun h => by simpa using h
  refine Near.ite ?_ (fun _ => h2) fun _ => Near.ite ?_ (fun _ => h3) fun _ => ?_
  · refine (h1.le_iff hF ha fun e => h ?_).mono fun k => e1
    rw [← e, abs_of_nonneg ht]
  · refine (ha.le_iff hF (h1.neg hF) fun e => h ?_).mono fun k => e1
    rw [e, abs_neg, abs_of_nonneg ht]
  · refine (ha.exp hF).div hF ((near_one hF).add hF (ha.exp hF)) ?_
    have := Real.exp_pos x
    rw [one_real]
    exact (add_pos one_pos this).ne'

theorem Near.dSigmoid (hF : Finer l F) (w : Width) (ha : Near l a x)
    (h : |x| ≠ Act.sigThreshold w) : Near l (fun k => Act.dSigmoid w (a k)) (Act.dSigmoid w x) := by
  have := (ha.sigmoid hF w h).mul hF ((near_one hF).sub hF (ha.sigmoid hF w h))
  simpa [Act.dSigmoid, Scalar.mul, Scalar.sub, Scalar.one, Scalar.lit] using this

theorem relu_real (x : ℝ) : Act.relu x = max x 0 := by
  unfold Act.relu
  by_cases h : x < 0
  · simp [Scalar.signNeg, h, Scalar.zero, Scalar.lit, h.le]
  · simp [Scalar.signNeg, h, not_lt.mp h]

theorem Near.relu (hF : Finer l F) (ha : Near l a x) : Near l (fun k => Act.relu (a k)) (Act.relu x) := by
  by_cases h : x = 0
  · subst h
    have e : Act.relu (0 : ℝ) = 0 := by simp [relu_real]
    rw [e]
    have hz : Near l (fun k => (Scalar.zero : (F k).T)) 0 := by
      simpa [Scalar.zero, Scalar.lit] using near_zero hF
    refine ⟨?_, ?_⟩
    · filter_upwards [ha.1, hz.1] with k h1 h2
      unfold Act.relu
      split <;> assumption
    · rw [Metric.tendsto_nhds]
      intro ε hε
      filter_upwards [Metric.tendsto_nhds.mp ha.2 ε hε, Metric.tendsto_nhds.mp hz.2 ε hε] with k h1 h2
      unfold Act.relu
      split <;> assumption
  · unfold Act.relu
    refine Near.ite ((ha.sign_iff hF h).mono fun k e => ?_) (fun _ => ha) fun _ => ?_
    · simp only [Scalar.signNeg, Bool.not_eq_true', Bool.eq_false_iff]
      exact not_congr (by simpa [Scalar.signNeg] using e)
    · exact near_zero hF

theorem Near.dRelu (hF : Finer l F) (ha : Near l a x) (h : x ≠ 0) :
    Near l (fun k => Act.dRelu (a k)) (Act.dRelu x) := by
  unfold Act.dRelu
  refine Near.ite ((ha.sign_iff hF h).mono fun k e => ?_) (fun _ => ?_) fun _ => ?_
  · simp only [Scalar.signNeg, Bool.not_eq_true', Bool.eq_false_iff]
    exact not_congr (by simpa [Scalar.signNeg] using e)
  · exact near_one hF
  · exact near_zero hF

theorem near_half (hF : Finer l F) : Near l (fun k => (Act.half : (F k).T)) (Act.half : ℝ) :=
  near_lit hF 1 two_ne_zero

theorem Near.sech2 (hF : Finer l F) (ha : Near l a x) :
    Near l (fun k => Act.sech2 (a k)) (Act.sech2 x) := by
  have := (near_one hF).div hF ((ha.cosh hF).sq hF) (pow_ne_zero 2 (Real.cosh_pos x).ne')
  simpa [Act.sech2, Scalar.div, Scalar.one, Scalar.lit, Scalar.sq, Scalar.cosh] using this

end act

section cplx
variable {w : Width} {a b : ∀ k, Cf w (F k).T} {z v : Cf w ℝ}

theorem nearC_ev : Ev l (NearC l (F := F) (w := w)) := fun _ _ _ h hg =>
  ⟨Near.congr (h.mono fun k e => by rw [e]) hg.1, Near.congr (h.mono fun k e => by rw [e]) hg.2⟩

theorem NearC.add (hF : Finer l F) (ha : NearC l a z) (hb : NearC l b v) :
    NearC l (fun k => Cf.add (a k) (b k)) (Cf.add z v) := ⟨ha.1.add hF hb.1, ha.2.add hF hb.2⟩

theorem NearC.sub (hF : Finer l F) (ha : NearC l a z) (hb : NearC l b v) :
    NearC l (fun k => Cf.sub (a k) (b k)) (Cf.sub z v) := ⟨ha.1.sub hF hb.1, ha.2.sub hF hb.2⟩

theorem NearC.mul (hF : Finer l F) (ha : NearC l a z) (hb : NearC l b v) :
    NearC l (fun k => Cf.mul (a k) (b k)) (Cf.mul z v) :=
  ⟨(ha.1.mul hF hb.1).sub hF (ha.2.mul hF hb.2), (ha.1.mul hF hb.2).add hF (ha.2.mul hF hb.1)⟩

theorem NearC.mulAssign (hF : Finer l F) (ha : NearC l a z) (hb : NearC l b v) :
    NearC l (fun k => Cf.mulAssign (a k) (b k)) (Cf.mulAssign z v) :=
  ⟨(ha.1.mul hF hb.1).sub hF (ha.2.mul hF hb.2),
    (((ha.1.mul hF hb.1).sub hF (ha.2.mul hF hb.2)).mul hF hb.2).add hF (ha.2.mul hF hb.1)⟩

theorem NearC.conj (hF : Finer l F) (ha : NearC l a z) :
    NearC l (fun k => Cf.conj (a k)) (Cf.conj z) := ⟨ha.1, ha.2.neg hF⟩

theorem NearC.normSq (hF : Finer l F) (ha : NearC l a z) :
    Near l (fun k => Cf.normSq (a k)) (Cf.normSq z) := (ha.1.sq hF).add hF (ha.2.sq hF)

theorem normSq_real (z : Cf w ℝ) : z.normSq = z.x ^ 2 + z.y ^ 2 := rfl

theorem normSq_pos (h : z.x ≠ 0 ∨ z.y ≠ 0) : 0 < z.normSq := by
  rw [normSq_real]
  rcases h with h | h
  · have := pow_pos (abs_pos.mpr h) 2
    rw [sq_abs] at this
    positivity
  · have := pow_pos (abs_pos.mpr h) 2
    rw [sq_abs] at this
    positivity

theorem NearC.norm (hF : Finer l F) (ha : NearC l a z) (h : z.x ≠ 0 ∨ z.y ≠ 0) :
    Near l (fun k => Cf.norm (a k)) (Cf.norm z) := (ha.normSq hF).sqrt hF (normSq_pos h)

theorem norm_ne (h : z.x ≠ 0 ∨ z.y ≠ 0) : z.norm ≠ 0 := (Real.sqrt_pos.mpr (normSq_pos h)).ne'

theorem NearC.div (hF : Finer l F) (ha : NearC l a z) (hb : NearC l b v) :
    RO l (NearC l) (fun k => Cf.div (a k) (b k)) (Cf.div z v) := by
  unfold Cf.div
  have hd : Near l (fun k => (b k).den) v.den := (hb.1.sq hF).add hF (hb.2.sq hF)
  by_cases h0 : v.den = Scalar.zero
  · have : Scalar.beq v.den (Scalar.zero : ℝ) = true := by simp [Scalar.beq, h0]
    rw [if_pos this]
    exact RO.none
  · refine RO.ite ((hd.beq_iff hF (near_zero hF) h0).mono fun k e => ?_) (fun _ => RO.none) fun _ => ?_
    · rw [e]
      simp [Scalar.beq]
    · have h0' : v.den ≠ 0 := by rwa [zero_real] at h0
      exact RO.pure ⟨((ha.1.mul hF hb.1).add hF (ha.2.mul hF hb.2)).div hF hd h0',
        ((ha.2.mul hF hb.1).sub hF (ha.1.mul hF hb.2)).div hF hd h0'⟩

/-- The phase away from its cut. -/
theorem NearC.phase (hF : Finer l F) (ha : NearC l a z)
    (h : Steady .cardioid z) : Near l (fun k => Cf.phase (a k)) (Cf.phase z) := by
  cases w with
  | w32 => exact ha.2.atan2 hF ha.1 h
  | w64 => exact (ha.2.div hF ha.1 h).atan hF

theorem nearC_iunit (hF : Finer l F) : NearC l (fun k => (Cf.iunit : Cf w (F k).T)) Cf.iunit :=
  ⟨near_zero hF, near_one hF⟩

theorem NearC.activate (hF : Finer l F) (f : ActFunc) (hz : Steady f z) : ActRel l (NearC l (F := F)) f z := by
  intro a ha
  cases f with
  | none => exact RO.pure ha
  | modZ =>
    show RO l _ (fun k => Act.modZ (a k)) (Act.modZ z)
    by_cases h : z.x ≠ 0 ∨ z.y ≠ 0
    · exact ha.div hF ⟨ha.norm hF h, near_zero hF⟩
    · have hn : z.norm = 0 := by
        simp only [not_or, not_not] at h
        show Real.sqrt (z.x ^ 2 + z.y ^ 2) = 0
        simp [h.1, h.2]
      have : Act.modZ z = Option.none := by
        unfold Act.modZ Cf.div
        rw [if_pos]
        simp [Cf.den, Cf.new, hn, Scalar.beq, Scalar.add, Scalar.sq, Scalar.zero, Scalar.lit]
      rw [this]
      exact RO.none
  | ritSigmoid => exact RO.pure ⟨ha.1.sigmoid hF w hz.1, ha.2.sigmoid hF w hz.2⟩
  | ritTanh => exact RO.pure ⟨ha.1.tanh hF, ha.2.tanh hF⟩
  | ritReLU => exact RO.pure ⟨ha.1.relu hF, ha.2.relu hF⟩
  | zReLU =>
    refine RO.pure (b := Act.zRelu z) ?_
    unfold Act.zRelu
    refine nearC_ev.ite ?_ (fun _ => ⟨near_zero hF, near_zero hF⟩) fun _ => ha
    filter_upwards [ha.1.sign_iff hF hz.1, ha.2.sign_iff hF hz.2] with k e e'
    simp only [Bool.or_eq_true]
    exact or_congr (e.trans decide_eq_true_iff.symm) (e'.trans decide_eq_true_iff.symm)
  | cardioid =>
    have hp := ha.phase hF hz
    have h1 := ((near_two hF).mul hF ((near_one hF).add hF (hp.cos hF)))
    exact RO.pure (b := Act.card z) ⟨h1.mul hF (hp.cos hF), h1.mul hF (hp.sin hF)⟩

theorem NearC.card (hF : Finer l F) (ha : NearC l a z) (hz : SteadyD .cardioid z) :
    NearC l (fun k => Act.cardDfdx (a k)) (Act.cardDfdx z)
    ∧ NearC l (fun k => Act.cardDfdy (a k)) (Act.cardDfdy z) := by
  have h0 : z.x ≠ 0 ∨ z.y ≠ 0 := by
    cases w with
    | w32 => exact hz.imp (fun h => h.ne') id
    | w64 => exact .inl hz
  have hp := ha.phase hF hz
  have hn := ha.norm hF h0
  have hn0 := norm_ne h0
  have hr := (hp.sin hF).add hF (((near_two hF).mul hF hp).sin hF)
  have hi := (((near_two hF).mul hF ((hp.cos hF).sq hF)).add hF (hp.cos hF)).sub hF (near_one hF)
  have hm := near_lit hF (-2) one_ne_zero
  exact ⟨⟨((near_two hF).mul hF ((hp.sin hF).div hF hn hn0)).mul hF hr,
      (hm.mul hF ((hp.sin hF).div hF hn hn0)).mul hF hi⟩,
    ⟨((near_two hF).mul hF ((hp.cos hF).div hF hn hn0)).mul hF hr,
      (hm.mul hF ((hp.cos hF).div hF hn hn0)).mul hF hi⟩⟩

theorem NearC.derivative (hF : Finer l F) (f : ActFunc) (hz : SteadyD f z) :
    DerRel l (NearC l (F := F)) f z := by
  intro a ha
  have h0 := near_zero hF
  have hh := near_half hF
  cases f with
  | none => exact ⟨RO.pure ⟨near_one hF, h0⟩, RO.pure ⟨h0, h0⟩⟩
  | modZ =>
    have hn := ha.norm hF hz
    have h2 := (near_two hF).mul hF hn
    refine ⟨RO.pure (b := Act.dModZ z) ⟨(near_one hF).div hF h2 ?_, h0⟩, ?_⟩
    · rw [two_real]
      exact mul_ne_zero two_ne_zero (norm_ne hz)
    · exact (ha.div hF (ha.conj hF)).bind fun _ _ _ h => h.div hF ⟨h2.neg hF, h0⟩
  | ritSigmoid =>
    have h1 := ha.1.dSigmoid hF w hz.1
    have h2 := ha.2.dSigmoid hF w hz.2
    exact ⟨RO.pure (b := Act.dRitSigmoid z) ⟨(h1.add hF h2).mul hF hh, h0⟩,
      RO.pure (b := Act.dConjRitSigmoid z) ⟨(h1.sub hF h2).mul hF hh, h0⟩⟩
  | ritTanh =>
    have h1 := ha.1.sech2 hF
    have h2 := ha.2.sech2 hF
    exact ⟨RO.pure (b := Act.dRitTanh z) ⟨(h1.add hF h2).mul hF hh, h0⟩,
      RO.pure (b := Act.dConjRitTanh z) ⟨(h1.sub hF h2).mul hF hh, h0⟩⟩
  | ritReLU =>
    have h1 := ha.1.dRelu hF hz.1
    have h2 := ha.2.dRelu hF hz.2
    exact ⟨RO.pure (b := Act.dRitRelu z) ⟨(h1.add hF h2).mul hF hh, h0⟩,
      RO.pure (b := Act.dConjRitRelu z) ⟨(h1.sub hF h2).mul hF hh, h0⟩⟩
  | zReLU =>
    refine ⟨RO.pure (b := Act.dZRelu z) ?_, RO.pure ⟨h0, h0⟩⟩
    unfold Act.dZRelu
    refine nearC_ev.ite ?_ (fun _ => ⟨h0, h0⟩) fun _ => ⟨near_one hF, h0⟩
    filter_upwards [ha.1.sign_iff hF hz.1, ha.2.sign_iff hF hz.2] with k e e'
    simp only [Bool.or_eq_true]
    exact or_congr (e.trans decide_eq_true_iff.symm) (e'.trans decide_eq_true_iff.symm)
  | cardioid =>
    obtain ⟨h1, h2⟩ := ha.card hF hz
    exact ⟨RO.pure (b := Act.dCard z) (h1.sub hF ((nearC_iunit hF).mul hF h2)),
      RO.pure (b := Act.dConjCard z) (h1.add hF ((nearC_iunit hF).mul hF h2))⟩

/-! ## Losses -/

theorem RIO_scalar {f : ∀ k, List (Cf w (F k).T)} {v : List (Cf w ℝ)} (h : RL l (NearC l) f v) :
    RIO l (NearC l) (fun k => .scalar (f k)) (.scalar v) := ⟨f, h, .of_forall fun _ => rfl⟩

theorem dMeanSq_rel (hF : Finer l F) {t p : ∀ k, List (Cf w (F k).T)} {t' p' : List (Cf w ℝ)}
    (ht : RL l (NearC l) t t') (hp : RL l (NearC l) p p') :
    RL l (NearC l) (fun k => Loss.dMeanSq (t k) (p k)) (Loss.dMeanSq t' p') :=
  (ht.zip hp).map fun _ _ _ h => (h.2.sub hF h.1).conj hF

theorem dFunc_rel (hF : Finer l F) (f : LossFunc) {t p : ∀ k, List (Cf w (F k).T)} {t' p' : List (Cf w ℝ)}
    (ht : RL l (NearC l) t t') (hp : RL l (NearC l) p p') :
    RL l (NearC l) (fun k => Loss.dFunc f (t k) (p k)) (Loss.dFunc f t' p') := by
  cases f <;> exact dMeanSq_rel hF ht hp

/-- The operations of finer and finer formats. -/
theorem cplxRel (hF : Finer l F) : CplxRel l (NearC l (F := F) (w := w)) where
  zero := ⟨near_zero hF, near_zero hF⟩
  add ha hb := ha.add hF hb
  mul ha hb := ha.mul hF hb
  addAssign ha hb := ha.add hF hb
  subAssign ha hb := ha.sub hF hb
  mulAssign ha hb := ha.mulAssign hF hb
  conj ha := ha.conj hF
  divNat n ha := ha.div hF ⟨near_ofNat hF n, near_zero hF⟩
  dLoss {f t t' p p'} ht hp := by
    cases t' with
    | scalar t' =>
      obtain ⟨a, ha, e⟩ := ht
      cases p' with
      | scalar p' =>
        obtain ⟨b, hb, e'⟩ := hp
        refine RE.congr (g := fun k => .ok (Loss.dFunc f (a k) (b k))) ?_ (RE.ok (dFunc_rel hF f ha hb))
        filter_upwards [e, e'] with k e e'
        rw [e, e']; rfl
      | matrix p' =>
        obtain ⟨b, hb, e'⟩ := hp
        refine RE.congr (g := fun k => .error _) ?_ (RE.error _)
        filter_upwards [e, e'] with k e e'
        rw [e, e']; rfl
    | matrix t' =>
      obtain ⟨a, ha, e⟩ := ht
      cases p' with
      | scalar p' =>
        obtain ⟨b, hb, e'⟩ := hp
        refine RE.congr (g := fun k => .error _) ?_ (RE.error _)
        filter_upwards [e, e'] with k e e'
        rw [e, e']; rfl
      | matrix p' =>
        obtain ⟨b, hb, e'⟩ := hp
        refine RE.congr (g := fun k => .ok (Loss.dFunc f ((a k).flatMap Mat.getBody)
          ((b k).flatMap Mat.getBody))) ?_ (RE.ok (dFunc_rel hF f
            (ha.flatMap (g := fun _ m => m.getBody) fun _ _ _ h => h.getBody)
            (hb.flatMap (g := fun _ m => m.getBody) fun _ _ _ h => h.getBody)))
        filter_upwards [e, e'] with k e e'
        rw [e, e']; rfl

theorem func_rel (hF : Finer l F) (f : LossFunc) {t p : ∀ k, List (Cf w (F k).T)} {t' p' : List (Cf w ℝ)}
    (ht : RL l (NearC l) t t') (hp : RL l (NearC l) p p')
    (h2 : f = .meanSquare → 2 ≤ min t'.length p'.length) :
    Near l (fun k => Loss.func f (t k) (p k)) (Loss.func f t' p') := by
  cases f with
  | meanSquare =>
    show Near l (fun k => Loss.meanSq (t k) (p k)) (Loss.meanSq t' p')
    simp only [meanSq_eq]
    have hz := ht.zip hp
    have h1 := hz.foldl (T := Near l) (g := fun k s p => Scalar.add s (Loss.sqError p.1 p.2))
      (near_zero hF) (fun _ _ _ _ ha h => ha.add hF ((h.1.sub hF h.2).normSq hF)) near_ev
    refine h1.div hF (near_ev _ _ _ (hz.len.mono fun k e => by rw [e]) (near_ofNat hF _)) ?_
    have := h2 rfl
    rw [List.length_zip]
    exact Nat.cast_ne_zero.mpr (by omega)
  | normCrossEntropy =>
    show Near l (fun k => Loss.normCe (t k) (p k)) (Loss.normCe t' p')
    unfold Loss.normCe
    simp only
    have he : RL l (fun a b => Near l a b ∧ 0 < b) (fun k => (p k).map fun z => Scalar.exp z.normSq)
        (p'.map fun z => Scalar.exp z.normSq) :=
      hp.map (g := fun _ z => Scalar.exp z.normSq) fun _ _ _ h =>
        ⟨(h.normSq hF).exp hF, Real.exp_pos _⟩
    have hs := he.foldl (T := Near l) (g := fun k s p => Scalar.add s p)
      (near_zero hF) (fun _ _ _ _ ha h => ha.add hF h.1) near_ev
    have hr : RL l (Near l) (fun k => (t k).map Cf.re) (t'.map Cf.re) :=
      ht.map (g := fun _ z => Cf.re z) fun _ _ _ h => h.1
    by_cases hn : p' = []
    · have e : ∀ᶠ k in l, p k = [] := hp.len.mono fun k e => by
        rw [hn] at e
        exact List.eq_nil_of_length_eq_zero e
      refine near_ev _ (fun _ => Scalar.zero) _ (e.mono fun k e => by simp [e]) ?_
      rw [hn]
      simpa using near_zero hF
    · have hpos : 0 < (p'.map fun z => Scalar.exp z.normSq).foldl Scalar.add (Scalar.zero : ℝ) := by
        have h0 : ∀ (v : List ℝ) (s : ℝ), 0 ≤ s → (∀ e ∈ v, 0 < e) → (v ≠ [] ∨ 0 < s) →
            0 < v.foldl Scalar.add s := by
          intro v
          induction v with
          | nil => intro s _ _ h; exact h.resolve_left (· rfl)
          | cons e v ih =>
            intro s hs hv _
            have h1 : 0 < s + e := add_pos_of_nonneg_of_pos hs (hv e (by simp))
            exact ih (s + e) h1.le (fun e he => hv e (by simp [he])) (.inr h1)
        refine h0 _ _ (by rw [zero_real]) (fun e he => ?_) (.inl (by simpa using hn))
        obtain ⟨z, -, rfl⟩ := List.mem_map.mp he
        exact Real.exp_pos _
      exact (hr.zip he).foldl (T := Near l) (g := fun k s p =>
          Scalar.sub s (Scalar.mul p.1 (Scalar.ln (Scalar.div p.2 _))))
        (near_zero hF) (fun _ _ _ d ha h => ha.sub hF (h.1.mul hF ((h.2.1.div hF hs hpos.ne').ln hF
          (div_pos h.2.2 hpos)))) near_ev

/-- The losses of finer and finer formats. -/
theorem lossRel (hF : Finer l F) : LossRel l (NearC l (F := F) (w := w)) (Near l) LossOk where
  loss {f t t' p p'} ht hp h2 := by
    cases t' with
    | scalar t' =>
      obtain ⟨a, ha, e⟩ := ht
      cases p' with
      | scalar p' =>
        obtain ⟨b, hb, e'⟩ := hp
        refine RE.congr (g := fun k => .ok (Loss.func f (a k) (b k))) ?_
          (RE.ok (func_rel hF f ha hb fun e => ?_))
        · filter_upwards [e, e'] with k e e'
          rw [e, e']; rfl
        · subst e; exact h2
      | matrix p' =>
        obtain ⟨b, hb, e'⟩ := hp
        refine RE.congr (g := fun k => .error _) ?_ (RE.error _)
        filter_upwards [e, e'] with k e e'
        rw [e, e']; rfl
    | matrix t' =>
      obtain ⟨a, ha, e⟩ := ht
      cases p' with
      | scalar p' =>
        obtain ⟨b, hb, e'⟩ := hp
        refine RE.congr (g := fun k => .error _) ?_ (RE.error _)
        filter_upwards [e, e'] with k e e'
        rw [e, e']; rfl
      | matrix p' =>
        obtain ⟨b, hb, e'⟩ := hp
        refine RE.congr (g := fun k => .ok (Loss.func f ((a k).flatMap Mat.getBody)
          ((b k).flatMap Mat.getBody))) ?_ (RE.ok (func_rel hF f
            (ha.flatMap (g := fun _ m => m.getBody) fun _ _ _ h => h.getBody)
            (hb.flatMap (g := fun _ m => m.getBody) fun _ _ _ h => h.getBody) fun e => ?_))
        · filter_upwards [e, e'] with k e e'
          rw [e, e']; rfl
        · subst e; exact h2
  add ha hb := ha.add hF hb
  divNat n hn ha := RO.pure (ha.div hF (near_ofNat hF n) (Nat.cast_ne_zero.mpr hn))

end cplx
end Rounding
end Renplex
