import Verif.Spec.Estimate
import Verif.Lemmas.Rounding
import Verif.Props.Lipschitz
import Verif.Props.Symmetry
import Mathlib.Analysis.SpecialFunctions.Trigonometric.Bounds
/-!
# The error bounds are bounds
-/

namespace Renplex

section
variable {F : Format}

theorem covers_bound (hF : F.Sound) {c : F.T} {x y e : ℝ} (hc : F.Acc c y) (hy : |y - x| ≤ e) {d : ℝ}
    (hd : Est.bound F.u x e = some d) : F.fin c ∧ |F.val c - x| ≤ d := by
  unfold Est.bound at hd
  split at hd
  · rename_i h
    obtain rfl := Option.some.inj hd
    have hu := hF.u_nonneg
    have h1 : |y| ≤ |x| + e := by
      have := abs_sub_abs_le_abs_sub y x
      linarith
    have h2 := hc ((mul_le_mul_of_nonneg_left h1 hu).trans h)
    refine ⟨h2.1, ?_⟩
    have h3 := abs_sub_le (F.val c) y x
    have h4 := mul_le_mul_of_nonneg_left (show 1 + |y| ≤ 1 + |x| + e by linarith) hu
    linarith [h2.2]
  · cases hd

namespace Est
variable {a b : F.T} {s t : Est F.u}

theorem covers_op₁ (hF : F.Sound) (ha : s.Covers a) {c : F.T} {x : ℝ} {G : ℝ → Prop} {g : ℝ → ℝ}
    (h : ∀ e, F.fin a → |F.val a - s.val| ≤ e → G e → ∃ y, F.Acc c y ∧ |y - x| ≤ g e) :
    (op₁ x s G g).Covers c := by
  intro d hd
  obtain ⟨e, he, hd⟩ := Option.bind_eq_some_iff.mp hd
  split at hd
  · rename_i hG
    obtain ⟨h1, h2⟩ := ha e he
    obtain ⟨y, h3, h4⟩ := h e h1 h2 hG
    exact covers_bound hF h3 h4 hd
  · cases hd

theorem covers_op₂ (hF : F.Sound) (ha : s.Covers a) (hb : t.Covers b) {c : F.T} {x : ℝ} {G : ℝ → ℝ → Prop}
    {g : ℝ → ℝ → ℝ}
    (h : ∀ e f, F.fin a → F.fin b → |F.val a - s.val| ≤ e → |F.val b - t.val| ≤ f → G e f →
      ∃ y, F.Acc c y ∧ |y - x| ≤ g e f) :
    (op₂ x s t G g).Covers c := by
  intro d hd
  obtain ⟨e, he, hd⟩ := Option.bind_eq_some_iff.mp hd
  obtain ⟨f, hf, hd⟩ := Option.bind_eq_some_iff.mp hd
  split at hd
  · rename_i hG
    obtain ⟨h1, h2⟩ := ha e he
    obtain ⟨h1', h2'⟩ := hb f hf
    obtain ⟨y, h3, h4⟩ := h e f h1 h1' h2 h2' hG
    exact covers_bound hF h3 h4 hd
  · cases hd

theorem Covers.add (hF : F.Sound) (ha : s.Covers a) (hb : t.Covers b) :
    (Scalar.add s t).Covers (Scalar.add a b) :=
  covers_op₂ hF ha hb fun e f h1 h2 h3 h4 _ => ⟨_, hF.add h1 h2, by
    rw [add_sub_add_comm]; exact (abs_add_le _ _).trans (add_le_add h3 h4)⟩

theorem Covers.sub (hF : F.Sound) (ha : s.Covers a) (hb : t.Covers b) :
    (Scalar.sub s t).Covers (Scalar.sub a b) :=
  covers_op₂ hF ha hb fun e f h1 h2 h3 h4 _ => ⟨_, hF.sub h1 h2, by
    rw [sub_sub_sub_comm]; exact (abs_sub _ _).trans (add_le_add h3 h4)⟩

theorem Covers.mul (hF : F.Sound) (ha : s.Covers a) (hb : t.Covers b) :
    (Scalar.mul s t).Covers (Scalar.mul a b) :=
  covers_op₂ hF ha hb fun e f h1 h2 h3 h4 _ => ⟨_, hF.mul h1 h2, by
    have e0 : 0 ≤ e := (abs_nonneg _).trans h3
    rw [show F.val a * F.val b - s.val * t.val
      = s.val * (F.val b - t.val) + t.val * (F.val a - s.val) + (F.val a - s.val) * (F.val b - t.val) by ring]
    refine (abs_add_le _ _).trans (add_le_add ((abs_add_le _ _).trans (add_le_add ?_ ?_)) ?_)
    · rw [abs_mul]; exact mul_le_mul_of_nonneg_left h4 (abs_nonneg _)
    · rw [abs_mul]; exact mul_le_mul_of_nonneg_left h3 (abs_nonneg _)
    · rw [abs_mul]; exact mul_le_mul h3 h4 (abs_nonneg _) e0⟩

theorem Covers.div (hF : F.Sound) (ha : s.Covers a) (hb : t.Covers b) :
    (Scalar.div s t).Covers (Scalar.div a b) :=
  covers_op₂ hF ha hb fun e f h1 h2 h3 h4 hG => by
    have e0 : 0 ≤ e := (abs_nonneg _).trans h3
    have f0 : 0 ≤ f := (abs_nonneg _).trans h4
    have h5 : |t.val| - f ≤ |F.val b| := by
      have := abs_sub_abs_le_abs_sub t.val (F.val b)
      rw [abs_sub_comm] at this
      linarith
    have t0 : 0 < |t.val| := f0.trans_lt hG
    have b0 : 0 < |F.val b| := (sub_pos.mpr hG).trans_le h5
    have tn : t.val ≠ 0 := abs_pos.mp t0
    have bn : F.val b ≠ 0 := abs_pos.mp b0
    refine ⟨_, hF.div h1 h2 bn, ?_⟩
    have key : F.val a / F.val b - s.val / t.val
        = (t.val * (F.val a - s.val) - s.val * (F.val b - t.val)) / (t.val * F.val b) := by
      field_simp
      ring
    rw [key, abs_div, abs_mul t.val]
    have p : 0 < |t.val| * (|t.val| - f) := mul_pos t0 (sub_pos.mpr hG)
    refine div_le_div₀ (by positivity) ?_ p (mul_le_mul_of_nonneg_left h5 t0.le)
    refine (abs_sub _ _).trans ?_
    rw [abs_mul, abs_mul, add_comm]
    exact add_le_add (mul_le_mul_of_nonneg_left h4 (abs_nonneg _)) (mul_le_mul_of_nonneg_left h3 (abs_nonneg _))

theorem Covers.neg (hF : F.Sound) (ha : s.Covers a) : (Scalar.neg s).Covers (Scalar.neg a) :=
  covers_op₁ hF ha fun e h1 h3 _ => ⟨_, hF.neg h1, by rw [← neg_sub']; rwa [abs_neg]⟩

theorem covers_lit (hF : F.Sound) (n : Int) (d : Nat) :
    (Scalar.lit n d : Est F.u).Covers (Scalar.lit n d : F.T) := by
  intro e he
  change (if d = 0 then none else bound F.u (n / d) 0) = some e at he
  split at he
  · cases he
  · rename_i h
    exact covers_bound (x := n / d) (e := 0) hF (hF.lit n d h) (by rw [sub_self, abs_zero]) he

theorem covers_zero (hF : F.Sound) : (Scalar.zero : Est F.u).Covers (Scalar.zero : F.T) := covers_lit hF _ _
theorem covers_one (hF : F.Sound) : (Scalar.one : Est F.u).Covers (Scalar.one : F.T) := covers_lit hF _ _
theorem covers_two (hF : F.Sound) : (Scalar.two : Est F.u).Covers (Scalar.two : F.T) := covers_lit hF _ _

theorem covers_ofNat (hF : F.Sound) (n : Nat) : (Scalar.ofNat n : Est F.u).Covers (Scalar.ofNat n : F.T) :=
  fun e he => covers_bound (x := n) (e := 0) hF (hF.ofNat n) (by simp) he

theorem Covers.sq (hF : F.Sound) (ha : s.Covers a) : (Scalar.sq s).Covers (Scalar.sq a) :=
  covers_op₁ hF ha fun e h1 h3 _ => ⟨_, hF.sq h1, by
    have e0 : 0 ≤ e := (abs_nonneg _).trans h3
    rw [sq_sub_sq, abs_mul]
    refine mul_le_mul ?_ h3 (abs_nonneg _) (by positivity)
    rw [show F.val a + s.val = 2 * s.val + (F.val a - s.val) by ring]
    refine (abs_add_le _ _).trans (add_le_add ?_ h3)
    rw [abs_mul, abs_two]⟩

theorem Covers.sqrt (hF : F.Sound) (ha : s.Covers a) : (Scalar.sqrt s).Covers (Scalar.sqrt a) :=
  covers_op₁ hF ha fun e h1 h3 hG => by
    have e0 : 0 ≤ e := (abs_nonneg _).trans h3
    have h4 := abs_le.mp h3
    have ha0 : 0 ≤ F.val a := by linarith
    refine ⟨_, hF.sqrt h1 ha0, ?_⟩
    have key : ∀ x y : ℝ, 0 ≤ y → x ≤ y + e → Real.sqrt x ≤ Real.sqrt y + Real.sqrt e := by
      intro x y hy h
      rw [Real.sqrt_le_left (by positivity)]
      have := Real.sq_sqrt hy
      have := Real.sq_sqrt e0
      nlinarith [Real.sqrt_nonneg y, Real.sqrt_nonneg e, mul_nonneg (Real.sqrt_nonneg y) (Real.sqrt_nonneg e)]
    have k1 := key (F.val a) s.val (e0.trans hG) (by linarith)
    have k2 := key s.val (F.val a) ha0 (by linarith)
    exact abs_le.mpr ⟨by linarith, by linarith⟩

theorem exp_err {x y e : ℝ} (h : |y - x| ≤ e) : |Real.exp y - Real.exp x| ≤ Real.exp x * (Real.exp e - 1) := by
  have h1 := abs_le.mp h
  have k1 : Real.exp y ≤ Real.exp x * Real.exp e := by
    rw [← Real.exp_add]; exact Real.exp_le_exp.mpr (by linarith)
  have k2 : Real.exp x * Real.exp (-e) ≤ Real.exp y := by
    rw [← Real.exp_add]; exact Real.exp_le_exp.mpr (by linarith)
  have k3 : 2 ≤ Real.exp e + Real.exp (-e) := by
    have a1 := Real.add_one_le_exp e
    have a2 := Real.add_one_le_exp (-e)
    linarith
  have k4 := Real.exp_pos x
  refine abs_le.mpr ⟨?_, by linarith⟩
  nlinarith

theorem Covers.exp (hF : F.Sound) (ha : s.Covers a) : (Scalar.exp s).Covers (Scalar.exp a) :=
  covers_op₁ hF ha fun e h1 h3 _ => ⟨_, hF.exp h1, exp_err h3⟩

theorem Covers.ln (hF : F.Sound) (ha : s.Covers a) : (Scalar.ln s).Covers (Scalar.ln a) :=
  covers_op₁ hF ha fun e h1 h3 hG => by
    have e0 : 0 ≤ e := (abs_nonneg _).trans h3
    have h4 := abs_le.mp h3
    have p : 0 < s.val - e := sub_pos.mpr hG.1
    have ha0 : 0 < F.val a := by linarith
    have hs0 : 0 < s.val := by linarith
    refine ⟨_, hF.ln h1 (by linarith [hG.2]) ha0, ?_⟩
    have key : ∀ x y : ℝ, s.val - e ≤ x → 0 < y → y ≤ x + e → Real.log y - Real.log x ≤ e / (s.val - e) := by
      intro x y hx hy h
      have x0 : 0 < x := p.trans_le hx
      rw [← Real.log_div hy.ne' x0.ne']
      refine (Real.log_le_sub_one_of_pos (div_pos hy x0)).trans ?_
      rw [div_sub_one x0.ne']
      exact div_le_div₀ e0 (by linarith) p hx
    have k1 := key s.val (F.val a) (by linarith) ha0 (by linarith)
    have k2 := key (F.val a) s.val (by linarith) hs0 (by linarith)
    exact abs_le.mpr ⟨by linarith, k1⟩

theorem moderate (hF : F.Sound) {x y e : ℝ} (h : |y - x| ≤ e) (hG : F.u * (|x| + e) ≤ 1) : F.u * |y| ≤ 1 := by
  refine (mul_le_mul_of_nonneg_left ?_ hF.u_nonneg).trans hG
  have := abs_sub_abs_le_abs_sub y x
  linarith

theorem Covers.cos (hF : F.Sound) (ha : s.Covers a) : (Scalar.cos s).Covers (Scalar.cos a) :=
  covers_op₁ hF ha fun e h1 h3 hG => ⟨_, hF.cos h1 (moderate hF h3 hG),
    (Real.abs_cos_sub_cos_le _ _).trans h3⟩

theorem Covers.sin (hF : F.Sound) (ha : s.Covers a) : (Scalar.sin s).Covers (Scalar.sin a) :=
  covers_op₁ hF ha fun e h1 h3 hG => ⟨_, hF.sin h1 (moderate hF h3 hG),
    (Real.abs_sin_sub_sin_le _ _).trans h3⟩

theorem Covers.cosh (hF : F.Sound) (ha : s.Covers a) : (Scalar.cosh s).Covers (Scalar.cosh a) :=
  covers_op₁ hF ha fun e h1 h3 _ => ⟨_, hF.cosh h1, by
    have k1 := abs_le.mp (exp_err h3)
    have k2 := abs_le.mp (exp_err (x := -s.val) (y := -F.val a) (e := e) (by rwa [← neg_sub', abs_neg]))
    rw [Real.cosh_eq, Real.cosh_eq]
    exact abs_le.mpr ⟨by linarith [k1.1, k2.1], by linarith [k1.2, k2.2]⟩⟩

theorem Covers.tanh (hF : F.Sound) (ha : s.Covers a) : (Scalar.tanh s).Covers (Scalar.tanh a) :=
  covers_op₁ hF ha fun _ h1 h3 _ => ⟨_, hF.tanh h1, (tanh_short _ _).trans h3⟩

theorem arctan_short (a b : ℝ) : |Real.arctan a - Real.arctan b| ≤ |a - b| := by
  have hd : ∀ v ∈ (Set.univ : Set ℝ), HasDerivWithinAt Real.arctan (1 / (1 + v ^ 2)) Set.univ v :=
    fun v _ => (Real.hasDerivAt_arctan v).hasDerivWithinAt
  have hb : ∀ v ∈ (Set.univ : Set ℝ), ‖1 / (1 + v ^ 2)‖ ≤ 1 := by
    intro v _
    rw [Real.norm_eq_abs, abs_of_nonneg (by positivity), div_le_one (by positivity)]
    nlinarith [sq_nonneg v]
  have := convex_univ.norm_image_sub_le_of_norm_hasDerivWithin_le hd hb (Set.mem_univ b) (Set.mem_univ a)
  simpa [Real.norm_eq_abs] using this

theorem Covers.atan (hF : F.Sound) (ha : s.Covers a) : (Scalar.atan s).Covers (Scalar.atan a) :=
  covers_op₁ hF ha fun _ h1 h3 _ => ⟨_, hF.atan h1, (arctan_short _ _).trans h3⟩

theorem argErr_bdd (y x e f : ℝ) : BddAbove {d | ∃ y' x', |y' - y| ≤ e ∧ |x' - x| ≤ f
    ∧ d = |Complex.arg ⟨x', y'⟩ - Complex.arg ⟨x, y⟩|} := by
  refine ⟨Real.pi + Real.pi, ?_⟩
  rintro d ⟨y', x', -, -, rfl⟩
  exact (abs_sub _ _).trans (add_le_add (Complex.abs_arg_le_pi _) (Complex.abs_arg_le_pi _))

theorem le_argErr {y x e f y' x' : ℝ} (h1 : |y' - y| ≤ e) (h2 : |x' - x| ≤ f) :
    |Complex.arg ⟨x', y'⟩ - Complex.arg ⟨x, y⟩| ≤ argErr y x e f :=
  le_csSup (argErr_bdd y x e f) ⟨y', x', h1, h2, rfl⟩

theorem Covers.atan2 (hF : F.Sound) (ha : s.Covers a) (hb : t.Covers b) :
    (Scalar.atan2 s t).Covers (Scalar.atan2 a b) :=
  covers_op₂ hF ha hb fun e f h1 h2 h3 h4 hG => by
    refine ⟨_, hF.atan2 h1 h2 ?_, le_argErr h3 h4⟩
    rcases hG with h | h
    · left
      have := (abs_le.mp h4).1
      linarith
    · right
      intro h0
      rw [h0, zero_sub, abs_neg] at h3
      linarith

theorem Covers.ne (ha : s.Covers a) (hb : t.Covers b) (h : s.Apart t) :
    F.fin a ∧ F.fin b ∧ F.val a ≠ F.val b ∧ s.val ≠ t.val ∧ (F.val a ≤ F.val b ↔ s.val ≤ t.val) := by
  obtain ⟨-, e, f, he, hf, h⟩ := h
  obtain ⟨h1, h2⟩ := ha e he
  obtain ⟨h3, h4⟩ := hb f hf
  have h2 := abs_le.mp h2
  have h4 := abs_le.mp h4
  refine ⟨h1, h3, ?_⟩
  rcases lt_abs.mp h with h | h
  · exact ⟨by intro e; linarith, by intro e; linarith, by constructor <;> intro <;> linarith⟩
  · exact ⟨by intro e; linarith, by intro e; linarith, by constructor <;> intro <;> linarith⟩

theorem Covers.le_iff (hF : F.Sound) (ha : s.Covers a) (hb : t.Covers b) (h : s.Apart t) :
    (Scalar.le a b : Bool) = Scalar.le s t := by
  obtain ⟨h1, h2, -, -, h5⟩ := ha.ne hb h
  rw [Bool.eq_iff_iff, hF.le h1 h2, h5]
  exact (decide_eq_true_iff (p := s.val ≤ t.val)).symm

theorem Covers.beq_false (hF : F.Sound) (ha : s.Covers a) (hb : t.Covers b) (h : Scalar.beq s t = false) :
    (Scalar.beq a b : Bool) = false ∧ s.val ≠ t.val := by
  have h : s.Apart t := by
    simpa [Scalar.beq] using h
  obtain ⟨h1, h2, h3, h4, -⟩ := ha.ne hb h
  refine ⟨?_, h4⟩
  rw [Bool.eq_false_iff]
  exact fun e => h3 ((hF.beq h1 h2).mp e)

theorem Covers.sign (hF : F.Sound) (ha : s.Covers a) (h : s.Signed) :
    (Scalar.signNeg a : Bool) = Scalar.signNeg s := by
  obtain ⟨e, he, h⟩ := h
  obtain ⟨h1, h2⟩ := ha e he
  have h2 := abs_le.mp h2
  have key : F.val a ≠ 0 ∧ (F.val a < 0 ↔ s.val < 0) := by
    rcases lt_abs.mp h with h | h
    · exact ⟨by intro e; linarith, by constructor <;> intro <;> linarith⟩
    · exact ⟨by intro e; linarith, by constructor <;> intro <;> linarith⟩
  rw [Bool.eq_iff_iff, hF.signNeg h1 key.1, key.2]
  exact (decide_eq_true_iff (p := s.val < 0)).symm

theorem Covers.relu (hF : F.Sound) (ha : s.Covers a) : s.relu.Covers (Act.relu a) := by
  intro d hd
  obtain ⟨e, he, rfl⟩ := Option.map_eq_some_iff.mp hd
  obtain ⟨h1, h2⟩ := ha e he
  have hu := hF.u_nonneg
  have h3 := abs_le.mp h2
  obtain ⟨z1, z2⟩ := hF.lit 0 1 one_ne_zero (by simp)
  have z2 : |F.val (Scalar.zero : F.T)| ≤ F.u := by
    change |F.val (Scalar.lit 0 1 : F.T)| ≤ F.u
    simpa using z2
  have z3 := abs_le.mp z2
  change F.fin _ ∧ |F.val _ - max s.val 0| ≤ _
  by_cases h0 : F.val a = 0
  · rw [h0] at h3
    have hm : max s.val 0 ≤ e := max_le (by linarith) (by linarith)
    have hm' : 0 ≤ max s.val 0 := le_max_right _ _
    unfold Act.relu
    split
    · exact ⟨h1, by rw [h0, zero_sub, abs_neg, abs_of_nonneg hm']; linarith⟩
    · exact ⟨z1, abs_le.mpr ⟨by linarith, by linarith⟩⟩
  · have hs := hF.signNeg h1 h0
    unfold Act.relu
    by_cases hn : F.val a < 0
    · rw [hs.mpr hn]
      have hm : max s.val 0 ≤ e := max_le (by linarith) (by linarith)
      have hm' : 0 ≤ max s.val 0 := le_max_right _ _
      change F.fin (Scalar.zero : F.T) ∧ |F.val (Scalar.zero : F.T) - _| ≤ e + F.u
      exact ⟨z1, abs_le.mpr ⟨by linarith, by linarith⟩⟩
    · have : (Scalar.signNeg a : Bool) = false := by rw [Bool.eq_false_iff]; exact fun e => hn (hs.mp e)
      rw [this]
      refine ⟨h1, abs_le.mpr ⟨?_, ?_⟩⟩
      · have : max s.val 0 ≤ F.val a + e := max_le (by linarith) (by linarith)
        show -(e + F.u) ≤ F.val a - _
        linarith
      · have := le_max_left s.val 0
        show F.val a - _ ≤ e + F.u
        linarith

theorem covers_sig (hF : F.Sound) (w : Width) : (Act.sigThreshold w : Est F.u).Covers (Act.sigThreshold w : F.T)
    ∧ (Act.sigHi w : Est F.u).Covers (Act.sigHi w : F.T) ∧ (Act.sigLo w : Est F.u).Covers (Act.sigLo w : F.T) := by
  cases w <;> exact ⟨covers_lit hF _ _, covers_lit hF _ _, covers_lit hF _ _⟩

theorem Covers.sigmoid (hF : F.Sound) (w : Width) (ha : s.Covers a) (h1 : Apart (Act.sigThreshold w) s)
    (h2 : s.Apart (Scalar.neg (Act.sigThreshold w))) : (Act.sigmoid w s).Covers (Act.sigmoid w a) := by
  obtain ⟨k1, k2, k3⟩ := covers_sig hF w
  unfold Act.sigmoid
  rw [k1.le_iff hF ha h1, ha.le_iff hF (k1.neg hF) h2]
  split
  · exact k2
  · split
    · exact k3
    · exact (ha.exp hF).div hF ((covers_one hF).add hF (ha.exp hF))

theorem Covers.dSigmoid (hF : F.Sound) (w : Width) (ha : s.Covers a) (h1 : Apart (Act.sigThreshold w) s)
    (h2 : s.Apart (Scalar.neg (Act.sigThreshold w))) : (Act.dSigmoid w s).Covers (Act.dSigmoid w a) :=
  (ha.sigmoid hF w h1 h2).mul hF ((covers_one hF).sub hF (ha.sigmoid hF w h1 h2))

theorem Covers.dRelu (hF : F.Sound) (ha : s.Covers a) (h : s.Signed) : (Act.dRelu s).Covers (Act.dRelu a) := by
  unfold Act.dRelu
  rw [ha.sign hF h]
  split
  · exact covers_one hF
  · exact covers_zero hF

theorem covers_half (hF : F.Sound) : (Act.half : Est F.u).Covers (Act.half : F.T) := covers_lit hF _ _

theorem Covers.sech2 (hF : F.Sound) (ha : s.Covers a) : (Act.sech2 s).Covers (Act.sech2 a) :=
  (covers_one hF).div hF ((ha.cosh hF).sq hF)

end Est

/-- Both parts. -/
def Cf.Covers {w : Width} (a : Cf w F.T) (b : Cf w (Est F.u)) : Prop := b.x.Covers a.x ∧ b.y.Covers a.y

namespace Cf
variable {w : Width} {a b : Cf w F.T} {s t : Cf w (Est F.u)}

theorem Covers.add (hF : F.Sound) (ha : a.Covers s) (hb : b.Covers t) : (a.add b).Covers (s.add t) :=
  ⟨ha.1.add hF hb.1, ha.2.add hF hb.2⟩

theorem Covers.sub (hF : F.Sound) (ha : a.Covers s) (hb : b.Covers t) : (a.sub b).Covers (s.sub t) :=
  ⟨ha.1.sub hF hb.1, ha.2.sub hF hb.2⟩

theorem Covers.mul (hF : F.Sound) (ha : a.Covers s) (hb : b.Covers t) : (a.mul b).Covers (s.mul t) :=
  ⟨(ha.1.mul hF hb.1).sub hF (ha.2.mul hF hb.2), (ha.1.mul hF hb.2).add hF (ha.2.mul hF hb.1)⟩

theorem Covers.mulAssign (hF : F.Sound) (ha : a.Covers s) (hb : b.Covers t) : (a.mulAssign b).Covers (s.mulAssign t) :=
  ⟨(ha.1.mul hF hb.1).sub hF (ha.2.mul hF hb.2),
    (((ha.1.mul hF hb.1).sub hF (ha.2.mul hF hb.2)).mul hF hb.2).add hF (ha.2.mul hF hb.1)⟩

theorem Covers.conj (hF : F.Sound) (ha : a.Covers s) : a.conj.Covers s.conj := ⟨ha.1, ha.2.neg hF⟩

theorem Covers.normSq (hF : F.Sound) (ha : a.Covers s) : s.normSq.Covers a.normSq :=
  (ha.1.sq hF).add hF (ha.2.sq hF)

theorem Covers.norm (hF : F.Sound) (ha : a.Covers s) : s.norm.Covers a.norm := (ha.normSq hF).sqrt hF

theorem Covers.div (hF : F.Sound) (ha : a.Covers s) (hb : b.Covers t) :
    Follows Cf.Covers (Cf.div a b) (Cf.div s t) := by
  intro q hq
  unfold Cf.div at hq ⊢
  have hd : t.den.Covers b.den := (hb.1.sq hF).add hF (hb.2.sq hF)
  split at hq
  · cases hq
  · rename_i h
    rw [Bool.not_eq_true] at h
    rw [if_neg (by rw [(hd.beq_false hF (Est.covers_zero hF) h).1]; exact Bool.false_ne_true)]
    obtain rfl := Option.some.inj hq
    exact ⟨_, rfl, ((ha.1.mul hF hb.1).add hF (ha.2.mul hF hb.2)).div hF hd,
      ((ha.2.mul hF hb.1).sub hF (ha.1.mul hF hb.2)).div hF hd⟩

theorem Covers.phase (hF : F.Sound) (ha : a.Covers s) : s.phase.Covers a.phase := by
  cases w with
  | w32 => exact ha.2.atan2 hF ha.1
  | w64 => exact (ha.2.div hF ha.1).atan hF

theorem covers_iunit (hF : F.Sound) : (Cf.iunit : Cf w F.T).Covers Cf.iunit :=
  ⟨Est.covers_zero hF, Est.covers_one hF⟩

theorem Covers.card (hF : F.Sound) (ha : a.Covers s) : (Act.card a).Covers (Act.card s) := by
  have hp := ha.phase hF
  have h1 := (Est.covers_two hF).mul hF ((Est.covers_one hF).add hF (hp.cos hF))
  exact ⟨h1.mul hF (hp.cos hF), h1.mul hF (hp.sin hF)⟩

theorem Covers.cardDfdx (hF : F.Sound) (ha : a.Covers s) : (Act.cardDfdx a).Covers (Act.cardDfdx s) := by
  have hp := ha.phase hF
  have h1 := (hp.sin hF).add hF (((Est.covers_two hF).mul hF hp).sin hF)
  have h2 := (((Est.covers_two hF).mul hF ((hp.cos hF).sq hF)).add hF (hp.cos hF)).sub hF (Est.covers_one hF)
  have h3 := (hp.sin hF).div hF (ha.norm hF)
  exact ⟨((Est.covers_two hF).mul hF h3).mul hF h1, ((Est.covers_lit hF (-2) 1).mul hF h3).mul hF h2⟩

theorem Covers.cardDfdy (hF : F.Sound) (ha : a.Covers s) : (Act.cardDfdy a).Covers (Act.cardDfdy s) := by
  have hp := ha.phase hF
  have h1 := (hp.sin hF).add hF (((Est.covers_two hF).mul hF hp).sin hF)
  have h2 := (((Est.covers_two hF).mul hF ((hp.cos hF).sq hF)).add hF (hp.cos hF)).sub hF (Est.covers_one hF)
  have h3 := (hp.cos hF).div hF (ha.norm hF)
  exact ⟨((Est.covers_two hF).mul hF h3).mul hF h1, ((Est.covers_lit hF (-2) 1).mul hF h3).mul hF h2⟩

theorem covers_real (hF : F.Sound) {x : F.T} {e : Est F.u} (h : e.Covers x) :
    (Cf.new x Scalar.zero : Cf w F.T).Covers (Cf.new e Scalar.zero) := ⟨h, Est.covers_zero hF⟩

theorem covers_default (hF : F.Sound) : (Cf.default : Cf w F.T).Covers Cf.default :=
  ⟨Est.covers_zero hF, Est.covers_zero hF⟩

theorem Covers.activate (hF : F.Sound) {f : ActFunc} (ha : a.Covers s) (hs : Mon.Sure f s) :
    Follows Cf.Covers (Act.activate f a) (Act.activate f s) := by
  cases f with
  | modZ => exact ha.div hF (covers_real hF (ha.norm hF))
  | none => rintro q ⟨⟩; exact ⟨_, rfl, ha⟩
  | ritSigmoid =>
    rintro q ⟨⟩
    exact ⟨_, rfl, ha.1.sigmoid hF w hs.1 hs.2.1, ha.2.sigmoid hF w hs.2.2.1 hs.2.2.2⟩
  | ritTanh => rintro q ⟨⟩; exact ⟨_, rfl, ha.1.tanh hF, ha.2.tanh hF⟩
  | ritReLU =>
    rintro q ⟨⟩
    refine ⟨_, rfl, ?_⟩
    unfold Act.ritRelu Act.relu
    rw [ha.1.sign hF hs.1, ha.2.sign hF hs.2]
    constructor
    · dsimp only
      split
      · exact ha.1
      · exact Est.covers_zero hF
    · dsimp only
      split
      · exact ha.2
      · exact Est.covers_zero hF
  | zReLU =>
    rintro q ⟨⟩
    refine ⟨_, rfl, ?_⟩
    unfold Act.zRelu Cf.re Cf.im
    rw [ha.1.sign hF hs.1, ha.2.sign hF hs.2]
    split
    · exact covers_default hF
    · exact ha
  | cardioid => rintro q ⟨⟩; exact ⟨_, rfl, ha.card hF⟩

theorem Covers.dActivate (hF : F.Sound) {f : ActFunc} (ha : a.Covers s) (hs : Mon.Sure f s) :
    Follows Cf.Covers (Act.dActivate f a) (Act.dActivate f s) := by
  cases f with
  | modZ =>
    rintro q ⟨⟩
    exact ⟨_, rfl, (Est.covers_one hF).div hF ((Est.covers_two hF).mul hF (ha.norm hF)), Est.covers_zero hF⟩
  | none => rintro q ⟨⟩; exact ⟨_, rfl, Est.covers_one hF, Est.covers_zero hF⟩
  | ritSigmoid =>
    rintro q ⟨⟩
    exact ⟨_, rfl, ((ha.1.dSigmoid hF w hs.1 hs.2.1).add hF (ha.2.dSigmoid hF w hs.2.2.1 hs.2.2.2)).mul hF (Est.covers_half hF),
      Est.covers_zero hF⟩
  | ritTanh =>
    rintro q ⟨⟩
    exact ⟨_, rfl, ((ha.1.sech2 hF).add hF (ha.2.sech2 hF)).mul hF (Est.covers_half hF), Est.covers_zero hF⟩
  | ritReLU =>
    rintro q ⟨⟩
    exact ⟨_, rfl, ((ha.1.dRelu hF hs.1).add hF (ha.2.dRelu hF hs.2)).mul hF (Est.covers_half hF), Est.covers_zero hF⟩
  | zReLU =>
    rintro q ⟨⟩
    refine ⟨_, rfl, ?_⟩
    unfold Act.dZRelu Cf.re Cf.im
    rw [ha.1.sign hF hs.1, ha.2.sign hF hs.2]
    split
    · exact covers_default hF
    · exact ⟨Est.covers_one hF, Est.covers_zero hF⟩
  | cardioid =>
    rintro q ⟨⟩
    exact ⟨_, rfl, (ha.cardDfdx hF).sub hF ((covers_iunit hF).mul hF (ha.cardDfdy hF))⟩

theorem Covers.dConjActivate (hF : F.Sound) {f : ActFunc} (ha : a.Covers s) (hs : Mon.Sure f s) :
    Follows Cf.Covers (Act.dConjActivate f a) (Act.dConjActivate f s) := by
  cases f with
  | modZ =>
    intro q hq
    obtain ⟨r, h1, h2⟩ := Option.bind_eq_some_iff.mp hq
    obtain ⟨r', h3, h4⟩ := ha.div hF (ha.conj hF) r h1
    obtain ⟨q', h5, h6⟩ := h4.div hF (covers_real hF (((Est.covers_two hF).mul hF (ha.norm hF)).neg hF)) q h2
    refine ⟨q', ?_, h6⟩
    change (Cf.div a a.conj).bind _ = _
    rw [h3]
    exact h5
  | none => rintro q ⟨⟩; exact ⟨_, rfl, covers_default hF⟩
  | ritSigmoid =>
    rintro q ⟨⟩
    exact ⟨_, rfl, ((ha.1.dSigmoid hF w hs.1 hs.2.1).sub hF (ha.2.dSigmoid hF w hs.2.2.1 hs.2.2.2)).mul hF (Est.covers_half hF),
      Est.covers_zero hF⟩
  | ritTanh =>
    rintro q ⟨⟩
    exact ⟨_, rfl, ((ha.1.sech2 hF).sub hF (ha.2.sech2 hF)).mul hF (Est.covers_half hF), Est.covers_zero hF⟩
  | ritReLU =>
    rintro q ⟨⟩
    exact ⟨_, rfl, ((ha.1.dRelu hF hs.1).sub hF (ha.2.dRelu hF hs.2)).mul hF (Est.covers_half hF), Est.covers_zero hF⟩
  | zReLU => rintro q ⟨⟩; exact ⟨_, rfl, covers_default hF⟩
  | cardioid =>
    rintro q ⟨⟩
    exact ⟨_, rfl, (ha.cardDfdx hF).add hF ((covers_iunit hF).mul hF (ha.cardDfdy hF))⟩

end Cf
end
end Renplex
