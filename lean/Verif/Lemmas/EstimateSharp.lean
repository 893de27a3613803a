import Verif.Props.Estimate
import Verif.Props.Rounding
/-!
# Error bounds that tend to zero
-/

namespace Renplex
namespace Rounding

open Filter Topology Relate

variable {ι : Type} {l : Filter ι} {u : ι → ℝ}

/-- Precisions that tend to zero. -/
structure Fine (l : Filter ι) (u : ι → ℝ) : Prop where
  nonneg : ∀ k, 0 ≤ u k
  lim : Tendsto u l (𝓝 0)

/-- The exact value is `x` and the error bounds tend to zero. -/
def Tight (l : Filter ι) (a : ∀ k, Est (u k)) (x : ℝ) : Prop :=
  ∃ e : ι → ℝ, Tendsto e l (𝓝 0) ∧ ∀ᶠ k in l, 0 ≤ e k ∧ a k = ⟨x, some (e k)⟩

/-- The same for complex numbers. -/
def TightC {w : Width} (l : Filter ι) (a : ∀ k, Cf w (Est (u k))) (z : Cf w ℝ) : Prop :=
  Tight l (fun k => (a k).x) z.x ∧ Tight l (fun k => (a k).y) z.y

theorem tight_of (hF : Fine l u) {c : ∀ k, Est (u k)} {g : ι → ℝ} {x : ℝ} (hg : Tendsto g l (𝓝 0))
    (hc : ∀ᶠ k in l, 0 ≤ g k ∧ c k = ⟨x, Est.bound (u k) x (g k)⟩) : Tight l c x := by
  have h1 : Tendsto (fun k => u k * (|x| + g k)) l (𝓝 0) := by
    simpa using hF.lim.mul (hg.const_add |x|)
  have h2 : Tendsto (fun k => g k + u k * (1 + |x| + g k)) l (𝓝 0) := by
    simpa using hg.add (hF.lim.mul (hg.const_add (1 + |x|)))
  refine ⟨_, h2, ?_⟩
  filter_upwards [hc, h1.eventually_lt_const zero_lt_one] with k h h'
  refine ⟨?_, ?_⟩
  · have := hF.nonneg k
    have := h.1
    positivity
  · rw [h.2, Est.bound, if_pos h'.le]

section ops
variable {a b : ∀ k, Est (u k)} {x y : ℝ}

theorem Tight.val (ha : Tight l a x) : ∀ᶠ k in l, (a k).val = x := by
  obtain ⟨e, -, h⟩ := ha
  exact h.mono fun k h => by rw [h.2]

theorem Tight.congr {c : ∀ k, Est (u k)} (h : ∀ᶠ k in l, a k = c k) (hc : Tight l c x) : Tight l a x := by
  obtain ⟨e, h1, h2⟩ := hc
  exact ⟨e, h1, by filter_upwards [h, h2] with k e h; rwa [e]⟩

theorem tight_congr1 (ha : Tight l a x) {c d : ∀ k, Est (u k)} {v : ℝ} (hc : Tight l c v)
    (h : ∀ k, (a k).val = x → d k = c k) : Tight l d v :=
  hc.congr (ha.val.mono fun k e => h k e)

theorem tight_congr2 (ha : Tight l a x) (hb : Tight l b y) {c d : ∀ k, Est (u k)} {v : ℝ} (hc : Tight l c v)
    (h : ∀ k, (a k).val = x → (b k).val = y → d k = c k) : Tight l d v :=
  hc.congr (by filter_upwards [ha.val, hb.val] with k e e' using h k e e')

theorem Tight.op₁ (hF : Fine l u) (ha : Tight l a x) {v : ℝ} {G : ∀ k, ℝ → Prop} {g : ℝ → ℝ}
    (hG : ∀ e : ι → ℝ, Tendsto e l (𝓝 0) → (∀ᶠ k in l, 0 ≤ e k) → ∀ᶠ k in l, G k (e k))
    (hg : Tendsto g (𝓝 0) (𝓝 0)) (hp : ∀ᶠ e in 𝓝 0, 0 ≤ e → 0 ≤ g e) :
    Tight l (fun k => Est.op₁ v (a k) (G k) g) v := by
  obtain ⟨e, h1, h2⟩ := ha
  refine tight_of hF (hg.comp h1) ?_
  filter_upwards [h2, hG e h1 (h2.mono fun _ h => h.1), h1.eventually hp] with k h h' h''
  refine ⟨h'' h.1, ?_⟩
  rw [Est.op₁, h.2, Option.bind_some, if_pos h']
  rfl

theorem Tight.op₂ (hF : Fine l u) (ha : Tight l a x) (hb : Tight l b y) {v : ℝ} {G : ℝ → ℝ → Prop} {g : ℝ → ℝ → ℝ}
    (hG : ∀ᶠ p in 𝓝 (0 : ℝ × ℝ), 0 ≤ p.1 → 0 ≤ p.2 → G p.1 p.2)
    (hg : ∀ e f : ι → ℝ, Tendsto e l (𝓝 0) → Tendsto f l (𝓝 0) → (∀ᶠ k in l, 0 ≤ e k ∧ 0 ≤ f k) →
      Tendsto (fun k => g (e k) (f k)) l (𝓝 0) ∧ ∀ᶠ k in l, 0 ≤ g (e k) (f k)) :
    Tight l (fun k => Est.op₂ v (a k) (b k) G g) v := by
  obtain ⟨e, h1, h2⟩ := ha
  obtain ⟨f, h3, h4⟩ := hb
  obtain ⟨h5, h6⟩ := hg e f h1 h3 (by filter_upwards [h2, h4] with k h h' using ⟨h.1, h'.1⟩)
  have h7 : Tendsto (fun k => (e k, f k)) l (𝓝 (0 : ℝ × ℝ)) := h1.prodMk_nhds h3
  refine tight_of hF h5 ?_
  filter_upwards [h2, h4, h6, h7.eventually hG] with k h h' h'' hG
  refine ⟨h'', ?_⟩
  rw [Est.op₂, h.2, h'.2, Option.bind_some, Option.bind_some, if_pos (hG h.1 h'.1)]

theorem tendsto_sum {e f : ι → ℝ} (he : Tendsto e l (𝓝 0)) (hf : Tendsto f l (𝓝 0))
    (h : ∀ᶠ k in l, 0 ≤ e k ∧ 0 ≤ f k) :
    Tendsto (fun k => e k + f k) l (𝓝 0) ∧ ∀ᶠ k in l, 0 ≤ e k + f k :=
  ⟨by simpa using he.add hf, h.mono fun _ h => add_nonneg h.1 h.2⟩

theorem Tight.add (hF : Fine l u) (ha : Tight l a x) (hb : Tight l b y) :
    Tight l (fun k => Scalar.add (a k) (b k)) (x + y) := by
  have := Tight.op₂ hF ha hb (v := x + y) (G := fun _ _ => True) (g := fun e f => e + f)
    (.of_forall fun _ _ _ => trivial) fun e f he hf h => tendsto_sum he hf h
  refine tight_congr2 ha hb this fun k ha hb => ?_
  show Est.op₂ ((a k).val + (b k).val) _ _ _ _ = _
  rw [ha, hb]

theorem Tight.sub (hF : Fine l u) (ha : Tight l a x) (hb : Tight l b y) :
    Tight l (fun k => Scalar.sub (a k) (b k)) (x - y) := by
  have := Tight.op₂ hF ha hb (v := x - y) (G := fun _ _ => True) (g := fun e f => e + f)
    (.of_forall fun _ _ _ => trivial) fun e f he hf h => tendsto_sum he hf h
  refine tight_congr2 ha hb this fun k ha hb => ?_
  show Est.op₂ ((a k).val - (b k).val) _ _ _ _ = _
  rw [ha, hb]

theorem Tight.mul (hF : Fine l u) (ha : Tight l a x) (hb : Tight l b y) :
    Tight l (fun k => Scalar.mul (a k) (b k)) (x * y) := by
  have := Tight.op₂ hF ha hb (v := x * y) (G := fun _ _ => True) (g := fun e f => |x| * f + |y| * e + e * f)
    (.of_forall fun _ _ _ => trivial) fun e f he hf h =>
      ⟨by simpa using ((hf.const_mul |x|).add (he.const_mul |y|)).add (he.mul hf), h.mono fun _ h => by
        have := h.1
        have := h.2
        positivity⟩
  refine tight_congr2 ha hb this fun k ha hb => ?_
  show Est.op₂ ((a k).val * (b k).val) _ _ _ (fun e f => |(a k).val| * f + |(b k).val| * e + e * f) = _
  rw [ha, hb]

theorem Tight.div (hF : Fine l u) (ha : Tight l a x) (hb : Tight l b y) (hy : y ≠ 0) :
    Tight l (fun k => Scalar.div (a k) (b k)) (x / y) := by
  have hy' : 0 < |y| := abs_pos.mpr hy
  have := Tight.op₂ hF ha hb (v := x / y) (G := fun _ f => f < |y|)
    (g := fun e f => (|x| * f + |y| * e) / (|y| * (|y| - f)))
    (((continuous_snd.tendsto (0 : ℝ × ℝ)).eventually_lt_const hy').mono fun _ h _ _ => h) fun e f he hf h => by
      constructor
      · have h1 : Tendsto (fun k => (|x| * f k + |y| * e k) / (|y| * (|y| - f k))) l
            (𝓝 ((|x| * 0 + |y| * 0) / (|y| * (|y| - 0)))) :=
          ((hf.const_mul |x|).add (he.const_mul |y|)).div ((hf.const_sub |y|).const_mul |y|)
            (by rw [sub_zero]; exact (mul_pos hy' hy').ne')
        simpa using h1
      · filter_upwards [h, hf.eventually_lt_const hy'] with k h h'
        have := h.1
        have := h.2
        have := sub_pos.mpr h'
        positivity
  refine tight_congr2 ha hb this fun k ha hb => ?_
  show Est.op₂ ((a k).val / (b k).val) _ _ (fun _ f => f < |(b k).val|)
    (fun e f => (|(a k).val| * f + |(b k).val| * e) / (|(b k).val| * (|(b k).val| - f))) = _
  rw [ha, hb]

theorem Tight.neg (hF : Fine l u) (ha : Tight l a x) : Tight l (fun k => Scalar.neg (a k)) (-x) := by
  have := Tight.op₁ hF ha (v := -x) (G := fun _ _ => True) (g := id) (fun _ _ _ => .of_forall fun _ => trivial)
    tendsto_id (.of_forall fun _ h => h)
  refine tight_congr1 ha this fun k ha => ?_
  show Est.op₁ (-(a k).val) _ _ _ = _
  rw [ha]

theorem tight_lit (hF : Fine l u) (n : Int) {d : Nat} (hd : d ≠ 0) :
    Tight l (fun k => (Scalar.lit n d : Est (u k))) (n / d) := by
  refine tight_of hF (g := fun _ => 0) tendsto_const_nhds (.of_forall fun k => ⟨le_rfl, ?_⟩)
  show (⟨_, if d = 0 then none else _⟩ : Est (u k)) = _
  rw [if_neg hd]

theorem tight_zero (hF : Fine l u) : Tight l (fun k => (Scalar.zero : Est (u k))) (Scalar.zero : ℝ) :=
  tight_lit hF 0 one_ne_zero

theorem tight_one (hF : Fine l u) : Tight l (fun k => (Scalar.one : Est (u k))) (Scalar.one : ℝ) :=
  tight_lit hF 1 one_ne_zero

theorem tight_two (hF : Fine l u) : Tight l (fun k => (Scalar.two : Est (u k))) (Scalar.two : ℝ) :=
  tight_lit hF 2 one_ne_zero

theorem tight_ofNat (hF : Fine l u) (n : Nat) : Tight l (fun k => (Scalar.ofNat n : Est (u k))) n :=
  tight_of hF (g := fun _ => 0) tendsto_const_nhds (.of_forall fun k => ⟨le_rfl, rfl⟩)

theorem Tight.sq (hF : Fine l u) (ha : Tight l a x) : Tight l (fun k => Scalar.sq (a k)) (x ^ 2) := by
  have := Tight.op₁ hF ha (v := x ^ 2) (G := fun _ _ => True) (g := fun e => (2 * |x| + e) * e)
    (fun _ _ _ => .of_forall fun _ => trivial)
    (by simpa using (by fun_prop : Continuous fun e : ℝ => (2 * |x| + e) * e).tendsto 0)
    (.of_forall fun _ h => by positivity)
  refine tight_congr1 ha this fun k ha => ?_
  show Est.op₁ ((a k).val ^ 2) _ _ (fun e => (2 * |(a k).val| + e) * e) = _
  rw [ha]

theorem Tight.sqrt (hF : Fine l u) (ha : Tight l a x) (hx : 0 < x) :
    Tight l (fun k => Scalar.sqrt (a k)) (Real.sqrt x) := by
  have := Tight.op₁ hF ha (v := Real.sqrt x) (G := fun _ e => e ≤ x) (g := Real.sqrt)
    (fun e he _ => (he.eventually_lt_const hx).mono fun _ h => h.le)
    (by simpa using Real.continuous_sqrt.tendsto 0)
    (.of_forall fun _ _ => Real.sqrt_nonneg _)
  refine tight_congr1 ha this fun k ha => ?_
  show Est.op₁ (Real.sqrt (a k).val) _ (fun e => e ≤ (a k).val) _ = _
  rw [ha]

theorem exp_grow (c : ℝ) : Tendsto (fun e => c * (Real.exp e - 1)) (𝓝 0) (𝓝 0) := by
  simpa using (by fun_prop : Continuous fun e : ℝ => c * (Real.exp e - 1)).tendsto 0

theorem exp_grow_nonneg {c : ℝ} (hc : 0 ≤ c) : ∀ᶠ e in 𝓝 (0 : ℝ), 0 ≤ e → 0 ≤ c * (Real.exp e - 1) :=
  .of_forall fun _ h => mul_nonneg hc (sub_nonneg.mpr (Real.one_le_exp h))

theorem Tight.exp (hF : Fine l u) (ha : Tight l a x) : Tight l (fun k => Scalar.exp (a k)) (Real.exp x) := by
  have := Tight.op₁ hF ha (v := Real.exp x) (G := fun _ _ => True) (g := fun e => Real.exp x * (Real.exp e - 1))
    (fun _ _ _ => .of_forall fun _ => trivial) (exp_grow _) (exp_grow_nonneg (Real.exp_pos x).le)
  refine tight_congr1 ha this fun k ha => ?_
  show Est.op₁ (Real.exp (a k).val) _ _ (fun e => Real.exp (a k).val * (Real.exp e - 1)) = _
  rw [ha]

theorem Tight.ln (hF : Fine l u) (ha : Tight l a x) (hx : 0 < x) :
    Tight l (fun k => Scalar.ln (a k)) (Real.log x) := by
  have := Tight.op₁ hF ha (v := Real.log x) (G := fun k e => e < x ∧ u k ≤ x - e) (g := fun e => e / (x - e))
    (fun e he _ => by
      filter_upwards [he.eventually_lt_const (half_pos hx), hF.lim.eventually_lt_const (half_pos hx)] with k h h'
      constructor <;> linarith)
    (by
      have h1 : Tendsto (fun e : ℝ => e) (𝓝 0) (𝓝 0) := tendsto_id
      have h2 : Tendsto (fun e => e / (x - e)) (𝓝 0) (𝓝 (0 / (x - 0))) :=
        h1.div (h1.const_sub x) (by rw [sub_zero]; exact hx.ne')
      simpa using h2)
    ((eventually_lt_nhds hx).mono fun e h h' => div_nonneg h' (sub_pos.mpr h).le)
  refine tight_congr1 ha this fun k ha => ?_
  show Est.op₁ (Real.log (a k).val) _ (fun e => e < (a k).val ∧ u k ≤ (a k).val - e)
    (fun e => e / ((a k).val - e)) = _
  rw [ha]

theorem moderate (hF : Fine l u) (x : ℝ) (e : ι → ℝ) (he : Tendsto e l (𝓝 0)) :
    ∀ᶠ k in l, u k * (|x| + e k) ≤ 1 := by
  have h1 : Tendsto (fun k => u k * (|x| + e k)) l (𝓝 0) := by
    simpa using hF.lim.mul (he.const_add |x|)
  exact (h1.eventually_lt_const zero_lt_one).mono fun _ h => h.le

theorem Tight.cos (hF : Fine l u) (ha : Tight l a x) : Tight l (fun k => Scalar.cos (a k)) (Real.cos x) := by
  have := Tight.op₁ hF ha (v := Real.cos x) (G := fun k e => u k * (|x| + e) ≤ 1) (g := id)
    (fun e he _ => moderate hF x e he) tendsto_id (.of_forall fun _ h => h)
  refine tight_congr1 ha this fun k ha => ?_
  show Est.op₁ (Real.cos (a k).val) _ (fun e => u k * (|(a k).val| + e) ≤ 1) _ = _
  rw [ha]

theorem Tight.sin (hF : Fine l u) (ha : Tight l a x) : Tight l (fun k => Scalar.sin (a k)) (Real.sin x) := by
  have := Tight.op₁ hF ha (v := Real.sin x) (G := fun k e => u k * (|x| + e) ≤ 1) (g := id)
    (fun e he _ => moderate hF x e he) tendsto_id (.of_forall fun _ h => h)
  refine tight_congr1 ha this fun k ha => ?_
  show Est.op₁ (Real.sin (a k).val) _ (fun e => u k * (|(a k).val| + e) ≤ 1) _ = _
  rw [ha]

theorem Tight.tanh (hF : Fine l u) (ha : Tight l a x) :
    Tight l (fun k => Scalar.tanh (a k)) (Real.tanh x) := by
  have := Tight.op₁ hF ha (v := Real.tanh x) (G := fun _ _ => True) (g := id)
    (fun _ _ _ => .of_forall fun _ => trivial) tendsto_id (.of_forall fun _ h => h)
  refine tight_congr1 ha this fun k ha => ?_
  show Est.op₁ (Real.tanh (a k).val) _ _ _ = _
  rw [ha]

theorem Tight.cosh (hF : Fine l u) (ha : Tight l a x) :
    Tight l (fun k => Scalar.cosh (a k)) (Real.cosh x) := by
  have := Tight.op₁ hF ha (v := Real.cosh x) (G := fun _ _ => True) (g := fun e => Real.cosh x * (Real.exp e - 1))
    (fun _ _ _ => .of_forall fun _ => trivial) (exp_grow _) (exp_grow_nonneg (Real.cosh_pos x).le)
  refine tight_congr1 ha this fun k ha => ?_
  show Est.op₁ (Real.cosh (a k).val) _ _ (fun e => Real.cosh (a k).val * (Real.exp e - 1)) = _
  rw [ha]

theorem Tight.atan (hF : Fine l u) (ha : Tight l a x) :
    Tight l (fun k => Scalar.atan (a k)) (Real.arctan x) := by
  have := Tight.op₁ hF ha (v := Real.arctan x) (G := fun _ _ => True) (g := id)
    (fun _ _ _ => .of_forall fun _ => trivial) tendsto_id (.of_forall fun _ h => h)
  refine tight_congr1 ha this fun k ha => ?_
  show Est.op₁ (Real.arctan (a k).val) _ _ _ = _
  rw [ha]

/-- The argument changes little if the parts do. -/
theorem argErr_tendsto (h : 0 < y ∨ x ≠ 0) {e f : ι → ℝ} (he : Tendsto e l (𝓝 0)) (hf : Tendsto f l (𝓝 0))
    (hp : ∀ᶠ k in l, 0 ≤ e k ∧ 0 ≤ f k) : Tendsto (fun k => Est.argErr x y (e k) (f k)) l (𝓝 0) := by
  have hc : Tendsto (fun p : ℝ × ℝ => Complex.arg ⟨p.1, p.2⟩) (𝓝 (y, x)) (𝓝 (Complex.arg ⟨y, x⟩)) :=
    (Complex.continuousAt_arg (x := ⟨y, x⟩) h).tendsto.comp
      (Complex.equivRealProdCLM.symm.continuous.tendsto (y, x))
  rw [Metric.tendsto_nhds]
  intro η hη
  obtain ⟨ρ, hρ, h1⟩ := Metric.tendsto_nhds_nhds.mp hc (η / 2) (half_pos hη)
  filter_upwards [hp, he.eventually_lt_const hρ, hf.eventually_lt_const hρ] with k hp h2 h3
  have h4 : ∀ d ∈ {d | ∃ y' x', |y' - x| ≤ e k ∧ |x' - y| ≤ f k
      ∧ d = |Complex.arg ⟨x', y'⟩ - Complex.arg ⟨y, x⟩|}, d ≤ η / 2 := by
    rintro d ⟨y', x', h5, h6, rfl⟩
    refine le_of_lt (h1 (x := (x', y')) ?_)
    rw [Prod.dist_eq]
    exact max_lt (h6.trans_lt h3) (h5.trans_lt h2)
  have h5 : Est.argErr x y (e k) (f k) ≤ η / 2 :=
    csSup_le ⟨_, x, y, by simpa using hp.1, by simpa using hp.2, rfl⟩ h4
  have h6 : 0 ≤ Est.argErr x y (e k) (f k) := Real.sSup_nonneg (by
    rintro d ⟨y', x', -, -, rfl⟩
    exact abs_nonneg _)
  rw [Real.dist_eq, sub_zero, abs_of_nonneg h6]
  linarith

theorem Tight.atan2 (hF : Fine l u) (ha : Tight l a x) (hb : Tight l b y) (h : 0 < y ∨ x ≠ 0) :
    Tight l (fun k => Scalar.atan2 (a k) (b k)) (Complex.arg ⟨y, x⟩) := by
  have := Tight.op₂ hF ha hb (v := Complex.arg ⟨y, x⟩) (G := fun e f => f < y ∨ e < |x|) (g := Est.argErr x y)
    (by
      rcases h with h | h
      · exact ((continuous_snd.tendsto (0 : ℝ × ℝ)).eventually_lt_const h).mono fun _ h _ _ => .inl h
      · exact ((continuous_fst.tendsto (0 : ℝ × ℝ)).eventually_lt_const (abs_pos.mpr h)).mono fun _ h _ _ => .inr h)
    fun e f he hf hp => ⟨argErr_tendsto h he hf hp, .of_forall fun k => Real.sSup_nonneg (by
      rintro d ⟨y', x', -, -, rfl⟩
      exact abs_nonneg _)⟩
  refine tight_congr2 ha hb this fun k ha hb => ?_
  show Est.op₂ (Complex.arg ⟨(b k).val, (a k).val⟩) _ _ (fun e f => f < (b k).val ∨ e < |(a k).val|)
    (Est.argErr (a k).val (b k).val) = _
  rw [ha, hb]

theorem Tight.apart (ha : Tight l a x) (hb : Tight l b y) (h : x ≠ y) : ∀ᶠ k in l, (a k).Apart (b k) := by
  obtain ⟨e, h1, h2⟩ := ha
  obtain ⟨f, h3, h4⟩ := hb
  have h5 : Tendsto (fun k => e k + f k) l (𝓝 0) := by simpa using h1.add h3
  filter_upwards [h2, h4, h5.eventually_lt_const (abs_pos.mpr (sub_ne_zero.mpr h))] with k h2 h4 h5
  rw [h2.2, h4.2]
  exact ⟨h, _, _, rfl, rfl, h5⟩

theorem Tight.signed (ha : Tight l a x) (h : x ≠ 0) : ∀ᶠ k in l, (a k).Signed := by
  obtain ⟨e, h1, h2⟩ := ha
  filter_upwards [h2, h1.eventually_lt_const (abs_pos.mpr h)] with k h2 h5
  rw [h2.2]
  exact ⟨_, rfl, h5⟩

/-- Comparisons are those of the exact values. -/
theorem Tight.le_iff (_hF : Fine l u) (ha : Tight l a x) (hb : Tight l b y) (_h : x ≠ y) :
    ∀ᶠ k in l, (Scalar.le (a k) (b k) = true ↔ x ≤ y) := by
  filter_upwards [ha.val, hb.val] with k h h'
  show decide ((a k).val ≤ (b k).val) = true ↔ _
  rw [h, h', decide_eq_true_iff]

theorem Tight.beq_iff (_hF : Fine l u) (ha : Tight l a x) (hb : Tight l b y) (h : x ≠ y) :
    ∀ᶠ k in l, (Scalar.beq (a k) (b k) = true ↔ x = y) := by
  filter_upwards [ha.apart hb h] with k h'
  have : Scalar.beq (a k) (b k) = false := by simpa [Scalar.beq] using h'
  rw [this]
  exact iff_of_false Bool.false_ne_true h

theorem Tight.sign_iff (_hF : Fine l u) (ha : Tight l a x) (_h : x ≠ 0) :
    ∀ᶠ k in l, (Scalar.signNeg (a k) = true ↔ x < 0) := by
  filter_upwards [ha.val] with k h
  show decide ((a k).val < 0) = true ↔ _
  rw [h, decide_eq_true_iff]

theorem tight_ev : Ev l (Tight l (u := u)) := fun _ _ _ h hg => Tight.congr h hg

theorem Tight.ite {p : ι → Prop} {q : Prop} [∀ k, Decidable (p k)] [Decidable q] (h : ∀ᶠ k in l, (p k ↔ q))
    (h1 : q → Tight l a x) (h2 : ¬ q → Tight l b y) :
    Tight l (fun k => if p k then a k else b k) (if q then x else y) := tight_ev.ite h h1 h2

end ops

/-! ## Activations -/

section act
variable {a : ∀ k, (Est (u k))} {x : ℝ}

theorem tight_sig (hF : Fine l u) (w : Width) :
    Tight l (fun k => (Act.sigThreshold w : (Est (u k)))) (Act.sigThreshold w)
    ∧ Tight l (fun k => (Act.sigHi w : (Est (u k)))) (Act.sigHi w)
    ∧ Tight l (fun k => (Act.sigLo w : (Est (u k)))) (Act.sigLo w) := by
  cases w with
  | w32 => exact ⟨tight_lit hF _ one_ne_zero, tight_lit hF _ (by norm_num), tight_lit hF _ (by norm_num)⟩
  | w64 => exact ⟨tight_lit hF _ one_ne_zero, tight_lit hF _ (by norm_num), tight_lit hF _ (by norm_num)⟩

theorem Tight.sigmoid (hF : Fine l u) (w : Width) (ha : Tight l a x)
    (h : |x| ≠ Act.sigThreshold w) : Tight l (fun k => Act.sigmoid w (a k)) (Act.sigmoid w x) := by
  obtain ⟨h1, h2, h3⟩ := tight_sig hF w
  have ht : (0 : ℝ) ≤ Act.sigThreshold w := by
    cases w <;> simp [Act.sigThreshold, Scalar.lit]
  unfold Act.sigmoid
  have e1 : ∀ {p q : Prop} [Decidable q], (p ↔ q) → (p ↔ decide q = true) := fun h => by simpa using h
  refine Tight.ite ?_ (fun _ => h2) fun _ => Tight.ite ?_ (fun _ => h3) fun _ => ?_
  · refine (h1.le_iff hF ha fun e => h ?_).mono fun k => e1
    rw [← e, abs_of_nonneg ht]
  · refine (ha.le_iff hF (h1.neg hF) fun e => h ?_).mono fun k => e1
    rw [e, abs_neg, abs_of_nonneg ht]
  · refine (ha.exp hF).div hF ((tight_one hF).add hF (ha.exp hF)) ?_
    have := Real.exp_pos x
    rw [one_real]
    exact (add_pos one_pos this).ne'

theorem Tight.dSigmoid (hF : Fine l u) (w : Width) (ha : Tight l a x)
    (h : |x| ≠ Act.sigThreshold w) : Tight l (fun k => Act.dSigmoid w (a k)) (Act.dSigmoid w x) := by
  have := (ha.sigmoid hF w h).mul hF ((tight_one hF).sub hF (ha.sigmoid hF w h))
  simpa [Act.dSigmoid, Scalar.mul, Scalar.sub, Scalar.one, Scalar.lit] using this

theorem Tight.relu (hF : Fine l u) (ha : Tight l a x) : Tight l (fun k => (a k).relu) (Act.relu x) := by
  obtain ⟨e, h1, h2⟩ := ha
  refine ⟨fun k => e k + u k, by simpa using h1.add hF.lim, h2.mono fun k h => ⟨add_nonneg h.1 (hF.nonneg k), ?_⟩⟩
  show (a k).relu = _
  rw [h.2, relu_real]
  rfl

theorem Tight.dRelu (hF : Fine l u) (ha : Tight l a x) (h : x ≠ 0) :
    Tight l (fun k => Act.dRelu (a k)) (Act.dRelu x) := by
  unfold Act.dRelu
  refine Tight.ite ((ha.sign_iff hF h).mono fun k e => ?_) (fun _ => ?_) fun _ => ?_
  · simp only [Scalar.signNeg, Bool.not_eq_true', Bool.eq_false_iff]
    exact not_congr (by simpa [Scalar.signNeg] using e)
  · exact tight_one hF
  · exact tight_zero hF

theorem tight_half (hF : Fine l u) : Tight l (fun k => (Act.half : (Est (u k)))) (Act.half : ℝ) :=
  tight_lit hF 1 two_ne_zero

theorem Tight.sech2 (hF : Fine l u) (ha : Tight l a x) :
    Tight l (fun k => Act.sech2 (a k)) (Act.sech2 x) := by
  have := (tight_one hF).div hF ((ha.cosh hF).sq hF) (pow_ne_zero 2 (Real.cosh_pos x).ne')
  simpa [Act.sech2, Scalar.div, Scalar.one, Scalar.lit, Scalar.sq, Scalar.cosh] using this

end act

section cplx
variable {w : Width} {a b : ∀ k, Cf w (Est (u k))} {z v : Cf w ℝ}

theorem tightC_ev : Ev l (TightC l (u := u) (w := w)) := fun _ _ _ h hg =>
  ⟨Tight.congr (h.mono fun k e => by rw [e]) hg.1, Tight.congr (h.mono fun k e => by rw [e]) hg.2⟩

theorem TightC.add (hF : Fine l u) (ha : TightC l a z) (hb : TightC l b v) :
    TightC l (fun k => Cf.add (a k) (b k)) (Cf.add z v) := ⟨ha.1.add hF hb.1, ha.2.add hF hb.2⟩

theorem TightC.sub (hF : Fine l u) (ha : TightC l a z) (hb : TightC l b v) :
    TightC l (fun k => Cf.sub (a k) (b k)) (Cf.sub z v) := ⟨ha.1.sub hF hb.1, ha.2.sub hF hb.2⟩

theorem TightC.mul (hF : Fine l u) (ha : TightC l a z) (hb : TightC l b v) :
    TightC l (fun k => Cf.mul (a k) (b k)) (Cf.mul z v) :=
  ⟨(ha.1.mul hF hb.1).sub hF (ha.2.mul hF hb.2), (ha.1.mul hF hb.2).add hF (ha.2.mul hF hb.1)⟩

theorem TightC.mulAssign (hF : Fine l u) (ha : TightC l a z) (hb : TightC l b v) :
    TightC l (fun k => Cf.mulAssign (a k) (b k)) (Cf.mulAssign z v) :=
  ⟨(ha.1.mul hF hb.1).sub hF (ha.2.mul hF hb.2),
    (((ha.1.mul hF hb.1).sub hF (ha.2.mul hF hb.2)).mul hF hb.2).add hF (ha.2.mul hF hb.1)⟩

theorem TightC.conj (hF : Fine l u) (ha : TightC l a z) :
    TightC l (fun k => Cf.conj (a k)) (Cf.conj z) := ⟨ha.1, ha.2.neg hF⟩

theorem TightC.normSq (hF : Fine l u) (ha : TightC l a z) :
    Tight l (fun k => Cf.normSq (a k)) (Cf.normSq z) := (ha.1.sq hF).add hF (ha.2.sq hF)

theorem TightC.norm (hF : Fine l u) (ha : TightC l a z) (h : z.x ≠ 0 ∨ z.y ≠ 0) :
    Tight l (fun k => Cf.norm (a k)) (Cf.norm z) := (ha.normSq hF).sqrt hF (normSq_pos h)

theorem TightC.div (hF : Fine l u) (ha : TightC l a z) (hb : TightC l b v) :
    RO l (TightC l) (fun k => Cf.div (a k) (b k)) (Cf.div z v) := by
  unfold Cf.div
  have hd : Tight l (fun k => (b k).den) v.den := (hb.1.sq hF).add hF (hb.2.sq hF)
  by_cases h0 : v.den = Scalar.zero
  · have : Scalar.beq v.den (Scalar.zero : ℝ) = true := by simp [Scalar.beq, h0]
    rw [if_pos this]
    exact RO.none
  · refine RO.ite ((hd.beq_iff hF (tight_zero hF) h0).mono fun k e => ?_) (fun _ => RO.none) fun _ => ?_
    · rw [e]
      simp [Scalar.beq]
    · have h0' : v.den ≠ 0 := by rwa [zero_real] at h0
      exact RO.pure ⟨((ha.1.mul hF hb.1).add hF (ha.2.mul hF hb.2)).div hF hd h0',
        ((ha.2.mul hF hb.1).sub hF (ha.1.mul hF hb.2)).div hF hd h0'⟩

/-- The phase away from its cut. -/
theorem TightC.phase (hF : Fine l u) (ha : TightC l a z)
    (h : Steady .cardioid z) : Tight l (fun k => Cf.phase (a k)) (Cf.phase z) := by
  cases w with
  | w32 => exact ha.2.atan2 hF ha.1 h
  | w64 => exact (ha.2.div hF ha.1 h).atan hF

theorem tightC_iunit (hF : Fine l u) : TightC l (fun k => (Cf.iunit : Cf w (Est (u k)))) Cf.iunit :=
  ⟨tight_zero hF, tight_one hF⟩

theorem TightC.card (hF : Fine l u) (ha : TightC l a z) (hz : SteadyD .cardioid z) :
    TightC l (fun k => Act.cardDfdx (a k)) (Act.cardDfdx z)
    ∧ TightC l (fun k => Act.cardDfdy (a k)) (Act.cardDfdy z) := by
  have h0 : z.x ≠ 0 ∨ z.y ≠ 0 := by
    cases w with
    | w32 => exact hz.imp (fun h => h.ne') id
    | w64 => exact .inl hz
  have hp := ha.phase hF hz
  have hn := ha.norm hF h0
  have hn0 := norm_ne h0
  have hr := (hp.sin hF).add hF (((tight_two hF).mul hF hp).sin hF)
  have hi := (((tight_two hF).mul hF ((hp.cos hF).sq hF)).add hF (hp.cos hF)).sub hF (tight_one hF)
  have hm := tight_lit hF (-2) one_ne_zero
  exact ⟨⟨((tight_two hF).mul hF ((hp.sin hF).div hF hn hn0)).mul hF hr,
      (hm.mul hF ((hp.sin hF).div hF hn hn0)).mul hF hi⟩,
    ⟨((tight_two hF).mul hF ((hp.cos hF).div hF hn hn0)).mul hF hr,
      (hm.mul hF ((hp.cos hF).div hF hn hn0)).mul hF hi⟩⟩

/-- The same for monitored numbers. -/
def TightM (l : Filter ι) (a : ∀ k, Mon w (u k)) (z : Cf w ℝ) : Prop := TightC l (fun k => (a k).z) z

theorem tightM_ev : Ev l (TightM l (u := u) (w := w)) := fun _ _ _ h hg =>
  tightC_ev _ _ _ (h.mono fun k e => by simp only [e]) hg

theorem RO_mk {f : ∀ k, Run (Cf w (Est (u k)))} {o : Run (Cf w ℝ)} (h : RO l (TightC l) f o) :
    RO l (TightM l) (fun k => (f k).map Mon.mk) o := fun b hb => by
  obtain ⟨a, h1, h2⟩ := h b hb
  exact ⟨fun k => ⟨a k⟩, h1, h2.mono fun k e => by show (f k).map Mon.mk = _; rw [e]; rfl⟩

theorem RO_sure {f : ActFunc} {a : ∀ k, Cf w (Est (u k))} {g : ∀ k, Run (Cf w (Est (u k)))} {o : Run (Cf w ℝ)}
    (hs : ∀ᶠ k in l, Mon.Sure f (a k)) (h : RO l (TightC l) g o) [∀ k, Decidable (Mon.Sure f (a k))] :
    RO l (TightM l) (fun k => if Mon.Sure f (a k) then (g k).map Mon.mk else none) o := by
  refine RO.congr ?_ (RO_mk h)
  filter_upwards [hs] with k e
  rw [if_pos e]

theorem TightC.sure (hF : Fine l u) {f : ActFunc} (hf : f ≠ .ritReLU) (ha : TightC l a z) (hz : Steady f z) :
    ∀ᶠ k in l, Mon.Sure f (a k) := by
  cases f with
  | none | ritTanh | modZ | cardioid => exact .of_forall fun _ => trivial
  | ritReLU => exact (hf rfl).elim
  | zReLU =>
    filter_upwards [ha.1.signed hz.1, ha.2.signed hz.2] with k h h' using ⟨h, h'⟩
  | ritSigmoid =>
    have ht : (0 : ℝ) ≤ Act.sigThreshold w := by
      cases w <;> simp [Act.sigThreshold, Scalar.lit]
    have h1 := (tight_sig hF w).1
    have key : ∀ {c : ∀ k, Est (u k)} {x : ℝ}, Tight l c x → |x| ≠ Act.sigThreshold w →
        ∀ᶠ k in l, Est.Apart (Act.sigThreshold w) (c k) ∧ (c k).Apart (Scalar.neg (Act.sigThreshold w)) := by
      intro c x hc hx
      filter_upwards [h1.apart hc (fun e => hx (by rw [← e, abs_of_nonneg ht])),
        hc.apart (h1.neg hF) (fun e => hx (by rw [e, abs_neg, abs_of_nonneg ht]))] with k h h' using ⟨h, h'⟩
    filter_upwards [key ha.1 hz.1, key ha.2 hz.2] with k h h' using ⟨h.1, h.2, h'.1, h'.2⟩

theorem TightC.sureD (hF : Fine l u) {f : ActFunc} (ha : TightC l a z) (hz : SteadyD f z) :
    ∀ᶠ k in l, Mon.Sure f (a k) := by
  by_cases hf : f = .ritReLU
  · subst hf
    filter_upwards [ha.1.signed hz.1, ha.2.signed hz.2] with k h h' using ⟨h, h'⟩
  · refine ha.sure hF hf ?_
    cases f <;> first | exact hz | trivial

open Classical in
theorem TightM.activate (hF : Fine l u) (f : ActFunc) (hz : Steady f z) : ActRel l (TightM l (u := u)) f z := by
  intro m hm
  have ha : TightC l (fun k => (m k).z) z := hm
  have key : ∀ (hf : f ≠ .ritReLU), RO l (TightC l) (fun k => Act.activate f (m k).z) (Act.activate f z) →
      RO l (TightM l) (fun k => if Mon.Sure f (m k).z then (Act.activate f (m k).z).map Mon.mk else none)
        (Act.activate f z) := fun hf h => RO_sure (ha.sure hF hf hz) h
  cases f with
  | none => exact key (by simp) (RO.pure ha)
  | modZ =>
    refine key (by simp) ?_
    show RO l _ (fun k => Act.modZ (m k).z) (Act.modZ z)
    by_cases h : z.x ≠ 0 ∨ z.y ≠ 0
    · exact ha.div hF ⟨ha.norm hF h, tight_zero hF⟩
    · have hn : z.norm = 0 := by
        simp only [not_or, not_not] at h
        show Real.sqrt (z.x ^ 2 + z.y ^ 2) = 0
        simp [h.1, h.2]
      have : Act.modZ z = Option.none := by
        unfold Act.modZ Cf.div
        rw [if_pos]
        simp [Cf.den, Cf.new, hn, Scalar.beq, Scalar.add, Scalar.sq, Scalar.zero, Scalar.lit]
      rw [this]
      exact RO.none
  | ritSigmoid => exact key (by simp) (RO.pure ⟨ha.1.sigmoid hF w hz.1, ha.2.sigmoid hF w hz.2⟩)
  | ritTanh => exact key (by simp) (RO.pure ⟨ha.1.tanh hF, ha.2.tanh hF⟩)
  | ritReLU =>
    exact RO.pure (l := l) (S := TightM l) (a := fun k => (⟨⟨(m k).z.x.relu, (m k).z.y.relu⟩⟩ : Mon w (u k)))
      (b := Act.ritRelu z) ⟨ha.1.relu hF, ha.2.relu hF⟩
  | zReLU =>
    refine key (by simp) (RO.pure (b := Act.zRelu z) ?_)
    unfold Act.zRelu
    refine tightC_ev.ite ?_ (fun _ => ⟨tight_zero hF, tight_zero hF⟩) fun _ => ha
    filter_upwards [ha.1.sign_iff hF hz.1, ha.2.sign_iff hF hz.2] with k e e'
    simp only [Bool.or_eq_true]
    exact or_congr (e.trans decide_eq_true_iff.symm) (e'.trans decide_eq_true_iff.symm)
  | cardioid =>
    have hp := ha.phase hF hz
    have h1 := ((tight_two hF).mul hF ((tight_one hF).add hF (hp.cos hF)))
    exact key (by simp) (RO.pure (b := Act.card z) ⟨h1.mul hF (hp.cos hF), h1.mul hF (hp.sin hF)⟩)

theorem TightC.derivative (hF : Fine l u) (f : ActFunc) (hz : SteadyD f z) (ha : TightC l a z) :
    RO l (TightC l) (fun k => Act.dActivate f (a k)) (Act.dActivate f z)
      ∧ RO l (TightC l) (fun k => Act.dConjActivate f (a k)) (Act.dConjActivate f z) := by
  have h0 := tight_zero hF
  have hh := tight_half hF
  cases f with
  | none => exact ⟨RO.pure ⟨tight_one hF, h0⟩, RO.pure ⟨h0, h0⟩⟩
  | modZ =>
    have hn := ha.norm hF hz
    have h2 := (tight_two hF).mul hF hn
    refine ⟨RO.pure (b := Act.dModZ z) ⟨(tight_one hF).div hF h2 ?_, h0⟩, ?_⟩
    · rw [two_real]
      exact mul_ne_zero two_ne_zero (norm_ne hz)
    · exact (ha.div hF (ha.conj hF)).bind fun _ _ _ h => h.div hF ⟨h2.neg hF, h0⟩
  | ritSigmoid =>
    have h1 := ha.1.dSigmoid hF w hz.1
    have h2 := ha.2.dSigmoid hF w hz.2
    exact ⟨RO.pure (b := Act.dRitSigmoid z) ⟨(h1.add hF h2).mul hF hh, h0⟩,
      RO.pure (b := Act.dConjRitSigmoid z) ⟨(h1.sub hF h2).mul hF hh, h0⟩⟩
  | ritTanh =>
    have h1 := ha.1.sech2 hF
    have h2 := ha.2.sech2 hF
    exact ⟨RO.pure (b := Act.dRitTanh z) ⟨(h1.add hF h2).mul hF hh, h0⟩,
      RO.pure (b := Act.dConjRitTanh z) ⟨(h1.sub hF h2).mul hF hh, h0⟩⟩
  | ritReLU =>
    have h1 := ha.1.dRelu hF hz.1
    have h2 := ha.2.dRelu hF hz.2
    exact ⟨RO.pure (b := Act.dRitRelu z) ⟨(h1.add hF h2).mul hF hh, h0⟩,
      RO.pure (b := Act.dConjRitRelu z) ⟨(h1.sub hF h2).mul hF hh, h0⟩⟩
  | zReLU =>
    refine ⟨RO.pure (b := Act.dZRelu z) ?_, RO.pure ⟨h0, h0⟩⟩
    unfold Act.dZRelu
    refine tightC_ev.ite ?_ (fun _ => ⟨h0, h0⟩) fun _ => ⟨tight_one hF, h0⟩
    filter_upwards [ha.1.sign_iff hF hz.1, ha.2.sign_iff hF hz.2] with k e e'
    simp only [Bool.or_eq_true]
    exact or_congr (e.trans decide_eq_true_iff.symm) (e'.trans decide_eq_true_iff.symm)
  | cardioid =>
    obtain ⟨h1, h2⟩ := ha.card hF hz
    exact ⟨RO.pure (b := Act.dCard z) (h1.sub hF ((tightC_iunit hF).mul hF h2)),
      RO.pure (b := Act.dConjCard z) (h1.add hF ((tightC_iunit hF).mul hF h2))⟩

open Classical in
theorem TightM.derivative (hF : Fine l u) (f : ActFunc) (hz : SteadyD f z) : DerRel l (TightM l (u := u)) f z := by
  intro m hm
  have ha : TightC l (fun k => (m k).z) z := hm
  obtain ⟨h1, h2⟩ := ha.derivative hF f hz
  exact ⟨RO_sure (ha.sureD hF hz) h1, RO_sure (ha.sureD hF hz) h2⟩

/-! ## Losses -/

theorem RL_z {f : ∀ k, List (Mon w (u k))} {v : List (Cf w ℝ)} (h : RL l (TightM l) f v) :
    RL l (TightC l) (fun k => (f k).map Mon.z) v := by
  have := h.map (T := TightC l) (g := fun k (a : Mon w (u k)) => a.z) (g' := id) fun _ _ _ h => h
  rwa [List.map_id] at this

theorem RL_mk {f : ∀ k, List (Cf w (Est (u k)))} {v : List (Cf w ℝ)} (h : RL l (TightC l) f v) :
    RL l (TightM l) (fun k => (f k).map Mon.mk) v := by
  have := h.map (T := TightM l) (g := fun k (a : Cf w (Est (u k))) => Mon.mk a) (g' := id) fun _ _ _ h => h
  rwa [List.map_id] at this

theorem RL_flat {f : ∀ k, List (Mat (Mon w (u k)))} {v : List (Mat (Cf w ℝ))} (h : RL l (RM l (TightM l)) f v) :
    RL l (TightC l) (fun k => ((f k).map fun m => (⟨m.body.map Mon.z, m.shape, m.capacity⟩ : Mat (Cf w (Est (u k))))).flatMap
      Mat.getBody) (v.flatMap Mat.getBody) := by
  have h1 := RL_z (h.flatMap (g := fun _ m => m.getBody) (g' := Mat.getBody) fun _ _ _ h => h.getBody)
  refine RL.congr (.of_forall fun k => ?_) h1
  induction f k with
  | nil => rfl
  | cons m f ih =>
    rw [List.map_cons, List.flatMap_cons, List.flatMap_cons, List.map_append, ih]
    rfl

theorem dMeanSq_tight (hF : Fine l u) {t p : ∀ k, List (Cf w (Est (u k)))} {t' p' : List (Cf w ℝ)}
    (ht : RL l (TightC l) t t') (hp : RL l (TightC l) p p') :
    RL l (TightC l) (fun k => Loss.dMeanSq (t k) (p k)) (Loss.dMeanSq t' p') :=
  (ht.zip hp).map fun _ _ _ h => (h.2.sub hF h.1).conj hF

theorem dFunc_tight (hF : Fine l u) (f : LossFunc) {t p : ∀ k, List (Cf w (Est (u k)))} {t' p' : List (Cf w ℝ)}
    (ht : RL l (TightC l) t t') (hp : RL l (TightC l) p p') :
    RL l (TightC l) (fun k => Loss.dFunc f (t k) (p k)) (Loss.dFunc f t' p') := by
  cases f <;> exact dMeanSq_tight hF ht hp

/-- The operations on monitored numbers. -/
theorem monRel (hF : Fine l u) : CplxRel l (TightM l (u := u) (w := w)) where
  zero := ⟨tight_zero hF, tight_zero hF⟩
  add ha hb := TightC.add hF ha hb
  mul ha hb := TightC.mul hF ha hb
  addAssign ha hb := TightC.add hF ha hb
  subAssign ha hb := TightC.sub hF ha hb
  mulAssign ha hb := TightC.mulAssign hF ha hb
  conj ha := TightC.conj hF ha
  divNat n ha := RO_mk (TightC.div hF ha ⟨tight_ofNat hF n, tight_zero hF⟩)
  dLoss {f t t' p p'} ht hp := by
    cases t' with
    | scalar t' =>
      obtain ⟨a, ha, e⟩ := ht
      cases p' with
      | scalar p' =>
        obtain ⟨b, hb, e'⟩ := hp
        refine RE.congr (g := fun k => .ok ((Loss.dFunc f ((a k).map Mon.z) ((b k).map Mon.z)).map Mon.mk)) ?_
          (RE.ok (RL_mk (dFunc_tight hF f (RL_z ha) (RL_z hb))))
        filter_upwards [e, e'] with k e e'
        rw [e, e']; rfl
      | matrix p' =>
        obtain ⟨b, hb, e'⟩ := hp
        refine RE.congr (g := fun k => .error _) ?_ (RE.error _)
        filter_upwards [e, e'] with k e e'
        rw [e, e']; rfl
    | matrix t' =>
      obtain ⟨a, ha, e⟩ := ht
      cases p' with
      | scalar p' =>
        obtain ⟨b, hb, e'⟩ := hp
        refine RE.congr (g := fun k => .error _) ?_ (RE.error _)
        filter_upwards [e, e'] with k e e'
        rw [e, e']; rfl
      | matrix p' =>
        obtain ⟨b, hb, e'⟩ := hp
        refine RE.congr (g := fun k => .ok ((Loss.dFunc f
          (((a k).map fun m => (⟨m.body.map Mon.z, m.shape, m.capacity⟩ : Mat (Cf w (Est (u k))))).flatMap Mat.getBody)
          (((b k).map fun m => (⟨m.body.map Mon.z, m.shape, m.capacity⟩ : Mat (Cf w (Est (u k))))).flatMap
            Mat.getBody)).map Mon.mk)) ?_
          (RE.ok (RL_mk (dFunc_tight hF f (RL_flat ha) (RL_flat hb))))
        filter_upwards [e, e'] with k e e'
        rw [e, e']; rfl

theorem func_tight (hF : Fine l u) (f : LossFunc) {t p : ∀ k, List (Cf w (Est (u k)))} {t' p' : List (Cf w ℝ)}
    (ht : RL l (TightC l) t t') (hp : RL l (TightC l) p p')
    (h2 : f = .meanSquare → 2 ≤ min t'.length p'.length) :
    Tight l (fun k => Loss.func f (t k) (p k)) (Loss.func f t' p') := by
  cases f with
  | meanSquare =>
    show Tight l (fun k => Loss.meanSq (t k) (p k)) (Loss.meanSq t' p')
    simp only [meanSq_eq]
    have hz := ht.zip hp
    have h1 := hz.foldl (T := Tight l) (g := fun k s p => Scalar.add s (Loss.sqError p.1 p.2))
      (tight_zero hF) (fun _ _ _ _ ha h => ha.add hF ((h.1.sub hF h.2).normSq hF)) tight_ev
    refine h1.div hF (tight_ev _ _ _ (hz.len.mono fun k e => by rw [e]) (tight_ofNat hF _)) ?_
    have := h2 rfl
    rw [List.length_zip]
    exact Nat.cast_ne_zero.mpr (by omega)
  | normCrossEntropy =>
    show Tight l (fun k => Loss.normCe (t k) (p k)) (Loss.normCe t' p')
    unfold Loss.normCe
    simp only
    have he : RL l (fun a b => Tight l a b ∧ 0 < b) (fun k => (p k).map fun z => Scalar.exp z.normSq)
        (p'.map fun z => Scalar.exp z.normSq) :=
      hp.map (g := fun _ z => Scalar.exp z.normSq) fun _ _ _ h =>
        ⟨(h.normSq hF).exp hF, Real.exp_pos _⟩
    have hs := he.foldl (T := Tight l) (g := fun k s p => Scalar.add s p)
      (tight_zero hF) (fun _ _ _ _ ha h => ha.add hF h.1) tight_ev
    have hr : RL l (Tight l) (fun k => (t k).map Cf.re) (t'.map Cf.re) :=
      ht.map (g := fun _ z => Cf.re z) fun _ _ _ h => h.1
    by_cases hn : p' = []
    · have e : ∀ᶠ k in l, p k = [] := hp.len.mono fun k e => by
        rw [hn] at e
        exact List.eq_nil_of_length_eq_zero e
      refine tight_ev _ (fun _ => Scalar.zero) _ (e.mono fun k e => by simp [e]) ?_
      rw [hn]
      simpa using tight_zero hF
    · have hpos : 0 < (p'.map fun z => Scalar.exp z.normSq).foldl Scalar.add (Scalar.zero : ℝ) := by
        have h0 : ∀ (v : List ℝ) (s : ℝ), 0 ≤ s → (∀ e ∈ v, 0 < e) → (v ≠ [] ∨ 0 < s) →
            0 < v.foldl Scalar.add s := by
          intro v
          induction v with
          | nil => intro s _ _ h; exact h.resolve_left (· rfl)
          | cons e v ih =>
            intro s hs hv _
            have h1 : 0 < s + e := add_pos_of_nonneg_of_pos hs (hv e (by simp))
            exact ih (s + e) h1.le (fun e he => hv e (by simp [he])) (.inr h1)
        refine h0 _ _ (by rw [zero_real]) (fun e he => ?_) (.inl (by simpa using hn))
        obtain ⟨z, -, rfl⟩ := List.mem_map.mp he
        exact Real.exp_pos _
      exact (hr.zip he).foldl (T := Tight l) (g := fun k s p =>
          Scalar.sub s (Scalar.mul p.1 (Scalar.ln (Scalar.div p.2 _))))
        (tight_zero hF) (fun _ _ _ d ha h => ha.sub hF (h.1.mul hF ((h.2.1.div hF hs hpos.ne').ln hF
          (div_pos h.2.2 hpos)))) tight_ev

/-- The losses of monitored numbers. -/
theorem monLoss (hF : Fine l u) : LossRel l (TightM l (u := u) (w := w)) (Tight l) LossOk where
  loss {f t t' p p'} ht hp h2 := by
    cases t' with
    | scalar t' =>
      obtain ⟨a, ha, e⟩ := ht
      cases p' with
      | scalar p' =>
        obtain ⟨b, hb, e'⟩ := hp
        refine RE.congr (g := fun k => .ok (Loss.func f ((a k).map Mon.z) ((b k).map Mon.z))) ?_
          (RE.ok (func_tight hF f (RL_z ha) (RL_z hb) fun e => ?_))
        · filter_upwards [e, e'] with k e e'
          rw [e, e']; rfl
        · subst e; exact h2
      | matrix p' =>
        obtain ⟨b, hb, e'⟩ := hp
        refine RE.congr (g := fun k => .error _) ?_ (RE.error _)
        filter_upwards [e, e'] with k e e'
        rw [e, e']; rfl
    | matrix t' =>
      obtain ⟨a, ha, e⟩ := ht
      cases p' with
      | scalar p' =>
        obtain ⟨b, hb, e'⟩ := hp
        refine RE.congr (g := fun k => .error _) ?_ (RE.error _)
        filter_upwards [e, e'] with k e e'
        rw [e, e']; rfl
      | matrix p' =>
        obtain ⟨b, hb, e'⟩ := hp
        refine RE.congr (g := fun k => .ok (Loss.func f
          (((a k).map fun m => (⟨m.body.map Mon.z, m.shape, m.capacity⟩ : Mat (Cf w (Est (u k))))).flatMap Mat.getBody)
          (((b k).map fun m => (⟨m.body.map Mon.z, m.shape, m.capacity⟩ : Mat (Cf w (Est (u k))))).flatMap
            Mat.getBody))) ?_
          (RE.ok (func_tight hF f (RL_flat ha) (RL_flat hb) fun e => ?_))
        · filter_upwards [e, e'] with k e e'
          rw [e, e']; rfl
        · subst e; exact h2
  add ha hb := ha.add hF hb
  divNat n hn ha := RO.pure (ha.div hF (tight_ofNat hF n) (Nat.cast_ne_zero.mpr hn))

end cplx
end Rounding
end Renplex
