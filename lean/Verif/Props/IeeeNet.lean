import Verif.Props.IeeeError
import Verif.Props.Lipschitz
/-!
# Rounding errors of whole networks in `f32` and `f64`
-/

namespace Renplex

section lists
variable {α β : Type} {S : α → β → Prop}

theorem forall₂_range {n : Nat} {f : Nat → α} {g : Nat → β} :
    List.Forall₂ S ((List.range n).map f) ((List.range n).map g) ↔ ∀ i < n, S (f i) (g i) := by
  rw [List.forall₂_map_left_iff, List.forall₂_map_right_iff, List.forall₂_same]
  simp

theorem forall₂_table {r c : Nat} {f : Nat → Nat → α} {g : Nat → Nat → β} :
    List.Forall₂ S (table r c f) (table r c g) ↔ ∀ i < r, ∀ j < c, S (f i j) (g i j) := by
  constructor
  · intro h i hi j hj
    obtain ⟨k1, e1⟩ := List.getElem?_eq_some_iff.mp (table_getElem? r c f hi hj)
    obtain ⟨k2, e2⟩ := List.getElem?_eq_some_iff.mp (table_getElem? r c g hi hj)
    have := List.Forall₂.get h (i := i * c + j) k1 k2
    simpa [e1, e2] using this
  · intro h
    refine List.forall₂_iff_get.mpr ⟨by rw [table_length, table_length], fun k h1 h2 => ?_⟩
    rw [table_length] at h1
    have hc : 0 < c := by
      rcases Nat.eq_zero_or_pos c with rfl | h
      · omega
      · exact h
    have hi : k / c < r := Nat.div_lt_of_lt_mul (by rwa [Nat.mul_comm] at h1)
    have hj : k % c < c := Nat.mod_lt _ hc
    have e : k / c * c + k % c = k := Nat.div_add_mod' k c
    have e1 := table_getElem? r c f hi hj
    have e2 := table_getElem? r c g hi hj
    rw [e] at e1 e2
    obtain ⟨_, e1⟩ := List.getElem?_eq_some_iff.mp e1
    obtain ⟨_, e2⟩ := List.getElem?_eq_some_iff.mp e2
    simp only [List.get_eq_getElem, e1, e2]
    exact h _ hi _ hj

/-- Feature maps with related entries; the capacities may differ. -/
def IOType.Meets (S : α → β → Prop) : IOType α → IOType β → Prop
  | .scalar u, .scalar v => List.Forall₂ S u v
  | .matrix u, .matrix v => List.Forall₂ (fun m m' => m.shape = m'.shape ∧ List.Forall₂ S m.body m'.body) u v
  | _, _ => False

theorem meets_maps {n r c : Nat} {X : Nat → Nat → Nat → α} {X' : Nat → Nat → Nat → β} {u : List (Mat α)}
    {v : List (Mat β)} (hu : MapsAre u n r c X) (hv : MapsAre v n r c X') :
    IOType.Meets S (.matrix u) (.matrix v) ↔ ∀ ch < n, ∀ i < r, ∀ j < c, S (X ch i j) (X' ch i j) := by
  constructor
  · intro h ch hch
    have k1 : ch < u.length := by rw [hu.1]; exact hch
    have k2 : ch < v.length := by rw [hv.1]; exact hch
    have := (List.Forall₂.get h k1 k2).2
    simp only [List.get_eq_getElem] at this
    rw [(hu.2 ch _ (List.getElem?_eq_getElem k1)).2, (hv.2 ch _ (List.getElem?_eq_getElem k2)).2] at this
    exact forall₂_table.mp this
  · intro h
    refine List.forall₂_iff_get.mpr ⟨by rw [hu.1, hv.1], fun ch k1 k2 => ?_⟩
    have a1 := hu.2 ch _ (List.getElem?_eq_getElem k1)
    have a2 := hv.2 ch _ (List.getElem?_eq_getElem k2)
    simp only [List.get_eq_getElem]
    refine ⟨a1.1.trans a2.1.symm, ?_⟩
    rw [a1.2, a2.2]
    exact forall₂_table.mpr (h ch (by rw [← hu.1]; exact k1))

theorem IOType.Meets.hasSize {x : IOType α} {x' : IOType β} (h : x.Meets S x') {s : Size} (hx : x.HasSize s) :
    x'.HasSize s := by
  cases x <;> cases x' <;> first | exact h.elim | skip
  · cases s
    · exact (List.Forall₂.length_eq h).symm.trans hx
    · exact hx.elim
  · cases s
    · exact hx.elim
    · refine ⟨(List.Forall₂.length_eq h).symm.trans hx.1, fun m' hm' => ?_⟩
      obtain ⟨i, hi, rfl⟩ := List.getElem_of_mem hm'
      have hi' := hi
      rw [← List.Forall₂.length_eq h] at hi'
      have h1 := List.Forall₂.get h hi' hi
      simp only [List.get_eq_getElem] at h1
      obtain ⟨h2, h3⟩ := hx.2 _ (List.getElem_mem hi')
      exact ⟨by unfold Mat.Rect; rw [← h1.2.length_eq, ← h1.1]; exact h2, h1.1.symm.trans h3⟩

end lists

noncomputable section
variable {w : Width} {B : Binary} {L : Libm B}

/-- The number that is stored. -/
def Cf.exact (z : Cf w (Fl L)) : Cf w ℝ := ⟨z.x.fp.val, z.y.fp.val⟩

theorem Cf.exact_toC (z : Cf w (Fl L)) : z.exact.toC = z.val := rfl

/-- `x` has absolute value at most `A`, and `z` differs from it by at most `δ` if it is finite. -/
def Cf.Tracks (A δ : ℝ) (z : Cf w (Fl L)) (x : Cf w ℝ) : Prop := z.Counts x.toC A δ 0

theorem Cf.tracks_iff {A δ : ℝ} {z : Cf w (Fl L)} {x : Cf w ℝ} :
    z.Tracks A δ x ↔ ‖x.toC‖ ≤ A ∧ 0 ≤ δ ∧ (z.Finite → ‖z.val - x.toC‖ ≤ δ) := by
  unfold Cf.Tracks Cf.Counts
  rw [pow_zero, one_mul, add_sub_cancel_left]

/-- What the error of a layer depends on: a bound on the sum of the absolute values of the weights of a
unit, one on the biases, the number of roundings on the longest path and the number of products. -/
structure Bounds where
  gain : ℝ
  bias : ℝ
  steps : Nat
  terms : Nat

/-- A bound on the exact outputs for inputs up to `A`. -/
def Bounds.size (b : Bounds) (A : ℝ) : ℝ := b.gain * A + b.bias

/-- A bound on all intermediate results for exact inputs up to `A` with errors up to `δ`. -/
def Bounds.peak (B : Binary) (b : Bounds) (A δ : ℝ) : ℝ :=
  (1 + B.ulp) ^ b.steps * (b.size A + (b.gain * δ + b.terms * (4 * B.tiny)))

/-- A bound on the errors of the outputs; `ε` is the error of the activation. -/
def Bounds.err (B : Binary) (ε : ℝ) (b : Bounds) (A δ : ℝ) : ℝ := b.peak B A δ - b.size A + ε

/-- No intermediate result can overflow. -/
def Bounds.Safe (B : Binary) (b : Bounds) (A δ : ℝ) : Prop := (b.terms + 1) * b.peak B A δ ≤ B.top / 2

/-- The layers have the same stored numbers, and the bounds hold. The functions of pooling layers are only
assumed to have such bounds. -/
def Layer.Obeys (b : Bounds) : Layer (Cf w (Fl L)) → Layer (Cf w ℝ) → Prop
  | .dense d, .dense e => d.func.Short ∧ ∃ u n W c, d.Is u n W c d.func
      ∧ e.Is u n (fun j i => (W j i).exact) (fun j => (c j).exact) d.func ∧ n + 4 ≤ b.steps ∧ n ≤ b.terms
      ∧ ∀ j < u, ∑ i ∈ Finset.range n, ‖(W j i).val‖ ≤ b.gain ∧ ‖(c j).val‖ ≤ b.bias
  | .conv d, .conv e => d.func.Short ∧ ∃ nf n p q K c, d.Is nf n p q K c d.func
      ∧ e.Is nf n p q (fun o ch s t => (K o ch s t).exact) (fun o => (c o).exact) d.func
      ∧ n + p + q + 4 ≤ b.steps ∧ n * (p * q) ≤ b.terms
      ∧ ∀ o < nf, ∑ ch ∈ Finset.range n, ∑ s ∈ Finset.range p, ∑ t ∈ Finset.range q, ‖(K o ch s t).val‖ ≤ b.gain
        ∧ ‖(c o).val‖ ≤ b.bias
  | .reduce d, .reduce e => d.blockSize = e.blockSize ∧ ∀ A δ u v, 0 ≤ A → 0 ≤ δ →
      u.length = d.blockSize.1 * d.blockSize.2 → List.Forall₂ (Cf.Tracks A δ) u v →
      ∃ y y', d.blockFunc u = some y ∧ e.blockFunc v = some y' ∧ y.Tracks (b.size A) (b.err B 0 A δ) y'
        ∧ ((∀ z ∈ u, z.Finite) → b.Safe B A δ → y.Finite)
  | .flatten _, .flatten _ => 1 ≤ b.gain ∧ 0 ≤ b.bias
  | _, _ => False

/-- The same for all layers of two networks. -/
def ObeyChain : List Bounds → List (Layer (Cf w (Fl L))) → List (Layer (Cf w ℝ)) → Prop
  | [], [], [] => True
  | b :: bs, l :: ls, l' :: ls' => l.Obeys b l' ∧ ObeyChain bs ls ls'
  | _, _, _ => False

/-- The bounds on sizes and errors after all layers. -/
def errs (B : Binary) (ε : ℝ) : List Bounds → ℝ → ℝ → ℝ × ℝ
  | [], A, δ => (A, δ)
  | b :: bs, A, δ => errs B ε bs (b.size A) (b.err B ε A δ)

/-! ## Activations -/

theorem Fl.relu_spec {a : Fl L} (ha : a.fp.Finite) :
    (Act.relu a).fp.Finite ∧ (Act.relu a).fp.val = Act.relu a.fp.val := by
  obtain ⟨z1, z2⟩ := Fl.zero_finite (L := L)
  rw [relu_eq]
  have hs : (Scalar.signNeg a : Bool) = a.fp.negative := by
    rcases a with ⟨_ | _ | _⟩
    · exact ha.elim
    · rfl
    · rfl
  unfold Act.relu
  by_cases h : (Scalar.signNeg a : Bool) = true
  · rw [h]
    refine ⟨z1, z2.trans ?_⟩
    rcases eq_or_ne a.fp.val 0 with h0 | h0
    · rw [h0, max_self]
    · exact (max_eq_left ((Fp.negative_spec ha h0).mp (hs ▸ h)).le).symm
  · simp only [h]
    refine ⟨ha, (max_eq_right ?_).symm⟩
    by_contra hc
    rw [not_le] at hc
    exact h (hs.trans ((Fp.negative_spec ha hc.ne).mpr hc))

theorem Fl.tanh_spec (hL : L.Accurate) (hu : L.u ≤ 1) {a : Fl L} (ha : a.fp.Finite) :
    (Scalar.tanh a).fp.Finite ∧ |(Scalar.tanh a).fp.val - Real.tanh a.fp.val| ≤ 2 * L.u := by
  have h0 : 0 ≤ L.u := le_trans (by positivity) hL.u_ge
  have h1 : |Real.tanh a.fp.val| ≤ 1 := (Real.abs_tanh_lt_one _).le
  obtain ⟨h2, h3⟩ := hL.tanh ha (by nlinarith [abs_nonneg (Real.tanh a.fp.val)])
  exact ⟨h2, h3.trans (by nlinarith)⟩

/-- C90. The activations `None`, `RITTanh` and `RITReLU`. -/
theorem C90_activation (hL : L.Accurate) (hu : L.u ≤ 1) {f : ActFunc} (hf : f.Short) {z : Cf w (Fl L)}
    (x : Cf w ℝ) (hz : f ≠ .none → z.Finite) :
    ∃ y y', Act.activate f z = some y ∧ Act.activate f x = some y' ∧ ‖y'.toC‖ ≤ ‖x.toC‖
      ∧ (y.Finite → z.Finite) ∧ (z.Finite → y.Finite ∧ ‖y.val - y'.toC‖ ≤ ‖z.val - x.toC‖ + 3 * L.u) := by
  have h0 : 0 ≤ L.u := le_trans (by positivity) hL.u_ge
  have key : ∀ y : Cf w (Fl L), Act.activate f z = some y → (z.Finite → y.Finite)
      → (z.Finite → ∀ y'', Act.activate f z.exact = some y'' → ‖y.val - y''.toC‖ ≤ 3 * L.u)
      → ∃ y y', Act.activate f z = some y ∧ Act.activate f x = some y' ∧ ‖y'.toC‖ ≤ ‖x.toC‖
      ∧ (y.Finite → z.Finite) ∧ (z.Finite → y.Finite ∧ ‖y.val - y'.toC‖ ≤ ‖z.val - x.toC‖ + 3 * L.u) := by
    intro y h1 h2 h3
    obtain ⟨y', y0, k1, k2, k3⟩ := C83_activation hf x (0 : Cf w ℝ)
    obtain ⟨y'', y1, k4, k5, k6⟩ := C83_activation hf z.exact x
    rw [k1, Option.some.injEq] at k5
    subst k5
    have e0 : y0.toC = 0 := by
      rcases hf with rfl | rfl | rfl <;> cases k2
      · rfl
      · apply Complex.ext
        · exact Real.tanh_zero
        · exact Real.tanh_zero
      · have : ∀ v : ℝ, v = 0 → Act.relu v = 0 := fun v hv => by rw [hv, relu_eq, max_self]
        exact Complex.ext (this _ rfl) (this _ rfl)
    refine ⟨y, y', h1, k1, ?_, fun hy => ?_, fun hz' => ⟨h2 hz', ?_⟩⟩
    · rw [e0, sub_zero, Cf.toC_hom_zero, sub_zero] at k3
      exact k3
    · by_cases e : f = .none
      · subst e
        cases h1
        exact hy
      · exact hz e
    · rw [Cf.exact_toC] at k6
      have := norm_sub_le_norm_sub_add_norm_sub y.val y''.toC y'.toC
      have := h3 hz' _ k4
      linarith
  rcases hf with rfl | rfl | rfl
  · refine key z rfl id fun _ y'' hy => ?_
    cases hy
    rw [Cf.exact_toC, sub_self, norm_zero]
    positivity
  · refine key _ rfl (fun h => ⟨(Fl.tanh_spec hL hu h.1).1, (Fl.tanh_spec hL hu h.2).1⟩) fun h y'' hy => ?_
    cases hy
    have := norm_le_of_parts (z := (Act.ritTanh z).val - (Act.ritTanh z.exact).toC) (v := 0) (c := 0) (T := 2 * L.u)
      le_rfl (by linarith) (by rw [zero_mul, zero_add]; exact (Fl.tanh_spec hL hu h.1).2)
      (by rw [zero_mul, zero_add]; exact (Fl.tanh_spec hL hu h.2).2)
    linarith
  · refine key _ rfl (fun h => ⟨(Fl.relu_spec h.1).1, (Fl.relu_spec h.2).1⟩) fun h y'' hy => ?_
    cases hy
    have : (Act.ritRelu z).val = (Act.ritRelu z.exact).toC :=
      Complex.ext (Fl.relu_spec h.1).2 (Fl.relu_spec h.2).2
    rw [this, sub_self, norm_zero]
    positivity

/-! ## Counting roundings without overflow -/

theorem Binary.near_half {x : ℝ} (h : |x| ≤ B.top / 2) : B.near |x| < B.top := by
  rw [B.near_lt_top_iff (abs_nonneg x)]
  have h1 : (2 : ℝ) ^ (B.kmax - 1) = 1 / 2 * 2 ^ B.kmax := B.half_place
  have h2 : B.top = ((2 ^ B.p : Nat) : ℝ) * 2 ^ B.kmax := B.top_eq
  have h3 : (4 : ℝ) ≤ ((2 ^ B.p : Nat) : ℝ) := by
    have := Nat.pow_le_pow_right (n := 2) (by norm_num) B.digits
    exact_mod_cast this
  have h4 : (0 : ℝ) < 2 ^ B.kmax := by positivity
  nlinarith

theorem Cf.add_finite {a b : Cf w (Fl L)} (ha : a.Finite) (hb : b.Finite) (h : ‖a.val + b.val‖ ≤ B.top / 2) :
    (Cf.add a b).Finite :=
  ⟨(Fp.add_spec ha.1 hb.1 (B.near_half ((Complex.abs_re_le_norm (a.val + b.val)).trans h))).1,
    (Fp.add_spec ha.2 hb.2 (B.near_half ((Complex.abs_im_le_norm (a.val + b.val)).trans h))).1⟩

theorem Cf.mul_finite {a b : Cf w (Fl L)} (ha : a.Finite) (hb : b.Finite)
    (h : (1 + B.ulp) * (‖a.val‖ * ‖b.val‖) + 2 * B.tiny ≤ B.top / 2) : (Cf.mul a b).Finite := by
  have hu := B.ulp_nonneg
  have ht := B.tiny_nonneg
  have m := parts_le a.val b.val
  set M := ‖a.val‖ * ‖b.val‖
  have hM : M ≤ B.top / 2 := by nlinarith [abs_nonneg (a.val.re * b.val.re), abs_nonneg (a.val.im * b.val.im), m.1]
  have pr : ∀ {p q : Fp B}, p.Finite → q.Finite → |p.val * q.val| ≤ M →
      (p.mul q).Finite ∧ |(p.mul q).val| ≤ (1 + B.ulp) * |p.val * q.val| + B.tiny := by
    intro p q hp hq h
    have h1 := Fp.mul_spec hp hq (B.near_half (h.trans hM))
    refine ⟨h1.1, ?_⟩
    have h2 := (Fp.mul_err h1.1).2.2
    have h3 := abs_sub_abs_le_abs_sub (p.mul q).val (p.val * q.val)
    linarith
  have a1 := abs_nonneg (a.val.re * b.val.re)
  have a2 := abs_nonneg (a.val.im * b.val.im)
  have a3 := abs_nonneg (a.val.re * b.val.im)
  have a4 := abs_nonneg (a.val.im * b.val.re)
  obtain ⟨p1, q1⟩ := pr ha.1 hb.1 (by change |a.val.re * b.val.re| ≤ M; linarith [m.1])
  obtain ⟨p2, q2⟩ := pr ha.2 hb.2 (by change |a.val.im * b.val.im| ≤ M; linarith [m.1])
  obtain ⟨p3, q3⟩ := pr ha.1 hb.2 (by change |a.val.re * b.val.im| ≤ M; linarith [m.2])
  obtain ⟨p4, q4⟩ := pr ha.2 hb.1 (by change |a.val.im * b.val.re| ≤ M; linarith [m.2])
  refine ⟨(Fp.sub_spec p1 p2 (B.near_half ?_)).1, (Fp.add_spec p3 p4 (B.near_half ?_)).1⟩
  · refine (abs_sub _ _).trans ((add_le_add q1 q2).trans (le_trans ?_ h))
    have := mul_le_mul_of_nonneg_left m.1 (show 0 ≤ 1 + B.ulp by linarith)
    change (1 + B.ulp) * |a.val.re * b.val.re| + B.tiny + ((1 + B.ulp) * |a.val.im * b.val.im| + B.tiny) ≤ _
    linarith
  · refine (abs_add_le _ _).trans ((add_le_add q3 q4).trans (le_trans ?_ h))
    have := mul_le_mul_of_nonneg_left m.2 (show 0 ≤ 1 + B.ulp by linarith)
    change (1 + B.ulp) * |a.val.re * b.val.im| + B.tiny + ((1 + B.ulp) * |a.val.im * b.val.re| + B.tiny) ≤ _
    linarith

/-- As `Cf.Counts`; and if `F` holds and the bound is below the overflow threshold, `z` is finite. -/
def Cf.Holds (F : Prop) (z : Cf w (Fl L)) (x : ℂ) (m t : ℝ) (j : Nat) : Prop :=
  z.Counts x m t j ∧ (F → (1 + B.ulp) ^ j * (m + t) ≤ B.top / 2 → z.Finite)

section
variable {F : Prop}

theorem Cf.Holds.weaken {z : Cf w (Fl L)} {x : ℂ} {m m' t t' : ℝ} {j i : Nat} (h : z.Holds F x m t j)
    (hm : m ≤ m') (ht : t ≤ t') (hj : j ≤ i) : z.Holds F x m' t' i := by
  have hu := B.ulp_nonneg
  have h1 := pow_le_pow_right₀ (show 1 ≤ 1 + B.ulp by linarith) hj
  have h2 := one_le_pow₀ (n := j) (show 1 ≤ 1 + B.ulp by linarith)
  have h0 : 0 ≤ m := (norm_nonneg x).trans h.1.1
  have h0' : 0 ≤ t := h.1.2.1
  have h3 : (1 + B.ulp) ^ j * (m + t) ≤ (1 + B.ulp) ^ i * (m' + t') :=
    mul_le_mul h1 (by linarith) (by linarith) (by linarith)
  refine ⟨⟨h.1.1.trans hm, h0'.trans ht, fun hz => (h.1.2.2 hz).trans ?_⟩, fun hF hb => h.2 hF (h3.trans hb)⟩
  have h4 : ((1 + B.ulp) ^ j - 1) * m ≤ ((1 + B.ulp) ^ i - 1) * m' :=
    mul_le_mul (by linarith) hm h0 (by linarith)
  have h5 : (1 + B.ulp) ^ j * t ≤ (1 + B.ulp) ^ i * t' := mul_le_mul h1 ht h0' (by linarith)
  linarith

theorem Cf.holds_val {z : Cf w (Fl L)} (hz : F → z.Finite) : z.Holds F z.val ‖z.val‖ 0 0 :=
  ⟨Cf.counts_val z, fun hF _ => hz hF⟩

theorem Cf.Counts.norm_le {z : Cf w (Fl L)} {x : ℂ} {m t : ℝ} {j : Nat} (h : z.Counts x m t j) (hz : z.Finite) :
    ‖z.val‖ ≤ (1 + B.ulp) ^ j * (m + t) := by
  have := norm_add_le (z.val - x) x
  rw [sub_add_cancel] at this
  linarith [h.1, h.2.2 hz]

theorem Cf.Holds.add {z z' : Cf w (Fl L)} {x x' : ℂ} {m m' t t' : ℝ} {j : Nat} (h : z.Holds F x m t j)
    (h' : z'.Holds F x' m' t' j) : (Cf.add z z').Holds F (x + x') (m + m') (t + t') (j + 1) := by
  refine ⟨h.1.add h'.1, fun hF hb => ?_⟩
  have hu := B.ulp_nonneg
  have m0 := (norm_nonneg x).trans h.1.1
  have m0' := (norm_nonneg x').trans h'.1.1
  have t0 := h.1.2.1
  have t0' := h'.1.2.1
  have hp : 0 ≤ (1 + B.ulp) ^ j := by positivity
  have e : (1 + B.ulp) ^ j * (m + t) + (1 + B.ulp) ^ j * (m' + t') ≤ B.top / 2 := by
    refine le_trans ?_ hb
    have e1 : (1 + B.ulp) ^ j * (m + t) + (1 + B.ulp) ^ j * (m' + t') = (1 + B.ulp) ^ j * (m + m' + (t + t')) := by ring
    rw [e1]
    exact mul_le_mul_of_nonneg_right (pow_le_pow_right₀ (by linarith) (Nat.le_succ j)) (by linarith)
  have e1 : 0 ≤ (1 + B.ulp) ^ j * (m + t) := mul_nonneg hp (by linarith)
  have e2 : 0 ≤ (1 + B.ulp) ^ j * (m' + t') := mul_nonneg hp (by linarith)
  have f1 := h.2 hF (by linarith)
  have f2 := h'.2 hF (by linarith)
  refine Cf.add_finite f1 f2 ((norm_add_le _ _).trans ?_)
  linarith [h.1.norm_le f1, h'.1.norm_le f2]

theorem Cf.holds_mul {z z' : Cf w (Fl L)} {x' : ℂ} {A δ : ℝ} (hz : F → z.Finite) (h' : z'.Counts x' A δ 0)
    (hz' : F → z'.Finite) : (Cf.mul z z').Holds F (z.val * x') (‖z.val‖ * A) (‖z.val‖ * δ + 4 * B.tiny) 3 := by
  have h := (Cf.counts_val z).mul h'
  simp only [zero_mul, add_zero, zero_add] at h
  refine ⟨h, fun hF hb => Cf.mul_finite (hz hF) (hz' hF) (le_trans ?_ hb)⟩
  have hu := B.ulp_nonneg
  have ht := B.tiny_nonneg
  have h1 := h'.norm_le (hz' hF)
  rw [pow_zero, one_mul] at h1
  have h2 := mul_le_mul_of_nonneg_left h1 (norm_nonneg z.val)
  have h3 : (1 + B.ulp) ^ 1 ≤ (1 + B.ulp) ^ 3 := pow_le_pow_right₀ (by linarith) (by norm_num)
  rw [pow_one] at h3
  have h0 : 0 ≤ ‖z.val‖ * ‖z'.val‖ := by positivity
  have h4 : (1 + B.ulp) * (‖z.val‖ * ‖z'.val‖) ≤ (1 + B.ulp) ^ 3 * (‖z.val‖ * (A + δ)) :=
    mul_le_mul h3 h2 h0 (by linarith)
  have h5 : 1 * (4 * B.tiny) ≤ (1 + B.ulp) ^ 3 * (4 * B.tiny) :=
    mul_le_mul_of_nonneg_right (by linarith) (by linarith)
  linarith

theorem Cf.holds_zero (j : Nat) : (Cf.default : Cf w (Fl L)).Holds F 0 0 0 j :=
  ⟨Cf.counts_zero j, fun _ _ => Cf.default_finite.1⟩

theorem Cf.Holds.sum {n j : Nat} {z : Nat → Cf w (Fl L)} {x : Nat → ℂ} {m t : Nat → ℝ}
    (h : ∀ b, b < n → (z b).Holds F (x b) (m b) (t b) j) :
    ((List.range n).foldl (fun acc b => Cf.add acc (z b)) Cf.default).Holds F (∑ b ∈ Finset.range n, x b)
      (∑ b ∈ Finset.range n, m b) (∑ b ∈ Finset.range n, t b) (j + n) := by
  induction n with
  | zero => exact Cf.holds_zero _
  | succ n ih =>
    rw [List.range_succ, List.foldl_append, Finset.sum_range_succ, Finset.sum_range_succ, Finset.sum_range_succ]
    exact (ih fun b hb => h b (by omega)).add ((h n (by omega)).weaken le_rfl le_rfl (by omega))

theorem Cf.holds_dot {n : Nat} {W x : Nat → Cf w (Fl L)} {x' : Nat → ℂ} {A δ : ℝ} (hW : F → ∀ i < n, (W i).Finite)
    (h : ∀ i < n, (x i).Counts (x' i) A δ 0) (hx : F → ∀ i < n, (x i).Finite) :
    (dotN n W x).Holds F (∑ i ∈ Finset.range n, (W i).val * x' i) ((∑ i ∈ Finset.range n, ‖(W i).val‖) * A)
      ((∑ i ∈ Finset.range n, ‖(W i).val‖) * δ + n * (4 * B.tiny)) (3 + n) := by
  have := Cf.Holds.sum (F := F) (n := n) fun i hi => Cf.holds_mul (fun hF => hW hF i hi) (h i hi) fun hF => hx hF i hi
  rw [Finset.sum_add_distrib, Finset.sum_const, Finset.card_range, nsmul_eq_mul, ← Finset.sum_mul, ← Finset.sum_mul]
    at this
  exact this

end
section
variable {F : Prop}

theorem Cf.holds_mul' {z z' : Cf w (Fl L)} {x : ℂ} {A δ : ℝ} (h : z.Counts x A δ 0) (hz : F → z.Finite)
    (hz' : F → z'.Finite) : (Cf.mul z z').Holds F (x * z'.val) (‖z'.val‖ * A) (‖z'.val‖ * δ + 4 * B.tiny) 3 := by
  have h1 := h.mul (Cf.counts_val z')
  simp only [mul_zero, add_zero, zero_add] at h1
  rw [mul_comm A, mul_comm δ] at h1
  refine ⟨h1, fun hF hb => Cf.mul_finite (hz hF) (hz' hF) ?_⟩
  rw [mul_comm ‖z.val‖]
  refine le_trans ?_ hb
  have hu := B.ulp_nonneg
  have ht := B.tiny_nonneg
  have h1 := h.norm_le (hz hF)
  rw [pow_zero, one_mul] at h1
  have h2 := mul_le_mul_of_nonneg_left h1 (norm_nonneg z'.val)
  have h3 : (1 + B.ulp) ^ 1 ≤ (1 + B.ulp) ^ 3 := pow_le_pow_right₀ (by linarith) (by norm_num)
  rw [pow_one] at h3
  have h0 : 0 ≤ ‖z'.val‖ * ‖z.val‖ := by positivity
  have h4 : (1 + B.ulp) * (‖z'.val‖ * ‖z.val‖) ≤ (1 + B.ulp) ^ 3 * (‖z'.val‖ * (A + δ)) :=
    mul_le_mul h3 h2 h0 (by linarith)
  have h5 : 1 * (4 * B.tiny) ≤ (1 + B.ulp) ^ 3 * (4 * B.tiny) :=
    mul_le_mul_of_nonneg_right (by linarith) (by linarith)
  linarith

theorem Cf.holds_dot' {n : Nat} {W x : Nat → Cf w (Fl L)} {x' : Nat → ℂ} {A δ : ℝ} (hW : F → ∀ i < n, (W i).Finite)
    (h : ∀ i < n, (x i).Counts (x' i) A δ 0) (hx : F → ∀ i < n, (x i).Finite) :
    (dotN n x W).Holds F (∑ i ∈ Finset.range n, x' i * (W i).val) ((∑ i ∈ Finset.range n, ‖(W i).val‖) * A)
      ((∑ i ∈ Finset.range n, ‖(W i).val‖) * δ + n * (4 * B.tiny)) (3 + n) := by
  have := Cf.Holds.sum (F := F) (n := n) fun i hi => Cf.holds_mul' (h i hi) (fun hF => hx hF i hi) fun hF => hW hF i hi
  rw [Finset.sum_add_distrib, Finset.sum_const, Finset.card_range, nsmul_eq_mul, ← Finset.sum_mul, ← Finset.sum_mul]
    at this
  exact this

theorem Bounds.peak_nonneg {b : Bounds} {A δ : ℝ} (h : 0 ≤ b.size A) (h' : 0 ≤ b.gain * δ) : 0 ≤ b.peak B A δ := by
  have hu := B.ulp_nonneg
  have ht := B.tiny_nonneg
  unfold Bounds.peak
  positivity

theorem Bounds.Safe.peak_le {b : Bounds} {A δ : ℝ} (h : b.Safe B A δ) (h0 : 0 ≤ b.peak B A δ) :
    b.peak B A δ ≤ B.top / 2 := by
  unfold Bounds.Safe at h
  have : 0 ≤ (b.terms : ℝ) * b.peak B A δ := by positivity
  linarith

/-- One unit: the sum before the activation, then the activation. -/
theorem Cf.Holds.activate (hL : L.Accurate) (hu : L.u ≤ 1) {f : ActFunc} (hf : f.Short) {b : Bounds} {A δ : ℝ}
    {z : Cf w (Fl L)} {x : Cf w ℝ}
    (h : z.Holds F x.toC (b.size A) (b.gain * δ + b.terms * (4 * B.tiny)) b.steps)
    (hp : F ∨ (f ≠ .none → z.Finite)) (hF : F → b.Safe B A δ) :
    ∃ y y', Act.activate f z = some y ∧ Act.activate f x = some y'
      ∧ y.Tracks (b.size A) (b.err B (3 * L.u) A δ) y' ∧ (F → y.Finite) := by
  have h0 : 0 ≤ L.u := le_trans (by positivity) hL.u_ge
  have hs : 0 ≤ b.size A := (norm_nonneg _).trans h.1.1
  have hu' := B.ulp_nonneg
  have ht := h.1.2.1
  have e1 : 0 ≤ b.peak B A δ := mul_nonneg (by positivity) (by linarith)
  have fin : F → z.Finite := fun k => h.2 k ((hF k).peak_le e1)
  obtain ⟨y, y', k1, k2, k3, k4, k5⟩ := C90_activation hL hu hf x (hp.elim (fun k _ => fin k) id)
  refine ⟨y, y', k1, k2, Cf.tracks_iff.mpr ⟨k3.trans h.1.1, ?_, fun hy => ?_⟩, fun k => (k5 (fin k)).1⟩
  · have : b.size A ≤ b.peak B A δ := by
      unfold Bounds.peak
      have := one_le_pow₀ (n := b.steps) (show 1 ≤ 1 + B.ulp by linarith)
      nlinarith
    unfold Bounds.err
    linarith
  · have := h.1.2.2 (k4 hy)
    refine (k5 (k4 hy)).2.trans ?_
    unfold Bounds.err Bounds.peak
    linarith

theorem layer_key (hL : L.Accurate) (hu : L.u ≤ 1) {b : Bounds} {l : Layer (Cf w (Fl L))} {l' : Layer (Cf w ℝ)}
    (ho : l.Obeys b l') {s s' : Size} (hf : l.Fits s s') {x : IOType (Cf w (Fl L))} {x' : IOType (Cf w ℝ)}
    (hx : x.HasSize s) {A δ : ℝ} (hA : 0 ≤ A) (hδ : 0 ≤ δ)
    (h : x.Meets (fun z v => z.Tracks A δ v ∧ (F → z.Finite)) x')
    (hp : F ∨ l.Pre (fun f z => f ≠ .none → z.Finite) x)
    (hF : F → l.AllParams Cf.Finite ∧ b.Safe B A δ) :
    ∃ y y', l.forward x = some (.ok y) ∧ l'.forward x' = some (.ok y')
      ∧ y.Meets (fun z v => z.Tracks (b.size A) (b.err B (3 * L.u) A δ) v ∧ (F → z.Finite)) y'
      ∧ y.HasSize s' := by
  have hx' := h.hasSize hx
  have hn1 : Nonempty (Cf w ℝ) := ⟨0⟩
  have hn2 : Nonempty (Cf w (Fl L)) := ⟨Cf.default⟩
  have h0 : 0 ≤ L.u := le_trans (by positivity) hL.u_ge
  have hu' := B.ulp_nonneg
  have ht := B.tiny_nonneg
  cases l with
  | dense d =>
    cases l' with
    | dense e =>
      cases s <;> cases s' <;> try exact hf.elim
      rename_i n units
      cases x <;> cases x' <;> first | exact h.elim | exact hx.elim | skip
      rename_i v v'
      obtain ⟨hn, hs⟩ := hf
      obtain ⟨ha, u', n', W, c, hW, hE, o1, o2, hb⟩ := ho
      obtain ⟨rfl, rfl⟩ : u' = units ∧ n' = n := by
        have := hW.1.1
        rw [hs] at this
        exact ⟨(congrArg Prod.fst this).symm, (congrArg Prod.snd this).symm⟩
      obtain ⟨f, hv⟩ := exists_range_map v
      obtain ⟨f', hv'⟩ := exists_range_map v'
      rw [show v.length = n' from hx] at hv
      rw [show v'.length = n' from hx'] at hv'
      subst hv hv'
      have hd := forall₂_range.mp h
      have wfin : F → ∀ j < u', ∀ i < n', (W j i).Finite := fun k j hj i hi => (hF k).1.1 _ (by
        rw [hW.1.2]; exact List.mem_iff_getElem?.mpr ⟨_, table_getElem? _ _ W hj hi⟩)
      have cfin : F → ∀ j < u', (c j).Finite := fun k j hj => (hF k).1.2 _ (by
        rw [hW.2.1]; exact List.mem_map.mpr ⟨j, List.mem_range.mpr hj, rfl⟩)
      have key : ∀ j, ∃ y y', j < u' → Act.activate d.func (Cf.addAssign (dotN n' (W j) f) (c j)) = some y
          ∧ Act.activate d.func ((∑ i ∈ Finset.range n', (W j i).exact * f' i) + (c j).exact) = some y'
          ∧ y.Tracks (b.size A) (b.err B (3 * L.u) A δ) y' ∧ (F → y.Finite) := by
        intro j
        by_cases hj : j < u'
        · have q := (Cf.holds_dot (F := F) (fun k i hi => wfin k j hj i hi) (fun i hi => (hd i hi).1)
            (fun k i hi => (hd i hi).2 k)).add ((Cf.holds_val fun k => cfin k j hj).weaken le_rfl le_rfl (Nat.zero_le _))
          have q2 : (Cf.addAssign (dotN n' (W j) f) (c j)).Holds F
              (((∑ i ∈ Finset.range n', (W j i).exact * f' i) + (c j).exact).toC) (b.size A)
              (b.gain * δ + b.terms * (4 * B.tiny)) b.steps := by
            rw [Cf.toC_hom_add, toC_sum]
            simp only [Cf.toC_hom_mul, Cf.exact_toC]
            refine q.weaken (add_le_add (mul_le_mul_of_nonneg_right (hb j hj).1 hA) (hb j hj).2) ?_ (by omega)
            rw [add_zero]
            refine add_le_add (mul_le_mul_of_nonneg_right (hb j hj).1 hδ)
              (mul_le_mul_of_nonneg_right ?_ (by linarith))
            exact_mod_cast o2
          have pre : F ∨ (d.func ≠ .none → (Cf.addAssign (dotN n' (W j) f) (c j)).Finite) := hp.imp_right fun hp =>
            hp _ (Dense.computeQ_is hW hn f) _ (List.mem_map.mpr ⟨j, List.mem_range.mpr hj, rfl⟩)
          obtain ⟨y, y', g⟩ := q2.activate hL hu ha pre fun k => (hF k).2
          exact ⟨y, y', fun _ => g⟩
        · exact ⟨Cf.default, 0, fun e => absurd e hj⟩
      choose y y' hy using key
      refine ⟨_, _, C38_forward_partial hW hn f y fun j hj => (hy j hj).1,
        C38_forward_exact_partial hE hn f' y' fun j hj => (hy j hj).2.1,
        forall₂_range.mpr fun j hj => (hy j hj).2.2, by simp [IOType.HasSize]⟩
    | conv e => exact ho.elim
    | reduce e => exact ho.elim
    | flatten e => exact ho.elim
  | conv d =>
    cases l' with
    | dense e => exact ho.elim
    | reduce e => exact ho.elim
    | flatten e => exact ho.elim
    | conv e =>
      cases s <;> cases s' <;> try exact hf.elim
      rename_i n r c nf r' c'
      cases x <;> cases x' <;> first | exact h.elim | exact hx.elim | skip
      rename_i v v'
      obtain ⟨hn, hnf, hs, p, q, hk, hp1, hpr, hq, hqc, rfl, rfl⟩ := hf
      obtain ⟨ha, nf', n', p', q', K, bi, hK, hE, o1, o2, hb⟩ := ho
      obtain ⟨M, hM, hMK⟩ := hK.2.2.2
      obtain ⟨rfl, rfl⟩ : nf' = nf ∧ n' = n := by
        have := hM.1
        rw [hs] at this
        exact ⟨(congrArg Prod.fst this).symm, (congrArg Prod.snd this).symm⟩
      have hmem : ∀ o < nf', ∀ ch < n', M o ch ∈ d.kernels.body := fun o h1 ch h2 => by
        rw [hM.2]; exact List.mem_iff_getElem?.mpr ⟨_, table_getElem? _ _ M h1 h2⟩
      obtain ⟨rfl, rfl⟩ : p' = p ∧ q' = q := by
        have h1 := (hMK 0 hnf 0 hn).1
        rw [hk (M 0 0) (hmem 0 hnf 0 hn)] at h1
        exact ⟨(congrArg Prod.fst h1).symm, (congrArg Prod.snd h1).symm⟩
      obtain ⟨X, hX⟩ := MapsAre.exists_of hx
      obtain ⟨X', hX'⟩ := MapsAre.exists_of hx'
      have hd := (meets_maps hX hX').mp h
      have kfin : F → ∀ o < nf', ∀ ch < n', ∀ s < p', ∀ t < q', (K o ch s t).Finite :=
        fun k o h1 ch h2 s h3 t h4 => (hF k).1.1 _ (hmem o h1 ch h2) _ (by
          rw [(hMK o h1 ch h2).2]; exact List.mem_iff_getElem?.mpr ⟨_, table_getElem? _ _ _ h3 h4⟩)
      have bfin : F → ∀ j < nf', (bi j).Finite := fun k j hj => (hF k).1.2 _ (by
        rw [hK.2.1]; exact List.mem_map.mpr ⟨j, List.mem_range.mpr hj, rfl⟩)
      have key : ∀ o i j, ∃ y y', o < nf' → i < r - p' + 1 → j < c - q' + 1 →
          Act.activate d.func (Cf.addAssign (accN n' fun ch => corr p' q' (X ch) (K o ch) i j) (bi o)) = some y
          ∧ Act.activate d.func ((bi o).exact + ∑ ch ∈ Finset.range n', ∑ s ∈ Finset.range p', ∑ t ∈ Finset.range q',
              X' ch (i + s) (j + t) * (K o ch s t).exact) = some y'
          ∧ y.Tracks (b.size A) (b.err B (3 * L.u) A δ) y' ∧ (F → y.Finite) := by
        intro o i j
        by_cases hoij : o < nf' ∧ i < r - p' + 1 ∧ j < c - q' + 1
        · obtain ⟨ho, hi, hj⟩ := hoij
          have g1 : ∀ ch < n', ∀ s < p', _ := fun ch hch s hs => Cf.holds_dot' (F := F) (n := q')
            (W := K o ch s) (x := fun t => X ch (i + s) (j + t)) (x' := fun t => (X' ch (i + s) (j + t)).toC)
            (A := A) (δ := δ) (fun k t ht => kfin k o ho ch hch s hs t ht)
            (fun t ht => (hd ch hch (i + s) (by omega) (j + t) (by omega)).1)
            (fun k t ht => (hd ch hch (i + s) (by omega) (j + t) (by omega)).2 k)
          have g2 := fun ch hch => Cf.Holds.sum (F := F) (n := p') (g1 ch hch)
          have g3 := Cf.Holds.sum (F := F) (n := n') g2
          have g4 := g3.add ((Cf.holds_val (F := F) fun k => bfin k o ho).weaken le_rfl le_rfl (Nat.zero_le _))
          have q2 : (Cf.addAssign (accN n' fun ch => corr p' q' (X ch) (K o ch) i j) (bi o)).Holds F
              (((bi o).exact + ∑ ch ∈ Finset.range n', ∑ s ∈ Finset.range p', ∑ t ∈ Finset.range q',
                X' ch (i + s) (j + t) * (K o ch s t).exact).toC) (b.size A)
              (b.gain * δ + b.terms * (4 * B.tiny)) b.steps := by
            rw [Cf.toC_hom_add, add_comm]
            simp only [toC_sum, Cf.toC_hom_mul, Cf.exact_toC]
            refine g4.weaken (add_le_add ?_ (hb o ho).2) ?_ (by omega)
            · simp only [← Finset.sum_mul]
              exact mul_le_mul_of_nonneg_right (hb o ho).1 hA
            · simp only [Finset.sum_add_distrib, ← Finset.sum_mul, Finset.sum_const, Finset.card_range, nsmul_eq_mul,
                add_zero]
              refine add_le_add (mul_le_mul_of_nonneg_right (hb o ho).1 hδ) ?_
              have : ((n' * (p' * q') : Nat) : ℝ) ≤ b.terms := by exact_mod_cast o2
              push_cast at this
              have := mul_le_mul_of_nonneg_right this (show 0 ≤ 4 * B.tiny by linarith)
              linarith
          have pre : F ∨ (d.func ≠ .none →
              (Cf.addAssign (accN n' fun ch => corr p' q' (X ch) (K o ch) i j) (bi o)).Finite) :=
            hp.imp_right fun hp => hp _ (Conv.computeQ_is hK hnf hn hp1 hpr hq hqc hX) _ (mem_cube ho hi hj)
          obtain ⟨y, y', g⟩ := q2.activate hL hu ha pre fun k => (hF k).2
          exact ⟨y, y', fun _ _ _ => g⟩
        · exact ⟨Cf.default, 0, fun h1 h2 h3 => absurd ⟨h1, h2, h3⟩ hoij⟩
      choose y y' hy using key
      obtain ⟨outs, k1, k2⟩ := C40_forward hK hnf hn hp1 hpr hq hqc hX y fun o h1 i h2 j h3 => (hy o i j h1 h2 h3).1
      obtain ⟨outs', k1', k2'⟩ := C40_forward_exact hE hnf hn hp1 hpr hq hqc hX' y'
        fun o h1 i h2 j h3 => (hy o i j h1 h2 h3).2.1
      exact ⟨_, _, k1, k1', (meets_maps k2 k2').mpr fun o h1 i h2 j h3 => (hy o i j h1 h2 h3).2.2, k2.hasSize⟩
  | reduce d =>
    cases l' with
    | dense e => exact ho.elim
    | conv e => exact ho.elim
    | flatten e => exact ho.elim
    | reduce e =>
      cases s <;> cases s' <;> try exact hf.elim
      cases x <;> cases x' <;> first | exact h.elim | exact hx.elim | skip
      rename_i v v'
      obtain ⟨rfl, -, hr, hc, hp1, hq, rfl, rfl⟩ := hf
      obtain ⟨X, hX⟩ := MapsAre.exists_of hx
      obtain ⟨X', hX'⟩ := MapsAre.exists_of hx'
      have hd := (meets_maps hX hX').mp h
      rename_i n r' c'
      have key : ∀ ch i j, ∃ y y', ch < n → i < r' → j < c' →
          d.blockFunc (table d.blockSize.1 d.blockSize.2 fun a b => X ch (i * d.blockSize.1 + a) (j * d.blockSize.2 + b)) = some y
          ∧ e.blockFunc (table d.blockSize.1 d.blockSize.2 fun a b => X' ch (i * d.blockSize.1 + a) (j * d.blockSize.2 + b)) = some y'
          ∧ y.Tracks (b.size A) (b.err B (3 * L.u) A δ) y' ∧ (F → y.Finite) := by
        intro ch i j
        by_cases hc : ch < n ∧ i < r' ∧ j < c'
        · have hin : ∀ a < d.blockSize.1, ∀ b < d.blockSize.2, _ := fun a ha b hb =>
            hd ch hc.1 (i * d.blockSize.1 + a) (by nlinarith [hc.2.1]) (j * d.blockSize.2 + b) (by nlinarith [hc.2.2])
          obtain ⟨y, y', h1, h2, h3, h4⟩ := ho.2 A δ _ _ hA hδ (table_length _ _ _)
            (forall₂_table.mpr fun a ha b hb => (hin a ha b hb).1)
          refine ⟨y, y', fun _ _ _ => ⟨h1, h2, ?_, fun k => h4 ?_ (hF k).2⟩⟩
          · obtain ⟨a1, a2, a3⟩ := Cf.tracks_iff.mp h3
            refine Cf.tracks_iff.mpr ⟨a1, ?_, fun hy => (a3 hy).trans ?_⟩
            · unfold Bounds.err at a2 ⊢; linarith
            · unfold Bounds.err; linarith
          · intro z hz
            simp only [table, List.mem_flatMap, List.mem_map, List.mem_range] at hz
            obtain ⟨a, ha, b, hb, rfl⟩ := hz
            exact (hin a ha b hb).2 k
        · exact ⟨Cf.default, 0, fun h1 h2 h3 => absurd ⟨h1, h2, h3⟩ hc⟩
      choose y y' hy using key
      obtain ⟨outs, k1, k2⟩ := C41_reduce (l := d) rfl hp1 hq hr hc hX (Y := y)
        fun ch h1 i h2 j h3 => (hy ch i j h1 h2 h3).1
      obtain ⟨outs', k1', k2'⟩ := C41_reduce (l := e) ho.1.symm hp1 hq hr hc hX' (Y := y')
        fun ch h1 i h2 j h3 => (hy ch i j h1 h2 h3).2.1
      exact ⟨_, _, k1, k1', (meets_maps k2 k2').mpr fun ch h1 i h2 j h3 => (hy ch i j h1 h2 h3).2.2, k2.hasSize⟩
  | flatten d =>
    cases l' with
    | dense e => exact ho.elim
    | conv e => exact ho.elim
    | reduce e => exact ho.elim
    | flatten e =>
      cases s <;> cases s' <;> try exact hf.elim
      cases x <;> cases x' <;> first | exact h.elim | exact hx.elim | skip
      rename_i v v'
      obtain ⟨y, h1, h2⟩ := Layer.forward_fits (l := .flatten d) trivial trivial (s := .maps _ _ _) (s' := .vec _) hf hx
      refine ⟨_, _, rfl, rfl, ?_, ?_⟩
      · have h3 : List.Forall₂ (fun z v => Cf.Tracks A δ z v ∧ (F → z.Finite)) (v.flatMap Mat.getBody) (v'.flatMap Mat.getBody) := by
          clear hx hx' h1 h2 hp hF
          change List.Forall₂ (fun m m' => m.shape = m'.shape ∧ List.Forall₂ _ m.body m'.body) v v' at h
          induction h with
          | nil => exact .nil
          | cons e _ ih =>
            rw [List.flatMap_cons, List.flatMap_cons]
            exact List.rel_append e.2 ih
        have hg : A ≤ b.size A := by
          unfold Bounds.size; nlinarith [ho.1, ho.2]
        have hg' : δ ≤ b.gain * δ := by nlinarith [ho.1]
        have hp := one_le_pow₀ (n := b.steps) (show 1 ≤ 1 + B.ulp by linarith)
        have ht' : 0 ≤ (b.terms : ℝ) * (4 * B.tiny) := by positivity
        have he : δ ≤ b.err B (3 * L.u) A δ := by
          unfold Bounds.err Bounds.peak
          nlinarith
        refine h3.imp fun z x hzx => ⟨?_, hzx.2⟩
        obtain ⟨a1, a2, a3⟩ := Cf.tracks_iff.mp hzx.1
        exact Cf.tracks_iff.mpr ⟨a1.trans hg, a2.trans he, fun hz => (a3 hz).trans he⟩
      · cases h1
        exact h2

end

/-! ## Networks -/

/-- No intermediate result of any layer can overflow. -/
def SafeChain (B : Binary) (ε : ℝ) : List Bounds → ℝ → ℝ → Prop
  | [], _, _ => True
  | b :: bs, A, δ => b.Safe B A δ ∧ SafeChain B ε bs (b.size A) (b.err B ε A δ)

theorem IOType.Meets.imp {α β : Type} {S T : α → β → Prop} (h : ∀ a b, S a b → T a b) {x : IOType α} {y : IOType β}
    (hx : x.Meets S y) : x.Meets T y := by
  cases x <;> cases y <;> first | exact hx.elim | skip
  · exact List.Forall₂.imp h hx
  · exact List.Forall₂.imp (fun m m' (hm : _ ∧ _) => ⟨hm.1, List.Forall₂.imp h hm.2⟩) hx

theorem Bounds.nonneg {b : Bounds} (h : 0 ≤ b.gain ∧ 0 ≤ b.bias) {A δ ε : ℝ} (hA : 0 ≤ A) (hδ : 0 ≤ δ) (hε : 0 ≤ ε) :
    0 ≤ b.size A ∧ 0 ≤ b.err B ε A δ := by
  obtain ⟨h1, h2⟩ := h
  have hu := B.ulp_nonneg
  have ht := B.tiny_nonneg
  have h3 : 0 ≤ b.size A := by unfold Bounds.size; positivity
  refine ⟨h3, ?_⟩
  unfold Bounds.err Bounds.peak
  have h4 := one_le_pow₀ (n := b.steps) (show 1 ≤ 1 + B.ulp by linarith)
  have h5 : 0 ≤ b.gain * δ + b.terms * (4 * B.tiny) := by positivity
  nlinarith

theorem net_key {F : Prop} (hL : L.Accurate) (hu : L.u ≤ 1) {bs : List Bounds} {ls : List (Layer (Cf w (Fl L)))}
    {ls' : List (Layer (Cf w ℝ))} (ho : ObeyChain bs ls ls') (hb : ∀ b ∈ bs, 0 ≤ b.gain ∧ 0 ≤ b.bias)
    {s s' : Size} (hf : FitsChain ls s s')
    {x : IOType (Cf w (Fl L))} {x' : IOType (Cf w ℝ)} (hx : x.HasSize s) {A δ : ℝ} (hA : 0 ≤ A) (hδ : 0 ≤ δ)
    (h : x.Meets (fun z v => z.Tracks A δ v ∧ (F → z.Finite)) x')
    (hp : F ∨ PreChain (fun f z => f ≠ .none → z.Finite) ls x)
    (hF : F → (∀ l ∈ ls, l.AllParams Cf.Finite) ∧ SafeChain B (3 * L.u) bs A δ) :
    ∃ ys ys' y y', Chain ls x ys ∧ Chain ls' x' ys' ∧ (x :: ys).getLast? = some y ∧ (x' :: ys').getLast? = some y'
      ∧ y.Meets (fun z v => z.Tracks (errs B (3 * L.u) bs A δ).1 (errs B (3 * L.u) bs A δ).2 v ∧ (F → z.Finite)) y' := by
  induction hf generalizing bs ls' x x' A δ with
  | nil s =>
    cases bs <;> cases ls' <;> try exact ho.elim
    exact ⟨[], [], x, x', .nil x, .nil x', rfl, rfl, h⟩
  | @cons l ls s s₁ s' hl t ih =>
    cases bs <;> cases ls' <;> try exact ho.elim
    rename_i b bs l' ls'
    obtain ⟨y, y', k1, k2, k3, k4⟩ := layer_key hL hu ho.1 hl hx hA hδ h (hp.imp_right fun k => k.1)
      fun k => ⟨(hF k).1 l (by simp), (hF k).2.1⟩
    have hnn := Bounds.nonneg (B := B) (hb b (by simp)) hA hδ (show 0 ≤ 3 * L.u by
      have : 0 ≤ L.u := le_trans (by positivity) hL.u_ge
      linarith)
    obtain ⟨ys, ys', z, z', a1, a2, a3, a4, a5⟩ := ih ho.2 (fun c hc => hb c (by simp [hc])) k4 hnn.1 hnn.2 k3
      (hp.imp_right fun k => k.2 y (by rw [Net.fwd, k1]; rfl))
      fun k => ⟨fun m hm => (hF k).1 m (by simp [hm]), (hF k).2.2⟩
    exact ⟨y :: ys, y' :: ys', z, z', .cons k1 a1, .cons k2 a2, by rw [List.getLast?_cons_cons]; exact a3,
      by rw [List.getLast?_cons_cons]; exact a4, a5⟩

theorem forward_of_chain {α P : Type} [CplxOps α P] {n : Net α} (hn : n.layers ≠ []) {x y : IOType α}
    {ys : List (IOType α)} (h1 : Chain n.layers x ys) (h3 : (x :: ys).getLast? = some y) :
    n.forward x = some (.ok y) := by
  refine (C44_forward n hn x _).mpr ⟨ys, y, h1, ?_, rfl⟩
  have := h1.length
  cases ys with
  | nil => exact absurd (List.length_eq_zero_iff.mp this.symm) hn
  | cons a ys => rw [List.getLast?_cons_cons] at h3; exact h3

theorem ObeyChain.ne_nil {bs : List Bounds} {ls : List (Layer (Cf w (Fl L)))} {ls' : List (Layer (Cf w ℝ))}
    (h : ObeyChain bs ls ls') (hl : ls ≠ []) : ls' ≠ [] := by
  cases bs <;> cases ls <;> cases ls' <;> first | exact h.elim | exact absurd rfl hl | exact List.cons_ne_nil _ _

/-- C90. A network in `f32` or `f64` returns what the same network returns in exact arithmetic, up to an error
computed from the weights layer by layer; unless a sum overflows, before an activation or at the end. -/
theorem C90_network (hL : L.Accurate) (hu : L.u ≤ 1) {n : Net (Cf w (Fl L))} {n' : Net (Cf w ℝ)} (hn : n.layers ≠ [])
    {bs : List Bounds} (ho : ObeyChain bs n.layers n'.layers) (hb : ∀ b ∈ bs, 0 ≤ b.gain ∧ 0 ≤ b.bias)
    {s s' : Size} (hf : FitsChain n.layers s s') {x : IOType (Cf w (Fl L))} {x' : IOType (Cf w ℝ)} (hx : x.HasSize s)
    {A δ : ℝ} (hA : 0 ≤ A) (hδ : 0 ≤ δ) (h : x.Meets (Cf.Tracks A δ) x')
    (hp : PreChain (fun f z => f ≠ .none → z.Finite) n.layers x) :
    ∃ y y', n.forward x = some (.ok y) ∧ n'.forward x' = some (.ok y')
      ∧ y.Meets (Cf.Tracks (errs B (3 * L.u) bs A δ).1 (errs B (3 * L.u) bs A δ).2) y' := by
  obtain ⟨ys, ys', y, y', h1, h2, h3, h4, h5⟩ := net_key (F := False) hL hu ho hb hf hx hA hδ
    (h.imp fun _ _ h => ⟨h, False.elim⟩) (.inr hp) False.elim
  exact ⟨y, y', forward_of_chain hn h1 h3, forward_of_chain (ho.ne_nil hn) h2 h4, h5.imp fun _ _ h => h.1⟩

/-- C90. If the weights and inputs are finite and the bounds stay below half the overflow threshold, nothing
overflows. -/
theorem C90_safe (hL : L.Accurate) (hu : L.u ≤ 1) {n : Net (Cf w (Fl L))} {n' : Net (Cf w ℝ)} (hn : n.layers ≠ [])
    {bs : List Bounds} (ho : ObeyChain bs n.layers n'.layers) (hb : ∀ b ∈ bs, 0 ≤ b.gain ∧ 0 ≤ b.bias)
    {s s' : Size} (hf : FitsChain n.layers s s') {x : IOType (Cf w (Fl L))} {x' : IOType (Cf w ℝ)} (hx : x.HasSize s)
    {A δ : ℝ} (hA : 0 ≤ A) (hδ : 0 ≤ δ) (h : x.Meets (fun z v => z.Finite ∧ ‖v.toC‖ ≤ A ∧ ‖z.val - v.toC‖ ≤ δ) x')
    (hl : ∀ l ∈ n.layers, l.AllParams Cf.Finite) (hs : SafeChain B (3 * L.u) bs A δ) :
    ∃ y y', n.forward x = some (.ok y) ∧ n'.forward x' = some (.ok y')
      ∧ y.Meets (fun z v => z.Finite ∧ ‖z.val - v.toC‖ ≤ (errs B (3 * L.u) bs A δ).2) y' := by
  obtain ⟨ys, ys', y, y', h1, h2, h3, h4, h5⟩ := net_key (F := True) hL hu ho hb hf hx hA hδ
    (h.imp fun _ _ h => ⟨Cf.tracks_iff.mpr ⟨h.2.1, hδ, fun _ => h.2.2⟩, fun _ => h.1⟩) (.inl trivial) fun _ => ⟨hl, hs⟩
  refine ⟨y, y', forward_of_chain hn h1 h3, forward_of_chain (ho.ne_nil hn) h2 h4, h5.imp fun z v h => ?_⟩
  exact ⟨h.2 trivial, (Cf.tracks_iff.mp h.1).2.2 (h.2 trivial)⟩

/-! ## Mean pooling -/

theorem Fl.ofNat_spec {n : Nat} (h : n ≤ 2 ^ B.p) :
    (Scalar.ofNat n : Fl L).fp.Finite ∧ (Scalar.ofNat n : Fl L).fp.val = n := by
  have := C84_integers (B := B) (n := (n : Int)) (by rw [Nat.abs_cast]; exact_mod_cast h)
  exact_mod_cast this

theorem mean_num {N P u t T q : ℝ} (hN : 1 ≤ N) (hP : 0 ≤ P) (hu : 0 ≤ u) (ht : 0 ≤ t) (hq : 1 + u ≤ q)
    (h : (N * N + 2) * (q * P + 4 * t * (N * N + 1)) ≤ T) : (1 + u) * (N * (N * P)) + t ≤ T ∧ N * P ≤ T := by
  have h1 : 0 ≤ N * P := by positivity
  have h2 : 0 ≤ N * (N * P) := by positivity
  have e1 : (1 + u) * (N * (N * P)) ≤ q * (N * (N * P)) := mul_le_mul_of_nonneg_right hq h2
  have e2 : 0 ≤ q * P := mul_nonneg (by linarith) hP
  have e3 : t ≤ (N * N + 2) * (4 * t * (N * N + 1)) := by
    have : 0 ≤ N * N := by positivity
    nlinarith [mul_nonneg this ht, mul_nonneg (mul_nonneg this this) ht]
  have big : (1 + u) * (N * (N * P)) + t ≤ T := by nlinarith
  refine ⟨big, ?_⟩
  have : N * P ≤ N * (N * P) := le_mul_of_one_le_left h1 hN
  nlinarith [mul_nonneg hu h2]

/-- A sum with a zero and a quotient by a number not below one stay below the threshold. -/
theorem Fp.zero_steps {a c d : Fp B} (ha : a.Finite) (hc : c.Finite) (hd : d.Finite) (hle : |a.val| ≤ B.top / 2)
    (h0 : c.val = 0) (h1 : 1 ≤ d.val) : ((a.add c).div d).Finite ∧ ((a.sub c).div d).Finite := by
  have h5 := Fp.add_spec ha hc (B.near_half (by rw [h0, add_zero]; exact hle))
  have h6 := Fp.sub_spec ha hc (B.near_half (by rw [h0, sub_zero]; exact hle))
  rw [h0, add_zero, B.round_val ha] at h5
  rw [h0, sub_zero, B.round_val ha] at h6
  have key : ∀ {e : Fp B}, e.Finite → e.val = a.val → (e.div d).Finite := by
    intro e he hv
    refine (Fp.div_spec he hd (by linarith) (B.near_half ?_)).1
    rw [hv, abs_div, abs_of_nonneg (by linarith : 0 ≤ d.val)]
    exact (div_le_self (abs_nonneg _) h1).trans hle
  exact ⟨key h5.1 h5.2, key h6.1 h6.2⟩

theorem Fp.times_zero {a c : Fp B} (ha : a.Finite) (hc : c.Finite) (h0 : c.val = 0) :
    (a.mul c).Finite ∧ (a.mul c).val = 0 := by
  have hlt : B.near |a.val * c.val| < B.top := by
    rw [h0, mul_zero, abs_zero, B.near_zero]; exact Fp.top_pos
  refine ⟨(Fp.mul_spec ha hc hlt).1, (Fp.mul_spec ha hc hlt).2.trans ?_⟩
  rw [h0, mul_zero, B.round_zero]

theorem Fp.times_small {a d : Fp B} {c M : ℝ} (ha : a.Finite) (hd : d.Finite) (h0 : |d.val| = c) (hle : |a.val| ≤ M)
    (h : (1 + B.ulp) * (c * M) + B.tiny ≤ B.top / 2) : (a.mul d).Finite ∧ |(a.mul d).val| ≤ B.top / 2 := by
  have hu := B.ulp_nonneg
  have ht := B.tiny_nonneg
  have hc : 0 ≤ c := by rw [← h0]; exact abs_nonneg _
  have h5 : |a.val * d.val| ≤ c * M := by
    rw [abs_mul, h0, mul_comm]
    exact mul_le_mul_of_nonneg_left hle hc
  have h4 : 0 ≤ B.ulp * (c * M) := mul_nonneg hu ((abs_nonneg _).trans h5)
  have h6 := Fp.mul_spec ha hd (B.near_half (h5.trans (by linarith)))
  refine ⟨h6.1, le_trans ?_ h⟩
  have h7 := (Fp.mul_err h6.1).2.2
  have h8 := abs_sub_abs_le_abs_sub (a.mul d).val (a.val * d.val)
  have h9 := mul_le_mul_of_nonneg_left h5 hu
  linarith

/-- C90. Mean pooling has such bounds. -/
theorem C90_mean {d : Reduce (Cf w (Fl L))} {e : Reduce (Cf w ℝ)} (hd : d.blockFunc = meanBlock)
    (he : e.blockFunc = meanBlock) (hs : d.blockSize = e.blockSize) (hu : B.ulp ≤ 1 / 64) {n : Nat}
    (hn : d.blockSize.1 * d.blockSize.2 = n) (h0 : 0 < n) (h2 : n * n ≤ 2 ^ B.p) :
    (Layer.reduce d).Obeys ⟨1, 0, n + 10, n * n + 1⟩ (.reduce e) := by
  refine ⟨hs, fun A δ u v hA hδ hlen h => ?_⟩
  rw [hd, he]
  rw [hn] at hlen
  have hu0 := B.ulp_nonneg
  have ht := B.tiny_nonneg
  have hn1 : Nonempty (Cf w ℝ) := ⟨0⟩
  have hn2 : Nonempty (Cf w (Fl L)) := ⟨Cf.default⟩
  obtain ⟨f, hf⟩ := exists_range_map u
  obtain ⟨g, hg⟩ := exists_range_map v
  rw [← h.length_eq] at hg
  rw [hlen] at hf hg
  subst hf hg
  have hN : (0 : ℝ) < n := by exact_mod_cast h0
  have hN1 : (1 : ℝ) ≤ n := by exact_mod_cast h0
  have htr := forall₂_range.mp h
  -- the sum
  set F : Prop := ∀ z ∈ (List.range n).map f, z.Finite with hF
  have hsum := Cf.Holds.sum (F := F) (n := n) (j := 0) (z := f) (x := fun i => (g i).toC) (m := fun _ => A)
    (t := fun _ => δ) fun i hi => ⟨htr i hi, fun k _ => k _ (List.mem_map.mpr ⟨i, List.mem_range.mpr hi, rfl⟩)⟩
  simp only [Finset.sum_const, Finset.card_range, nsmul_eq_mul, zero_add] at hsum
  obtain ⟨y', h1', e1'⟩ := meanBlock_eq ((List.range n).map g) (by simp; omega)
  set S := (List.range n).foldl (fun acc b => Cf.add acc (f b)) Cf.default with hS
  set X := ∑ i ∈ Finset.range n, (g i).toC with hX
  have e2 : y'.toC = X / n := by
    rw [e1', List.map_map, List.length_map, List.length_range, ← Multiset.sum_coe]
    rfl
  -- the divisor
  obtain ⟨c1, c2⟩ := Fl.ofNat_spec (L := L) (n := n) (by nlinarith)
  obtain ⟨z1, z2⟩ := Fl.zero_finite (L := L)
  set b : Cf w (Fl L) := Cf.new (Scalar.ofNat n) Scalar.zero with hb
  have hbv : b.val = (n : ℂ) := Complex.ext (by rw [Complex.natCast_re]; exact c2) (by rw [Complex.natCast_im]; exact z2)
  have sq1 : ((Scalar.ofNat n : Fl L).fp.mul (Scalar.ofNat n : Fl L).fp).Finite
      ∧ ((Scalar.ofNat n : Fl L).fp.mul (Scalar.ofNat n : Fl L).fp).val = ((n * n : Nat) : ℝ) := by
    have e : |(Scalar.ofNat n : Fl L).fp.val * (Scalar.ofNat n : Fl L).fp.val| = ((n * n : Nat) : ℝ) := by
      rw [c2, abs_of_nonneg (by positivity)]; push_cast; rfl
    have hlt : B.near |(Scalar.ofNat n : Fl L).fp.val * (Scalar.ofNat n : Fl L).fp.val| < B.top := by
      rw [e]
      exact B.near_lt_top (by positivity) (by rw [zpow_natCast]; exact_mod_cast h2)
    refine ⟨(Fp.mul_spec c1 c1 hlt).1, (Fp.mul_spec c1 c1 hlt).2.trans ?_⟩
    rw [c2, B.round_of_nonneg (by positivity), ← B.near_natCast h2]
    push_cast
    rfl
  have sq2 := Fp.times_zero z1 z1 z2
  have den : b.den.fp.Finite ∧ b.den.fp.val = ((n * n : Nat) : ℝ) := by
    have e : ((Scalar.ofNat n : Fl L).fp.mul (Scalar.ofNat n : Fl L).fp).val
        + ((Scalar.zero : Fl L).fp.mul (Scalar.zero : Fl L).fp).val = ((n * n : Nat) : ℝ) := by rw [sq1.2, sq2.2, add_zero]
    have hlt : B.near |((Scalar.ofNat n : Fl L).fp.mul (Scalar.ofNat n : Fl L).fp).val
        + ((Scalar.zero : Fl L).fp.mul (Scalar.zero : Fl L).fp).val| < B.top := by
      rw [e, abs_of_nonneg (by positivity)]
      exact B.near_lt_top (by positivity) (by rw [zpow_natCast]; exact_mod_cast h2)
    refine ⟨(Fp.add_spec sq1.1 sq2.1 hlt).1, (Fp.add_spec sq1.1 sq2.1 hlt).2.trans ?_⟩
    rw [e, B.round_of_nonneg (by positivity), B.near_natCast h2]
  have nn : (0 : ℝ) < ((n * n : Nat) : ℝ) := by exact_mod_cast Nat.mul_pos h0 h0
  have hq : meanBlock ((List.range n).map f) = some ⟨Scalar.div (Scalar.add (Scalar.mul S.x b.x) (Scalar.mul S.y b.y)) b.den,
      Scalar.div (Scalar.sub (Scalar.mul S.y b.x) (Scalar.mul S.x b.y)) b.den⟩ := by
    unfold meanBlock Cf.div
    rw [List.foldl_map, List.length_map, List.length_range, if_neg]
    intro k
    have := (Fp.beq_spec den.1 z1).mp k
    rw [den.2, z2] at this
    exact nn.ne' this
  set q : Cf w (Fl L) := ⟨Scalar.div (Scalar.add (Scalar.mul S.x b.x) (Scalar.mul S.y b.y)) b.den,
      Scalar.div (Scalar.sub (Scalar.mul S.y b.x) (Scalar.mul S.x b.y)) b.den⟩ with hqd
  have hdiv : Cf.div S b = some q := by
    have := hq
    unfold meanBlock at this
    rw [List.foldl_map, List.length_map, List.length_range] at this
    exact this
  set P := (1 + B.ulp) ^ n * (A + δ) with hP
  have hP0 : 0 ≤ P := by positivity
  have eP : (1 + B.ulp) ^ n * (n * A + n * δ) = n * P := by rw [hP]; ring
  have hPk : (1 + B.ulp) ^ 10 * P + 4 * B.tiny * (n * n + 1)
      ≤ (⟨1, 0, n + 10, n * n + 1⟩ : Bounds).peak B A δ := by
    unfold Bounds.peak Bounds.size
    have h3 : (1 : ℝ) ≤ (1 + B.ulp) ^ (n + 10) := one_le_pow₀ (by linarith)
    have h4 : (1 + B.ulp) ^ 10 * P = (1 + B.ulp) ^ (n + 10) * (A + δ) := by rw [hP, pow_add]; ring
    rw [h4]
    push_cast
    have h5 : 0 ≤ ((n : ℝ) * n + 1) * (4 * B.tiny) := by positivity
    nlinarith
  have ber : 1 + (10 : ℕ) * B.ulp ≤ (1 + B.ulp) ^ 10 := one_add_mul_le_pow (by linarith) 10
  push_cast at ber
  have berP := mul_le_mul_of_nonneg_right ber hP0
  have nsq : (1 : ℝ) ≤ n * n := by nlinarith
  refine ⟨q, y', hq, h1', Cf.tracks_iff.mpr ⟨?_, ?_, fun hqf => ?_⟩, fun hfin hsafe => ?_⟩
  · rw [e2, norm_div, Complex.norm_natCast, div_le_iff₀ hN]
    refine hsum.1.1.trans (le_of_eq ?_)
    unfold Bounds.size
    ring
  · exact (Bounds.nonneg (B := B) (b := ⟨1, 0, n + 10, n * n + 1⟩) ⟨zero_le_one, le_rfl⟩ hA hδ le_rfl).2
  · have hSf : S.Finite := by
      obtain ⟨a1, -, -⟩ := Fp.div_err den.1 hqf.1
      obtain ⟨a2, a3, -⟩ := Fp.add_err a1
      exact ⟨(Fp.mul_err a2).1, (Fp.mul_err a3).1⟩
    have hkp : (2 : ℝ) ^ (B.kmin + B.p - 1) ≤ ‖b.val‖ ^ 2 := by
      rw [hbv, Complex.norm_natCast]
      have h3 := B.small
      have h4 := B.digits
      calc (2 : ℝ) ^ (B.kmin + B.p - 1) ≤ 2 ^ (0 : ℤ) := zpow_le_zpow_right₀ one_le_two (by omega)
        _ = 1 := zpow_zero _
        _ ≤ (n : ℝ) ^ 2 := one_le_pow₀ hN1
    have k1 := C89_div hu hdiv hqf den.1 hkp
    rw [hbv, norm_div, Complex.norm_natCast] at k1
    have k2 := hsum.1.2.2 hSf
    have k3 := hsum.1.norm_le hSf
    rw [eP] at k2 k3
    have k4 : ‖S.val‖ / n ≤ P := by rw [div_le_iff₀ hN, mul_comm]; exact k3
    have k5 : ‖S.val / n - X / n‖ ≤ P - A := by
      rw [← sub_div, norm_div, Complex.norm_natCast, div_le_iff₀ hN]
      linarith
    have k6 : (5 : ℝ) / n ^ 2 ≤ 5 := by
      rw [div_le_iff₀ (by positivity)]
      nlinarith
    have k7 := norm_sub_le_norm_sub_add_norm_sub q.val (S.val / n) (X / n)
    have k8 : (5 / (n : ℝ) ^ 2 + 2) * B.tiny ≤ 7 * B.tiny := mul_le_mul_of_nonneg_right (by linarith) ht
    have k9 := mul_le_mul_of_nonneg_left k4 (show 0 ≤ 10 * B.ulp by linarith)
    have k10 : 8 * B.tiny ≤ 4 * B.tiny * (n * n + 1) := by nlinarith
    rw [e2]
    have es : (⟨1, 0, n + 10, n * n + 1⟩ : Bounds).size A = A := by unfold Bounds.size; ring
    unfold Bounds.err
    rw [es]
    linarith
  · have hpk0 : 0 ≤ (⟨1, 0, n + 10, n * n + 1⟩ : Bounds).peak B A δ := le_trans (by positivity) hPk
    have hsafe' : (n * n + 2 : ℝ) * ((1 + B.ulp) ^ 10 * P + 4 * B.tiny * (n * n + 1)) ≤ B.top / 2 := by
      unfold Bounds.Safe at hsafe
      push_cast at hsafe
      refine le_trans (mul_le_mul_of_nonneg_left hPk (by positivity)) (le_trans (le_of_eq ?_) hsafe)
      ring
    have one10 : 1 + B.ulp ≤ (1 + B.ulp) ^ 10 := by
      have := pow_le_pow_right₀ (show 1 ≤ 1 + B.ulp by linarith) (show 1 ≤ 10 by norm_num)
      rwa [pow_one] at this
    obtain ⟨hbig, hnP⟩ := mean_num hN1 hP0 hu0 ht one10 hsafe'
    have hSf : S.Finite := hsum.2 hfin (by rw [eP]; exact hnP)
    have k3 := hsum.1.norm_le hSf
    rw [eP] at k3
    -- products by the number of entries and by zero
    have pn := fun {a : Fp B} (ha : a.Finite) (hle : |a.val| ≤ n * P) =>
      Fp.times_small ha c1 (c := n) (M := n * P) (by rw [c2, Nat.abs_cast]) hle hbig
    have pz := fun {a : Fp B} (ha : a.Finite) => Fp.times_zero ha z1 z2
    obtain ⟨m1, m2⟩ := pn hSf.1 ((Complex.abs_re_le_norm S.val).trans k3)
    obtain ⟨m3, m4⟩ := pn hSf.2 ((Complex.abs_im_le_norm S.val).trans k3)
    obtain ⟨m5, m6⟩ := pz hSf.1
    obtain ⟨m7, m8⟩ := pz hSf.2
    have d1 : 1 ≤ b.den.fp.val := by rw [den.2]; push_cast; exact nsq
    exact ⟨(Fp.zero_steps m1 m7 den.1 m2 m8 d1).1, (Fp.zero_steps m3 m5 den.1 m4 m6 d1).2⟩

/-! ## Every network has bounds -/

/-- Dense and convolutional layers as the constructors build them, with activation `None`, `RITTanh` or `RITReLU`;
mean pooling of blocks of at most `2^(p/2)` entries; flatten. -/
def Layer.Plain (B : Binary) : Layer (Cf w (Fl L)) → Prop
  | .dense d => (Layer.dense d).WF ∧ d.func.Short
  | .conv d => (Layer.conv d).WF ∧ d.func.Short ∧ ∃ p q, ∀ k ∈ d.kernels.body, k.shape = (p, q)
  | .reduce d => d.blockFunc = meanBlock ∧ 0 < d.blockSize.1 * d.blockSize.2
      ∧ (d.blockSize.1 * d.blockSize.2) * (d.blockSize.1 * d.blockSize.2) ≤ 2 ^ B.p
  | .flatten _ => True

theorem exists_sum_bound (n : Nat) (f : Nat → ℝ) (h : ∀ i, 0 ≤ f i) : ∃ c : ℝ, 0 ≤ c ∧ ∀ i < n, f i ≤ c :=
  ⟨∑ i ∈ Finset.range n, f i, Finset.sum_nonneg fun i _ => h i,
    fun i hi => Finset.single_le_sum (f := f) (fun i _ => h i) (Finset.mem_range.mpr hi)⟩

/-- C90. Every network of such layers has an exact counterpart and bounds. -/
theorem C90_exists (hu : B.ulp ≤ 1 / 64) (ls : List (Layer (Cf w (Fl L)))) (h : ∀ l ∈ ls, l.Plain B) :
    ∃ ls' bs, ObeyChain bs ls ls' ∧ ∀ b ∈ bs, 0 ≤ b.gain ∧ 0 ≤ b.bias := by
  have hn2 : Nonempty (Cf w (Fl L)) := ⟨Cf.default⟩
  have one : ∀ l : Layer (Cf w (Fl L)), l.Plain B → ∃ l' b, l.Obeys b l' ∧ 0 ≤ b.gain ∧ 0 ≤ b.bias := by
    intro l hl
    cases l with
    | dense d =>
      obtain ⟨W, c, hd⟩ := Dense.exists_is hl.1
      obtain ⟨G, g1, g2⟩ := exists_sum_bound d.weights.shape.1 (fun j => ∑ i ∈ Finset.range d.weights.shape.2, ‖(W j i).val‖)
        fun _ => Finset.sum_nonneg fun _ _ => norm_nonneg _
      obtain ⟨β, b1, b2⟩ := exists_sum_bound d.weights.shape.1 (fun j => ‖(c j).val‖) fun _ => norm_nonneg _
      exact ⟨.dense ⟨Mat.fromBody (table _ _ fun j i => (W j i).exact) (_, _), (List.range _).map fun j => (c j).exact, d.func⟩,
        ⟨G, β, d.weights.shape.2 + 4, d.weights.shape.2⟩,
        ⟨hl.2, _, _, W, c, hd, ⟨Mat.fromBody_is _ _ _, rfl, rfl⟩, le_rfl, le_rfl, fun j hj => ⟨g2 j hj, b2 j hj⟩⟩, g1, b1⟩
    | conv d =>
      obtain ⟨p, q, hs⟩ := hl.2.2
      obtain ⟨K, c, hd⟩ := Conv.exists_is hl.1 hs
      set nf := d.kernels.shape.1
      set n := d.kernels.shape.2
      obtain ⟨G, g1, g2⟩ := exists_sum_bound nf (fun o => ∑ ch ∈ Finset.range n, ∑ s ∈ Finset.range p,
        ∑ t ∈ Finset.range q, ‖(K o ch s t).val‖)
        fun _ => Finset.sum_nonneg fun _ _ => Finset.sum_nonneg fun _ _ => Finset.sum_nonneg fun _ _ => norm_nonneg _
      obtain ⟨β, b1, b2⟩ := exists_sum_bound nf (fun j => ‖(c j).val‖) fun _ => norm_nonneg _
      exact ⟨.conv ⟨n, Mat.fromBody (table nf n fun o ch => Mat.fromBody (table p q fun s t => (K o ch s t).exact) (p, q)) (nf, n),
          (List.range nf).map fun j => (c j).exact, d.func⟩,
        ⟨G, β, n + p + q + 4, n * (p * q)⟩,
        ⟨hl.2.1, nf, n, p, q, K, c, hd, ⟨rfl, rfl, rfl, _, Mat.fromBody_is _ _ _, fun _ _ _ _ => Mat.fromBody_is _ _ _⟩,
          le_rfl, le_rfl, fun j hj => ⟨g2 j hj, b2 j hj⟩⟩, g1, b1⟩
    | reduce d =>
      exact ⟨.reduce ⟨d.inputFeaturesLen, d.blockSize, meanBlock, Mat.fromBody [] (0, 0)⟩, _,
        C90_mean hl.1 rfl rfl hu rfl hl.2.1 hl.2.2, zero_le_one, le_rfl⟩
    | flatten d => exact ⟨.flatten d, ⟨1, 0, 0, 0⟩, ⟨le_rfl, le_rfl⟩, zero_le_one, le_rfl⟩
  induction ls with
  | nil => exact ⟨[], [], trivial, fun _ h => absurd h (by simp)⟩
  | cons l ls ih =>
    obtain ⟨l', b, h1, h2⟩ := one l (h l (by simp))
    obtain ⟨ls', bs, h3, h4⟩ := ih fun m hm => h m (by simp [hm])
    refine ⟨l' :: ls', b :: bs, ⟨h1, h3⟩, fun c hc => ?_⟩
    rcases List.mem_cons.mp hc with rfl | hc
    · exact h2
    · exact h4 c hc

/-- A network C90 speaks about: one dense unit with weight and bias one in `f32`, inputs up to 1000. -/
example (L : Libm binary32) : ∃ ls' bs, ObeyChain bs
    [Layer.dense ⟨Mat.fromBody [(Cf.unit : Cf .w32 (Fl L))] (1, 1), [Cf.unit], .ritReLU⟩] ls'
    ∧ (∀ b ∈ bs, 0 ≤ b.gain ∧ 0 ≤ b.bias) :=
  C90_exists (by change (2 : ℝ) ^ (-((24 : Nat) : ℤ)) ≤ _; norm_num) _ fun l hl => by
    rw [List.mem_singleton.mp hl]
    exact ⟨⟨rfl, rfl⟩, .inr (.inr rfl)⟩

example : SafeChain binary32 (3 * (1 / 4)) [⟨1, 1, 5, 1⟩] 1000 0 := by
  refine ⟨?_, trivial⟩
  have h1 : binary32.ulp ≤ 1 := by change (2 : ℝ) ^ (-((24 : Nat) : ℤ)) ≤ _; norm_num
  have h0 := binary32.ulp_nonneg
  have t0 := binary32.tiny_nonneg
  have h2 : binary32.tiny ≤ 1 := by
    change (2 : ℝ) ^ (-149 - 1 : ℤ) ≤ 1
    exact zpow_le_one_of_nonpos₀ one_le_two (by norm_num)
  have h3 : binary32.top = 2 ^ (104 + ((24 : Nat) : ℤ)) := rfl
  have h4 : (1 + binary32.ulp) ^ 5 ≤ 2 ^ 5 := pow_le_pow_left₀ (by linarith) (by linarith) 5
  unfold Bounds.Safe Bounds.peak Bounds.size
  rw [h3]
  have h5 : (1 + binary32.ulp) ^ 5 * (1 * 1000 + 1 + (1 * 0 + ((1 : Nat) : ℝ) * (4 * binary32.tiny))) ≤ 2 ^ 5 * 1005 :=
    mul_le_mul h4 (by push_cast; linarith) (by push_cast; linarith) (by norm_num)
  have h6 : (2 : ℝ) ^ 17 ≤ 2 ^ (104 + ((24 : Nat) : ℤ)) / 2 := by norm_num
  push_cast at h5 ⊢
  norm_num at h5 h6 ⊢
  linarith

end
end Renplex
