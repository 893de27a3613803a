import Verif.Lemmas.Rounding
import Verif.Lemmas.RelateTwo
import Verif.Spec.Network
import Verif.Props.NetGradRefuted
import Mathlib.Topology.Algebra.Order.Floor
import Mathlib.Analysis.SpecificLimits.Basic
import Mathlib.Algebra.Order.Round
/-!
# C78: floating-point runs approach the exact run
-/

namespace Renplex

open Filter Topology Relate Rounding

/-! ## Formats -/

/-- Computing exactly and rounding to a number that is not too far away is accurate. -/
theorem Format.ofRound_sound {T : Type} {val : T → ℝ} {rnd : ℝ → T} {u : ℝ} (hu : 0 ≤ u)
    (h : ∀ x, |val (rnd x) - x| ≤ u * (1 + |x|)) : (Format.ofRound val rnd u).Sound where
  u_nonneg := hu
  add _ _ _ := ⟨trivial, h _⟩
  sub _ _ _ := ⟨trivial, h _⟩
  mul _ _ _ := ⟨trivial, h _⟩
  div _ _ _ _ := ⟨trivial, h _⟩
  neg _ _ := ⟨trivial, h _⟩
  lit _ _ _ _ := ⟨trivial, h _⟩
  ofNat _ _ := ⟨trivial, h _⟩
  sq _ _ := ⟨trivial, h _⟩
  sqrt _ _ _ := ⟨trivial, h _⟩
  exp _ _ := ⟨trivial, h _⟩
  ln _ _ _ _ := ⟨trivial, h _⟩
  cos _ _ _ := ⟨trivial, h _⟩
  sin _ _ _ := ⟨trivial, h _⟩
  tanh _ _ := ⟨trivial, h _⟩
  cosh _ _ := ⟨trivial, h _⟩
  atan _ _ := ⟨trivial, h _⟩
  atan2 _ _ _ _ := ⟨trivial, h _⟩
  pi _ := ⟨trivial, h _⟩
  lt _ _ := decide_eq_true_iff
  le _ _ := decide_eq_true_iff
  beq _ _ := decide_eq_true_iff
  signNeg _ _ := decide_eq_true_iff

/-- Exact arithmetic, as a format of any precision. -/
theorem Format.exact_sound {u : ℝ} (hu : 0 ≤ u) : (Format.ofRound id id u).Sound :=
  Format.ofRound_sound hu fun x => by
    simp only [id, sub_self, abs_zero]
    positivity

/-- Fixed-point numbers are a format whose precision is the step. -/
theorem Format.fixed_sound {N : Nat} (hN : 0 < N) : (Format.fixed N).Sound := by
  have hN' : (0 : ℝ) < N := Nat.cast_pos.mpr hN
  refine Format.ofRound_sound (by positivity) fun x => ?_
  have h1 : |(round (x * N) : ℝ) / N - x| = |x * N - round (x * N)| / N := by
    rw [abs_sub_comm, ← abs_of_pos hN', ← abs_div, abs_of_pos hN']
    congr 1
    field_simp
  have h2 := abs_sub_round (x * N)
  have h3 : (0 : ℝ) ≤ |x| := abs_nonneg x
  show |(round (x * N) : ℝ) / N - x| ≤ 1 / N * (1 + |x|)
  rw [h1, div_mul_eq_mul_div, one_mul]
  gcongr
  linarith

/-- The fixed-point formats get finer and finer. -/
theorem fixed_finer : Finer atTop fun N : ℕ => Format.fixed (N + 1) :=
  ⟨fun N => Format.fixed_sound (Nat.succ_pos N), by
    simpa [Format.fixed, Format.ofRound] using tendsto_one_div_add_atTop_nhds_zero_nat (𝕜 := ℝ)⟩

/-! ## Steady networks -/

/-- Every layer applies its activation where neither it nor its derivatives jump. -/
def SteadyAt {w : Width} (n : Net (Cf w ℝ)) (x : IOType (Cf w ℝ)) : Prop :=
  PreChain Steady n.layers x ∧ PreChain SteadyD n.layers x

/-- The same on every sample of a whole history of training calls. -/
def SteadyRun {w : Width} : Net (Cf w ℝ) → List (TrainStep (Cf w ℝ)) → Prop
  | _, [] => True
  | n, s :: steps => (∀ p ∈ s.1.points, SteadyAt n p.1)
      ∧ ∀ r, n.gradientOpt s.1 s.2.1 s.2.2 = some r → SteadyRun r.2 steps

theorem PreChain.mono {B Q : Type} [CplxOps B Q] {R R' : ActFunc → B → Prop} (h : ∀ f z, R f z → R' f z)
    {ls : List (Layer B)} {x : IOType B} (hR : PreChain R ls x) : PreChain R' ls x := by
  induction ls generalizing x with
  | nil => trivial
  | cons d ls ih =>
    refine ⟨?_, fun y hy => ih (hR.2 y hy)⟩
    have := hR.1
    cases d <;> cases x <;> first | trivial | exact fun q hq z hz => h _ _ (this q hq z hz)

section limit
variable {ι : Type} {l : Filter ι} {F : ι → Format} {w : Width}

/-- C78. The forward pass in finer and finer formats, on parameters and inputs that tend to exact
ones, returns values that tend to the exact result. -/
theorem C78_forward (hF : Finer l F) {n : ∀ k, Net (Cf w (F k).T)} {n' : Net (Cf w ℝ)}
    (hn : RNet l (NearC l) n n') {x : ∀ k, IOType (Cf w (F k).T)} {x' : IOType (Cf w ℝ)}
    (hx : RIO l (NearC l) x x') (hs : PreChain Steady n'.layers x') {y' : IOType (Cf w ℝ)}
    (h : n'.forward x' = some (.ok y')) : ∃ y : ∀ k, IOType (Cf w (F k).T), RIO l (NearC l) y y'
      ∧ ∀ᶠ k in l, (n k).forward (x k) = some (.ok (y k)) := by
  obtain ⟨r, h1, h2⟩ := net_forward (cplxRel hF) nearC_ev hn hx
    (hs.mono fun f z => NearC.activate hF f) _ h
  obtain ⟨y, h3, h4⟩ := h1.1 _ rfl
  exact ⟨y, h3, by filter_upwards [h2, h4] with k e e'; rw [e, e']⟩

/-- C78. So does the loss over a data set. -/
theorem C78_loss (hF : Finer l F) {n : ∀ k, Net (Cf w (F k).T)} {n' : Net (Cf w ℝ)}
    (hn : RNet l (NearC l) n n') {D : ∀ k, Dataset (Cf w (F k).T)} {D' : Dataset (Cf w ℝ)}
    (hD : RData l (NearC l) D D') (f : LossFunc) (hs : ∀ p ∈ D'.points, PreChain Steady n'.layers p.1)
    (ho : ∀ p ∈ D'.points, ∀ y, n'.forward p.1 = some (.ok y) → LossOk f p.2 y) {v : ℝ}
    (h : n'.loss D' f = some v) : ∃ a : ∀ k, (F k).T, Near l a v
      ∧ ∀ᶠ k in l, (n k).loss (D k) f = some (a k) :=
  loss_rel (cplxRel hF) nearC_ev (lossRel hF) hn hD f
    (fun p hp => (hs p hp).mono fun f z => NearC.activate hF f) ho v h

/-- C78. A training call in finer and finer formats leaves networks behind that tend to the one the
exact call leaves behind. -/
theorem C78_train (hF : Finer l F) {n : ∀ k, Net (Cf w (F k).T)} {n' : Net (Cf w ℝ)}
    (hn : RNet l (NearC l) n n') {D : ∀ k, Dataset (Cf w (F k).T)} {D' : Dataset (Cf w ℝ)}
    (hD : RData l (NearC l) D D') (f : LossFunc) {a : ∀ k, Cf w (F k).T} {b : Cf w ℝ} (ha : NearC l a b)
    (hs : ∀ p ∈ D'.points, SteadyAt n' p.1) {r : Except ForwardErr Unit} {m' : Net (Cf w ℝ)}
    (h : n'.gradientOpt D' f b = some (r, m')) : ∃ m : ∀ k, Net (Cf w (F k).T), RNet l (NearC l) m m'
      ∧ ∀ᶠ k in l, (n k).gradientOpt (D k) f (a k) = some (r, m k) := by
  obtain ⟨q, h1, h2⟩ := gradientOpt_rel (cplxRel hF) nearC_ev hn hD f ha
    (fun p hp => (hs p hp).1.mono fun f z => NearC.activate hF f)
    (fun p hp => (hs p hp).2.mono fun f z => NearC.derivative hF f) _ h
  refine ⟨fun k => (q k).2, h1.2, ?_⟩
  have h3 : ∀ᶠ k in l, (q k).1 = r := by
    cases r with
    | ok u =>
      obtain ⟨a, h3, h4⟩ := h1.1.1 _ rfl
      exact h4.mono fun k e => e
    | error e => exact h1.1.2 _ rfl
  filter_upwards [h2, h3] with k e e'
  rw [e, ← e']

/-- Training steps with data sets and rates that tend to exact ones. -/
def RStep (l : Filter ι) (s : ∀ k, TrainStep (Cf w (F k).T)) (s' : TrainStep (Cf w ℝ)) : Prop :=
  RData l (NearC l) (fun k => (s k).1) s'.1 ∧ RD l (fun k => (s k).2.1) s'.2.1
    ∧ NearC l (fun k => (s k).2.2) s'.2.2

/-- C78. The same for a whole history of training calls. -/
theorem C78_run (hF : Finer l F) {n : ∀ k, Net (Cf w (F k).T)} {n' : Net (Cf w ℝ)}
    (hn : RNet l (NearC l) n n') {s : ∀ k, List (TrainStep (Cf w (F k).T))}
    {s' : List (TrainStep (Cf w ℝ))} (hs : RL l (RStep l) s s') (hst : SteadyRun n' s')
    {m' : Net (Cf w ℝ)} (h : n'.train s' = some m') : ∃ m : ∀ k, Net (Cf w (F k).T),
      RNet l (NearC l) m m' ∧ ∀ᶠ k in l, (n k).train (s k) = some (m k) := by
  suffices H : RO l (RNet l (NearC l)) (fun k => (n k).train (s k)) (n'.train s') from H m' h
  refine hs.elim (F := fun k s => (n k).train s) fun as h1 => ?_
  clear hs h
  induction h1 generalizing n n' with
  | nil => exact RO.pure hn
  | @cons a b as bs h _ ih =>
    simp only [List.map_cons, Net.train, List.foldlM_cons]
    refine RO.bind (S := RNet l (NearC l)) ?_ fun m1 m2 hm h2 => ?_
    · intro m hm
      obtain ⟨⟨r, m2⟩, h2, rfl⟩ := Option.map_eq_some_iff.mp hm
      obtain ⟨m, h3, h4⟩ := C78_train hF hn h.1 b.2.1 h.2.2 hst.1 h2
      refine ⟨m, h3, ?_⟩
      filter_upwards [h4, h.2.1] with k e e'
      rw [e', e]; rfl
    · obtain ⟨⟨r, m3⟩, h3, rfl⟩ := Option.map_eq_some_iff.mp hm
      exact ih h2 (hst.2 _ h3)

end limit

/-! ## Distances -/

section within
variable {ι : Type} {l : Filter ι} {F : ι → Format} {w : Width} {δ : ι → ℝ}

theorem nearC_of_within (hδ : Tendsto δ l (𝓝 0)) {a : ∀ k, Cf w (F k).T} {z : Cf w ℝ}
    (h : ∀ k, Cf.Within (δ k) (a k) z) : NearC l a z := by
  have key : ∀ {c : ∀ k, (F k).T} {x : ℝ}, (∀ k, (F k).fin (c k) ∧ |(F k).val (c k) - x| ≤ δ k) →
      Near l c x := fun {c x} h => by
    refine ⟨.of_forall fun k => (h k).1, ?_⟩
    have : Tendsto (fun k => (F k).val (c k) - x) l (𝓝 0) := squeeze_zero_norm (fun k => (h k).2) hδ
    simpa using this.add_const x
  exact ⟨key fun k => (h k).1, key fun k => (h k).2⟩

theorem NearC.within {ε : ℝ} (hε : 0 < ε) {a : ∀ k, Cf w (F k).T} {z : Cf w ℝ} (h : NearC l a z) :
    ∀ᶠ k in l, Cf.Within ε (a k) z := by
  have key : ∀ {c : ∀ k, (F k).T} {x : ℝ}, Near l c x →
      ∀ᶠ k in l, (F k).fin (c k) ∧ |(F k).val (c k) - x| ≤ ε := fun {c x} h => by
    filter_upwards [h.1, Metric.tendsto_nhds.mp h.2 ε hε] with k h1 h2 using ⟨h1, le_of_lt h2⟩
  filter_upwards [key h.1, key h.2] with k h1 h2 using ⟨h1, h2⟩

theorem RIO_of_within (hδ : Tendsto δ l (𝓝 0)) {x : ∀ k, IOType (Cf w (F k).T)} {x' : IOType (Cf w ℝ)}
    (h : ∀ k, (x k).Within (δ k) x') : RIO l (NearC l) x x' := by
  cases x' with
  | scalar v =>
    have h' : ∀ k, ∃ f, x k = .scalar f ∧ List.Forall₂ (Cf.Within (δ k)) f v := fun k => by
      have := h k
      revert this
      cases x k with
      | scalar f => exact fun h => ⟨f, rfl, h⟩
      | matrix f => exact fun h => h.elim
    choose f h1 h2 using h'
    exact ⟨f, RL.point h2 fun a b _ => nearC_of_within hδ, .of_forall h1⟩
  | matrix v =>
    have h' : ∀ k, ∃ f, x k = .matrix f ∧ List.Forall₂ (Mat.Rel (Cf.Within (δ k))) f v := fun k => by
      have := h k
      revert this
      cases x k with
      | scalar f => exact fun h => h.elim
      | matrix f => exact fun h => ⟨f, rfl, h⟩
    choose f h1 h2 using h'
    exact ⟨f, RL.point h2 fun a b _ h => RM.point h fun a b => nearC_of_within hδ, .of_forall h1⟩

theorem RIO_within {ε : ℝ} (hε : 0 < ε) {x : ∀ k, IOType (Cf w (F k).T)} {x' : IOType (Cf w ℝ)}
    (h : RIO l (NearC l) x x') : ∀ᶠ k in l, (x k).Within ε x' := by
  cases x' with
  | scalar v =>
    obtain ⟨f, h1, h2⟩ := h
    filter_upwards [RL.eventually h1 fun a b => NearC.within hε, h2] with k h e
    rw [e]
    exact h
  | matrix v =>
    obtain ⟨f, h1, h2⟩ := h
    filter_upwards [RL.eventually h1 fun a b h => RM.eventually h fun a b => NearC.within hε, h2]
      with k h e
    rw [e]
    exact h

theorem meanBlock_rel (hF : Finer l F) {f : ∀ k, List (Cf w (F k).T)} {v : List (Cf w ℝ)}
    (h : RL l (NearC l) f v) : RO l (NearC l) (fun k => meanBlock (f k)) (meanBlock v) := by
  have h1 := h.foldl (T := NearC l) (g := fun k a b => Cf.add a b) (cplxRel hF).zero
    (fun _ _ _ _ ha h => ha.add hF h) nearC_ev
  refine RO.congr (h.len.mono fun k e => ?_) (h1.div hF (b := fun k => Cf.new (Scalar.ofNat v.length)
    Scalar.zero) ⟨near_ofNat hF v.length, near_zero hF⟩)
  rw [meanBlock, e]
  rfl

theorem RLayer_of_within (hF : Finer l F) (hδ : Tendsto δ l (𝓝 0)) {L : ∀ k, Layer (Cf w (F k).T)}
    {d : Layer (Cf w ℝ)} (h : ∀ k, (L k).Within (δ k) d)
    (hm : ∀ k e, L k = .reduce e → e.blockFunc = meanBlock)
    (hm' : ∀ e, d = .reduce e → e.blockFunc = meanBlock) : RLayer l (NearC l) L d := by
  cases d with
  | dense d =>
    have h' : ∀ k, ∃ e, L k = .dense e ∧ (Layer.dense e).Within (δ k) (.dense d) := fun k => by
      have := h k
      revert this
      cases L k with
      | dense e => exact fun h => ⟨e, rfl, h⟩
      | conv | reduce | flatten => exact fun h => h.elim
    choose e h1 h2 using h'
    refine ⟨fun k => (e k).weights, fun k => (e k).biases, RM.point (fun k => (h2 k).1) fun _ _ =>
      nearC_of_within hδ, RL.point (fun k => (h2 k).2.1) fun _ _ _ => nearC_of_within hδ,
      .of_forall fun k => ?_⟩
    rw [h1 k, ← (h2 k).2.2]
  | conv d =>
    have h' : ∀ k, ∃ e, L k = .conv e ∧ (Layer.conv e).Within (δ k) (.conv d) := fun k => by
      have := h k
      revert this
      cases L k with
      | conv e => exact fun h => ⟨e, rfl, h⟩
      | dense | reduce | flatten => exact fun h => h.elim
    choose e h1 h2 using h'
    refine ⟨fun k => (e k).kernels, fun k => (e k).biases, RM.point (fun k => (h2 k).1) fun _ _ h =>
      RM.point h fun _ _ => nearC_of_within hδ, RL.point (fun k => (h2 k).2.1) fun _ _ _ =>
      nearC_of_within hδ, .of_forall fun k => ?_⟩
    rw [h1 k, ← (h2 k).2.2.1, ← (h2 k).2.2.2]
  | reduce d =>
    have h' : ∀ k, ∃ e, L k = .reduce e ∧ (Layer.reduce e).Within (δ k) (.reduce d) := fun k => by
      have := h k
      revert this
      cases L k with
      | reduce e => exact fun h => ⟨e, rfl, h⟩
      | dense | conv | flatten => exact fun h => h.elim
    choose e h1 h2 using h'
    refine ⟨fun k => meanBlock, fun k => (e k).interpKernel, RM.point (fun k => (h2 k).1) fun _ _ =>
      nearC_of_within hδ, fun f v hv => ?_, .of_forall fun k => ?_⟩
    · rw [hm' d rfl]
      exact meanBlock_rel hF hv
    · rw [h1 k, ← (h2 k).2.1, ← (h2 k).2.2]
      simp only [← hm k _ (h1 k)]
  | flatten d =>
    refine .of_forall fun k => ?_
    have := h k
    revert this
    cases L k with
    | flatten e => exact fun h => congrArg _ h
    | dense | conv | reduce => exact fun h => h.elim

theorem RLayer_within {ε : ℝ} (hε : 0 < ε) {L : ∀ k, Layer (Cf w (F k).T)} {d : Layer (Cf w ℝ)}
    (h : RLayer l (NearC l) L d) : ∀ᶠ k in l, (L k).Within ε d := by
  cases d with
  | dense d =>
    obtain ⟨m, b, h1, h2, h3⟩ := h
    filter_upwards [RM.eventually h1 fun a b => NearC.within hε,
      RL.eventually h2 fun a b => NearC.within hε, h3] with k h1 h2 e
    rw [e]
    exact ⟨h1, h2, rfl⟩
  | conv d =>
    obtain ⟨m, b, h1, h2, h3⟩ := h
    filter_upwards [RM.eventually h1 fun a b h => RM.eventually h fun a b => NearC.within hε,
      RL.eventually h2 fun a b => NearC.within hε, h3] with k h1 h2 e
    rw [e]
    exact ⟨h1, h2, rfl, rfl⟩
  | reduce d =>
    obtain ⟨g, m, h1, -, h3⟩ := h
    filter_upwards [RM.eventually h1 fun a b => NearC.within hε, h3] with k h1 e
    rw [e]
    exact ⟨h1, rfl, rfl⟩
  | flatten d =>
    filter_upwards [h] with k e
    rw [e]
    exact rfl

theorem RNet_of_within (hF : Finer l F) (hδ : Tendsto δ l (𝓝 0)) {n : ∀ k, Net (Cf w (F k).T)}
    {n' : Net (Cf w ℝ)} (h : ∀ k, (n k).Within (δ k) n') (hm : ∀ k, (n k).MeanPools)
    (hm' : n'.MeanPools) : RNet l (NearC l) n n' := by
  refine RL.point (R := fun k L d => L.Within (δ k) d ∧ L ∈ (n k).layers) (fun k => ?_) fun L d hd h => ?_
  · have := h k
    unfold Net.Within at this
    have h2 : ∀ ls : List (Layer (Cf w (F k).T)), ∀ ls', (∀ L ∈ ls, L ∈ (n k).layers) →
        List.Forall₂ (Layer.Within (δ k)) ls ls' →
        List.Forall₂ (fun L d => L.Within (δ k) d ∧ L ∈ (n k).layers) ls ls' := by
      intro ls ls' hs h
      induction h with
      | nil => exact .nil
      | cons h _ ih => exact .cons ⟨h, hs _ (by simp)⟩ (ih fun L hL => hs L (by simp [hL]))
    exact h2 _ _ (fun _ h => h) this
  · exact RLayer_of_within hF hδ (fun k => (h k).1) (fun k e he => hm k e (he ▸ (h k).2))
      fun e he => hm' e (he ▸ hd)

theorem RData_of_within (hδ : Tendsto δ l (𝓝 0)) {D : ∀ k, Dataset (Cf w (F k).T)}
    {D' : Dataset (Cf w ℝ)} (h : ∀ k, (D k).Within (δ k) D') : RData l (NearC l) D D' :=
  ⟨RL.point (fun k => (h k).1) fun _ _ _ => RIO_of_within hδ,
    RL.point (fun k => (h k).2) fun _ _ _ => RIO_of_within hδ⟩

end within

/-! ## Bounds -/

section eps
variable {w : Width}

theorem tendsto_inv : Tendsto (fun k : ℕ => 1 / ((k : ℝ) + 1)) atTop (𝓝 0) :=
  tendsto_one_div_add_atTop_nhds_zero_nat

/-- If the claim fails for all `δ` it fails along a sequence. -/
theorem bad_sequence {P : Format → ℝ → Prop} (h : ¬ ∃ δ > 0, ∀ F : Format, F.Sound → F.u ≤ δ → P F δ) :
    ∃ F : ℕ → Format, Finer atTop F ∧ ∀ k : ℕ, ¬ P (F k) (1 / ((k : ℝ) + 1)) := by
  simp only [not_exists, not_and, not_forall] at h
  have h' : ∀ k : ℕ, ∃ F : Format, F.Sound ∧ F.u ≤ 1 / ((k : ℝ) + 1) ∧ ¬ P F (1 / ((k : ℝ) + 1)) :=
    fun k => by
      obtain ⟨F, h1, h2, h3⟩ := h (1 / ((k : ℝ) + 1)) (by positivity)
      exact ⟨F, h1, h2, h3⟩
  choose F h1 h2 h3 using h'
  exact ⟨F, ⟨h1, squeeze_zero (fun k => (h1 k).u_nonneg) h2 tendsto_inv⟩, h3⟩

/-- C78. The forward pass in any format of sufficient precision, on any parameters and input that are
close enough to exact ones, succeeds and is as close as wanted to the exact result. -/
theorem C78_forward_bound {n' : Net (Cf w ℝ)} (hp : n'.MeanPools) {x' y' : IOType (Cf w ℝ)}
    (hs : PreChain Steady n'.layers x') (h : n'.forward x' = some (.ok y')) {ε : ℝ} (hε : 0 < ε) :
    ∃ δ > 0, ∀ F : Format, F.Sound → F.u ≤ δ → ∀ (n : Net (Cf w F.T)) (x : IOType (Cf w F.T)),
      n.MeanPools → n.Within δ n' → x.Within δ x' →
      ∃ y : IOType (Cf w F.T), n.forward x = some (.ok y) ∧ y.Within ε y' := by
  by_contra hc
  obtain ⟨F, hF, hbad⟩ := bad_sequence hc
  simp only [not_forall] at hbad
  choose n x h1 h2 h3 h4 using hbad
  obtain ⟨y, h5, h6⟩ := C78_forward hF (RNet_of_within hF tendsto_inv h2 h1 hp)
    (RIO_of_within tendsto_inv h3) hs h
  obtain ⟨k, h7, h8⟩ := (h6.and (RIO_within hε h5)).exists
  exact h4 k ⟨y k, h7, h8⟩

/-- C78. The same for the loss. -/
theorem C78_loss_bound {n' : Net (Cf w ℝ)} (hp : n'.MeanPools) {D' : Dataset (Cf w ℝ)} {f : LossFunc}
    (hs : ∀ p ∈ D'.points, PreChain Steady n'.layers p.1)
    (ho : ∀ p ∈ D'.points, ∀ y, n'.forward p.1 = some (.ok y) → LossOk f p.2 y) {v : ℝ}
    (h : n'.loss D' f = some v) {ε : ℝ} (hε : 0 < ε) :
    ∃ δ > 0, ∀ F : Format, F.Sound → F.u ≤ δ → ∀ (n : Net (Cf w F.T)) (D : Dataset (Cf w F.T)),
      n.MeanPools → n.Within δ n' → D.Within δ D' →
      ∃ a : F.T, n.loss D f = some a ∧ F.fin a ∧ |F.val a - v| < ε := by
  by_contra hc
  obtain ⟨F, hF, hbad⟩ := bad_sequence hc
  simp only [not_forall] at hbad
  choose n D h1 h2 h3 h4 using hbad
  obtain ⟨a, h5, h6⟩ := C78_loss hF (RNet_of_within hF tendsto_inv h2 h1 hp)
    (RData_of_within tendsto_inv h3) f hs ho h
  obtain ⟨k, h7, h8, h9⟩ := (h6.and (h5.1.and (Metric.tendsto_nhds.mp h5.2 ε hε))).exists
  exact h4 k ⟨a k, h7, h8, h9⟩

/-- C78. The same for a whole history of training calls: the network left behind is as close as wanted
to the one exact arithmetic leaves behind. -/
theorem C78_run_bound {n' m' : Net (Cf w ℝ)} (hp : n'.MeanPools) {s' : List (TrainStep (Cf w ℝ))}
    (hs : SteadyRun n' s') (h : n'.train s' = some m') {ε : ℝ} (hε : 0 < ε) :
    ∃ δ > 0, ∀ F : Format, F.Sound → F.u ≤ δ → ∀ (n : Net (Cf w F.T)) (s : List (TrainStep (Cf w F.T))),
      n.MeanPools → n.Within δ n' → stepsWithin δ s s' →
      ∃ m : Net (Cf w F.T), n.train s = some m ∧ m.Within ε m' := by
  by_contra hc
  obtain ⟨F, hF, hbad⟩ := bad_sequence hc
  simp only [not_forall] at hbad
  choose n s h1 h2 h3 h4 using hbad
  have hst : RL atTop (RStep atTop) s s' := RL.point h3 fun a b _ h =>
    ⟨RData_of_within tendsto_inv fun k => (h k).1, .of_forall fun k => (h k).2.1,
      nearC_of_within tendsto_inv fun k => (h k).2.2⟩
  obtain ⟨m, h5, h6⟩ := C78_run hF (RNet_of_within hF tendsto_inv h2 h1 hp) hst hs h
  obtain ⟨k, h7, h8⟩ := (h6.and (RL.eventually h5 fun _ _ => RLayer_within hε)).exists
  exact h4 k ⟨m k, h7, h8⟩

/-! ## Smooth networks -/

/-- Only activations without jumps, and whose derivatives have none either. -/
def Net.Smooth {α : Type} (n : Net α) : Prop := ∀ d ∈ n.layers, d.act = .none ∨ d.act = .ritTanh

theorem Net.Smooth.steady {n : Net (Cf w ℝ)} (h : n.Smooth) (x : IOType (Cf w ℝ)) : SteadyAt n x :=
  ⟨chain_of_acts (fun d hd z => by rcases h d hd with e | e <;> rw [e] <;> trivial) x,
    chain_of_acts (fun d hd z => by rcases h d hd with e | e <;> rw [e] <;> trivial) x⟩

theorem Net.Smooth.run {n : Net (Cf w ℝ)} (h : n.Smooth) (s : List (TrainStep (Cf w ℝ))) :
    SteadyRun n s := by
  induction s generalizing n with
  | nil => trivial
  | cons s steps ih => exact ⟨fun p _ => h.steady p.1, fun r hr => ih (acts_kept (p := fun f => f = .none ∨ f = .ritTanh) h hr)⟩

end eps

/-! ## Jumps -/

theorem exActNet_forward {f : ActFunc} {x y : Cf .w32 ℝ} (h : Act.activate f x = some y) :
    (exActNet f).forward (.scalar [x]) = some (.ok (.scalar [y])) := by
  have hf := exAct_forward (f := f) (b := 0) (x := x) (y := y) (by rw [add_zero]; exact h)
  simp [exActNet, Net.forward, Net.fwd, exUnit_forward, unwrap, hf]

theorem exActNet_pools {R : Type} [Scalar R] {n : Net (Cf .w32 R)}
    (h : ∀ d ∈ n.layers, ∃ e, d = .dense e) : n.MeanPools := fun d hd => by
  obtain ⟨e, he⟩ := h _ hd
  cases he

theorem exact_within {δ : ℝ} (hδ : 0 ≤ δ) (n : Net (Cf .w32 ℝ)) (h : ∀ d ∈ n.layers, ∃ e, d = .dense e) :
    Net.Within (F := Format.ofRound id id δ) δ n n := by
  have hc : ∀ z : Cf .w32 ℝ, Cf.Within (F := Format.ofRound id id δ) δ z z := fun z =>
    ⟨⟨trivial, by simpa [Format.ofRound] using hδ⟩, trivial, by simpa [Format.ofRound] using hδ⟩
  have hl : ∀ v : List (Cf .w32 ℝ), List.Forall₂ (Cf.Within (F := Format.ofRound id id δ) δ) v v :=
    fun v => List.forall₂_same.mpr fun z _ => hc z
  refine List.forall₂_same.mpr fun d hd => ?_
  obtain ⟨e, rfl⟩ := h d hd
  exact ⟨⟨hl _, rfl, rfl⟩, hl _, rfl⟩

/-- C78. Where an activation jumps no precision is enough: with `zReLU` and the input `i`, exact
arithmetic returns `i`, but arbitrarily precise formats and inputs arbitrarily close to `i` return 0. -/
theorem C78_jump : ∃ (n' : Net (Cf .w32 ℝ)) (x' y' : IOType (Cf .w32 ℝ)), n'.MeanPools
    ∧ n'.forward x' = some (.ok y') ∧ ∀ δ > 0, ∃ F : Format, F.Sound ∧ F.u ≤ δ
      ∧ ∃ (n : Net (Cf .w32 F.T)) (x y : IOType (Cf .w32 F.T)), n.MeanPools ∧ n.Within δ n'
        ∧ x.Within δ x' ∧ n.forward x = some (.ok y) ∧ ¬ y.Within (1 / 2) y' := by
  have hd : ∀ d ∈ (exActNet .zReLU : Net (Cf .w32 ℝ)).layers, ∃ e, d = .dense e := by
    intro d hd
    simp only [exActNet, List.mem_cons, List.not_mem_nil, or_false] at hd
    rcases hd with rfl | rfl
    · exact ⟨_, rfl⟩
    · exact ⟨_, rfl⟩
  refine ⟨exActNet .zReLU, .scalar [⟨0, 1⟩], .scalar [⟨0, 1⟩], exActNet_pools hd,
    exActNet_forward ?_, fun δ hδ => ⟨Format.ofRound id id δ, Format.exact_sound hδ.le, le_rfl,
      exActNet .zReLU, .scalar [(⟨-δ, 1⟩ : Cf .w32 ℝ)], .scalar [(⟨0, 0⟩ : Cf .w32 ℝ)], exActNet_pools hd,
      exact_within hδ.le _ hd, ?_, exActNet_forward (y := ⟨0, 0⟩) ?_, ?_⟩⟩
  · have : ¬ ((1 : ℝ) < 0) := by norm_num
    simp [Act.activate, Act.zRelu, Scalar.signNeg, Cf.re, Cf.im, this]
  · refine .cons ⟨⟨trivial, ?_⟩, trivial, ?_⟩ .nil
    · simp [Format.ofRound, abs_of_pos hδ]
    · simpa [Format.ofRound] using hδ.le
  · simp [Act.activate, Act.zRelu, Scalar.signNeg, Cf.re, Cf.im, hδ, Scalar.zero, Scalar.lit]
  · intro h
    cases h with
    | cons h _ =>
      have h2 : |(0 : ℝ) - 1| ≤ 1 / 2 := h.2.2
      norm_num at h2

/-! ## Non-vacuity -/

/-- A network with a `tanh` layer can be trained with any precision. -/
example (lf : LossFunc) (x t r : Cf .w32 ℝ) {m' : Net (Cf .w32 ℝ)}
    (h : (exActNet .ritTanh).train [(⟨[.scalar [x]], [.scalar [t]]⟩, lf, r)] = some m') :
    ∃ δ > 0, ∀ F : Format, F.Sound → F.u ≤ δ → ∀ (n : Net (Cf .w32 F.T)) s, n.MeanPools →
      n.Within δ (exActNet .ritTanh) → stepsWithin δ s [(⟨[.scalar [x]], [.scalar [t]]⟩, lf, r)] →
      ∃ m : Net (Cf .w32 F.T), n.train s = some m ∧ m.Within (1 / 1000) m' := by
  have hd : ∀ d ∈ (exActNet .ritTanh : Net (Cf .w32 ℝ)).layers, (∃ e, d = .dense e)
      ∧ (d.act = .none ∨ d.act = .ritTanh) := by
    intro d hd
    simp only [exActNet, List.mem_cons, List.not_mem_nil, or_false] at hd
    rcases hd with rfl | rfl
    · exact ⟨⟨_, rfl⟩, .inr rfl⟩
    · exact ⟨⟨_, rfl⟩, .inl rfl⟩
  exact C78_run_bound (exActNet_pools fun d h => (hd d h).1)
    (Net.Smooth.run (fun d h => (hd d h).2) _) h (by norm_num)

/-- There are formats of any precision that really round. -/
example {δ : ℝ} (hδ : 0 < δ) : ∃ F : Format, F.Sound ∧ F.u ≤ δ ∧ 0 < F.u := by
  obtain ⟨N, hN⟩ := exists_nat_one_div_lt hδ
  refine ⟨Format.fixed (N + 1), Format.fixed_sound (Nat.succ_pos N), ?_, ?_⟩
  · simpa [Format.fixed, Format.ofRound] using hN.le
  · simp only [Format.fixed, Format.ofRound]
    positivity

end Renplex
