import Verif.Spec.LongRun
import Verif.Props.Cycle
import Verif.Props.Rounding
import Verif.Props.IeeeNet
/-!
# C126: rounding errors do not accumulate
-/

namespace Renplex
open Filter Topology Relate Rounding

/-! ## What training keeps -/

/-- The capacities of the kernels of a convolutional layer. -/
def Conv.caps {α : Type} (l : Conv α) : (Nat × Nat) × List (Nat × Nat) :=
  (l.kernels.capacity, l.kernels.body.map fun k => k.capacity)

/-- The second layer may be the first one after training. -/
def Layer.After {α : Type} : Layer α → Layer α → Prop
  | .dense d, .dense e => e.weights.capacity = d.weights.capacity
  | .conv d, .conv e => e.caps = d.caps
  | .reduce d, e => e = .reduce d
  | .flatten d, e => e = .flatten d
  | _, _ => False

theorem Layer.After.refl {α : Type} (d : Layer α) : d.After d := by
  cases d <;> simp [Layer.After]

theorem Layer.After.trans {α : Type} {a b c : Layer α} (h : a.After b) (h' : b.After c) : a.After c := by
  cases a with
  | dense d =>
    cases b with
    | dense e =>
      cases c with
      | dense f => exact Eq.trans h' h
      | conv | reduce | flatten => exact h'.elim
    | conv | reduce | flatten => exact h.elim
  | conv d =>
    cases b with
    | conv e =>
      cases c with
      | conv f => exact Eq.trans h' h
      | dense | reduce | flatten => exact h'.elim
    | dense | reduce | flatten => exact h.elim
  | reduce d =>
    obtain rfl : b = .reduce d := h
    exact h'
  | flatten d =>
    obtain rfl : b = .flatten d := h
    exact h'

section kept
variable {α P : Type} [CplxOps α P]

theorem updKernels_caps (upd : α → α → α) (ks : List (Mat α)) (dw : List α) :
    (Conv.updKernels upd ks dw).map (fun k => k.capacity) = ks.map fun k => k.capacity := by
  induction ks generalizing dw with
  | nil => rfl
  | cons k ks ih => exact congrArg (k.capacity :: ·) (ih _)

theorem updateLayer_after {scale : α} {g : List α × List α} {d e : Layer α}
    (h : Net.updateLayer scale g d = some e) : d.After e := by
  unfold Net.updateLayer at h
  cases d with
  | dense d =>
    simp only [Layer.propagates, Dense.propagates, if_true, Layer.negConjAdjustment, Option.bind_eq_bind,
      Option.bind_some] at h
    obtain ⟨-, -, h⟩ := Option.bind_eq_some_iff.mp h
    cases h
    show (Dense.negConjAdjustment _ _ _).2.weights.capacity = _
    unfold Dense.negConjAdjustment
    split
    · rfl
    · split <;> rfl
  | conv d =>
    simp only [Layer.propagates, Conv.propagates, if_true, Layer.negConjAdjustment, Option.bind_eq_bind,
      Option.bind_some] at h
    obtain ⟨-, -, h⟩ := Option.bind_eq_some_iff.mp h
    cases h
    show (Conv.negConjAdjustment _ _ _).2.caps = _
    unfold Conv.negConjAdjustment
    split
    · rfl
    · split
      · rfl
      · exact Prod.ext rfl (updKernels_caps _ _ _)
  | reduce d =>
    simp only [Layer.propagates, Reduce.propagates, if_true, Layer.negConjAdjustment, Option.bind_eq_bind,
      Option.bind_some] at h
    obtain ⟨-, -, h⟩ := Option.bind_eq_some_iff.mp h
    cases h
    rfl
  | flatten d =>
    simp only [Layer.propagates, Flatten.propagates] at h
    cases h
    rfl

theorem gradientOpt_after {n : Net α} {D : Dataset α} {f : LossFunc} {a : α} {r : Except ForwardErr Unit × Net α}
    (hr : n.gradientOpt D f a = some r) {i : Nat} {e : Layer α} (hi : r.2.layers[i]? = some e) :
    ∃ d, n.layers[i]? = some d ∧ d.After e := by
  unfold Net.gradientOpt at hr
  split at hr
  · cases hr
    exact ⟨e, hi, .refl e⟩
  · simp only [Option.bind_eq_bind] at hr
    obtain ⟨acc, -, hr⟩ := Option.bind_eq_some_iff.mp hr
    obtain ⟨sc, -, hr⟩ := Option.bind_eq_some_iff.mp hr
    obtain ⟨ls, h1, hr⟩ := Option.bind_eq_some_iff.mp hr
    cases hr
    rw [mapM_getElem? h1] at hi
    obtain ⟨q, h2, h3⟩ := Option.bind_eq_some_iff.mp hi
    rw [List.getElem?_zip_eq_some] at h2
    exact ⟨q.2, h2.2, updateLayer_after h3⟩

theorem train_after {n m : Net α} {s : List (TrainStep α)} (h : n.train s = some m) {i : Nat} {e : Layer α}
    (hi : m.layers[i]? = some e) : ∃ d, n.layers[i]? = some d ∧ d.After e := by
  induction s generalizing n with
  | nil =>
    cases h
    exact ⟨e, hi, .refl e⟩
  | cons a s ih =>
    rw [Net.train, List.foldlM_cons] at h
    obtain ⟨n1, h1, h2⟩ := Option.bind_eq_some_iff.mp h
    obtain ⟨d1, h3, h4⟩ := ih h2
    obtain ⟨r, h5, rfl⟩ := Option.map_eq_some_iff.mp h1
    obtain ⟨d, h6, h7⟩ := gradientOpt_after h5 h3
    exact ⟨d, h6, h7.trans h4⟩

/-- Training a network with parameters in the last layer only. -/
theorem train_front {n m : Net α} {s : List (TrainStep α)} (h : n.train s = some m) {pre pre' : List (Layer α)}
    (hf : ∀ d ∈ pre, d.Fixed) {d d' : Dense α} (hn : n.layers = pre ++ [.dense d])
    (hm : m.layers = pre' ++ [.dense d']) (hlen : pre'.length = pre.length) :
    pre' = pre ∧ d'.weights.capacity = d.weights.capacity := by
  constructor
  · refine List.ext_getElem hlen fun i h1 h2 => ?_
    have h3 : m.layers[i]? = some pre'[i] := by
      rw [hm, List.getElem?_append_left h1, List.getElem?_eq_getElem h1]
    obtain ⟨e, h4, h5⟩ := train_after h h3
    rw [hn, List.getElem?_append_left h2, List.getElem?_eq_getElem h2] at h4
    obtain rfl := Option.some.inj h4
    have h6 := hf _ (List.getElem_mem h2)
    revert h5 h6
    cases pre[i] with
    | dense | conv => exact fun _ h => h.elim
    | reduce | flatten => exact fun h _ => h
  · have h3 : m.layers[pre.length]? = some (.dense d') := by
      rw [hm, List.getElem?_append_right hlen.le, hlen]
      simp
    obtain ⟨e, h4, h5⟩ := train_after h h3
    rw [hn, List.getElem?_append_right le_rfl] at h4
    obtain rfl : Layer.dense d = e := by simpa using h4
    exact h5

end kept

/-! ## Distances -/

section within
variable {w : Width} {F : Format} {u m : Nat}

theorem Cf.Within.mono {δ δ' : ℝ} (h : δ ≤ δ') {a : Cf w F.T} {z : Cf w ℝ} (hw : a.Within δ z) : a.Within δ' z :=
  ⟨⟨hw.1.1, hw.1.2.trans h⟩, hw.2.1, hw.2.2.trans h⟩

theorem Cf.Within.move {δ η : ℝ} {a : Cf w F.T} {z z' : Cf w ℝ} (hw : a.Within δ z) (h : ‖z.toC - z'.toC‖ ≤ η) :
    a.Within (δ + η) z' := by
  have h1 : |z.x - z'.x| ≤ η := (Complex.abs_re_le_norm (z.toC - z'.toC)).trans h
  have h2 : |z.y - z'.y| ≤ η := (Complex.abs_im_le_norm (z.toC - z'.toC)).trans h
  refine ⟨⟨hw.1.1, ?_⟩, hw.2.1, ?_⟩
  · have := abs_add_le (F.val a.x - z.x) (z.x - z'.x)
    rw [sub_add_sub_cancel] at this
    linarith [hw.1.2]
  · have := abs_add_le (F.val a.y - z.y) (z.y - z'.y)
    rw [sub_add_sub_cancel] at this
    linarith [hw.2.2]

theorem Cf.Within.gap {δ : ℝ} {a : Cf w F.T} {z z' : Cf w ℝ} (hw : a.Within 0 z) (hw' : a.Within δ z') :
    ‖z.toC - z'.toC‖ ≤ 2 * δ := by
  have e1 : F.val a.x = z.x := by
    have := abs_nonpos_iff.mp hw.1.2
    linarith
  have e2 : F.val a.y = z.y := by
    have := abs_nonpos_iff.mp hw.2.2
    linarith
  have h1 := hw'.1.2
  have h2 := hw'.2.2
  rw [e1] at h1
  rw [e2] at h2
  have := Complex.norm_le_abs_re_add_abs_im (z.toC - z'.toC)
  have h3 : |(z.toC - z'.toC).re| = |z.x - z'.x| := rfl
  have h4 : |(z.toC - z'.toC).im| = |z.y - z'.y| := rfl
  linarith

theorem Mat.Rel.mono {α β : Type} {S S' : α → β → Prop} (h : ∀ a b, S a b → S' a b) {x : Mat α} {y : Mat β}
    (hr : x.Rel S y) : x.Rel S' y :=
  ⟨hr.1.imp h, hr.2⟩

theorem io_mono {α β : Type} {S S' : α → β → Prop} (h : ∀ a b, S a b → S' a b) {x : IOType α} {y : IOType β}
    (hr : x.Rel S y) : x.Rel S' y := by
  cases x <;> cases y <;> first
    | exact hr.elim
    | exact List.Forall₂.imp h hr
    | exact List.Forall₂.imp (fun _ _ => Mat.Rel.mono h) hr

theorem Layer.Within.mono {δ δ' : ℝ} (h : δ ≤ δ') {d : Layer (Cf w F.T)} {e : Layer (Cf w ℝ)} (hw : d.Within δ e) :
    d.Within δ' e := by
  have hc : ∀ (a : Cf w F.T) (z : Cf w ℝ), a.Within δ z → a.Within δ' z := fun a z => Cf.Within.mono h
  cases d <;> cases e <;> first
    | exact hw.elim
    | exact hw
    | exact ⟨hw.1.mono hc, hw.2.1.imp hc, hw.2.2⟩
    | exact ⟨hw.1.mono fun _ _ hr => hr.mono hc, hw.2.1.imp hc, hw.2.2⟩
    | exact ⟨hw.1.mono hc, hw.2⟩

variable {l l' : Dense (Cf w ℝ)} {W W' : Nat → Nat → Cf w ℝ} {b b' : Nat → Cf w ℝ} {d : Dense (Cf w F.T)}

theorem within_is {δ : ℝ} (hw : (Layer.dense d).Within δ (.dense l)) (hl : l.Is u m W b .none) :
    ∃ V c, d.Is u m V c .none := by
  have : Nonempty (Cf w F.T) := ⟨⟨Scalar.pi, Scalar.pi⟩⟩
  obtain ⟨h1, h2, h3⟩ := hw
  obtain ⟨V, hV⟩ := exists_table u m d.weights.body (by rw [h1.1.length_eq, hl.1.2, table_length])
  obtain ⟨c, hc⟩ := exists_range_map d.biases
  rw [h2.length_eq, hl.2.1, List.length_map, List.length_range] at hc
  exact ⟨V, c, ⟨h1.2.1.trans hl.1.1, hV⟩, hc, h3.trans hl.2.2⟩

theorem within_iff {V : Nat → Nat → Cf w F.T} {c : Nat → Cf w F.T} (hd : d.Is u m V c .none)
    (hl : l.Is u m W b .none) {δ : ℝ} : (Layer.dense d).Within δ (.dense l)
      ↔ (∀ j < u, ∀ i < m, (V j i).Within δ (W j i)) ∧ (∀ j < u, (c j).Within δ (b j))
        ∧ d.weights.capacity = l.weights.capacity := by
  show (Mat.Rel (Cf.Within δ) d.weights l.weights ∧ List.Forall₂ (Cf.Within δ) d.biases l.biases ∧ d.func = l.func) ↔ _
  unfold Mat.Rel
  rw [hd.1.2, hl.1.2, hd.2.1, hl.2.1, hd.2.2, hl.2.2, hd.1.1, hl.1.1, forall₂_table, forall₂_range]
  tauto

theorem par_entry (W W' : Nat → Nat → Cf w ℝ) (b b' : Nat → Cf w ℝ) {j : Nat} (hj : j < u) :
    (∀ i < m, ‖(W j i).toC - (W' j i).toC‖ ≤ ‖toPar u m W b - toPar u m W' b'‖)
      ∧ ‖(b j).toC - (b' j).toC‖ ≤ ‖toPar u m W b - toPar u m W' b'‖ := by
  refine ⟨fun i hi => ?_, ?_⟩
  · have := PiLp.norm_apply_le (toPar u m W b - toPar u m W' b') (.inl (⟨j, hj⟩, ⟨i, hi⟩))
    simpa [toPar] using this
  · have := PiLp.norm_apply_le (toPar u m W b - toPar u m W' b') (.inr ⟨j, hj⟩)
    simpa [toPar] using this

/-- The constant in the next theorem. -/
noncomputable def parConst (u m : Nat) : ℝ := Real.sqrt (Fintype.card ((Fin u × Fin m) ⊕ Fin u))

theorem par_close {η : ℝ} (h0 : 0 ≤ η) (h1 : ∀ j < u, ∀ i < m, ‖(W j i).toC - (W' j i).toC‖ ≤ η)
    (h2 : ∀ j < u, ‖(b j).toC - (b' j).toC‖ ≤ η) : ‖toPar u m W b - toPar u m W' b'‖ ≤ parConst u m * η := by
  have hk : 0 ≤ parConst u m := Real.sqrt_nonneg _
  rw [← sq_le_sq₀ (norm_nonneg _) (by positivity), mul_pow, parConst, Real.sq_sqrt (by positivity),
    EuclideanSpace.norm_sq_eq]
  refine (Finset.sum_le_card_nsmul _ _ (η ^ 2) fun k _ => ?_).trans_eq ?_
  · rcases k with ⟨j, i⟩ | j
    · have := h1 j j.2 i i.2
      have e : (toPar u m W b - toPar u m W' b') (.inl (j, i)) = (W j i).toC - (W' j i).toC := by simp [toPar]
      rw [e]
      gcongr
    · have := h2 j j.2
      have e : (toPar u m W b - toPar u m W' b') (.inr j) = (b j).toC - (b' j).toC := by simp [toPar]
      rw [e]
      gcongr
  · rw [nsmul_eq_mul, Finset.card_univ]

/-- The exact layer with the values of a rounded one. -/
theorem shadow {δ : ℝ} (hδ : 0 ≤ δ) (hw : (Layer.dense d).Within δ (.dense l)) (hl : l.Is u m W b .none) :
    ∃ (l₁ : Dense (Cf w ℝ)) (W₁ : Nat → Nat → Cf w ℝ) (b₁ : Nat → Cf w ℝ), l₁.Is u m W₁ b₁ .none
      ∧ l₁.weights.capacity = l.weights.capacity ∧ (Layer.dense d).Within 0 (.dense l₁)
      ∧ ‖toPar u m W₁ b₁ - toPar u m W b‖ ≤ parConst u m * (2 * δ) := by
  obtain ⟨V, c, hd⟩ := within_is hw hl
  have h1 := (within_iff hd hl).mp hw
  let W₁ : Nat → Nat → Cf w ℝ := fun j i => ⟨F.val (V j i).x, F.val (V j i).y⟩
  let b₁ : Nat → Cf w ℝ := fun j => ⟨F.val (c j).x, F.val (c j).y⟩
  let l₁ : Dense (Cf w ℝ) := ⟨⟨table u m W₁, (u, m), l.weights.capacity⟩, (List.range u).map b₁, .none⟩
  have hl₁ : l₁.Is u m W₁ b₁ .none := ⟨⟨rfl, rfl⟩, rfl, rfl⟩
  have h0 : ∀ {a : Cf w F.T} {z : Cf w ℝ}, a.Within δ z → a.Within 0 (⟨F.val a.x, F.val a.y⟩ : Cf w ℝ) := by
    intro a z h
    exact ⟨⟨h.1.1, by simp⟩, h.2.1, by simp⟩
  refine ⟨l₁, W₁, b₁, hl₁, rfl, (within_iff hd hl₁).mpr ⟨fun j hj i hi => h0 (h1.1 j hj i hi),
    fun j hj => h0 (h1.2.1 j hj), h1.2.2⟩, par_close (by positivity) (fun j hj i hi => ?_) fun j hj => ?_⟩
  · exact (h0 (h1.1 j hj i hi)).gap (h1.1 j hj i hi)
  · exact (h0 (h1.2.1 j hj)).gap (h1.2.1 j hj)

theorem within_move {δ η : ℝ} (hw : (Layer.dense d).Within δ (.dense l)) (hl : l.Is u m W b .none)
    (hl' : l'.Is u m W' b' .none) (hc : l'.weights.capacity = l.weights.capacity)
    (h : ‖toPar u m W b - toPar u m W' b'‖ ≤ η) : (Layer.dense d).Within (δ + η) (.dense l') := by
  obtain ⟨V, c, hd⟩ := within_is hw hl
  have h1 := (within_iff hd hl).mp hw
  exact (within_iff hd hl').mpr ⟨fun j hj i hi => (h1.1 j hj i hi).move (((par_entry W W' b b' hj).1 i hi).trans h),
    fun j hj => (h1.2.1 j hj).move ((par_entry (m := m) W W' b b' hj).2.trans h), h1.2.2.trans hc.symm⟩

theorem within_head {δ : ℝ} {pre : List (Layer (Cf w ℝ))} {n : Net (Cf w F.T)} :
    n.Within δ (withHead pre l) ↔ ∃ (pre' : List (Layer (Cf w F.T))) (d : Dense (Cf w F.T)),
      n.layers = pre' ++ [.dense d] ∧ List.Forall₂ (Layer.Within δ) pre' pre ∧ (Layer.dense d).Within δ (.dense l) := by
  constructor
  · intro h
    have h' : List.Forall₂ (Layer.Within δ) n.layers (pre ++ [.dense l]) := h
    rw [← List.take_append_drop pre.length n.layers] at h'
    have hlen := h'.length_eq
    rw [List.take_append_drop, List.length_append, List.length_singleton] at hlen
    have h1 := List.forall₂_take_append _ _ _ h
    have h2 := List.forall₂_drop_append _ _ _ h
    rw [List.forall₂_cons_right_iff] at h2
    obtain ⟨a, t, ha, ht, e⟩ := h2
    obtain rfl := List.forall₂_nil_right_iff.mp ht
    cases a with
    | dense d =>
      refine ⟨_, d, ?_, h1, ha⟩
      rw [← e, List.take_append_drop]
    | conv | reduce | flatten => exact ha.elim
  · rintro ⟨pre', d, h1, h2, h3⟩
    show List.Forall₂ (Layer.Within δ) n.layers (pre ++ [.dense l])
    rw [h1]
    exact List.rel_append h2 (.cons h3 .nil)

end within

/-! ## One epoch -/

variable {w : Width} {pre : List (Layer (Cf w ℝ))} {s : Size} {u m : Nat}
  {l : Dense (Cf w ℝ)} {W : Nat → Nat → Cf w ℝ} {b : Nat → Cf w ℝ} {bs : List (Part w)}

theorem net_move {F : Format} {δ η : ℝ} {n : Net (Cf w F.T)} (hw : n.Within δ (withHead pre l))
    (hl : l.Is u m W b .none) {l' : Dense (Cf w ℝ)} {W' : Nat → Nat → Cf w ℝ} {b' : Nat → Cf w ℝ}
    (hl' : l'.Is u m W' b' .none) (hc : l'.weights.capacity = l.weights.capacity)
    (h : ‖toPar u m W b - toPar u m W' b'‖ ≤ η) : n.Within (δ + η) (withHead pre l') := by
  obtain ⟨pre', d, h1, h2, h3⟩ := within_head.mp hw
  have h0 : 0 ≤ η := (norm_nonneg _).trans h
  exact within_head.mpr ⟨pre', d, h1, h2.imp fun _ _ h => h.mono (by linarith), within_move h3 hl hl' hc h⟩

theorem FixedFront.capacity (h : FixedFront pre s m) {l' : Dense (Cf w ℝ)} {S : List (TrainStep (Cf w ℝ))}
    (ht : (withHead pre l).train S = some (withHead pre l')) : l'.weights.capacity = l.weights.capacity :=
  (train_front ht h.fixed rfl rfl rfl).2

theorem FixedFront.smooth (h : FixedFront pre s m) (hl : l.Is u m W b .none) : (withHead pre l).Smooth := by
  intro d hd
  rcases List.mem_append.mp hd with hd | hd
  · have := h.fixed d hd
    cases d with
    | dense | conv => exact this.elim
    | reduce | flatten => exact .inl rfl
  · obtain rfl := List.mem_singleton.mp hd
    exact .inl hl.2.2

theorem head_pools (hp : ∀ d, Layer.reduce d ∈ pre → d.blockFunc = meanBlock) : (withHead pre l).MeanPools := by
  intro d hd
  rcases List.mem_append.mp hd with hd | hd
  · exact hp d hd
  · simp at hd

/-- One epoch in any format of sufficient precision, uniformly for all starts in a ball. -/
theorem FixedFront.uniform (h : FixedFront pre s m)
    (hb : ∀ p ∈ bs, p.pts ≠ [] ∧ ∀ q ∈ p.pts, q.1.HasSize s ∧ q.2.length = u)
    (hp : ∀ d, Layer.reduce d ∈ pre → d.blockFunc = meanBlock) (cap : Nat × Nat) (θ₀ : Par u m) (R : ℝ) {ε : ℝ} (hε : 0 < ε) :
    ∃ δ > 0, ∀ F : Format, F.Sound → F.u ≤ δ → ∀ n : Net (Cf w F.T), n.MeanPools →
      ∀ (l : Dense (Cf w ℝ)) (W : Nat → Nat → Cf w ℝ) (b : Nat → Cf w ℝ), l.Is u m W b .none →
      l.weights.capacity = cap → ‖toPar u m W b - θ₀‖ ≤ R → n.Within δ (withHead pre l) →
      ∀ S : List (TrainStep (Cf w F.T)), stepsWithin δ S (bs.map Part.call) →
      ∃ (l' : Dense (Cf w ℝ)) (W' : Nat → Nat → Cf w ℝ) (b' : Nat → Cf w ℝ) (n' : Net (Cf w F.T)),
        l'.Is u m W' b' .none ∧ l'.weights.capacity = cap
        ∧ toPar u m W' b' = bs.foldl (Part.next pre u m) (toPar u m W b)
        ∧ n.train S = some n' ∧ n'.Within ε (withHead pre l') := by
  by_contra hc
  obtain ⟨F, hF, hbad⟩ := bad_sequence hc
  simp only [not_forall] at hbad
  choose n h1 l W b h2 h3 h4 h5 S h6 h7 using hbad
  obtain ⟨θ', -, φ, hφ, hlim⟩ := tendsto_subseq_of_bounded (Metric.isBounded_closedBall (x := θ₀) (r := R))
    (x := fun k => toPar u m (W k) (b k)) fun k => by rw [Metric.mem_closedBall, dist_eq_norm]; exact h4 k
  obtain ⟨l0, W', b', hl0, rfl⟩ := exists_layer (w := w) u m θ'
  let l' : Dense (Cf w ℝ) := ⟨⟨l0.weights.body, l0.weights.shape, cap⟩, l0.biases, l0.func⟩
  have hl' : l'.Is u m W' b' .none := hl0
  obtain ⟨l₁, W₁, b₁, k1, k2, k3⟩ := h.train_par hl' hb
  have hcap : l₁.weights.capacity = cap := h.capacity k1
  have hF' : Finer atTop (fun k => F (φ k)) := ⟨fun k => hF.sound _, hF.lim.comp hφ.tendsto_atTop⟩
  have hφi := tendsto_inv.comp hφ.tendsto_atTop
  have hd : Tendsto (fun k => ‖toPar u m (W (φ k)) (b (φ k)) - toPar u m W' b'‖) atTop (𝓝 0) :=
    tendsto_iff_norm_sub_tendsto_zero.mp hlim
  have hδ : Tendsto (fun k => 1 / ((φ k : ℝ) + 1) + ‖toPar u m (W (φ k)) (b (φ k)) - toPar u m W' b'‖) atTop (𝓝 0) := by
    simpa using hφi.add hd
  have hst : RL atTop (RStep atTop) (fun k => S (φ k)) (bs.map Part.call) :=
    RL.point (fun k => h6 (φ k)) fun a b _ h => ⟨RData_of_within hφi fun k => (h k).1,
      .of_forall fun k => (h k).2.1, nearC_of_within hφi fun k => (h k).2.2⟩
  have hnet : RNet atTop (NearC atTop) (fun k => n (φ k)) (withHead pre l') :=
    RNet_of_within hF' hδ (fun k => net_move (h5 (φ k)) (h2 (φ k)) hl' (h3 (φ k)).symm le_rfl) (fun k => h1 (φ k))
      (head_pools hp)
  obtain ⟨n', j1, j2⟩ := C78_run hF' hnet hst ((h.smooth hl').run _) k1
  have hE : Tendsto (fun k => ‖bs.foldl (Part.next pre u m) (toPar u m (W (φ k)) (b (φ k)))
      - bs.foldl (Part.next pre u m) (toPar u m W' b')‖) atTop (𝓝 0) := by
    simp only [epoch_diff]
    have hcont : Continuous (epochMap pre u m bs) := LinearMap.continuous_of_finiteDimensional _
    have := ((hcont.tendsto 0).comp (tendsto_zero_iff_norm_tendsto_zero.mpr hd)).norm
    simpa using this
  obtain ⟨k, i1, i2, i3⟩ := (j2.and ((RL.eventually j1 fun _ _ => RLayer_within (half_pos hε)).and
    (hE.eventually_lt_const (half_pos hε)))).exists
  obtain ⟨l₂, W₂, b₂, e1, e2, e3⟩ := h.train_par (h2 (φ k)) hb
  have hc2 : l₂.weights.capacity = cap := (h.capacity e1).trans (h3 (φ k))
  refine h7 (φ k) ⟨l₂, W₂, b₂, n' k, e2, hc2, e3, i1, ?_⟩
  rw [← add_halves ε]
  refine net_move i2 k2 e2 (hc2.trans hcap.symm) ?_
  rw [norm_sub_rev, e3, k3]
  exact i3.le

/-! ## Long runs -/

theorem Determined.bot (hd : Determined pre u m bs) (h : FixedFront pre s m)
    (hb : ∀ p ∈ bs, ∀ q ∈ p.pts, q.1.HasSize s) : silentOn pre u m bs = ⊥ := by
  refine (Submodule.eq_bot_iff _).mpr fun θ hθ => ?_
  rw [mem_silentOn] at hθ
  obtain ⟨l₁, W₁, b₁, h₁, rfl⟩ := exists_layer (w := w) u m θ
  obtain ⟨l₂, W₂, b₂, h₂, e0⟩ := exists_layer (w := w) u m (0 : Par u m)
  have := hd l₁ l₂ ⟨_, _, h₁⟩ ⟨_, _, h₂⟩ fun p hp q hq => by
    have h0 : design u m (featX pre p.pts) (toPar u m W₁ b₁) = design u m (featX pre p.pts) (toPar u m W₂ b₂) := by
      rw [hθ p hp, e0, map_zero]
    obtain ⟨i, hi, rfl⟩ := List.mem_iff_getElem.mp hq
    rw [h.forward h₁ (hb p hp _ hq), h.forward h₂ (hb p hp _ hq)]
    congr 3
    refine List.map_congr_left fun j hj => ?_
    have hj' := List.mem_range.mp hj
    have e1 := design_toPar (pre := pre) (m := m) (pts := p.pts) (u := u) W₁ b₁ (⟨i, hi⟩, ⟨j, hj'⟩)
    have e2 := design_toPar (pre := pre) (m := m) (pts := p.pts) (u := u) W₂ b₂ (⟨i, hi⟩, ⟨j, hj'⟩)
    rw [h0] at e1
    have e3 := e1.symm.trans e2
    rw [← Cf.toC_inj]
    simpa using e3
  rwa [distSq_eq h₁ h₂, e0, sub_zero, pow_eq_zero_iff two_ne_zero, norm_eq_zero] at this

theorem Layer.Within.fixed {F : Format} {δ : ℝ} {d : Layer (Cf w F.T)} {e : Layer (Cf w ℝ)} (h : d.Within δ e)
    (he : e.Fixed) : d.Fixed := by
  cases d <;> cases e <;> first
    | exact h.elim
    | exact he.elim
    | trivial

theorem pools_append {F : Format} {n n' : Net (Cf w F.T)} {pre' : List (Layer (Cf w F.T))} {d d' : Dense (Cf w F.T)}
    (h : n.layers = pre' ++ [.dense d]) (h' : n'.layers = pre' ++ [.dense d']) (hn : n.MeanPools) : n'.MeanPools := by
  intro e he
  refine hn e ?_
  rw [h'] at he
  rw [h]
  simpa using he

/-- C126. Rounding errors do not accumulate. Let the points of the batches determine the parameters, and let the
learning rates be below the thresholds of the batches. Then for every `ε` a precision suffices with which training in
epochs never fails and stays within `ε` of the exact run for ever, however long the run is. -/
theorem C126_run (h : FixedFront pre s m) (hu : 0 < u) (hb : ∀ p ∈ bs, p.Fine pre s u m) (hd : Determined pre u m bs)
    (hp : ∀ d, Layer.reduce d ∈ pre → d.blockFunc = meanBlock) {L : Nat → Dense (Cf w ℝ)}
    (hrun : EpochRun pre u m bs L) {ε : ℝ} (hε : 0 < ε) :
    ∃ δ > 0, ∀ F : Format, F.Sound → F.u ≤ δ → ∀ n : Net (Cf w F.T), n.MeanPools → n.Within δ (withHead pre (L 0)) →
      ∀ S : Nat → List (TrainStep (Cf w F.T)), (∀ k, stepsWithin δ (S k) (bs.map Part.call)) →
      ∀ T : Nat, ∃ n' : Net (Cf w F.T), n.train ((List.range T).map S).flatten = some n'
        ∧ n'.Within ε (withHead pre (L T)) := by
  have hb1 : ∀ p ∈ bs, p.pts ≠ [] ∧ ∀ q ∈ p.pts, q.1.HasSize s ∧ q.2.length = u :=
    fun p hp => ⟨(hb p hp).ne, (hb p hp).sized⟩
  have hbot := hd.bot h fun p hp q hq => ((hb1 p hp).2 q hq).1
  have hsh := epoch_shrinks h hu hb
  obtain ⟨ρ, r0, r1, hr⟩ := hsh.factor
  have hr1 : ∀ d, ‖epochMap pre u m bs d‖ ≤ ρ * ‖d‖ := by
    intro d
    have := hr d (by rw [hbot, Submodule.bot_orthogonal_eq_top]; trivial) 1
    simpa using this
  obtain ⟨θ, t1, t2⟩ := h.epochs hb1 hrun
  obtain ⟨θ', hfix, -⟩ := hsh.fixed (E := bs.foldl (Part.next pre u m)) epoch_diff epoch_perp (θ 0)
  have hdist : ∀ T, ‖θ T - θ'‖ ≤ ‖θ 0 - θ'‖ := by
    intro T
    induction T with
    | zero => rfl
    | succ T ih =>
      rw [t1, ← hfix, epoch_diff, hfix]
      exact (hsh.le _).trans ih
  have hcapT : ∀ T, (L T).weights.capacity = (L 0).weights.capacity := fun T => h.capacity (hrun.train T)
  have hk : 0 ≤ parConst u m := Real.sqrt_nonneg _
  -- the accuracy needed in every epoch
  obtain ⟨ε₁, he1, he2, he3⟩ : ∃ ε₁ > 0, parConst u m * (2 * ε₁) ≤ (1 - ρ) * ε ∧ ε₁ ≤ ε := by
    suffices hs : ∃ ε₁ > 0, parConst u m * (2 * ε₁) ≤ (1 - ρ) * ε by
      obtain ⟨e, h1, h2⟩ := hs
      refine ⟨min e ε, lt_min h1 hε, le_trans ?_ h2, min_le_right _ _⟩
      have := min_le_left e ε
      gcongr
    refine ⟨(1 - ρ) * ε / (2 * (parConst u m + 1)), div_pos (mul_pos (by linarith) hε) (by positivity), ?_⟩
    rw [show parConst u m * (2 * ((1 - ρ) * ε / (2 * (parConst u m + 1))))
      = (1 - ρ) * ε * (parConst u m / (parConst u m + 1)) by field_simp]
    have h1 : parConst u m / (parConst u m + 1) ≤ 1 := by
      rw [div_le_one (by positivity)]
      linarith
    have h2 : 0 ≤ (1 - ρ) * ε := mul_nonneg (by linarith) hε.le
    nlinarith
  obtain ⟨δ₁, hδ₁, key⟩ := h.uniform hb1 hp (L 0).weights.capacity θ' (ε + ‖θ 0 - θ'‖) he1
  refine ⟨min δ₁ ε₁, lt_min hδ₁ he1, fun F hF hFu n hn hw S hS T => ?_⟩
  have hFu' := hFu.trans (min_le_left _ _)
  obtain ⟨pre', d₀, n1, n2, n3⟩ := within_head.mp hw
  have hfix' : ∀ d ∈ pre', d.Fixed := by
    intro d hd
    obtain ⟨i, hi, rfl⟩ := List.mem_iff_getElem.mp hd
    have := n2.get hi (n2.length_eq ▸ hi)
    exact Layer.Within.fixed this (h.fixed _ (List.get_mem _ _))
  have main : ∀ T : Nat, ∃ (n' : Net (Cf w F.T)) (d : Dense (Cf w F.T)) (l₁ : Dense (Cf w ℝ))
      (W₁ : Nat → Nat → Cf w ℝ) (b₁ : Nat → Cf w ℝ), n.train ((List.range T).map S).flatten = some n'
      ∧ n'.layers = pre' ++ [.dense d] ∧ l₁.Is u m W₁ b₁ .none ∧ l₁.weights.capacity = (L 0).weights.capacity
      ∧ (Layer.dense d).Within 0 (.dense l₁) ∧ ‖toPar u m W₁ b₁ - θ T‖ ≤ ε := by
    intro T
    induction T with
    | zero =>
      obtain ⟨Wo, bo, hWo, hθo⟩ := t2 0
      obtain ⟨l₁, W₁, b₁, s1, s2, s3, s4⟩ := shadow (lt_min hδ₁ he1).le n3 hWo
      refine ⟨n, d₀, l₁, W₁, b₁, rfl, n1, s1, s2, s3, ?_⟩
      rw [hθo]
      have h1 : parConst u m * (2 * min δ₁ ε₁) ≤ parConst u m * (2 * ε₁) := by
        have := min_le_right δ₁ ε₁
        gcongr
      nlinarith
    | succ T ih =>
      obtain ⟨n', d, l₁, W₁, b₁, i1, i2, i3, i4, i5, i6⟩ := ih
      have hin : ‖toPar u m W₁ b₁ - θ'‖ ≤ ε + ‖θ 0 - θ'‖ := by
        have := norm_add_le (toPar u m W₁ b₁ - θ T) (θ T - θ')
        rw [sub_add_sub_cancel] at this
        linarith [hdist T]
      have hwn : n'.Within δ₁ (withHead pre l₁) := within_head.mpr ⟨pre', d, i2,
        n2.imp fun _ _ h => h.mono (min_le_left _ _), i5.mono hδ₁.le⟩
      have hSn : stepsWithin δ₁ (S T) (bs.map Part.call) := by
        refine (hS T).imp fun a b hab => ?_
        have hm : ∀ (a : Cf w F.T) (z : Cf w ℝ), a.Within (min δ₁ ε₁) z → a.Within δ₁ z :=
          fun a z => Cf.Within.mono (min_le_left _ _)
        exact ⟨⟨hab.1.1.imp fun _ _ => io_mono hm, hab.1.2.imp fun _ _ => io_mono hm⟩, hab.2.1, hm _ _ hab.2.2⟩
      obtain ⟨l₂, W₂, b₂, n'', j1, j2, j3, j4, j5⟩ := key F hF hFu' n' (pools_append n1 i2 hn) l₁ W₁ b₁ i3 i4 hin hwn
        (S T) hSn
      obtain ⟨pre'', d', k1, k2, k3⟩ := within_head.mp j5
      obtain ⟨rfl, -⟩ := train_front j4 hfix' i2 k1 (k2.length_eq.trans n2.length_eq.symm)
      obtain ⟨l₃, W₃, b₃, s1, s2, s3, s4⟩ := shadow he1.le k3 j1
      refine ⟨n'', d', l₃, W₃, b₃, ?_, k1, s1, s2.trans j2, s3, ?_⟩
      · rw [List.range_succ, List.map_append, List.flatten_append, Net.train, List.foldlM_append]
        rw [Net.train] at i1 j4
        rw [i1]
        simpa using j4
      · have e1 := norm_add_le (toPar u m W₃ b₃ - toPar u m W₂ b₂) (toPar u m W₂ b₂ - θ (T + 1))
        rw [sub_add_sub_cancel] at e1
        have e2 : ‖toPar u m W₂ b₂ - θ (T + 1)‖ ≤ ρ * ε := by
          rw [j3, t1, epoch_diff]
          exact (hr1 _).trans (by gcongr)
        linarith
  obtain ⟨n', d, l₁, W₁, b₁, i1, i2, i3, i4, i5, i6⟩ := main T
  obtain ⟨WT, bT, hWT, hθT⟩ := t2 T
  refine ⟨n', i1, within_head.mpr ⟨pre', d, i2, n2.imp fun _ _ h => ?_, ?_⟩⟩
  · exact h.mono ((min_le_right _ _).trans he3)
  · have := within_move i5 i3 hWT ((hcapT T).trans i4.symm) (hθT ▸ i6)
    rwa [zero_add] at this

theorem Determined.unique (hd : Determined pre u m bs) (h : FixedFront pre s m) (hu : 0 < u)
    (hb : ∀ p ∈ bs, p.Fine pre s u m) {l' : Dense (Cf w ℝ)} (hl : l.Settled pre u m bs) (hl' : l'.Settled pre u m bs) :
    l.distSq l' = 0 := by
  have hb1 : ∀ p ∈ bs, p.pts ≠ [] ∧ ∀ q ∈ p.pts, q.1.HasSize s ∧ q.2.length = u :=
    fun p hp => ⟨(hb p hp).ne, (hb p hp).sized⟩
  obtain ⟨W, b, h1⟩ := hl.1
  obtain ⟨W', b', h2⟩ := hl'.1
  have e1 := (h.settled_par h1 hb1).mp hl
  have e2 := (h.settled_par h2 hb1).mp hl'
  have hin : toPar u m W b - toPar u m W' b' ∈ silentOn pre u m bs := by
    refine (epoch_shrinks h hu hb).eq _ ?_
    rw [← epoch_diff, e1, e2]
  rw [hd.bot h fun p hp q hq => ((hb1 p hp).2 q hq).1, Submodule.mem_bot] at hin
  rw [distSq_eq h1 h2, hin]
  simp

/-- C126. Training with rounding errors settles as closely as wanted at the parameters at which exact training settles
(there is only one choice): for every `ε` a precision and a number of epochs suffice after which the network stays
within `ε` of them for ever. -/
theorem C126_settles (h : FixedFront pre s m) (hu : 0 < u) (hb : ∀ p ∈ bs, p.Fine pre s u m)
    (hd : Determined pre u m bs) (hp : ∀ d, Layer.reduce d ∈ pre → d.blockFunc = meanBlock)
    (hl : l.Linear u m) : ∃ l' : Dense (Cf w ℝ), l'.Settled pre u m bs
      ∧ (∀ l'' : Dense (Cf w ℝ), l''.Settled pre u m bs → l''.distSq l' = 0)
      ∧ ∀ ε : ℝ, 0 < ε → ∃ T₀ : Nat, ∃ δ > 0, ∀ F : Format, F.Sound → F.u ≤ δ → ∀ n : Net (Cf w F.T), n.MeanPools →
        n.Within δ (withHead pre l) → ∀ S : Nat → List (TrainStep (Cf w F.T)),
        (∀ k, stepsWithin δ (S k) (bs.map Part.call)) →
        ∀ T : Nat, T₀ ≤ T → ∃ n' : Net (Cf w F.T), n.train ((List.range T).map S).flatten = some n'
          ∧ n'.Within ε (withHead pre l') := by
  have hb1 : ∀ p ∈ bs, p.pts ≠ [] ∧ ∀ q ∈ p.pts, q.1.HasSize s ∧ q.2.length = u :=
    fun p hp => ⟨(hb p hp).ne, (hb p hp).sized⟩
  obtain ⟨L, rfl, hrun⟩ := C121_run h hl hb1
  obtain ⟨ρ, r0, r1, hlim⟩ := C125_limit h hu hb
  obtain ⟨l0, hset, hdist, -⟩ := hlim L hrun
  obtain ⟨W', b', hl0⟩ := hset.1
  let l' : Dense (Cf w ℝ) := ⟨⟨l0.weights.body, l0.weights.shape, (L 0).weights.capacity⟩, l0.biases, l0.func⟩
  have hl' : l'.Is u m W' b' .none := hl0
  have hset' : l'.Settled pre u m bs := (h.settled_par hl' hb1).mpr ((h.settled_par hl0 hb1).mp hset)
  refine ⟨l', hset', fun l'' hs => hd.unique h hu hb hs hset', fun ε hε => ?_⟩
  have hto : Tendsto (fun T => ρ ^ T * (L 0).distSq l0) atTop (𝓝 0) := by
    simpa using (tendsto_pow_atTop_nhds_zero_of_lt_one r0 r1).mul_const ((L 0).distSq l0)
  obtain ⟨T₀, hT₀⟩ := eventually_atTop.mp (hto.eventually_lt_const (show 0 < (ε / 2) ^ 2 by positivity))
  obtain ⟨δ, hδ, key⟩ := C126_run h hu hb hd hp hrun (half_pos hε)
  refine ⟨T₀, δ, hδ, fun F hF hFu n hn hw S hS T hT => ?_⟩
  obtain ⟨n', k1, k2⟩ := key F hF hFu n hn hw S hS T
  obtain ⟨WT, bT, hWT⟩ := hrun.linear T
  refine ⟨n', k1, ?_⟩
  rw [← add_halves ε]
  refine net_move k2 hWT hl' (h.capacity (hrun.train T)).symm ?_
  have h1 := ((hdist T).trans_lt (hT₀ T hT)).le
  rw [distSq_eq hWT hl0] at h1
  exact le_of_sq_le_sq h1 (by positivity)

/-! ## Drift -/

/-- A network with one weight `a`; `z` stands for zero. -/
def driftNet {R : Type} (a z : R) : Net (Cf w R) :=
  ⟨[.flatten ⟨((1, 1), 1)⟩, .dense ⟨Mat.fromBody [⟨a, z⟩] (1, 1), [⟨z, z⟩], .none⟩]⟩

/-- The training call with input and target zero. -/
def driftCall {R : Type} (z o : R) (f : LossFunc) : TrainStep (Cf w R) :=
  (⟨[.matrix [Mat.fromBody [⟨z, z⟩] (1, 1)]], [.scalar [⟨z, z⟩]]⟩, f, ⟨o, z⟩)

/-- The call subtracts zero from the weight. -/
theorem drift_step {R : Type} [Scalar R] {a a' z o : R} (f : LossFunc) (h1 : Scalar.zero = z)
    (h2 : Scalar.add z z = z) (h3 : Scalar.sub z z = z) (h4 : Scalar.neg z = z) (h5 : Scalar.sub a z = a')
    (h6 : ∀ x : R, Scalar.mul x z = z) (h7 : ∀ x : R, Scalar.mul z x = z) {v : Cf w R}
    (h8 : (⟨o, z⟩ : Cf w R).div (Cf.ofUsize 1) = some v) :
    (driftNet a z : Net (Cf w R)).train [driftCall z o f] = some (driftNet a' z) := by
  suffices H : (driftNet a z : Net (Cf w R)).gradientOpt (driftCall (w := w) z o f).1 f ⟨o, z⟩
      = some (.ok (), driftNet a' z) by
    rw [Net.train, List.foldlM_cons]
    show ((Net.gradientOpt _ _ _ _).map Prod.snd).bind _ = _
    erw [H]
    rfl
  cases f
  all_goals
    simp only [Net.gradientOpt, Dataset.points, driftNet, driftCall, Mat.fromBody, List.zip_cons_cons,
      List.zip_nil_left, List.foldlM_cons, List.foldlM_nil, Net.sampleStep, Net.collectActs, List.length_cons,
      List.length_nil]
    simp [Net.collectLoop, Net.fwd, Layer.forward, Flatten.forward, Dense.forward, Option.bind_eq_bind, unwrap,
      Dense.computeQ, Mat.mulSlice, Mat.getBody, activateMut, Mat.rowsAsIter, addSliceMut, zipUpd, Net.initAcc,
      Layer.propagates, Dense.propagates, Flatten.propagates, Layer.paramsLen, Dense.paramsLen, BasicOps.zero,
      BasicOps.add, BasicOps.mul, BasicOps.addAssign, CplxOps.activate, Act.activate, Cf.add, Cf.mul, Cf.addAssign,
      Cf.default, CplxOps.dLoss, CplxOps.conj, Net.backLoop, Layer.computeDerivatives, Dense.computeDerivatives,
      Dense.derivLoop, Cf.conj, CplxOps.dActivate, CplxOps.dConjActivate, Net.updateLayer, Layer.negConjAdjustment,
      Dense.negConjAdjustment, mulMutScalar, BasicOps.subAssign, Cf.subAssign, BasicOps.div, BasicOps.mulAssign,
      CplxOps.ofUsize, chunks, chunksPos, chunksAux, Loss.computeD, Loss.dFunc, Loss.dMeanSq, Loss.dNormCe,
      Loss.dSqError, Cf.mulAssign, Act.dActivate, Act.dConjActivate, BasicOps.sub, Cf.sub, List.mapM_cons, h1, h2, h3,
      h4, h5, h6, h7, h8]

theorem Format.biased_sound {u : ℝ} (hu : 0 ≤ u) : (Format.biased u).Sound := by
  have h := Format.exact_sound hu
  have key : ∀ a b : ℝ, |(if 1 ≤ a then a - b + u else a - b) - (a - b)| ≤ u * (1 + |a - b|) := by
    intro a b
    have h1 : 0 ≤ u * |a - b| := mul_nonneg hu (abs_nonneg _)
    split
    · rw [add_sub_cancel_left, abs_of_nonneg hu]
      linarith
    · rw [sub_self, abs_zero]
      linarith
  refine { h with sub := fun {a b} _ _ _ => ⟨trivial, ?_⟩ }
  exact key a b

theorem drift_biased (f : LossFunc) {δ : ℝ} (hδ : 0 ≤ δ) {a : ℝ} (ha : 1 ≤ a) :
    (driftNet (R := (Format.biased δ).T) a (0 : ℝ) : Net (Cf w (Format.biased δ).T)).train
      [driftCall (R := (Format.biased δ).T) (0 : ℝ) (1 : ℝ) f]
      = some (driftNet (R := (Format.biased δ).T) (a + δ : ℝ) (0 : ℝ)) := by
  have h0 : ¬ (1 : ℝ) ≤ 0 := by norm_num
  have hv : ∃ v, (⟨(1 : ℝ), (0 : ℝ)⟩ : Cf w (Format.biased δ).T).div (Cf.ofUsize 1) = some v := by
    refine ⟨_, if_neg (mt ((Format.biased_sound hδ).beq trivial trivial).mp ?_)⟩
    show ¬ (((1 : ℕ) : ℝ) ^ 2 + (((0 : Int) : ℝ) / ((1 : ℕ) : ℝ)) ^ 2 = ((0 : Int) : ℝ) / ((1 : ℕ) : ℝ))
    norm_num
  obtain ⟨v, hv⟩ := hv
  refine drift_step f ?_ ?_ ?_ ?_ ?_ ?_ ?_ hv
  · show ((0 : Int) : ℝ) / ((1 : Nat) : ℝ) = 0
    simp
  · show (0 : ℝ) + 0 = 0
    simp
  · show (if (1 : ℝ) ≤ 0 then (0 : ℝ) - 0 + δ else 0 - 0) = 0
    simp [h0]
  · show -(0 : ℝ) = 0
    simp
  · show (if (1 : ℝ) ≤ a then a - 0 + δ else a - 0) = a + δ
    simp [ha]
  · exact (mul_zero : ∀ x : ℝ, x * 0 = 0)
  · exact (zero_mul : ∀ x : ℝ, 0 * x = 0)

/-- C126, the assumption that the points determine the parameters is needed. There are a network, a batch with a
learning rate below its threshold and an exact run that never changes anything such that, however high the precision,
some format of this precision takes the weight as far away as wanted. -/
theorem C126_drift (f : LossFunc) : ∃ (pre : List (Layer (Cf w ℝ))) (s : Size) (bs : List (Part w))
    (l : Dense (Cf w ℝ)), FixedFront pre s 1 ∧ (∀ p ∈ bs, p.Fine pre s 1 1) ∧ EpochRun pre 1 1 bs (fun _ => l)
      ∧ (∀ d, Layer.reduce d ∈ pre → d.blockFunc = meanBlock)
      ∧ ∀ δ > 0, ∀ B : ℝ, ∃ F : Format, F.Sound ∧ F.u ≤ δ ∧ ∃ (n : Net (Cf w F.T)) (S : List (TrainStep (Cf w F.T)))
        (T : Nat) (n' : Net (Cf w F.T)), n.MeanPools ∧ n.Within δ (withHead pre l) ∧ stepsWithin δ S (bs.map Part.call)
        ∧ n.train (List.replicate T S).flatten = some n' ∧ ¬ n'.Within B (withHead pre l) := by
  refine ⟨exFront, .maps 1 1 1, [⟨[zeroPoint 0], f, 1⟩], ⟨Mat.fromBody [⟨1, 0⟩] (1, 1), [⟨0, 0⟩], .none⟩,
    exFront_front, ?_, ⟨fun _ => ⟨fun _ _ => ⟨1, 0⟩, fun _ => ⟨0, 0⟩, ⟨rfl, rfl⟩, rfl, rfl⟩, ?_⟩, by simp [exFront], ?_⟩
  · intro p hp
    obtain rfl := List.mem_singleton.mp hp
    exact zeroPoint_fine f one_pos one_lt_two
  · have h1 : (driftNet (1 : ℝ) 0 : Net (Cf w ℝ)).train [driftCall 0 1 f] = some (driftNet 1 0) := by
      have hv : ∃ v, (⟨1, 0⟩ : Cf w ℝ).div (Cf.ofUsize 1) = some v := by
        refine ⟨_, if_neg ?_⟩
        simp [Cf.den, Cf.ofUsize, Scalar.beq, Scalar.add, Scalar.sq, Scalar.zero, Scalar.lit, Scalar.ofNat]
      obtain ⟨v, hv⟩ := hv
      exact drift_step f (by simp [Scalar.zero, Scalar.lit]) (by simp [Scalar.add]) (by simp [Scalar.sub])
        (by simp [Scalar.neg]) (by simp [Scalar.sub]) (by simp [Scalar.mul]) (by simp [Scalar.mul]) hv
    intro T
    induction T with
    | zero => rfl
    | succ T ih =>
      rw [List.replicate_succ', List.flatten_append, List.map_append, Net.train, List.foldlM_append]
      rw [Net.train] at ih
      rw [ih]
      exact h1
  · intro δ hδ B
    obtain ⟨T, hT⟩ := exists_nat_gt (B / δ)
    refine ⟨Format.biased δ, Format.biased_sound hδ.le, le_rfl, driftNet (R := (Format.biased δ).T) (1 : ℝ) (0 : ℝ),
      [driftCall (R := (Format.biased δ).T) (0 : ℝ) (1 : ℝ) f], T,
      driftNet (R := (Format.biased δ).T) (1 + T * δ : ℝ) (0 : ℝ), ?_, ?_, ?_, ?_, ?_⟩
    · intro d hd
      simp [driftNet] at hd
    · have hc : ∀ x y : ℝ, Cf.Within (w := w) (F := Format.biased δ) δ ⟨x, y⟩ ⟨x, y⟩ := fun x y =>
        ⟨⟨trivial, by simpa [Format.biased, Format.ofRound] using hδ.le⟩, trivial,
          by simpa [Format.biased, Format.ofRound] using hδ.le⟩
      exact .cons rfl (.cons ⟨⟨.cons (hc 1 0) .nil, rfl, rfl⟩, .cons (hc 0 0) .nil, rfl⟩ .nil)
    · have hc : ∀ x y : ℝ, Cf.Within (w := w) (F := Format.biased δ) δ ⟨x, y⟩ ⟨x, y⟩ := fun x y =>
        ⟨⟨trivial, by simpa [Format.biased, Format.ofRound] using hδ.le⟩, trivial,
          by simpa [Format.biased, Format.ofRound] using hδ.le⟩
      refine .cons ⟨⟨.cons (.cons ⟨.cons (hc 0 0) .nil, rfl, rfl⟩ .nil) .nil, .cons (.cons (hc 0 0) .nil) .nil⟩, rfl,
        hc 1 0⟩ .nil
    · clear hT
      induction T with
      | zero =>
        simp
        rfl
      | succ T ih =>
        rw [List.replicate_succ', List.flatten_append, Net.train, List.foldlM_append]
        rw [Net.train] at ih
        rw [ih]
        have := drift_biased (w := w) f hδ.le (a := 1 + T * δ) (by nlinarith [(Nat.cast_nonneg T : (0 : ℝ) ≤ T)])
        rw [show (1 + T * δ + δ : ℝ) = 1 + ((T + 1 : ℕ) : ℝ) * δ by push_cast; ring] at this
        exact this
    · intro hw
      have h1 : |(1 + T * δ) - 1| ≤ B := by
        cases hw with
        | cons _ h =>
          cases h with
          | cons h _ =>
            cases h.1.1 with
            | cons h _ => exact h.1.2
      rw [add_sub_cancel_left] at h1
      have h2 := (le_abs_self _).trans h1
      rw [div_lt_iff₀ hδ] at hT
      linarith

/-! ## Non-vacuity -/

/-- Two points determine a layer with one weight and one bias, and the learning rate 1/2 is below the thresholds. -/
theorem exLong (f : LossFunc) : (∀ p ∈ [(⟨[exPoint 0], f, 1 / 2⟩ : Part .w64), ⟨[exPoint 1], f, 1 / 2⟩],
      p.Fine exFront (.maps 1 1 1) 1 1)
    ∧ Determined exFront 1 1 [(⟨[exPoint 0], f, 1 / 2⟩ : Part .w64), ⟨[exPoint 1], f, 1 / 2⟩]
    ∧ (∀ d, Layer.reduce d ∈ (exFront : List (Layer (Cf .w64 ℝ))) → d.blockFunc = meanBlock)
    ∧ (exHead 1 : Dense (Cf .w64 ℝ)).Linear 1 1 := by
  have hfr := exFront_front (w := .w64)
  refine ⟨?_, ?_, by simp [exFront], ⟨_, _, exHead_is 1⟩⟩
  · intro p hp
    have key : ∀ x : ℝ, x ^ 2 ≤ 1 → (⟨[exPoint x], f, 1 / 2⟩ : Part .w64).Fine exFront (.maps 1 1 1) 1 1 := by
      intro x hx
      refine ⟨by simp, exPoint_size x, by norm_num, fun K hK => ?_⟩
      obtain ⟨K', -, h1, -, h3⟩ := C120_steepness hfr one_pos (exPoint_size x)
      rw [ex_rateSum] at h3
      have : K = K' := h1 K hK
      show 1 / 2 * K < 2 * ((1 : ℕ) : ℝ)
      norm_num
      linarith
    simp only [List.mem_cons, List.not_mem_nil, or_false] at hp
    rcases hp with rfl | rfl
    · exact key 0 (by norm_num)
    · exact key 1 (by norm_num)
  · rintro l l' ⟨W, b, hl⟩ ⟨W', b', hl'⟩ hf
    have h0 := hf _ (List.mem_cons_self) (exPoint 0) (by simp)
    have h1 := hf ⟨[exPoint 1], f, 1 / 2⟩ (by simp) (exPoint 1) (by simp)
    rw [hfr.forward hl (exPoint_size 0 _ (by simp)).1, hfr.forward hl' (exPoint_size 0 _ (by simp)).1] at h0
    rw [hfr.forward hl (exPoint_size 1 _ (by simp)).1, hfr.forward hl' (exPoint_size 1 _ (by simp)).1] at h1
    have a0 : (⟨0, 0⟩ : Cf .w64 ℝ) = 0 := rfl
    have a1 : (⟨1, 0⟩ : Cf .w64 ℝ) = 1 := rfl
    simp [headOut, exFront_features, at', a0, a1] at h0 h1
    rw [h0] at h1
    rw [distSq_eq hl hl']
    have : toPar 1 1 W b = toPar 1 1 W' b' := by
      ext i
      rcases i with ⟨j, i⟩ | j
      · obtain rfl : i = 0 := Subsingleton.elim _ _
        obtain rfl : j = 0 := Subsingleton.elim _ _
        simpa [toPar] using congrArg Cf.toC (add_right_cancel h1)
      · obtain rfl : j = 0 := Subsingleton.elim _ _
        simpa [toPar] using congrArg Cf.toC h0
    rw [this]
    simp

example (f : LossFunc) : (∀ p ∈ [(⟨[exPoint 0], f, 1 / 2⟩ : Part .w64), ⟨[exPoint 1], f, 1 / 2⟩],
      p.Fine exFront (.maps 1 1 1) 1 1)
    ∧ Determined exFront 1 1 [(⟨[exPoint 0], f, 1 / 2⟩ : Part .w64), ⟨[exPoint 1], f, 1 / 2⟩]
    ∧ (∀ d, Layer.reduce d ∈ (exFront : List (Layer (Cf .w64 ℝ))) → d.blockFunc = meanBlock)
    ∧ (exHead 1 : Dense (Cf .w64 ℝ)).Linear 1 1 :=
  exLong f

end Renplex
