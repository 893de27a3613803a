import Verif.Spec.Affine
import Verif.Props.ReduceLaw
import Verif.Props.Hidden
/-!
# C103: networks without activation functions
-/

namespace Renplex
variable {w : Width}

theorem Dense.of_is (u m : Nat) (W : Nat → Nat → Cf w ℝ) (b : Nat → Cf w ℝ) (f : ActFunc) :
    (Dense.of u m W b f).Is u m W b f := ⟨⟨rfl, rfl⟩, rfl, rfl⟩

/-! ## Affine functions of finitely many numbers -/

/-- The function is affine in the first `n` values. -/
def AffineIn (n : Nat) (F : (Nat → Cf w ℝ) → Cf w ℝ) : Prop :=
  ∃ (a : Nat → Cf w ℝ) (c : Cf w ℝ), ∀ x, F x = (∑ i ∈ Finset.range n, a i * x i) + c

theorem AffineIn.const (n : Nat) (c : Cf w ℝ) : AffineIn n fun _ => c :=
  ⟨fun _ => 0, c, fun x => by simp⟩

theorem AffineIn.coord {n k : Nat} (hk : k < n) : AffineIn (w := w) n fun x => x k :=
  ⟨fun i => if i = k then 1 else 0, 0, fun x => by simp [hk]⟩

theorem AffineIn.add {n : Nat} {F G : (Nat → Cf w ℝ) → Cf w ℝ} (hF : AffineIn n F) (hG : AffineIn n G) :
    AffineIn n fun x => F x + G x := by
  obtain ⟨a, c, h⟩ := hF
  obtain ⟨b, d, h'⟩ := hG
  refine ⟨fun i => a i + b i, c + d, fun x => ?_⟩
  simp only [h, h', add_mul, Finset.sum_add_distrib]
  ring

theorem AffineIn.smul {n : Nat} {F : (Nat → Cf w ℝ) → Cf w ℝ} (k : Cf w ℝ) (hF : AffineIn n F) :
    AffineIn n fun x => k * F x := by
  obtain ⟨a, c, h⟩ := hF
  refine ⟨fun i => k * a i, k * c, fun x => ?_⟩
  simp only [h, mul_add, Finset.mul_sum, mul_assoc]

theorem AffineIn.sum {n : Nat} (m : Nat) {F : Nat → (Nat → Cf w ℝ) → Cf w ℝ}
    (hF : ∀ j < m, AffineIn n (F j)) : AffineIn n fun x => ∑ j ∈ Finset.range m, F j x := by
  induction m with
  | zero => exact by simpa using AffineIn.const n (0 : Cf w ℝ)
  | succ m ih =>
    have := (ih fun j hj => hF j (by omega)).add (hF m (by omega))
    simpa only [Finset.sum_range_succ] using this

/-- The family of functions as one matrix and one vector. -/
theorem AffineIn.matrix {n u : Nat} {F : Nat → (Nat → Cf w ℝ) → Cf w ℝ} (hF : ∀ k < u, AffineIn n (F k)) :
    ∃ (W : Nat → Nat → Cf w ℝ) (b : Nat → Cf w ℝ), ∀ x k, k < u →
      F k x = (∑ i ∈ Finset.range n, W k i * x i) + b k := by
  have : ∀ k, ∃ (a : Nat → Cf w ℝ) (c : Cf w ℝ), k < u → ∀ x, F k x = (∑ i ∈ Finset.range n, a i * x i) + c := by
    intro k
    by_cases hk : k < u
    · obtain ⟨a, c, h⟩ := hF k hk
      exact ⟨a, c, fun _ => h⟩
    · exact ⟨fun _ => 0, 0, fun h => absurd h hk⟩
  choose W b h using this
  exact ⟨W, b, fun x k hk => h k hk x⟩

/-! ## Layers -/

theorem IOType.HasFlat.hasSize {x : IOType (Cf w ℝ)} {s : Size} {a : Nat → Cf w ℝ} (h : x.HasFlat s a) :
    x.HasSize s := by
  cases x with
  | scalar v => cases s with
    | vec n => simp [IOType.HasSize, show v = _ from h]
    | maps n r c => exact h.elim
  | matrix ms => cases s with
    | vec n => exact h.elim
    | maps n r c => exact MapsAre.hasSize (X := _) h

/-- The outputs of a layer are functions of its inputs that are affine. -/
theorem Layer.Affine.layer {l : Layer (Cf w ℝ)} (h : l.Affine) {s s' : Size} (hf : l.Fits s s') :
    ∃ F : Nat → (Nat → Cf w ℝ) → Cf w ℝ, (∀ k < s'.len, AffineIn s.len (F k)) ∧ ∀ x a, x.HasFlat s a →
      ∃ y, l.forward x = some (.ok y) ∧ y.HasFlat s' fun k => F k a := by
  have : Nonempty (Cf w ℝ) := ⟨0⟩
  obtain ⟨hw, h⟩ := h
  cases l with
  | dense l =>
    cases s <;> cases s' <;> try exact hf.elim
    rename_i n u
    obtain ⟨hn, hs⟩ := hf
    obtain ⟨W, b, hW⟩ := Dense.exists_is hw
    rw [hs, show l.func = .none from h] at hW
    refine ⟨fun k x => (∑ i ∈ Finset.range n, W k i * x i) + b k, fun k _ => ⟨W k, b k, fun _ => rfl⟩,
      fun x a hx => ?_⟩
    cases x with
    | matrix ms => exact hx.elim
    | scalar v =>
      rw [show v = _ from hx]
      exact ⟨_, C38_forward_exact_partial hW hn a _ fun j _ => rfl, rfl⟩
  | conv l =>
    cases s <;> cases s' <;> try exact hf.elim
    rename_i n r c nf r' c'
    obtain ⟨hn, hnf, hs, p, q, hk, hp, hpr, hq, hqc, rfl, rfl⟩ := hf
    obtain ⟨K, b, hK⟩ := Conv.exists_is hw hk
    rw [hs, show l.func = .none from h] at hK
    refine ⟨flatOf (r - p + 1) (c - q + 1) fun o i j x => b o + ∑ ch ∈ Finset.range n,
      ∑ a ∈ Finset.range p, ∑ b ∈ Finset.range q, x (ch * (r * c) + ((i + a) * c + (j + b))) * K o ch a b, ?_,
      fun x a hx => ?_⟩
    · refine flat_ind (Q := fun k => AffineIn _ (flatOf _ _ _ k)) fun o ho i hi j hj => ?_
      rw [flatOf_idx _ _ hi hj]
      refine (AffineIn.const _ _).add (AffineIn.sum _ fun ch hch => AffineIn.sum _ fun a ha =>
        AffineIn.sum _ fun d hd => ?_)
      have := (AffineIn.coord (w := w) (n := n * (r * c)) (k := ch * (r * c) + ((i + a) * c + (j + d)))
        (idx_lt hch (idx_lt (by omega) (by omega)))).smul (K o ch a d)
      simpa only [mul_comm, Size.len] using this
    · cases x with
      | scalar v => exact hx.elim
      | matrix ms =>
        obtain ⟨outs, k1, k2⟩ := C40_forward_exact hK hnf hn hp hpr hq hqc hx _ fun o _ i _ j _ => rfl
        exact ⟨_, k1, k2.hasFlat⟩
  | reduce l =>
    cases s <;> cases s' <;> try exact hf.elim
    rename_i n r c n' r' c'
    obtain ⟨rfl, -, hr, hc, hp, hq, rfl, rfl⟩ := hf
    obtain ⟨W, -, -, hW⟩ := h
    set p := l.blockSize.1
    set q := l.blockSize.2
    refine ⟨flatOf r' c' fun o i j x => ∑ a ∈ Finset.range p, ∑ b ∈ Finset.range q,
      W a b * x (o * (r' * p * (c' * q)) + ((i * p + a) * (c' * q) + (j * q + b))), ?_, fun x a hx => ?_⟩
    · refine flat_ind (Q := fun k => AffineIn _ (flatOf _ _ _ k)) fun o ho i hi j hj => ?_
      rw [flatOf_idx _ _ hi hj]
      refine AffineIn.sum _ fun a ha => AffineIn.sum _ fun d hd => (AffineIn.coord ?_).smul _
      exact idx_lt ho (idx_lt (idx_lt hi ha) (idx_lt hj hd))
    · cases x with
      | scalar v => exact hx.elim
      | matrix ms =>
        obtain ⟨outs, k1, k2⟩ := C41_reduce (l := l) rfl hp hq hr hc (X := _) hx (Y := _)
          fun ch _ i _ j _ => hW _
        exact ⟨_, k1, k2.hasFlat⟩
  | flatten l =>
    cases s <;> cases s' <;> try exact hf.elim
    rename_i n r c u
    obtain ⟨-, rfl⟩ := hf
    refine ⟨fun k x => x k, fun k hk => AffineIn.coord hk, fun x a hx => ?_⟩
    cases x with
    | scalar v => exact hx.elim
    | matrix ms => exact ⟨_, flatten_flat (l := l) hx, rfl⟩

/-- The same for layers one after the other. -/
theorem affine_chain {ls : List (Layer (Cf w ℝ))} {s s' : Size} (hf : FitsChain ls s s')
    (h : ∀ l ∈ ls, l.Affine) :
    ∃ F : Nat → (Nat → Cf w ℝ) → Cf w ℝ, (∀ k < s'.len, AffineIn s.len (F k)) ∧ ∀ x a, x.HasFlat s a →
      ∃ ys y, Chain ls x ys ∧ (x :: ys).getLast? = some y ∧ y.HasFlat s' fun k => F k a := by
  induction hf with
  | nil s => exact ⟨fun k x => x k, fun k hk => AffineIn.coord hk,
      fun x a hx => ⟨[], x, .nil x, rfl, hx⟩⟩
  | @cons l ls s s₁ s' hl _ ih =>
    obtain ⟨F, hF, h1⟩ := (h l (by simp)).layer hl
    obtain ⟨G, hG, h2⟩ := ih fun l hl => h l (by simp [hl])
    refine ⟨fun k x => G k fun i => F i x, fun k hk => ?_, fun x a hx => ?_⟩
    · obtain ⟨b, c, hb⟩ := hG k hk
      have : AffineIn s.len fun x => (∑ i ∈ Finset.range s₁.len, b i * F i x) + c :=
        (AffineIn.sum _ fun j hj => (hF j hj).smul _).add (AffineIn.const _ _)
      simpa only [hb] using this
    · obtain ⟨y, k1, k2⟩ := h1 x a hx
      obtain ⟨zs, z, k3, k4, k5⟩ := h2 y _ k2
      exact ⟨y :: zs, z, .cons k1 k3, by simpa using k4, k5⟩

/-- C103. A network without activation functions, of any depth and any kinds of layers, computes what
a single dense layer without activation function computes on the flattened input. -/
theorem C103_single {n : Net (Cf w ℝ)} {s s' : Size} (hn : n.layers ≠ []) (hf : FitsChain n.layers s s')
    (h : ∀ l ∈ n.layers, l.Affine) (hs : 0 < s.len) :
    ∃ W b, ∀ x, x.HasSize s → ∃ y, n.forward x = some (.ok y) ∧ y.HasSize s'
      ∧ (Dense.of s'.len s.len W b .none).forward (.scalar x.flat) = some (.ok (.scalar y.flat)) := by
  obtain ⟨F, hF, h1⟩ := affine_chain hf h
  obtain ⟨W, b, hW⟩ := AffineIn.matrix hF
  refine ⟨W, b, fun x hx => ?_⟩
  obtain ⟨a, ha⟩ := hx.exists_flat
  obtain ⟨ys, y, k1, k2, k3⟩ := h1 x a ha
  have hy : ys.getLast? = some y := by
    have := k1.length
    cases ys with
    | nil => exact absurd (List.length_eq_zero_iff.mp this.symm) hn
    | cons z zs => simpa using k2
  refine ⟨y, (C44_forward n hn x _).mpr ⟨ys, y, k1, hy, rfl⟩, k3.hasSize, ?_⟩
  rw [ha.flat, k3.flat]
  exact C38_forward_exact_partial (Dense.of_is ..) hs a _ fun j hj => by rw [hW a j hj]; rfl

/-! ## Merging two layers -/

theorem merge_pair {a b : Dense (Cf w ℝ)} {u m v : Nat}
    {W V : Nat → Nat → Cf w ℝ} {c d : Nat → Cf w ℝ} {g : ActFunc} (hm : 0 < m) (hu : 0 < u)
    (ha : a.Is u m W c .none) (hb : b.Is v u V d g) {t : Dense (Cf w ℝ)}
    (ht : t.Is v m (fun k i => ∑ j ∈ Finset.range u, V k j * W j i)
      (fun k => (∑ j ∈ Finset.range u, V k j * c j) + d k) g) (x : IOType (Cf w ℝ)) :
    (Net.fwd (.dense a) x >>= fun y => Net.fwd (.dense b) y) = Net.fwd (.dense t) x := by
  have : Nonempty (Cf w ℝ) := ⟨0⟩
  show ((a.forward x >>= unwrap) >>= fun y => b.forward y >>= unwrap) = (t.forward x >>= unwrap)
  cases x with
  | matrix ms => rfl
  | scalar z =>
    by_cases hz : z.length = m
    · obtain ⟨X, hX⟩ := exists_range_map z
      rw [hz] at hX
      subst hX
      rw [C38_forward_exact_partial ha hm X (fun j => (∑ i ∈ Finset.range m, W j i * X i) + c j)
        fun j _ => rfl]
      have e : ∀ k, (∑ i ∈ Finset.range m, (∑ j ∈ Finset.range u, V k j * W j i) * X i)
          + ((∑ j ∈ Finset.range u, V k j * c j) + d k)
          = (∑ j ∈ Finset.range u, V k j * ((∑ i ∈ Finset.range m, W j i * X i) + c j)) + d k := by
        intro k
        simp only [mul_add, Finset.sum_add_distrib, Finset.mul_sum, Finset.sum_mul]
        rw [Finset.sum_comm, add_assoc]
        simp only [mul_assoc]
      show (b.forward _ >>= unwrap) = _
      by_cases hex : ∀ k, k < v → ∃ y, CplxOps.activate g ((∑ j ∈ Finset.range u,
          V k j * ((∑ i ∈ Finset.range m, W j i * X i) + c j)) + d k) = some y
      · choose! Y hY using hex
        rw [C38_forward_exact_partial hb hu _ Y hY,
          C38_forward_exact_partial ht hm X Y fun k hk => by rw [e k]; exact hY k hk]
      · push Not at hex
        obtain ⟨k, hk, hn⟩ := hex
        have hn' := Option.eq_none_iff_forall_ne_some.mpr hn
        rw [C38_panic_activation hb hu _ k hk (by rw [dotN_sum, LawfulOps.addAssign_eq]; exact hn'),
          C38_panic_activation ht hm X k hk (by rw [dotN_sum, LawfulOps.addAssign_eq, e k]; exact hn')]
    · rw [C38_wrong_length ha z hz, C38_wrong_length ht z hz]
      rfl

/-- C103. A dense layer without activation function followed by a dense layer can be merged into one
dense layer, anywhere in a network. The merged network gives the same result for every input, also the
same errors and panics. -/
theorem C103_merge {pre post : List (Layer (Cf w ℝ))} {a b : Dense (Cf w ℝ)} {u m v : Nat}
    {W V : Nat → Nat → Cf w ℝ} {c d : Nat → Cf w ℝ} {g : ActFunc} (hm : 0 < m) (hu : 0 < u)
    (ha : a.Is u m W c .none) (hb : b.Is v u V d g) (x : IOType (Cf w ℝ)) :
    (⟨pre ++ .dense a :: .dense b :: post⟩ : Net (Cf w ℝ)).forward x
      = (⟨pre ++ .dense (Dense.of v m (fun k i => ∑ j ∈ Finset.range u, V k j * W j i)
          (fun k => (∑ j ∈ Finset.range u, V k j * c j) + d k) g) :: post⟩ : Net (Cf w ℝ)).forward x := by
  rw [Net.forward_eq _ _ (by simp), Net.forward_eq _ _ (by simp)]
  simp only [List.foldlM_append, List.foldlM_cons]
  congr 2
  funext y
  rw [← bind_assoc, merge_pair hm hu ha hb (Dense.of_is ..) y]

/-! ## What such networks cannot do -/

/-- C103. No network without activation functions comes close to the exclusive or: its summed squared
error on the four points is at least 1. -/
theorem C103_xor {n : Net (Cf w ℝ)} (hn : n.layers ≠ []) (hf : FitsChain n.layers (.vec 2) (.vec 1))
    (h : ∀ l ∈ n.layers, l.Affine) {e : ℝ} (he : BatchError n (xorPoints w) e) : 1 ≤ e := by
  obtain ⟨F, hF, h1⟩ := affine_chain hf h
  obtain ⟨a, c, hA⟩ := hF 0 (by simp [Size.len])
  have key : ∀ x y : Cf w ℝ, n.forward (.scalar [x, y]) = some (.ok (.scalar [a 0 * x + a 1 * y + c])) := by
    intro x y
    obtain ⟨ys, z, k1, k2, k3⟩ := h1 (.scalar [x, y]) (fun i => if i = 0 then x else y) rfl
    have hy : ys.getLast? = some z := by
      have := k1.length
      cases ys with
      | nil => exact absurd (List.length_eq_zero_iff.mp this.symm) hn
      | cons z zs => simpa using k2
    rw [(C44_forward n hn _ _).mpr ⟨ys, z, k1, hy, rfl⟩]
    cases z with
    | matrix ms => exact k3.elim
    | scalar v =>
      rw [show v = _ from k3]
      simp [hA, Size.len, Finset.sum_range_succ]
  obtain ⟨ps, hp, rfl⟩ := he
  simp only [xorPoints, List.forall₂_cons_left_iff, List.forall₂_nil_left_iff, key] at hp
  obtain ⟨p1, _, e1, ⟨p2, _, e2, ⟨p3, _, e3, ⟨p4, _, e4, rfl, rfl⟩, rfl⟩, rfl⟩, rfl⟩ := hp
  simp only [Option.some.injEq, Except.ok.injEq, IOType.scalar.injEq] at e1 e2 e3 e4
  subst e1 e2 e3 e4
  simp only [xorPoints, sqSum, List.zip_cons_cons, List.zip_nil_right, List.map_cons, List.map_nil, List.sum_cons,
    List.sum_nil, List.zipWith_cons_cons, List.zipWith_nil_left, Complex.sq_norm, Complex.normSq_apply,
    Complex.sub_re, Complex.sub_im, Cf.toC_hom_add, Cf.toC_hom_one, Cf.toC_hom_zero,
    mul_zero, mul_one, zero_add, add_zero, Complex.add_re, Complex.add_im, Complex.one_re, Complex.one_im,
    Complex.zero_re, Complex.zero_im]
  generalize (a 0).toC = A
  generalize (a 1).toC = B
  generalize c.toC = C
  nlinarith [sq_nonneg (0 - C.im), sq_nonneg (0 - (B.im + C.im)),
    sq_nonneg (0 - (A.im + C.im)), sq_nonneg (0 - (A.im + B.im + C.im)), sq_nonneg (1 - (B.re + C.re) - 1 / 2),
    sq_nonneg (1 - (A.re + C.re) - 1 / 2), sq_nonneg (C.re - 1 / 2), sq_nonneg (A.re + B.re + C.re - 1 / 2)]

theorem batchError_xor {n : Net (Cf w ℝ)} {y : Fin 4 → Cf w ℝ}
    (h1 : n.forward (.scalar [0, 0]) = some (.ok (.scalar [y 0])))
    (h2 : n.forward (.scalar [0, 1]) = some (.ok (.scalar [y 1])))
    (h3 : n.forward (.scalar [1, 0]) = some (.ok (.scalar [y 2])))
    (h4 : n.forward (.scalar [1, 1]) = some (.ok (.scalar [y 3]))) :
    BatchError n (xorPoints w) (‖(0 : ℂ) - (y 0).toC‖ ^ 2 + ‖(1 : ℂ) - (y 1).toC‖ ^ 2
      + ‖(1 : ℂ) - (y 2).toC‖ ^ 2 + ‖(0 : ℂ) - (y 3).toC‖ ^ 2) :=
  ⟨[[y 0], [y 1], [y 2], [y 3]], .cons h1 (.cons h2 (.cons h3 (.cons h4 .nil))), by
    simp [xorPoints, sqSum, Cf.toC_hom_one, Cf.toC_hom_zero]; ring⟩

/-- The dense layers of a network for the exclusive or: `max(0, a + b) - 2·max(0, a + b - 1)`. -/
noncomputable def xorHidden (w : Width) : Dense (Cf w ℝ) := Dense.of 2 2 (fun _ _ => 1) (fun j => if j = 0 then 0 else -1) .ritReLU
@[inherit_doc xorHidden]
noncomputable def xorOut (w : Width) : Dense (Cf w ℝ) := Dense.of 1 2 (fun _ i => if i = 0 then 1 else -2) (fun _ => 0) .none

/-- C103. The bound 1 is reached by a network without activation functions, and one layer with an
activation function is enough to compute the exclusive or without error. -/
theorem C103_xor_sharp : (∃ l : Layer (Cf w ℝ), l.Affine ∧ l.Fits (.vec 2) (.vec 1)
      ∧ BatchError ⟨[l]⟩ (xorPoints w) 1)
    ∧ BatchError ⟨[.dense (xorHidden w), .dense (xorOut w)]⟩ (xorPoints w) 0 := by
  constructor
  · have hl : ∀ x y : Cf w ℝ, (⟨[.dense (Dense.of 1 2 (fun _ _ => 0) (fun _ => ⟨1 / 2, 0⟩) .none)]⟩ :
        Net (Cf w ℝ)).forward (.scalar [x, y]) = some (.ok (.scalar [⟨1 / 2, 0⟩])) := by
      intro x y
      rw [Net.forward_eq _ _ (by simp)]
      simp only [List.foldlM_cons, List.foldlM_nil, Net.fwd, Layer.forward]
      rw [show [x, y] = (List.range 2).map fun i => if i = 0 then x else y from rfl,
        C38_forward_exact_partial (Dense.of_is ..) (by omega) _ (fun _ => ⟨1 / 2, 0⟩) fun j _ => by simp; rfl]
      rfl
    refine ⟨.dense (Dense.of 1 2 (fun _ _ => 0) (fun _ => ⟨1 / 2, 0⟩) .none),
      ⟨⟨rfl, rfl⟩, rfl⟩, ⟨by omega, rfl⟩, ?_⟩
    have := batchError_xor (y := fun _ => ⟨1 / 2, 0⟩) (hl _ _) (hl _ _) (hl _ _) (hl _ _)
    convert this using 1
    simp only [Complex.sq_norm, Complex.normSq_apply]
    simp
    norm_num
  · have hl : ∀ x y : ℝ, (⟨[.dense (xorHidden w), .dense (xorOut w)]⟩ : Net (Cf w ℝ)).forward
        (.scalar [⟨x, 0⟩, ⟨y, 0⟩]) = some (.ok (.scalar [⟨max 0 (x + y) - 2 * max 0 (x + y - 1), 0⟩])) := by
      intro x y
      rw [Net.forward_eq _ _ (by simp)]
      simp only [List.foldlM_cons, List.foldlM_nil, Net.fwd, Layer.forward, xorHidden, xorOut]
      rw [show [(⟨x, 0⟩ : Cf w ℝ), ⟨y, 0⟩] = (List.range 2).map fun i => if i = 0 then ⟨x, 0⟩ else ⟨y, 0⟩ from rfl,
        C38_forward_exact_partial (Dense.of_is ..) (by omega) _
          (fun j => if j = 0 then ⟨max 0 (x + y), 0⟩ else ⟨max 0 (x + y - 1), 0⟩) fun j hj => ?_]
      · simp only [unwrap, Option.bind_eq_bind, Option.bind_some]
        rw [C38_forward_exact_partial (Dense.of_is ..) (by omega) _
          (fun j => ⟨max 0 (x + y) - 2 * max 0 (x + y - 1), 0⟩) fun j hj => ?_]
        · rfl
        · have h2 : (-2 : Cf w ℝ) = ⟨-2, 0⟩ := by
            apply Cf.toC_inj.mp
            rw [show (-2 : Cf w ℝ) = -(1 + 1) by ring, Cf.toC_hom_neg, Cf.toC_hom_add, Cf.toC_hom_one]
            apply Complex.ext <;> simp <;> norm_num
          show some _ = _
          simp only [Finset.sum_range_succ, Finset.sum_range_zero, h2]
          congr 1
          apply Cf.toC_inj.mp
          simp [Cf.toC_hom_add, Cf.toC_hom_mul]
          apply Complex.ext <;> simp <;> ring
      · have hr : ∀ a : ℝ, CplxOps.activate (α := Cf w ℝ) .ritReLU ⟨a, 0⟩ = some ⟨max 0 a, 0⟩ := by
          intro a
          show some (⟨Act.relu a, Act.relu 0⟩ : Cf w ℝ) = _
          rw [relu_eq, relu_eq, max_self]
        have ha : ∀ a b : ℝ, (⟨a, 0⟩ : Cf w ℝ) + ⟨b, 0⟩ = ⟨a + b, 0⟩ := by
          intro a b
          apply Cf.toC_inj.mp
          rw [Cf.toC_hom_add]
          apply Complex.ext <;> simp
        have hm : (-1 : Cf w ℝ) = ⟨-1, 0⟩ := by
          apply Cf.toC_inj.mp
          rw [Cf.toC_hom_neg, Cf.toC_hom_one]
          apply Complex.ext <;> simp
        obtain rfl | rfl : j = 0 ∨ j = 1 := by omega
        · simp [Finset.sum_range_succ, ha, hr]
        · simp [Finset.sum_range_succ, ha, hr, hm, sub_eq_add_neg]
    have h1 : (1 : Cf w ℝ) = ⟨1, 0⟩ := rfl
    have h0 : (0 : Cf w ℝ) = ⟨0, 0⟩ := rfl
    have := batchError_xor (n := ⟨[.dense (xorHidden w), .dense (xorOut w)]⟩) (y := ![0, 1, 1, 0])
      (by rw [h0, hl]; norm_num) (by rw [h0, h1, hl]; norm_num)
      (by rw [h0, h1, hl]; norm_num; rfl) (by rw [h0, h1, hl]; norm_num; rfl)
    simpa [Cf.toC_hom_one, Cf.toC_hom_zero] using this

/-- The hypotheses of C103 hold for two dense layers on two inputs with three units between them; the
error is then at least 1. -/
example : ∃ n : Net (Cf w ℝ), n.layers ≠ [] ∧ FitsChain n.layers (.vec 2) (.vec 1)
    ∧ (∀ l ∈ n.layers, l.Affine) ∧ n.layers.length = 2 :=
  ⟨⟨[.dense (Dense.of 3 2 (fun _ _ => 1) (fun _ => 0) .none), .dense (Dense.of 1 3 (fun _ _ => 1) (fun _ => 0) .none)]⟩,
    by simp, .cons (s₁ := .vec 3) ⟨by omega, rfl⟩ (.cons (s₁ := .vec 1) ⟨by omega, rfl⟩ (.nil _)), by
      intro l hl
      rcases List.mem_cons.mp hl with rfl | hl
      · exact ⟨⟨rfl, rfl⟩, rfl⟩
      · rcases List.mem_cons.mp hl with rfl | hl
        · exact ⟨⟨rfl, rfl⟩, rfl⟩
        · simp at hl, rfl⟩

end Renplex
