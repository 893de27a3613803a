import Verif.Spec.FilterScale
import Verif.Props.FilterNet
import Verif.Props.Rescale
/-!
# C129: scaling and turning the filters of a convolutional layer
-/

namespace Renplex

variable {w : Width}

/-! ## Sums with a factor -/

theorem convPre_scale (n p q : Nat) (X : Nat → Nat → Nat → Cf w ℝ) (K : Nat → Nat → Nat → Nat → Cf w ℝ) (b s : Nat → Cf w ℝ)
    (o i j : Nat) : convPre n p q X (fun o ch i j => s o * K o ch i j) (fun o => s o * b o) o i j
      = s o * convPre n p q X K b o i j := by
  rw [convPre_sum, convPre_sum, mul_add]
  simp only [Finset.mul_sum]
  congr 1
  exact Finset.sum_congr rfl fun ch _ => Finset.sum_congr rfl fun a _ => Finset.sum_congr rfl fun b _ => by ring

theorem convPre_divide (n p q : Nat) (X : Nat → Nat → Nat → Cf w ℝ) (K : Nat → Nat → Nat → Nat → Cf w ℝ) (b t : Nat → Cf w ℝ)
    (ht : ∀ o, t o ≠ 0) (o i j : Nat) :
    convPre n p q (fun ch i j => t ch * X ch i j) (fun o ch i j => K o ch i j / t ch) b o i j
      = convPre n p q X K b o i j := by
  rw [convPre_sum, convPre_sum]
  congr 1
  refine Finset.sum_congr rfl fun ch _ => Finset.sum_congr rfl fun a _ => Finset.sum_congr rfl fun b _ => ?_
  have := ht ch
  field_simp

theorem padded_scale (r c p q : Nat) (z : Cf w ℝ) (f : Nat → Nat → Cf w ℝ) (i j : Nat) :
    padded r c p q (fun i j => z * f i j) i j = z * padded r c p q f i j := by
  unfold padded
  split
  · rfl
  · rw [LawfulOps.zero_eq, mul_zero]

theorem spread_scale (p q u v : Nat) (z : Cf w ℝ) (f : Nat → Nat → Cf w ℝ) :
    spread p q u v (fun i j => z * f i j) = fun i j => z * spread p q u v f i j := by
  funext i j
  unfold spread
  split
  · rfl
  · rw [LawfulOps.zero_eq, mul_zero]

theorem upMap_scale (r c p q : Nat) (k : Nat → Nat → Cf w ℝ) (z : Cf w ℝ) (f : Nat → Nat → Cf w ℝ) :
    upMap r c p q k (fun i j => z * f i j) = fun i j => z * upMap r c p q k f i j := by
  funext i j
  unfold upMap
  rw [corr_sum, corr_sum, spread_scale, Finset.mul_sum]
  refine Finset.sum_congr rfl fun a _ => ?_
  rw [Finset.mul_sum]
  refine Finset.sum_congr rfl fun b _ => ?_
  rw [padded_scale, mul_assoc]

theorem inputGrad_scale (R C p q : Nat) (y z : Cf w ℝ) (m k : Nat → Nat → Cf w ℝ) (i j : Nat) :
    inputGrad R C p q (fun i j => y * m i j) (fun i j => z * k i j) i j = y * z * inputGrad R C p q m k i j := by
  unfold inputGrad
  rw [Finset.mul_sum]
  refine Finset.sum_congr rfl fun a _ => ?_
  rw [Finset.mul_sum]
  refine Finset.sum_congr rfl fun b _ => ?_
  rw [padded_scale]
  ring

theorem kernelGrad_scale (R C : Nat) (y z : Cf w ℝ) (x m : Nat → Nat → Cf w ℝ) (i j : Nat) :
    kernelGrad R C (fun i j => y * x i j) (fun i j => z * m i j) i j = y * z * kernelGrad R C x m i j := by
  unfold kernelGrad
  rw [Finset.mul_sum]
  refine Finset.sum_congr rfl fun a _ => ?_
  rw [Finset.mul_sum]
  exact Finset.sum_congr rfl fun b _ => by ring

/-! ## Forward -/

/-- Maps, multiplied by factors on the other side. -/
def scaleFeat (t : Nat → Cf w ℝ) (n r c : Nat) (x x' : IOType (Cf w ℝ)) : Prop :=
  ∃ ms ms' X, x = .matrix ms ∧ x' = .matrix ms' ∧ MapsAre ms n r c X ∧ MapsAre ms' n r c fun ch i j => t ch * X ch i j

/-- The same after they have been flattened. -/
def scaleFlat (t : Nat → Cf w ℝ) (n r c : Nat) (x x' : IOType (Cf w ℝ)) : Prop :=
  ∃ X, x = .scalar (cube n r c X) ∧ x' = .scalar (cube n r c fun ch i j => t ch * X ch i j)

theorem scale_conv {s t : Nat → Cf w ℝ} {a a' : Conv (Cf w ℝ)} {nf n p q r c : Nat}
    {K : Nat → Nat → Nat → Nat → Cf w ℝ} {b : Nat → Cf w ℝ} {f : ActFunc} (hp : ∀ o, f.Passes (s o).toC (t o).toC)
    (h : a.Is nf n p q K b f) (h' : a'.Is nf n p q (fun o ch i j => s o * K o ch i j) (fun o => s o * b o) f)
    (hA : ∀ z : Cf w ℝ, ∃ y, CplxOps.activate f z = some y)
    (hd : 0 < nf ∧ 0 < n ∧ 1 ≤ p ∧ p ≤ r ∧ 1 ≤ q ∧ q ≤ c) {x : IOType (Cf w ℝ)} (hx : x.HasSize (.maps n r c)) :
    ∃ y y', (Layer.conv a).forward x = some (.ok y) ∧ (Layer.conv a').forward x = some (.ok y')
      ∧ scaleFeat t nf (r - p + 1) (c - q + 1) y y' := by
  obtain ⟨hf, hn, hp1, hpr, hq, hqc⟩ := hd
  have : Nonempty (Cf w ℝ) := ⟨0⟩
  cases x with
  | scalar v => exact hx.elim
  | matrix ms =>
    obtain ⟨X, hX⟩ := MapsAre.exists_of hx
    choose A hA using hA
    have hA' : ∀ o z, A (s o * z) = t o * A z := fun o z =>
      Option.some.inj ((hA _).symm.trans (C98_passes (hp o) (hA z)))
    refine ⟨_, _, Conv.forward_maps h hf hn hp1 hpr hq hqc hX A hA,
      Conv.forward_maps h' hf hn hp1 hpr hq hqc hX A hA, _, _, _, rfl, rfl,
      mapsAre_fromBody _ _ _ (fun o i j => A (convPre n p q X K b o i j)), ?_⟩
    simp only [convPre_scale, hA']
    exact mapsAre_fromBody _ _ _ fun o i j => t o * A (convPre n p q X K b o i j)

theorem scale_pool {t : Nat → Cf w ℝ} {l : Reduce (Cf w ℝ)} (hl : l.Homogeneous) (ht : (Layer.reduce l).Total)
    {n r c : Nat} (hd : 0 < r ∧ 0 < c ∧ 0 < l.blockSize.1 ∧ 0 < l.blockSize.2) {x x' : IOType (Cf w ℝ)}
    (hx : scaleFeat t n (r * l.blockSize.1) (c * l.blockSize.2) x x') :
    ∃ y y', (Layer.reduce l).forward x = some (.ok y) ∧ (Layer.reduce l).forward x' = some (.ok y')
      ∧ scaleFeat t n r c y y' := by
  obtain ⟨hr, hc, hp, hq⟩ := hd
  obtain ⟨ms, ms', X, rfl, rfl, hX, hX'⟩ := hx
  have ht' : ∀ b : List (Cf w ℝ), ∃ y, b.length = l.blockSize.1 * l.blockSize.2 → l.blockFunc b = some y := by
    intro b
    by_cases hb : b.length = l.blockSize.1 * l.blockSize.2
    · obtain ⟨y, hy⟩ := ht b hb
      exact ⟨y, fun _ => hy⟩
    · exact ⟨0, fun h => absurd h hb⟩
  choose B hB using ht'
  have hlen : ∀ (ch i j : Nat), (table l.blockSize.1 l.blockSize.2 fun a b =>
      X ch (i * l.blockSize.1 + a) (j * l.blockSize.2 + b)).length = l.blockSize.1 * l.blockSize.2 :=
    fun ch i j => table_length _ _ _
  obtain ⟨o, e1, e2⟩ := C41_reduce (l := l) rfl hp hq hr hc hX
    (Y := fun ch i j => B (table l.blockSize.1 l.blockSize.2 fun a b =>
      X ch (i * l.blockSize.1 + a) (j * l.blockSize.2 + b))) (fun ch _ i _ j _ => hB _ (hlen ch i j))
  obtain ⟨o', e1', e2'⟩ := C41_reduce (l := l) rfl hp hq hr hc hX'
    (Y := fun ch i j => t ch * B (table l.blockSize.1 l.blockSize.2 fun a b =>
      X ch (i * l.blockSize.1 + a) (j * l.blockSize.2 + b))) (fun ch _ i _ j _ => by
        have := hl (t ch) _ _ (hlen ch i j) (hB _ (hlen ch i j))
        rw [table_map] at this
        exact this)
  exact ⟨_, _, e1, e1', o, o', _, rfl, rfl, e2, e2'⟩

theorem scale_flatten {t : Nat → Cf w ℝ} (l : Flatten) {n r c : Nat} {x x' : IOType (Cf w ℝ)} (hx : scaleFeat t n r c x x') :
    ∃ y y', (Layer.flatten l).forward x = some (.ok y) ∧ (Layer.flatten l).forward x' = some (.ok y')
      ∧ scaleFlat t n r c y y' := by
  obtain ⟨ms, ms', X, rfl, rfl, hX, hX'⟩ := hx
  exact ⟨_, _, C41_flatten (l := l) hX, C41_flatten (l := l) hX', X, rfl, rfl⟩

theorem scale_channels {t : Nat → Cf w ℝ} (ht : ∀ o, t o ≠ 0) {a a' : Conv (Cf w ℝ)} {nf n p q r c : Nat}
    {K : Nat → Nat → Nat → Nat → Cf w ℝ} {b : Nat → Cf w ℝ} {f : ActFunc}
    (h : a.Is nf n p q K b f) (h' : a'.Is nf n p q (fun o ch i j => K o ch i j / t ch) b f)
    (hA : ∀ z : Cf w ℝ, ∃ y, CplxOps.activate f z = some y)
    (hd : 0 < nf ∧ 0 < n ∧ 1 ≤ p ∧ p ≤ r ∧ 1 ≤ q ∧ q ≤ c) {x x' : IOType (Cf w ℝ)} (hx : scaleFeat t n r c x x') :
    ∃ y, (Layer.conv a).forward x = some (.ok y) ∧ (Layer.conv a').forward x' = some (.ok y)
      ∧ y.HasSize (.maps nf (r - p + 1) (c - q + 1)) := by
  obtain ⟨hf, hn, hp, hpr, hq, hqc⟩ := hd
  obtain ⟨ms, ms', X, rfl, rfl, hX, hX'⟩ := hx
  choose A hA using hA
  have := Conv.forward_maps h' hf hn hp hpr hq hqc hX' A hA
  simp only [convPre_divide n p q X K b t ht] at this
  exact ⟨_, Conv.forward_maps h hf hn hp hpr hq hqc hX A hA, this, (mapsAre_fromBody _ _ _ _).hasSize⟩

theorem flatOf_scale (t : Nat → Cf w ℝ) (r c : Nat) (X : Nat → Nat → Nat → Cf w ℝ) (i : Nat) :
    flatOf r c (fun ch i j => t ch * X ch i j) i = t (i / (r * c)) * flatOf r c X i := rfl

theorem columns_divide {t : Nat → Cf w ℝ} (ht : ∀ o, t o ≠ 0) (n r c : Nat) (X : Nat → Nat → Nat → Cf w ℝ)
    (V : Nat → Nat → Cf w ℝ) (j : Nat) :
    ∑ i ∈ Finset.range (n * (r * c)), V j i / t (i / (r * c)) * flatOf r c (fun ch i j => t ch * X ch i j) i
      = ∑ i ∈ Finset.range (n * (r * c)), V j i * flatOf r c X i := by
  refine Finset.sum_congr rfl fun i _ => ?_
  rw [flatOf_scale]
  have := ht (i / (r * c))
  field_simp

theorem scale_columns {t : Nat → Cf w ℝ} (ht : ∀ o, t o ≠ 0) {a a' : Dense (Cf w ℝ)} {u n r c : Nat}
    {V : Nat → Nat → Cf w ℝ} {b : Nat → Cf w ℝ} {f : ActFunc}
    (h : a.Is u (n * (r * c)) V b f) (h' : a'.Is u (n * (r * c)) (fun j i => V j i / t (i / (r * c))) b f)
    (hA : ∀ z : Cf w ℝ, ∃ y, CplxOps.activate f z = some y) (hn : 0 < n * (r * c)) {x x' : IOType (Cf w ℝ)}
    (hx : scaleFlat t n r c x x') :
    ∃ y, (Layer.dense a).forward x = some (.ok y) ∧ (Layer.dense a').forward x' = some (.ok y)
      ∧ y.HasSize (.vec u) := by
  obtain ⟨X, rfl, rfl⟩ := hx
  choose A hA using hA
  refine ⟨.scalar ((List.range u).map fun j => A ((∑ i ∈ Finset.range (n * (r * c)),
    V j i * flatOf r c X i) + b j)), ?_, ?_, by simp [IOType.HasSize]⟩
  · rw [cube_flat]
    exact C38_forward_exact_partial h hn _ _ fun j _ => hA _
  · rw [cube_flat]
    refine C38_forward_exact_partial h' hn _ _ fun j _ => ?_
    rw [columns_divide ht, hA]

/-- From related inputs to related outputs through two lists of layers. -/
def FwdRel (I : IOType (Cf w ℝ) → IOType (Cf w ℝ) → Prop) (ls ls' : List (Layer (Cf w ℝ))) (s' : Size) : Prop :=
  ∀ x x', I x x' → ∃ ys ys' y, Chain ls x ys ∧ Chain ls' x' ys' ∧ (x :: ys).getLast? = some y
    ∧ (x' :: ys').getLast? = some y ∧ y.HasSize s'

theorem FwdRel.cons {I M : IOType (Cf w ℝ) → IOType (Cf w ℝ) → Prop} {l l' : Layer (Cf w ℝ)} {ls ls' : List (Layer (Cf w ℝ))}
    {s' : Size} (h : ∀ x x', I x x' → ∃ y y', l.forward x = some (.ok y) ∧ l'.forward x' = some (.ok y') ∧ M y y')
    (t : FwdRel M ls ls' s') : FwdRel I (l :: ls) (l' :: ls') s' := by
  intro x x' hx
  obtain ⟨y, y', h1, h2, h3⟩ := h x x' hx
  obtain ⟨ys, ys', z, c1, c2, c3, c4, c5⟩ := t y y' h3
  exact ⟨y :: ys, y' :: ys', z, .cons h1 c1, .cons h2 c2, by rw [List.getLast?_cons_cons]; exact c3,
    by rw [List.getLast?_cons_cons]; exact c4, c5⟩

theorem FwdRel.refl {ls : List (Layer (Cf w ℝ))} {s s' : Size} (h : FitsChain ls s s') (hw : ∀ l ∈ ls, l.WF)
    (ht : ∀ l ∈ ls, l.Total) : FwdRel (fun x x' => x' = x ∧ x.HasSize s) ls ls s' := by
  induction h with
  | nil s =>
    rintro x _ ⟨rfl, hx⟩
    exact ⟨[], [], _, .nil _, .nil _, rfl, rfl, hx⟩
  | @cons l ls s s₁ s' h t ih =>
    refine .cons ?_ (ih (fun l hl => hw l (by simp [hl])) (fun l hl => ht l (by simp [hl])))
    rintro x _ ⟨rfl, hx⟩
    obtain ⟨y, e1, e2⟩ := Layer.forward_fits (hw l (by simp)) (ht l (by simp)) h hx
    exact ⟨y, y, e1, e1, rfl, e2⟩

theorem FwdRel.pre {pre ls ls' : List (Layer (Cf w ℝ))} {s s₁ s' : Size} (h : FitsChain pre s s₁)
    (hw : ∀ l ∈ pre, l.WF) (ht : ∀ l ∈ pre, l.Total)
    (hr : FwdRel (fun x x' => x' = x ∧ x.HasSize s₁) ls ls' s') :
    FwdRel (fun x x' => x' = x ∧ x.HasSize s) (pre ++ ls) (pre ++ ls') s' := by
  induction h with
  | nil s => exact hr
  | @cons l pre s s₂ s₁ h t ih =>
    refine .cons ?_ (ih (fun l hl => hw l (by simp [hl])) (fun l hl => ht l (by simp [hl])) hr)
    rintro x _ ⟨rfl, hx⟩
    obtain ⟨y, e1, e2⟩ := Layer.forward_fits (hw l (by simp)) (ht l (by simp)) h hx
    exact ⟨y, y, e1, e1, rfl, e2⟩

theorem ScaleReader.forward {t : Nat → Cf w ℝ} (ht0 : ∀ o, t o ≠ 0) {nf : Nat} {Q : Prop} {ls ls' : List (Layer (Cf w ℝ))}
    (h : ScaleReader t nf Q ls ls') {r c : Nat} {s' : Size} (hf : FitsChain ls (.maps nf r c) s')
    (hw : ∀ l ∈ ls, l.WF) (ht : ∀ l ∈ ls, l.Total) : FwdRel (scaleFeat t nf r c) ls ls' s' := by
  induction h generalizing r c with
  | @pool l ls ls' hl _ ih =>
    cases hf with
    | @cons _ _ _ s₁ _ hf hc =>
      cases s₁ with
      | vec m => exact hf.elim
      | maps n' r1 c1 =>
        obtain ⟨rfl, hn, hr, hc', hp, hq, rfl, rfl⟩ := hf
        exact .cons (fun x x' hx => scale_pool hl (ht _ (by simp)) ⟨hr, hc', hp, hq⟩ hx)
          (ih hc (fun l hl => hw l (by simp [hl])) (fun l hl => ht l (by simp [hl])))
  | @conv b b' v p q K c f hQ h h' post =>
    cases hf with
    | cons hf hc =>
      obtain ⟨r1, c1, e, rfl, d⟩ := (Conv.fits_dims h).mp hf
      cases e
      have a1 := ht (.conv b) (by simp)
      have hfn : b.func = f := h.2.2.1
      simp only [Layer.Total, hfn] at a1
      refine .cons (fun x x' hx => ?_) (FwdRel.refl hc (fun l hl => hw l (by simp [hl])) fun l hl => ht l (by simp [hl]))
      obtain ⟨y, y1, y2, y3⟩ := scale_channels ht0 h h' a1 d hx
      exact ⟨y, y, y1, y2, rfl, y3⟩
  | @dense l b b' r1 c1 v V d f hl h h' post =>
    cases hf with
    | @cons _ _ _ s₁ _ hf hc =>
      cases hc with
      | cons hf2 hc =>
        obtain ⟨rfl, rfl, hn⟩ := (Dense.fits_dims h).mp hf2
        obtain ⟨e, -⟩ := hf
        rw [hl] at e
        cases e
        have a1 := ht (.dense b) (by simp)
        have hfn : b.func = f := h.2.2
        simp only [Layer.Total, hfn] at a1
        refine .cons (fun x x' hx => scale_flatten l hx) (.cons (fun x x' hx => ?_)
          (FwdRel.refl hc (fun l hl => hw l (by simp [hl])) fun l hl => ht l (by simp [hl])))
        obtain ⟨y, y1, y2, y3⟩ := scale_columns ht0 h h' a1 hn hx
        exact ⟨y, y, y1, y2, rfl, y3⟩

section
variable {s t : Nat → Cf w ℝ} {k nf : Nat} {f : ActFunc} {Q : Prop} {n n' : Net (Cf w ℝ)} {σ σ' : Size}

/-- C129. If the factors of the filters pass through the activation and are divided out where the maps are read, the
network computes the same. -/
theorem C129_forward (h : FilterScale s t k nf f Q n n') (hr : n.Ready σ σ') (x : IOType (Cf w ℝ)) (hx : x.HasSize σ) :
    n'.forward x = n.forward x := by
  obtain ⟨hp, pre, a, a', rd, rd', m, p, q, K, c, -, e, e', ha, ha', hrd⟩ := h
  obtain ⟨-, hw, hf, ht, -⟩ := hr
  rw [e] at hw hf ht
  obtain ⟨s1, f1, f2⟩ := hf.split
  cases f2 with
  | cons f2 f3 =>
    obtain ⟨r1, c1, rfl, rfl, d⟩ := (Conv.fits_dims ha).mp f2
    have a1 := ht (.conv a) (by simp)
    have hfn : a.func = f := ha.2.2.1
    simp only [Layer.Total, hfn] at a1
    have ht0 : ∀ o, t o ≠ 0 := fun o h0 => (hp o).ne.2 (by rw [h0]; rfl)
    have key := FwdRel.pre f1 (fun l hl => hw l (by simp [hl])) (fun l hl => ht l (by simp [hl]))
      (.cons (l := .conv a) (l' := .conv a') (fun x x' hx => by
        obtain ⟨rfl, hx⟩ := hx
        exact scale_conv hp ha ha' a1 d hx)
        (hrd.forward ht0 f3 (fun l hl => hw l (by simp [hl])) fun l hl => ht l (by simp [hl])))
    obtain ⟨ys, ys', y, c1, c2, c3, c4, -⟩ := key x x ⟨rfl, hx⟩
    have fin : ∀ (m : Net (Cf w ℝ)) (zs : List (IOType (Cf w ℝ))), m.layers ≠ [] → Chain m.layers x zs →
        (x :: zs).getLast? = some y → m.forward x = some (.ok y) := by
      intro m zs hm hc hl
      refine (C44_forward m hm x _).mpr ⟨zs, y, hc, ?_, rfl⟩
      have := hc.length
      cases zs with
      | nil => exact absurd (List.length_eq_zero_iff.mp this.symm) hm
      | cons z zs => rwa [List.getLast?_cons_cons] at hl
    rw [fin n ys (by rw [e]; simp) (by rw [e]; exact c1) c3, fin n' ys' (by rw [e']; simp) (by rw [e']; exact c2) c4]

/-- C129. Its losses and accuracies are the same, too. -/
theorem C129_measures (h : FilterScale s t k nf f Q n n') (hr : n.Ready σ σ') (data : Dataset (Cf w ℝ))
    (hs : data.HasSize σ σ') :
    (∀ lf, n'.loss data lf = n.loss data lf) ∧ n'.maxPredTest data = n.maxPredTest data := by
  constructor
  · intro lf
    unfold Net.loss
    congr 1
    exact mapM_congr fun p hp => by rw [C129_forward h hr p.1 (hs p hp).1]
  · unfold Net.maxPredTest
    congr 1
    exact mapM_congr fun p hp => by rw [C129_forward h hr p.1 (hs p hp).1]

end

end Renplex
