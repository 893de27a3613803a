import Verif.Spec.Channels
import Verif.Props.Unitary
import Verif.Props.FilterNet
/-!
# C114: the channels of the images
-/

namespace Renplex

/-! ## The first layer and the rest of the network -/

section head
variable {α P : Type} [CplxOps α P]

/-- The derivatives for the layers after the first depend on the first layer only through its output. -/
theorem head_sample {post : List (Layer α)} {s₁ s' : Size} (hf : FitsChain post s₁ s')
    (hw : ∀ l ∈ post, l.WF) (ht : ∀ l ∈ post, l.Total) (hb : ∀ l ∈ post, l.TotalBack)
    {lf : LossFunc} (hd : ∀ t p : IOType α, t.HasSize s' → p.HasSize s' →
      ∃ d, CplxOps.dLoss lf t p = .ok d ∧ d.length = s'.len)
    {y t : IOType α} (hy : y.HasSize s₁) (htt : t.HasSize s') :
    ∃ (G : List (LayerVec α)) (e ec : List α), e.length = s₁.len ∧ ec.length = s₁.len
      ∧ List.Forall₂ LayerVec.Fits G post
      ∧ ∀ (n : Net α) (l : Layer α) (x : IOType α) (g : LayerVec α) (r : List α × List α),
        n.layers = l :: post → l.forward x = some (.ok y) → l.back x e ec = some (g, r) →
        sampleGrads n lf (x, t) = some (g :: G) := by
  obtain ⟨ks, -, -, hc⟩ := Corr.of_fits hf hw ht hb
  obtain ⟨ys, ys', z, z', c1, c2, c3, c4, ⟨rfl, c5⟩, c6⟩ := hc.pass (x := y) (x' := y) ⟨rfl, hy⟩
  obtain ⟨d, d1, d2⟩ := hd t _ htt c5
  obtain ⟨gs, gs', e, e', ec, ec', ⟨rfl, b1⟩, ⟨rfl, b2⟩, b3, b4, b5⟩ := c6 d d (d.map CplxOps.conj)
    (d.map CplxOps.conj) ⟨rfl, d2⟩ ⟨rfl, by simpa using d2⟩
  refine ⟨gs, e', ec', b1, b2, b3.fits.1, fun n l x g r hn hl hbk => ?_⟩
  have hch : Chain n.layers x (y :: ys) := by rw [hn]; exact .cons hl c1
  have h1 := b4 [(x, l)]
  unfold sampleGrads
  rw [(C44_collect n (by rw [hn]; simp) x _).mpr ⟨_, hch, rfl⟩]
  simp only [Option.bind_eq_bind, Option.bind_some, unwrap]
  rw [List.head?_reverse, List.getLast?_cons_cons, c3]
  simp only [Option.bind_some, d1]
  change Option.map _ (backGrads (backPairs n.layers x (y :: ys)) d (d.map CplxOps.conj)) = _
  rw [hn, backPairs_cons _ _ _ _ _ c1.length, h1, backGrads_cons, hbk]
  simp [backGrads]

end head

/-! ## The first layer -/

section conv
variable {α P : Type} [CplxOps α P]

/-- The forward pass of a convolutional layer, whether or not the activation panics. -/
theorem Conv.forward_pre {l : Conv α} {nf n p q r c : Nat}
    {K : Nat → Nat → Nat → Nat → α} {b : Nat → α} {f : ActFunc} (h : l.Is nf n p q K b f)
    (hf : 0 < nf) (hn : 0 < n) (hp : 1 ≤ p) (hpr : p ≤ r) (hq : 1 ≤ q) (hqc : q ≤ c)
    {maps : List (Mat α)} {X : Nat → Nat → Nat → α} (hX : MapsAre maps n r c X) :
    l.forward (.matrix maps) = ((List.range nf).mapM fun o =>
      ((table (r - p + 1) (c - q + 1) (convPre n p q X K b o)).mapM (CplxOps.activate f)).map
        fun body => Mat.fromBody body (r - p + 1, c - q + 1)).map fun fs => .ok (.matrix fs) := by
  have ho := Conv.outShape_is h hf hn hp hpr hq hqc hX
  obtain ⟨-, hb, hfn, M, hk, hM⟩ := h
  obtain ⟨Mx, rfl, hMx⟩ := hX.exists_fun
  unfold Conv.forward
  simp only [Option.bind_eq_bind]
  rw [ho]
  simp only [Option.bind_some, hk.1, List.length_map, List.length_range, ne_eq,
    not_true_eq_false, if_false]
  rw [C18_rows hk hn, hb]
  simp only [Option.bind_some]
  rw [zip_range_map, mapM_map']
  have : ∀ o ∈ List.range nf, (do
      let f ← Conv.feature (r - p + 1, c - q + 1) ((List.range n).map Mx) ((List.range n).map (M o)) (b o)
      let body ← activateMut l.func f.body
      some { f with body := body } : Run (Mat α))
      = ((table (r - p + 1) (c - q + 1) (convPre n p q X K b o)).mapM (CplxOps.activate f)).map
        fun body => Mat.fromBody body (r - p + 1, c - q + 1) := by
    intro o ho'
    have ho' := List.mem_range.mp ho'
    rw [Conv.feature_is hp hpr hq hqc hMx (hM o ho')]
    simp only [Option.bind_eq_bind, Option.bind_some, Mat.fromBody, activateMut, hfn]
    exact (Option.map_eq_bind ..).symm
  have := mapM_congr this
  simp only [Option.bind_eq_bind] at this
  rw [this]
  exact (Option.map_eq_bind ..).symm

end conv

variable {w : Width}

/-- The weighted sums of a filter on mixed channels. -/
theorem convPre_mix {m : Nat} {U : Nat → Nat → Cf w ℝ} (hU : Unitary m U) (p q : Nat)
    (X : Nat → Nat → Nat → Cf w ℝ) (K : Nat → Nat → Nat → Nat → Cf w ℝ) (b : Nat → Cf w ℝ) :
    convPre m p q (fun k i j => ∑ ch ∈ Finset.range m, U k ch * X ch i j)
      (fun o k x y => ∑ i ∈ Finset.range m, K o i x y * CplxOps.conj (U k i)) b
      = convPre m p q X K b := by
  funext o i j
  rw [convPre_sum, convPre_sum]
  congr 1
  rw [Finset.sum_comm, Finset.sum_comm (s := Finset.range m)]
  refine Finset.sum_congr rfl fun x _ => ?_
  rw [Finset.sum_comm, Finset.sum_comm (s := Finset.range m)]
  refine Finset.sum_congr rfl fun y _ => ?_
  have := turned_sum hU (fun ch => K o ch x y) fun ch => X ch (i + x) (j + y)
  unfold turnVec at this
  simp only [mul_comm (K o _ x y) (X _ _ _)] at this
  rw [← this]
  exact Finset.sum_congr rfl fun k _ => by rw [mul_comm]

/-- The derivatives by the kernels on mixed channels. -/
theorem kernelGrad_mix (R C m : Nat) (V : Nat → Cf w ℝ) (X : Nat → Nat → Nat → Cf w ℝ)
    (M : Nat → Nat → Cf w ℝ) (a b : Nat) :
    kernelGrad R C (fun i j => ∑ ch ∈ Finset.range m, V ch * X ch i j) M a b
      = ∑ ch ∈ Finset.range m, V ch * kernelGrad R C (X ch) M a b := by
  unfold kernelGrad
  simp only [Finset.sum_mul, Finset.mul_sum]
  symm
  rw [Finset.sum_comm]
  refine Finset.sum_congr rfl fun i _ => ?_
  rw [Finset.sum_comm]
  exact Finset.sum_congr rfl fun j _ => Finset.sum_congr rfl fun ch _ => by ring

theorem Mixed.symm {m : Nat} {U : Nat → Nat → Cf w ℝ} {n n' : Net (Cf w ℝ)} (h : Mixed m U n n') :
    Mixed m (dagger U) n' n := by
  obtain ⟨hm, hU, a, a', post, nf, p, q, K, b, f, hn, hn', ha, ha'⟩ := h
  refine ⟨hm, hU.dagger, a', a, post, nf, p, q, _, b, f, hn', hn, ha', ?_⟩
  obtain ⟨h1, h2, h3, M, h4, h5⟩ := ha
  refine ⟨h1, h2, h3, M, h4, fun o ho ch hch => ⟨(h5 o ho ch hch).1, ?_⟩⟩
  rw [(h5 o ho ch hch).2]
  refine table_congr fun x _ y _ => ?_
  simp only [dagger, conj_conj_cf, Finset.sum_mul]
  rw [Finset.sum_comm]
  simp only [mul_assoc, ← Finset.mul_sum]
  rw [Finset.sum_congr rfl fun i' hi' => by rw [hU i' (Finset.mem_range.mp hi') ch hch]]
  symm
  have := sum_delta (fun i => K o i x y) hch
  simpa only [eq_comm] using this

theorem mixed_first {m nf p q r c : Nat} {U : Nat → Nat → Cf w ℝ} (hm : 0 < m) (hU : Unitary m U)
    {a a' : Conv (Cf w ℝ)} {K : Nat → Nat → Nat → Nat → Cf w ℝ} {b : Nat → Cf w ℝ} {f : ActFunc}
    (ha : a.Is nf m p q K b f)
    (ha' : a'.Is nf m p q (fun o k x y => ∑ i ∈ Finset.range m, K o i x y * CplxOps.conj (U k i)) b f)
    {x x' : IOType (Cf w ℝ)} (hx : MixedImage m r c U x x') : a'.forward x' = a.forward x := by
  obtain ⟨ms, ms', X, rfl, rfl, hX, hX'⟩ := hx
  rcases Nat.eq_zero_or_pos nf with h0 | hf
  · rw [C40_empty_layer ha (.inl h0), C40_empty_layer ha' (.inl h0)]
  · by_cases hfit : 1 ≤ p ∧ p ≤ r ∧ 1 ≤ q ∧ q ≤ c
    · obtain ⟨h1, h2, h3, h4⟩ := hfit
      rw [Conv.forward_pre ha hf hm h1 h2 h3 h4 hX, Conv.forward_pre ha' hf hm h1 h2 h3 h4 hX',
        convPre_mix hU]
    · rw [C40_no_fit ha hf hm hX hfit, C40_no_fit ha' hf hm hX' hfit]

/-! ## What the network computes -/

/-- C114. Mixing the channels of an image by a unitary matrix, and the kernels of the first layer by its
conjugate transpose, does not change what the network returns, or whether it panics. -/
theorem C114_forward {m r c : Nat} {U : Nat → Nat → Cf w ℝ} (n n' : Net (Cf w ℝ)) (h : Mixed m U n n')
    (x x' : IOType (Cf w ℝ)) (hx : MixedImage m r c U x x') : n'.forward x' = n.forward x := by
  obtain ⟨hm, hU, a, a', post, nf, p, q, K, b, f, hn, hn', ha, ha'⟩ := h
  have e := mixed_first hm hU ha ha' hx
  have key : ∀ {n n' : Net (Cf w ℝ)} {x x' : IOType (Cf w ℝ)} {a a' : Conv (Cf w ℝ)},
      n.layers = .conv a :: post → n'.layers = .conv a' :: post → a'.forward x' = a.forward x →
      ∀ r, n.forward x = some r → n'.forward x' = some r := by
    intro n n' x x' a a' hn hn' e r hr
    obtain ⟨zs, y, hc, hy, rfl⟩ := (C44_forward n (by rw [hn]; simp) x r).mp hr
    rw [hn] at hc
    cases hc with
    | @cons _ _ _ y' ws q1 t =>
      exact (C44_forward n' (by rw [hn']; simp) _ _).mpr ⟨y' :: ws, y, by
        rw [hn']
        exact .cons (show a'.forward x' = _ by rw [e]; exact q1) t, hy, rfl⟩
  cases hr : n.forward x with
  | some r => exact key hn hn' e r hr
  | none =>
    cases hr' : n'.forward x' with
    | none => rfl
    | some r => rw [key hn' hn e.symm r hr'] at hr; cases hr

theorem MixedData.points {m r c : Nat} {U : Nat → Nat → Cf w ℝ} {d d' : Dataset (Cf w ℝ)}
    (h : MixedData m r c U d d') :
    List.Forall₂ (fun p p' => MixedImage m r c U p.1 p'.1 ∧ p'.2 = p.2) d.points d'.points := by
  obtain ⟨h1, h2⟩ := h
  unfold Dataset.points
  rw [h2]
  generalize d.target = ts
  generalize d.inputs = xs at h1
  generalize d'.inputs = xs' at h1
  induction h1 generalizing ts with
  | nil => exact .nil
  | cons h _ ih =>
    cases ts with
    | nil => exact .nil
    | cons t ts => exact .cons ⟨h, rfl⟩ (ih ts)

theorem mapM_forall₂ {β γ δ : Type} {R : β → γ → Prop} {xs : List β} {ys : List γ}
    (h : List.Forall₂ R xs ys) {F : β → Option δ} {G : γ → Option δ} (hFG : ∀ x y, R x y → G y = F x) :
    ys.mapM G = xs.mapM F := by
  induction h with
  | nil => rfl
  | cons h _ ih => rw [List.mapM_cons, List.mapM_cons, hFG _ _ h, ih]

/-- C114. So the losses and accuracies on mixed images are those on the images, and the networks panic
together. -/
theorem C114_measures {m r c : Nat} {U : Nat → Nat → Cf w ℝ} (n n' : Net (Cf w ℝ)) (h : Mixed m U n n')
    (data data' : Dataset (Cf w ℝ)) (hd : MixedData m r c U data data') :
    (∀ lf, n'.loss data' lf = n.loss data lf) ∧ n'.maxPredTest data' = n.maxPredTest data := by
  have hp := hd.points
  have hl : data'.points.length = data.points.length := hp.length_eq.symm
  constructor
  · intro lf
    unfold Net.loss
    rw [mapM_forall₂ hp fun p p' h' => by rw [C114_forward n n' h p.1 p'.1 h'.1, h'.2]]
  · unfold Net.maxPredTest
    rw [mapM_forall₂ hp fun p p' h' => by rw [C114_forward n n' h p.1 p'.1 h'.1, h'.2], hd.2]

/-! ## Training -/

theorem kvec_zipWith {α β γ : Type} (F : α → β → γ) (nf n p q : Nat) (D : Nat → Nat → Nat → Nat → α)
    (E : Nat → Nat → Nat → Nat → β) : List.zipWith F (kvec nf n p q D) (kvec nf n p q E)
      = kvec nf n p q fun o ch a b => F (D o ch a b) (E o ch a b) := by
  unfold kvec
  rw [zipWith_flatMap _ _ _ _ (by simp [cube_length])]
  simp only [cube_zipWith]

/-- Derivatives by the kernels and biases of the first layer, and what becomes of them. -/
def VecM (nf m p q : Nat) (U : Nat → Nat → Cf w ℝ) (gs gs' : List (LayerVec (Cf w ℝ))) : Prop :=
  ∃ (G : List (LayerVec (Cf w ℝ))) (A : Nat → Nat → Nat → Nat → Cf w ℝ) (s : Nat → Cf w ℝ),
    gs = (kvec nf m p q A, (List.range nf).map s) :: G
    ∧ gs' = (kvec nf m p q (fun o k x y => ∑ i ∈ Finset.range m, U k i * A o i x y),
      (List.range nf).map s) :: G

/-- The contribution of a sample to the derivatives by the first layer. -/
theorem conv_sample {n : Net (Cf w ℝ)} {m r c nf p q : Nat} {s' : Size} (hr : n.Ready (.maps m r c) s')
    {a : Conv (Cf w ℝ)} {post : List (Layer (Cf w ℝ))} {K : Nat → Nat → Nat → Nat → Cf w ℝ}
    {b : Nat → Cf w ℝ} {f : ActFunc} (hn : n.layers = .conv a :: post) (ha : a.Is nf m p q K b f)
    (lf : LossFunc) {ms : List (Mat (Cf w ℝ))} {X : Nat → Nat → Nat → Cf w ℝ} (hX : MapsAre ms m r c X)
    {t : IOType (Cf w ℝ)} (ht : t.HasSize s') :
    ∃ (G : List (LayerVec (Cf w ℝ))) (M : Nat → Nat → Nat → Cf w ℝ),
      List.Forall₂ LayerVec.Fits G post
      ∧ ∀ (n' : Net (Cf w ℝ)) (a' : Conv (Cf w ℝ)) (K' : Nat → Nat → Nat → Nat → Cf w ℝ)
        (X' : Nat → Nat → Nat → Cf w ℝ) (ms' : List (Mat (Cf w ℝ))), n'.layers = .conv a' :: post →
        a'.Is nf m p q K' b f → MapsAre ms' m r c X' → convPre m p q X' K' b = convPre m p q X K b →
        sampleGrads n' lf (.matrix ms', t) = some ((kvec nf m p q fun o ch =>
          kernelGrad (r - p + 1) (c - q + 1) (X' ch) (M o), (List.range nf).map fun o =>
          ∑ i ∈ Finset.range (r - p + 1), ∑ j ∈ Finset.range (c - q + 1), M o i j) :: G) := by
  have : Nonempty (Cf w ℝ) := ⟨0⟩
  obtain ⟨-, hw, hfit, htot, hback⟩ := hr
  rw [hn] at hw hfit htot hback
  cases hfit with
  | @cons _ _ _ s₁ _ h1 h2 =>
    obtain ⟨k1, hf, hp, hpr, hq, hqc, rfl⟩ : 0 < m ∧ 0 < nf ∧ 1 ≤ p ∧ p ≤ r ∧ 1 ≤ q ∧ q ≤ c
        ∧ s₁ = .maps nf (r - p + 1) (c - q + 1) := by
      obtain ⟨r', c', e, e', i1, i2, i3, i4, i5, i6⟩ := (Conv.fits_dims ha).mp h1
      cases e
      exact ⟨i2, i1, i3, i4, i5, i6, e'⟩
    have hA := htot (.conv a) (by simp)
    obtain ⟨hD, hDC⟩ := hback (.conv a) (by simp)
    simp only [Layer.Total, ha.2.2.1] at hA
    rw [ha.2.2.1] at hD hDC
    choose A hA using hA
    choose D hD using hD
    choose DC hDC using hDC
    have hy := Conv.forward_maps ha hf k1 hp hpr hq hqc hX A hA
    obtain ⟨G, e, ec, g1, g2, g3, g4⟩ := head_sample h2 (fun l hl => hw l (by simp [hl]))
      (fun l hl => htot l (by simp [hl])) (fun l hl => hback l (by simp [hl])) (dLoss_total lf)
      (mapsAre_fromBody nf (r - p + 1) (c - q + 1) fun o i j => A (convPre m p q X K b o i j)).hasSize ht
    obtain ⟨E, rfl⟩ := exists_cube _ _ _ _ g1
    obtain ⟨EC, rfl⟩ := exists_cube _ _ _ _ g2
    refine ⟨G, fun o i j => D (convPre m p q X K b o i j) * E o i j
      + CplxOps.conj (DC (convPre m p q X K b o i j)) * EC o i j, g3,
      fun n' a' K' X' ms' hn' ha' hX' hpre => ?_⟩
    rw [← hpre] at g4 ⊢
    refine g4 n' _ _ _ _ hn' ?_ (Conv.back_is ha' hf k1 hp hpr hq hqc hX' E EC D DC hD hDC)
    exact Conv.forward_maps ha' hf k1 hp hpr hq hqc hX' A hA

theorem VecM.add {nf m p q : Nat} {U : Nat → Nat → Cf w ℝ} {x x' y y' : List (LayerVec (Cf w ℝ))}
    (h : VecM nf m p q U x x') (h' : VecM nf m p q U y y') :
    VecM nf m p q U (List.zipWith LayerVec.add x y) (List.zipWith LayerVec.add x' y') := by
  obtain ⟨G, A, s, rfl, rfl⟩ := h
  obtain ⟨K, B, t, rfl, rfl⟩ := h'
  refine ⟨List.zipWith LayerVec.add G K, fun o ch a b => A o ch a b + B o ch a b, fun j => s j + t j, ?_, ?_⟩
  · simp only [List.zipWith_cons_cons, LayerVec.add, kvec_zipWith, List.zipWith_map, List.zipWith_self]
  · simp only [List.zipWith_cons_cons, LayerVec.add, kvec_zipWith, List.zipWith_map, List.zipWith_self,
      mul_add, Finset.sum_add_distrib]

theorem mixed_total {nf m p q : Nat} {U : Nat → Nat → Cf w ℝ} {gss gss' : List (List (LayerVec (Cf w ℝ)))}
    (h : List.Forall₂ (VecM nf m p q U) gss gss') {acc acc' : List (LayerVec (Cf w ℝ))}
    (h0 : VecM nf m p q U acc acc') : VecM nf m p q U (gss.foldl (List.zipWith LayerVec.add) acc)
      (gss'.foldl (List.zipWith LayerVec.add) acc') := by
  induction h generalizing acc acc' with
  | nil => exact h0
  | cons h _ ih => exact ih (h0.add h)

theorem zero_conv {l : Conv (Cf w ℝ)} {nf m p q : Nat} {K : Nat → Nat → Nat → Nat → Cf w ℝ}
    {b : Nat → Cf w ℝ} {f : ActFunc} (h : l.Is nf m p q K b f) :
    LayerVec.zero (.conv l) = (kvec nf m p q fun _ _ _ _ => 0, (List.range nf).map fun _ => 0) := by
  rw [← Net.initAcc_eq, Conv.initAcc_kvec h]
  simp only [LawfulOps.zero_eq]

theorem Mixed.ready {m r c : Nat} {U : Nat → Nat → Cf w ℝ} {n n' : Net (Cf w ℝ)} {s' : Size}
    (h : Mixed m U n n') (hr : n.Ready (.maps m r c) s') : n'.Ready (.maps m r c) s' := by
  obtain ⟨hm, hU, a, a', post, nf, p, q, K, b, f, hn, hn', ha, ha'⟩ := h
  obtain ⟨h1, h2, h3, h4, h5⟩ := hr
  rw [hn] at h1 h2 h3 h4 h5
  have key : ∀ Q : Layer (Cf w ℝ) → Prop, (∀ l ∈ Layer.conv a :: post, Q l) → Q (.conv a') →
      ∀ l ∈ Layer.conv a' :: post, Q l := by
    intro Q i1 i2 l hl
    rcases List.mem_cons.mp hl with rfl | hl
    · exact i2
    · exact i1 l (by simp [hl])
  have e : a'.func = a.func := by rw [ha.2.2.1, ha'.2.2.1]
  refine ⟨?_, ?_, ?_, ?_, ?_⟩ <;> rw [hn']
  · simpa using h1
  · exact key _ h2 ha'.wf
  · cases h3 with
    | cons i1 i2 => exact .cons ((Conv.fits_dims ha').mpr ((Conv.fits_dims ha).mp i1)) i2
  · refine key _ h4 ?_
    have := h4 (.conv a) (by simp)
    simpa only [Layer.Total, e] using this
  · refine key _ h5 ?_
    have := h5 (.conv a) (by simp)
    simpa only [Layer.TotalBack, e] using this

theorem MixedImage.hasSize {m r c : Nat} {U : Nat → Nat → Cf w ℝ} {x x' : IOType (Cf w ℝ)}
    (h : MixedImage m r c U x x') : x.HasSize (.maps m r c) ∧ x'.HasSize (.maps m r c) := by
  obtain ⟨ms, ms', X, rfl, rfl, h1, h2⟩ := h
  exact ⟨h1.hasSize, h2.hasSize⟩

theorem mixed_step {m r c : Nat} {U : Nat → Nat → Cf w ℝ} {n n' : Net (Cf w ℝ)} {s' : Size}
    (h : Mixed m U n n') (hr : n.Ready (.maps m r c) s') {data data' : Dataset (Cf w ℝ)}
    (hd : MixedData m r c U data data') (ht : ∀ p ∈ data.points, p.2.HasSize s') {lf : LossFunc}
    {lr : Cf w ℝ} (hlr : lr.y = 0) {res : Except ForwardErr Unit} {n1 : Net (Cf w ℝ)}
    (hg : n.gradientOpt data lf lr = some (res, n1)) :
    ∃ n1', n'.gradientOpt data' lf lr = some (res, n1') ∧ Mixed m U n1 n1' := by
  have hr' := h.ready hr
  obtain ⟨hm, hU, a, a', post, nf, p, q, K, b, f, hn, hn', ha, ha'⟩ := h
  obtain ⟨rfl, gss, scale, h1, h2, rfl⟩ := (C50_step n n1 hr.layers hr.wf data lf lr res).mp hg
  have hss : ∃ gss', List.Forall₂ (fun p gs => sampleGrads n' lf p = some gs
        ∧ List.Forall₂ LayerVec.Fits gs n'.layers) data'.points gss'
      ∧ List.Forall₂ (VecM nf m p q U) gss gss' := by
    have hpts := hd.points
    clear hg hd
    generalize data.points = pts at h1 ht hpts
    generalize data'.points = pts' at hpts
    induction h1 generalizing pts' with
    | nil => cases hpts; exact ⟨[], .nil, .nil⟩
    | @cons pt gs pts gss hp _ ih =>
      cases hpts with
      | @cons _ pt' _ pts' hpp hpts =>
        obtain ⟨gss', i1, i2⟩ := ih (fun p hp => ht p (by simp [hp])) _ hpts
        obtain ⟨x, t⟩ := pt
        obtain ⟨x', t'⟩ := pt'
        obtain ⟨⟨ms, ms', X, rfl, rfl, hX, hX'⟩, rfl⟩ := hpp
        obtain ⟨G, M, g1, g2⟩ := conv_sample hr hn ha lf hX (ht _ List.mem_cons_self)
        have e1 := g2 n a K X ms hn ha hX rfl
        have e2 := g2 n' a' _ _ ms' hn' ha' hX' (convPre_mix hU p q X K b)
        rw [hp.1] at e1
        cases e1
        refine ⟨_ :: gss', .cons ⟨e2, ?_⟩ i1, .cons ⟨G, _, _, rfl, ?_⟩ i2⟩
        · rw [hn']
          exact .cons (Conv.fits_kvec ha' _ _) g1
        · congr 3
          funext o k x y
          exact kernelGrad_mix _ _ _ _ _ _ _ _
  obtain ⟨gss', j1, j2⟩ := hss
  have hz : VecM nf m p q U (n.layers.map LayerVec.zero) (n'.layers.map LayerVec.zero) := by
    refine ⟨post.map LayerVec.zero, fun _ _ _ _ => 0, fun _ => 0, ?_, ?_⟩
    · rw [hn, List.map_cons, zero_conv ha]
    · rw [hn', List.map_cons, zero_conv ha']
      simp
  have hdiv : data'.inputs.length = data.inputs.length := hd.1.length_eq.symm
  refine ⟨_, (C50_step n' _ hr'.layers hr'.wf _ lf lr (.ok ())).mpr
    ⟨rfl, gss', scale, j1, by rw [hdiv]; exact h2, rfl⟩, ?_⟩
  obtain ⟨G, A, s, e1, e2⟩ := mixed_total j2 hz
  have hs := scale_real hlr h2
  obtain ⟨l1, k1, i1⟩ := Conv.move_is ha (fun p d => p - CplxOps.conj (BasicOps.mulAssign d scale)) A s
  obtain ⟨l2, k2, i2⟩ := Conv.move_is ha' (fun p d => p - CplxOps.conj (BasicOps.mulAssign d scale))
    (fun o k x y => ∑ i ∈ Finset.range m, U k i * A o i x y) s
  refine ⟨hm, hU, l1, l2, List.zipWith (Layer.zipParams fun p d => p - CplxOps.conj (BasicOps.mulAssign d scale)) post G,
    nf, p, q, _, _, f, ?_, ?_, i1, ?_⟩
  · show List.zipWith _ n.layers (gss.foldl _ _) = _
    rw [e1, hn, List.zipWith_cons_cons]
    exact congrArg (· :: _) k1
  · show List.zipWith _ n'.layers (gss'.foldl _ _) = _
    rw [e2, hn', List.zipWith_cons_cons]
    exact congrArg (· :: _) k2
  · convert i2 using 1
    funext o k x y
    have hmv : ∀ d : Cf w ℝ, (CplxOps.conj (BasicOps.mulAssign d scale) : Cf w ℝ) = CplxOps.conj d * CplxOps.conj scale :=
      fun d => moved_real hs d
    simp only [hmv, sub_mul, Finset.sum_sub_distrib, conj_sum_cf, Finset.sum_mul, conj_mul_cf]
    congr 1
    exact Finset.sum_congr rfl fun i _ => by ring

theorem MixedData.hasSize {m r c : Nat} {U : Nat → Nat → Cf w ℝ} {d d' : Dataset (Cf w ℝ)} {s' : Size}
    (h : MixedData m r c U d d') (ht : ∀ p ∈ d.points, p.2.HasSize s') :
    d.HasSize (.maps m r c) s' ∧ d'.HasSize (.maps m r c) s' := by
  have hp := h.points
  generalize hx : d.points = pts at hp
  generalize hx' : d'.points = pts' at hp
  unfold Dataset.HasSize
  rw [hx] at ht ⊢
  rw [hx']
  clear hx hx'
  induction hp with
  | nil => simp
  | cons h _ ih =>
    obtain ⟨i1, i2⟩ := ih fun p hp => ht p (by simp [hp])
    have h0 := h.1.hasSize
    have ht0 := ht _ List.mem_cons_self
    constructor
    · intro p hp
      rcases List.mem_cons.mp hp with rfl | hp
      · exact ⟨h0.1, ht0⟩
      · exact i1 p hp
    · intro p hp
      rcases List.mem_cons.mp hp with rfl | hp
      · exact ⟨h0.2, by rw [h.2]; exact ht0⟩
      · exact i2 p hp

/-- C114. Training commutes with mixing the channels: a training call with a real learning rate panics for
both networks or for neither, with the same result, and the networks it leaves differ by the same matrix. -/
theorem C114_step {m r c : Nat} {U : Nat → Nat → Cf w ℝ} (n n' : Net (Cf w ℝ)) {s' : Size}
    (h : Mixed m U n n') (hr : n.Ready (.maps m r c) s') (data data' : Dataset (Cf w ℝ))
    (hd : MixedData m r c U data data') (ht : ∀ p ∈ data.points, p.2.HasSize s') (lf : LossFunc)
    (lr : Cf w ℝ) (hlr : lr.y = 0) :
    Option.Rel (fun o o' => o.1 = o'.1 ∧ Mixed m U o.2 o'.2 ∧ o.2.Ready (.maps m r c) s')
      (n.gradientOpt data lf lr) (n'.gradientOpt data' lf lr) := by
  have hs := hd.hasSize ht
  have hdiv : data'.inputs.length = data.inputs.length := hd.1.length_eq.symm
  cases hq : BasicOps.div lr (CplxOps.ofUsize data.inputs.length) with
  | none =>
    rw [(C66_panics n hr data hs.1 lf lr).mpr hq,
      (C66_panics n' (h.ready hr) data' hs.2 lf lr).mpr (by rw [hdiv]; exact hq)]
    exact .none
  | some scale =>
    obtain ⟨n1, e1, e2⟩ := C66_step n hr data hs.1 lf lr scale hq
    obtain ⟨n1', e3, e4⟩ := mixed_step h hr hd ht hlr e1
    rw [e1, e3]
    exact .some ⟨rfl, e4, e2⟩

/-- C114. The same for any history of training calls with real learning rates. -/
theorem C114_train {m r c : Nat} {U : Nat → Nat → Cf w ℝ} (n n' : Net (Cf w ℝ)) {s' : Size}
    (h : Mixed m U n n') (hr : n.Ready (.maps m r c) s') (steps steps' : List (TrainStep (Cf w ℝ)))
    (hst : MixedSteps m r c U steps steps') (ht : ∀ s ∈ steps, ∀ p ∈ s.1.points, p.2.HasSize s')
    (hlr : ∀ s ∈ steps, s.2.2.y = 0) :
    Option.Rel (fun o o' => Mixed m U o o' ∧ o.Ready (.maps m r c) s') (n.train steps)
      (n'.train steps') := by
  induction hst generalizing n n' with
  | nil => exact .some ⟨h, hr⟩
  | @cons s s1 steps steps' hs hst ih =>
    obtain ⟨d', lf, lr⟩ := s1
    obtain ⟨d, lf0, lr0⟩ := s
    obtain ⟨hs1, hs2⟩ := hs
    cases hs2
    simp only [Net.train, List.foldlM_cons, Option.bind_eq_bind]
    have := C114_step n n' h hr d d' hs1 (ht _ List.mem_cons_self) lf lr (hlr _ List.mem_cons_self)
    cases hr1 : n.gradientOpt d lf lr with
    | none =>
      rw [hr1] at this
      cases hr' : n'.gradientOpt d' lf lr with
      | none => exact .none
      | some o => rw [hr'] at this; cases this
    | some o =>
      rw [hr1] at this
      cases hr' : n'.gradientOpt d' lf lr with
      | none => rw [hr'] at this; cases this
      | some o' =>
        rw [hr'] at this
        cases this with
        | some this =>
          exact ih o.2 o'.2 this.2.1 this.2.2 (fun s hs => ht s (by simp [hs]))
            fun s hs => hlr s (by simp [hs])

/-- C114. Every network that starts with a convolutional layer has such a partner for every unitary
matrix, and every image. -/
theorem C114_partner {m : Nat} {U : Nat → Nat → Cf w ℝ} (hm : 0 < m) (hU : Unitary m U)
    (a : Conv (Cf w ℝ)) (post : List (Layer (Cf w ℝ))) {nf p q : Nat}
    {K : Nat → Nat → Nat → Nat → Cf w ℝ} {b : Nat → Cf w ℝ} {f : ActFunc} (ha : a.Is nf m p q K b f) :
    (∃ n', Mixed m U ⟨.conv a :: post⟩ n')
      ∧ ∀ (r c : Nat) (x : IOType (Cf w ℝ)), x.HasSize (.maps m r c) → ∃ x', MixedImage m r c U x x' := by
  have : Nonempty (Cf w ℝ) := ⟨0⟩
  constructor
  · refine ⟨⟨.conv ⟨m, Mat.fromBody (table nf m fun o k => Mat.fromBody (table p q fun x y =>
      ∑ i ∈ Finset.range m, K o i x y * CplxOps.conj (U k i)) (p, q)) (nf, m), (List.range nf).map b, f⟩ :: post⟩,
      hm, hU, a, _, post, nf, p, q, K, b, f, rfl, rfl, ha, rfl, rfl, rfl, _, ⟨rfl, rfl⟩, fun _ _ _ _ => ⟨rfl, rfl⟩⟩
  · intro r c x hx
    cases x with
    | scalar v => exact hx.elim
    | matrix ms =>
      obtain ⟨X, hX⟩ := MapsAre.exists_of hx
      exact ⟨_, ms, _, X, rfl, rfl, hX, mapsAre_fromBody m r c fun k i j => ∑ ch ∈ Finset.range m, U k ch * X ch i j⟩

/-! ## What training does to the first layer -/

/-- Derivatives of a convolutional layer that are sums over images and places. -/
def InPatches (nf m p q R C : Nat) (S : (Nat → Nat → Nat → Cf w ℝ) → Prop) (g : LayerVec (Cf w ℝ)) : Prop :=
  ∃ L : List ((Nat → Nat → Nat → Cf w ℝ) × (Nat → Nat → Nat → Cf w ℝ)), (∀ t ∈ L, S t.1)
    ∧ g = (kvec nf m p q fun o ch a b => (L.map fun t => kernelGrad R C (t.1 ch) (t.2 o) a b).sum,
      (List.range nf).map fun o => (L.map fun t =>
        ∑ i ∈ Finset.range R, ∑ j ∈ Finset.range C, t.2 o i j).sum)

theorem InPatches.add {nf m p q R C : Nat} {S : (Nat → Nat → Nat → Cf w ℝ) → Prop} {g g' : LayerVec (Cf w ℝ)}
    (h : InPatches nf m p q R C S g) (h' : InPatches nf m p q R C S g') :
    InPatches nf m p q R C S (g.add g') := by
  obtain ⟨L, hL, rfl⟩ := h
  obtain ⟨L', hL', rfl⟩ := h'
  refine ⟨L ++ L', fun q hq => (List.mem_append.mp hq).elim (hL q) (hL' q), ?_⟩
  simp only [LayerVec.add, kvec_zipWith, List.zipWith_map, List.zipWith_self, List.map_append, List.sum_append]

theorem StartsConv.unique {n : Net (Cf w ℝ)} {nf m p q : Nat}
    {K K' : Nat → Nat → Nat → Nat → Cf w ℝ} {b b' : Nat → Cf w ℝ} {f f' : ActFunc}
    (h : StartsConv n nf m p q K b f) (h' : StartsConv n nf m p q K' b' f') {o : Nat} (ho : o < nf) :
    b' o = b o ∧ ∀ ch, ch < m → ∀ x, x < p → ∀ y, y < q → K' o ch x y = K o ch x y := by
  obtain ⟨a, post, hn, ha⟩ := h
  obtain ⟨a', post', hn', ha'⟩ := h'
  rw [hn'] at hn
  cases (List.cons.inj hn).1
  constructor
  · have := congrArg (fun q => q[o]?) (ha'.2.1.symm.trans ha.2.1)
    simpa [ho] using this
  · intro ch hch x hx y hy
    obtain ⟨-, -, -, M, h4, h5⟩ := ha
    obtain ⟨-, -, -, M', h4', h5'⟩ := ha'
    have e : M' o ch = M o ch := by
      have := congrArg (fun q => q[o * m + ch]?) (h4'.2.symm.trans h4.2)
      simpa [table_getElem? nf m _ ho hch] using this
    have := congrArg (fun z => z[x * q + y]?) ((e ▸ (h5' o ho ch hch).2).symm.trans (h5 o ho ch hch).2)
    simpa [table_getElem? p q _ hx hy] using this

/-- What training does to a convolutional layer at the start: entries of `L` are an image, one number for
each filter and place, and a factor. -/
theorem patch_core {n n' : Net (Cf w ℝ)} {m r c nf p q : Nat} {s' : Size} (hr : n.Ready (.maps m r c) s')
    {K : Nat → Nat → Nat → Nat → Cf w ℝ} {b : Nat → Cf w ℝ} {f : ActFunc} (hn : StartsConv n nf m p q K b f)
    (steps : List (TrainStep (Cf w ℝ))) (hs : ∀ st ∈ steps, st.1.HasSize (.maps m r c) s')
    (h : n.train steps = some n') :
    ∃ (K' : Nat → Nat → Nat → Nat → Cf w ℝ) (b' : Nat → Cf w ℝ)
      (L : List ((Nat → Nat → Nat → Cf w ℝ) × (Nat → Nat → Nat → Cf w ℝ) × Cf w ℝ)),
      StartsConv n' nf m p q K' b' f
      ∧ (∀ t ∈ L, Shown m r c steps t.1 ∧ ((∀ s ∈ steps, s.2.2.y = 0) → t.2.2.y = 0))
      ∧ ∀ o, o < nf → b' o = b o - (L.map fun t => moved t.2.2 (∑ i ∈ Finset.range (r - p + 1),
          ∑ j ∈ Finset.range (c - q + 1), t.2.1 o i j)).sum
        ∧ ∀ ch, ch < m → ∀ x, x < p → ∀ y, y < q → K' o ch x y = K o ch x y - (L.map fun t =>
          moved t.2.2 (kernelGrad (r - p + 1) (c - q + 1) (t.1 ch) (t.2.1 o) x y)).sum := by
  induction steps generalizing n K b with
  | nil =>
    cases h
    exact ⟨K, b, [], hn, by simp, by simp⟩
  | cons s steps ih =>
    obtain ⟨res, n1, h1, h2⟩ := Net.train_cons h
    have hs0 := hs s List.mem_cons_self
    have step : ∃ (K1 : Nat → Nat → Nat → Nat → Cf w ℝ) (b1 : Nat → Cf w ℝ)
        (L : List ((Nat → Nat → Nat → Cf w ℝ) × (Nat → Nat → Nat → Cf w ℝ) × Cf w ℝ)),
        StartsConv n1 nf m p q K1 b1 f ∧ n1.Ready (.maps m r c) s'
        ∧ (∀ t ∈ L, (∃ p ∈ s.1.points, ∃ ms, p.1 = .matrix ms ∧ MapsAre ms m r c t.1)
          ∧ (s.2.2.y = 0 → t.2.2.y = 0))
        ∧ ∀ o, o < nf → b1 o = b o - (L.map fun t => moved t.2.2 (∑ i ∈ Finset.range (r - p + 1),
            ∑ j ∈ Finset.range (c - q + 1), t.2.1 o i j)).sum
          ∧ ∀ ch, ch < m → ∀ x, x < p → ∀ y, y < q → K1 o ch x y = K o ch x y - (L.map fun t =>
            moved t.2.2 (kernelGrad (r - p + 1) (c - q + 1) (t.1 ch) (t.2.1 o) x y)).sum := by
      have : Nonempty (Cf w ℝ) := ⟨0⟩
      have hr1 : n1.Ready (.maps m r c) s' := by
        cases hq : BasicOps.div s.2.2 (CplxOps.ofUsize s.1.inputs.length) with
        | none =>
          rw [(C66_panics n hr s.1 hs0 s.2.1 s.2.2).mpr hq] at h1
          cases h1
        | some scale =>
          obtain ⟨m1, e1, e2⟩ := C66_step n hr s.1 hs0 s.2.1 s.2.2 scale hq
          rw [h1] at e1
          cases e1
          exact e2
      obtain ⟨a, post, hnl, ha⟩ := hn
      obtain ⟨-, gss, scale, k1, k2, rfl⟩ := (C50_step n n1 hr.layers hr.wf s.1 s.2.1 s.2.2 res).mp h1
      have hfit : List.Forall₂ LayerVec.Fits (sumGrads n gss) n.layers := by
        refine sumGrads_fits n gss fun gs hgs => ?_
        obtain ⟨p, -, hp⟩ := forall₂_mem_right k1 gs hgs
        exact hp.2
      have hQ := fun g hg => sumGrads_at (n := n) (k := 0) (g := g)
        (Q := InPatches nf m p q (r - p + 1) (c - q + 1) fun X =>
          ∃ p ∈ s.1.points, ∃ ms, p.1 = .matrix ms ∧ MapsAre ms m r c X)
        (fun _ _ => InPatches.add)
        (fun l0 hl0 => by
          rw [hnl] at hl0
          simp at hl0
          subst hl0
          exact ⟨[], by simp, by rw [zero_conv ha]; simp⟩) gss
        (fun gs hgs g hg => by
          obtain ⟨⟨x, t⟩, hp, hp'⟩ := forall₂_mem_right k1 gs hgs
          obtain ⟨z1, z2⟩ := hs0 _ hp
          cases x with
          | scalar v => exact z1.elim
          | matrix ms =>
            obtain ⟨X, hX⟩ := MapsAre.exists_of z1
            obtain ⟨G, M, -, g2⟩ := conv_sample hr hnl ha s.2.1 hX z2
            have e1 := g2 n a K X ms hnl ha hX rfl
            rw [hp'.1] at e1
            cases e1
            cases hg
            exact ⟨[(X, M)], fun u hu => by
              obtain rfl := List.mem_singleton.mp hu
              exact ⟨_, hp, ms, rfl, hX⟩, by simp⟩) hg
      generalize sumGrads n gss = G at *
      rw [hnl] at hfit
      cases hfit with
      | @cons g _ G2 _ f2 f3 =>
        obtain ⟨L, hL, rfl⟩ := hQ g rfl
        obtain ⟨a', e1, e2⟩ := Conv.move_is ha (fun p d => p - CplxOps.conj (BasicOps.mulAssign d scale))
          (fun o ch x y => (L.map fun t => kernelGrad (r - p + 1) (c - q + 1) (t.1 ch) (t.2 o) x y).sum)
          (fun o => (L.map fun t => ∑ i ∈ Finset.range (r - p + 1), ∑ j ∈ Finset.range (c - q + 1), t.2 o i j).sum)
        refine ⟨_, _, L.map fun q => (q.1, q.2, scale),
          ⟨a', List.zipWith (Layer.zipParams (fun p d => p - CplxOps.conj (BasicOps.mulAssign d scale)))
            post G2, ?_, e2⟩, hr1, ?_, fun o ho => ⟨?_, fun ch hch x hx y hy => ?_⟩⟩
        · show List.zipWith _ n.layers _ = _
          rw [hnl, List.zipWith_cons_cons]
          exact congrArg (· :: _) e1
        · intro q hq
          obtain ⟨q', hq', rfl⟩ := List.mem_map.mp hq
          exact ⟨hL q' hq', fun hs => scale_real hs k2⟩
        · show b o - moved scale _ = _
          rw [moved_sum, List.map_map]
          rfl
        · show K o ch x y - moved scale _ = _
          rw [moved_sum, List.map_map]
          rfl
    obtain ⟨K1, b1, L1, s1, sr, s2, s3⟩ := step
    obtain ⟨K', b', L, t1, t2, t3⟩ := ih sr s1 (fun st hst => hs st (by simp [hst])) h2
    refine ⟨K', b', L1 ++ L, t1, ?_, fun o ho => ⟨?_, fun ch hch x hx y hy => ?_⟩⟩
    · intro q hq
      rcases List.mem_append.mp hq with hq | hq
      · obtain ⟨⟨p, hp, hv⟩, hs⟩ := s2 q hq
        exact ⟨⟨s, by simp, p, hp, hv⟩, fun h => hs (h s (by simp))⟩
      · obtain ⟨⟨s', hs', p, hp, hv⟩, hs⟩ := t2 q hq
        exact ⟨⟨s', by simp [hs'], p, hp, hv⟩, fun h => hs fun s hs => h s (by simp [hs])⟩
    · rw [(t3 o ho).1, (s3 o ho).1, List.map_append, List.sum_append, sub_sub]
    · rw [(t3 o ho).2 ch hch x hx y hy, (s3 o ho).2 ch hch x hx y hy, List.map_append, List.sum_append,
        sub_sub]

/-- Three sums past a fourth. -/
theorem sum_past (m p q R : Nat) (g : Nat → Nat → Nat → Nat → Cf w ℝ) :
    ∑ ch ∈ Finset.range m, ∑ x ∈ Finset.range p, ∑ y ∈ Finset.range q, ∑ i ∈ Finset.range R, g ch x y i
      = ∑ i ∈ Finset.range R, ∑ ch ∈ Finset.range m, ∑ x ∈ Finset.range p, ∑ y ∈ Finset.range q,
        g ch x y i := by
  symm
  rw [Finset.sum_comm]
  refine Finset.sum_congr rfl fun ch _ => ?_
  rw [Finset.sum_comm]
  refine Finset.sum_congr rfl fun x _ => ?_
  rw [Finset.sum_comm]

theorem StartsConv.dims {n : Net (Cf w ℝ)} {m r c nf p q : Nat} {s' : Size}
    {K : Nat → Nat → Nat → Nat → Cf w ℝ} {b : Nat → Cf w ℝ} {f : ActFunc}
    (hr : n.Ready (.maps m r c) s') (hn : StartsConv n nf m p q K b f) : p ≤ r ∧ q ≤ c := by
  obtain ⟨a, post, hnl, ha⟩ := hn
  have hf := hr.fits
  rw [hnl] at hf
  cases hf with
  | cons h1 h2 =>
    obtain ⟨r', c', e, -, -, -, -, i4, -, i6⟩ := (Conv.fits_dims ha).mp h1
    cases e
    exact ⟨i4, i6⟩

section first
variable {n n' : Net (Cf w ℝ)} {m r c nf p q : Nat} {s' : Size}
    {K K' : Nat → Nat → Nat → Nat → Cf w ℝ} {b b' : Nat → Cf w ℝ} {f : ActFunc}

/-- C114. After training with real learning rates the kernels of a filter of the first layer, and its
bias, differ from the start by a sum of multiples of `(conj P, 1)`, where `P` are patches of the training
images: the part of an image, in all channels, that a kernel covers at one place. -/
theorem C114_patches (hr : n.Ready (.maps m r c) s') (hn : StartsConv n nf m p q K b f)
    (steps : List (TrainStep (Cf w ℝ))) (hs : ∀ st ∈ steps, st.1.HasSize (.maps m r c) s')
    (hlr : ∀ s ∈ steps, s.2.2.y = 0) (h : n.train steps = some n') (hn' : StartsConv n' nf m p q K' b' f) :
    ∃ L : List ((Nat → Nat → Nat → Cf w ℝ) × (Nat → Nat → Nat → Cf w ℝ)), (∀ t ∈ L, Shown m r c steps t.1)
      ∧ ∀ o, o < nf → b' o = b o + (L.map fun t => ∑ i ∈ Finset.range (r - p + 1),
          ∑ j ∈ Finset.range (c - q + 1), t.2 o i j).sum
        ∧ ∀ ch, ch < m → ∀ x, x < p → ∀ y, y < q → K' o ch x y = K o ch x y + (L.map fun t =>
          ∑ i ∈ Finset.range (r - p + 1), ∑ j ∈ Finset.range (c - q + 1),
            t.2 o i j * CplxOps.conj (t.1 ch (i + x) (j + y))).sum := by
  obtain ⟨K1, b1, L, h1, h2, h3⟩ := patch_core hr hn steps hs h
  refine ⟨L.map fun t => (t.1, fun o i j => - (CplxOps.conj (t.2.1 o i j) * CplxOps.conj t.2.2)), ?_,
    fun o ho => ⟨?_, fun ch hch x hx y hy => ?_⟩⟩
  · intro t ht
    obtain ⟨t', ht', rfl⟩ := List.mem_map.mp ht
    exact (h2 t' ht').1
  · rw [(h1.unique hn' ho).1, (h3 o ho).1, List.map_map, sub_eq_add_neg, List.sum_neg, List.map_map]
    congr 2
    refine List.map_congr_left fun t ht => ?_
    show - moved _ _ = _
    rw [moved_real ((h2 t ht).2 hlr)]
    simp only [Function.comp, conj_sum_cf, Finset.sum_mul, Finset.sum_neg_distrib]
  · rw [(h1.unique hn' ho).2 ch hch x hx y hy, (h3 o ho).2 ch hch x hx y hy, List.map_map, sub_eq_add_neg,
      List.sum_neg, List.map_map]
    congr 2
    refine List.map_congr_left fun t ht => ?_
    show - moved _ _ = _
    rw [moved_real ((h2 t ht).2 hlr)]
    simp only [Function.comp, kernelGrad, conj_sum_cf, conj_mul_cf, Finset.sum_mul, Finset.sum_neg_distrib,
      neg_mul]
    congr 1
    exact Finset.sum_congr rfl fun i _ => Finset.sum_congr rfl fun j _ => by
      rw [Nat.add_comm x i, Nat.add_comm y j]; ring

/-- C114. So a combination of the kernels and the bias of a filter that vanishes on every patch of every
training image keeps its value during the whole training. -/
theorem C114_invariant (hr : n.Ready (.maps m r c) s') (hn : StartsConv n nf m p q K b f)
    (steps : List (TrainStep (Cf w ℝ))) (hs : ∀ st ∈ steps, st.1.HasSize (.maps m r c) s')
    (hlr : ∀ s ∈ steps, s.2.2.y = 0) (h : n.train steps = some n') (hn' : StartsConv n' nf m p q K' b' f)
    (d : Nat → Nat → Nat → Cf w ℝ) (e : Cf w ℝ)
    (hd : ∀ X, Shown m r c steps X → ∀ i, i < r - p + 1 → ∀ j, j < c - q + 1 →
      (∑ ch ∈ Finset.range m, ∑ x ∈ Finset.range p, ∑ y ∈ Finset.range q,
        CplxOps.conj (X ch (i + x) (j + y)) * d ch x y) + e = 0) {o : Nat} (ho : o < nf) :
    (∑ ch ∈ Finset.range m, ∑ x ∈ Finset.range p, ∑ y ∈ Finset.range q, K' o ch x y * d ch x y) + b' o * e
      = (∑ ch ∈ Finset.range m, ∑ x ∈ Finset.range p, ∑ y ∈ Finset.range q, K o ch x y * d ch x y)
        + b o * e := by
  obtain ⟨L, h1, h2⟩ := C114_patches hr hn steps hs hlr h hn'
  rw [(h2 o ho).1, Finset.sum_congr rfl fun ch hch => Finset.sum_congr rfl fun x hx =>
    Finset.sum_congr rfl fun y hy => by rw [(h2 o ho).2 ch (Finset.mem_range.mp hch) x
      (Finset.mem_range.mp hx) y (Finset.mem_range.mp hy)]]
  clear h2
  induction L with
  | nil => simp
  | cons t L ih =>
    have ih := ih fun t ht => h1 t (by simp [ht])
    have h0 := hd t.1 (h1 t (by simp))
    rw [← ih]
    simp only [List.map_cons, List.sum_cons]
    have key : (∑ ch ∈ Finset.range m, ∑ x ∈ Finset.range p, ∑ y ∈ Finset.range q,
          (∑ i ∈ Finset.range (r - p + 1), ∑ j ∈ Finset.range (c - q + 1),
            t.2 o i j * CplxOps.conj (t.1 ch (i + x) (j + y))) * d ch x y)
        + (∑ i ∈ Finset.range (r - p + 1), ∑ j ∈ Finset.range (c - q + 1), t.2 o i j) * e = 0 := by
      have e1 := fun ch x y => Finset.sum_mul (Finset.range (r - p + 1)) (fun i =>
        ∑ j ∈ Finset.range (c - q + 1), t.2 o i j * CplxOps.conj (t.1 ch (i + x) (j + y))) (d ch x y)
      simp only [e1, Finset.sum_mul]
      rw [sum_past, ← Finset.sum_add_distrib]
      refine Finset.sum_eq_zero fun i hi => ?_
      rw [sum_past, ← Finset.sum_add_distrib]
      refine Finset.sum_eq_zero fun j hj => ?_
      have := h0 i (Finset.mem_range.mp hi) j (Finset.mem_range.mp hj)
      calc _ = t.2 o i j * ((∑ ch ∈ Finset.range m, ∑ x ∈ Finset.range p, ∑ y ∈ Finset.range q,
          CplxOps.conj (t.1 ch (i + x) (j + y)) * d ch x y) + e) := by
            rw [mul_add]
            simp only [Finset.mul_sum, mul_assoc]
        _ = 0 := by rw [this, mul_zero]
    have : ∀ ch x y, (K o ch x y + ((∑ i ∈ Finset.range (r - p + 1), ∑ j ∈ Finset.range (c - q + 1),
          t.2 o i j * CplxOps.conj (t.1 ch (i + x) (j + y))) + (L.map fun t =>
          ∑ i ∈ Finset.range (r - p + 1), ∑ j ∈ Finset.range (c - q + 1),
            t.2 o i j * CplxOps.conj (t.1 ch (i + x) (j + y))).sum)) * d ch x y
        = (∑ i ∈ Finset.range (r - p + 1), ∑ j ∈ Finset.range (c - q + 1),
          t.2 o i j * CplxOps.conj (t.1 ch (i + x) (j + y))) * d ch x y
          + (K o ch x y + (L.map fun t => ∑ i ∈ Finset.range (r - p + 1), ∑ j ∈ Finset.range (c - q + 1),
            t.2 o i j * CplxOps.conj (t.1 ch (i + x) (j + y))).sum) * d ch x y := fun ch x y => by ring
    simp only [this, Finset.sum_add_distrib]
    linear_combination key

/-- C114. The kernels for a channel that is zero in all training images never change, whatever the
learning rates, also complex ones. -/
theorem C114_unseen (hr : n.Ready (.maps m r c) s') (hn : StartsConv n nf m p q K b f)
    (steps : List (TrainStep (Cf w ℝ))) (hs : ∀ st ∈ steps, st.1.HasSize (.maps m r c) s')
    (h : n.train steps = some n') (hn' : StartsConv n' nf m p q K' b' f) {ch : Nat} (hch : ch < m)
    (hz : ∀ X, Shown m r c steps X → ∀ i, i < r → ∀ j, j < c → X ch i j = 0) {o x y : Nat} (ho : o < nf)
    (hx : x < p) (hy : y < q) : K' o ch x y = K o ch x y := by
  obtain ⟨K1, b1, L, h1, h2, h3⟩ := patch_core hr hn steps hs h
  rw [(h1.unique hn' ho).2 ch hch x hx y hy, (h3 o ho).2 ch hch x hx y hy, List.sum_eq_zero, sub_zero]
  intro z hz'
  obtain ⟨t, ht, rfl⟩ := List.mem_map.mp hz'
  have : kernelGrad (r - p + 1) (c - q + 1) (t.1 ch) (t.2.1 o) x y = 0 := by
    obtain ⟨d1, d2⟩ := hn.dims hr
    refine Finset.sum_eq_zero fun i hi => Finset.sum_eq_zero fun j hj => ?_
    rw [Finset.mem_range] at hi hj
    rw [hz t.1 (h2 t ht).1 _ (by omega) _ (by omega), zero_mul]
  rw [this, moved_zero]

/-- C114. The kernels for two channels that agree in all training images keep their difference, whatever
the learning rates. -/
theorem C114_equal (hr : n.Ready (.maps m r c) s') (hn : StartsConv n nf m p q K b f)
    (steps : List (TrainStep (Cf w ℝ))) (hs : ∀ st ∈ steps, st.1.HasSize (.maps m r c) s')
    (h : n.train steps = some n') (hn' : StartsConv n' nf m p q K' b' f) {ch ch' : Nat} (hch : ch < m)
    (hch' : ch' < m) (he : ∀ X, Shown m r c steps X → ∀ i, i < r → ∀ j, j < c → X ch i j = X ch' i j)
    {o x y : Nat} (ho : o < nf) (hx : x < p) (hy : y < q) :
    K' o ch x y - K' o ch' x y = K o ch x y - K o ch' x y := by
  obtain ⟨K1, b1, L, h1, h2, h3⟩ := patch_core hr hn steps hs h
  rw [(h1.unique hn' ho).2 ch hch x hx y hy, (h3 o ho).2 ch hch x hx y hy,
    (h1.unique hn' ho).2 ch' hch' x hx y hy, (h3 o ho).2 ch' hch' x hx y hy]
  have : (L.map fun t => moved t.2.2 (kernelGrad (r - p + 1) (c - q + 1) (t.1 ch) (t.2.1 o) x y))
      = L.map fun t => moved t.2.2 (kernelGrad (r - p + 1) (c - q + 1) (t.1 ch') (t.2.1 o) x y) :=
    List.map_congr_left fun t ht => by
      obtain ⟨d1, d2⟩ := hn.dims hr
      congr 1
      refine Finset.sum_congr rfl fun i hi => Finset.sum_congr rfl fun j hj => ?_
      rw [Finset.mem_range] at hi hj
      rw [he t.1 (h2 t ht).1 _ (by omega) _ (by omega)]
  rw [this]
  ring

end first

/-! ## Where it ends -/

section rates

theorem Conv.Is.same {l : Conv (Cf w ℝ)} {nf p q nf' m p' q' : Nat} {K K' : Nat → Nat → Nat → Nat → Cf w ℝ}
    {b b' : Nat → Cf w ℝ} {f f' : ActFunc} (h : l.Is (nf + 1) (m + 1) p q K b f)
    (h' : l.Is nf' (m + 1) p' q' K' b' f') : nf' = nf + 1 ∧ p' = p ∧ q' = q := by
  obtain ⟨-, e1, -, M, h4, h5⟩ := h
  obtain ⟨-, e1', -, M', h4', h5'⟩ := h'
  obtain rfl : nf' = nf + 1 := by
    have := congrArg List.length (e1'.symm.trans e1)
    simpa using this
  have e : M' 0 0 = M 0 0 := by
    have := congrArg (fun q => q[0 * (m + 1) + 0]?) (h4'.2.symm.trans h4.2)
    simp only [table_getElem? (nf + 1) (m + 1) _ (Nat.succ_pos nf) (Nat.succ_pos m)] at this
    exact Option.some.inj this
  have := (h5' 0 (by omega) 0 (by omega)).1
  rw [e, (h5 0 (by omega) 0 (by omega)).1] at this
  cases this
  exact ⟨rfl, rfl, rfl⟩

/-- One `1 × 1` kernel on one channel, without activation. -/
noncomputable def onePixelConv (k : Cf w ℝ) : Conv (Cf w ℝ) :=
  ⟨1, Mat.fromBody (table 1 1 fun _ _ => Mat.fromBody (table 1 1 fun _ _ => k) (1, 1)) (1, 1),
    (List.range 1).map fun _ => 0, .none⟩

noncomputable def onePixel (k : Cf w ℝ) : Net (Cf w ℝ) :=
  ⟨[.conv (onePixelConv k), .flatten ⟨((1, 1), 1)⟩]⟩

def pixel (x : Cf w ℝ) : IOType (Cf w ℝ) := .matrix [Mat.fromBody [x] (1, 1)]

theorem onePixelConv_is (k : Cf w ℝ) :
    (onePixelConv k).Is 1 1 1 1 (fun _ _ _ _ => k) (fun _ => 0) .none :=
  ⟨rfl, rfl, rfl, _, Mat.fromBody_is 1 1 _, fun _ _ _ _ => Mat.fromBody_is 1 1 _⟩

theorem pixel_is (x : Cf w ℝ) : MapsAre [Mat.fromBody [x] (1, 1)] 1 1 1 fun _ _ _ => x := by
  refine ⟨rfl, fun ch m hm => ?_⟩
  cases ch with
  | zero => cases hm; exact Mat.fromBody_is 1 1 fun _ _ => x
  | succ ch => simp at hm

theorem onePixel_ready (k : Cf w ℝ) : (onePixel k).Ready (.maps 1 1 1) (.vec 1) := by
  refine ⟨by simp [onePixel], ?_, ?_, ?_, ?_⟩
  · simp only [onePixel, List.mem_cons, List.not_mem_nil, or_false, forall_eq_or_imp, forall_eq]
    exact ⟨(onePixelConv_is k).wf, trivial⟩
  · exact .cons ((Conv.fits_dims (onePixelConv_is k)).mpr ⟨1, 1, rfl, rfl, by simp⟩)
      (.cons (s₁ := .vec 1) ⟨rfl, rfl⟩ (.nil _))
  · simp only [onePixel, List.mem_cons, List.not_mem_nil, or_false, forall_eq_or_imp, forall_eq]
    exact ⟨fun z => ⟨_, rfl⟩, trivial⟩
  · simp only [onePixel, List.mem_cons, List.not_mem_nil, or_false, forall_eq_or_imp, forall_eq]
    exact ⟨⟨fun z => (C66_total .none (by simp) z).1, fun z => (C66_total .none (by simp) z).2⟩, trivial⟩

theorem onePixel_sample (lf : LossFunc) (k x t : Cf w ℝ) :
    sampleGrads (onePixel k) lf (pixel x, .scalar [t])
      = some [([x * CplxOps.conj (x * k - t)], [CplxOps.conj (x * k - t)]), ([], [])] := by
  have : Nonempty (Cf w ℝ) := ⟨0⟩
  have hf := Conv.forward_maps (onePixelConv_is k) (by omega) (by omega) (by omega) (le_refl 1) (by omega)
    (le_refl 1) (pixel_is x) id (fun _ => rfl)
  have hz : (Layer.conv (onePixelConv k)).forward (pixel x)
      = some (.ok (.matrix [Mat.fromBody [x * k] (1, 1)])) := by
    refine hf.trans ?_
    simp only [convPre_sum]
    simp [table]
  have hch : Chain (onePixel k).layers (pixel x) [.matrix [Mat.fromBody [x * k] (1, 1)], .scalar [x * k]] :=
    .cons hz (.cons rfl (.nil _))
  have hd : CplxOps.dLoss lf (.scalar [t]) (.scalar [x * k])
      = .ok [CplxOps.conj (x * k - t)] := by cases lf <;> rfl
  unfold sampleGrads
  rw [(C44_collect (onePixel k) (by simp [onePixel]) (pixel x) _).mpr ⟨_, hch, rfl⟩]
  simp only [Option.bind_eq_bind, Option.bind_some, unwrap]
  simp only [List.reverse_cons, List.reverse_nil, List.nil_append, List.cons_append, List.head?_cons,
    Option.bind_some, hd, List.tail_cons, onePixel, List.zip_cons_cons, List.zip_nil_right, List.map_cons,
    List.map_nil]
  rw [backGrads_cons, Layer.back, if_neg (show ¬ (Layer.flatten _).propagates = true from Bool.false_ne_true)]
  simp only [Option.bind_eq_bind, Option.bind_some]
  have hb := Conv.back_is (onePixelConv_is k) (by omega) (by omega) (by omega) (le_refl 1) (by omega)
    (le_refl 1) (pixel_is x) (fun _ _ _ => CplxOps.conj (x * k - t))
    (fun _ _ _ => CplxOps.conj (CplxOps.conj (x * k - t))) (fun _ => 1) (fun _ => 0) (fun z => none_deriv z) (fun z => none_conj z)
  have hb' : (Layer.conv (onePixelConv k)).back (pixel x) [CplxOps.conj (x * k - t)]
      [CplxOps.conj (CplxOps.conj (x * k - t))] = _ := hb
  rw [backGrads_cons, hb']
  have hz : CplxOps.conj (0 : Cf w ℝ) = 0 := Cf.ext rfl neg_zero
  simp [backGrads, kvec, kernelGrad, cube, table, hz]

/-- C114. Complex learning rates have to be left out for the mixing: for every rate that is not real there
are networks and images that differ by the factor `i`, and the call leaves networks for which this no
longer holds. -/
theorem C114_complex_rates (lr : Cf w ℝ) (hlr : lr.y ≠ 0) (lf : LossFunc) :
    ∃ (n n' n1 n1' : Net (Cf w ℝ)) (data data' : Dataset (Cf w ℝ)), Mixed 1 (fun _ _ => ⟨0, 1⟩) n n'
      ∧ n.Ready (.maps 1 1 1) (.vec 1) ∧ data.HasSize (.maps 1 1 1) (.vec 1)
      ∧ MixedData 1 1 1 (fun _ _ => ⟨0, 1⟩) data data'
      ∧ n.gradientOpt data lf lr = some (.ok (), n1) ∧ n'.gradientOpt data' lf lr = some (.ok (), n1')
      ∧ ¬ Mixed 1 (fun _ _ => ⟨0, 1⟩) n1 n1' := by
  obtain ⟨q, hq, hq'⟩ := div_toC lr (Cf.ofUsize 1) (by rw [Cf.toC_ofUsize]; simp)
  rw [Cf.toC_ofUsize, Nat.cast_one, div_one] at hq'
  obtain rfl := Cf.toC_inj.mp hq'
  have hii : (CplxOps.conj (⟨0, 1⟩ : Cf w ℝ)) * ⟨0, 1⟩ = 1 := by
    apply Cf.toC_inj.mp
    rw [Cf.toC_hom_mul, conj_toC, Cf.toC_hom_one]
    apply Complex.ext <;> simp
  have hc : CplxOps.conj (⟨0, 1⟩ : Cf w ℝ) = ⟨0, -1⟩ := rfl
  have hii' : (⟨0, 1⟩ : Cf w ℝ) * ⟨0, -1⟩ = 1 := by rw [← hc, mul_comm, hii]
  have hU : Unitary 1 fun _ _ => (⟨0, 1⟩ : Cf w ℝ) := by
    intro i hi i' hi'
    obtain rfl : i = 0 := by omega
    obtain rfl : i' = 0 := by omega
    simp [hii]
  have hM : Mixed 1 (fun _ _ => (⟨0, 1⟩ : Cf w ℝ)) (onePixel 1) (onePixel ⟨0, -1⟩) := by
    refine ⟨by omega, hU, _, _, _, 1, 1, 1, _, _, _, rfl, rfl, onePixelConv_is 1, ?_⟩
    simp only [Finset.sum_range_one, one_mul, hc]
    exact onePixelConv_is _
  have hD : MixedData 1 1 1 (fun _ _ => (⟨0, 1⟩ : Cf w ℝ)) ⟨[pixel 1], [.scalar [0]]⟩
      ⟨[pixel ⟨0, 1⟩], [.scalar [0]]⟩ := by
    refine ⟨.cons ⟨_, _, _, rfl, rfl, pixel_is 1, ?_⟩ .nil, rfl⟩
    simp only [Finset.sum_range_one, mul_one]
    exact pixel_is _
  have hs := onePixel_sample lf (1 : Cf w ℝ) 1 0
  have hs' := onePixel_sample lf (⟨0, -1⟩ : Cf w ℝ) ⟨0, 1⟩ 0
  simp only [hii', mul_one, sub_zero, conj_one] at hs hs'
  have hr := onePixel_ready (1 : Cf w ℝ)
  have hr' := onePixel_ready (⟨0, -1⟩ : Cf w ℝ)
  have hstep := (C50_step (onePixel (1 : Cf w ℝ)) _ hr.layers hr.wf
    ⟨[pixel 1], [.scalar [0]]⟩ lf q (.ok ())).mpr ⟨rfl, _, q, .cons ⟨hs,
      .cons ⟨rfl, rfl⟩ (.cons rfl .nil)⟩ .nil, hq, rfl⟩
  have hstep' := (C50_step (onePixel (⟨0, -1⟩ : Cf w ℝ)) _ hr'.layers hr'.wf
    ⟨[pixel ⟨0, 1⟩], [.scalar [0]]⟩ lf q (.ok ())).mpr ⟨rfl, _, q, .cons ⟨hs',
      .cons ⟨rfl, rfl⟩ (.cons rfl .nil)⟩ .nil, hq, rfl⟩
  refine ⟨_, _, _, _, _, _, hM, hr, ?_, hD, hstep, hstep', ?_⟩
  · intro p hp
    obtain rfl : p = (pixel 1, .scalar [0]) := by simpa [Dataset.points] using hp
    exact ⟨(pixel_is 1).hasSize, rfl⟩
  have hsum : ∀ k g d : Cf w ℝ, sumGrads (onePixel k) [[([g], [d]), ([], [])]] = [([g], [d]), ([], [])] := by
    intro k g d
    have e1 : LayerVec.zero (.conv (onePixelConv k)) = ([(0 : Cf w ℝ)], [0]) := by
      rw [zero_conv (onePixelConv_is k)]
      rfl
    have e2 : LayerVec.zero (Layer.flatten (⟨((1, 1), 1)⟩ : Flatten)) = (([] : List (Cf w ℝ)), []) := rfl
    simp [sumGrads, onePixel, e1, e2, LayerVec.add]
  rw [hsum, hsum]
  have hmove : ∀ k g d : Cf w ℝ, ∃ b, StartsConv ⟨List.zipWith (Layer.zipParams fun p d =>
      p - CplxOps.conj (BasicOps.mulAssign d q)) (onePixel k).layers [([g], [d]), ([], [])]⟩ 1 1 1 1
      (fun _ _ _ _ => k - moved q g) b .none := by
    intro k g d
    obtain ⟨a, e1, e2⟩ := Conv.move_is (onePixelConv_is k) (fun p d => p - CplxOps.conj (BasicOps.mulAssign d q))
      (fun _ _ _ _ => g) fun _ => d
    exact ⟨_, a, _, congrArg (· :: _) e1, e2⟩
  obtain ⟨b1, s1⟩ := hmove 1 1 1
  obtain ⟨b2, s2⟩ := hmove ⟨0, -1⟩ ⟨0, 1⟩ 1
  rintro ⟨-, -, a, a', post, nf, p', q', K, b, f, h1, h2, h3, h4⟩
  obtain ⟨rfl, rfl, rfl⟩ : nf = 1 ∧ p' = 1 ∧ q' = 1 := by
    obtain ⟨a1, post1, k1, k2⟩ := s1
    have := (List.cons.inj (h1.symm.trans k1)).1
    cases this
    exact k2.same h3
  have v1 := (s1.unique ⟨a, post, h1, h3⟩ (o := 0) (by omega)).2 0 (by omega) 0 (by omega) 0 (by omega)
  have v2 := (s2.unique ⟨a', post, h2, h4⟩ (o := 0) (by omega)).2 0 (by omega) 0 (by omega) 0 (by omega)
  simp only [Finset.sum_range_one, v1, hc, sub_mul, one_mul] at v2
  have v3 : moved q 1 * ⟨0, -1⟩ = moved q ⟨0, 1⟩ := by linear_combination -v2
  have w1 : (moved q ⟨0, 1⟩).y = q.y * q.y - q.x := by
    show -((0 * q.x - 1 * q.y) * q.y + 1 * q.x) = _
    ring
  have w2 : (moved q 1 * ⟨0, -1⟩).y = - q.x := by
    show (1 * q.x - 0 * q.y) * -1 + -((1 * q.x - 0 * q.y) * q.y + 0 * q.x) * 0 = _
    ring
  rw [v3, w1] at w2
  exact hlr (mul_self_eq_zero.mp (by linarith))

/-! ## Examples -/

/-- Two networks on images of one channel that agree up to a unit. -/
example (k u : Cf w ℝ) (hu : CplxOps.conj u * u = 1) :
    Mixed 1 (fun _ _ => u) (onePixel k) (onePixel (k * CplxOps.conj u)) := by
  refine ⟨by omega, ?_, _, _, _, 1, 1, 1, _, _, _, rfl, rfl, onePixelConv_is k, ?_⟩
  · intro i hi i' hi'
    obtain rfl : i = 0 := by omega
    obtain rfl : i' = 0 := by omega
    simp [hu]
  · simp only [Finset.sum_range_one]
    exact onePixelConv_is _

/-- A network that meets the conditions on the first layer, whose kernel never changes on dark images. -/
example (k : Cf w ℝ) : (onePixel k).Ready (.maps 1 1 1) (.vec 1)
    ∧ StartsConv (onePixel k) 1 1 1 1 (fun _ _ _ _ => k) (fun _ => 0) .none :=
  ⟨onePixel_ready k, _, _, rfl, onePixelConv_is k⟩

/-- An image in any number of channels has a mixture, and so does every network on it. -/
example {m : Nat} {U : Nat → Nat → Cf w ℝ} (hm : 0 < m) (hU : Unitary m U) (a : Conv (Cf w ℝ))
    {nf p q : Nat} {K : Nat → Nat → Nat → Nat → Cf w ℝ} {b : Nat → Cf w ℝ} {f : ActFunc}
    (ha : a.Is nf m p q K b f) : ∃ n', Mixed m U ⟨[.conv a]⟩ n' :=
  (C114_partner hm hU a [] ha).1

end rates

end Renplex
