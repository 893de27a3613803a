import Verif.Props.Transpose
import Verif.Props.MirrorPool
import Verif.Props.Upsampling
/-!
# C128: networks on transposed images
-/

namespace Renplex
open Examples

section
variable {α P : Type} [CplxOps α P]

theorem TransData.points {n r c : Nat} {data data' : Dataset α}
    (hm : TransData n r c data data') {s' : Size} (ht : ∀ p ∈ data.points, p.2.HasSize s') :
    List.Forall₂ (fun p p' => (Iface.trans α n r c).feat p.1 p'.1 ∧ p'.2 = p.2
      ∧ p.2.HasSize s') data.points data'.points := by
  obtain ⟨h1, h2⟩ := hm
  unfold Dataset.points at ht ⊢
  rw [h2]
  revert ht
  generalize data.target = t
  generalize data.inputs = xs at h1
  generalize data'.inputs = xs' at h1
  induction h1 generalizing t with
  | nil => intro _; simp
  | @cons x x' xs xs' hx _ ih =>
    intro ht
    cases t with
    | nil => simp
    | cons y t =>
      exact .cons ⟨hx, rfl, ht (x, y) (by simp)⟩ (ih t fun p hp => ht p (by simp [hp]))

variable [CommRing α] [LawfulOps α]

/-- The kinds of a transposed network. -/
inductive TransKinds : List (Kind α) → Prop
  | conv {nf n p q r c : Nat} {ks : List (Kind α)} (t : TransKinds ks) :
      TransKinds (Kind.transConv nf n p q r c :: ks)
  | pool {n r c p q : Nat} {ks : List (Kind α)} (t : TransKinds ks) :
      TransKinds (Kind.transPool n r c p q :: ks)
  | dense {u n r c : Nat} {ks : List (Kind α)} (t : AllSame ks) :
      TransKinds (Kind.transFlatten n r c :: Kind.transColumns u n r c :: ks)

theorem TransKinds.layers {ks : List (Kind α)} (hk : TransKinds ks)
    {I O : Iface α} {ls ls' : List (Layer α)} (hc : Corr I ks ls ls' O) : TransLayers ls ls' := by
  induction hk generalizing I ls ls' with
  | conv _ ih =>
    obtain ⟨l, l', t, t', rfl, rfl, ⟨a, a', K, b, f, rfl, rfl, h1, h2, -⟩, h3⟩ := hc.cons_inv
    exact .conv h1 h2 (ih h3)
  | pool _ ih =>
    obtain ⟨l, l', t, t', rfl, rfl, ⟨a, a', rfl, rfl, -, hm, -⟩, h3⟩ := hc.cons_inv
    exact .pool hm (ih h3)
  | dense hs =>
    obtain ⟨l, l', t, t', rfl, rfl, ⟨a, a', rfl, rfl, ha, ha'⟩, h3⟩ := hc.cons_inv
    obtain ⟨l, l', t, t', rfl, rfl, ⟨b, b', V, c, f, rfl, rfl, h1, h2, -⟩, h4⟩ := h3.cons_inv
    obtain rfl := hs.eq h4
    exact .dense ha ha' h1 h2 _

theorem TransLayers.corr {ls ls' : List (Layer α)} (hm : TransLayers ls ls')
    {n r c : Nat} {s' : Size} (hf : FitsChain ls (.maps n r c) s') (hw : ∀ l ∈ ls, l.WF)
    (ht : ∀ l ∈ ls, l.Total) (hb : ∀ l ∈ ls, l.TotalBack) :
    ∃ ks, TransKinds ks ∧ Corr (.trans α n r c) ks ls ls' (.same α s') := by
  induction hm generalizing n r c with
  | @conv a a' nf m p q K b f ls ls' ha ha' _ ih =>
    cases hf with
    | cons hf t =>
      obtain ⟨r1, c1, e, rfl, d⟩ := (Conv.fits_dims ha).mp hf
      cases e
      obtain ⟨ks, k1, k2⟩ := ih t (fun l hl => hw l (by simp [hl])) (fun l hl => ht l (by simp [hl]))
        (fun l hl => hb l (by simp [hl]))
      have a1 := ht (.conv a) (by simp)
      have a2 := hb (.conv a) (by simp)
      have hfn : a.func = f := ha.2.2.1
      simp only [Layer.Total, Layer.TotalBack, hfn] at a1 a2
      exact ⟨_, .conv k1, .cons (k := Kind.transConv nf m p q r c)
        ⟨a, a', K, b, f, rfl, rfl, ha, ha', ⟨a1, a2⟩, d⟩ k2⟩
  | @pool l l' ls ls' hl _ ih =>
    cases hf with
    | @cons _ _ _ s₁ _ hf t =>
      cases s₁ with
      | vec m => exact hf.elim
      | maps n' r1 c1 =>
        obtain ⟨rfl, hn, hr, hc, hp, hq, rfl, rfl⟩ := hf
        obtain ⟨ks, k1, k2⟩ := ih t (fun l hl => hw l (by simp [hl])) (fun l hl => ht l (by simp [hl]))
          (fun l hl => hb l (by simp [hl]))
        have hb' := hb (.reduce l) (by simp)
        exact ⟨_, .pool k1, .cons (k := Kind.transPool n r1 c1 l.blockSize.1 l.blockSize.2)
          ⟨l, l', rfl, rfl, rfl, hl, ht _ (by simp), hb', by rw [hn]; exact hb'.2.2.2, hr, hc, hp, hq⟩ k2⟩
  | @dense l l' a a' r1 c1 m u V b f hl hl' ha ha' post =>
    cases hf with
    | @cons _ _ _ s₁ _ hf t =>
      cases t with
      | cons hf2 t =>
        obtain ⟨rfl, rfl, hn⟩ := (Dense.fits_dims ha).mp hf2
        obtain ⟨e, -⟩ := hf
        rw [hl] at e
        cases e
        obtain ⟨ks, k1, -, k2⟩ := Corr.of_fits t (fun l hl => hw l (by simp [hl]))
          (fun l hl => ht l (by simp [hl])) (fun l hl => hb l (by simp [hl]))
        have a1 := ht (.dense a) (by simp)
        have a2 := hb (.dense a) (by simp)
        have hfn : a.func = f := ha.2.2
        simp only [Layer.Total, Layer.TotalBack, hfn] at a1 a2
        exact ⟨_, .dense k1, .cons (k := Kind.transFlatten m r1 c1) ⟨l, l', rfl, rfl, hl, hl'⟩
          (.cons (k := Kind.transColumns u m r1 c1)
            ⟨a, a', V, b, f, rfl, rfl, ha, ha', ⟨a1, a2⟩, hn⟩ k2)⟩

/-! ## Every network has a transpose -/

omit [CommRing α] [LawfulOps α] in
theorem TransPool.total [Nonempty α] {l l' : Reduce α} (h : TransPool l l') (ht : (Layer.reduce l).Total) :
    (Layer.reduce l').Total := by
  intro b hb
  rw [h.1] at hb
  obtain ⟨F, rfl⟩ := exists_table _ _ b hb
  obtain ⟨y, hy⟩ := ht (table l.blockSize.1 l.blockSize.2 (transposed F)) (table_length _ _ _)
  exact ⟨y, (h.2.2.1 (transposed F)).trans hy⟩

omit [CommRing α] [LawfulOps α] in
theorem TransPool.totalBack [Nonempty α] {l l' : Reduce α} (h : TransPool l l') (ht : (Layer.reduce l).TotalBack) :
    (Layer.reduce l').TotalBack := by
  obtain ⟨hk, hks, -, hn⟩ := ht
  obtain ⟨k, hk⟩ := Mat.Rect.exists_is hk
  rw [hks] at hk
  have hk' := h.2.2.2.1 k hk
  refine ⟨?_, hk'.1, ?_, by rw [h.2.1]; exact hn⟩
  · show l'.interpKernel.body.length = l'.interpKernel.shape.1 * l'.interpKernel.shape.2
    rw [hk'.1, hk'.2, table_length]
  · rw [h.1]
    intro ho
    have := h.2.2.2.2.2
    unfold leftOff upOff at this
    have ho : l.blockSize.1 % 2 = 1 := ho
    rw [if_neg (by omega), if_neg (by omega)] at this
    show (l.blockSize.2 - 1) / 2 < l.blockSize.1
    omega

omit [CommRing α] [LawfulOps α] in
theorem TransLayers.fits [Nonempty α] {ls ls' : List (Layer α)} (hm : TransLayers ls ls') {n r c : Nat} {s' : Size}
    (hf : FitsChain ls (.maps n r c) s') (hw : ∀ l ∈ ls, l.WF) (ht : ∀ l ∈ ls, l.Total)
    (hb : ∀ l ∈ ls, l.TotalBack) :
    ls'.length = ls.length ∧ FitsChain ls' (.maps n c r) s' ∧ (∀ l ∈ ls', l.WF) ∧ (∀ l ∈ ls', l.Total)
      ∧ ∀ l ∈ ls', l.TotalBack := by
  induction hm generalizing n r c with
  | @conv a a' nf m p q K b f ls ls' ha ha' _ ih =>
    cases hf with
    | cons hf t =>
      obtain ⟨r1, c1, e, rfl, h1, h2, h3, h4, h5, h6⟩ := (Conv.fits_dims ha).mp hf
      cases e
      obtain ⟨k0, k1, k2, k3, k4⟩ := ih t (fun l hl => hw l (by simp [hl])) (fun l hl => ht l (by simp [hl]))
        (fun l hl => hb l (by simp [hl]))
      have a1 := ht (.conv a) (by simp)
      have a2 := hb (.conv a) (by simp)
      have e : a'.func = a.func := ha'.2.2.1.trans ha.2.2.1.symm
      refine ⟨by simp [k0], .cons ((Conv.fits_dims ha').mpr ⟨c, r, rfl, rfl, h1, h2, h5, h6, h3, h4⟩) k1,
        List.forall_mem_cons.mpr ⟨ha'.wf, k2⟩, List.forall_mem_cons.mpr ⟨?_, k3⟩, List.forall_mem_cons.mpr ⟨?_, k4⟩⟩
      · simp only [Layer.Total, e] at a1 ⊢
        exact a1
      · simp only [Layer.TotalBack, e] at a2 ⊢
        exact a2
  | @pool l l' ls ls' hl _ ih =>
    cases hf with
    | @cons _ _ _ s₁ _ hf t =>
      cases s₁ with
      | vec m => exact hf.elim
      | maps n' r1 c1 =>
        obtain ⟨rfl, hn, hr, hc, hp, hq, rfl, rfl⟩ := hf
        obtain ⟨k0, k1, k2, k3, k4⟩ := ih t (fun l hl => hw l (by simp [hl])) (fun l hl => ht l (by simp [hl]))
          (fun l hl => hb l (by simp [hl]))
        have e1 : l'.blockSize.1 = l.blockSize.2 := by rw [hl.1]
        have e2 : l'.blockSize.2 = l.blockSize.1 := by rw [hl.1]
        refine ⟨by simp [k0], .cons (s₁ := .maps n c1 r1) ⟨rfl, hn.trans hl.2.1.symm, hc, hr, by rw [e1]; exact hq,
          by rw [e2]; exact hp, by rw [e1], by rw [e2]⟩ k1, List.forall_mem_cons.mpr ⟨trivial, k2⟩,
          List.forall_mem_cons.mpr ⟨hl.total (ht _ (by simp)), k3⟩,
          List.forall_mem_cons.mpr ⟨hl.totalBack (hb _ (by simp)), k4⟩⟩
  | @dense l l' a a' r1 c1 m u V b f hl hl' ha ha' post =>
    cases hf with
    | @cons _ _ _ s₁ _ hf t =>
      cases t with
      | cons hf2 t =>
        obtain ⟨rfl, rfl, hn⟩ := (Dense.fits_dims ha).mp hf2
        obtain ⟨e, -⟩ := hf
        rw [hl] at e
        cases e
        have a1 := ht (.dense a) (by simp)
        have a2 := hb (.dense a) (by simp)
        have e : a'.func = a.func := ha'.2.2.trans ha.2.2.symm
        refine ⟨rfl, .cons (s₁ := .vec (m * (c1 * r1))) ⟨hl', rfl⟩ (.cons ((Dense.fits_dims ha').mpr ⟨rfl, rfl,
          by rwa [Nat.mul_comm c1 r1]⟩) t), List.forall_mem_cons.mpr ⟨trivial, List.forall_mem_cons.mpr ⟨ha'.wf_of,
          fun l hl => hw l (by simp [hl])⟩⟩, List.forall_mem_cons.mpr ⟨trivial, List.forall_mem_cons.mpr ⟨?_,
          fun l hl => ht l (by simp [hl])⟩⟩, List.forall_mem_cons.mpr ⟨trivial, List.forall_mem_cons.mpr ⟨?_,
          fun l hl => hb l (by simp [hl])⟩⟩⟩
        · simp only [Layer.Total, e] at a1 ⊢
          exact a1
        · simp only [Layer.TotalBack, e] at a2 ⊢
          exact a2

omit [CommRing α] [LawfulOps α] in
theorem TransPool.exists [Nonempty α] (l : Reduce α) (hb : (Layer.reduce l).TotalBack)
    (ho : TransOff l.blockSize.1 l.blockSize.2) : ∃ l', TransPool l l' := by
  obtain ⟨hk, hks, -, -⟩ := hb
  obtain ⟨k, hk⟩ := Mat.Rect.exists_is hk
  rw [hks] at hk
  obtain ⟨d⟩ := (inferInstance : Nonempty α)
  refine ⟨⟨l.inputFeaturesLen, (l.blockSize.2, l.blockSize.1), fun b => l.blockFunc (table l.blockSize.1 l.blockSize.2
    fun i j => b.getD (j * l.blockSize.1 + i) d), Mat.fromBody (table 3 3 (transposed k)) (3, 3)⟩, rfl, rfl,
    fun F => ?_, fun k' hk' => ⟨rfl, ?_⟩, ho⟩
  · show l.blockFunc _ = _
    congr 1
    refine table_congr fun i hi j hj => ?_
    rw [List.getD_eq_getElem?_getD, table_getElem? _ _ _ hj hi]
    rfl
  · have ht : table 3 3 k = table 3 3 k' := hk.2.symm.trans hk'.2
    refine table_congr fun i hi j hj => ?_
    exact Option.some.inj ((table_getElem? 3 3 k hj hi).symm.trans (ht ▸ table_getElem? 3 3 k' hj hi))

omit [CommRing α] [LawfulOps α] in
theorem TransLayers.exists [Nonempty α] {pre post : List (Layer α)} {l : Flatten} {a : Dense α} {n r c : Nat}
    {s' : Size} (hp : ∀ k ∈ pre, (∃ d, k = .conv d) ∨ ∃ d, k = .reduce d ∧ TransOff d.blockSize.1 d.blockSize.2)
    (hf : FitsChain (pre ++ .flatten l :: .dense a :: post) (.maps n r c) s')
    (hw : ∀ k ∈ pre ++ .flatten l :: .dense a :: post, k.WF)
    (hb : ∀ k ∈ pre ++ .flatten l :: .dense a :: post, k.TotalBack) :
    ∃ ls', TransLayers (pre ++ .flatten l :: .dense a :: post) ls' := by
  induction pre generalizing n r c with
  | nil =>
    cases hf with
    | @cons _ _ _ s₁ _ hf t =>
      cases t with
      | cons hf2 t =>
        obtain ⟨W, b, ha⟩ := Dense.exists_is (hw (.dense a) (by simp))
        cases s₁ with
        | maps => exact hf.elim
        | vec m =>
          obtain ⟨e, rfl⟩ := hf
          obtain ⟨e1, -, -⟩ := (Dense.fits_dims ha).mp hf2
          injection e1 with e1
          rw [← e1] at ha
          exact ⟨_, .dense (l' := ⟨((c, r), n)⟩) (a' := ⟨Mat.fromBody (table a.weights.shape.1 (n * (c * r)) fun j i =>
            W j (transIdx r c i)) (a.weights.shape.1, n * (c * r)), (List.range a.weights.shape.1).map b, a.func⟩) e rfl
            ha ⟨Mat.fromBody_is _ _ _, rfl, rfl⟩ post⟩
  | cons k pre ih =>
    cases hf with
    | @cons _ _ _ s₁ _ hf t =>
      rcases hp k (by simp) with ⟨d, rfl⟩ | ⟨d, rfl, ho⟩
      · cases s₁ with
        | vec => exact hf.elim
        | maps n' r' c' =>
          obtain ⟨ls', hls⟩ := ih (fun k hk => hp k (by simp [hk])) t (fun k hk => hw k (by simp [hk]))
            (fun k hk => hb k (by simp [hk]))
          obtain ⟨-, -, -, p, q, hs, -⟩ := hf
          obtain ⟨K, b, hd⟩ := Conv.exists_is (hw (.conv d) (by simp)) hs
          exact ⟨_, .conv (a' := ⟨d.kernels.shape.2, Mat.fromBody (table d.kernels.shape.1 d.kernels.shape.2 fun o ch =>
            Mat.fromBody (table q p (transposed (K o ch))) (q, p)) (d.kernels.shape.1, d.kernels.shape.2),
            (List.range d.kernels.shape.1).map b, d.func⟩) hd
            ⟨rfl, rfl, rfl, _, Mat.fromBody_is _ _ _, fun _ _ _ _ => Mat.fromBody_is _ _ _⟩ hls⟩
      · cases s₁ with
        | vec => exact hf.elim
        | maps n' r' c' =>
          obtain ⟨ls', hls⟩ := ih (fun k hk => hp k (by simp [hk])) t (fun k hk => hw k (by simp [hk]))
            (fun k hk => hb k (by simp [hk]))
          obtain ⟨d', hd⟩ := TransPool.exists d (hb (.reduce d) (by simp)) ho
          exact ⟨_, .pool hd hls⟩

end

/-! ## C128 -/

section
variable {w : Width} {n n' : Net (Cf w ℝ)} {ch r c : Nat} {s' : Size}

/-- C128. Every network of convolutional and pooling layers, a `Flatten` layer and dense layers has a transpose, if the
blocks of the pooling layers are transposed correctly. The transpose is ready for training, too. -/
theorem C128_exists {pre post : List (Layer (Cf w ℝ))} {l : Flatten} {a : Dense (Cf w ℝ)}
    (hn : n.layers = pre ++ .flatten l :: .dense a :: post) (hr : n.Ready (.maps ch r c) s')
    (hp : ∀ k ∈ pre, (∃ d, k = .conv d) ∨ ∃ d, k = .reduce d ∧ TransOff d.blockSize.1 d.blockSize.2) :
    ∃ n' : Net (Cf w ℝ), TransLayers n.layers n'.layers ∧ n'.Ready (.maps ch c r) s' := by
  have : Nonempty (Cf w ℝ) := ⟨0⟩
  obtain ⟨ls', h⟩ := TransLayers.exists hp (hn ▸ hr.fits) (hn ▸ hr.wf) (hn ▸ hr.totalBack)
  rw [← hn] at h
  obtain ⟨h0, h1, h2, h3, h4⟩ := h.fits hr.fits hr.wf hr.total hr.totalBack
  exact ⟨⟨ls'⟩, h, by rw [h0]; exact hr.layers, h2, h1, h3, h4⟩

/-- C128. The transposed network computes on a transposed image what the network computes on the image. -/
theorem C128_forward (hm : TransLayers n.layers n'.layers) (hr : n.Ready (.maps ch r c) s')
    {x x' : IOType (Cf w ℝ)} (hx : TransImage ch r c x x') : n'.forward x' = n.forward x := by
  obtain ⟨ks, -, hc⟩ := hm.corr hr.fits hr.wf hr.total hr.totalBack
  have hne : n.layers ≠ [] := by
    intro h0
    have := hr.layers
    rw [h0] at this
    simp at this
  obtain ⟨y, h1, h2, -⟩ := hc.forward_on hne hx
  rw [h1, h2]

/-- C128. A training call on the transposed images turns the transposed network into the transpose of the network that
the call on the images themselves leaves; it panics for both or for neither. -/
theorem C128_step (hm : TransLayers n.layers n'.layers) (hr : n.Ready (.maps ch r c) s')
    {data data' : Dataset (Cf w ℝ)} (hd : TransData ch r c data data')
    (hs : data.HasSize (.maps ch r c) s') (lf : LossFunc) (lr : Cf w ℝ) :
    Option.Rel (fun o o' => o.1 = o'.1 ∧ TransLayers o.2.layers o'.2.layers
        ∧ o.2.Ready (.maps ch r c) s')
      (n.gradientOpt data lf lr) (n'.gradientOpt data' lf lr) := by
  obtain ⟨ks, hk, hc⟩ := hm.corr hr.fits hr.wf hr.total hr.totalBack
  have hl : data'.inputs.length = data.inputs.length := hd.1.length_eq.symm
  cases hdiv : BasicOps.div lr (CplxOps.ofUsize data.inputs.length) with
  | none =>
    rw [Net.gradientOpt_none hr.layers hdiv, Net.gradientOpt_none (by rw [hc.length]; exact hr.layers)
      (by rw [hl]; exact hdiv)]
    exact .none
  | some scale =>
    obtain ⟨m, m', e1, e2, -, e3⟩ := hc.step_on hr.layers (dLoss_total lf)
      (hd.points fun p hp => (hs p hp).2) hl hdiv
    obtain ⟨m1, e4, e5⟩ := C66_step n hr data hs lf lr scale hdiv
    rw [e1] at e4
    cases e4
    rw [e1, e2]
    exact .some ⟨rfl, hk.layers e3, e5⟩

/-- C128. The same for a whole training run. -/
theorem C128_train (hm : TransLayers n.layers n'.layers) (hr : n.Ready (.maps ch r c) s')
    {steps steps' : List (TrainStep (Cf w ℝ))}
    (hs : List.Forall₂ (fun st st' => TransData ch r c st.1 st'.1 ∧ st'.2 = st.2
      ∧ st.1.HasSize (.maps ch r c) s') steps steps') :
    Option.Rel (fun m m' => TransLayers m.layers m'.layers ∧ m.Ready (.maps ch r c) s')
      (n.train steps) (n'.train steps') := by
  induction hs generalizing n n' with
  | nil => exact .some ⟨hm, hr⟩
  | @cons st st' steps steps' hst _ ih =>
    simp only [Net.train, List.foldlM_cons, Option.bind_eq_bind]
    have := C128_step hm hr hst.1 hst.2.2 st.2.1 st.2.2
    rw [hst.2.1]
    cases hr1 : n.gradientOpt st.1 st.2.1 st.2.2 with
    | none =>
      rw [hr1] at this
      cases hr' : n'.gradientOpt st'.1 st.2.1 st.2.2 with
      | none => exact .none
      | some o => rw [hr'] at this; cases this
    | some o =>
      rw [hr1] at this
      cases hr' : n'.gradientOpt st'.1 st.2.1 st.2.2 with
      | none => rw [hr'] at this; cases this
      | some o' =>
        rw [hr'] at this
        cases this with
        | some this => exact ih this.2.1 this.2.2

/-- C128. Quarter turns: transposed and then mirrored, the network computes on the turned image what it computed on the
image. -/
theorem C128_turn {v h : Bool} {n'' : Net (Cf w ℝ)} (hm : TransLayers n.layers n'.layers)
    (hr : n.Ready (.maps ch r c) s') (hm' : MirrorLayers v h n'.layers n''.layers)
    {x x'' : IOType (Cf w ℝ)} {X : Nat → Nat → Nat → Cf w ℝ} {ms ms'' : List (Mat (Cf w ℝ))} (hx : x = .matrix ms)
    (hX : MapsAre ms ch r c X) (hx'' : x'' = .matrix ms'')
    (hX'' : MapsAre ms'' ch c r fun k i j => X k (rev h r j) (rev v c i)) : n''.forward x'' = n.forward x := by
  have h1 : TransImage ch r c x (.matrix ((List.range ch).map fun k => Mat.fromBody (table c r (transposed (X k)))
      (c, r))) := ⟨ms, _, X, hx, rfl, hX, mapsAre_fromBody ch c r fun k => transposed (X k)⟩
  have h2 : MirrorImage v h ch c r (.matrix ((List.range ch).map fun k => Mat.fromBody (table c r (transposed (X k)))
      (c, r))) x'' := ⟨_, ms'', fun k => transposed (X k), rfl, hx'', mapsAre_fromBody ch c r _, hX''⟩
  have : Nonempty (Cf w ℝ) := ⟨0⟩
  obtain ⟨e0, e1, e2, e3, e4⟩ := hm.fits hr.fits hr.wf hr.total hr.totalBack
  exact (C111_forward_partial hm' ⟨by rw [e0]; exact hr.layers, e2, e1, e3, e4⟩ h2).trans (C128_forward hm hr h1)

/-! ## Pooling layers -/

/-- C128. Square blocks and blocks with an even number of rows and of columns are transposed correctly. -/
theorem C128_blocks {p q : Nat} (h : p = q ∨ p % 2 = 0 ∧ q % 2 = 0) : TransOff p q := by
  unfold TransOff leftOff upOff
  rcases h with rfl | ⟨hp, hq⟩
  · exact ⟨rfl, rfl⟩
  · simp [hp, hq]

/-- C128. Average pooling with the interpolation kernel of the examples, over such blocks. -/
theorem C128_average (m : Nat) {p q : Nat} (hp : 0 < p) (hq : 0 < q) (h : TransOff p q) :
    TransPool (Reduce.init m (p, q) avgBlock bilinear : Reduce (Cf .w32 ℝ))
      (Reduce.init m (q, p) avgBlock bilinear) := by
  have hne : ∀ {r c : Nat} (F : Nat → Nat → Cf .w32 ℝ), 0 < r → 0 < c → table r c F ≠ [] := by
    intro r c F hr hc h0
    have := congrArg List.length h0
    rw [table_length, List.length_nil] at this
    have := Nat.mul_pos hr hc
    omega
  refine ⟨rfl, rfl, fun F => ?_, fun k hk => ?_, h⟩
  · show avgBlock (table q p (transposed F)) = avgBlock (table p q F)
    rw [avgBlock_eq _ (hne _ hq hp), avgBlock_eq _ (hne _ hp hq), table_length, table_length, table_sum, table_sum,
      Finset.sum_comm, Nat.mul_comm q p]
    rfl
  · have ht : table 3 3 k = table 3 3 bil := hk.2.symm.trans bil_is.2
    have hg : ∀ i, i < 3 → ∀ j, j < 3 → k i j = bil i j := fun i hi j hj =>
      Option.some.inj ((table_getElem? 3 3 k hi hj).symm.trans
        (ht ▸ table_getElem? 3 3 bil hi hj))
    refine ⟨rfl, hk.2.trans (table_congr fun a ha b hb => ?_)⟩
    show k a b = k b a
    rw [hg a ha b hb, hg b hb a ha]
    unfold bil
    rw [mul_comm]

/-- C128, the condition on the blocks is needed: with blocks of one row and three columns back-propagation works, with
blocks of three rows and one column it panics, whatever the rest of the layer. -/
theorem C128_narrow {l l' : Reduce (Cf w ℝ)} (hl : l.blockSize = (1, 3)) (hl' : l'.blockSize = (3, 1))
    {k : Nat → Nat → Cf w ℝ} (hk : l.interpKernel.Is 3 3 k) (hch : 0 < ch) (hr : 0 < r) (hc : 0 < c)
    {ms ms' : List (Mat (Cf w ℝ))} {X : Nat → Nat → Nat → Cf w ℝ} (hX : MapsAre ms ch (r * 1) (c * 3) X)
    (hX' : MapsAre ms' ch (c * 3) (r * 1) fun k => transposed (X k)) (G : Nat → Nat → Nat → Cf w ℝ) :
    (∃ y, (Layer.reduce l).back (.matrix ms) (cube ch r c G) (cube ch r c G) = some y)
    ∧ ∀ d dc, (Layer.reduce l').back (.matrix ms') d dc = none := by
  refine ⟨⟨_, Reduce.back_is hl hk (by omega) (by omega) (by omega) hch hr hc G G hX⟩, fun d dc => ?_⟩
  unfold Layer.back
  rw [if_pos (show (Layer.reduce l').propagates = true from rfl)]
  suffices hd : ∀ ds dcs, l'.derivLoop ms' ds dcs = none by
    simp [Layer.computeDerivatives, Reduce.computeDerivatives, hd]
  intro ds dcs
  cases ms' with
  | nil =>
    have := hX'.1
    simp at this
    omega
  | cons f fs =>
    have hf : f.shape = (c * 3, r * 1) := (hX'.2 0 f rfl).1
    simp only [Reduce.derivLoop, Reduce.udiv, hl', hf, Option.bind_eq_bind, Option.bind_eq_none_iff]
    intro s0 _ s1 h1 d _ m h2
    simp only [one_ne_zero, if_false, Option.some.injEq, Nat.mul_one, Nat.div_one] at h1
    subst h1
    intro u h3
    exfalso
    have hm : m.Rect ∧ m.shape = (s0, r) := by
      unfold Mat.toMatrix at h2
      split at h2
      · cases h2
      · rename_i hne
        simp only [unwrap, Option.some.injEq] at h2
        subst h2
        exact ⟨not_not.mp hne, rfl⟩
    have : Nonempty (Cf w ℝ) := ⟨0⟩
    obtain ⟨g, hg⟩ := Mat.Rect.exists_is hm.1
    rw [hm.2] at hg
    rw [upsampling_narrow hg hr (by omega) (by omega) (by omega)] at h3
    cases h3

end

/-! ## Non-vacuity -/

section
variable {w : Width}

/-- One filter with two weights in a column. -/
noncomputable def columnNet (K V : Nat → Cf w ℝ) : Net (Cf w ℝ) :=
  ⟨[.conv ⟨1, Mat.fromBody (table 1 1 fun _ _ => Mat.fromBody (table 2 1 fun i _ => K i) (2, 1)) (1, 1),
      (List.range 1).map fun _ => 1, .ritReLU⟩, .flatten ⟨((2, 1), 1)⟩,
    .dense ⟨Mat.fromBody (table 1 2 fun _ i => V i) (1, 2), [0], .none⟩]⟩

theorem lineNet_trans (K V : Nat → Cf w ℝ) : TransLayers (lineNet K V).layers (columnNet K V).layers := by
  refine .conv (lineNet_conv K) ⟨rfl, rfl, rfl, _, Mat.fromBody_is 1 1 _, fun _ _ _ _ => Mat.fromBody_is 2 1 _⟩
    (.dense (r := 1) (c := 2) (n := 1) (u := 1) (V := fun _ i => V i) (b := fun _ => 0) (f := .none) rfl rfl
      ⟨Mat.fromBody_is 1 2 _, rfl, rfl⟩ ⟨⟨rfl, ?_⟩, rfl, rfl⟩ [])
  refine table_congr fun j hj i hi => ?_
  congr 1
  interval_cases i <;> rfl

/-- The filter as a row on the row `(a, b, c)`, and as a column on the column `(a, b, c)`. -/
example (K V : Nat → Cf w ℝ) {x x' : IOType (Cf w ℝ)} (hx : TransImage 1 1 3 x x') :
    (columnNet K V).forward x' = (lineNet K V).forward x :=
  C128_forward (lineNet_trans K V) (lineNet_ready K V) hx

/-- The pooling layer of the classification example is its own transpose. -/
example (m : Nat) : TransPool (avgPool m : Reduce (Cf .w32 ℝ)) (avgPool m) :=
  C128_average m (by omega) (by omega) (C128_blocks (.inl rfl))

end

end Renplex
