import Verif.Props.Mirror
/-!
# C111: networks on mirrored images
-/

namespace Renplex

section
variable {α P : Type} [CplxOps α P]

/-- With a learning rate that cannot be divided by the number of samples, training panics. -/
theorem Net.gradientOpt_none {n : Net α} (h2 : 2 ≤ n.layers.length) {data : Dataset α}
    {f : LossFunc} {lr : α} (hlr : BasicOps.div lr (CplxOps.ofUsize data.inputs.length) = none) :
    n.gradientOpt data f lr = none := by
  unfold Net.gradientOpt
  rw [if_neg (by omega)]
  simp only [Option.bind_eq_bind]
  cases data.points.foldlM (Net.sampleStep n f) (n.layers.map Net.initAcc) with
  | none => rfl
  | some acc => simp [hlr]

theorem MirrorData.points {v h : Bool} {n r c : Nat} {data data' : Dataset α}
    (hm : MirrorData v h n r c data data') {s' : Size} (ht : ∀ p ∈ data.points, p.2.HasSize s') :
    List.Forall₂ (fun p p' => (Iface.mirror α v h n r c).feat p.1 p'.1 ∧ p'.2 = p.2
      ∧ p.2.HasSize s') data.points data'.points := by
  obtain ⟨h1, h2⟩ := hm
  unfold Dataset.points at ht ⊢
  rw [h2]
  revert ht
  generalize data.target = t
  generalize data.inputs = xs at h1
  generalize data'.inputs = xs' at h1
  induction h1 generalizing t with
  | nil => intro _; simp
  | @cons x x' xs xs' hx _ ih =>
    intro ht
    cases t with
    | nil => simp
    | cons y t =>
      exact .cons ⟨hx, rfl, ht (x, y) (by simp)⟩ (ih t fun p hp => ht p (by simp [hp]))

variable [CommRing α] [LawfulOps α]

/-- The kinds of a mirrored network. -/
inductive MirrorKinds (v h : Bool) : List (Kind α) → Prop
  | conv {nf n p q r c : Nat} {ks : List (Kind α)} (t : MirrorKinds v h ks) :
      MirrorKinds v h (Kind.mirrorConv v h nf n p q r c :: ks)
  | pool {n r c p q : Nat} {ks : List (Kind α)} (t : MirrorKinds v h ks) :
      MirrorKinds v h (Kind.mirrorPool v h n r c p q :: ks)
  | dense {u n r c : Nat} {ks : List (Kind α)} (t : AllSame ks) :
      MirrorKinds v h (Kind.mirrorFlatten v h n r c :: Kind.mirrorColumns v h u n r c :: ks)

theorem MirrorKinds.layers {v h : Bool} {ks : List (Kind α)} (hk : MirrorKinds v h ks)
    {I O : Iface α} {ls ls' : List (Layer α)} (hc : Corr I ks ls ls' O) : MirrorLayers v h ls ls' := by
  induction hk generalizing I ls ls' with
  | conv _ ih =>
    obtain ⟨l, l', t, t', rfl, rfl, ⟨a, a', K, b, f, rfl, rfl, h1, h2, -⟩, h3⟩ := hc.cons_inv
    exact .conv h1 h2 (ih h3)
  | pool _ ih =>
    obtain ⟨l, l', t, t', rfl, rfl, ⟨a, rfl, rfl, -, hm, -⟩, h3⟩ := hc.cons_inv
    exact .pool hm (ih h3)
  | dense hs =>
    obtain ⟨l, l', t, t', rfl, rfl, ⟨a, rfl, rfl, ha⟩, h3⟩ := hc.cons_inv
    obtain ⟨l, l', t, t', rfl, rfl, ⟨b, b', V, c, f, rfl, rfl, h1, h2, -⟩, h4⟩ := h3.cons_inv
    obtain rfl := hs.eq h4
    exact .dense ha h1 h2 _

theorem MirrorLayers.corr {v h : Bool} {ls ls' : List (Layer α)} (hm : MirrorLayers v h ls ls')
    {n r c : Nat} {s' : Size} (hf : FitsChain ls (.maps n r c) s') (hw : ∀ l ∈ ls, l.WF)
    (ht : ∀ l ∈ ls, l.Total) (hb : ∀ l ∈ ls, l.TotalBack) :
    ∃ ks, MirrorKinds v h ks ∧ Corr (.mirror α v h n r c) ks ls ls' (.same α s') := by
  induction hm generalizing n r c with
  | @conv a a' nf m p q K b f ls ls' ha ha' _ ih =>
    cases hf with
    | cons hf t =>
      obtain ⟨r1, c1, e, rfl, d⟩ := (Conv.fits_dims ha).mp hf
      cases e
      obtain ⟨ks, k1, k2⟩ := ih t (fun l hl => hw l (by simp [hl])) (fun l hl => ht l (by simp [hl]))
        (fun l hl => hb l (by simp [hl]))
      have a1 := ht (.conv a) (by simp)
      have a2 := hb (.conv a) (by simp)
      have hfn : a.func = f := ha.2.2.1
      simp only [Layer.Total, Layer.TotalBack, hfn] at a1 a2
      exact ⟨_, .conv k1, .cons (k := Kind.mirrorConv v h nf m p q r c)
        ⟨a, a', K, b, f, rfl, rfl, ha, ha', ⟨a1, a2⟩, d⟩ k2⟩
  | @pool l ls ls' hl _ ih =>
    cases hf with
    | @cons _ _ _ s₁ _ hf t =>
      cases s₁ with
      | vec m => exact hf.elim
      | maps n' r1 c1 =>
        obtain ⟨rfl, hn, hr, hc, hp, hq, rfl, rfl⟩ := hf
        obtain ⟨ks, k1, k2⟩ := ih t (fun l hl => hw l (by simp [hl])) (fun l hl => ht l (by simp [hl]))
          (fun l hl => hb l (by simp [hl]))
        have hb' := hb (.reduce l) (by simp)
        exact ⟨_, .pool k1, .cons (k := Kind.mirrorPool v h n r1 c1 l.blockSize.1 l.blockSize.2)
          ⟨l, rfl, rfl, rfl, hl, ht _ (by simp), hb', by rw [hn]; exact hb'.2.2.2, hr, hc, hp, hq⟩ k2⟩
  | @dense l a a' r1 c1 m u V b f hl ha ha' post =>
    cases hf with
    | @cons _ _ _ s₁ _ hf t =>
      cases t with
      | cons hf2 t =>
        obtain ⟨rfl, rfl, hn⟩ := (Dense.fits_dims ha).mp hf2
        obtain ⟨e, -⟩ := hf
        rw [hl] at e
        cases e
        obtain ⟨ks, k1, -, k2⟩ := Corr.of_fits t (fun l hl => hw l (by simp [hl]))
          (fun l hl => ht l (by simp [hl])) (fun l hl => hb l (by simp [hl]))
        have a1 := ht (.dense a) (by simp)
        have a2 := hb (.dense a) (by simp)
        have hfn : a.func = f := ha.2.2
        simp only [Layer.Total, Layer.TotalBack, hfn] at a1 a2
        exact ⟨_, .dense k1, .cons (k := Kind.mirrorFlatten v h m r1 c1) ⟨l, rfl, rfl, hl⟩
          (.cons (k := Kind.mirrorColumns v h u m r1 c1)
            ⟨a, a', V, b, f, rfl, rfl, ha, ha', ⟨a1, a2⟩, hn⟩ k2)⟩

end

/-! ## C111 -/

section
variable {w : Width} {v h : Bool} {n n' : Net (Cf w ℝ)} {ch r c : Nat} {s' : Size}

/-- C111. The mirrored network computes on a mirrored image what the network computes on the
image. -/
theorem C111_forward_partial (hm : MirrorLayers v h n.layers n'.layers) (hr : n.Ready (.maps ch r c) s')
    {x x' : IOType (Cf w ℝ)} (hx : MirrorImage v h ch r c x x') : n'.forward x' = n.forward x := by
  obtain ⟨ks, -, hc⟩ := hm.corr hr.fits hr.wf hr.total hr.totalBack
  have hne : n.layers ≠ [] := by
    intro h0
    have := hr.layers
    rw [h0] at this
    simp at this
  obtain ⟨y, h1, h2, -⟩ := hc.forward_on hne hx
  rw [h1, h2]

/-- C111. A training call on the mirrored images turns the mirrored network into the mirror image of
the network that the call on the images themselves leaves; it panics for both or for neither. -/
theorem C111_step_partial (hm : MirrorLayers v h n.layers n'.layers) (hr : n.Ready (.maps ch r c) s')
    {data data' : Dataset (Cf w ℝ)} (hd : MirrorData v h ch r c data data')
    (hs : data.HasSize (.maps ch r c) s') (lf : LossFunc) (lr : Cf w ℝ) :
    Option.Rel (fun o o' => o.1 = o'.1 ∧ MirrorLayers v h o.2.layers o'.2.layers
        ∧ o.2.Ready (.maps ch r c) s')
      (n.gradientOpt data lf lr) (n'.gradientOpt data' lf lr) := by
  obtain ⟨ks, hk, hc⟩ := hm.corr hr.fits hr.wf hr.total hr.totalBack
  have hl : data'.inputs.length = data.inputs.length := hd.1.length_eq.symm
  cases hdiv : BasicOps.div lr (CplxOps.ofUsize data.inputs.length) with
  | none =>
    rw [Net.gradientOpt_none hr.layers hdiv, Net.gradientOpt_none (by rw [hc.length]; exact hr.layers)
      (by rw [hl]; exact hdiv)]
    exact .none
  | some scale =>
    obtain ⟨m, m', e1, e2, -, e3⟩ := hc.step_on hr.layers (dLoss_total lf)
      (hd.points fun p hp => (hs p hp).2) hl hdiv
    obtain ⟨m1, e4, e5⟩ := C66_step n hr data hs lf lr scale hdiv
    rw [e1] at e4
    cases e4
    rw [e1, e2]
    exact .some ⟨rfl, hk.layers e3, e5⟩

/-- C111. The same for a whole training run. -/
theorem C111_train_partial (hm : MirrorLayers v h n.layers n'.layers) (hr : n.Ready (.maps ch r c) s')
    {steps steps' : List (TrainStep (Cf w ℝ))}
    (hs : List.Forall₂ (fun st st' => MirrorData v h ch r c st.1 st'.1 ∧ st'.2 = st.2
      ∧ st.1.HasSize (.maps ch r c) s') steps steps') :
    Option.Rel (fun m m' => MirrorLayers v h m.layers m'.layers ∧ m.Ready (.maps ch r c) s')
      (n.train steps) (n'.train steps') := by
  induction hs generalizing n n' with
  | nil => exact .some ⟨hm, hr⟩
  | @cons st st' steps steps' hst _ ih =>
    simp only [Net.train, List.foldlM_cons, Option.bind_eq_bind]
    have := C111_step_partial hm hr hst.1 hst.2.2 st.2.1 st.2.2
    rw [hst.2.1]
    cases hr1 : n.gradientOpt st.1 st.2.1 st.2.2 with
    | none =>
      rw [hr1] at this
      cases hr' : n'.gradientOpt st'.1 st.2.1 st.2.2 with
      | none => exact .none
      | some o => rw [hr'] at this; cases this
    | some o =>
      rw [hr1] at this
      cases hr' : n'.gradientOpt st'.1 st.2.1 st.2.2 with
      | none => rw [hr'] at this; cases this
      | some o' =>
        rw [hr'] at this
        cases this with
        | some this => exact ih this.2.1 this.2.2

/-- C111. A network that is its own mirror image cannot tell an image from its mirror image. -/
theorem C111_invariant_partial (hm : MirrorLayers v h n.layers n.layers)
    (hr : n.Ready (.maps ch r c) s') {x x' : IOType (Cf w ℝ)} (hx : MirrorImage v h ch r c x x') :
    n.forward x' = n.forward x :=
  C111_forward_partial hm hr hx

end

end Renplex
