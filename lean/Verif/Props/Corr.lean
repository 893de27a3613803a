import Verif.Props.TrainTotal
/-!
# Networks that correspond layer by layer train alike

A general scheme: two networks whose layers are related in such a way that related inputs give
related outputs and related derivatives stay so under training.
-/

namespace Renplex

/-! ## Updates keep the storage of a layer as it was -/

section
variable {α : Type}

theorem foldl_area (ks : List (Mat α)) (a : Nat) (hr : ∀ k ∈ ks, k.Rect) :
    ks.foldl (fun acc k => acc + k.shape.1 * k.shape.2) a
      = a + (ks.map fun k => k.body.length).sum := by
  induction ks generalizing a with
  | nil => simp
  | cons k ks ih =>
    have hk : k.body.length = k.shape.1 * k.shape.2 := hr k (by simp)
    rw [List.foldl_cons, ih _ fun k h => hr k (by simp [h]), List.map_cons, List.sum_cons, hk,
      Nat.add_assoc]

theorem zipKernels_length (upd : α → α → α) (ks : List (Mat α)) (d : List α) :
    (zipKernels upd ks d).length = ks.length := by
  induction ks generalizing d with
  | nil => rfl
  | cons k ks ih => rw [zipKernels, List.length_cons, List.length_cons, ih]

theorem zipKernels_rect (upd : α → α → α) (ks : List (Mat α)) (d : List α)
    (hr : ∀ k ∈ ks, k.Rect) (hd : (ks.map fun k => k.body.length).sum ≤ d.length) :
    ∀ k ∈ zipKernels upd ks d, k.Rect := by
  induction ks generalizing d with
  | nil => simp [zipKernels]
  | cons k ks ih =>
    intro k' hk'
    have hk : k.body.length = k.shape.1 * k.shape.2 := hr k (by simp)
    rw [List.map_cons, List.sum_cons] at hd
    rw [zipKernels, List.mem_cons] at hk'
    rcases hk' with rfl | hk'
    · show (List.zipWith upd k.body _).length = k.shape.1 * k.shape.2
      rw [List.length_zipWith, List.length_take]
      omega
    · exact ih _ (fun k hk => hr k (by simp [hk])) (by rw [List.length_drop]; omega) k' hk'

theorem Layer.zipParams_wf (upd : α → α → α) {l : Layer α} (hw : l.WF) {g : LayerVec α}
    (hg : g.Fits l) : (l.zipParams upd g).WF := by
  cases l with
  | dense l =>
    unfold LayerVec.Fits at hg
    rw [if_pos (show (Layer.dense l).propagates = true from rfl)] at hg
    have h1 : g.1.length = l.weights.shape.1 * l.weights.shape.2 := hg.1
    have h2 : g.2.length = l.biases.length := hg.2
    have h3 : l.weights.body.length = l.weights.shape.1 * l.weights.shape.2 := hw.1
    refine ⟨?_, ?_⟩
    · show (List.zipWith upd l.weights.body g.1).length = _
      rw [List.length_zipWith, h1, h3, Nat.min_self]
    · show (List.zipWith upd l.biases g.2).length = _
      rw [List.length_zipWith, h2, Nat.min_self]
      exact hw.2
  | conv l =>
    unfold LayerVec.Fits at hg
    rw [if_pos (show (Layer.conv l).propagates = true from rfl)] at hg
    obtain ⟨w1, w2, w3, w4, s, w5⟩ := hw
    have h1 : g.1.length = l.paramsLen.1 := hg.1
    have h2 : g.2.length = l.biases.length := hg.2
    unfold Conv.paramsLen at h1
    simp only at h1
    rw [foldl_area _ _ w4, Nat.zero_add] at h1
    refine ⟨?_, w2, ?_, zipKernels_rect upd _ _ w4 (by omega), s, zipKernels_shapes upd _ _ w4 w5⟩
    · show (zipKernels upd l.kernels.body g.1).length = _
      rw [zipKernels_length]
      exact w1
    · show (List.zipWith upd l.biases g.2).length = _
      rw [List.length_zipWith, h2, Nat.min_self]
      exact w3
  | reduce l => exact hw
  | flatten l => exact hw

end

section
variable {α P : Type}

/-- The update of a parameter in a training step with a scale that satisfies `S`. -/
def IsStep [CplxOps α P] (S : α → Prop) (upd : α → α → α) : Prop :=
  ∃ scale, S scale ∧ upd = fun p d => BasicOps.subAssign p (CplxOps.conj (BasicOps.mulAssign d scale))

/-- How the values between two layers, and the derivatives with respect to them, are related. -/
structure Iface (α : Type) where
  feat : IOType α → IOType α → Prop
  back : List α → List α → Prop
  /-- for the derivatives with respect to the conjugates -/
  backc : List α → List α → Prop := back

variable [CplxOps α P]

variable (α) in
/-- A relation between layers that the forward pass, the backward pass and updates whose scale satisfies `S` respect. -/
structure KindOn (S : α → Prop) where
  rel : Layer α → Layer α → Prop
  vec : LayerVec α → LayerVec α → Prop
  inp : Iface α
  out : Iface α
  wf : ∀ {l l'}, rel l l' → l.WF ∧ l'.WF
  forward : ∀ {l l' x x'}, rel l l' → inp.feat x x' → ∃ y y', l.forward x = some (.ok y)
    ∧ l'.forward x' = some (.ok y') ∧ out.feat y y'
  backward : ∀ {l l' x x' d d' dc dc'}, rel l l' → inp.feat x x' → out.back d d' → out.backc dc dc' →
    ∃ g g' e e' ec ec', l.back x d dc = some (g, e, ec) ∧ l'.back x' d' dc' = some (g', e', ec')
      ∧ vec g g' ∧ g.Fits l ∧ g'.Fits l' ∧ inp.back e e' ∧ inp.backc ec ec'
  zero : ∀ {l l'}, rel l l' → vec (Net.initAcc l) (Net.initAcc l')
  add : ∀ {a a' g g' r r'}, vec a a' → vec g g' → addPair a g = some r → addPair a' g' = some r' →
    vec r r'
  update : ∀ {l l' g g'} (upd : α → α → α), IsStep S upd → rel l l' → vec g g' → g.Fits l → g'.Fits l' →
    rel (l.zipParams upd g) (l'.zipParams upd g')

variable (α) in
/-- The same for updates with any scale. -/
abbrev Kind := KindOn α fun _ => True

variable {S : α → Prop}

/-- Two lists of layers correspond, kind by kind, from one relation of values to another. -/
inductive Corr : Iface α → List (KindOn α S) → List (Layer α) → List (Layer α) → Iface α → Prop
  | nil (I : Iface α) : Corr I [] [] [] I
  | cons {k : KindOn α S} {ks : List (KindOn α S)} {l l' : Layer α} {ls ls' : List (Layer α)} {O : Iface α}
      (h : k.rel l l') (t : Corr k.out ks ls ls' O) : Corr k.inp (k :: ks) (l :: ls) (l' :: ls') O

/-- The same for derivatives. -/
inductive VecCorr : List (KindOn α S) → List (Layer α) → List (Layer α) → List (LayerVec α) →
    List (LayerVec α) → Prop
  | nil : VecCorr [] [] [] [] []
  | cons {k : KindOn α S} {ks : List (KindOn α S)} {l l' : Layer α} {ls ls' : List (Layer α)}
      {g g' : LayerVec α} {gs gs' : List (LayerVec α)} (h : k.vec g g') (f : g.Fits l)
      (f' : g'.Fits l') (t : VecCorr ks ls ls' gs gs') :
      VecCorr (k :: ks) (l :: ls) (l' :: ls') (g :: gs) (g' :: gs')

theorem VecCorr.fits {ks : List (KindOn α S)} {ls ls' : List (Layer α)} {gs gs' : List (LayerVec α)}
    (h : VecCorr ks ls ls' gs gs') :
    List.Forall₂ LayerVec.Fits gs ls ∧ List.Forall₂ LayerVec.Fits gs' ls' := by
  induction h with
  | nil => exact ⟨.nil, .nil⟩
  | cons _ f f' _ ih => exact ⟨.cons f ih.1, .cons f' ih.2⟩

theorem Corr.wf {I O : Iface α} {ks : List (KindOn α S)} {ls ls' : List (Layer α)}
    (h : Corr I ks ls ls' O) : (∀ l ∈ ls, l.WF) ∧ ∀ l ∈ ls', l.WF := by
  induction h with
  | nil => simp
  | @cons k ks l l' ls ls' O h _ ih =>
    constructor
    · intro a ha
      rcases List.mem_cons.mp ha with rfl | ha
      · exact (k.wf h).1
      · exact ih.1 a ha
    · intro a ha
      rcases List.mem_cons.mp ha with rfl | ha
      · exact (k.wf h).2
      · exact ih.2 a ha

theorem Corr.length {I O : Iface α} {ks : List (KindOn α S)} {ls ls' : List (Layer α)}
    (h : Corr I ks ls ls' O) : ls'.length = ls.length := by
  induction h with
  | nil => rfl
  | cons _ _ ih => simp [ih]

/-- Forward and backward through corresponding layers. -/
theorem Corr.pass {I O : Iface α} {ks : List (KindOn α S)} {ls ls' : List (Layer α)}
    (h : Corr I ks ls ls' O) {x x' : IOType α} (hx : I.feat x x') :
    ∃ ys ys' y y', Chain ls x ys ∧ Chain ls' x' ys' ∧ (x :: ys).getLast? = some y
      ∧ (x' :: ys').getLast? = some y' ∧ O.feat y y'
      ∧ ∀ d d' dc dc', O.back d d' → O.backc dc dc' → ∃ gs gs' e e' ec ec',
        I.back e e' ∧ I.backc ec ec' ∧ VecCorr ks ls ls' gs gs'
        ∧ (∀ rest, backGrads (backPairs ls x ys ++ rest) d dc
            = (backGrads rest e ec).map (gs.reverse ++ ·))
        ∧ ∀ rest, backGrads (backPairs ls' x' ys' ++ rest) d' dc'
            = (backGrads rest e' ec').map (gs'.reverse ++ ·) := by
  induction h generalizing x x' with
  | nil I =>
    refine ⟨[], [], x, x', .nil x, .nil x', rfl, rfl, hx, fun d d' dc dc' h1 h2 =>
      ⟨[], [], d, d', dc, dc', h1, h2, .nil, ?_, ?_⟩⟩ <;>
    · intro rest
      simp only [backPairs, List.reverse_nil, List.zip_nil_right, List.nil_append]
      cases backGrads rest _ _ <;> rfl
  | @cons k ks l l' ls ls' O h _ ih =>
    obtain ⟨y, y', f1, f2, f3⟩ := k.forward h hx
    obtain ⟨ys, ys', z, z', c1, c2, c3, c4, c5, c6⟩ := ih f3
    refine ⟨y :: ys, y' :: ys', z, z', .cons f1 c1, .cons f2 c2,
      by rw [List.getLast?_cons_cons]; exact c3, by rw [List.getLast?_cons_cons]; exact c4, c5, ?_⟩
    intro d d' dc dc' h1 h2
    obtain ⟨gs, gs', e, e', ec, ec', b1, b2, b3, b4, b5⟩ := c6 d d' dc dc' h1 h2
    obtain ⟨g, g', i, i', ic, ic', a1, a2, a3, a4, a5, a6, a7⟩ := k.backward h hx b1 b2
    refine ⟨g :: gs, g' :: gs', i, i', ic, ic', a6, a7, .cons a3 a4 a5 b3, ?_, ?_⟩
    · intro rest
      rw [backPairs_cons _ _ _ _ _ c1.length, List.append_assoc, b4, List.singleton_append,
        backGrads_cons, a1]
      simp only [Option.bind_eq_bind, Option.bind_some]
      cases backGrads rest i ic <;> simp
    · intro rest
      rw [backPairs_cons _ _ _ _ _ c2.length, List.append_assoc, b5, List.singleton_append,
        backGrads_cons, a2]
      simp only [Option.bind_eq_bind, Option.bind_some]
      cases backGrads rest i' ic' <;> simp

/-- A vector of known extent, the same on both sides. -/
def Iface.same (α : Type) (s : Size) : Iface α :=
  { feat := fun x x' => x' = x ∧ x.HasSize s, back := fun d d' => d' = d ∧ d.length = s.len }

/-- What one sample contributes to the gradients of both networks. -/
theorem Corr.sample_on {I : Iface α} {s' : Size} {ks : List (KindOn α S)} {n n' : Net α}
    (h : Corr I ks n.layers n'.layers (.same α s')) (hne : n.layers ≠ []) {f : LossFunc}
    (hd : ∀ t p : IOType α, t.HasSize s' → p.HasSize s' →
      ∃ d, CplxOps.dLoss f t p = .ok d ∧ d.length = s'.len)
    {p p' : IOType α × IOType α} (hx : I.feat p.1 p'.1) (he : p'.2 = p.2) (ht : p.2.HasSize s') :
    ∃ gs gs', sampleGrads n f p = some gs ∧ sampleGrads n' f p' = some gs'
      ∧ VecCorr ks n.layers n'.layers gs gs' := by
  obtain ⟨ys, ys', y, y', c1, c2, c3, c4, ⟨rfl, c5⟩, c6⟩ := h.pass hx
  obtain ⟨d, d1, d2⟩ := hd p.2 _ ht c5
  obtain ⟨gs, gs', e, e', ec, ec', -, -, b3, b4, b5⟩ := c6 d d (d.map CplxOps.conj)
    (d.map CplxOps.conj) ⟨rfl, d2⟩ ⟨rfl, by simpa using d2⟩
  have hne' : n'.layers ≠ [] := by
    intro h0
    have := h.length
    rw [h0] at this
    exact hne (List.length_eq_zero_iff.mp this.symm)
  have b4 := b4 []
  have b5 := b5 []
  rw [List.append_nil] at b4 b5
  have key : ∀ (m : Net α) (zs : List (IOType α)) (v : List (LayerVec α)) (i ic : List α) (p : IOType α × IOType α),
      CplxOps.dLoss f p.2 y' = .ok d → m.layers ≠ [] → Chain m.layers p.1 zs → (p.1 :: zs).getLast? = some y' →
      backGrads (backPairs m.layers p.1 zs) d (d.map CplxOps.conj)
        = (backGrads [] i ic).map (v.reverse ++ ·) → sampleGrads m f p = some v := by
    intro m zs v i ic p d1 hm hc hl hb
    unfold sampleGrads
    rw [(C44_collect m hm p.1 _).mpr ⟨zs, hc, rfl⟩]
    simp only [Option.bind_eq_bind, Option.bind_some, unwrap]
    rw [List.head?_reverse, hl]
    simp only [Option.bind_some, d1]
    change Option.map _ (backGrads (backPairs m.layers p.1 zs) d (d.map CplxOps.conj)) = _
    rw [hb]
    simp [backGrads]
  exact ⟨gs, gs', key n ys gs e ec p d1 hne c1 c3 b4,
    key n' ys' gs' e' ec' p' (by rw [he]; exact d1) hne' c2 c4 b5, b3⟩

theorem VecCorr.add {ks : List (KindOn α S)} {ls ls' : List (Layer α)}
    {a a' g g' : List (LayerVec α)} (ha : VecCorr ks ls ls' a a') (hg : VecCorr ks ls ls' g g') :
    ∃ r r', (a.zip g).mapM (fun q => addPair q.1 q.2) = some r
      ∧ (a'.zip g').mapM (fun q => addPair q.1 q.2) = some r' ∧ VecCorr ks ls ls' r r' := by
  induction ha generalizing g g' with
  | nil => cases hg; exact ⟨[], [], rfl, rfl, .nil⟩
  | @cons k ks l l' ls ls' a a' as as' h f f' _ ih =>
    cases hg with
    | cons h2 f2 f2' t2 =>
      obtain ⟨r, r', e1, e2, e3⟩ := ih t2
      obtain ⟨x, x1, x2⟩ := addPair_total f f2
      obtain ⟨x', x1', x2'⟩ := addPair_total f' f2'
      exact ⟨x :: r, x' :: r', by simp [List.zip_cons_cons, List.mapM_cons, x1, e1],
        by simp [List.zip_cons_cons, List.mapM_cons, x1', e2], .cons (k.add h h2 x1 x1') x2 x2' e3⟩

theorem Corr.samples_on {I : Iface α} {s' : Size} {ks : List (KindOn α S)} {n n' : Net α}
    (h : Corr I ks n.layers n'.layers (.same α s')) (hne : n.layers ≠ []) {f : LossFunc}
    (hd : ∀ t p : IOType α, t.HasSize s' → p.HasSize s' →
      ∃ d, CplxOps.dLoss f t p = .ok d ∧ d.length = s'.len)
    {pts pts' : List (IOType α × IOType α)}
    (hp : List.Forall₂ (fun p p' => I.feat p.1 p'.1 ∧ p'.2 = p.2 ∧ p.2.HasSize s') pts pts')
    {a a' : List (LayerVec α)} (ha : VecCorr ks n.layers n'.layers a a') :
    ∃ r r', pts.foldlM (Net.sampleStep n f) a = some r
      ∧ pts'.foldlM (Net.sampleStep n' f) a' = some r' ∧ VecCorr ks n.layers n'.layers r r' := by
  induction hp generalizing a a' with
  | nil => exact ⟨a, a', rfl, rfl, ha⟩
  | cons hpp _ ih =>
    obtain ⟨gs, gs', h1, h2, h3⟩ := h.sample_on hne hd hpp.1 hpp.2.1 hpp.2.2
    obtain ⟨r, r', e1, e2, e3⟩ := ha.add h3
    obtain ⟨o, o', k1, k2, k3⟩ := ih e3
    refine ⟨o, o', ?_, ?_, k3⟩
    · rw [List.foldlM_cons, Net.sampleStep_eq n f a (ha.fits.1.imp fun _ _ h => h.nonprop), h1]
      simp only [Option.bind_eq_bind, Option.bind_some, e1]
      exact k1
    · rw [List.foldlM_cons, Net.sampleStep_eq n' f a' (ha.fits.2.imp fun _ _ h => h.nonprop), h2]
      simp only [Option.bind_eq_bind, Option.bind_some, e2]
      exact k2

theorem Corr.zero {I O : Iface α} {ks : List (KindOn α S)} {ls ls' : List (Layer α)}
    (h : Corr I ks ls ls' O) : VecCorr ks ls ls' (ls.map Net.initAcc) (ls'.map Net.initAcc) := by
  induction h with
  | nil => exact .nil
  | @cons k ks l l' ls ls' O h _ ih =>
    exact .cons (k.zero h) (Net.initAcc_fits l) (Net.initAcc_fits l') ih

theorem Corr.update {I O : Iface α} {ks : List (KindOn α S)} {ls ls' : List (Layer α)}
    (h : Corr I ks ls ls' O) {g g' : List (LayerVec α)} (hg : VecCorr ks ls ls' g g')
    {upd : α → α → α} (hu : IsStep S upd) :
    Corr I ks (List.zipWith (Layer.zipParams upd) ls g) (List.zipWith (Layer.zipParams upd) ls' g')
      O := by
  induction h generalizing g g' with
  | nil => cases hg; exact .nil _
  | @cons k ks l l' ls ls' O h _ ih =>
    cases hg with
    | cons h2 f f' t =>
      exact .cons (k.update upd hu h h2 f f') (ih t)

/-- One training call on corresponding networks leaves corresponding networks. -/
theorem Corr.step_on {I : Iface α} {s' : Size} {ks : List (KindOn α S)} {n n' : Net α}
    (h : Corr I ks n.layers n'.layers (.same α s')) (h2 : 2 ≤ n.layers.length)
    {f : LossFunc} (hd : ∀ t p : IOType α, t.HasSize s' → p.HasSize s' →
      ∃ d, CplxOps.dLoss f t p = .ok d ∧ d.length = s'.len)
    {data data' : Dataset α} (hs : List.Forall₂ (fun p p' => I.feat p.1 p'.1 ∧ p'.2 = p.2
      ∧ p.2.HasSize s') data.points data'.points) (hl : data'.inputs.length = data.inputs.length)
    {lr scale : α} (hlr : BasicOps.div lr (CplxOps.ofUsize data.inputs.length) = some scale) (hS : S scale := by trivial) :
    ∃ m m', n.gradientOpt data f lr = some (.ok (), m) ∧ n'.gradientOpt data' f lr = some (.ok (), m')
      ∧ m.layers.length = n.layers.length
      ∧ Corr I ks m.layers m'.layers (.same α s') := by
  have hne : n.layers ≠ [] := by rintro h0; rw [h0] at h2; simp at h2
  obtain ⟨r, r', e1, e2, e3⟩ := h.samples_on hne hd hs h.zero
  have key : ∀ (m : Net α) (data : Dataset α) (acc : List (LayerVec α)),
      BasicOps.div lr (CplxOps.ofUsize data.inputs.length) = some scale → 2 ≤ m.layers.length →
      (∀ l ∈ m.layers, l.WF) → List.Forall₂ LayerVec.Fits acc m.layers →
      data.points.foldlM (Net.sampleStep m f) (m.layers.map Net.initAcc) = some acc →
      m.gradientOpt data f lr = some (.ok (), ⟨List.zipWith (Layer.zipParams
        (fun p d => BasicOps.subAssign p (CplxOps.conj (BasicOps.mulAssign d scale)))) m.layers acc⟩) := by
    intro m data acc hlr hm hw hf ha
    have h3 := Net.updateAll_eq scale acc m.layers hw hf
    unfold Net.gradientOpt
    rw [if_neg (by omega)]
    simp only [Option.bind_eq_bind]
    rw [ha]
    simp only [Option.bind_some, hlr]
    rw [h3]
    rfl
  refine ⟨_, _, key n data r hlr h2 h.wf.1 e3.fits.1 e1, key n' data' r' (by rw [hl]; exact hlr)
    (by rw [h.length]; exact h2) h.wf.2 e3.fits.2 e2, ?_, h.update e3 ⟨_, hS, rfl⟩⟩
  simp [e3.fits.1.length_eq]

theorem Corr.step {s s' : Size} {ks : List (KindOn α S)} {n n' : Net α}
    (h : Corr (.same α s) ks n.layers n'.layers (.same α s')) (h2 : 2 ≤ n.layers.length)
    {f : LossFunc} (hd : ∀ t p : IOType α, t.HasSize s' → p.HasSize s' →
      ∃ d, CplxOps.dLoss f t p = .ok d ∧ d.length = s'.len)
    {data : Dataset α} (hs : data.HasSize s s') {lr scale : α}
    (hlr : BasicOps.div lr (CplxOps.ofUsize data.inputs.length) = some scale) (hS : S scale := by trivial) :
    ∃ m m', n.gradientOpt data f lr = some (.ok (), m) ∧ n'.gradientOpt data f lr = some (.ok (), m')
      ∧ m.layers.length = n.layers.length
      ∧ Corr (.same α s) ks m.layers m'.layers (.same α s') :=
  h.step_on h2 hd (List.forall₂_same.mpr fun p hp => ⟨⟨rfl, (hs p hp).1⟩, rfl, (hs p hp).2⟩) rfl hlr hS

/-- Corresponding networks return the same predictions. -/
theorem Corr.forward_on {I : Iface α} {s' : Size} {ks : List (KindOn α S)} {n n' : Net α}
    (h : Corr I ks n.layers n'.layers (.same α s')) (hne : n.layers ≠ []) {x x' : IOType α}
    (hx : I.feat x x') :
    ∃ y, n.forward x = some (.ok y) ∧ n'.forward x' = some (.ok y) ∧ y.HasSize s' := by
  obtain ⟨ys, ys', y, y', c1, c2, c3, c4, ⟨rfl, c5⟩, -⟩ := h.pass hx
  have hne' : n'.layers ≠ [] := by
    intro h0
    have := h.length
    rw [h0] at this
    exact hne (List.length_eq_zero_iff.mp this.symm)
  have key : ∀ (m : Net α) (x : IOType α) (zs : List (IOType α)), m.layers ≠ [] → Chain m.layers x zs →
      (x :: zs).getLast? = some y' → m.forward x = some (.ok y') := by
    intro m x zs hm hc hl
    refine (C44_forward m hm x _).mpr ⟨zs, y', hc, ?_, rfl⟩
    have := hc.length
    cases zs with
    | nil => exact absurd (List.length_eq_zero_iff.mp this.symm) hm
    | cons z zs => rwa [List.getLast?_cons_cons] at hl
  exact ⟨y', key n x ys hne c1 c3, key n' x' ys' hne' c2 c4, c5⟩

theorem Corr.forward {s s' : Size} {ks : List (KindOn α S)} {n n' : Net α}
    (h : Corr (.same α s) ks n.layers n'.layers (.same α s')) (hne : n.layers ≠ []) {x : IOType α}
    (hx : x.HasSize s) : ∃ y, n.forward x = some (.ok y) ∧ n'.forward x = some (.ok y) ∧ y.HasSize s' :=
  h.forward_on hne ⟨rfl, hx⟩

/-- Any layer corresponds to itself. -/
def Kind.same (s s' : Size) : KindOn α S where
  rel l l' := l' = l ∧ l.WF ∧ l.Fits s s' ∧ l.Total ∧ l.TotalBack
  vec g g' := g' = g
  inp := .same α s
  out := .same α s'
  wf := by rintro l _ ⟨rfl, h, -⟩; exact ⟨h, h⟩
  forward := by
    rintro l _ x _ ⟨rfl, h1, h2, h3, -⟩ ⟨rfl, hx⟩
    obtain ⟨y, e1, e2⟩ := Layer.forward_fits h1 h3 h2 hx
    exact ⟨y, y, e1, e1, rfl, e2⟩
  backward := by
    rintro l _ x _ d _ dc _ ⟨rfl, h1, h2, h3, h4⟩ ⟨rfl, hx⟩ ⟨rfl, hd⟩ ⟨rfl, hdc⟩
    obtain ⟨g, e, ec, a1, a2, a3, a4⟩ := Layer.back_fits h1 h4 h2 hx _ _ hd hdc
    exact ⟨g, g, e, e, ec, ec, a1, a1, rfl, a2, a2, ⟨rfl, a3⟩, rfl, a4⟩
  zero := by rintro l _ ⟨rfl, -⟩; rfl
  add := by
    rintro a _ g _ r r' rfl rfl h h'
    rw [h] at h'
    exact (Option.some.inj h').symm
  update := by
    rintro l _ g g' upd - ⟨rfl, h1, h2, h3, h4⟩ hv hg -
    obtain rfl : g' = g := hv
    exact ⟨rfl, Layer.zipParams_wf upd h1 hg, Layer.zipParams_fits upd h1 _ h2,
      Layer.zipParams_total upd _ h3, Layer.zipParams_totalBack upd _ h4⟩

end

end Renplex
