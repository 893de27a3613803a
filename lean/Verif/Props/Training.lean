import Verif.Props.NetworkEval
import Verif.Spec.Training
/-!
# C50–C52: what a training step does, for all networks
-/

namespace Renplex
variable {α P : Type}

/-! ## The accumulation -/

/-- Adding one layer's derivatives to its accumulator, as the code does. -/
def addPair [BasicOps α] (a g : LayerVec α) : Run (LayerVec α) :=
  unwrap (addSliceMut a.1 g.1) >>= fun w => unwrap (addSliceMut a.2 g.2) >>= fun b => some (w, b)

section
variable [CplxOps α P]

theorem backGrads_length {rest : List (IOType α × Layer α)} {d dc : List α}
    {gs : List (LayerVec α)} (h : backGrads rest d dc = some gs) : gs.length = rest.length := by
  induction rest generalizing d dc gs with
  | nil => cases h; rfl
  | cons p rest ih =>
    obtain ⟨prev, l⟩ := p
    simp only [backGrads] at h
    by_cases hp : l.propagates = true
    · rw [if_pos hp] at h
      obtain ⟨r, -, h⟩ := Option.bind_eq_some_iff.mp h
      obtain ⟨gs', h', rfl⟩ := Option.map_eq_some_iff.mp h
      simp [ih h']
    · rw [if_neg hp] at h
      obtain ⟨gs', h', rfl⟩ := Option.map_eq_some_iff.mp h
      simp [ih h']

theorem Net.backLoop_eq (rest : List (IOType α × Layer α)) (d dc : List α)
    (racc accR : List (LayerVec α))
    (hacc : List.Forall₂ (fun a p => Layer.propagates (Prod.snd p) = false → a = ([], [])) racc rest) :
    Net.backLoop rest (rest.length - 1) d dc (racc.reverse ++ accR)
      = (backGrads rest d dc).bind fun gs =>
        ((racc.zip gs).mapM fun q => addPair q.1 q.2).map fun r => r.reverse ++ accR := by
  induction rest generalizing d dc racc accR with
  | nil => cases hacc; rfl
  | cons p rest ih =>
    obtain ⟨prev, l⟩ := p
    cases hacc with
    | @cons a _ racc _ ha hacc =>
      have hl : racc.length = rest.length := hacc.length_eq
      have e : (a :: racc).reverse ++ accR = racc.reverse ++ (a :: accR) := by simp
      have hk : ((prev, l) :: rest).length - 1 = rest.length := by simp
      rw [e, hk]
      simp only [Net.backLoop, backGrads]
      by_cases hp : l.propagates = true
      · rw [if_pos hp, if_pos hp]
        cases hc : l.computeDerivatives prev d dc with
        | none => simp
        | some r =>
          cases r with
          | error er => simp [unwrap]
          | ok r =>
            obtain ⟨dw, db, d', dc'⟩ := r
            have hget : (racc.reverse ++ (a :: accR))[rest.length]? = some a := by
              rw [List.getElem?_append_right (by simp [hl])]
              simp [hl]
            simp only [unwrap, hget, Option.bind_eq_bind, Option.bind_some]
            have hset : ∀ b, (racc.reverse ++ (a :: accR)).set rest.length b
                = racc.reverse ++ (b :: accR) := by
              intro b
              rw [List.set_append_right _ _ (by simp [hl])]
              simp [hl]
            have : (fun gs : List (LayerVec α) =>
                Option.map (fun r => r.reverse ++ accR)
                  (((a :: racc).zip ((dw, db) :: gs)).mapM fun q => addPair q.1 q.2))
                = fun gs => (addPair a (dw, db)).bind fun b =>
                  ((racc.zip gs).mapM fun q => addPair q.1 q.2).map fun r =>
                    r.reverse ++ (b :: accR) := by
              funext gs
              rw [List.zip_cons_cons, List.mapM_cons]
              cases addPair a (dw, db) with
              | none => rfl
              | some b =>
                simp only [Option.bind_eq_bind, Option.bind_some]
                cases (racc.zip gs).mapM fun q => addPair q.1 q.2 <;> simp
            rw [Option.bind_map]
            change _ = (backGrads rest d' dc').bind ((fun gs => _) ∘ _)
            simp only [Function.comp_def]
            rw [this]
            unfold addPair
            cases hw : addSliceMut a.1 dw with
            | error e' =>
              simp only [unwrap, Option.bind_none]
              cases backGrads rest d' dc' <;> simp
            | ok aw =>
              cases hb : addSliceMut a.2 db with
              | error e' =>
                simp only [unwrap, Option.bind_none, Option.bind_some]
                cases backGrads rest d' dc' <;> simp
              | ok ab =>
                simp only [unwrap, Option.bind_some]
                rw [hset]
                exact ih d' dc' racc ((aw, ab) :: accR) hacc
      · rw [if_neg hp, if_neg hp]
        obtain rfl := ha (by simpa using hp)
        rw [ih d dc racc (([], []) :: accR) hacc, Option.bind_map]
        congr 1
        funext gs
        simp only [Function.comp_def]
        rw [List.zip_cons_cons, List.mapM_cons]
        have : addPair (([], []) : LayerVec α) ([], []) = some ([], []) := rfl
        simp only [this, Option.bind_eq_bind, Option.bind_some]
        cases (racc.zip gs).mapM fun q => addPair q.1 q.2 <;> simp

theorem mapM_reverse {β γ : Type} (f : β → Option γ) (l : List β) :
    l.reverse.mapM f = (l.mapM f).map List.reverse := by
  induction l with
  | nil => rfl
  | cons a l ih =>
    rw [List.reverse_cons, List.mapM_append, ih, List.mapM_cons]
    cases h1 : f a with
    | none => cases h2 : l.mapM f <;> simp [h1, h2]
    | some b => cases h2 : l.mapM f <;> simp [h1, h2]

theorem addAll_reverse (acc gs : List (LayerVec α)) (h : acc.length = gs.length) :
    ((acc.reverse.zip gs).mapM fun q => addPair q.1 q.2).map List.reverse
      = (acc.zip gs.reverse).mapM fun q => addPair q.1 q.2 := by
  have : acc.reverse.zip gs = (acc.zip gs.reverse).reverse := by
    rw [List.zip_eq_zipWith, List.zip_eq_zipWith, List.reverse_zipWith (by simpa using h),
      List.reverse_reverse]
  rw [this, mapM_reverse]
  cases (acc.zip gs.reverse).mapM fun q => addPair q.1 q.2 <;> simp

theorem backGrads_nonprop {rest : List (IOType α × Layer α)} {d dc : List α}
    {gs : List (LayerVec α)} (h : backGrads rest d dc = some gs) :
    List.Forall₂ (fun g p => Layer.propagates (Prod.snd p) = false → g = ([], [])) gs rest := by
  induction rest generalizing d dc gs with
  | nil => cases h; exact .nil
  | cons p rest ih =>
    obtain ⟨prev, l⟩ := p
    simp only [backGrads] at h
    by_cases hp : l.propagates = true
    · rw [if_pos hp] at h
      obtain ⟨r, -, h⟩ := Option.bind_eq_some_iff.mp h
      obtain ⟨gs', h', rfl⟩ := Option.map_eq_some_iff.mp h
      exact .cons (fun h0 => by rw [hp] at h0; cases h0) (ih h')
    · rw [if_neg hp] at h
      obtain ⟨gs', h', rfl⟩ := Option.map_eq_some_iff.mp h
      exact .cons (fun _ => rfl) (ih h')

theorem forall₂_zip_snd {β γ δ : Type} {R : β → γ → Prop} {l : List β} {m : List γ} {k : List δ}
    (h : List.Forall₂ R l m) (hk : k.length = m.length) :
    List.Forall₂ (fun b p => R b (Prod.snd p)) l (k.zip m) := by
  induction h generalizing k with
  | nil => simp
  | cons h _ ih =>
    cases k with
    | nil => simp at hk
    | cons a k => exact .cons h (ih (by simpa using hk))

theorem forall₂_zip_snd' {β γ δ : Type} {R : β → γ → Prop} {l : List β} {m : List γ} {k : List δ}
    (h : List.Forall₂ (fun b p => R b (Prod.snd p)) l (k.zip m)) (hk : k.length = m.length) :
    List.Forall₂ R l m := by
  induction m generalizing k l with
  | nil => simp only [List.zip_nil_right] at h; cases h; exact .nil
  | cons c m ih =>
    cases k with
    | nil => simp at hk
    | cons a k =>
      rw [List.zip_cons_cons] at h
      cases h with
      | cons h t => exact .cons h (ih t (by simpa using hk))

theorem Net.acts_length {n : Net α} {x : IOType α} {acts : List (IOType α)}
    (h : n.collectActs x >>= unwrap = some acts) : acts.length = n.layers.length + 1 := by
  obtain ⟨r, h1, h2⟩ := Option.bind_eq_some_iff.mp h
  by_cases hn : n.layers = []
  · rw [Net.collectActs, if_pos (by simp [hn])] at h1
    cases h1
    cases h2
  · obtain ⟨ys, hc, rfl⟩ := (C44_collect n hn x r).mp h1
    cases h2
    simp [hc.length]

/-- One sample adds its derivatives to the accumulators. -/
theorem Net.sampleStep_eq (n : Net α) (f : LossFunc) (acc : List (LayerVec α))
    (hacc : List.Forall₂ (fun a l => Layer.propagates l = false → a = ([], [])) acc n.layers)
    (p : IOType α × IOType α) :
    Net.sampleStep n f acc p
      = (sampleGrads n f p).bind fun gs => (acc.zip gs).mapM fun q => addPair q.1 q.2 := by
  unfold Net.sampleStep sampleGrads
  simp only [Option.bind_eq_bind]
  cases ha : (n.collectActs p.1).bind unwrap with
  | none => rfl
  | some acts =>
    have hl := Net.acts_length ha
    simp only [Option.bind_some]
    cases hh : acts.reverse.head? with
    | none => rfl
    | some pred =>
      simp only [Option.bind_some]
      cases hd : unwrap (CplxOps.dLoss f p.2 pred) with
      | none => rfl
      | some dlda =>
        simp only [Option.bind_some]
        have hlen : (acts.reverse.tail.zip n.layers.reverse).length = n.layers.length := by
          simp [hl]
        have e := Net.backLoop_eq (acts.reverse.tail.zip n.layers.reverse) dlda
          (dlda.map CplxOps.conj) acc.reverse [] (forall₂_zip_snd
            (R := fun a l => Layer.propagates l = false → a = ([], []))
            (List.forall₂_reverse_iff.mpr hacc) (by simp [hl]))
        rw [List.reverse_reverse, List.append_nil, hlen] at e
        rw [e, Option.bind_map]
        cases hb : backGrads (acts.reverse.tail.zip n.layers.reverse) dlda
            (dlda.map CplxOps.conj) with
        | none => rfl
        | some gs =>
          have hgl := backGrads_length hb
          simp only [Option.bind_some, Function.comp_apply, List.append_nil]
          exact addAll_reverse acc gs (by rw [hgl, hlen, hacc.length_eq])

/-- The derivatives of one sample: one per layer, empty for layers without propagation. -/
theorem sampleGrads_nonprop {n : Net α} {f : LossFunc} {p : IOType α × IOType α}
    {gs : List (LayerVec α)} (h : sampleGrads n f p = some gs) :
    List.Forall₂ (fun g l => Layer.propagates l = false → g = ([], [])) gs n.layers := by
  unfold sampleGrads at h
  obtain ⟨acts, ha, h⟩ := Option.bind_eq_some_iff.mp h
  obtain ⟨pred, -, h⟩ := Option.bind_eq_some_iff.mp h
  obtain ⟨dlda, -, h⟩ := Option.bind_eq_some_iff.mp h
  obtain ⟨gs', hb, rfl⟩ := Option.map_eq_some_iff.mp h
  have hl := Net.acts_length ha
  have := forall₂_zip_snd' (R := fun g l => Layer.propagates l = false → g = ([], []))
    (backGrads_nonprop hb) (by simp [hl])
  exact List.forall₂_reverse_iff.mp (by rw [List.reverse_reverse]; exact this)

end

theorem LayerVec.Fits.nonprop {g : LayerVec α} {l : Layer α} (h : g.Fits l)
    (hl : l.propagates = false) : g = ([], []) := by
  unfold LayerVec.Fits at h
  rw [if_neg (by simp [hl])] at h
  exact h

theorem Net.initAcc_fits [CplxOps α P] (l : Layer α) : LayerVec.Fits (Net.initAcc l) l := by
  unfold LayerVec.Fits Net.initAcc
  by_cases h : l.propagates = true
  · rw [if_pos h, if_pos h]; simp
  · rw [if_neg h, if_neg h]

section exact
variable [CplxOps α P] [CommRing α] [LawfulOps α]

theorem addSliceMut_exact (a b : List α) (h : a.length = b.length) :
    unwrap (addSliceMut a b) = some (List.zipWith (· + ·) a b) := by
  unfold addSliceMut
  rw [if_neg (by simpa using h), zipUpd_eq_zipWith _ _ _ h]
  simp only [unwrap]
  congr 2
  funext x y
  exact LawfulOps.addAssign_eq x y

theorem addPair_fits {a g : LayerVec α} {l : Layer α} (ha : a.Fits l) (hg : g.Fits l) :
    addPair a g = some (a.add g) := by
  have h : a.1.length = g.1.length ∧ a.2.length = g.2.length := by
    unfold LayerVec.Fits at ha hg
    by_cases hp : l.propagates = true
    · rw [if_pos hp] at ha hg; exact ⟨ha.1.trans hg.1.symm, ha.2.trans hg.2.symm⟩
    · rw [if_neg hp] at ha hg; rw [ha, hg]; simp
  unfold addPair
  rw [addSliceMut_exact _ _ h.1, addSliceMut_exact _ _ h.2]
  rfl

theorem addPair_length {a g b : LayerVec α} (h : addPair a g = some b) :
    a.1.length = g.1.length ∧ a.2.length = g.2.length := by
  unfold addPair addSliceMut at h
  obtain ⟨w, h1, h⟩ := Option.bind_eq_some_iff.mp h
  obtain ⟨v, h2, -⟩ := Option.bind_eq_some_iff.mp h
  constructor
  · by_contra hc; rw [if_pos hc] at h1; cases h1
  · by_contra hc; rw [if_pos hc] at h2; cases h2

theorem LayerVec.add_fits {a g : LayerVec α} {l : Layer α} (ha : a.Fits l) (hg : g.Fits l) :
    (a.add g).Fits l := by
  unfold LayerVec.Fits LayerVec.add at *
  by_cases hp : l.propagates = true
  · rw [if_pos hp] at *; simp [ha.1, ha.2, hg.1, hg.2]
  · rw [if_neg hp] at *; rw [ha, hg]; rfl

theorem addAll_fits {acc gs : List (LayerVec α)} {ls : List (Layer α)}
    (ha : List.Forall₂ LayerVec.Fits acc ls) (hg : List.Forall₂ LayerVec.Fits gs ls) :
    ((acc.zip gs).mapM fun q => addPair q.1 q.2) = some (List.zipWith LayerVec.add acc gs)
      ∧ List.Forall₂ LayerVec.Fits (List.zipWith LayerVec.add acc gs) ls := by
  induction ha generalizing gs with
  | nil => cases hg; exact ⟨rfl, .nil⟩
  | cons h _ ih =>
    cases hg with
    | cons h' t =>
      obtain ⟨h1, h2⟩ := ih t
      refine ⟨?_, .cons (LayerVec.add_fits h h') h2⟩
      rw [List.zip_cons_cons, List.mapM_cons, h1]
      simp only [addPair_fits h h']
      rfl

theorem addAll_fits_of {acc gs acc' : List (LayerVec α)} {ls : List (Layer α)}
    (ha : List.Forall₂ LayerVec.Fits acc ls)
    (hg : List.Forall₂ (fun g l => Layer.propagates l = false → g = ([], [])) gs ls)
    (h : ((acc.zip gs).mapM fun q => addPair q.1 q.2) = some acc') :
    List.Forall₂ LayerVec.Fits gs ls := by
  induction ha generalizing gs acc' with
  | nil => cases hg; exact .nil
  | @cons a l _ _ h0 _ ih =>
    cases hg with
    | cons h' t =>
      rw [List.zip_cons_cons, List.mapM_cons] at h
      obtain ⟨b, h1, h⟩ := Option.bind_eq_some_iff.mp h
      obtain ⟨r, h2, -⟩ := Option.bind_eq_some_iff.mp h
      refine .cons ?_ (ih t h2)
      obtain ⟨e1, e2⟩ := addPair_length h1
      unfold LayerVec.Fits at h0 ⊢
      by_cases hp : l.propagates = true
      · rw [if_pos hp] at h0 ⊢
        exact ⟨e1.symm.trans h0.1, e2.symm.trans h0.2⟩
      · rw [if_neg hp] at h0 ⊢
        exact h' (by simpa using hp)

/-- Over a batch the accumulators collect the sum of the per-sample derivatives; this returns
exactly when every sample has derivatives of the layers' lengths. -/
theorem Net.samples_iff (n : Net α) (f : LossFunc) (pts : List (IOType α × IOType α))
    (acc acc' : List (LayerVec α)) (hacc : List.Forall₂ LayerVec.Fits acc n.layers) :
    pts.foldlM (Net.sampleStep n f) acc = some acc'
      ↔ ∃ gss : List (List (LayerVec α)),
        List.Forall₂ (fun p gs => sampleGrads n f p = some gs
          ∧ List.Forall₂ LayerVec.Fits gs n.layers) pts gss
        ∧ acc' = gss.foldl (List.zipWith LayerVec.add) acc := by
  induction pts generalizing acc with
  | nil =>
    simp only [List.foldlM_nil]
    constructor
    · intro h; cases h; exact ⟨[], .nil, rfl⟩
    · rintro ⟨gss, h, rfl⟩; cases h; rfl
  | cons p pts ih =>
    rw [List.foldlM_cons, Net.sampleStep_eq n f acc (hacc.imp fun _ _ h => h.nonprop)]
    constructor
    · intro h
      obtain ⟨acc1, h1, h2⟩ := Option.bind_eq_some_iff.mp h
      obtain ⟨gs, h3, h4⟩ := Option.bind_eq_some_iff.mp h1
      have hf := addAll_fits_of hacc (sampleGrads_nonprop h3) h4
      obtain ⟨e, hf'⟩ := addAll_fits hacc hf
      rw [e] at h4
      cases h4
      obtain ⟨gss, h5, h6⟩ := (ih _ hf').mp h2
      exact ⟨gs :: gss, .cons ⟨h3, hf⟩ h5, h6⟩
    · rintro ⟨gss, h, h'⟩
      cases h with
      | cons hd tl =>
        obtain ⟨e, hf'⟩ := addAll_fits hacc hd.2
        rw [hd.1]
        simp only [Option.bind_eq_bind, Option.bind_some, e]
        exact (ih _ hf').mpr ⟨_, tl, h'⟩

theorem Net.initAcc_eq (l : Layer α) : Net.initAcc l = LayerVec.zero l := by
  unfold Net.initAcc LayerVec.zero
  simp only [LawfulOps.zero_eq]

end exact

theorem LayerVec.zero_fits [CommRing α] (l : Layer α) : (LayerVec.zero l).Fits l := by
  unfold LayerVec.Fits LayerVec.zero
  by_cases h : l.propagates = true
  · rw [if_pos h, if_pos h]; simp
  · rw [if_neg h, if_neg h]

theorem addAll_fits' [CommRing α] {acc gs : List (LayerVec α)} {ls : List (Layer α)}
    (ha : List.Forall₂ LayerVec.Fits acc ls) (hg : List.Forall₂ LayerVec.Fits gs ls) :
    List.Forall₂ LayerVec.Fits (List.zipWith LayerVec.add acc gs) ls := by
  induction ha generalizing gs with
  | nil => cases hg; exact .nil
  | cons h _ ih =>
    cases hg with
    | cons h' t => exact .cons (LayerVec.add_fits h h') (ih t)

theorem sumGrads_fits [CommRing α] (n : Net α) (gss : List (List (LayerVec α)))
    (h : ∀ gs ∈ gss, List.Forall₂ LayerVec.Fits gs n.layers) :
    List.Forall₂ LayerVec.Fits (sumGrads n gss) n.layers := by
  unfold sumGrads
  have h0 : List.Forall₂ LayerVec.Fits (n.layers.map LayerVec.zero) n.layers := by
    rw [List.forall₂_map_left_iff, List.forall₂_same]
    exact fun l _ => LayerVec.zero_fits l
  generalize n.layers.map LayerVec.zero = acc at h0
  induction gss generalizing acc with
  | nil => exact h0
  | cons gs gss ih =>
    exact ih (fun g hg => h g (by simp [hg])) _ (addAll_fits' h0 (h gs (by simp)))


/-! ## The update -/

theorem zipUpd_take (upd : α → α → α) (l d : List α) (h : l.length ≤ d.length) :
    zipUpd upd l d = List.zipWith upd l (d.take l.length) := by
  induction l generalizing d with
  | nil => cases d <;> rfl
  | cons a l ih =>
    cases d with
    | nil => simp at h
    | cons b d =>
      simp only [zipUpd, List.length_cons, List.take_succ_cons, List.zipWith_cons_cons]
      rw [ih d (by simpa using h)]

theorem updKernels_eq (upd : α → α → α) (m : α → α) (ks : List (Mat α)) (d : List α)
    (h : d.length = (ks.flatMap Mat.getBody).length) :
    Conv.updKernels upd ks (d.map m) = zipKernels (fun p g => upd p (m g)) ks d := by
  induction ks generalizing d with
  | nil => rfl
  | cons k ks ih =>
    rw [List.flatMap_cons, List.length_append, Mat.getBody] at h
    simp only [Conv.updKernels, zipKernels]
    rw [← List.map_drop, ih _ (by rw [List.length_drop]; omega),
      zipUpd_take _ _ _ (by rw [List.length_map]; omega), ← List.map_take,
      List.zipWith_map_right]

theorem Net.updateLayer_eq [CplxOps α P] (scale : α) (g : LayerVec α) (l : Layer α) (hw : l.WF)
    (hg : g.Fits l) :
    Net.updateLayer scale g l = some (l.zipParams
      (fun p d => BasicOps.subAssign p (CplxOps.conj (BasicOps.mulAssign d scale))) g) := by
  unfold LayerVec.Fits at hg
  unfold Net.updateLayer
  cases l with
  | dense l =>
    rw [if_pos (by rfl)] at hg ⊢
    have h1 : g.1.length = l.weights.body.length := by
      rw [hw.1]; exact hg.1
    have h2 : g.2.length = l.biases.length := hg.2
    simp only [Layer.negConjAdjustment]
    rw [C55_dense_partial l _ _ (by rw [mulMutScalar, List.length_map, h1])
      (by rw [mulMutScalar, List.length_map, h2])]
    simp only [mulMutScalar, List.zipWith_map_right, Option.bind_eq_bind, Option.bind_some, unwrap,
      Layer.zipParams]
  | conv l =>
    rw [if_pos (by rfl)] at hg ⊢
    have h1 : g.1.length = l.entries.length := by
      rw [Conv.entries_length hw.2.2.2.1]; exact hg.1
    have h2 : g.2.length = l.biases.length := hg.2
    simp only [Layer.negConjAdjustment]
    have e : l.negConjAdjustment (mulMutScalar g.1 scale) (mulMutScalar g.2 scale)
        = (.ok (), ⟨l.inputFeaturesLen, ⟨zipKernels (fun p d => BasicOps.subAssign p
          (CplxOps.conj (BasicOps.mulAssign d scale))) l.kernels.body g.1, l.kernels.shape,
            l.kernels.capacity⟩, List.zipWith (fun p d => BasicOps.subAssign p
              (CplxOps.conj (BasicOps.mulAssign d scale))) l.biases g.2, l.func⟩) := by
      unfold Conv.negConjAdjustment
      rw [if_neg, if_neg]
      · simp only [mulMutScalar]
        rw [updKernels_eq _ _ _ _ h1, zipUpd_eq_zipWith _ _ _ (by rw [List.length_map, h2]),
          List.zipWith_map_right]
      · rw [mulMutScalar, List.length_map]; exact not_not.mpr hg.1
      · rw [mulMutScalar, List.length_map]; exact not_not.mpr hg.2
    rw [e]
    rfl
  | reduce l => rfl
  | flatten l => rfl

theorem Net.updateAll_eq [CplxOps α P] (scale : α) (acc : List (LayerVec α)) (ls : List (Layer α))
    (hw : ∀ l ∈ ls, l.WF) (hacc : List.Forall₂ LayerVec.Fits acc ls) :
    (acc.zip ls).mapM (fun p => Net.updateLayer scale p.1 p.2)
      = some (List.zipWith (Layer.zipParams
        (fun p d => BasicOps.subAssign p (CplxOps.conj (BasicOps.mulAssign d scale)))) ls acc) := by
  induction hacc with
  | nil => rfl
  | cons h _ ih =>
    rw [List.zip_cons_cons, List.mapM_cons, ih fun l hl => hw l (by simp [hl]),
      Net.updateLayer_eq scale _ _ (hw _ (by simp)) h]
    rfl

/-! ## C50 the training step -/

/-- C50 for any commutative arithmetic: a training call on two or more well-formed layers returns
exactly when every point has derivatives of the layers' lengths and the learning rate can be divided
by the number of inputs; then every parameter `p` has become `p -= conj(S *= lr/B)`, where `S` is
the sum of its derivatives over the batch. `*=` and `-=` are the code's own operations. -/
theorem C50_step [CplxOps α P] [CommRing α] [LawfulOps α] (n n' : Net α)
    (hl : 2 ≤ n.layers.length) (hw : ∀ l ∈ n.layers, l.WF) (data : Dataset α) (f : LossFunc)
    (lr : α) (r : Except ForwardErr Unit) :
    n.gradientOpt data f lr = some (r, n')
      ↔ r = .ok () ∧ ∃ gss scale,
        List.Forall₂ (fun p gs => sampleGrads n f p = some gs
          ∧ List.Forall₂ LayerVec.Fits gs n.layers) data.points gss
        ∧ BasicOps.div lr (CplxOps.ofUsize data.inputs.length) = some scale
        ∧ n' = n.zipParams (fun p d => p - CplxOps.conj (BasicOps.mulAssign d scale))
          (sumGrads n gss) := by
  have h0 : List.Forall₂ LayerVec.Fits (n.layers.map Net.initAcc) n.layers := by
    rw [List.forall₂_map_left_iff, List.forall₂_same]
    exact fun l _ => Net.initAcc_fits l
  have h0' : n.layers.map Net.initAcc = n.layers.map LayerVec.zero :=
    List.map_congr_left fun l _ => Net.initAcc_eq l
  have hfits : ∀ {gss : List (List (LayerVec α))}, List.Forall₂ (fun p gs =>
      sampleGrads n f p = some gs ∧ List.Forall₂ LayerVec.Fits gs n.layers) data.points gss →
      ∀ gs ∈ gss, List.Forall₂ LayerVec.Fits gs n.layers := by
    intro gss h
    generalize data.points = pts at h
    induction h with
    | nil => simp
    | cons h _ ih => intro gs hg; rcases List.mem_cons.mp hg with rfl | hg; exacts [h.2, ih gs hg]
  unfold Net.gradientOpt
  rw [if_neg (by omega)]
  simp only [Option.bind_eq_bind]
  constructor
  · intro h
    obtain ⟨acc, h1, h⟩ := Option.bind_eq_some_iff.mp h
    obtain ⟨scale, h2, h⟩ := Option.bind_eq_some_iff.mp h
    obtain ⟨ls, h3, h⟩ := Option.bind_eq_some_iff.mp h
    cases h
    obtain ⟨gss, h4, rfl⟩ := (Net.samples_iff n f _ _ _ h0).mp h1
    rw [h0'] at h3
    have e := Net.updateAll_eq scale _ _ hw (sumGrads_fits n gss (hfits h4))
    unfold sumGrads at e
    rw [e] at h3
    cases h3
    refine ⟨rfl, gss, scale, h4, h2, ?_⟩
    simp only [LawfulOps.subAssign_eq]
    rfl
  · rintro ⟨rfl, gss, scale, h4, h2, rfl⟩
    rw [(Net.samples_iff n f _ _ _ h0).mpr ⟨gss, h4, rfl⟩, h2, h0']
    simp only [Option.bind_some]
    have e := Net.updateAll_eq scale _ _ hw (sumGrads_fits n gss (hfits h4))
    unfold sumGrads at e
    rw [e]
    simp only [LawfulOps.subAssign_eq, Option.bind_some]
    rfl

/-! ## C51 the order of the batch -/

theorem zipWith_add_right_comm [CommRing α] (a b c : List α) :
    List.zipWith (· + ·) (List.zipWith (· + ·) a b) c
      = List.zipWith (· + ·) (List.zipWith (· + ·) a c) b := by
  induction a generalizing b c with
  | nil => simp
  | cons x a ih =>
    cases b with
    | nil => cases c <;> simp
    | cons y b =>
      cases c with
      | nil => simp
      | cons z c => simp only [List.zipWith_cons_cons, ih b c, add_right_comm x y z]

instance [CommRing α] : RightCommutative (List.zipWith (LayerVec.add (α := α))) where
  right_comm a b c := by
    induction a generalizing b c with
    | nil => simp
    | cons x a ih =>
      cases b with
      | nil => cases c <;> simp
      | cons y b =>
        cases c with
        | nil => simp
        | cons z c =>
          simp only [List.zipWith_cons_cons, ih b c]
          congr 1
          simp only [LayerVec.add, zipWith_add_right_comm]

theorem forall₂_perm {β γ : Type} {R : β → γ → Prop} {l l' : List β} (h : l.Perm l') {m : List γ}
    (hm : List.Forall₂ R l m) : ∃ m', m.Perm m' ∧ List.Forall₂ R l' m' := by
  induction h generalizing m with
  | nil => exact ⟨m, .refl _, hm⟩
  | cons x _ ih =>
    cases hm with
    | cons h t =>
      obtain ⟨m', h1, h2⟩ := ih t
      exact ⟨_, h1.cons _, .cons h h2⟩
  | swap x y l =>
    cases hm with
    | cons h t =>
      cases t with
      | cons h' t => exact ⟨_, .swap _ _ _, .cons h' (.cons h t)⟩
  | trans _ _ ih1 ih2 =>
    obtain ⟨m1, h1, h2⟩ := ih1 hm
    obtain ⟨m2, h3, h4⟩ := ih2 h2
    exact ⟨m2, h1.trans h3, h4⟩

/-- C51. Permuting the points of the batch changes neither the parameters after a training call nor
whether it panics or what it returns. -/
theorem C51_permutation [CplxOps α P] [CommRing α] [LawfulOps α] (n : Net α)
    (hw : ∀ l ∈ n.layers, l.WF) (data data' : Dataset α) (h : data.points.Perm data'.points)
    (hB : data.inputs.length = data'.inputs.length) (f : LossFunc) (lr : α) :
    n.gradientOpt data f lr = n.gradientOpt data' f lr := by
  by_cases hl : n.layers.length ≤ 1
  · unfold Net.gradientOpt; rw [if_pos hl, if_pos hl]
  · have key : ∀ d d' : Dataset α, d.points.Perm d'.points →
        d.inputs.length = d'.inputs.length → ∀ p, n.gradientOpt d f lr = some p →
          n.gradientOpt d' f lr = some p := by
      rintro d d' hp hB ⟨r, n'⟩ h
      rw [C50_step n n' (by omega) hw] at h ⊢
      obtain ⟨rfl, gss, scale, h1, h2, rfl⟩ := h
      obtain ⟨gss', h3, h4⟩ := forall₂_perm hp h1
      refine ⟨rfl, gss', scale, h4, by rw [← hB]; exact h2, ?_⟩
      unfold sumGrads
      rw [h3.foldl_eq]
    cases h1 : n.gradientOpt data f lr with
    | some p => exact (key _ _ h hB p h1).symm
    | none =>
      cases h2 : n.gradientOpt data' f lr with
      | none => rfl
      | some p => rw [key _ _ h.symm hB.symm p h2] at h1; cases h1

end Renplex
