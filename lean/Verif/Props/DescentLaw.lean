import Verif.Props.NetGradRefuted
import Verif.Props.Loss
/-!
# C53: a small training step decreases the error
-/

namespace Renplex
open Filter Topology ComplexConjugate
variable {w : Width}

/-! ### Linearity of the pairing -/

theorem pairing_add {a b : List (Cf w ℝ)} (h : a.length = b.length) (δ : List (Cf w ℝ)) :
    pairing (List.zipWith (· + ·) a b) δ = pairing a δ + pairing b δ := by
  induction a generalizing b δ with
  | nil => cases b with
    | nil => simp [pairing]
    | cons => simp at h
  | cons x a ih => cases b with
    | nil => simp at h
    | cons y b => cases δ with
      | nil => simp [pairing]
      | cons d δ =>
        rw [List.zipWith_cons_cons, pairing_cons, pairing_cons, pairing_cons,
          ih (by simpa using h), Cf.toC_hom_add]
        ring

theorem pairAll_add {a b : List (LayerVec (Cf w ℝ))} {ls : List (Layer (Cf w ℝ))}
    (ha : List.Forall₂ LayerVec.Fits a ls) (hb : List.Forall₂ LayerVec.Fits b ls)
    (δ : List (LayerVec (Cf w ℝ))) :
    pairAll (List.zipWith LayerVec.add a b) δ = pairAll a δ + pairAll b δ := by
  induction ha generalizing b δ with
  | nil => cases hb; simp [pairAll]
  | cons h t ih =>
    rename_i x l a ls
    cases hb with
    | cons h' t' =>
      rename_i y b
      cases δ with
      | nil => simp [pairAll]
      | cons d δ =>
        have hl : x.1.length = y.1.length ∧ x.2.length = y.2.length := by
          unfold LayerVec.Fits at h h'
          split at h
          · rw [if_pos (by assumption)] at h'
            exact ⟨h.1.trans h'.1.symm, h.2.trans h'.2.symm⟩
          · rw [if_neg (by assumption)] at h'
            rw [h, h']; simp
        have := ih t' δ
        simp only [pairAll, List.zipWith_cons_cons, List.sum_cons] at this ⊢
        rw [this]
        simp only [LayerVec.add, pairing_add hl.1, pairing_add hl.2]
        ring

theorem pairing_replicate_zero (k : Nat) (δ : List (Cf w ℝ)) :
    pairing (List.replicate k 0) δ = 0 := by
  induction k generalizing δ with
  | zero => simp [pairing]
  | succ k ih => cases δ with
    | nil => simp [pairing]
    | cons d δ => rw [List.replicate_succ, pairing_cons, ih, Cf.toC_hom_zero]; simp

theorem pairAll_zero (ls : List (Layer (Cf w ℝ))) (δ : List (LayerVec (Cf w ℝ))) :
    pairAll (ls.map LayerVec.zero) δ = 0 := by
  induction ls generalizing δ with
  | nil => simp [pairAll]
  | cons l ls ih => cases δ with
    | nil => simp [pairAll]
    | cons d δ =>
      have := ih δ
      simp only [pairAll, List.map_cons, List.zipWith_cons_cons, List.sum_cons] at this ⊢
      rw [this]
      unfold LayerVec.zero
      split <;> simp [pairing_replicate_zero]
      simp [pairing]

theorem pairAll_sum (n : Net (Cf w ℝ)) (gss : List (List (LayerVec (Cf w ℝ))))
    (h : ∀ gs ∈ gss, List.Forall₂ LayerVec.Fits gs n.layers) (δ : List (LayerVec (Cf w ℝ))) :
    pairAll (sumGrads n gss) δ = (gss.map fun gs => pairAll gs δ).sum := by
  have key : ∀ (gss : List (List (LayerVec (Cf w ℝ)))) (acc : List (LayerVec (Cf w ℝ))),
      List.Forall₂ LayerVec.Fits acc n.layers →
      (∀ gs ∈ gss, List.Forall₂ LayerVec.Fits gs n.layers) →
      pairAll (gss.foldl (List.zipWith LayerVec.add) acc) δ
        = pairAll acc δ + (gss.map fun gs => pairAll gs δ).sum := by
    intro gss
    induction gss with
    | nil => intro acc _ _; simp
    | cons gs gss ih =>
      intro acc ha h
      rw [List.foldl_cons, ih _ (addAll_fits' ha (h gs (by simp))) fun g hg => h g (by simp [hg]),
        pairAll_add ha (h gs (by simp)), List.map_cons, List.sum_cons, add_assoc]
  have h0 : List.Forall₂ LayerVec.Fits (n.layers.map LayerVec.zero) n.layers := by
    rw [List.forall₂_map_left_iff, List.forall₂_same]
    exact fun l _ => LayerVec.zero_fits l
  unfold sumGrads
  rw [key gss _ h0 h, pairAll_zero, zero_add]

/-! ### The direction of the step -/

/-- The image of a vector under an entry-wise map. -/
def LayerVec.map {α : Type} (m : α → α) (g : LayerVec α) : LayerVec α := (g.1.map m, g.2.map m)

theorem LayerVec.map_fits {α : Type} {m : α → α} {g : LayerVec α} {l : Layer α} (h : g.Fits l) :
    (g.map m).Fits l := by
  unfold LayerVec.Fits at *
  split at h
  · rw [if_pos (by assumption)]; simpa [LayerVec.map] using h
  · rw [if_neg (by assumption), h]; rfl

theorem zipKernels_map {α : Type} (upd : α → α → α) (m : α → α) (ks : List (Mat α)) (d : List α) :
    zipKernels upd ks (d.map m) = zipKernels (fun p x => upd p (m x)) ks d := by
  induction ks generalizing d with
  | nil => rfl
  | cons k ks ih =>
    rw [zipKernels, zipKernels, ← List.map_take, ← List.map_drop, ih, List.zipWith_map_right]

theorem Layer.zipParams_map {α : Type} (upd : α → α → α) (m : α → α) (l : Layer α)
    (d : LayerVec α) : l.zipParams upd (d.map m) = l.zipParams (fun p x => upd p (m x)) d := by
  cases l with
  | dense l => simp only [Layer.zipParams, LayerVec.map, List.zipWith_map_right]
  | conv l => simp only [Layer.zipParams, LayerVec.map, List.zipWith_map_right, zipKernels_map]
  | reduce l => rfl
  | flatten l => rfl

theorem Net.zipParams_map {α : Type} (upd : α → α → α) (m : α → α) (n : Net α)
    (ds : List (LayerVec α)) :
    n.zipParams upd (ds.map (LayerVec.map m)) = n.zipParams (fun p x => upd p (m x)) ds := by
  simp only [Net.zipParams, List.zipWith_map_right, Layer.zipParams_map]

theorem pairing_self (c : ℝ) (g : List (Cf w ℝ)) :
    pairing g (g.map fun d => Cf.ofC (-(c * conj d.toC)))
      = ((-(c * (g.map fun z => ‖z.toC‖ ^ 2).sum) : ℝ) : ℂ) := by
  induction g with
  | nil => simp [pairing]
  | cons a g ih =>
    rw [List.map_cons, pairing_cons, ih, List.map_cons, List.sum_cons, Cf.toC_ofC]
    have : a.toC * conj a.toC = ((‖a.toC‖ ^ 2 : ℝ) : ℂ) := by
      rw [Complex.mul_conj, Complex.normSq_eq_norm_sq]
    push_cast at this ⊢
    linear_combination (-(c : ℂ)) * this

theorem pairAll_self (c : ℝ) (gs : List (LayerVec (Cf w ℝ))) :
    pairAll gs (gs.map (LayerVec.map fun d => Cf.ofC (-(c * conj d.toC))))
      = ((-(c * normSqAll gs) : ℝ) : ℂ) := by
  induction gs with
  | nil => simp [pairAll, normSqAll]
  | cons g gs ih =>
    simp only [pairAll, normSqAll, List.map_cons, List.zipWith_cons_cons, List.sum_cons] at ih ⊢
    rw [ih]
    simp only [LayerVec.map, pairing_self]
    push_cast
    ring

theorem normSqAll_pos {gs : List (LayerVec (Cf w ℝ))}
    (h : ∃ g ∈ gs, ∃ z ∈ g.1 ++ g.2, z ≠ 0) : 0 < normSqAll gs := by
  have hz : ∀ z : Cf w ℝ, z ≠ 0 → 0 < ‖z.toC‖ ^ 2 := by
    intro z hz
    have : z.toC ≠ 0 := fun h => hz (Cf.toC_inj.mp (h.trans Cf.toC_hom_zero.symm))
    positivity
  have h0 : ∀ l : List (Cf w ℝ), 0 ≤ (l.map fun z => ‖z.toC‖ ^ 2).sum := by
    intro l
    refine List.sum_nonneg ?_
    simp only [List.mem_map]
    rintro _ ⟨z, -, rfl⟩
    positivity
  have h1 : ∀ l : List (Cf w ℝ), (∃ z ∈ l, z ≠ 0) → 0 < (l.map fun z => ‖z.toC‖ ^ 2).sum := by
    intro l
    induction l with
    | nil => rintro ⟨z, hz, -⟩; cases hz
    | cons a l ih =>
      rintro ⟨z, hm, hne⟩
      rw [List.map_cons, List.sum_cons]
      have := h0 l
      rcases List.mem_cons.mp hm with rfl | hm
      · linarith [hz z hne]
      · have := ih ⟨z, hm, hne⟩
        positivity
  unfold normSqAll
  induction gs with
  | nil => obtain ⟨g, hg, -⟩ := h; cases hg
  | cons a gs ih =>
    rw [List.map_cons, List.sum_cons]
    have hn : 0 ≤ (gs.map fun g => (g.1.map fun z => ‖z.toC‖ ^ 2).sum
        + (g.2.map fun z => ‖z.toC‖ ^ 2).sum).sum := by
      refine List.sum_nonneg ?_
      simp only [List.mem_map]
      rintro _ ⟨g, -, rfl⟩
      exact add_nonneg (h0 _) (h0 _)
    obtain ⟨g, hg, z, hm, hne⟩ := h
    rcases List.mem_cons.mp hg with rfl | hg
    · rcases List.mem_append.mp hm with hm | hm
      · linarith [h1 g.1 ⟨z, hm, hne⟩, h0 g.2]
      · linarith [h1 g.2 ⟨z, hm, hne⟩, h0 g.1]
    · linarith [ih ⟨g, hg, z, hm, hne⟩, h0 a.1, h0 a.2]

/-! ### The error along a direction -/

theorem batch_curve {n : Net (Cf w ℝ)} {pts : List (IOType (Cf w ℝ) × List (Cf w ℝ))}
    {gss : List (List (LayerVec (Cf w ℝ)))}
    (h : List.Forall₂ (fun q gs => IsNetGradient n q.1 q.2 gs) pts gss)
    {δs : List (LayerVec (Cf w ℝ))} (hδ : List.Forall₂ LayerVec.Fits δs n.layers) :
    ∃ E : ℝ → ℝ, (∀ᶠ s in 𝓝 (0 : ℝ), BatchError (n.move δs s) pts (E s))
      ∧ HasDerivAt E (2 * ((gss.map fun gs => pairAll gs δs).sum).re) 0 := by
  induction h with
  | nil =>
    exact ⟨fun _ => 0, Eventually.of_forall fun s => ⟨[], .nil, rfl⟩, by simpa using hasDerivAt_const _ _⟩
  | cons hq _ ih =>
    obtain ⟨E, h1, h2⟩ := ih
    obtain ⟨L, k1, k2⟩ := hq.2 δs hδ
    refine ⟨fun s => L s + E s, ?_, ?_⟩
    · filter_upwards [h1, k1] with s hs ks
      obtain ⟨ps, hs1, hs2⟩ := hs
      obtain ⟨p, hp1, hp2⟩ := ks
      exact ⟨p :: ps, .cons hp1 hs1, by rw [List.zipWith_cons_cons, List.sum_cons, ← hp2, ← hs2]⟩
    · refine (k2.add h2).congr_deriv ?_
      rw [List.map_cons, List.sum_cons, Complex.add_re]
      ring

theorem BatchError.unique {n : Net (Cf w ℝ)} {pts : List (IOType (Cf w ℝ) × List (Cf w ℝ))}
    {e e' : ℝ} (h : BatchError n pts e) (h' : BatchError n pts e') : e = e' := by
  obtain ⟨ps, h1, rfl⟩ := h
  obtain ⟨ps', h2, rfl⟩ := h'
  congr 2
  induction h1 generalizing ps' with
  | nil => cases h2; rfl
  | cons a t ih =>
    cases h2 with
    | cons a' t' =>
      rw [a] at a'
      cases a'
      rw [ih _ t']

/-- A training call with a real rate moves along minus the conjugate of the summed derivatives. -/
theorem step_move {n : Net (Cf w ℝ)} (hl : 2 ≤ n.layers.length) (hw : ∀ l ∈ n.layers, l.WF)
    {pts : List (IOType (Cf w ℝ) × List (Cf w ℝ))} (hB : pts ≠ []) (f : LossFunc)
    {gss : List (List (LayerVec (Cf w ℝ)))}
    (h : List.Forall₂ (fun q gs => sampleGrads n f (q.1, .scalar q.2) = some gs
      ∧ List.Forall₂ LayerVec.Fits gs n.layers) pts gss) (r : ℝ) :
    n.gradientOpt ⟨pts.map (·.1), pts.map fun q => .scalar q.2⟩ f ⟨r, 0⟩
      = some (.ok (), n.move ((sumGrads n gss).map (LayerVec.map fun d =>
          Cf.ofC (-(((1 / pts.length : ℝ) : ℂ) * conj d.toC)))) r) := by
  refine (C50_partial n _ hl hw ⟨pts.map (·.1), pts.map fun q => .scalar q.2⟩ (by simpa using hB) f
    ⟨r, 0⟩ rfl (.ok ())).mpr ⟨rfl, gss, ?_, ?_⟩
  · have : (⟨pts.map (·.1), pts.map fun q => .scalar q.2⟩ : Dataset (Cf w ℝ)).points
        = pts.map fun q => (q.1, IOType.scalar q.2) := by
      simp [Dataset.points, List.zip_map']
    rw [this, List.forall₂_map_left_iff]
    exact h
  · rw [Net.move, Net.zipParams_map]
    congr 1
    funext p d
    congr 1
    have hr : (⟨r, 0⟩ : Cf w ℝ).toC = (r : ℂ) := rfl
    simp only [List.length_map, Cf.toC_ofC, hr, map_mul, map_div₀, Complex.conj_ofReal, map_natCast]
    push_cast
    ring

/-- C53, the part that holds. For a network of two or more layers and a non-empty batch such that
for every point back-propagation returns the gradient of that point's squared error, let `G` be the
sum of these derivatives. Every training call with a real rate `r` returns; the squared error of the
trained network on the batch is, as a function of `r`, differentiable at 0 with derivative
`-(2/B)·‖G‖²`; and if `G` has a non-zero entry it is strictly smaller than the error before training
for all small `r > 0`. By `C48_partial` the hypothesis holds for dense networks (missing: values at
which an activation derivative of the code is wrong). -/
theorem C53_partial (n : Net (Cf w ℝ)) (hl : 2 ≤ n.layers.length) (hw : ∀ l ∈ n.layers, l.WF)
    (pts : List (IOType (Cf w ℝ) × List (Cf w ℝ))) (hB : pts ≠ []) (f : LossFunc)
    (gss : List (List (LayerVec (Cf w ℝ))))
    (h : List.Forall₂ (fun q gs => sampleGrads n f (q.1, .scalar q.2) = some gs
      ∧ IsNetGradient n q.1 q.2 gs) pts gss) :
    ∃ (n' : ℝ → Net (Cf w ℝ)) (E : ℝ → ℝ),
      (∀ r, n.gradientOpt ⟨pts.map (·.1), pts.map fun q => .scalar q.2⟩ f ⟨r, 0⟩
        = some (.ok (), n' r))
      ∧ (∀ᶠ r in 𝓝 (0 : ℝ), BatchError (n' r) pts (E r))
      ∧ BatchError n pts (E 0)
      ∧ HasDerivAt E (-(2 / pts.length) * normSqAll (sumGrads n gss)) 0
      ∧ ((∃ g ∈ sumGrads n gss, ∃ z ∈ g.1 ++ g.2, z ≠ 0) → ∀ᶠ r in 𝓝[>] (0 : ℝ), E r < E 0) := by
  have hfit : ∀ gs ∈ gss, List.Forall₂ LayerVec.Fits gs n.layers := by
    intro gs hg
    clear hB
    induction h with
    | nil => cases hg
    | cons a t ih =>
      rcases List.mem_cons.mp hg with rfl | hg
      · exact a.2.1
      · exact ih hg
  have hG := sumGrads_fits n gss hfit
  set m : Cf w ℝ → Cf w ℝ := fun d => Cf.ofC (-(((1 / pts.length : ℝ) : ℂ) * conj d.toC)) with hm
  have hδ : List.Forall₂ LayerVec.Fits ((sumGrads n gss).map (LayerVec.map m)) n.layers := by
    rw [List.forall₂_map_left_iff]
    exact hG.imp fun _ _ h => LayerVec.map_fits h
  obtain ⟨E, h1, h2⟩ := batch_curve (h.imp fun _ _ h => h.2) hδ
  rw [← pairAll_sum n gss hfit, hm, pairAll_self, Complex.ofReal_re] at h2
  have h3 : HasDerivAt E (-(2 / pts.length) * normSqAll (sumGrads n gss)) 0 :=
    h2.congr_deriv (by ring)
  have h0 : n.move ((sumGrads n gss).map (LayerVec.map m)) 0 = n := by
    have : ∀ (ls : List (Layer (Cf w ℝ))) (ds : List (LayerVec (Cf w ℝ))),
        (∀ l ∈ ls, l.WF) → List.Forall₂ LayerVec.Fits ds ls →
        List.zipWith (Layer.zipParams fun p d => Cf.ofC (p.toC + ((0 : ℝ) : ℂ) * d.toC)) ls ds
          = ls := by
      intro ls ds hw h
      induction h with
      | nil => rfl
      | cons a t ih =>
        rename_i d l ds ls
        rw [List.zipWith_cons_cons, ih fun l hl => hw l (by simp [hl])]
        have e : (fun p d : Cf w ℝ => (Cf.ofC (p.toC + ((0 : ℝ) : ℂ) * d.toC) : Cf w ℝ))
            = fun p d => (fun p _ => p) p ((fun _ => (0 : Cf w ℝ)) d) := by
          funext p d; simp
        rw [e]
        refine congrArg (· :: ls) ((Layer.zipParams_map (fun p _ => p) (fun _ => 0) l d).symm.trans
          (Layer.zipParams_id (fun _ => rfl) (hw l (by simp)) (LayerVec.map_fits a) ?_ ?_))
        · intro x hx; simp only [LayerVec.map, List.mem_map] at hx; obtain ⟨_, _, rfl⟩ := hx; rfl
        · intro x hx; simp only [LayerVec.map, List.mem_map] at hx; obtain ⟨_, _, rfl⟩ := hx; rfl
    show Net.mk _ = n
    rw [this n.layers _ hw hδ]
  refine ⟨fun r => n.move ((sumGrads n gss).map (LayerVec.map m)) r, E,
    fun r => step_move hl hw hB f (h.imp fun _ _ h => ⟨h.1, h.2.1⟩) r, h1, ?_, h3, ?_⟩
  · have := h1.self_of_nhds
    rwa [h0] at this
  · intro hne
    have hpos := normSqAll_pos hne
    have hlen : (0 : ℝ) < pts.length := by exact_mod_cast List.length_pos_iff.mpr hB
    have hneg : -(2 / pts.length) * normSqAll (sumGrads n gss) < 0 := by
      have : 0 < 2 / (pts.length : ℝ) := by positivity
      nlinarith
    have ht := (hasDerivAt_iff_tendsto_slope.mp h3).eventually (gt_mem_nhds hneg)
    have ht' : ∀ᶠ r in 𝓝[>] (0 : ℝ), slope E 0 r < 0 :=
      ht.filter_mono (nhdsWithin_mono _ fun x hx => ne_of_gt hx)
    filter_upwards [ht', self_mem_nhdsWithin] with r hr hr0
    rw [slope_def_field, sub_zero] at hr
    have hr1 : (0 : ℝ) < r := hr0
    rw [div_neg_iff] at hr
    rcases hr with hr | hr <;> linarith

/-- C53 for dense networks, all hypotheses spelled out. -/
theorem C53_partial_dense (n : Net (Cf w ℝ)) (hl : 2 ≤ n.layers.length)
    (hw : ∀ l ∈ n.layers, l.WF) (hk : ∀ l ∈ n.layers, l.DenseOrFlatten)
    (pts : List (IOType (Cf w ℝ) × List (Cf w ℝ))) (hB : pts ≠ []) (f : LossFunc)
    (hp : ∀ q ∈ pts, ∃ σ acts p, q.1.HasSize σ ∧ n.collectActs q.1 = some (.ok acts)
      ∧ n.forward q.1 = some (.ok (.scalar p)) ∧ q.2.length = p.length
      ∧ ∀ a ∈ acts.zip n.layers, a.2.ActsRight a.1) :
    ∃ (gss : List (List (LayerVec (Cf w ℝ)))) (n' : ℝ → Net (Cf w ℝ)) (E : ℝ → ℝ),
      List.Forall₂ (fun q gs => sampleGrads n f (q.1, .scalar q.2) = some gs) pts gss
      ∧ (∀ r, n.gradientOpt ⟨pts.map (·.1), pts.map fun q => .scalar q.2⟩ f ⟨r, 0⟩
        = some (.ok (), n' r))
      ∧ (∀ᶠ r in 𝓝 (0 : ℝ), BatchError (n' r) pts (E r))
      ∧ BatchError n pts (E 0)
      ∧ HasDerivAt E (-(2 / pts.length) * normSqAll (sumGrads n gss)) 0
      ∧ ((∃ g ∈ sumGrads n gss, ∃ z ∈ g.1 ++ g.2, z ≠ 0) → ∀ᶠ r in 𝓝[>] (0 : ℝ), E r < E 0) := by
  have hn : n.layers ≠ [] := by intro h; rw [h] at hl; simp at hl
  have : ∃ gss, List.Forall₂ (fun q gs => sampleGrads n f (q.1, .scalar q.2) = some gs
      ∧ IsNetGradient n q.1 q.2 gs) pts gss := by
    clear hB
    induction pts with
    | nil => exact ⟨[], .nil⟩
    | cons q pts ih =>
      obtain ⟨gss, h⟩ := ih fun q hq => hp q (by simp [hq])
      obtain ⟨σ, acts, p, h1, h2, h3, h4, h5⟩ := hp q (by simp)
      obtain ⟨gs, hg⟩ := C48_partial n hn f hw hk q.1 σ h1 acts h2 p q.2 h3 h4 h5
      exact ⟨gs :: gss, .cons hg h⟩
  obtain ⟨gss, h⟩ := this
  obtain ⟨n', E, hE⟩ := C53_partial n hl hw pts hB f gss h
  exact ⟨gss, n', E, h.imp fun _ _ h => h.1, hE⟩

/-- The hypotheses of C53 can be met, with a gradient that is not zero: two identity layers that
should map 1 to 0. -/
example : ∃ (n' : ℝ → Net (Cf .w32 ℝ)) (E : ℝ → ℝ),
    (∀ r, exTwo.gradientOpt ⟨[.scalar [1]], [.scalar [0]]⟩ .meanSquare ⟨r, 0⟩ = some (.ok (), n' r))
      ∧ (∀ᶠ r in 𝓝 (0 : ℝ), BatchError (n' r) [(.scalar [1], [0])] (E r))
      ∧ ∀ᶠ r in 𝓝[>] (0 : ℝ), E r < E 0 := by
  obtain ⟨gs, h1, h2⟩ := exActNet_gradient (w := .w32) .none none_right .meanSquare 1 0
  have h1' : sampleGrads exTwo .meanSquare (.scalar [1], .scalar [0]) = some gs := h1
  obtain ⟨n', E, k1, k2, -, -, k3⟩ := C53_partial exTwo (by simp [exTwo]) exTwo_wf
    [(.scalar [1], [0])] (by simp) .meanSquare [gs] (.cons ⟨h1', h2⟩ .nil)
  refine ⟨n', E, k1, k2, k3 ?_⟩
  rw [exTwo_sample] at h1'
  cases h1'
  rw [exTwo_sum]
  refine ⟨_, List.mem_cons_self, _, List.mem_append_left _ List.mem_cons_self, ?_⟩
  rw [sub_zero, conj_one, mul_one]
  exact one_ne_zero

end Renplex
