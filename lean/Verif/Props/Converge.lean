import Verif.Lemmas.TameNet
import Verif.Props.Descent
/-!
# C97: training with a small fixed rate converges to stationary points
-/

namespace Renplex
open Filter Topology ComplexConjugate
variable {w : Width}

/-! ### Bounds -/

theorem exists_norm_bound (m : Nat) (a : Nat → ℂ) : ∃ M, ∀ k < m, ‖a k‖ ≤ M :=
  ⟨∑ k ∈ Finset.range m, ‖a k‖, fun k hk =>
    Finset.single_le_sum (f := fun k => ‖a k‖) (fun _ _ => norm_nonneg _) (Finset.mem_range.mpr hk)⟩

theorem Net.InBall.layer {n : Net (Cf w ℝ)} {R : ℝ} (h : n.InBall R) :
    ∀ l ∈ n.layers, ∀ z ∈ l.params.1 ++ l.params.2, ‖z.toC‖ ≤ R :=
  fun l hl z hz => h l.params (List.mem_map.mpr ⟨l, hl, rfl⟩) z hz

/-- The error of a batch along any line in parameter space is twice differentiable, with bounds that
are the same for all networks of the architecture with parameters in a ball. -/
theorem batch_tame {n : Net (Cf w ℝ)} (hn : n.layers ≠ []) {σ : Size} {u : Nat}
    (hf : FitsChain n.layers σ (.vec u)) (hs : ∀ l ∈ n.layers, l.Regular)
    (pts : List (IOType (Cf w ℝ) × List (Cf w ℝ)))
    (hp : ∀ q ∈ pts, q.1.HasSize σ ∧ q.2.length = u) (R : ℝ) :
    ∃ K, 0 ≤ K ∧ ∀ n' : Net (Cf w ℝ), n.Alike n' → (∀ l ∈ n'.layers, l.WF) → n'.InBall R →
      ∀ δ, 0 ≤ δ → ∀ ds : List (LayerVec (Cf w ℝ)), List.Forall₂ LayerVec.Fits ds n'.layers →
      (∀ d ∈ ds, ∀ z ∈ d.1 ++ d.2, ‖z.toC‖ ≤ δ) →
      ∃ F : ℝ → ℂ, Tame K δ F ∧ ∀ s, BatchError (n'.move ds s) pts (F s).re := by
  have : Nonempty (Cf w ℝ) := ⟨0⟩
  induction pts with
  | nil =>
    refine ⟨0, le_rfl, fun n' _ _ _ δ hδ ds _ _ => ⟨fun _ => 0, Tame.const hδ (by simp), fun s => ?_⟩⟩
    exact ⟨[], .nil, rfl⟩
  | cons q pts ih =>
    obtain ⟨K₁, hK₁, h1⟩ := ih fun q hq => hp q (by simp [hq])
    obtain ⟨hx, ht⟩ := hp q (by simp)
    obtain ⟨a, ha⟩ := hx.exists_flat
    obtain ⟨M, hM⟩ := exists_norm_bound σ.len fun k => (a k).toC
    obtain ⟨T, hT⟩ := exists_range_map q.2
    rw [ht] at hT
    obtain ⟨M', hM'⟩ := exists_norm_bound u fun k => (T k).toC
    obtain ⟨K₂, h2⟩ := chain_tame hf hs R M
    refine ⟨max 0 (u * (4 * ((M' + K₂) * (M' + K₂)))) + K₁, by positivity,
      fun n' hal hw hR δ hδ ds hd hdb => ?_⟩
    obtain ⟨F₁, k1, k2⟩ := h1 n' hal hw hR δ hδ ds hd hdb
    obtain ⟨b, k3, k4⟩ := h2 n'.layers hal hw hR.layer δ hδ ds hd hdb (fun k _ => (a k).toC)
      (fun k hk => Tame.const hδ (hM k hk))
    obtain ⟨F₂, k5, k6⟩ := sqSum_tame k3 hδ hM'
    refine ⟨fun s => F₂ s + F₁ s, (k5.mono hδ (le_max_right _ _)).add k1, fun s => ?_⟩
    obtain ⟨ps, e1, e2⟩ := k2 s
    obtain ⟨Y, e3, e4⟩ := k4 s q.1 (by simpa using ha)
    cases Y with
    | matrix ms => exact absurd e4 id
    | scalar p =>
      have hpe : p = (List.range u).map fun k => Cf.ofC (b k s) := e4
      subst hpe
      refine ⟨((List.range u).map fun k => Cf.ofC (b k s)) :: ps, .cons ?_ e1, ?_⟩
      · rw [Net.forward_eq]
        · exact congrArg _ e3
        · intro h0
          have h4 : (List.zipWith (fun (l : Layer (Cf w ℝ)) d => l.move d s) n'.layers ds).length = 0 := by
            rw [show List.zipWith (fun (l : Layer (Cf w ℝ)) d => l.move d s) n'.layers ds = [] from h0]
            rfl
          rw [List.length_zipWith, ← hd.length_eq, Nat.min_self] at h4
          have h5 := hal.length_eq
          rw [← hd.length_eq, h4] at h5
          exact hn (List.length_eq_zero_iff.mp h5)
      · rw [List.zipWith_cons_cons, List.sum_cons, ← e2, Complex.add_re, ← k6 s, hT]
        rfl

theorem sq_le_normSqAll {gs : List (LayerVec (Cf w ℝ))} {g : LayerVec (Cf w ℝ)} (hg : g ∈ gs)
    {z : Cf w ℝ} (hz : z ∈ g.1 ++ g.2) : ‖z.toC‖ ^ 2 ≤ normSqAll gs := by
  have h0 : ∀ l : List (Cf w ℝ), 0 ≤ (l.map fun z => ‖z.toC‖ ^ 2).sum := by
    intro l
    refine List.sum_nonneg ?_
    simp only [List.mem_map]
    rintro _ ⟨z, -, rfl⟩
    positivity
  have h1 : ∀ {l : List (Cf w ℝ)} {z}, z ∈ l → ‖z.toC‖ ^ 2 ≤ (l.map fun z => ‖z.toC‖ ^ 2).sum := by
    intro l z hz
    refine List.single_le_sum ?_ _ (List.mem_map.mpr ⟨z, hz, rfl⟩)
    simp only [List.mem_map]
    rintro _ ⟨z, -, rfl⟩
    positivity
  have h2 : ‖z.toC‖ ^ 2 ≤ (g.1.map fun z => ‖z.toC‖ ^ 2).sum + (g.2.map fun z => ‖z.toC‖ ^ 2).sum := by
    rcases List.mem_append.mp hz with h | h
    · linarith [h1 h, h0 g.2]
    · linarith [h1 h, h0 g.1]
  refine h2.trans ?_
  refine List.single_le_sum ?_ _ (List.mem_map.mpr ⟨g, hg, rfl⟩)
  simp only [List.mem_map]
  rintro _ ⟨z, -, rfl⟩
  exact add_nonneg (h0 _) (h0 _)

theorem normSqAll_nonneg (gs : List (LayerVec (Cf w ℝ))) : 0 ≤ normSqAll gs := by
  unfold normSqAll
  refine List.sum_nonneg ?_
  simp only [List.mem_map]
  rintro _ ⟨g, -, rfl⟩
  have h0 : ∀ l : List (Cf w ℝ), 0 ≤ (l.map fun z => ‖z.toC‖ ^ 2).sum := by
    intro l
    refine List.sum_nonneg ?_
    simp only [List.mem_map]
    rintro _ ⟨z, -, rfl⟩
    positivity
  exact add_nonneg (h0 _) (h0 _)

theorem BatchError.nonneg {n : Net (Cf w ℝ)} {pts : List (IOType (Cf w ℝ) × List (Cf w ℝ))} {e : ℝ}
    (h : BatchError n pts e) : 0 ≤ e := by
  obtain ⟨ps, -, rfl⟩ := h
  refine List.sum_nonneg ?_
  intro x hx
  obtain ⟨q, -, p, -, rfl⟩ := mem_zipWith hx
  unfold sqSum
  refine List.sum_nonneg ?_
  simp only [List.mem_map]
  rintro _ ⟨z, -, rfl⟩
  positivity

/-! ### Networks of one architecture -/

theorem Net.Alike.regular {n n' : Net (Cf w ℝ)} (h : n.Alike n') (hn : n.Regular) : n'.Regular := by
  have mem : ∀ {a b : List (Layer (Cf w ℝ))}, List.Forall₂ Layer.Alike a b → ∀ l' ∈ b, ∃ l ∈ a,
      l.Alike l' := by
    intro a b hab
    induction hab with
    | nil => simp
    | cons h _ ih =>
      intro l hl
      rcases List.mem_cons.mp hl with rfl | hl
      · exact ⟨_, by simp, h⟩
      · obtain ⟨l', h1, h2⟩ := ih l hl
        exact ⟨l', by simp [h1], h2⟩
  have tl : ∀ {a b : List (Layer (Cf w ℝ))}, List.Forall₂ Layer.Alike a b →
      List.Forall₂ Layer.Alike a.tail b.tail := by
    intro a b hab
    cases hab with
    | nil => exact .nil
    | cons _ t => exact t
  refine ⟨fun l' hl' => ?_, ?_⟩
  · obtain ⟨l, h1, h2⟩ := mem h l' hl'
    exact h2.regular (hn.layers l h1)
  · rcases hn.conv with hc | hc
    · refine .inl fun d hd => ?_
      obtain ⟨l, h1, h2⟩ := mem (tl h) _ hd
      cases l <;> first | exact h2.elim | exact hc _ h1
    · refine .inr fun d hd => ?_
      obtain ⟨l, h1, h2⟩ := mem h _ hd
      cases l <;> first | exact h2.elim | exact h2.2.1.trans (hc _ h1)

theorem FitsChain.alike {ls ls' : List (Layer (Cf w ℝ))} (h : List.Forall₂ Layer.Alike ls ls')
    {σ σ' : Size} (hf : FitsChain ls σ σ') : FitsChain ls' σ σ' := by
  induction hf generalizing ls' with
  | nil s => cases h; exact .nil s
  | cons h1 t ih =>
    cases h with
    | cons ha ht => exact .cons (ha.fits h1) (ih ht)

theorem Layer.Alike.trans {a b c : Layer (Cf w ℝ)} (h : a.Alike b) (h' : b.Alike c) : a.Alike c := by
  cases a <;> cases b <;> first | exact h.elim | skip
  all_goals cases c <;> first | exact h'.elim | skip
  · exact ⟨h'.1.trans h.1, h'.2.trans h.2⟩
  · exact ⟨h'.1.trans h.1, h'.2.1.trans h.2.1, h'.2.2.trans h.2.2⟩
  · exact Eq.trans h' h
  · exact Eq.trans h' h

theorem Net.Alike.trans {a b c : Net (Cf w ℝ)} (h : a.Alike b) (h' : b.Alike c) : a.Alike c := by
  unfold Net.Alike at *
  generalize a.layers = x at *
  generalize b.layers = y at *
  generalize c.layers = z at *
  induction h generalizing z with
  | nil => cases h'; exact .nil
  | cons h _ ih => cases h' with
    | cons h' t => exact .cons (h.trans h') (ih _ t)

theorem Layer.Alike.refl (l : Layer (Cf w ℝ)) : l.Alike l := by
  cases l
  · exact ⟨rfl, rfl⟩
  · exact ⟨rfl, rfl, rfl⟩
  · rfl
  · rfl

theorem Net.Alike.refl (n : Net (Cf w ℝ)) : n.Alike n :=
  List.forall₂_same.mpr fun l _ => Layer.Alike.refl l

theorem zipKernels_shape_map {α : Type} (upd : α → α → α) (ks : List (Mat α)) (d : List α) :
    (zipKernels upd ks d).map Mat.shape = ks.map Mat.shape := by
  induction ks generalizing d with
  | nil => rfl
  | cons k ks ih => rw [zipKernels, List.map_cons, List.map_cons, ih]

theorem Layer.alike_zipParams (upd : Cf w ℝ → Cf w ℝ → Cf w ℝ) (l : Layer (Cf w ℝ))
    (d : LayerVec (Cf w ℝ)) : l.Alike (l.zipParams upd d) := by
  cases l
  · exact ⟨rfl, rfl⟩
  · exact ⟨rfl, rfl, zipKernels_shape_map _ _ _⟩
  · rfl
  · rfl

theorem Net.alike_move (n : Net (Cf w ℝ)) {ds : List (LayerVec (Cf w ℝ))}
    (hl : ds.length = n.layers.length) (s : ℝ) : n.Alike (n.move ds s) := by
  obtain ⟨ls⟩ := n
  unfold Net.Alike Net.move Net.zipParams
  simp only at hl ⊢
  induction ls generalizing ds with
  | nil => exact .nil
  | cons l ls ih => cases ds with
    | nil => simp at hl
    | cons d ds => exact .cons (Layer.alike_zipParams _ l d) (ih (by simpa using hl))

theorem zipKernels_entries {α : Type} {upd : α → α → α} {ks : List (Mat α)} {d : List α} {z : α}
    (h : z ∈ (zipKernels upd ks d).flatMap Mat.getBody) :
    ∃ p ∈ ks.flatMap Mat.getBody, ∃ x ∈ d, z = upd p x := by
  induction ks generalizing d with
  | nil => simp [zipKernels] at h
  | cons k ks ih =>
    rw [zipKernels, List.flatMap_cons, List.mem_append] at h
    rcases h with h | h
    · obtain ⟨p, hp, x, hx, rfl⟩ := mem_zipWith h
      exact ⟨p, by rw [List.flatMap_cons]; exact List.mem_append_left _ hp, x, List.mem_of_mem_take hx, rfl⟩
    · obtain ⟨p, hp, x, hx, rfl⟩ := ih h
      exact ⟨p, by rw [List.flatMap_cons]; exact List.mem_append_right _ hp, x, List.mem_of_mem_drop hx, rfl⟩

/-- A move by `s` in a direction with entries of size at most `δ` enlarges the parameters by at most
`s·δ`. -/
theorem Net.InBall.move {n : Net (Cf w ℝ)} {R : ℝ} (h : n.InBall R) {ds : List (LayerVec (Cf w ℝ))}
    {δ : ℝ} (hd : ∀ d ∈ ds, ∀ z ∈ d.1 ++ d.2, ‖z.toC‖ ≤ δ) {s : ℝ} (hs : 0 ≤ s) :
    (n.move ds s).InBall (R + s * δ) := by
  intro g hg z hz
  obtain ⟨l', hl', rfl⟩ := List.mem_map.mp hg
  obtain ⟨l, hl, d, hdm, rfl⟩ := mem_zipWith hl'
  have key : ∃ p ∈ l.params.1 ++ l.params.2, ∃ x ∈ d.1 ++ d.2,
      z = Cf.ofC (p.toC + (s : ℂ) * x.toC) := by
    cases l with
    | dense l =>
      rcases List.mem_append.mp hz with hz | hz
      · obtain ⟨p, hp, x, hx, rfl⟩ := mem_zipWith hz
        exact ⟨p, List.mem_append_left _ hp, x, List.mem_append_left _ hx, rfl⟩
      · obtain ⟨p, hp, x, hx, rfl⟩ := mem_zipWith hz
        exact ⟨p, List.mem_append_right _ hp, x, List.mem_append_right _ hx, rfl⟩
    | conv l =>
      rcases List.mem_append.mp hz with hz | hz
      · obtain ⟨p, hp, x, hx, rfl⟩ := zipKernels_entries hz
        exact ⟨p, List.mem_append_left _ hp, x, List.mem_append_left _ hx, rfl⟩
      · obtain ⟨p, hp, x, hx, rfl⟩ := mem_zipWith hz
        exact ⟨p, List.mem_append_right _ hp, x, List.mem_append_right _ hx, rfl⟩
    | reduce l => simp [Layer.zipParams, Layer.params] at hz
    | flatten l => simp [Layer.zipParams, Layer.params] at hz
  obtain ⟨p, hp, x, hx, rfl⟩ := key
  rw [Cf.toC_ofC]
  refine (norm_add_le _ _).trans (add_le_add (h.layer l hl p hp) ?_)
  rw [norm_mul, Complex.norm_real, Real.norm_of_nonneg hs]
  exact mul_le_mul_of_nonneg_left (hd d hdm x hx) hs

/-! ### The gradient exists everywhere -/

theorem ActFunc.Regular.right {f : ActFunc} (h : f.Regular) (z : Cf w ℝ) : DerivsRight f z := by
  rcases h with rfl | rfl
  · exact none_right z
  · exact tanh_right z

theorem Layer.Regular.total {l : Layer (Cf w ℝ)} (h : l.Regular) : l.Total := by
  have act : ∀ {f : ActFunc}, f.Regular → ∀ z : Cf w ℝ, ∃ y, Act.activate f z = some y := by
    rintro f (rfl | rfl) z <;> exact ⟨_, rfl⟩
  cases l with
  | dense l => exact act h
  | conv l => exact act h
  | reduce l => exact h.elim
  | flatten l => trivial

theorem Net.Regular.gradient {n : Net (Cf w ℝ)} (hr : n.Regular) (hn : n.layers ≠ [])
    (hw : ∀ l ∈ n.layers, l.WF) {σ : Size} {u : Nat} (hf : FitsChain n.layers σ (.vec u))
    {pts : List (IOType (Cf w ℝ) × List (Cf w ℝ))}
    (hp : ∀ q ∈ pts, q.1.HasSize σ ∧ q.2.length = u) (f : LossFunc) : ∃ gss,
    List.Forall₂ (fun q gs => sampleGrads n f (q.1, .scalar q.2) = some gs
      ∧ IsNetGradient n q.1 q.2 gs) pts gss := by
  induction pts with
  | nil => exact ⟨[], .nil⟩
  | cons q pts ih =>
    obtain ⟨gss, h⟩ := ih fun q hq => hp q (by simp [hq])
    obtain ⟨hx, ht⟩ := hp q (by simp)
    obtain ⟨ys, y, h1, h2, h3, -⟩ := hf.forward hw (fun l hl => (hr.layers l hl).total) hx
    cases y with
    | matrix ms => exact absurd h3 id
    | scalar p =>
      have hpl : p.length = u := h3
      have hacts : n.collectActs q.1 = some (.ok (q.1 :: ys)) :=
        (C44_collect n hn q.1 _).mpr ⟨ys, h1, rfl⟩
      have hfw : n.forward q.1 = some (.ok (.scalar p)) := by
        refine (C44_forward n hn q.1 _).mpr ⟨ys, .scalar p, h1, ?_, rfl⟩
        have := h1.length
        cases ys with
        | nil => exact absurd (List.length_eq_zero_iff.mp this.symm) hn
        | cons a ys => rw [List.getLast?_cons_cons] at h2; exact h2
      obtain ⟨gs, k1, k2⟩ := C64_partial n hn f hw q.1 σ hx _ hacts p q.2 hfw (ht.trans hpl.symm)
        (fun a ha v _ z _ => by
          have := hr.layers a.2 (List.of_mem_zip ha).2
          obtain ⟨x, l⟩ := a
          cases l with
          | dense l => exact this.right z
          | conv l => exact this.right z
          | reduce l => exact this.elim
          | flatten l => exact none_right z)
        (fun a ha => by
          have := hr.layers a.2 (List.of_mem_zip ha).2
          obtain ⟨x, l⟩ := a
          cases l with
          | reduce l => exact this.elim
          | _ => trivial)
        (by
          rcases hr.conv with hc | hc
          · refine .inl fun l hl hco => ?_
            cases l with
            | conv l => exact hc l hl
            | _ => exact hco
          · refine .inr fun a ha hco v _ z _ => ?_
            have hm := (List.of_mem_zip ha).2
            obtain ⟨x, l⟩ := a
            cases l with
            | conv l =>
              show Act.dConjActivate l.func z = _
              rw [hc l hm]
              exact none_conj z
            | _ => exact hco.elim)
      exact ⟨gs :: gss, .cons ⟨k1, k2⟩ h⟩

/-! ### One step -/

/-- C97. For every architecture of regular layers, every batch and every ball of parameters there is a
rate below which every training step from that ball decreases the error of the batch by at least
`r/B·‖G‖²`, where `G` is the gradient and `B` the size of the batch. No parameter changes by more than
`r/B·‖G‖`. -/
theorem C97_step {n : Net (Cf w ℝ)} (hl : 2 ≤ n.layers.length) (hr : n.Regular) {σ : Size} {u : Nat}
    (hf : FitsChain n.layers σ (.vec u)) {pts : List (IOType (Cf w ℝ) × List (Cf w ℝ))} (hB : pts ≠ [])
    (hp : ∀ q ∈ pts, q.1.HasSize σ ∧ q.2.length = u) (f : LossFunc) (R : ℝ) :
    ∃ r₀ > 0, ∀ n' : Net (Cf w ℝ), n.Alike n' → (∀ l ∈ n'.layers, l.WF) → ∀ ρ ≤ R, n'.InBall ρ →
      ∃ G e, BatchGradient n' pts f G ∧ BatchError n' pts e ∧ ∀ r, 0 < r → r ≤ r₀ → ∃ n'' e',
        n'.gradientOpt ⟨pts.map (·.1), pts.map fun q => .scalar q.2⟩ f ⟨r, 0⟩ = some (.ok (), n'')
        ∧ n.Alike n'' ∧ (∀ l ∈ n''.layers, l.WF)
        ∧ n''.InBall (ρ + r / pts.length * Real.sqrt (normSqAll G))
        ∧ BatchError n'' pts e' ∧ e' + r / pts.length * normSqAll G ≤ e := by
  have hn : n.layers ≠ [] := by intro h; rw [h] at hl; simp at hl
  obtain ⟨K, hK, hkey⟩ := batch_tame hn hf hr.layers pts hp R
  have hB0 : (0 : ℝ) < pts.length := by
    have := List.length_pos_iff.mpr hB
    exact_mod_cast this
  refine ⟨2 * pts.length / (K + 1), by positivity, fun n' hal hw ρ hρ hR => ?_⟩
  have hRR : n'.InBall R := fun g hg z hz => (hR g hg z hz).trans hρ
  have hl' : 2 ≤ n'.layers.length := by rw [← hal.length_eq]; exact hl
  have hn' : n'.layers ≠ [] := by intro h; rw [h] at hl'; simp at hl'
  obtain ⟨gss, hg⟩ := (hal.regular hr).gradient hn' hw (hf.alike hal) hp f
  set G := sumGrads n' gss with hG
  set ds := G.map (LayerVec.map fun d : Cf w ℝ =>
    (Cf.ofC (-(((1 / pts.length : ℝ) : ℂ) * conj d.toC)) : Cf w ℝ)) with hds
  have hfit : ∀ gs ∈ gss, List.Forall₂ LayerVec.Fits gs n'.layers := by
    intro gs hgs
    clear hB hkey hp hB0 hG hds ds G
    induction hg with
    | nil => cases hgs
    | cons a t ih =>
      rcases List.mem_cons.mp hgs with rfl | hgs
      · exact a.2.1
      · exact ih hgs
  have hGf : List.Forall₂ LayerVec.Fits G n'.layers := sumGrads_fits n' gss hfit
  have hdf : List.Forall₂ LayerVec.Fits ds n'.layers := by
    rw [hds, List.forall₂_map_left_iff]
    exact hGf.imp fun _ _ h => LayerVec.map_fits h
  set δ := Real.sqrt (normSqAll G) / pts.length with hδd
  have hδ : 0 ≤ δ := by positivity
  have hdb : ∀ d ∈ ds, ∀ z ∈ d.1 ++ d.2, ‖z.toC‖ ≤ δ := by
    intro d hd z hz
    obtain ⟨g, hgm, rfl⟩ := List.mem_map.mp hd
    have : ∃ x ∈ g.1 ++ g.2, z = Cf.ofC (-(((1 / pts.length : ℝ) : ℂ) * conj x.toC)) := by
      simp only [LayerVec.map, ← List.map_append] at hz
      obtain ⟨x, hx, rfl⟩ := List.mem_map.mp hz
      exact ⟨x, hx, rfl⟩
    obtain ⟨x, hx, rfl⟩ := this
    rw [Cf.toC_ofC, norm_neg, norm_mul, Complex.norm_real, RCLike.norm_conj,
      Real.norm_of_nonneg (by positivity), hδd, one_div, inv_mul_eq_div]
    refine div_le_div_of_nonneg_right ?_ hB0.le
    exact Real.le_sqrt_of_sq_le (sq_le_normSqAll hgm hx)
  obtain ⟨F, ⟨F', F'', d1, d2, d3⟩, hF⟩ := hkey n' hal hw hRR δ hδ ds hdf hdb
  have hmove := step_move hl' hw hB f (hg.imp fun _ _ h => ⟨h.1, h.2.1⟩)
  rw [← hG, ← hds] at hmove
  obtain ⟨n1, E, c1, c2, c3, c4, -⟩ := C53_partial n' hl' hw pts hB f gss hg
  have hn1 : ∀ r, n1 r = n'.move ds r := by
    intro r
    have := (c1 r).symm.trans (hmove r)
    simpa using this
  have hE0 : E 0 = (F 0).re := by
    have h0 := c2.self_of_nhds
    rw [hn1] at h0
    exact h0.unique (hF 0)
  have re : ∀ {g g' : ℝ → ℂ}, (∀ s, HasDerivAt g (g' s) s) →
      ∀ s, HasDerivAt (fun s => (g s).re) (g' s).re s := fun h s =>
    Complex.reCLM.hasFDerivAt.comp_hasDerivAt s (h s)
  have hder : (F' 0).re = -(2 / pts.length) * normSqAll G := by
    refine (re d1 0).unique (c4.congr_of_eventuallyEq ?_)
    filter_upwards [c2] with r hr
    rw [hn1] at hr
    exact (hF r).unique hr
  set N := normSqAll G with hN
  have hN0 : 0 ≤ N := normSqAll_nonneg G
  have hsq : Real.sqrt N * Real.sqrt N = N := Real.mul_self_sqrt hN0
  -- the gradient is bounded
  have hGK : 2 * Real.sqrt N ≤ K := by
    rcases hN0.eq_or_lt with h0 | h0
    · rw [← h0]; simpa using hK
    · have h1 := (Complex.abs_re_le_norm (F' 0)).trans (d3 0 (by simp)).2.1
      rw [hder, abs_mul, abs_neg, abs_of_pos (by positivity), abs_of_pos h0, hδd] at h1
      have hs0 := Real.sqrt_pos.mpr h0
      have h2 : 2 * N ≤ K * Real.sqrt N := by
        have := mul_le_mul_of_nonneg_right h1 hB0.le
        field_simp at this
        linarith
      have h3 : Real.sqrt N * (2 * Real.sqrt N) ≤ Real.sqrt N * K := by
        calc Real.sqrt N * (2 * Real.sqrt N) = 2 * (Real.sqrt N * Real.sqrt N) := by ring
          _ = 2 * N := by rw [hsq]
          _ ≤ Real.sqrt N * K := by linarith
      exact le_of_mul_le_mul_left h3 hs0
  refine ⟨G, E 0, ⟨gss, hg, rfl⟩, c3, fun r hr0 hr1 => ⟨n'.move ds r, (F r).re, hmove r,
    hal.trans (n'.alike_move (by rw [hdf.length_eq]) r), sameShape_wf (Net.gradientOpt_shape hw (hmove r)),
    ?_, hF r, ?_⟩⟩
  · have := hR.move hdb hr0.le
    rw [hδd] at this
    convert this using 2
    ring
  · have hrK : r * (K + 1) ≤ 2 * pts.length := by
      rwa [le_div_iff₀ (by positivity)] at hr1
    have hrδ : r * δ ≤ 1 := by
      rw [hδd, ← mul_div_assoc, div_le_one hB0]
      nlinarith [Real.sqrt_nonneg N]
    have ht := taylor_le (re d1) (re d2) (M := K * δ ^ 2) hr0.le (fun s h0 h1 => by
      refine (Complex.re_le_norm _).trans (d3 s ?_).2.2
      rw [abs_of_nonneg h0]
      exact (mul_le_mul_of_nonneg_right h1 hδ).trans hrδ)
    rw [hder] at ht
    have hδ2 : δ ^ 2 = N / pts.length ^ 2 := by
      rw [hδd, div_pow, sq (Real.sqrt N), hsq]
    rw [hE0]
    have h4 : K * δ ^ 2 * r ^ 2 / 2 ≤ r / pts.length * N := by
      rw [hδ2]
      have h5 : K * r ≤ 2 * pts.length := by nlinarith
      have h6 : K * (N / pts.length ^ 2) * r ^ 2 / 2 = (K * r) * (N * r / (2 * pts.length ^ 2)) := by ring
      rw [h6]
      calc (K * r) * (N * r / (2 * (pts.length : ℝ) ^ 2))
          ≤ (2 * pts.length) * (N * r / (2 * (pts.length : ℝ) ^ 2)) :=
            mul_le_mul_of_nonneg_right h5 (by positivity)
        _ = r / pts.length * N := by field_simp
    have h7 : -(2 / (pts.length : ℝ)) * N * r = -2 * (r / pts.length * N) := by ring
    linarith

/-! ### Many steps -/

theorem Net.train_succ (n : Net (Cf w ℝ)) (t : Nat) (st : TrainStep (Cf w ℝ)) {n' n'' : Net (Cf w ℝ)}
    (h : n.train (List.replicate t st) = some n')
    (h' : n'.gradientOpt st.1 st.2.1 st.2.2 = some (.ok (), n'')) :
    n.train (List.replicate (t + 1) st) = some n'' := by
  unfold Net.train at *
  rw [List.replicate_succ', List.foldlM_append, h]
  simp [h']

/-- C97. Training with one small rate on one batch for a bounded time: for every `τ` there is a rate
below which, as long as the number of steps times the rate is at most `τ`, no call panics or fails and
the error decreases in every step by at least `r/B·‖G‖²`. Nothing is assumed about the size of the
parameters on the way. -/
theorem C97_run {n : Net (Cf w ℝ)} (hl : 2 ≤ n.layers.length) (hw : ∀ l ∈ n.layers, l.WF)
    (hr : n.Regular) {σ : Size} {u : Nat} (hf : FitsChain n.layers σ (.vec u))
    {pts : List (IOType (Cf w ℝ) × List (Cf w ℝ))} (hB : pts ≠ [])
    (hp : ∀ q ∈ pts, q.1.HasSize σ ∧ q.2.length = u) (f : LossFunc) (τ : ℝ) :
    ∃ r₀ > 0, ∀ r, 0 < r → r ≤ r₀ → ∃ (ns : Nat → Net (Cf w ℝ)) (es : Nat → ℝ)
      (Gs : Nat → List (LayerVec (Cf w ℝ))), ns 0 = n ∧ ∀ t : Nat, r * t ≤ τ →
        n.train (List.replicate t (⟨pts.map (·.1), pts.map fun q => .scalar q.2⟩, f, ⟨r, 0⟩)) = some (ns t)
        ∧ (ns t).gradientOpt ⟨pts.map (·.1), pts.map fun q => .scalar q.2⟩ f ⟨r, 0⟩
          = some (.ok (), ns (t + 1))
        ∧ BatchGradient (ns t) pts f (Gs t) ∧ BatchError (ns t) pts (es t)
        ∧ BatchError (ns (t + 1)) pts (es (t + 1))
        ∧ es (t + 1) + r / pts.length * normSqAll (Gs t) ≤ es t := by
  have hn : n.layers ≠ [] := by intro h; rw [h] at hl; simp at hl
  have hB1 : (1 : ℝ) ≤ pts.length := by
    have := List.length_pos_iff.mpr hB
    exact_mod_cast this
  have hB0 : (0 : ℝ) < pts.length := by linarith
  -- a bound for the parameters at the start
  obtain ⟨R₀, hR₀⟩ : ∃ R₀, n.InBall R₀ := by
    have hone : ∀ l : List (Cf w ℝ), ∃ M, ∀ z ∈ l, ‖z.toC‖ ≤ M := fun l =>
      ⟨(l.map fun z => ‖z.toC‖).sum, fun z hz => by
        refine List.single_le_sum ?_ _ (List.mem_map.mpr ⟨z, hz, rfl⟩)
        simp only [List.mem_map]
        rintro _ ⟨z, -, rfl⟩
        positivity⟩
    obtain ⟨M, hM⟩ := hone (n.params.flatMap fun g => g.1 ++ g.2)
    exact ⟨M, fun g hg z hz => hM z (List.mem_flatMap.mpr ⟨g, hg, hz⟩)⟩
  -- the error at the start
  obtain ⟨_, _, h0⟩ := C97_step hl hr hf hB hp f R₀
  obtain ⟨_, e₀, -, he₀, -⟩ := h0 n (.refl n) hw R₀ le_rfl hR₀
  have he₀0 := he₀.nonneg
  obtain ⟨r₀, hr₀, hstep⟩ := C97_step hl hr hf hB hp f (R₀ + |τ| + e₀)
  refine ⟨r₀, hr₀, fun r hr0 hr1 => ?_⟩
  -- what is known of a network on the way
  let I : Nat → Net (Cf w ℝ) → Prop := fun t m => n.Alike m ∧ (∀ l ∈ m.layers, l.WF)
    ∧ n.train (List.replicate t (⟨pts.map (·.1), pts.map fun q => .scalar q.2⟩, f, ⟨r, 0⟩)) = some m
    ∧ ∃ e, BatchError m pts e ∧ m.InBall (R₀ + r * t / 2 + (e₀ - e) / 2)
  have hI : ∀ t : Nat, r * t ≤ τ → ∀ m, I t m → ∃ m', (∃ G e e', BatchGradient m pts f G
      ∧ BatchError m pts e ∧ BatchError m' pts e' ∧ e' + r / pts.length * normSqAll G ≤ e)
      ∧ m.gradientOpt ⟨pts.map (·.1), pts.map fun q => .scalar q.2⟩ f ⟨r, 0⟩ = some (.ok (), m')
      ∧ I (t + 1) m' := by
    rintro t ht m ⟨hal, hmw, htr, e, he, hball⟩
    have he0 := he.nonneg
    obtain ⟨G, e1, hG, he1, hgo⟩ := hstep m hal hmw _ (by
      have := le_abs_self τ
      have := abs_nonneg τ
      linarith) hball
    obtain ⟨m', e', k1, k2, k3, k4, k5, k6⟩ := hgo r hr0 hr1
    obtain rfl := he.unique he1
    refine ⟨m', ⟨G, e, e', hG, he, k5, k6⟩, k1, k2, k3, Net.train_succ n t _ htr k1, e', k5, ?_⟩
    intro g hg z hz
    refine (k4 g hg z hz).trans ?_
    set N := normSqAll G
    have hs : Real.sqrt N ≤ (1 + N) / 2 := by
      have h1 := Real.mul_self_sqrt (normSqAll_nonneg G)
      have h2 := sq_nonneg (1 - Real.sqrt N)
      change Real.sqrt N * Real.sqrt N = N at h1
      linarith [show (1 - Real.sqrt N) ^ 2 = 1 - 2 * Real.sqrt N + Real.sqrt N * Real.sqrt N by ring]
    have hrB : 0 ≤ r / pts.length := by positivity
    have h3 := mul_le_mul_of_nonneg_left hs hrB
    have h4 : r / pts.length ≤ r := div_le_self hr0.le hB1
    push_cast
    have h5 : r / (pts.length : ℝ) * ((1 + N) / 2) = r / pts.length / 2 + r / pts.length * N / 2 := by ring
    linarith
  have hI0 : I 0 n := ⟨.refl n, hw, rfl, e₀, he₀, by simpa using hR₀⟩
  classical
  -- the run
  let next : Net (Cf w ℝ) → Net (Cf w ℝ) := fun m =>
    match m.gradientOpt ⟨pts.map (·.1), pts.map fun q => .scalar q.2⟩ f ⟨r, 0⟩ with
    | some (_, m') => m'
    | none => m
  let ns : Nat → Net (Cf w ℝ) := fun t => next^[t] n
  have hns : ∀ t, ns (t + 1) = next (ns t) := fun t => Function.iterate_succ_apply' next t n
  have hnext : ∀ {m m' : Net (Cf w ℝ)}, m.gradientOpt ⟨pts.map (·.1), pts.map fun q => .scalar q.2⟩ f
      ⟨r, 0⟩ = some (.ok (), m') → next m = m' := by
    intro m m' h
    simp only [next, h]
  have hall : ∀ t : Nat, r * t ≤ τ → I t (ns t) := by
    intro t
    induction t with
    | zero => intro _; exact hI0
    | succ t ih =>
      intro ht
      have ht' : r * t ≤ τ := by
        push_cast at ht
        nlinarith
      obtain ⟨m', -, h1, h2⟩ := hI t ht' _ (ih ht')
      rw [hns, hnext h1]
      exact h2
  let es : Nat → ℝ := fun t => if h : ∃ e, BatchError (ns t) pts e then h.choose else 0
  have hes : ∀ {t e}, BatchError (ns t) pts e → BatchError (ns t) pts (es t) := by
    intro t e h
    have hex : ∃ e, BatchError (ns t) pts e := ⟨e, h⟩
    simp only [es, dif_pos hex]
    exact hex.choose_spec
  let Gs : Nat → List (LayerVec (Cf w ℝ)) := fun t =>
    if h : ∃ G, BatchGradient (ns t) pts f G then h.choose else []
  have hGs : ∀ {t G}, BatchGradient (ns t) pts f G → Gs t = G := by
    intro t G h
    have hex : ∃ G, BatchGradient (ns t) pts f G := ⟨G, h⟩
    simp only [Gs, dif_pos hex]
    obtain ⟨gss, h1, h2⟩ := hex.choose_spec
    obtain ⟨gss', h1', h2'⟩ := h
    rw [h2, h2']
    congr 1
    clear h2 h2'
    generalize pts = pts at h1 h1'
    induction h1 generalizing gss' with
    | nil => cases h1'; rfl
    | cons a _ ih =>
      cases h1' with
      | cons a' t' =>
        rw [ih _ t', Option.some.inj (a.1.symm.trans a'.1)]
  refine ⟨ns, es, Gs, rfl, fun t ht => ?_⟩
  have hIt := hall t ht
  obtain ⟨m', ⟨G, e, e', hG, he, he', hde⟩, h1, h2⟩ := hI t ht _ hIt
  have hm' : ns (t + 1) = m' := by rw [hns, hnext h1]
  rw [← hm'] at he' h1
  refine ⟨hIt.2.2.1, h1, ?_, hes he, hes he', ?_⟩
  · rw [hGs hG]; exact hG
  · rw [hGs hG, (hes he).unique he, (hes he').unique he']
    exact hde

/-- C97. Training finds stationary points: for every network of regular layers, every batch, every
`ε > 0` and every sufficiently small rate `r`, training on the batch with rate `r` passes through a
network at which the squared norm of the gradient is at most `ε`, after at most `B·e/(r·ε)` steps, `e` the
error at the start. No call before panics or fails, and the error there is at most `e`. -/
theorem C97_stationary {n : Net (Cf w ℝ)} (hl : 2 ≤ n.layers.length) (hw : ∀ l ∈ n.layers, l.WF)
    (hr : n.Regular) {σ : Size} {u : Nat} (hf : FitsChain n.layers σ (.vec u))
    {pts : List (IOType (Cf w ℝ) × List (Cf w ℝ))} (hB : pts ≠ [])
    (hp : ∀ q ∈ pts, q.1.HasSize σ ∧ q.2.length = u) (f : LossFunc) {ε : ℝ} (hε : 0 < ε) :
    ∃ e, BatchError n pts e ∧ ∃ r₀ > 0, ∀ r, 0 < r → r ≤ r₀ → ∃ (T : Nat) (n' : Net (Cf w ℝ)) (e' : ℝ)
      (G : List (LayerVec (Cf w ℝ))), T ≤ pts.length * e / (r * ε)
        ∧ n.train (List.replicate T (⟨pts.map (·.1), pts.map fun q => .scalar q.2⟩, f, ⟨r, 0⟩)) = some n'
        ∧ BatchError n' pts e' ∧ e' ≤ e ∧ BatchGradient n' pts f G ∧ normSqAll G ≤ ε := by
  have hB0 : (0 : ℝ) < pts.length := by
    have := List.length_pos_iff.mpr hB
    exact_mod_cast this
  obtain ⟨e, he⟩ : ∃ e, BatchError n pts e := by
    obtain ⟨r₁, h1, h2⟩ := C97_run hl hw hr hf hB hp f 0
    obtain ⟨ns, es, Gs, h3, h4⟩ := h2 r₁ h1 le_rfl
    obtain ⟨-, -, -, h5, -⟩ := h4 0 (by simp)
    rw [h3] at h5
    exact ⟨_, h5⟩
  have he0 := he.nonneg
  refine ⟨e, he, ?_⟩
  obtain ⟨r₀, hr₀, hrun⟩ := C97_run hl hw hr hf hB hp f (pts.length * e / ε)
  refine ⟨r₀, hr₀, fun r hr0 hr1 => ?_⟩
  obtain ⟨ns, es, Gs, h0, hall⟩ := hrun r hr0 hr1
  set T := Nat.floor (pts.length * e / (r * ε)) with hT
  have hTle : (T : ℝ) ≤ pts.length * e / (r * ε) := Nat.floor_le (by positivity)
  have hlt : pts.length * e / (r * ε) < T + 1 := Nat.lt_floor_add_one _
  have htime : ∀ t ≤ T, r * t ≤ pts.length * e / ε := by
    intro t ht
    have h1 : (t : ℝ) ≤ pts.length * e / (r * ε) := le_trans (by exact_mod_cast ht) hTle
    have h2 := mul_le_mul_of_nonneg_left h1 hr0.le
    have h3 : r * (pts.length * e / (r * ε)) = pts.length * e / ε := by field_simp
    rwa [h3] at h2
  have hes0 : es 0 = e := by
    have := (hall 0 (htime 0 (Nat.zero_le _))).2.2.2.1
    rw [h0] at this
    exact this.unique he
  by_contra hcon
  push Not at hcon
  have key : ∀ t ≤ T + 1, es t + t * (r / pts.length * ε) ≤ e ∧ (t ≠ 0 → es t + t * (r / pts.length * ε) < e) := by
    intro t
    induction t with
    | zero => intro _; rw [hes0]; simp
    | succ t ih =>
      intro ht
      obtain ⟨h1, h2, h3, h4, h5, h6⟩ := hall t (htime t (by omega))
      have hest : es t ≤ e := by
        have := (ih (by omega)).1
        have : 0 ≤ (t : ℝ) * (r / pts.length * ε) := by positivity
        linarith
      have h7 := hcon t (ns t) (es t) (Gs t) (le_trans (by exact_mod_cast (by omega : t ≤ T)) hTle) h1 h4 hest h3
      have h8 : r / pts.length * ε < r / pts.length * normSqAll (Gs t) :=
        mul_lt_mul_of_pos_left h7 (by positivity)
      have h9 := (ih (by omega)).1
      push_cast
      constructor
      · linarith
      · intro _; linarith
  have h1 := (key (T + 1) le_rfl).2 (by omega)
  have h2 : 0 ≤ es (T + 1) := (hall T (htime T le_rfl)).2.2.2.2.1.nonneg
  push_cast at h1
  have h3 : e < (T + 1) * (r / pts.length * ε) := by
    rw [div_lt_iff₀ (by positivity)] at hlt
    have : (T + 1 : ℝ) * (r / pts.length * ε) = (T + 1) * (r * ε) / pts.length := by ring
    rw [this, lt_div_iff₀ hB0]
    linarith
  linarith

/-! ### The rate must be small -/

/-- A layer of one unit with weight zero. -/
noncomputable def exBias (b : Cf w ℝ) : Layer (Cf w ℝ) := .dense ⟨Mat.fromBody [0] (1, 1), [b], .none⟩

theorem exBias_forward (b x : Cf w ℝ) : (exBias b).forward (.scalar [x]) = some (.ok (.scalar [b])) := by
  simp [exBias, Layer.forward, Dense.forward, Dense.computeQ, Mat.mulSlice,
    Mat.rowsAsIter, chunks, chunksPos, chunksAux, Mat.fromBody, unwrap, addSliceMut, zipUpd,
    activateMut, CplxOps.activate, Act.activate]

theorem exBias_derivs (b x d dc : Cf w ℝ) :
    (exBias b).computeDerivatives (.scalar [x]) [d] [dc]
      = some (.ok ([x * d], [d], [0], [0])) := by
  simp [exBias, Layer.computeDerivatives, Dense.computeDerivatives, Dense.computeQ, Mat.mulSlice,
    Mat.rowsAsIter, chunks, chunksPos, chunksAux, Mat.fromBody, unwrap, addSliceMut, zipUpd,
    CplxOps.dActivate, CplxOps.dConjActivate, Act.dActivate, Act.dConjActivate, Dense.derivLoop,
    unit_eq_one, default_eq_zero, conj_zero']

/-- Two such layers: the prediction is the bias of the second. -/
noncomputable def exBiases (b : Cf w ℝ) : Net (Cf w ℝ) := ⟨[exBias 0, exBias b]⟩

theorem exBiases_sample (f : LossFunc) (b : Cf w ℝ) :
    sampleGrads (exBiases b) f (.scalar [0], .scalar [0])
      = some [([0], [0]), ([0], [CplxOps.conj b])] := by
  have hd : CplxOps.dLoss f (.scalar [0]) (.scalar [b])
      = .ok [CplxOps.conj b] := by
    have : b - 0 = b := sub_zero b
    conv_rhs => rw [← this]
    cases f <;> rfl
  have hp : ∀ b : Cf w ℝ, (exBias b).propagates = true := fun _ => rfl
  have hc : (exBiases b).collectActs (.scalar [0])
      = some (.ok [.scalar [0], .scalar [0], .scalar [b]]) := by
    simp [exBiases, Net.collectActs, Net.collectLoop, Net.fwd, exBias_forward, unwrap]
  unfold sampleGrads
  rw [hc]
  simp [unwrap, hd, backGrads, hp, exBias_derivs, exBiases]

theorem exBiases_step (f : LossFunc) (b : Cf w ℝ) (r : ℝ) :
    (exBiases b).gradientOpt ⟨[.scalar [0]], [.scalar [0]]⟩ f ⟨r, 0⟩
      = some (.ok (), exBiases (⟨1 - r, 0⟩ * b)) := by
  have hw : ∀ l ∈ (exBiases b).layers, l.WF := by
    intro l hl
    simp only [exBiases, List.mem_cons, List.not_mem_nil, or_false] at hl
    rcases hl with rfl | rfl <;> exact ⟨rfl, rfl⟩
  refine (C50_partial _ _ (by simp [exBiases]) hw _ (by simp) f _ rfl (.ok ())).mpr ⟨rfl, _,
    .cons ⟨exBiases_sample f b, .cons ⟨rfl, rfl⟩ (.cons ⟨rfl, rfl⟩ .nil)⟩ .nil, ?_⟩
  have hs : sumGrads (exBiases b) [[([0], [0]), ([0], [CplxOps.conj b])]]
      = [([0], [0]), ([0], [CplxOps.conj b])] := by
    have hp : ∀ b : Cf w ℝ, (exBias b).propagates = true := fun _ => rfl
    have hl : ∀ b : Cf w ℝ, (exBias b).paramsLen = (1, 1) := fun _ => rfl
    simp [sumGrads, exBiases, LayerVec.zero, hp, hl, LayerVec.add]
  rw [hs]
  have e1 : (Cf.ofC (Cf.toC (0 : Cf w ℝ) - starRingEnd ℂ (Cf.toC (⟨r, 0⟩ : Cf w ℝ)
      / ([IOType.scalar [(0 : Cf w ℝ)]].length : ℂ) * Cf.toC (0 : Cf w ℝ))) : Cf w ℝ) = 0 := by
    apply Cf.toC_inj.mp
    simp [Cf.toC_hom_zero]
  have e2 : (Cf.ofC (Cf.toC b - starRingEnd ℂ (Cf.toC (⟨r, 0⟩ : Cf w ℝ)
      / ([IOType.scalar [(0 : Cf w ℝ)]].length : ℂ) * (CplxOps.conj b).toC)) : Cf w ℝ)
      = ⟨1 - r, 0⟩ * b := by
    apply Cf.toC_inj.mp
    have h1 : (CplxOps.conj b).toC = starRingEnd ℂ b.toC := Cf.toC_conj b
    have h2 : Cf.toC (⟨r, 0⟩ : Cf w ℝ) = (r : ℂ) := rfl
    have h3 : Cf.toC (⟨1 - r, 0⟩ : Cf w ℝ) = ((1 - r : ℝ) : ℂ) := rfl
    rw [Cf.toC_hom_mul, h1, h2, h3, Cf.toC_ofC]
    simp
    ring
  simp only [exBiases, List.zipWith_cons_cons, List.zipWith_nil_left, Net.zipParams, exBias,
    Layer.zipParams, Mat.fromBody, e1, e2]

/-- C97. The rate must be small: there is a network of two layers and a point on which training with
rate `r` multiplies the error by `(1 - r)²` in every step. With a rate above 2 the error grows beyond
every bound, with rate 2 the training oscillates for ever between two networks, and with a rate
strictly between 0 and 2 the error tends to zero. -/
theorem C97_rate (f : LossFunc) {b : Cf w ℝ} (r : ℝ) (t : Nat) :
    (exBiases b).train (List.replicate t (⟨[.scalar [0]], [.scalar [0]]⟩, f, ⟨r, 0⟩))
      = some (exBiases (⟨(1 - r) ^ t, 0⟩ * b))
    ∧ BatchError (exBiases (⟨(1 - r) ^ t, 0⟩ * b)) [(.scalar [0], [0])]
        (((1 - r) ^ 2) ^ t * ‖b.toC‖ ^ 2) := by
  constructor
  · induction t with
    | zero =>
      have : (⟨(1 - r) ^ 0, 0⟩ : Cf w ℝ) * b = b := by
        apply Cf.toC_inj.mp
        have h3 : Cf.toC (⟨(1 - r) ^ 0, 0⟩ : Cf w ℝ) = (((1 - r) ^ 0 : ℝ) : ℂ) := rfl
        rw [Cf.toC_hom_mul, h3]
        simp
      rw [this]
      rfl
    | succ t ih =>
      have h := Net.train_succ (exBiases b) t _ ih (exBiases_step f _ r)
      have : (⟨1 - r, 0⟩ : Cf w ℝ) * (⟨(1 - r) ^ t, 0⟩ * b) = ⟨(1 - r) ^ (t + 1), 0⟩ * b := by
        apply Cf.toC_inj.mp
        have h3 : ∀ c : ℝ, Cf.toC (⟨c, 0⟩ : Cf w ℝ) = (c : ℂ) := fun _ => rfl
        simp only [Cf.toC_hom_mul, h3]
        push_cast
        ring
      rw [this] at h
      exact h
  · refine ⟨[[⟨(1 - r) ^ t, 0⟩ * b]], .cons ?_ .nil, ?_⟩
    · simp [Net.forward, exBiases, Net.fwd, exBias_forward, unwrap]
    · have h3 : ∀ c : ℝ, Cf.toC (⟨c, 0⟩ : Cf w ℝ) = (c : ℂ) := fun _ => rfl
      have h4 : ‖(((1 - r) ^ t : ℝ) : ℂ)‖ ^ 2 = ((1 - r) ^ 2) ^ t := by
        rw [Complex.norm_real, Real.norm_eq_abs, sq_abs, ← pow_mul, ← pow_mul, mul_comm]
      simp only [sqSum, List.zipWith_cons_cons, List.zipWith_nil_left, List.sum_cons, List.sum_nil,
        List.zip_cons_cons, List.zip_nil_left, List.map_cons, List.map_nil,
        Cf.toC_hom_mul, h3, Cf.toC_hom_zero, zero_sub, norm_neg, norm_mul, mul_pow, h4, add_zero]

/-- With rate 3 the error is multiplied by four in every step. -/
example (f : LossFunc) : (exBiases (1 : Cf .w64 ℝ)).train
      (List.replicate 5 (⟨[.scalar [0]], [.scalar [0]]⟩, f, ⟨3, 0⟩))
      = some (exBiases (⟨(1 - 3) ^ 5, 0⟩ * 1))
    ∧ BatchError (exBiases (⟨(1 - 3) ^ 5, 0⟩ * (1 : Cf .w64 ℝ))) [(.scalar [0], [0])] 1024 := by
  obtain ⟨h1, h2⟩ := C97_rate f (b := (1 : Cf .w64 ℝ)) 3 5
  refine ⟨h1, ?_⟩
  have : ((1 - 3 : ℝ) ^ 2) ^ 5 * ‖(1 : Cf .w64 ℝ).toC‖ ^ 2 = 1024 := by
    rw [Cf.toC_hom_one]; norm_num
  rwa [this] at h2

theorem exTwo_regular : (exTwo : Net (Cf w ℝ)).Regular := by
  refine ⟨fun l hl => ?_, .inl fun d hd => ?_⟩
  · have : l = exUnit := by simpa [exTwo] using hl
    subst this
    exact .inl rfl
  · simp [exTwo, exUnit] at hd

theorem exTwo_fits : FitsChain (exTwo : Net (Cf w ℝ)).layers (.vec 1) (.vec 1) :=
  .cons (s₁ := .vec 1) ⟨Nat.one_pos, rfl⟩ (.cons (s₁ := .vec 1) ⟨Nat.one_pos, rfl⟩ (.nil _))

/-- The identity network of two layers, trained on two contradictory points: its error at the start is
2, and it comes close to a stationary point. -/
example (f : LossFunc) : ∃ e, BatchError (exTwo : Net (Cf .w64 ℝ)) [(.scalar [1], [0]), (.scalar [1], [2])] e
    ∧ ∃ r₀ > 0, ∀ r, 0 < r → r ≤ r₀ → ∃ (T : Nat) (n' : Net (Cf .w64 ℝ)) (e' : ℝ)
      (G : List (LayerVec (Cf .w64 ℝ))), T ≤ 2 * e / (r * (1 / 1000))
        ∧ (exTwo : Net (Cf .w64 ℝ)).train (List.replicate T
            (⟨[.scalar [1], .scalar [1]], [.scalar [0], .scalar [2]]⟩, f, ⟨r, 0⟩)) = some n'
        ∧ BatchError n' [(.scalar [1], [0]), (.scalar [1], [2])] e' ∧ e' ≤ e
        ∧ BatchGradient n' [(.scalar [1], [0]), (.scalar [1], [2])] f G ∧ normSqAll G ≤ 1 / 1000 :=
  C97_stationary (pts := [(.scalar [1], [0]), (.scalar [1], [2])]) (by simp [exTwo]) exTwo_wf exTwo_regular
    exTwo_fits (by simp) (by simp [IOType.HasSize]) f (by norm_num)

end Renplex
