import Verif.Props.FilterScale
import Verif.Props.MirrorNet
/-!
# C129: training networks with turned filters
-/

namespace Renplex

variable {w : Width}

/-- Maps turned by `s` on the other side; the derivatives with respect to the conjugates are turned by `t`. -/
noncomputable def Iface.turn (s t : Nat → Cf w ℝ) (n r c : Nat) : Iface (Cf w ℝ) where
  feat := scaleFeat s n r c
  back d d' := ∃ G, d = cube n r c G ∧ d' = cube n r c fun ch i j => CplxOps.conj (s ch) * G ch i j
  backc d d' := ∃ G, d = cube n r c G ∧ d' = cube n r c fun ch i j => t ch * G ch i j

/-- The same after they have been flattened. -/
noncomputable def Iface.turnFlat (s t : Nat → Cf w ℝ) (n r c : Nat) : Iface (Cf w ℝ) where
  feat := scaleFlat s n r c
  back d d' := ∃ G, d = cube n r c G ∧ d' = cube n r c fun ch i j => CplxOps.conj (s ch) * G ch i j
  backc d d' := ∃ G, d = cube n r c G ∧ d' = cube n r c fun ch i j => t ch * G ch i j

theorem step_turn {upd : Cf w ℝ → Cf w ℝ → Cf w ℝ} (hu : IsStep (fun z => z.y = 0) upd) (s p d : Cf w ℝ) :
    upd (s * p) (CplxOps.conj s * d) = s * upd p d := by
  obtain ⟨scale, hy, rfl⟩ := hu
  have hm : ∀ z : Cf w ℝ, BasicOps.mulAssign z scale = z * scale := fun z => (C20_partial z scale).2.2.1.mpr (.inl hy)
  simp only [LawfulOps.subAssign_eq, hm]
  rw [conj_mul_cf, conj_mul_cf, conj_mul_cf, conj_conj_cf]
  ring

theorem step_unturn {upd : Cf w ℝ → Cf w ℝ → Cf w ℝ} (hu : IsStep (fun z => z.y = 0) upd) {s : Cf w ℝ} (hs : ‖s.toC‖ = 1) (p d : Cf w ℝ) :
    upd (p / s) (s * d) = upd p d / s := by
  have := step_turn hu (CplxOps.conj s) p d
  rw [conj_conj_cf] at this
  rw [div_eq_mul_inv, div_eq_mul_inv, inv_of_unit hs, mul_comm p, mul_comm (upd p d)]
  exact this

/-- The factors of a turned layer and of the derivatives that it receives. -/
theorem turn_mid {s t D DC G GC D' DC' : Cf w ℝ} (hs : ‖s.toC‖ = 1) (hD : D' = D) (hDC : DC' = s * s * DC)
    (ht : t = s ∨ DC = 0) :
    D' * (CplxOps.conj s * G) = CplxOps.conj s * (D * G)
      ∧ CplxOps.conj DC' * (t * GC) = CplxOps.conj s * (CplxOps.conj DC * GC) := by
  subst hD hDC
  refine ⟨by ring, ?_⟩
  have h := mul_conj_of_unit hs
  rw [conj_mul_cf, conj_mul_cf]
  rcases ht with rfl | rfl
  · linear_combination (CplxOps.conj t * CplxOps.conj DC * GC) * h
  · have : (CplxOps.conj (0 : Cf w ℝ) : Cf w ℝ) = 0 := by
      apply Cf.toC_inj.mp
      rw [conj_toC]
      exact map_zero _
    rw [this]
    ring

/-- A convolutional layer with turned filters. -/
noncomputable def Kind.turnFilters (s t : Nat → Cf w ℝ) (f : ActFunc) (nf n p q r c : Nat) (hs : ∀ o, ‖(s o).toC‖ = 1)
    (hp : ∀ o, f.Passes (s o).toC (s o).toC) (ht : f = .none ∨ t = s) : KindOn (Cf w ℝ) (fun z => z.y = 0) where
  rel l l' := ∃ a a' K b, l = .conv a ∧ l' = .conv a' ∧ a.Is nf n p q K b f
    ∧ a'.Is nf n p q (fun o ch i j => s o * K o ch i j) (fun o => s o * b o) f ∧ ActTotal (Cf w ℝ) f
    ∧ 0 < nf ∧ 0 < n ∧ 1 ≤ p ∧ p ≤ r ∧ 1 ≤ q ∧ q ≤ c
  vec g g' := ∃ D e, g = (kvec nf n p q D, (List.range nf).map e)
    ∧ g' = (kvec nf n p q fun o ch i j => CplxOps.conj (s o) * D o ch i j,
      (List.range nf).map fun o => CplxOps.conj (s o) * e o)
  inp := .same (Cf w ℝ) (.maps n r c)
  out := .turn s t nf (r - p + 1) (c - q + 1)
  wf := by
    rintro l l' ⟨a, a', K, b, rfl, rfl, h, h', -⟩
    exact ⟨h.wf, h'.wf⟩
  forward := by
    rintro l l' _ x ⟨a, a', K, b, rfl, rfl, h, h', ⟨hA, -⟩, hd⟩ ⟨rfl, hx⟩
    exact scale_conv hp h h' hA hd hx
  backward := by
    rintro l l' _ x d d' dc dc' ⟨a, a', K, b, rfl, rfl, h, h', ⟨-, hD, hDC⟩, hf, hn, hp1, hpr, hq,
      hqc⟩ ⟨rfl, hx⟩ ⟨G, rfl, rfl⟩ ⟨GC, rfl, rfl⟩
    have : Nonempty (Cf w ℝ) := ⟨0⟩
    cases x with
    | scalar v => exact hx.elim
    | matrix ms =>
      obtain ⟨X, hX⟩ := MapsAre.exists_of hx
      choose D hD using hD
      choose DC hDC using hDC
      have hD' : ∀ o z, D (s o * z) = D z := fun o z =>
        Option.some.inj ((hD _).symm.trans ((act_turn (hp o) (hs o)).1 _ (hD z)))
      have hDC' : ∀ o z, DC (s o * z) = s o * s o * DC z := fun o z =>
        Option.some.inj ((hDC _).symm.trans ((act_turn (hp o) (hs o)).2 _ (hDC z)))
      have ht' : ∀ o z, t o = s o ∨ DC z = 0 := by
        intro o z
        rcases ht with rfl | rfl
        · right
          have h1 : some (DC z) = some (Cf.default : Cf w ℝ) := (hDC z).symm
          rw [Option.some.inj h1, default_eq_zero]
        · exact .inl rfl
      have m1 := fun o z g gc => (turn_mid (G := g) (GC := gc) (hs o) (hD' o z) (hDC' o z) (ht' o z)).1
      have m2 := fun o z g gc => (turn_mid (G := g) (GC := gc) (hs o) (hD' o z) (hDC' o z) (ht' o z)).2
      have m1 := fun o z g => m1 o z g 0
      have m2 := fun o z gc => m2 o z 0 gc
      have e1 := Conv.back_is h hf hn hp1 hpr hq hqc hX G GC D DC hD hDC
      have e2 := Conv.back_is h' hf hn hp1 hpr hq hqc hX (fun ch i j => CplxOps.conj (s ch) * G ch i j)
        (fun ch i j => t ch * GC ch i j) D DC hD hDC
      simp only [convPre_scale, m1, m2, inputGrad_scale] at e2
      have hc : ∀ o, CplxOps.conj (s o) * s o = 1 := fun o => by rw [mul_comm]; exact mul_conj_of_unit (hs o)
      simp only [hc, one_mul] at e2
      refine ⟨_, _, _, _, _, _, e1, e2, ⟨_, _, rfl, ?_⟩,
        Conv.fits_kvec h _ _, Conv.fits_kvec h' _ _, ⟨rfl, cube_length _ _ _ _⟩, rfl,
        cube_length _ _ _ _⟩
      rw [Prod.mk.injEq]
      constructor
      · refine congrArg (kvec nf n p q) ?_
        funext o ch i j
        have := kernelGrad_scale (r - p + 1) (c - q + 1) 1 (CplxOps.conj (s o)) (X ch) (fun i j =>
          D (convPre n p q X K b o i j) * G o i j + CplxOps.conj (DC (convPre n p q X K b o i j)) * GC o i j) i j
        simp only [one_mul, mul_add] at this
        exact this
      · refine List.map_congr_left fun o _ => ?_
        rw [Finset.mul_sum]
        refine Finset.sum_congr rfl fun i _ => ?_
        rw [Finset.mul_sum]
        exact Finset.sum_congr rfl fun j _ => by ring
  zero := by
    rintro l l' ⟨a, a', K, b, rfl, rfl, h, h', -⟩
    refine ⟨_, _, Conv.initAcc_kvec h, ?_⟩
    rw [Conv.initAcc_kvec h']
    simp only [LawfulOps.zero_eq, mul_zero]
  add := by
    rintro a a' g g' r r' ⟨D, e, rfl, rfl⟩ ⟨E, e', rfl, rfl⟩ h h'
    refine ⟨_, _, addPair_kvec h, ?_⟩
    rw [addPair_kvec h']
    simp only [LawfulOps.addAssign_eq, mul_add]
  update := by
    rintro l l' g g' upd hu ⟨a, a', K, b, rfl, rfl, h, h', hd⟩ ⟨D, e, rfl, rfl⟩ - -
    obtain ⟨m, e1, e2⟩ := Conv.move_is h upd D e
    obtain ⟨m', e1', e2'⟩ := Conv.move_is h' upd (fun o ch i j => CplxOps.conj (s o) * D o ch i j)
      (fun o => CplxOps.conj (s o) * e o)
    simp only [step_turn hu] at e2'
    exact ⟨m, m', _, _, e1, e1', e2, e2', hd⟩

/-- A convolutional layer that reads turned maps. -/
noncomputable def Kind.turnChannels (s : Nat → Cf w ℝ) (nf n p q r c : Nat) (hs : ∀ o, ‖(s o).toC‖ = 1) :
    KindOn (Cf w ℝ) (fun z => z.y = 0) where
  rel l l' := ∃ a a' K b f, l = .conv a ∧ l' = .conv a' ∧ a.Is nf n p q K b f
    ∧ a'.Is nf n p q (fun o ch i j => K o ch i j / s ch) b f ∧ ActTotal (Cf w ℝ) f
    ∧ 0 < nf ∧ 0 < n ∧ 1 ≤ p ∧ p ≤ r ∧ 1 ≤ q ∧ q ≤ c
  vec g g' := ∃ D e, g = (kvec nf n p q D, (List.range nf).map e)
    ∧ g' = (kvec nf n p q fun o ch i j => s ch * D o ch i j, (List.range nf).map e)
  inp := .turn s (fun o => CplxOps.conj (s o)) n r c
  out := .same (Cf w ℝ) (.maps nf (r - p + 1) (c - q + 1))
  wf := by
    rintro l l' ⟨a, a', K, b, f, rfl, rfl, h, h', -⟩
    exact ⟨h.wf, h'.wf⟩
  forward := by
    rintro l l' x x' ⟨a, a', K, b, f, rfl, rfl, h, h', ⟨hA, -⟩, hd⟩ hx
    obtain ⟨y, h1, h2, h3⟩ := scale_channels (fun o h0 => by
      have := hs o
      rw [h0, show ((0 : Cf w ℝ)).toC = 0 from rfl] at this
      simp at this) h h' hA hd hx
    exact ⟨y, y, h1, h2, rfl, h3⟩
  backward := by
    rintro l l' x x' d d' dc dc' ⟨a, a', K, b, f, rfl, rfl, h, h', ⟨-, hD, hDC⟩, hf, hn, hp, hpr, hq,
      hqc⟩ ⟨ms, ms', X, rfl, rfl, hX, hX'⟩ ⟨rfl, hd⟩ ⟨rfl, hdc⟩
    have : Nonempty (Cf w ℝ) := ⟨0⟩
    obtain ⟨G, rfl⟩ := exists_cube _ _ _ _ hd
    obtain ⟨GC, rfl⟩ := exists_cube _ _ _ _ hdc
    choose D hD using hD
    choose DC hDC using hDC
    have h0 : ∀ o, s o ≠ 0 := fun o h0 => by
      have := hs o
      rw [h0, show ((0 : Cf w ℝ)).toC = 0 from rfl] at this
      simp at this
    have e1 := Conv.back_is h hf hn hp hpr hq hqc hX G GC D DC hD hDC
    have e2 := Conv.back_is h' hf hn hp hpr hq hqc hX' G GC D DC hD hDC
    simp only [convPre_divide n p q X K b s h0] at e2
    have hi : ∀ (m : Nat → Nat → Cf w ℝ) (o ch i j : Nat), inputGrad (r - p + 1) (c - q + 1) p q m
        (fun i j => K o ch i j / s ch) i j
          = CplxOps.conj (s ch) * inputGrad (r - p + 1) (c - q + 1) p q m (K o ch) i j := by
      intro m o ch i j
      have := inputGrad_scale (r - p + 1) (c - q + 1) p q 1 (CplxOps.conj (s ch)) m (K o ch) i j
      simp only [one_mul] at this
      rw [← this]
      congr 1
      funext i j
      rw [div_eq_mul_inv, inv_of_unit (hs ch), mul_comm]
    have hk : ∀ (m : Nat → Nat → Cf w ℝ) (ch i j : Nat), kernelGrad (r - p + 1) (c - q + 1)
        (fun i j => s ch * X ch i j) m i j = s ch * kernelGrad (r - p + 1) (c - q + 1) (X ch) m i j := by
      intro m ch i j
      have := kernelGrad_scale (r - p + 1) (c - q + 1) (s ch) 1 (X ch) m i j
      simp only [one_mul, mul_one] at this
      exact this
    simp only [hi, ← Finset.mul_sum] at e2
    refine ⟨_, _, _, _, _, _, e1, e2, ⟨_, _, rfl, ?_⟩, Conv.fits_kvec h _ _, Conv.fits_kvec h' _ _,
      ⟨_, rfl, rfl⟩, _, rfl, rfl⟩
    rw [Prod.mk.injEq]
    refine ⟨congrArg (kvec nf n p q) ?_, rfl⟩
    funext o ch i j
    exact hk _ ch i j
  zero := by
    rintro l l' ⟨a, a', K, b, f, rfl, rfl, h, h', -⟩
    refine ⟨_, _, Conv.initAcc_kvec h, ?_⟩
    rw [Conv.initAcc_kvec h']
    simp only [LawfulOps.zero_eq, mul_zero]
  add := by
    rintro a a' g g' r r' ⟨D, e, rfl, rfl⟩ ⟨E, e', rfl, rfl⟩ h h'
    refine ⟨_, _, addPair_kvec h, ?_⟩
    rw [addPair_kvec h']
    simp only [LawfulOps.addAssign_eq, mul_add]
  update := by
    rintro l l' g g' upd hu ⟨a, a', K, b, f, rfl, rfl, h, h', hd⟩ ⟨D, e, rfl, rfl⟩ - -
    obtain ⟨m, e1, e2⟩ := Conv.move_is h upd D e
    obtain ⟨m', e1', e2'⟩ := Conv.move_is h' upd (fun o ch i j => s ch * D o ch i j) e
    simp only [step_unturn hu (hs _)] at e2'
    exact ⟨m, m', _, _, f, e1, e1', e2, e2', hd⟩

/-- A homogeneous pooling layer between turned maps. -/
noncomputable def Kind.turnPool (s t : Nat → Cf w ℝ) (n r c p q : Nat) : KindOn (Cf w ℝ) (fun z => z.y = 0) where
  rel l l' := ∃ a, l = .reduce a ∧ l' = .reduce a ∧ a.blockSize = (p, q) ∧ a.Homogeneous
    ∧ (Layer.reduce a).Total ∧ (Layer.reduce a).TotalBack ∧ 0 < n ∧ 0 < r ∧ 0 < c ∧ 0 < p ∧ 0 < q
  vec g g' := g = ([], []) ∧ g' = ([], [])
  inp := .turn s t n (r * p) (c * q)
  out := .turn s t n r c
  wf := by rintro l l' ⟨a, rfl, rfl, -⟩; exact ⟨trivial, trivial⟩
  forward := by
    rintro l l' x x' ⟨a, rfl, rfl, hs, hl, ht, -, hn, hr, hc, hp, hq⟩ hx
    have e1 : p = a.blockSize.1 := by rw [hs]
    have e2 : q = a.blockSize.2 := by rw [hs]
    rw [e1, e2] at hx
    exact scale_pool hl ht ⟨hr, hc, e1 ▸ hp, e2 ▸ hq⟩ hx
  backward := by
    rintro l l' x x' d d' dc dc' ⟨a, rfl, rfl, hs, -, -, ⟨hk, hks, hodd, -⟩, hn, hr, hc, hp, hq⟩
      ⟨ms, ms', X, rfl, rfl, hX, hX'⟩ ⟨G, rfl, rfl⟩ ⟨GC, rfl, rfl⟩
    have : Nonempty (Cf w ℝ) := ⟨0⟩
    obtain ⟨k, hk⟩ := Mat.Rect.exists_is hk
    rw [hks] at hk
    rw [hs] at hodd
    have hfit : LayerVec.Fits (([], []) : LayerVec (Cf w ℝ)) (.reduce a) := by
      unfold LayerVec.Fits
      rw [if_pos (show (Layer.reduce a).propagates = true from rfl)]
      exact ⟨rfl, rfl⟩
    have e2 := Reduce.back_is hs hk hp hq hodd hn hr hc (fun ch i j => CplxOps.conj (s ch) * G ch i j)
      (fun ch i j => t ch * GC ch i j) hX'
    simp only [upMap_scale] at e2
    exact ⟨_, _, _, _, _, _, Reduce.back_is hs hk hp hq hodd hn hr hc G GC hX, e2, ⟨rfl, rfl⟩, hfit, hfit,
      ⟨fun o => upMap r c p q k (G o), rfl, rfl⟩, fun o => upMap r c p q k (GC o), rfl, rfl⟩
  zero := by
    rintro l l' ⟨a, rfl, rfl, -⟩
    exact ⟨rfl, rfl⟩
  add := by
    rintro a a' g g' r r' ⟨rfl, rfl⟩ ⟨rfl, rfl⟩ h h'
    exact ⟨addPair_nil h, addPair_nil h'⟩
  update := by
    rintro l l' g g' upd - ⟨a, rfl, rfl, h⟩ - - -
    exact ⟨a, rfl, rfl, h⟩

/-- A `Flatten` layer after turned maps. -/
noncomputable def Kind.turnFlatten (s t : Nat → Cf w ℝ) (n r c : Nat) : KindOn (Cf w ℝ) (fun z => z.y = 0) where
  rel l l' := ∃ a : Flatten, l = .flatten a ∧ l' = .flatten a ∧ a.inputSize = ((r, c), n)
  vec g g' := g = ([], []) ∧ g' = ([], [])
  inp := .turn s t n r c
  out := .turnFlat s t n r c
  wf := by rintro l l' ⟨a, rfl, rfl, -⟩; exact ⟨trivial, trivial⟩
  forward := by
    rintro l l' x x' ⟨a, rfl, rfl, -⟩ hx
    exact scale_flatten a hx
  backward := by
    rintro l l' x x' d d' dc dc' ⟨a, rfl, rfl, -⟩ - ⟨G, rfl, rfl⟩ ⟨GC, rfl, rfl⟩
    exact ⟨_, _, _, _, _, _, rfl, rfl, ⟨rfl, rfl⟩, rfl, rfl, ⟨G, rfl, rfl⟩, GC, rfl, rfl⟩
  zero := by
    rintro l l' ⟨a, rfl, rfl, -⟩
    exact ⟨rfl, rfl⟩
  add := by
    rintro a a' g g' r r' ⟨rfl, rfl⟩ ⟨rfl, rfl⟩ h h'
    exact ⟨addPair_nil h, addPair_nil h'⟩
  update := by
    rintro l l' g g' upd - ⟨a, rfl, rfl, h⟩ - - -
    exact ⟨a, rfl, rfl, h⟩

/-- A dense layer that reads turned maps. -/
noncomputable def Kind.turnColumns (s : Nat → Cf w ℝ) (u n r c : Nat) (hs : ∀ o, ‖(s o).toC‖ = 1) : KindOn (Cf w ℝ) (fun z => z.y = 0) where
  rel l l' := ∃ a a' V b f, l = .dense a ∧ l' = .dense a' ∧ a.Is u (n * (r * c)) V b f
    ∧ a'.Is u (n * (r * c)) (fun j i => V j i / s (i / (r * c))) b f ∧ ActTotal (Cf w ℝ) f
    ∧ 0 < n * (r * c)
  vec g g' := ∃ A e, g = (table u (n * (r * c)) A, (List.range u).map e)
    ∧ g' = (table u (n * (r * c)) fun j i => s (i / (r * c)) * A j i, (List.range u).map e)
  inp := .turnFlat s s n r c
  out := .same (Cf w ℝ) (.vec u)
  wf := by
    rintro l l' ⟨a, a', V, b, f, rfl, rfl, h, h', -⟩
    exact ⟨h.wf_of, h'.wf_of⟩
  forward := by
    rintro l l' x x' ⟨a, a', V, b, f, rfl, rfl, h, h', ⟨hA, -⟩, hn⟩ hx
    obtain ⟨y, h1, h2, h3⟩ := scale_columns (fun o h0 => by
      have := hs o
      rw [h0, show ((0 : Cf w ℝ)).toC = 0 from rfl] at this
      simp at this) h h' hA hn hx
    exact ⟨y, y, h1, h2, rfl, h3⟩
  backward := by
    rintro l l' x x' d d' dc dc' ⟨a, a', V, b, f, rfl, rfl, h, h', ⟨-, hD, hDC⟩, hn⟩ ⟨X, rfl, rfl⟩
      ⟨rfl, hd⟩ ⟨rfl, hdc⟩
    have : Nonempty (Cf w ℝ) := ⟨0⟩
    obtain ⟨g, hg⟩ := exists_range_map d'
    obtain ⟨gc, hgc⟩ := exists_range_map dc'
    rw [hd] at hg
    rw [hdc] at hgc
    simp only [Size.len] at hg hgc
    subst hg hgc
    choose D hD using hD
    choose DC hDC using hDC
    have h0 : ∀ o, s o ≠ 0 := fun o h0 => by
      have := hs o
      rw [h0, show ((0 : Cf w ℝ)).toC = 0 from rfl] at this
      simp at this
    obtain ⟨mid, hmid⟩ : ∃ mid : Nat → Cf w ℝ, ∀ j, mid j
        = D ((∑ i ∈ Finset.range (n * (r * c)), V j i * flatOf r c X i) + b j) * g j
        + CplxOps.conj (DC ((∑ i ∈ Finset.range (n * (r * c)), V j i * flatOf r c X i) + b j)) * gc j :=
      ⟨_, fun _ => rfl⟩
    have e1 := Dense.back_is h hn (flatOf r c X) g gc D DC hD hDC mid hmid
    have e2 := Dense.back_is h' hn (flatOf r c fun ch i j => s ch * X ch i j) g gc D DC hD hDC mid
      fun j => by rw [columns_divide h0]; exact hmid j
    rw [← cube_flat] at e1 e2
    have hsum : ∀ i, ∑ j ∈ Finset.range u, V j i / s (i / (r * c)) * mid j
        = CplxOps.conj (s (i / (r * c))) * ∑ j ∈ Finset.range u, V j i * mid j := by
      intro i
      rw [Finset.mul_sum]
      refine Finset.sum_congr rfl fun j _ => ?_
      rw [div_eq_mul_inv, inv_of_unit (hs _)]
      ring
    have hflat : ∀ (y : Nat → Cf w ℝ) (F : Nat → Cf w ℝ), ∃ G, (List.range (n * (r * c))).map F = cube n r c G
        ∧ (List.range (n * (r * c))).map (fun i => y (i / (r * c)) * F i)
          = cube n r c fun ch i j => y ch * G ch i j := by
      intro y F
      refine ⟨fun o i j => F (o * (r * c) + (i * c + j)), range_map_cube _ _ _ _, ?_⟩
      rw [range_map_cube]
      refine cube_congr fun o _ i hi j hj => ?_
      have hlt := idx_lt hi hj
      have h1 : (o * (r * c) + (i * c + j)) / (r * c) = o := by
        rw [Nat.mul_comm, Nat.mul_add_div (by omega), Nat.div_eq_of_lt hlt, Nat.add_zero]
      rw [h1]
    simp only [hsum, conj_mul_cf, conj_conj_cf] at e2
    refine ⟨_, _, _, _, _, _, e1, e2, ⟨_, _, rfl, ?_⟩, Dense.fits_table h _ _, Dense.fits_table h' _ _,
      hflat (fun o => CplxOps.conj (s o)) fun i => ∑ j ∈ Finset.range u, V j i * mid j,
      hflat s fun i => CplxOps.conj (∑ j ∈ Finset.range u, V j i * mid j)⟩
    rw [Prod.mk.injEq]
    exact ⟨table_congr fun j _ i hi => by rw [flatOf_scale, mul_assoc], rfl⟩
  zero := by
    rintro l l' ⟨a, a', V, b, f, rfl, rfl, h, h', -⟩
    refine ⟨_, _, Dense.initAcc_table h, ?_⟩
    rw [Dense.initAcc_table h']
    simp only [LawfulOps.zero_eq, mul_zero]
  add := by
    rintro a a' g g' r r' ⟨A, e, rfl, rfl⟩ ⟨B, e', rfl, rfl⟩ h h'
    refine ⟨_, _, addPair_dense h, ?_⟩
    rw [addPair_dense h']
    simp only [LawfulOps.addAssign_eq, mul_add]
  update := by
    rintro l l' g g' upd hu ⟨a, a', V, b, f, rfl, rfl, h, h', hd⟩ ⟨A, e, rfl, rfl⟩ - -
    obtain ⟨m, e1, e2⟩ := Dense.zipParams_is h (A := A) (s := e) upd
    obtain ⟨m', e1', e2'⟩ := Dense.zipParams_is h' (A := fun j i => s (i / (r * c)) * A j i)
      (s := e) upd
    simp only [step_unturn hu (hs _)] at e2'
    exact ⟨m, m', _, _, f, e1, e1', e2, e2', hd⟩

/-! ## Networks -/

theorem ScaleReader.corr {s : Nat → Cf w ℝ} (hs : ∀ o, ‖(s o).toC‖ = 1) {nf : Nat} {f : ActFunc}
    {ls ls' : List (Layer (Cf w ℝ))} (h : ScaleReader s nf (f = .none ∨ ∀ o, (s o).y = 0) ls ls') {r c : Nat} {s' : Size}
    (hf : FitsChain ls (.maps nf r c) s') (hw : ∀ l ∈ ls, l.WF) (ht : ∀ l ∈ ls, l.Total) (hb : ∀ l ∈ ls, l.TotalBack) :
    ∃ (t : Nat → Cf w ℝ) (ks : List (KindOn (Cf w ℝ) fun z => z.y = 0)), (f = .none ∨ t = s) ∧ Corr (.turn s t nf r c) ks ls ls' (.same _ s')
      ∧ ∀ I O m m', Corr I ks m m' O → ScaleReader s nf (f = .none ∨ ∀ o, (s o).y = 0) m m' := by
  induction h generalizing r c with
  | @pool l ls ls' hl _ ih =>
    cases hf with
    | @cons _ _ _ s₁ _ hf hc =>
      cases s₁ with
      | vec m => exact hf.elim
      | maps n' r1 c1 =>
        obtain ⟨rfl, hn, hr, hc', hp, hq, rfl, rfl⟩ := hf
        obtain ⟨t, ks, h1, h2, h3⟩ := ih hc (fun l hl => hw l (by simp [hl])) (fun l hl => ht l (by simp [hl]))
          (fun l hl => hb l (by simp [hl]))
        have hb' := hb (.reduce l) (by simp)
        refine ⟨t, Kind.turnPool s t nf r1 c1 l.blockSize.1 l.blockSize.2 :: ks, h1,
          .cons (k := Kind.turnPool s t nf r1 c1 l.blockSize.1 l.blockSize.2) ⟨l, rfl, rfl, rfl, hl,
            ht _ (by simp), hb', by rw [hn]; exact hb'.2.2.2, hr, hc', hp, hq⟩ h2, fun I O m m' hm => ?_⟩
        obtain ⟨_, _, u, u', rfl, rfl, ⟨a, rfl, rfl, -, ha, -⟩, h4⟩ := hm.cons_inv
        exact .pool ha (h3 _ _ _ _ h4)
  | @conv b b' v p q K d g hQ h h' post =>
    cases hf with
    | cons hf hc =>
      obtain ⟨r1, c1, e, rfl, hd⟩ := (Conv.fits_dims h).mp hf
      cases e
      have a1 := ht (.conv b) (by simp)
      have a2 := hb (.conv b) (by simp)
      have hfn : b.func = g := h.2.2.1
      simp only [Layer.Total, Layer.TotalBack, hfn] at a1 a2
      obtain ⟨ks, k1, -, k2⟩ := Corr.of_fits_on (fun z => z.y = 0) hc (fun l hl => hw l (by simp [hl])) (fun l hl => ht l (by simp [hl]))
        (fun l hl => hb l (by simp [hl]))
      refine ⟨_, Kind.turnChannels s v nf p q r c hs :: ks, ?_, .cons (k := Kind.turnChannels s v nf p q r c hs)
        ⟨b, b', K, d, g, rfl, rfl, h, h', ⟨a1, a2⟩, hd⟩ k2, fun I O m m' hm => ?_⟩
      · refine hQ.imp id fun hy => ?_
        funext o
        show (⟨(s o).x, -(s o).y⟩ : Cf w ℝ) = s o
        have hy := hy o
        cases hso : s o with
        | mk x y =>
          rw [hso] at hy
          obtain rfl : y = 0 := hy
          rw [neg_zero]
      · obtain ⟨_, _, u, u', rfl, rfl, ⟨a, a', K, d, g, rfl, rfl, ha, ha', -⟩, h4⟩ := hm.cons_inv
        obtain rfl := k1.eq h4
        exact .conv hQ ha ha' _
  | @dense l b b' r1 c1 v V d g hl h h' post =>
    cases hf with
    | @cons _ _ _ s₁ _ hf hc =>
      cases hc with
      | cons hf2 hc =>
        obtain ⟨rfl, rfl, hn⟩ := (Dense.fits_dims h).mp hf2
        obtain ⟨e, -⟩ := hf
        rw [hl] at e
        cases e
        have a1 := ht (.dense b) (by simp)
        have a2 := hb (.dense b) (by simp)
        have hfn : b.func = g := h.2.2
        simp only [Layer.Total, Layer.TotalBack, hfn] at a1 a2
        obtain ⟨ks, k1, -, k2⟩ := Corr.of_fits_on (fun z => z.y = 0) hc (fun l hl => hw l (by simp [hl])) (fun l hl => ht l (by simp [hl]))
          (fun l hl => hb l (by simp [hl]))
        refine ⟨s, Kind.turnFlatten s s nf r1 c1 :: Kind.turnColumns s v nf r1 c1 hs :: ks, .inr rfl,
          .cons (k := Kind.turnFlatten s s nf r1 c1) ⟨l, rfl, rfl, hl⟩ (.cons (k := Kind.turnColumns s v nf r1 c1 hs)
            ⟨b, b', V, d, g, rfl, rfl, h, h', ⟨a1, a2⟩, hn⟩ k2), fun I O m m' hm => ?_⟩
        obtain ⟨_, _, u, u', rfl, rfl, ⟨a, rfl, rfl, ha⟩, h4⟩ := hm.cons_inv
        obtain ⟨_, _, u, u', rfl, rfl, ⟨b, b', V, d, g, rfl, rfl, hb, hb', -⟩, h5⟩ := h4.cons_inv
        obtain rfl := k1.eq h5
        exact .dense ha hb hb' _

theorem FilterTurn.corr {s : Nat → Cf w ℝ} {k nf : Nat} {f : ActFunc} {n n' : Net (Cf w ℝ)} (h : FilterTurn s k nf f n n')
    {σ σ' : Size} (hr : n.Ready σ σ') : ∃ ks : List (KindOn (Cf w ℝ) fun z => z.y = 0), Corr (.same _ σ) ks n.layers n'.layers (.same _ σ')
      ∧ ∀ I O (m m' : Net (Cf w ℝ)), Corr I ks m.layers m'.layers O → FilterTurn s k nf f m m' := by
  obtain ⟨hs, hp, pre, a, a', rd, rd', m, p, q, K, c, hk, e, e', ha, ha', hrd⟩ := h
  obtain ⟨-, hw, hf, ht, hb⟩ := hr
  rw [e] at hw hf ht hb
  rw [e, e']
  obtain ⟨s1, f1, f2⟩ := hf.split
  cases f2 with
  | cons f2 f3 =>
    obtain ⟨r1, c1, rfl, rfl, d⟩ := (Conv.fits_dims ha).mp f2
    have a1 := ht (.conv a) (by simp)
    have a2 := hb (.conv a) (by simp)
    have hfn : a.func = f := ha.2.2.1
    simp only [Layer.Total, Layer.TotalBack, hfn] at a1 a2
    obtain ⟨ks1, k1, k2, k3⟩ := Corr.of_fits_on (fun z => z.y = 0) f1 (fun l hl => hw l (by simp [hl])) (fun l hl => ht l (by simp [hl]))
      (fun l hl => hb l (by simp [hl]))
    obtain ⟨t, ks, h1, h2, h3⟩ := hrd.corr hs f3 (fun l hl => hw l (by simp [hl])) (fun l hl => ht l (by simp [hl]))
      (fun l hl => hb l (by simp [hl]))
    refine ⟨ks1 ++ Kind.turnFilters s t f nf m p q r1 c1 hs hp h1 :: ks, k3.append
      (.cons (k := Kind.turnFilters s t f nf m p q r1 c1 hs hp h1) ⟨a, a', K, c, rfl, rfl, ha, ha', ⟨a1, a2⟩, d⟩ h2),
      fun I O m m' hm => ?_⟩
    obtain ⟨u, v, u', v', M, e1, e2, h4, h5, h6⟩ := hm.append_inv
    obtain ⟨_, _, x, x', rfl, rfl, ⟨a, a', K, c, rfl, rfl, ha, ha', -⟩, h7⟩ := h5.cons_inv
    obtain rfl := k1.eq h4
    exact ⟨hs, hp, _, a, a', _, _, _, p, q, K, c, h6.trans (k2.trans hk), e1, e2, ha, ha', h3 _ _ _ _ h7⟩

section
variable {s : Nat → Cf w ℝ} {k nf : Nat} {f : ActFunc} {n n' : Net (Cf w ℝ)} {σ σ' : Size}

/-- C129. Training with a real rate commutes with turning the filters of a convolutional layer: a training call panics for both networks
or for neither, with the same result, and the networks it leaves differ by the same turn. -/
theorem C129_step (h : FilterTurn s k nf f n n') (hr : n.Ready σ σ') (data : Dataset (Cf w ℝ)) (hs : data.HasSize σ σ')
    (lf : LossFunc) {lr : Cf w ℝ} (hlr : lr.y = 0) :
    Option.Rel (fun o o' => o.1 = o'.1 ∧ FilterTurn s k nf f o.2 o'.2 ∧ o.2.Ready σ σ')
      (n.gradientOpt data lf lr) (n'.gradientOpt data lf lr) := by
  obtain ⟨ks, hc, hk⟩ := h.corr hr
  cases hd : BasicOps.div lr (CplxOps.ofUsize data.inputs.length) with
  | none =>
    rw [Net.gradientOpt_none hr.layers hd, Net.gradientOpt_none (by rw [hc.length]; exact hr.layers) hd]
    exact .none
  | some scale =>
    obtain ⟨m, m', e1, e2, -, e3⟩ := hc.step hr.layers (dLoss_total lf) hs hd (scale_real hlr hd)
    obtain ⟨m1, e4, e5⟩ := C66_step n hr data hs lf lr scale hd
    rw [e1] at e4
    cases e4
    rw [e1, e2]
    exact .some ⟨rfl, hk _ _ _ _ e3, e5⟩

/-- C129. The same for a whole training run. -/
theorem C129_train (h : FilterTurn s k nf f n n') (hr : n.Ready σ σ') (steps : List (TrainStep (Cf w ℝ)))
    (hs : ∀ st ∈ steps, st.1.HasSize σ σ' ∧ st.2.2.y = 0) :
    Option.Rel (fun m m' => FilterTurn s k nf f m m' ∧ m.Ready σ σ') (n.train steps) (n'.train steps) := by
  induction steps generalizing n n' with
  | nil => exact .some ⟨h, hr⟩
  | cons st steps ih =>
    simp only [Net.train, List.foldlM_cons, Option.bind_eq_bind]
    have := C129_step h hr st.1 (hs st (by simp)).1 st.2.1 (hs st (by simp)).2
    cases hr1 : n.gradientOpt st.1 st.2.1 st.2.2 with
    | none =>
      rw [hr1] at this
      cases hr' : n'.gradientOpt st.1 st.2.1 st.2.2 with
      | none => exact .none
      | some o => rw [hr'] at this; cases this
    | some o =>
      rw [hr1] at this
      cases hr' : n'.gradientOpt st.1 st.2.1 st.2.2 with
      | none => rw [hr'] at this; cases this
      | some o' =>
        rw [hr'] at this
        cases this with
        | some this => exact ih this.2.1 this.2.2 fun st hst => hs st (by simp [hst])

end

/-- C129. The average pooling of the classification example passes on a common factor of its input. -/
theorem C129_average (n : Nat) : (Examples.avgPool n : Reduce (Cf .w32 ℝ)).Homogeneous := by
  intro z b y hb hy
  have hne : b ≠ [] := by
    rintro rfl
    simp [Examples.avgPool, Reduce.init] at hb
  have hy : Examples.avgBlock b = some y := hy
  show Examples.avgBlock (b.map (z * ·)) = some (z * y)
  rw [avgBlock_eq b hne] at hy
  rw [avgBlock_eq _ (by simpa using hne), List.length_map, List.sum_map_mul_left, List.map_id', mul_assoc,
    Option.some.inj hy]

/-- A network of one filter of one weight, read by a dense layer of one unit. -/
noncomputable def oneFilter (f : ActFunc) (K V : Cf w ℝ) : Net (Cf w ℝ) :=
  ⟨[.conv ⟨1, Mat.fromBody (table 1 1 fun _ _ => Mat.fromBody (table 1 1 fun _ _ => K) (1, 1)) (1, 1),
      (List.range 1).map fun _ => K, f⟩, .flatten ⟨((1, 1), 1)⟩,
    .dense ⟨Mat.fromBody (table 1 1 fun _ _ => V) (1, 1), [0], .none⟩]⟩

theorem oneFilter_scale {f : ActFunc} {s t : Cf w ℝ} (h : f.Passes s.toC t.toC) (Q : Prop) (K V : Cf w ℝ) :
    FilterScale (fun _ => s) (fun _ => t) 0 1 f Q (oneFilter f K V) (oneFilter f (s * K) (V / t)) :=
  ⟨fun _ => h, [], _, _, _, _, 1, 1, 1, fun _ _ _ _ => K, fun _ => K, rfl, rfl, rfl,
    ⟨rfl, rfl, rfl, _, Mat.fromBody_is 1 1 _, fun _ _ _ _ => Mat.fromBody_is 1 1 _⟩,
    ⟨rfl, rfl, rfl, _, Mat.fromBody_is 1 1 _, fun _ _ _ _ => Mat.fromBody_is 1 1 _⟩,
    @ScaleReader.dense w (fun _ => t) 1 Q ⟨((1, 1), 1)⟩
      ⟨Mat.fromBody (table 1 1 fun _ _ => V) (1, 1), [0], .none⟩
      ⟨Mat.fromBody (table 1 1 fun _ _ => V / t) (1, 1), [0], .none⟩ 1 1 1 (fun _ _ => V) (fun _ => 0) .none rfl
      ⟨Mat.fromBody_is 1 1 _, rfl, rfl⟩ ⟨Mat.fromBody_is 1 1 _, rfl, rfl⟩ []⟩

theorem oneFilter_ready {f : ActFunc} (hf : ActTotal (Cf w ℝ) f) (K V : Cf w ℝ) :
    (oneFilter f K V).Ready (.maps 1 1 1) (.vec 1) := by
  have hd : Dense.Is ⟨Mat.fromBody (table 1 1 fun _ _ => V) (1, 1), [0], .none⟩
      1 1 (fun _ _ => V) (fun _ => 0) .none := ⟨Mat.fromBody_is 1 1 _, rfl, rfl⟩
  have hc : Conv.Is ⟨1, Mat.fromBody (table 1 1 fun _ _ => Mat.fromBody (table 1 1 fun _ _ => K) (1, 1)) (1, 1),
      (List.range 1).map fun _ => K, f⟩ 1 1 1 1 (fun _ _ _ _ => K) (fun _ => K) f :=
    ⟨rfl, rfl, rfl, _, Mat.fromBody_is 1 1 _, fun _ _ _ _ => Mat.fromBody_is 1 1 _⟩
  refine ⟨by simp [oneFilter], ?_, ?_, ?_, ?_⟩
  · simp only [oneFilter, List.mem_cons, List.not_mem_nil, or_false, forall_eq_or_imp, forall_eq]
    exact ⟨hc.wf, trivial, hd.wf_of⟩
  · exact .cons ((Conv.fits_dims hc).mpr ⟨1, 1, rfl, rfl, by simp⟩)
      (.cons (s₁ := .vec 1) ⟨rfl, rfl⟩ (.cons ((Dense.fits_dims hd).mpr ⟨rfl, rfl, by simp⟩) (.nil _)))
  · simp only [oneFilter, List.mem_cons, List.not_mem_nil, or_false, forall_eq_or_imp, forall_eq]
    exact ⟨hf.1, trivial, fun z => ⟨_, rfl⟩⟩
  · simp only [oneFilter, List.mem_cons, List.not_mem_nil, or_false, forall_eq_or_imp, forall_eq]
    exact ⟨hf.2, trivial, fun z => (C66_total _ (by simp) z).1, fun z => (C66_total _ (by simp) z).2⟩

/-- The filter of a RITReLU layer may be doubled if the dense layer takes half of it. -/
example (K V : Cf w ℝ) : FilterScale (fun _ => ⟨2, 0⟩) (fun _ => ⟨2, 0⟩) 0 1 .ritReLU True (oneFilter .ritReLU K V)
    (oneFilter .ritReLU (⟨2, 0⟩ * K) (V / ⟨2, 0⟩)) :=
  oneFilter_scale (f := .ritReLU) (s := ⟨2, 0⟩) (t := ⟨2, 0⟩)
    ⟨⟨2, by norm_num, by apply Complex.ext <;> simp [Cf.toC]⟩, rfl⟩ True K V

/-- The filter of a RITTanh layer may be turned by a right angle, and training keeps it so. -/
example (K V : Cf w ℝ) : FilterTurn (fun _ => ⟨0, 1⟩) 0 1 .ritTanh (oneFilter .ritTanh K V)
      (oneFilter .ritTanh (⟨0, 1⟩ * K) (V / ⟨0, 1⟩))
    ∧ (oneFilter .ritTanh K V).Ready (.maps 1 1 1) (.vec 1) := by
  have hi : (⟨0, 1⟩ : Cf w ℝ).toC = Complex.I := by apply Complex.ext <;> simp [Cf.toC]
  exact ⟨⟨fun _ => by rw [hi]; simp, oneFilter_scale (f := .ritTanh) (s := ⟨0, 1⟩) (t := ⟨0, 1⟩)
      ⟨by rw [hi]; exact Complex.I_pow_four, rfl⟩ _ K V⟩,
    oneFilter_ready ⟨fun _ => ⟨_, rfl⟩, fun _ => ⟨_, rfl⟩, fun _ => ⟨_, rfl⟩⟩ K V⟩

end Renplex
