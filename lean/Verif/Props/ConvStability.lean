import Verif.Props.Stability
/-!
# C127, convolutional layers
-/

namespace Renplex
open Filter Topology Relate Rounding
variable {w : Width} {nf n p q r c : Nat} {l l' : Conv (Cf w ℝ)} {d d' : Dense (Cf w ℝ)} {bs : List (Part w)}
  {K K' : Nat → Nat → Nat → Nat → Cf w ℝ} {b b' : Nat → Cf w ℝ}

/-! ## Distances -/

section
variable {F : Format} {g : Conv (Cf w F.T)} {G : Nat → Nat → Nat → Nat → Cf w F.T} {β : Nat → Cf w F.T}

theorem conv_within_is {δ : ℝ} (hw : (Layer.conv g).Within δ (.conv l)) (hl : l.Is nf n p q K b .none) :
    ∃ G β, g.Is nf n p q G β .none := by
  have : Nonempty (Cf w F.T) := ⟨⟨Scalar.pi, Scalar.pi⟩⟩
  obtain ⟨h1, h2, h3, h4⟩ := hw
  obtain ⟨k1, k2, k3, M, k4, k5⟩ := hl
  have hne : Nonempty (Mat (Cf w F.T)) := ⟨⟨[], (0, 0), (0, 0)⟩⟩
  obtain ⟨M', hM⟩ := exists_table nf n g.kernels.body (by rw [h1.1.length_eq, k4.2, table_length])
  obtain ⟨c, hc⟩ := exists_range_map g.biases
  rw [h2.length_eq, k2, List.length_map, List.length_range] at hc
  have h5 := h1.1
  rw [hM, k4.2, forall₂_table] at h5
  have h6 : ∀ o ch, ∃ f : Nat → Nat → Cf w F.T, o < nf → ch < n → (M' o ch).Is p q f := by
    intro o ch
    by_cases h : o < nf ∧ ch < n
    · have h7 := h5 o h.1 ch h.2
      have h8 := k5 o h.1 ch h.2
      obtain ⟨f, hf⟩ := exists_table p q (M' o ch).body (by rw [h7.1.length_eq, h8.2, table_length])
      exact ⟨f, fun _ _ => ⟨h7.2.1.trans h8.1, hf⟩⟩
    · exact ⟨fun _ _ => Classical.choice this, fun h9 h10 => (h ⟨h9, h10⟩).elim⟩
  choose K' hK using h6
  exact ⟨K', c, h4.trans k1, hc, h3.trans k3, M', ⟨h1.2.1.trans k4.1, hM⟩, fun o ho ch hch => hK o ch ho hch⟩

theorem conv_within_iff (hd : g.Is nf n p q G β .none) (hl : l.Is nf n p q K b .none) {δ : ℝ} :
    (Layer.conv g).Within δ (.conv l)
      ↔ (∀ o < nf, ∀ ch < n, ∀ a < p, ∀ e < q, (G o ch a e).Within δ (K o ch a e))
        ∧ (∀ o < nf, (β o).Within δ (b o)) ∧ g.caps = l.caps := by
  obtain ⟨k1, k2, k3, M, k4, k5⟩ := hl
  obtain ⟨h1, h2, h3, M', h4, h5⟩ := hd
  have e1 : g.caps = l.caps ↔ g.kernels.capacity = l.kernels.capacity
      ∧ ∀ o < nf, ∀ ch < n, (M' o ch).capacity = (M o ch).capacity := by
    unfold Conv.caps
    rw [Prod.mk.injEq, ← List.forall₂_eq_eq_eq, h4.2, k4.2, table_map, table_map, forall₂_table]
  have e2 : ∀ o < nf, ∀ ch < n, ((M' o ch).Rel (Cf.Within δ) (M o ch)
      ↔ (∀ a < p, ∀ e < q, (G o ch a e).Within δ (K o ch a e))
        ∧ (M' o ch).capacity = (M o ch).capacity) := by
    intro o ho ch hch
    unfold Mat.Rel
    rw [(h5 o ho ch hch).2, (k5 o ho ch hch).2, (h5 o ho ch hch).1, (k5 o ho ch hch).1, forall₂_table]
    tauto
  show (Mat.Rel (Mat.Rel _) g.kernels l.kernels ∧ List.Forall₂ _ g.biases l.biases ∧ g.func = l.func
    ∧ g.inputFeaturesLen = l.inputFeaturesLen) ↔ _
  rw [e1, Mat.Rel, h4.2, k4.2, h4.1, k4.1, h2, k2, h3, k3, h1, k1, forall₂_table, forall₂_range]
  constructor
  · rintro ⟨⟨i1, -, i2⟩, i3, -⟩
    exact ⟨fun o ho ch hch => ((e2 o ho ch hch).mp (i1 o ho ch hch)).1, i3, i2,
      fun o ho ch hch => ((e2 o ho ch hch).mp (i1 o ho ch hch)).2⟩
  · rintro ⟨i1, i2, i3, i4⟩
    exact ⟨⟨fun o ho ch hch => (e2 o ho ch hch).mpr ⟨i1 o ho ch hch, i4 o ho ch hch⟩, rfl, i3⟩, i2, rfl, rfl⟩

end

/-- The distances of convolutional layers are those of the dense layers on the patches. -/
theorem SameWeights.near (h : SameWeights nf n p q .none l d) (h' : SameWeights nf n p q .none l' d')
    (hk : l'.caps = l.caps) (hc : d'.weights.capacity = d.weights.capacity) {δ : ℝ} :
    Layer.Within (F := Format.exact) δ (.conv l') (.conv l) ↔ Layer.Within (F := Format.exact) δ (.dense d') (.dense d) := by
  obtain ⟨K, b, W, h1, h2, h3⟩ := h
  obtain ⟨K', b', W', h1', h2', h3'⟩ := h'
  refine (conv_within_iff (F := Format.exact) h1' h1).trans (Iff.trans ?_ (within_iff (F := Format.exact) h2' h2).symm)
  refine and_congr ⟨fun h o ho i hi => ?_, fun h o ho ch hch a ha e he => ?_⟩ (and_congr Iff.rfl (iff_of_true hk hc))
  · have hpq : 0 < p * q := Nat.pos_of_ne_zero fun h0 => by simp [h0] at hi
    have hq : 0 < q := Nat.pos_of_mul_pos_left hpq
    have i1 : i / (p * q) < n := Nat.div_lt_of_lt_mul (by rwa [Nat.mul_comm])
    have i2 : i % (p * q) / q < p := Nat.div_lt_of_lt_mul (by rw [Nat.mul_comm q p]; exact Nat.mod_lt _ hpq)
    have i3 : i % (p * q) % q < q := Nat.mod_lt _ hq
    have e : i = i / (p * q) * (p * q) + (i % (p * q) / q * q + i % (p * q) % q) := by
      rw [Nat.div_add_mod', Nat.div_add_mod']
    have := h o ho _ i1 _ i2 _ i3
    rwa [← h3 o ho _ i1 _ i2 _ i3, ← h3' o ho _ i1 _ i2 _ i3, ← e] at this
  · have e1 : a * q + e < p * q := by nlinarith
    have := h o ho (ch * (p * q) + (a * q + e)) (by
      have : (ch + 1) * (p * q) ≤ n * (p * q) := Nat.mul_le_mul_right _ hch
      rw [Nat.succ_mul] at this
      omega)
    rwa [h3 o ho _ hch _ ha _ he, h3' o ho _ hch _ ha _ he] at this

theorem near_image {R C : Nat} {η : ℝ} {x : Net (Cf w ℝ)} (h : x.Near η (imageNet nf R C l)) :
    ∃ l' : Conv (Cf w ℝ), x = imageNet nf R C l' ∧ Layer.Within (F := Format.exact) η (.conv l') (.conv l) := by
  obtain ⟨a, t, ha, ht, e⟩ := List.forall₂_cons_right_iff.mp h
  obtain ⟨a', t', ha', ht', rfl⟩ := List.forall₂_cons_right_iff.mp ht
  obtain rfl := List.forall₂_nil_right_iff.mp ht'
  cases x
  cases e
  cases a with
  | conv l' =>
    cases a' with
    | flatten f =>
      obtain rfl := ha'.1
      exact ⟨l', rfl, ha.1⟩
    | dense | conv | reduce => exact ha'.1.elim
  | dense | reduce | flatten => exact ha.1.elim

theorem image_near {R C : Nat} {η : ℝ} (h : Layer.Within (F := Format.exact) η (.conv l') (.conv l)) :
    (imageNet nf R C l').Near η (imageNet nf R C l) :=
  .cons ⟨h, nofun⟩ (.cons ⟨rfl, nofun⟩ .nil)

theorem head_near {pre : List (Layer (Cf w ℝ))} {η : ℝ} (h0 : 0 ≤ η)
    (h : Layer.Within (F := Format.exact) η (.dense d') (.dense d)) : (withHead pre d').Near η (withHead pre d) :=
  List.rel_append (forall₂_refl (fun e => ⟨Layer.Within.mono (F := Format.exact) h0 (Layer.near_refl e),
    fun _ h => h⟩) pre) (.cons ⟨h, nofun⟩ .nil)

theorem image_caps {R C : Nat} {S : List (TrainStep (Cf w ℝ))}
    (ht : (imageNet nf R C l).train S = some (imageNet nf R C l')) : l'.caps = l.caps := by
  obtain ⟨e, h1, h2⟩ := train_after ht (i := 0) (e := .conv l') rfl
  cases h1
  exact h2

/-- A dense layer on the patches with a given capacity. -/
theorem exists_dense (h : l.Linear nf n p q) (cap : Nat × Nat) :
    ∃ d, SameWeights nf n p q .none l d ∧ d.weights.capacity = cap := by
  obtain ⟨d, K, b, W, h1, h2, h3⟩ := exists_sameDense h
  exact ⟨{ d with weights := { d.weights with capacity := cap } }, ⟨K, b, W, h1, h2, h3⟩, rfl⟩

/-! ## Training -/

theorem epochs_map {α β : Type} (g : β → TrainStep α) (bs : List β) (k : Nat) :
    epochs (bs.map g) k = (List.replicate k bs).flatten.map g := by
  rw [epochs, List.map_flatten, List.map_replicate]

/-- Epochs of images and epochs of their patches. -/
theorem image_epochs (hf : 0 < nf) (hn : 0 < n) (hp : 1 ≤ p ∧ p ≤ r) (hq : 1 ≤ q ∧ q ≤ c)
    (hb : ∀ x ∈ bs, Images nf n p q r c x.pts ∧ x.pts ≠ []) (h : SameWeights nf n p q .none l d) (k : Nat) :
    ∃ l' d', (imageNet nf (r - p + 1) (c - q + 1) l).train (epochs (bs.map Part.call) k)
        = some (imageNet nf (r - p + 1) (c - q + 1) l')
      ∧ (withHead (patchFront n p q) d).train (epochs ((bs.map (Part.patches nf p q r c)).map Part.call) k)
        = some (withHead (patchFront n p q) d')
      ∧ SameWeights nf n p q .none l' d' := by
  obtain ⟨l', d', h1, h2, h3⟩ := C119_training (none_setting (w := w) hf hn hp hq) h
    ((List.replicate k bs).flatten.map fun x => (x.pts, x.loss, (⟨x.rate, 0⟩ : Cf w ℝ))) (by
      intro st hst
      obtain ⟨x, hx, rfl⟩ := List.mem_map.mp hst
      obtain ⟨y, hy, hxy⟩ := List.mem_flatten.mp hx
      obtain rfl := List.eq_of_mem_replicate hy
      exact hb x hxy)
  rw [List.map_map] at h1
  refine ⟨l', d', ?_, ?_, h3⟩
  · rw [epochs_map]
    exact h1
  · rw [← h2, List.map_map, List.map_map, epochs_map]
    congr 1
    refine List.map_congr_left fun x _ => ?_
    simp only [Function.comp_apply, Part.call, Part.patches, timesRate, zero_mul]

/-- C127, convolutional layers. If the patches of the images determine the kernels and biases of a convolutional layer
without activation and the learning rates are below the thresholds, every exact run is stable, with every distance `R`. -/
theorem C127_images (hf : 0 < nf) (hn : 0 < n) (hp : 1 ≤ p ∧ p ≤ r) (hq : 1 ≤ q ∧ q ≤ c)
    (hb : ∀ x ∈ bs, x.FineImages nf n p q r c)
    (hd : Determined (patchFront n p q) nf (n * (p * q)) (bs.map (Part.patches nf p q r c)))
    {L : Nat → Conv (Cf w ℝ)} (hr : ImageEpochs nf n p q r c bs L) {R : ℝ} (hR : 0 < R) :
    Attracts R (bs.map Part.call) (fun T => imageNet nf (r - p + 1) (c - q + 1) (L T))
      ∧ ∀ (T : Nat) (x : Net (Cf w ℝ)), x.Near R (imageNet nf (r - p + 1) (c - q + 1) (L T)) →
        ∀ k, SteadyRun x (epochs (bs.map Part.call) k) := by
  obtain ⟨D, hD, hrun⟩ := hr.patches hf hn hp hq hb
  have hfr := patch_front (w := w) hn hp.1 hq.1
  obtain ⟨hA, -⟩ := C127_linear hfr hf
    (by
      intro x hx
      obtain ⟨y, hy, rfl⟩ := List.mem_map.mp hx
      exact (hb y hy).patches hp hq) hd (by simp [patchFront]) hrun hR
  have hcap : ∀ T, (D T).weights.capacity = (D 0).weights.capacity := fun T => hfr.capacity (hrun.train T)
  have hcaps : ∀ T, (L T).caps = (L 0).caps := fun T => image_caps (hr.train T)
  have key : ∀ (T k : Nat) (η ε : ℝ), 0 ≤ η →
      (∀ y : Net (Cf w ℝ), y.Near η (withHead (patchFront n p q) (D T)) → ∃ y' : Net (Cf w ℝ),
        y.train (epochs ((bs.map (Part.patches nf p q r c)).map Part.call) k) = some y'
        ∧ y'.Near ε (withHead (patchFront n p q) (D (T + k)))) →
      ∀ x : Net (Cf w ℝ), x.Near η (imageNet nf (r - p + 1) (c - q + 1) (L T)) → ∃ x' : Net (Cf w ℝ),
        x.train (epochs (bs.map Part.call) k) = some x'
        ∧ x'.Near ε (imageNet nf (r - p + 1) (c - q + 1) (L (T + k))) := by
    intro T k η ε h0 hy x hx
    obtain ⟨l, rfl, h1⟩ := near_image hx
    obtain ⟨K, b, hK⟩ := hr.linear T
    have hl : l.Linear nf n p q := conv_within_is (F := Format.exact) h1 hK
    obtain ⟨d, h2, h3⟩ := exists_dense hl (D T).weights.capacity
    have hcl : l.caps = (L T).caps := by
      obtain ⟨K', b', hK'⟩ := hl
      exact ((conv_within_iff (F := Format.exact) hK' hK).mp h1).2.2
    obtain ⟨y', h4, h5⟩ := hy _ (head_near h0 (((hD T).near h2 hcl h3).mp h1))
    obtain ⟨l', d', h6, h7, h8⟩ := image_epochs hf hn hp hq (fun x hx => ⟨(hb x hx).sized, (hb x hx).ne⟩) h2 k
    obtain rfl := Option.some.inj (h4.symm.trans h7)
    obtain ⟨d'', h9, h10⟩ := near_head hfr.fixed h5
    obtain rfl := withHead_inj h9
    refine ⟨_, h6, image_near (((hD (T + k)).near h8 ?_ ?_).mpr h10)⟩
    · rw [image_caps h6, hcl, hcaps, hcaps (T + k)]
    · rw [hfr.capacity h7, h3, hcap, hcap (T + k)]
  refine ⟨⟨hR, fun d hd => by simp [imageNet] at hd, fun T => ?_, ?_, fun ε hε => ?_, fun ε hε => ?_⟩, fun T x hx k => ?_⟩
  · have h3 := hr.train (T + 1)
    have e : (List.replicate (T + 1) bs).flatten.map Part.call
        = (List.replicate T bs).flatten.map Part.call ++ bs.map Part.call := by
      rw [List.replicate_succ', List.flatten_append, List.map_append]
      simp
    rw [e, Net.train_join, hr.train T] at h3
    exact h3
  · obtain ⟨B, hB⟩ := hA.bounded
    refine ⟨B, fun T => ?_⟩
    obtain ⟨d'', h9, h10⟩ := near_head hfr.fixed (hB T)
    obtain rfl := withHead_inj h9
    exact image_near (((hD 0).near (hD T) (hcaps T) (hcap T)).mpr h10)
  · obtain ⟨η, h1, h2⟩ := hA.stays ε hε
    exact ⟨η, h1, fun T x hx k => key T k η ε h1.le (fun y hy => h2 T y hy k) x hx⟩
  · obtain ⟨k₀, h2⟩ := hA.comes ε hε
    exact ⟨k₀, fun T x hx k hk => key T k R ε hR.le (fun y hy => h2 T y hy k hk) x hx⟩
  · obtain ⟨l, rfl, h1⟩ := near_image hx
    obtain ⟨K, b, hK⟩ := hr.linear T
    obtain ⟨K', b', hK'⟩ := conv_within_is (F := Format.exact) h1 hK
    refine Net.Smooth.run (fun e he => .inl ?_) _
    simp only [imageNet, List.mem_cons, List.not_mem_nil, or_false] at he
    rcases he with rfl | rfl
    · exact hK'.2.2.1
    · rfl

/-! ## Non-vacuity -/

/-- Images of one pixel. -/
theorem exPoint_patches (x : ℝ) (f : LossFunc) (α : ℝ) :
    Part.patches 1 1 1 1 1 (⟨[exPoint x], f, α⟩ : Part .w64) = ⟨[exPoint x], f, α⟩ := by
  simp [Part.patches, allPatches, patchesOf, exPoint, patchAt, pixelAt, table, Mat.fromBody, List.range_succ]

/-- A stable run of a convolutional layer. -/
example (f : LossFunc) : ∃ (L : Nat → Conv (Cf .w64 ℝ)),
    Attracts 1 ([(⟨[exPoint 0], f, 1 / 2⟩ : Part .w64), ⟨[exPoint 1], f, 1 / 2⟩].map Part.call)
      (fun T => imageNet 1 1 1 (L T)) := by
  obtain ⟨h1, h2, -, -⟩ := exLong f
  have hfine : ∀ x ∈ [(⟨[exPoint 0], f, 1 / 2⟩ : Part .w64), ⟨[exPoint 1], f, 1 / 2⟩], x.FineImages 1 1 1 1 1 1 := by
    intro x hx
    have h3 := h1 x hx
    have h4 : allPatches 1 1 1 1 1 x.pts = x.pts := by
      simp only [List.mem_cons, List.not_mem_nil, or_false] at hx
      rcases hx with rfl | rfl <;> exact congrArg Part.pts (exPoint_patches _ f (1 / 2))
    exact ⟨h3.ne, h3.sized, h3.pos, by rw [h4]; exact h3.small⟩
  obtain ⟨L, -, hL⟩ := C121_images_run (w := .w64) (nf := 1) (n := 1) (p := 1) (q := 1) (r := 1) (c := 1) one_pos one_pos
    ⟨le_rfl, le_rfl⟩ ⟨le_rfl, le_rfl⟩ (fun x hx => ⟨(hfine x hx).sized, (hfine x hx).ne⟩)
    (l := ⟨1, Mat.fromBody [Mat.fromBody [0] (1, 1)] (1, 1), [0], .none⟩)
    ⟨fun _ _ _ _ => 0, fun _ => 0, rfl, rfl, rfl, fun _ _ => Mat.fromBody [0] (1, 1), ⟨rfl, rfl⟩, fun _ _ _ _ => ⟨rfl, rfl⟩⟩
  refine ⟨L, (C127_images one_pos one_pos ⟨le_rfl, le_rfl⟩ ⟨le_rfl, le_rfl⟩ hfine ?_ hL one_pos).1⟩
  rw [List.map_cons, List.map_cons, List.map_nil, exPoint_patches, exPoint_patches]
  exact h2

end Renplex
