import Verif.Props.Network
/-!
# C46: when a network that was built can forward
-/

namespace Renplex
variable {α P : Type}

theorem Dense.exists_is [Nonempty α] {l : Dense α} (hw : (Layer.dense l).WF) :
    ∃ W b, l.Is l.weights.shape.1 l.weights.shape.2 W b l.func := by
  obtain ⟨W, hW⟩ := Mat.Rect.exists_is hw.1
  obtain ⟨b, hb⟩ := exists_range_map l.biases
  exact ⟨W, b, hW, by rw [hw.2] at hb; exact hb, rfl⟩

theorem Conv.exists_is [Nonempty α] {l : Conv α} (hw : (Layer.conv l).WF) {p q : Nat}
    (hs : ∀ k ∈ l.kernels.body, k.shape = (p, q)) :
    ∃ K b, l.Is l.kernels.shape.1 l.kernels.shape.2 p q K b l.func := by
  obtain ⟨h1, h2, h3, h4, -⟩ := hw
  have : Nonempty (Mat α) := ⟨Mat.fromBody [] (0, 0)⟩
  obtain ⟨M, hM⟩ := Mat.Rect.exists_is h1
  obtain ⟨b, hb⟩ := exists_range_map l.biases
  have : ∀ o ch, ∃ f : Nat → Nat → α, o < l.kernels.shape.1 → ch < l.kernels.shape.2 →
      (M o ch).Is p q f := by
    intro o ch
    by_cases h : o < l.kernels.shape.1 ∧ ch < l.kernels.shape.2
    · have hm : M o ch ∈ l.kernels.body := by
        rw [hM.2]
        exact List.mem_iff_getElem?.mpr ⟨_, table_getElem? _ _ M h.1 h.2⟩
      obtain ⟨f, hf⟩ := Mat.Rect.exists_is (h4 _ hm)
      exact ⟨f, fun _ _ => by rw [hs _ hm] at hf; exact hf⟩
    · obtain ⟨a⟩ := ‹Nonempty α›
      exact ⟨fun _ _ => a, fun h1 h2 => absurd ⟨h1, h2⟩ h⟩
  choose K hK using this
  exact ⟨K, b, h2.symm, by rw [h3] at hb; exact hb, rfl, M, hM, fun o ho ch hc => hK o ch ho hc⟩

theorem MapsAre.exists_of [Nonempty α] {maps : List (Mat α)} {n r c : Nat}
    (h : (IOType.matrix maps).HasSize (.maps n r c)) : ∃ X, MapsAre maps n r c X := by
  have : ∀ ch : Nat, ∃ f : Nat → Nat → α, ∀ m : Mat α, maps[ch]? = some m → m.Is r c f := by
    intro ch
    cases hm : maps[ch]? with
    | none =>
      obtain ⟨a⟩ := ‹Nonempty α›
      exact ⟨fun _ _ => a, fun _ h => by cases h⟩
    | some m =>
      have hmem := List.mem_iff_getElem?.mpr ⟨ch, hm⟩
      obtain ⟨f, hf⟩ := Mat.Rect.exists_is (h.2 m hmem).1
      refine ⟨f, fun m' hm' => ?_⟩
      cases hm'
      rw [(h.2 m hmem).2] at hf
      exact hf
  choose X hX using this
  exact ⟨X, h.1, hX⟩

theorem MapsAre.hasSize {maps : List (Mat α)} {n r c : Nat} {X : Nat → Nat → Nat → α}
    (h : MapsAre maps n r c X) : (IOType.matrix maps).HasSize (.maps n r c) := by
  refine ⟨h.1, fun m hm => ?_⟩
  obtain ⟨i, hi⟩ := List.mem_iff_getElem?.mp hm
  exact ⟨(h.2 i m hi).rect, (h.2 i m hi).1⟩

/-- A value of the extent a layer is fit to produce matches its advertised output shape. -/
theorem Layer.Fits.matches_output {l : Layer α} (hw : l.WF) {s s' : Size} (h : l.Fits s s')
    {y : IOType α} (hy : y.HasSize s') : y.Matches l.outputShape := by
  cases l with
  | dense l =>
    cases s <;> cases s' <;> try exact h.elim
    cases y with
    | scalar v =>
      change v.length = l.biases.length
      rw [hw.2, h.2]; exact hy
    | matrix => exact hy.elim
  | conv l =>
    cases s <;> cases s' <;> try exact h.elim
    cases y with
    | scalar v => exact hy.elim
    | matrix ms =>
      change ms.length = l.kernels.shape.1
      rw [h.2.2.1]; exact hy.1
  | reduce l =>
    cases s <;> cases s' <;> try exact h.elim
    cases y with
    | scalar v => exact hy.elim
    | matrix ms =>
      change ms.length = l.inputFeaturesLen
      rw [← h.2.1, h.1]; exact hy.1
  | flatten l =>
    cases s <;> cases s' <;> try exact h.elim
    cases y with
    | scalar v =>
      change v.length = l.inputSize.1.1 * l.inputSize.1.2 * l.inputSize.2
      rw [h.1, Nat.mul_comm, ← h.2]; exact hy
    | matrix => exact hy.elim

/-- A well-formed layer whose function never panics turns every value of an extent it fits into a
value of the extent it is fit to produce. -/
theorem Layer.forward_fits [CplxOps α P] {l : Layer α} (hw : l.WF) (ht : l.Total) {s s' : Size}
    (h : l.Fits s s') {x : IOType α} (hx : x.HasSize s) :
    ∃ y, l.forward x = some (.ok y) ∧ y.HasSize s' := by
  have : Nonempty α := ⟨BasicOps.zero⟩
  cases l with
  | dense l =>
    cases s <;> cases s' <;> try exact h.elim
    rename_i n u
    cases x with
    | matrix => exact hx.elim
    | scalar v =>
      obtain ⟨hn, hs⟩ := h
      obtain ⟨W, b, hW⟩ := Dense.exists_is hw
      rw [hs] at hW
      obtain ⟨f, hf⟩ := exists_range_map v
      have hx : v.length = n := hx
      rw [hx] at hf
      choose g hg using ht
      have key := C38_forward_partial hW hn f (fun j => g _) (fun j hj => hg _)
      exact ⟨_, by rw [hf]; exact key, by simp [IOType.HasSize]⟩
  | conv l =>
    cases s <;> cases s' <;> try exact h.elim
    rename_i n r c nf r' c'
    cases x with
    | scalar => exact hx.elim
    | matrix maps =>
      obtain ⟨hn, hnf, hs, p, q, hk, hp, hpr, hq, hqc, rfl, rfl⟩ := h
      obtain ⟨K, b, hK⟩ := Conv.exists_is hw hk
      rw [hs] at hK
      obtain ⟨X, hX⟩ := MapsAre.exists_of hx
      choose g hg using ht
      obtain ⟨outs, h1, h2⟩ := C40_forward hK hnf hn hp hpr hq hqc hX (fun o i j => g _)
        (fun o _ i _ j _ => hg _)
      exact ⟨_, h1, h2.hasSize⟩
  | reduce l =>
    cases s <;> cases s' <;> try exact h.elim
    cases x with
    | scalar => exact hx.elim
    | matrix maps =>
      obtain ⟨rfl, -, hr, hc, hp, hq, rfl, rfl⟩ := h
      obtain ⟨X, hX⟩ := MapsAre.exists_of hx
      choose g hg using ht
      obtain ⟨outs, h1, h2⟩ := C41_reduce (l := l) rfl hp hq hr hc hX
        (Y := fun ch i j => g ((List.range l.blockSize.1).flatMap fun a =>
          (List.range l.blockSize.2).map fun b => X ch (i * l.blockSize.1 + a)
            (j * l.blockSize.2 + b)) (by simp [List.length_flatMap]))
        (fun ch _ i _ j _ => hg _ _)
      exact ⟨_, h1, h2.hasSize⟩
  | flatten l =>
    cases s <;> cases s' <;> try exact h.elim
    rename_i n r c u
    cases x with
    | scalar => exact hx.elim
    | matrix maps =>
      obtain ⟨hs, rfl⟩ := h
      refine ⟨_, rfl, ?_⟩
      change (maps.flatMap Mat.getBody).length = n * (r * c)
      rw [List.length_flatMap]
      have : ∀ m ∈ maps, (fun m : Mat α => m.getBody.length) m = r * c := by
        intro m hm
        obtain ⟨h1, h2⟩ := hx.2 m hm
        rw [Mat.Rect, h2] at h1
        exact h1
      rw [List.map_congr_left this]
      simp [hx.1]

theorem FitsChain.forward [CplxOps α P] {ls : List (Layer α)} {s s' : Size}
    (h : FitsChain ls s s') (hw : ∀ l ∈ ls, l.WF) (ht : ∀ l ∈ ls, l.Total) {x : IOType α}
    (hx : x.HasSize s) :
    ∃ ys y, Chain ls x ys ∧ (x :: ys).getLast? = some y ∧ y.HasSize s'
      ∧ ∀ l, ls.getLast? = some l → y.Matches l.outputShape := by
  induction h generalizing x with
  | nil s => exact ⟨[], x, .nil x, rfl, hx, by simp⟩
  | @cons l ls s s₁ s' h t ih =>
    obtain ⟨y₁, h1, hy₁⟩ := Layer.forward_fits (hw l (by simp)) (ht l (by simp)) h hx
    obtain ⟨ys, y, h2, h3, h4, h5⟩ := ih (fun l hl => hw l (by simp [hl]))
      (fun l hl => ht l (by simp [hl])) hy₁
    refine ⟨y₁ :: ys, y, .cons h1 h2, by rw [List.getLast?_cons_cons]; exact h3, h4, ?_⟩
    intro l' hl'
    cases ls with
    | nil =>
      cases t
      obtain rfl : l = l' := by simpa using hl'
      exact h.matches_output (hw l (by simp)) h4
    | cons a ls => exact h5 l' (by rw [List.getLast?_cons_cons] at hl'; exact hl')

/-- C46, what holds: if the extents fit from layer to layer (vector lengths agree, kernels fit in
the maps, block sizes divide them, Flatten was given their size) and the layers' own functions never
panic, then every input of the first extent is forwarded without panicking to a prediction of the
last extent, which matches the network's advertised output shape. -/
theorem C46_sized_partial [CplxOps α P] (n : Net α) (hn : n.layers ≠ [])
    (hw : ∀ l ∈ n.layers, l.WF) (ht : ∀ l ∈ n.layers, l.Total) {s s' : Size}
    (hf : FitsChain n.layers s s') (x : IOType α) (hx : x.HasSize s) :
    ∃ y os, n.forward x = some (.ok y) ∧ y.HasSize s' ∧ n.outputShape = .ok os
      ∧ y.Matches os := by
  obtain ⟨ys, y, h1, h2, h3, h4⟩ := hf.forward hw ht hx
  obtain ⟨l, hl⟩ : ∃ l, n.layers.getLast? = some l := ⟨_, List.getLast?_eq_some_getLast hn⟩
  refine ⟨y, l.outputShape, (C44_forward n hn x _).mpr ⟨ys, y, h1, ?_, rfl⟩, h3, ?_, h4 l hl⟩
  · have := h1.length
    cases ys with
    | nil => exact absurd (List.length_eq_zero_iff.mp this.symm) hn
    | cons a ys => rw [List.getLast?_cons_cons] at h2; exact h2
  · simp [Net.outputShape, hl]

theorem FitsChain.of_scalar (ls : List (Layer α)) (hw : ∀ l ∈ ls, l.WF)
    (he : ∀ l ∈ ls, l.isEmpty = false)
    (hc : ∀ (i : Nat) (l l' : Layer α), ls[i]? = some l → ls[i + 1]? = some l' →
      l.outputShape = l'.inputShape) (k : Nat) (hk : 0 < k)
    (h0 : ∀ l, ls.head? = some l → l.inputShape = .scalar k) :
    ∃ u, FitsChain ls (.vec k) (.vec u) := by
  induction ls generalizing k with
  | nil => exact ⟨k, .nil _⟩
  | cons l ls ih =>
    have hl := h0 l rfl
    have hwl := hw l (by simp)
    have hel := he l (by simp)
    cases l with
    | dense l =>
      have hu : 0 < l.biases.length := by
        simp only [Layer.isEmpty, Dense.isEmpty, Bool.or_eq_false_iff, beq_eq_false_iff_ne] at hel
        omega
      obtain ⟨u, hu'⟩ := ih (fun l hl => hw l (by simp [hl])) (fun l hl => he l (by simp [hl]))
        (fun i a b ha hb => hc (i + 1) a b (by simpa using ha) (by simpa using hb))
        l.biases.length hu (by
          intro l' hl'
          refine (hc 0 (.dense l) l' rfl ?_).symm
          rw [List.getElem?_cons_succ, ← List.head?_eq_getElem?]; exact hl')
      refine ⟨u, .cons (s₁ := .vec l.biases.length) ⟨hk, ?_⟩ hu'⟩
      have : l.weights.shape.2 = k := by simpa [Layer.inputShape, Dense.inputShape] using hl
      rw [hwl.2, ← this]
    | conv l => simp [Layer.inputShape, Conv.inputShape] at hl
    | reduce l => simp [Layer.inputShape, Reduce.inputShape] at hl
    | flatten l => simp [Layer.inputShape, Flatten.inputShape] at hl

/-- C46, what holds without any further condition on sizes: a network built by accepted calls whose
input shape is a positive number of scalars forwards every vector of that length, without
panicking, to a vector of the advertised length — provided the layers are as the constructors build
them and their activations never panic. -/
theorem C46_scalar_partial [CplxOps α P] (ops : List (NetOp α)) (n : Net α)
    (h : Net.new.calls ops = some n) (hw : ∀ l ∈ n.layers, l.WF) (ht : ∀ l ∈ n.layers, l.Total)
    (k : Nat) (hk : 0 < k) (hi : n.inputShape = .ok (.scalar k)) (v : List α) (hv : v.length = k) :
    ∃ y, n.forward (.scalar v) = some (.ok (.scalar y))
      ∧ n.outputShape = .ok (.scalar y.length) := by
  have hn : n.layers ≠ [] := by intro h0; simp [Net.inputShape, h0] at hi
  obtain ⟨hc, he⟩ := C43_compatible_partial ops n h
  obtain ⟨u, hu⟩ := FitsChain.of_scalar n.layers hw he hc k hk (by
    intro l hl
    obtain ⟨ls⟩ := n
    cases ls with
    | nil => simp at hl
    | cons a ls =>
      obtain rfl : a = l := by simpa using hl
      simpa [Net.inputShape] using hi)
  obtain ⟨y, os, h1, h2, h3, h4⟩ := C46_sized_partial n hn hw ht hu (.scalar v) hv
  cases y with
  | matrix => exact h2.elim
  | scalar y =>
    refine ⟨y, h1, ?_⟩
    rw [h3]
    cases os with
    | scalar m => rw [show y.length = m from h4]
    | matrix => exact h4.elim

/-- All activations of the crate's complex numbers except `ModZ` are total, in any arithmetic. -/
theorem C46_total {w : Width} {R : Type} [Scalar R] (f : ActFunc) (hf : f ≠ .modZ) (z : Cf w R) :
    ∃ y, CplxOps.activate f z = some y := by
  cases f <;> first | exact absurd rfl hf | exact ⟨_, rfl⟩

/-- C46 as stated is false: a convolutional layer with a 2×2 kernel is accepted, advertises one map
as input, and panics on a one-element map. -/
theorem C46_refuted [CplxOps α P] (a b c : α) (f : ActFunc) :
    let l : Layer α := .conv ⟨1, Mat.fromBody [Mat.fromBody [a, a, a, a] (2, 2)] (1, 1), [b], f⟩
    let x : IOType α := .matrix [Mat.fromBody [c] (1, 1)]
    Net.new.calls [.addInput l] = some ⟨[l]⟩ ∧ l.WF
      ∧ (⟨[l]⟩ : Net α).inputShape = .ok (.matrix 1) ∧ x.Matches (.matrix 1)
      ∧ (⟨[l]⟩ : Net α).forward x = none := by
  refine ⟨rfl, ?_, rfl, rfl, ?_⟩
  · refine ⟨rfl, rfl, rfl, ?_, (2, 2), ?_⟩ <;> simp [Mat.fromBody, Mat.Rect]
  · rfl

/-- C46 as stated is false also for dense networks: a layer with zero inputs is accepted and panics
on the empty vector. -/
theorem C46_refuted_no_inputs [CplxOps α P] (b : α) (f : ActFunc) :
    let l : Layer α := .dense ⟨Mat.fromBody [] (1, 0), [b], f⟩
    Net.new.calls [.addInput l] = some ⟨[l]⟩ ∧ l.WF
      ∧ (⟨[l]⟩ : Net α).inputShape = .ok (.scalar 0) ∧ (⟨[l]⟩ : Net α).forward (.scalar []) = none :=
  ⟨rfl, ⟨rfl, rfl⟩, rfl, rfl⟩

example : FitsChain exNet.layers (.vec 2) (.vec 1) :=
  .cons (s₁ := .vec 2) ⟨by omega, rfl⟩ (.cons (s₁ := .vec 1) ⟨by omega, rfl⟩ (.nil _))
/-- Convolution, block sums, flattening and a dense layer, fitting from two 1×3 maps on. -/
example : FitsChain [.conv exConv,
    .reduce ⟨1, (1, 2), fun b => some (b.foldl (· + ·) 0), Mat.fromBody [1] (1, 1)⟩,
    .flatten (.init (1, 1) 1), .dense ⟨Mat.fromBody [2, 3] (2, 1), [0, 0], .none⟩]
    (.maps 2 1 3) (.vec 2) := by
  refine .cons (s₁ := .maps 1 1 2) ⟨by omega, by omega, rfl, 1, 2, ?_, by omega, by omega, by omega,
    by omega, rfl, rfl⟩ (.cons (s₁ := .maps 1 1 1) ⟨rfl, rfl, by omega, by omega, by simp, by simp,
    rfl, rfl⟩ (.cons (s₁ := .vec 1) ⟨rfl, rfl⟩ (.cons (s₁ := .vec 2) ⟨by omega, rfl⟩ (.nil _))))
  simp [exConv, Mat.fromBody]

end Renplex
