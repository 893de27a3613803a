import Verif.Props.DenseGrad
/-!
# Back-propagation through a chain of layers

The backward pass is followed layer by layer. `Mode` says what is known about the two cotangent
vectors the code carries along (the derivative with respect to the activations and the one with
respect to their conjugates).
-/

namespace Renplex
open Filter Topology ComplexConjugate

/-- What holds at a boundary between two layers: `full` – the second vector is the conjugate of the
first; `any` – nothing is known about the second vector; `start` – the values at this boundary do not
depend on any parameter. -/
inductive Mode
  | start
  | any
  | full

variable {w : Width}

/-- Number of scalars in a value. -/
def Size.len : Size → Nat
  | .vec n => n
  | .maps n r c => n * (r * c)

/-- A value of extent `σ` whose scalars, in storage order, are `f 0, f 1, …`. -/
def IOType.HasFlat {α : Type} : IOType α → Size → (Nat → α) → Prop
  | .scalar v, .vec n, f => v = (List.range n).map f
  | .matrix ms, .maps n r c, f => MapsAre ms n r c fun ch i j => f (ch * (r * c) + (i * c + j))
  | _, _, _ => False

/-- What is assumed of the two cotangents. -/
def Mode.Adm (m : Mode) (n : Nat) (g gc : Nat → Cf w ℝ) : Prop :=
  match m with
  | .full => ∀ k, k < n → gc k = CplxOps.conj (g k)
  | _ => True

/-- One step of the backward pass. -/
def Layer.back {α P : Type} [CplxOps α P] (l : Layer α) (prev : IOType α) (d dc : List α) :
    Run (LayerVec α × List α × List α) :=
  if l.propagates then
    (l.computeDerivatives prev d dc >>= unwrap).map fun r => ((r.1, r.2.1), r.2.2.1, r.2.2.2)
  else some (([], []), d, dc)

theorem backGrads_cons {α P : Type} [CplxOps α P] (prev : IOType α) (l : Layer α)
    (rest : List (IOType α × Layer α)) (d dc : List α) :
    backGrads ((prev, l) :: rest) d dc
      = l.back prev d dc >>= fun r => (backGrads rest r.2.1 r.2.2).map (r.1 :: ·) := by
  rw [backGrads, Layer.back]
  split
  · cases h : (l.computeDerivatives prev d dc >>= unwrap) <;> simp
  · rfl

/-- A family of curves through the values `a`. -/
def Curves (n : Nat) (a : Nat → Cf w ℝ) (c : Nat → ℝ → ℂ) (v : Nat → ℂ) : Prop :=
  ∀ k, k < n → HasDerivAt (c k) (v k) 0 ∧ c k 0 = (a k).toC

/-- The backward step of one layer is right. -/
def LayerRight (m m' : Mode) (l : Layer (Cf w ℝ)) (prev : IOType (Cf w ℝ)) (σ σ' : Size)
    (a a' : Nat → Cf w ℝ) : Prop :=
  ∀ g gc, m'.Adm σ'.len g gc → ∃ γ g' gc',
    l.back prev ((List.range σ'.len).map g) ((List.range σ'.len).map gc)
      = some (γ, (List.range σ.len).map g', (List.range σ.len).map gc')
    ∧ m.Adm σ.len g' gc' ∧ γ.Fits l
    ∧ ∀ δ : LayerVec (Cf w ℝ), δ.Fits l → ∀ c v, Curves σ.len a c v →
      (m = .start → ∀ k, k < σ.len → v k = 0) →
      ∃ c' v', Curves σ'.len a' c' v' ∧ (m' = .start → ∀ k, k < σ'.len → v' k = 0)
        ∧ (∀ᶠ s : ℝ in 𝓝 0, ∀ X : IOType (Cf w ℝ), X.HasFlat σ (fun k => Cf.ofC (c k s)) →
            ∃ Y, (l.move δ s).forward X = some (.ok Y) ∧ Y.HasFlat σ' fun k => Cf.ofC (c' k s))
        ∧ (∑ k ∈ Finset.range σ'.len, (g k).toC * v' k).re
          = (∑ k ∈ Finset.range σ.len, (g' k).toC * v k).re
            + (pairing γ.1 δ.1 + pairing γ.2 δ.2).re

/-- The pairs the backward pass goes through, last layer first. -/
def backPairs {α : Type} (ls : List (Layer α)) (x : IOType α) (ys : List (IOType α)) :
    List (IOType α × Layer α) :=
  (x :: ys).reverse.tail.zip ls.reverse

/-- The backward pass through a chain of layers is right. -/
def ChainRight (m : Mode) (ls : List (Layer (Cf w ℝ))) (x : IOType (Cf w ℝ))
    (ys : List (IOType (Cf w ℝ))) (σ : Size) (a : Nat → Cf w ℝ) : Prop :=
  ∀ g gc, m.Adm σ.len g gc → ∃ gs,
    backGrads (backPairs ls x ys) ((List.range σ.len).map g) ((List.range σ.len).map gc)
      = some gs
    ∧ List.Forall₂ LayerVec.Fits gs.reverse ls
    ∧ ∀ δs, List.Forall₂ LayerVec.Fits δs ls → ∃ c v, Curves σ.len a c v
      ∧ (m = .start → ∀ k, k < σ.len → v k = 0)
      ∧ (∀ᶠ s : ℝ in 𝓝 0, ∃ Y, (List.zipWith (fun l δ => Layer.move l δ s) ls δs).foldlM
            (fun acc layer => Net.fwd layer acc) x = some Y
          ∧ Y.HasFlat σ fun k => Cf.ofC (c k s))
      ∧ (∑ k ∈ Finset.range σ.len, (g k).toC * v k).re = (pairAll gs.reverse δs).re

theorem ChainRight.nil {x : IOType (Cf w ℝ)} {σ : Size} {a : Nat → Cf w ℝ}
    (h : x.HasFlat σ a) : ChainRight .start [] x [] σ a := by
  intro g gc _
  refine ⟨[], by simp [backPairs, backGrads], by simp, ?_⟩
  intro δs hδ
  cases hδ
  refine ⟨fun k _ => (a k).toC, fun _ => 0, fun k _ => ⟨hasDerivAt_const _ _, rfl⟩,
    fun _ _ _ => rfl, Eventually.of_forall fun s => ⟨x, rfl, ?_⟩, by simp [pairAll]⟩
  simpa using h

theorem backPairs_append {α : Type} (ls : List (Layer α)) (l : Layer α) (x prev y : IOType α)
    (ys : List (IOType α)) (hp : (x :: ys).getLast? = some prev) :
    backPairs (ls ++ [l]) x (ys ++ [y]) = (prev, l) :: backPairs ls x ys := by
  unfold backPairs
  have : (x :: ys).reverse = prev :: (x :: ys).reverse.tail := by
    have h : (x :: ys).reverse.head? = some prev := by rw [List.head?_reverse, hp]
    cases h2 : (x :: ys).reverse with
    | nil => rw [h2] at h; cases h
    | cons p t => rw [h2] at h; cases h; rfl
  rw [← List.cons_append, List.reverse_append, List.reverse_append]
  simp only [List.reverse_singleton, List.singleton_append, List.tail_cons]
  rw [this, List.zip_cons_cons]
  rfl

theorem pairAll_append (gs δs : List (LayerVec (Cf w ℝ))) (g δ : LayerVec (Cf w ℝ))
    (h : gs.length = δs.length) :
    pairAll (gs ++ [g]) (δs ++ [δ]) = pairAll gs δs + (pairing g.1 δ.1 + pairing g.2 δ.2) := by
  unfold pairAll
  rw [List.zipWith_append h]
  simp

theorem ChainRight.snoc {m m' : Mode} {ls : List (Layer (Cf w ℝ))} {l : Layer (Cf w ℝ)}
    {x prev y : IOType (Cf w ℝ)} {ys : List (IOType (Cf w ℝ))} {σ σ' : Size} {a a' : Nat → Cf w ℝ}
    (hp : (x :: ys).getLast? = some prev) (h : ChainRight m ls x ys σ a)
    (hl : LayerRight m m' l prev σ σ' a a') :
    ChainRight m' (ls ++ [l]) x (ys ++ [y]) σ' a' := by
  intro g gc hg
  obtain ⟨γ, g', gc', h1, h2, h3, h4⟩ := hl g gc hg
  obtain ⟨gs, k1, k2, k3⟩ := h g' gc' h2
  refine ⟨γ :: gs, ?_, ?_, ?_⟩
  · rw [backPairs_append _ _ _ _ _ _ hp, backGrads_cons, h1]
    simp [k1]
  · rw [List.reverse_cons]
    exact List.rel_append k2 (.cons h3 .nil)
  · intro δs' hδ
    obtain ⟨δs, δt, rfl, hδ1, hδ2⟩ : ∃ δs δt, δs' = δs ++ δt ∧ List.Forall₂ LayerVec.Fits δs ls
        ∧ List.Forall₂ LayerVec.Fits δt [l] := by
      refine ⟨δs'.take ls.length, δs'.drop ls.length, (List.take_append_drop _ _).symm, ?_, ?_⟩
      · have := List.forall₂_take ls.length hδ
        simpa using this
      · have := List.forall₂_drop ls.length hδ
        simpa using this
    cases hδ2 with
    | cons hδ2 t => cases t with
      | nil =>
        rename_i δ
        obtain ⟨c, v, c1, c2, c3, c4⟩ := k3 δs hδ1
        obtain ⟨c', v', d1, d2, d3, d4⟩ := h4 δ hδ2 c v c1 c2
        refine ⟨c', v', d1, d2, ?_, ?_⟩
        · filter_upwards [c3, d3] with s hs hs'
          obtain ⟨X, e1, e2⟩ := hs
          obtain ⟨Y, e3, e4⟩ := hs' X e2
          refine ⟨Y, ?_, e4⟩
          rw [List.zipWith_append hδ1.length_eq.symm, List.foldlM_append, e1]
          simp [Net.fwd, e3, unwrap]
        · rw [List.reverse_cons, pairAll_append _ _ _ _
            (k2.length_eq.trans hδ1.length_eq.symm), Complex.add_re, ← c4, d4]

theorem ChainRight.to_any {ls : List (Layer (Cf w ℝ))} {x : IOType (Cf w ℝ)}
    {ys : List (IOType (Cf w ℝ))} {σ : Size} {a : Nat → Cf w ℝ}
    (h : ChainRight .start ls x ys σ a) : ChainRight .any ls x ys σ a := by
  intro g gc hg
  obtain ⟨gs, h1, h2, h3⟩ := h g gc trivial
  refine ⟨gs, h1, h2, fun δs hδ => ?_⟩
  obtain ⟨c, v, k1, -, k3⟩ := h3 δs hδ
  exact ⟨c, v, k1, fun h => (by cases h), k3⟩

theorem ChainRight.to_full {ls : List (Layer (Cf w ℝ))} {x : IOType (Cf w ℝ)}
    {ys : List (IOType (Cf w ℝ))} {σ : Size} {a : Nat → Cf w ℝ}
    (h : ChainRight .any ls x ys σ a) : ChainRight .full ls x ys σ a := by
  intro g gc hg
  obtain ⟨gs, h1, h2, h3⟩ := h g gc trivial
  refine ⟨gs, h1, h2, fun δs hδ => ?_⟩
  obtain ⟨c, v, k1, -, k3⟩ := h3 δs hδ
  exact ⟨c, v, k1, fun h => (by cases h), k3⟩

theorem IOType.HasFlat.congr {α : Type} {y : IOType α} {σ : Size} {f g : Nat → α}
    (h : y.HasFlat σ f) (he : ∀ k, k < σ.len → f k = g k) : y.HasFlat σ g := by
  cases y with
  | scalar v => cases σ with
    | vec n => exact Eq.trans h (range_map_congr he)
    | maps n r c => exact h
  | matrix ms => cases σ with
    | vec n => exact h
    | maps n r c =>
      refine ⟨h.1, fun ch m hm => ⟨(h.2 ch m hm).1, ?_⟩⟩
      rw [(h.2 ch m hm).2]
      refine table_congr fun i hi j hj => he _ ?_
      have hch : ch < n := by
        rw [← h.1]; exact (List.getElem?_eq_some_iff.mp hm).1
      exact idx_lt hch (idx_lt hi hj)

theorem flatten_flat {α : Type} {l : Flatten} {ms : List (Mat α)} {n r c : Nat} {f : Nat → α}
    (h : (IOType.matrix ms).HasFlat (.maps n r c) f) :
    l.forward (.matrix ms) = some (.ok (.scalar ((List.range (n * (r * c))).map f))) := by
  rw [C41_flatten h, range_map_mul]
  unfold table
  congr 3
  rw [List.flatMap_def, List.flatMap_def]
  congr 1
  refine List.map_congr_left fun ch _ => ?_
  rw [range_map_mul]
  rfl

/-- A flatten layer only renames positions. -/
theorem flatten_right {l : Flatten} {prev : IOType (Cf w ℝ)} {n r c : Nat} {a : Nat → Cf w ℝ}
    (m : Mode) : LayerRight m m (.flatten l) prev (.maps n r c) (.vec (n * (r * c))) a a := by
  intro g gc hg
  refine ⟨([], []), g, gc, rfl, hg, rfl, ?_⟩
  intro δ hδ c v hc hv
  refine ⟨c, v, hc, hv, Eventually.of_forall fun s X hX => ?_, ?_⟩
  · cases X with
    | scalar v => exact absurd hX id
    | matrix ms => exact ⟨_, flatten_flat (l := l) hX, rfl⟩
  · have : δ = ([], []) := hδ
    rw [this]
    simp [pairing, Size.len]

theorem pairing_table (u n : Nat) (G D : Nat → Nat → Cf w ℝ) :
    pairing (table u n G) (table u n D)
      = ∑ j ∈ Finset.range u, ∑ i ∈ Finset.range n, (G j i).toC * (D j i).toC := by
  unfold pairing
  rw [table_zipWith, table_sum]

theorem pairing_range (u : Nat) (G D : Nat → Cf w ℝ) :
    pairing ((List.range u).map G) ((List.range u).map D)
      = ∑ j ∈ Finset.range u, (G j).toC * (D j).toC := by
  unfold pairing
  rw [List.zipWith_map, List.zipWith_self, sum_range_list]

/-- The activation derivatives the code uses for this layer are right at the values that occur. -/
def Layer.ActsRight (l : Layer (Cf w ℝ)) (prev : IOType (Cf w ℝ)) : Prop :=
  ∀ q, l.preActs prev = some q → ∀ z ∈ q, DerivsRight l.act z

/-- The activation of this layer is holomorphic at the values that occur. -/
def Layer.ActsHolo (l : Layer (Cf w ℝ)) (prev : IOType (Cf w ℝ)) : Prop :=
  ∀ q, l.preActs prev = some q → ∀ z ∈ q, Act.dConjActivate l.act z = some 0

theorem dense_right {l : Dense (Cf w ℝ)} (hw : (Layer.dense l).WF) {prev y : IOType (Cf w ℝ)}
    {σ : Size} {a : Nat → Cf w ℝ} (hx : prev.HasFlat σ a)
    (hf : l.forward prev = some (.ok y)) (hs : (Layer.dense l).ActsRight prev) (m : Mode)
    (hm : m = .full ∨ m = .any ∧ (Layer.dense l).ActsHolo prev) :
    ∃ u a', y.HasFlat (.vec u) a' ∧ LayerRight .full m (.dense l) prev σ (.vec u) a a' := by
  have : Nonempty (Cf w ℝ) := ⟨0⟩
  cases prev with
  | matrix ms => simp [Dense.forward] at hf
  | scalar v =>
    cases σ with
    | maps n r c => exact absurd hx id
    | vec n =>
      have hv : v = (List.range n).map a := hx
      subst hv
      obtain ⟨W, b, hIs⟩ := Dense.exists_is hw
      set u := l.weights.shape.1 with hu
      have hn2 : l.weights.shape.2 = n := by
        by_contra hne
        rw [C38_wrong_length hIs _ (by simpa using Ne.symm hne)] at hf
        cases hf
      rw [hn2] at hIs
      have hn : 0 < n := by
        by_contra h0
        obtain rfl : n = 0 := by omega
        rcases C38_refuted_no_inputs hIs (.scalar ((List.range 0).map a)) with h | h <;>
          rw [h] at hf <;> cases hf
      have hq : (Layer.dense l).preActs (.scalar ((List.range n).map a))
          = some ((List.range u).map fun j => (∑ i ∈ Finset.range n, W j i * a i) + b j) := by
        simp only [Layer.preActs, Dense.computeQ_is hIs hn, dotN_sum, LawfulOps.addAssign_eq]
      have hd : ∀ j, ∃ d dc, j < u →
          Act.dActivate l.func ((∑ i ∈ Finset.range n, W j i * a i) + b j) = some d
          ∧ Act.dConjActivate l.func ((∑ i ∈ Finset.range n, W j i * a i) + b j) = some dc
          ∧ RunDerivAt (Act.activate l.func) ((∑ i ∈ Finset.range n, W j i * a i) + b j) d dc := by
        intro j
        by_cases hj : j < u
        · obtain ⟨d, dc, h⟩ := hs _ hq _ (List.mem_map.mpr ⟨j, List.mem_range.mpr hj, rfl⟩)
          exact ⟨d, dc, fun _ => h⟩
        · exact ⟨0, 0, fun h => absurd h hj⟩
      choose d dc hd using hd
      have hact : ∀ j, ∃ a', j < u →
          Act.activate l.func ((∑ i ∈ Finset.range n, W j i * a i) + b j) = some a' := by
        intro j
        by_cases hj : j < u
        · obtain ⟨-, -, F, h, -⟩ := hd j hj
          have := h.self_of_nhds
          rw [Cf.ofC_toC] at this
          exact ⟨_, fun _ => this⟩
        · exact ⟨0, fun h => absurd h hj⟩
      choose a' ha' using hact
      have hfw := C38_forward_exact_partial hIs hn a a' ha'
      rw [hf] at hfw
      simp only [Option.some.injEq, Except.ok.injEq] at hfw
      subst hfw
      refine ⟨u, a', rfl, ?_⟩
      intro g gc hg
      have hg' : ∀ j, j < u → CplxOps.conj (dc j) * gc j
          = CplxOps.conj (dc j) * CplxOps.conj (g j) := by
        intro j hj
        rcases hm with rfl | ⟨rfl, hh⟩
        · rw [hg j hj]
        · have h0 := hh _ hq _ (List.mem_map.mpr ⟨j, List.mem_range.mpr hj, rfl⟩)
          have h1 := (hd j hj).2.1
          simp only [Layer.act] at h0
          rw [h0] at h1
          rw [← Option.some.inj h1, conj_zero', zero_mul, zero_mul]
      refine ⟨(table u n fun j i => a i * (d j * g j + CplxOps.conj (dc j) * gc j),
        (List.range u).map fun j => d j * g j + CplxOps.conj (dc j) * gc j),
        (fun i => ∑ j ∈ Finset.range u, W j i * (d j * g j + CplxOps.conj (dc j) * gc j)),
        (fun i => CplxOps.conj (∑ j ∈ Finset.range u,
          W j i * (d j * g j + CplxOps.conj (dc j) * gc j))), ?_, fun _ _ => rfl, ?_, ?_⟩
      · unfold Layer.back
        rw [if_pos (by rfl)]
        have := Dense.computeDerivatives_is hIs hn a g gc d dc (fun j hj => (hd j hj).1)
          (fun j hj => (hd j hj).2.1)
        simp only [Layer.computeDerivatives, Size.len]
        rw [this]
        simp [unwrap]
      · simp [LayerVec.Fits, Layer.propagates, Dense.propagates, Layer.paramsLen, Dense.paramsLen,
          table_length, hn2, hIs.2.1, hu]
      · intro δ hδ c v hc _
        simp only [LayerVec.Fits, Layer.propagates, Dense.propagates, Layer.paramsLen,
          Dense.paramsLen, if_true] at hδ
        obtain ⟨D, hD⟩ := exists_table u n δ.1 (by rw [hδ.1, hn2])
        obtain ⟨e, he⟩ := exists_range_map δ.2
        rw [hδ.2, show l.biases.length = u by rw [hIs.2.1]; simp] at he
        obtain ⟨c', hc1, hc2⟩ := Dense.tangent hIs hn a c v hc D e d dc (fun j hj => (hd j hj).2.2)
          a' hf
        refine ⟨c', _, hc1, fun h => ?_, ?_, ?_⟩
        · rcases hm with rfl | ⟨rfl, -⟩ <;> cases h
        · filter_upwards [hc2] with s hs X hX
          cases X with
          | matrix ms => exact absurd hX id
          | scalar x =>
            have hx' : x = (List.range n).map fun k => Cf.ofC (c k s) := hX
            subst hx'
            refine ⟨.scalar ((List.range u).map fun j => Cf.ofC (c' j s)), ?_, rfl⟩
            rw [← hs, Layer.move, ← hD, ← he]
        · rw [hD, he, pairing_table, pairing_range]
          have := Dense.pairing_identity (u := u) (n := n) (fun j i => (W j i).toC)
            (fun j i => (D j i).toC) (fun i => (a i).toC) (fun j => (e j).toC) v
            (fun j => (g j).toC) (fun j => (gc j).toC) (fun j => (d j).toC) (fun j => (dc j).toC)
            (by
              intro j hj
              have h := congrArg Cf.toC (hg' j hj)
              rw [Cf.toC_hom_mul, Cf.toC_hom_mul] at h
              exact h)
          refine Eq.trans this ?_
          rw [Complex.add_re, add_comm]
          congr 2
          · refine Finset.sum_congr rfl fun i _ => ?_
            rw [Cf.toC_sum]
            rfl

end Renplex
