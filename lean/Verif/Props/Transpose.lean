import Verif.Spec.Transpose
import Verif.Props.MirrorNet
/-!
# C128: a transposed network on transposed images
-/

namespace Renplex

section flat
variable {α : Type}

theorem transIdx_idx {r c : Nat} (o : Nat) {i j : Nat} (hi : i < c) (hj : j < r) :
    transIdx r c (o * (c * r) + (i * r + j)) = o * (r * c) + (j * c + i) := by
  obtain ⟨h1, h2, h3⟩ := flat_dec o hi hj
  unfold transIdx
  rw [h1, h2, h3]

theorem flatOf_trans {n r c : Nat} (F : Nat → Nat → Nat → α) {k : Nat} (hk : k < n * (c * r)) :
    flatOf c r (fun o => transposed (F o)) k = flatOf r c F (transIdx r c k) := by
  obtain ⟨o, i, j, -, hi, hj, rfl⟩ := flat_split hk
  rw [transIdx_idx o hi hj, flatOf_idx _ o hi hj, flatOf_idx _ o hj hi]
  rfl

theorem sum_transIdx [AddCommMonoid α] (n r c : Nat) (F : Nat → α) :
    ∑ k ∈ Finset.range (n * (c * r)), F (transIdx r c k) = ∑ k ∈ Finset.range (n * (r * c)), F k := by
  rw [sum_cube, sum_cube]
  refine Finset.sum_congr rfl fun o _ => ?_
  rw [Finset.sum_comm]
  refine Finset.sum_congr rfl fun j hj => Finset.sum_congr rfl fun i hi => ?_
  rw [transIdx_idx o (Finset.mem_range.mp hi) (Finset.mem_range.mp hj)]

end flat

section sums
variable {α P : Type} [CplxOps α P] [CommRing α] [LawfulOps α]

theorem convPre_trans {n p q : Nat} (X : Nat → Nat → Nat → α) (K : Nat → Nat → Nat → Nat → α) (b : Nat → α)
    (o i j : Nat) :
    convPre n q p (fun ch => transposed (X ch)) (fun o ch => transposed (K o ch)) b o i j
      = convPre n p q X K b o j i := by
  rw [convPre_sum, convPre_sum]
  congr 1
  refine Finset.sum_congr rfl fun ch _ => ?_
  rw [Finset.sum_comm]
  rfl

omit [CplxOps α P] [LawfulOps α] in
theorem kernelGrad_trans {R C : Nat} (x m m' : Nat → Nat → α)
    (hm : ∀ i, i < C → ∀ j, j < R → m' i j = m j i) (a b : Nat) :
    kernelGrad C R (transposed x) m' a b = transposed (kernelGrad R C x m) a b := by
  unfold kernelGrad transposed
  rw [Finset.sum_comm]
  exact Finset.sum_congr rfl fun j hj => Finset.sum_congr rfl fun i hi => by
    rw [hm i (Finset.mem_range.mp hi) j (Finset.mem_range.mp hj)]

omit [CommRing α] [LawfulOps α] in
theorem padded_trans {R C p q : Nat} (m m' : Nat → Nat → α)
    (hm : ∀ i, i < C → ∀ j, j < R → m' i j = m j i) (i j : Nat) :
    padded C R q p m' i j = padded R C p q m j i := by
  unfold padded
  by_cases h0 : q ≤ i ∧ i < q + C ∧ p ≤ j ∧ j < p + R
  · rw [if_pos h0, if_pos ⟨h0.2.2.1, h0.2.2.2, h0.1, h0.2.1⟩, hm _ (by omega) _ (by omega)]
  · rw [if_neg h0, if_neg (by omega)]

omit [LawfulOps α] in
theorem inputGrad_trans {R C p q : Nat} (m m' k : Nat → Nat → α)
    (hm : ∀ i, i < C → ∀ j, j < R → m' i j = m j i) (i j : Nat) :
    inputGrad C R q p m' (transposed k) i j = inputGrad R C p q m k j i := by
  unfold inputGrad
  rw [Finset.sum_comm]
  exact Finset.sum_congr rfl fun a _ => Finset.sum_congr rfl fun b _ => by
    rw [padded_trans m m' hm]
    rfl

theorem upMap_trans {r c p q : Nat} (ho : TransOff p q) (k f : Nat → Nat → α) (i j : Nat) :
    upMap c r q p (transposed k) (transposed f) i j = transposed (upMap r c p q k f) i j := by
  change _ = upMap r c p q k f j i
  unfold upMap
  rw [corr_sum, corr_sum, Finset.sum_comm]
  refine Finset.sum_congr rfl fun a _ => Finset.sum_congr rfl fun b _ => ?_
  rw [padded_trans (spread p q (upOff p) (leftOff p q) f)]
  · rfl
  · intro i _ j _
    rw [ho.1, ho.2]
    unfold spread transposed
    simp only [and_comm]

end sums

/-! ## The layers of transposed networks -/

variable {α P : Type}

/-- Maps, transposed on the other side. -/
def Iface.trans (α : Type) (n r c : Nat) : Iface α :=
  { feat := TransImage n r c, back := fun d d' => ∃ G, d = cube n r c G ∧ d' = cube n c r fun ch => transposed (G ch) }

/-- The same after they have been flattened. -/
def Iface.transFlat (α : Type) (n r c : Nat) : Iface α :=
  { feat := fun x x' => ∃ X, x = .scalar (cube n r c X) ∧ x' = .scalar (cube n c r fun ch => transposed (X ch)),
    back := fun d d' => ∃ G, d = cube n r c G ∧ d' = cube n c r fun ch => transposed (G ch) }

variable [CplxOps α P] [CommRing α] [LawfulOps α]

/-- A convolutional layer with transposed kernels. -/
def Kind.transConv (nf n p q r c : Nat) : Kind α where
  rel l l' := ∃ a a' K b f, l = .conv a ∧ l' = .conv a' ∧ a.Is nf n p q K b f
    ∧ a'.Is nf n q p (fun o ch => transposed (K o ch)) b f ∧ ActTotal α f
    ∧ 0 < nf ∧ 0 < n ∧ 1 ≤ p ∧ p ≤ r ∧ 1 ≤ q ∧ q ≤ c
  vec g g' := ∃ D e, g = (kvec nf n p q D, (List.range nf).map e)
    ∧ g' = (kvec nf n q p fun o ch => transposed (D o ch), (List.range nf).map e)
  inp := .trans α n r c
  out := .trans α nf (r - p + 1) (c - q + 1)
  wf := by
    rintro l l' ⟨a, a', K, b, f, rfl, rfl, h, h', -⟩
    exact ⟨h.wf, h'.wf⟩
  forward := by
    rintro l l' x x' ⟨a, a', K, b, f, rfl, rfl, ha, ha', ⟨hA, -⟩, hf, hn, hp, hpr, hq, hqc⟩
      ⟨ms, ms', X, rfl, rfl, hX, hX'⟩
    choose A hA using hA
    refine ⟨_, _, Conv.forward_maps ha hf hn hp hpr hq hqc hX A hA,
      Conv.forward_maps ha' hf hn hq hqc hp hpr hX' A hA, _, _, _, rfl, rfl,
      mapsAre_fromBody _ _ _ (fun o i j => A (convPre n p q X K b o i j)), ?_⟩
    refine (mapsAre_fromBody nf (c - q + 1) (r - p + 1) fun o i j => A (convPre n q p
      (fun ch => transposed (X ch)) (fun o ch => transposed (K o ch)) b o i j)).congr'
      fun o _ i hi j hj => ?_
    rw [convPre_trans X K b o]
    rfl
  backward := by
    rintro l l' x x' d d' dc dc' ⟨a, a', K, b, f, rfl, rfl, ha, ha', ⟨-, hD, hDC⟩, hf, hn, hp, hpr,
      hq, hqc⟩ ⟨ms, ms', X, rfl, rfl, hX, hX'⟩ ⟨G, rfl, rfl⟩ ⟨GC, rfl, rfl⟩
    choose D hD using hD
    choose DC hDC using hDC
    have e1 := Conv.back_is ha hf hn hp hpr hq hqc hX G GC D DC hD hDC
    have e2 := Conv.back_is ha' hf hn hq hqc hp hpr hX' (fun o => transposed (G o))
      (fun o => transposed (GC o)) D DC hD hDC
    have hpre := fun o i j => convPre_trans (n := n) (p := p) (q := q) X K b o i j
    refine ⟨_, _, _, _, _, _, e1, e2, ⟨_, _, rfl, ?_⟩, Conv.fits_kvec ha _ _, Conv.fits_kvec ha' _ _,
      ⟨_, rfl, ?_⟩, _, rfl, ?_⟩
    · rw [Prod.mk.injEq]
      constructor
      · refine kvec_congr fun o _ ch _ i _ j _ => ?_
        refine kernelGrad_trans (X ch) _ _ (fun i _ j _ => ?_) i j
        rw [hpre o i j]
        rfl
      · refine List.map_congr_left fun o _ => ?_
        rw [Finset.sum_comm]
        refine Finset.sum_congr rfl fun j _ => Finset.sum_congr rfl fun i _ => ?_
        rw [hpre o i j]
        rfl
    · refine cube_congr fun ch _ i _ j _ => ?_
      refine Finset.sum_congr rfl fun o _ => ?_
      refine inputGrad_trans _ _ (K o ch) (fun i _ j _ => ?_) i j
      rw [hpre o i j]
      rfl
    · refine cube_congr fun ch _ i _ j _ => ?_
      refine Finset.sum_congr rfl fun o _ => ?_
      refine inputGrad_trans _ _ (K o ch) (fun i _ j _ => ?_) i j
      rw [hpre o i j]
      rfl
  zero := by
    rintro l l' ⟨a, a', K, b, f, rfl, rfl, h, h', -⟩
    exact ⟨_, _, Conv.initAcc_kvec h, Conv.initAcc_kvec h'⟩
  add := by
    rintro a a' g g' r r' ⟨D, e, rfl, rfl⟩ ⟨E, e', rfl, rfl⟩ h h'
    exact ⟨_, _, addPair_kvec h, addPair_kvec h'⟩
  update := by
    rintro l l' g g' upd - ⟨a, a', K, b, f, rfl, rfl, ha, ha', ht⟩ ⟨D, e, rfl, rfl⟩ - -
    obtain ⟨m, e1, e2⟩ := Conv.move_is ha upd D e
    obtain ⟨m', e1', e2'⟩ := Conv.move_is ha' upd (fun o ch => transposed (D o ch)) e
    exact ⟨m, m', _, _, f, e1, e1', e2, e2', ht⟩

/-- A transposed pooling layer. -/
def Kind.transPool (n r c p q : Nat) : Kind α where
  rel l l' := ∃ a a', l = .reduce a ∧ l' = .reduce a' ∧ a.blockSize = (p, q) ∧ TransPool a a'
    ∧ (Layer.reduce a).Total ∧ (Layer.reduce a).TotalBack ∧ 0 < n ∧ 0 < r ∧ 0 < c ∧ 0 < p ∧ 0 < q
  vec g g' := g = ([], []) ∧ g' = ([], [])
  inp := .trans α n (r * p) (c * q)
  out := .trans α n r c
  wf := by rintro l l' ⟨a, a', rfl, rfl, -⟩; exact ⟨trivial, trivial⟩
  forward := by
    rintro l l' x x' ⟨a, a', rfl, rfl, hs, hm, ht, -, hn, hr, hc, hp, hq⟩ ⟨ms, ms', X, rfl, rfl, hX, hX'⟩
    have : Nonempty α := ⟨0⟩
    have ht' : ∀ b : List α, ∃ y, b.length = p * q → a.blockFunc b = some y := by
      intro b
      by_cases hb : b.length = p * q
      · obtain ⟨y, hy⟩ := ht b (by rw [hs]; exact hb)
        exact ⟨y, fun _ => hy⟩
      · exact ⟨0, fun h => absurd h hb⟩
    choose B hB using ht'
    have hs' : a'.blockSize = (q, p) := by rw [hm.1, hs]
    obtain ⟨o, e1, e2⟩ := C41_reduce hs hp hq hr hc hX
      (Y := fun ch i j => B (table p q fun a b => X ch (i * p + a) (j * q + b)))
      (fun ch _ i _ j _ => hB _ (table_length _ _ _))
    obtain ⟨o', e1', e2'⟩ := C41_reduce hs' hq hp hc hr hX'
      (Y := fun ch => transposed fun i j => B (table p q fun a b =>
        X ch (i * p + a) (j * q + b))) (fun ch _ i hi j hj => by
        have h1 := hm.2.2.1 fun a b => X ch (j * p + a) (i * q + b)
        rw [hs] at h1
        exact h1.trans (hB _ (table_length _ _ _)))
    exact ⟨_, _, e1, e1', o, o', _, rfl, rfl, e2, e2'⟩
  backward := by
    rintro l l' x x' d d' dc dc' ⟨a, a', rfl, rfl, hs, hm, -, ⟨hk, hks, hodd, -⟩, hn, hr, hc, hp, hq⟩
      ⟨ms, ms', X, rfl, rfl, hX, hX'⟩ ⟨G, rfl, rfl⟩ ⟨GC, rfl, rfl⟩
    have : Nonempty α := ⟨0⟩
    obtain ⟨k, hk⟩ := Mat.Rect.exists_is hk
    rw [hks] at hk
    obtain ⟨hs', -, -, m1, m2⟩ := hm
    rw [hs] at hodd m2 hs'
    have hodd' : p % 2 = 1 → (q - 1) / 2 < p := by
      intro h
      have := m2.2
      unfold leftOff upOff at this
      rw [if_neg (by omega), if_neg (by omega)] at this
      omega
    have hfit : ∀ a : Reduce α, LayerVec.Fits (([], []) : LayerVec α) (.reduce a) := by
      intro a
      unfold LayerVec.Fits
      rw [if_pos (show (Layer.reduce a).propagates = true from rfl)]
      exact ⟨rfl, rfl⟩
    refine ⟨_, _, _, _, _, _, Reduce.back_is hs hk hp hq hodd hn hr hc G GC hX,
      Reduce.back_is hs' (m1 k hk) hq hp hodd' hn hc hr _ _ hX', ⟨rfl, rfl⟩, hfit _, hfit _,
      ⟨fun o => upMap r c p q k (G o), rfl, ?_⟩, fun o => upMap r c p q k (GC o), rfl, ?_⟩ <;>
    exact cube_congr fun o _ i _ j _ => upMap_trans m2 k _ i j
  zero := by
    rintro l l' ⟨a, a', rfl, rfl, -⟩
    exact ⟨rfl, rfl⟩
  add := by
    rintro a a' g g' r r' ⟨rfl, rfl⟩ ⟨rfl, rfl⟩ h h'
    exact ⟨addPair_nil h, addPair_nil h'⟩
  update := by
    rintro l l' g g' upd - ⟨a, a', rfl, rfl, h⟩ - - -
    exact ⟨a, a', rfl, rfl, h⟩

/-- A `Flatten` layer after transposed maps. -/
def Kind.transFlatten (n r c : Nat) : Kind α where
  rel l l' := ∃ a a' : Flatten, l = .flatten a ∧ l' = .flatten a' ∧ a.inputSize = ((r, c), n)
    ∧ a'.inputSize = ((c, r), n)
  vec g g' := g = ([], []) ∧ g' = ([], [])
  inp := .trans α n r c
  out := .transFlat α n r c
  wf := by rintro l l' ⟨a, a', rfl, rfl, -⟩; exact ⟨trivial, trivial⟩
  forward := by
    rintro l l' x x' ⟨a, a', rfl, rfl, -⟩ ⟨ms, ms', X, rfl, rfl, hX, hX'⟩
    exact ⟨_, _, C41_flatten (l := a) hX, C41_flatten (l := a') hX', X, rfl, rfl⟩
  backward := by
    rintro l l' x x' d d' dc dc' ⟨a, a', rfl, rfl, -⟩ - ⟨G, rfl, rfl⟩ ⟨GC, rfl, rfl⟩
    exact ⟨_, _, _, _, _, _, rfl, rfl, ⟨rfl, rfl⟩, rfl, rfl, ⟨G, rfl, rfl⟩, GC, rfl, rfl⟩
  zero := by
    rintro l l' ⟨a, a', rfl, rfl, -⟩
    exact ⟨rfl, rfl⟩
  add := by
    rintro a a' g g' r r' ⟨rfl, rfl⟩ ⟨rfl, rfl⟩ h h'
    exact ⟨addPair_nil h, addPair_nil h'⟩
  update := by
    rintro l l' g g' upd - ⟨a, a', rfl, rfl, h⟩ - - -
    exact ⟨a, a', rfl, rfl, h⟩

/-- A dense layer that reads transposed maps. -/
def Kind.transColumns (u n r c : Nat) : Kind α where
  rel l l' := ∃ a a' V b f, l = .dense a ∧ l' = .dense a' ∧ a.Is u (n * (r * c)) V b f
    ∧ a'.Is u (n * (c * r)) (fun j i => V j (transIdx r c i)) b f ∧ ActTotal α f
    ∧ 0 < n * (r * c)
  vec g g' := ∃ A e, g = (table u (n * (r * c)) A, (List.range u).map e)
    ∧ g' = (table u (n * (c * r)) fun j i => A j (transIdx r c i), (List.range u).map e)
  inp := .transFlat α n r c
  out := .same α (.vec u)
  wf := by
    rintro l l' ⟨a, a', V, b, f, rfl, rfl, h, h', -⟩
    exact ⟨h.wf_of, h'.wf_of⟩
  forward := by
    rintro l l' x x' ⟨a, a', V, b, f, rfl, rfl, ha, ha', ⟨hA, -⟩, hn⟩ ⟨X, rfl, rfl⟩
    choose A hA using hA
    refine ⟨.scalar ((List.range u).map fun j => A ((∑ i ∈ Finset.range (n * (r * c)),
      V j i * flatOf r c X i) + b j)), _, ?_, ?_, rfl, by simp [IOType.HasSize]⟩
    · rw [cube_flat]
      exact C38_forward_exact_partial ha hn _ _ fun j _ => hA _
    · rw [cube_flat]
      refine C38_forward_exact_partial ha' (by rwa [Nat.mul_comm c r]) _ _ fun j _ => ?_
      rw [hA]
      congr 3
      rw [← sum_transIdx n r c fun i => V j i * flatOf r c X i]
      refine Finset.sum_congr rfl fun i hi => ?_
      rw [flatOf_trans _ (Finset.mem_range.mp hi)]
  backward := by
    rintro l l' x x' d d' dc dc' ⟨a, a', V, b, f, rfl, rfl, ha, ha', ⟨-, hD, hDC⟩, hn⟩ ⟨X, rfl, rfl⟩
      ⟨rfl, hd⟩ ⟨rfl, hdc⟩
    have : Nonempty α := ⟨0⟩
    obtain ⟨g, hg⟩ := exists_range_map d'
    obtain ⟨gc, hgc⟩ := exists_range_map dc'
    rw [hd] at hg
    rw [hdc] at hgc
    simp only [Size.len] at hg hgc
    subst hg hgc
    choose D hD using hD
    choose DC hDC using hDC
    have hpre : ∀ j, ∑ i ∈ Finset.range (n * (c * r)), V j (transIdx r c i)
        * flatOf c r (fun ch => transposed (X ch)) i
        = ∑ i ∈ Finset.range (n * (r * c)), V j i * flatOf r c X i := by
      intro j
      rw [← sum_transIdx n r c fun i => V j i * flatOf r c X i]
      refine Finset.sum_congr rfl fun i hi => ?_
      rw [flatOf_trans _ (Finset.mem_range.mp hi)]
    obtain ⟨mid, hmid⟩ : ∃ mid : Nat → α, ∀ j, mid j
        = D ((∑ i ∈ Finset.range (n * (r * c)), V j i * flatOf r c X i) + b j) * g j
        + CplxOps.conj (DC ((∑ i ∈ Finset.range (n * (r * c)), V j i * flatOf r c X i) + b j)) * gc j :=
      ⟨_, fun _ => rfl⟩
    have e1 := Dense.back_is ha hn (flatOf r c X) g gc D DC hD hDC mid hmid
    have e2 := Dense.back_is ha' (by rwa [Nat.mul_comm c r]) (flatOf c r fun ch => transposed (X ch)) g gc D DC hD
      hDC mid fun j => by rw [hpre]; exact hmid j
    rw [← cube_flat] at e1 e2
    have hflat : ∀ F : Nat → α, ∃ G, (List.range (n * (r * c))).map F = cube n r c G
        ∧ (List.range (n * (c * r))).map (fun i => F (transIdx r c i))
          = cube n c r fun ch => transposed (G ch) := by
      intro F
      refine ⟨fun o i j => F (o * (r * c) + (i * c + j)), range_map_cube _ _ _ _, ?_⟩
      rw [range_map_cube]
      exact cube_congr fun o _ i hi j hj => by rw [transIdx_idx o hi hj]; rfl
    refine ⟨_, _, _, _, _, _, e1, e2, ⟨_, _, rfl, ?_⟩, Dense.fits_table ha _ _,
      Dense.fits_table ha' _ _, hflat fun i => ∑ j ∈ Finset.range u, V j i * mid j,
      hflat fun i => CplxOps.conj (∑ j ∈ Finset.range u, V j i * mid j)⟩
    rw [Prod.mk.injEq]
    exact ⟨table_congr fun j _ i hi => by rw [flatOf_trans _ hi], rfl⟩
  zero := by
    rintro l l' ⟨a, a', V, b, f, rfl, rfl, h, h', -⟩
    exact ⟨_, _, Dense.initAcc_table h, Dense.initAcc_table h'⟩
  add := by
    rintro a a' g g' r r' ⟨A, e, rfl, rfl⟩ ⟨B, e', rfl, rfl⟩ h h'
    exact ⟨_, _, addPair_dense h, addPair_dense h'⟩
  update := by
    rintro l l' g g' upd - ⟨a, a', V, b, f, rfl, rfl, ha, ha', ht⟩ ⟨A, e, rfl, rfl⟩ - -
    obtain ⟨m, e1, e2⟩ := Dense.zipParams_is ha (A := A) (s := e) upd
    obtain ⟨m', e1', e2'⟩ := Dense.zipParams_is ha' (A := fun j i => A j (transIdx r c i))
      (s := e) upd
    exact ⟨m, m', _, _, f, e1, e1', e2, e2', ht⟩

end Renplex
