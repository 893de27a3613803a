import Verif.Spec.Mirror
import Verif.Props.FilterNet
/-!
# C111: a mirrored network on mirrored images
-/

namespace Renplex

section rev

theorem rev_lt (f : Bool) {n i : Nat} (h : i < n) : rev f n i < n := by
  unfold rev
  split <;> omega

theorem rev_rev (f : Bool) {n i : Nat} (h : i < n) : rev f n (rev f n i) = i := by
  unfold rev
  split <;> omega

theorem rev_add (f : Bool) {r p i a : Nat} (_ : 1 ≤ p) (hpr : p ≤ r) (hi : i < r - p + 1)
    (ha : a < p) : rev f r (i + a) = rev f (r - p + 1) i + rev f p a := by
  unfold rev
  split <;> omega

theorem rev_mul (f : Bool) {r p i a : Nat} (hi : i < r) (ha : a < p) :
    rev f (r * p) (i * p + a) = rev f r i * p + rev f p a := by
  unfold rev
  split
  · have h1 := idx_lt hi ha
    have h2 : r * p = (r - 1 - i) * p + (i + 1) * p := by
      rw [← Nat.add_mul]
      congr 1
      omega
    rw [Nat.succ_mul] at h2
    omega
  · rfl

variable {α : Type} [AddCommMonoid α]

theorem sum_rev (f : Bool) (n : Nat) (F : Nat → α) :
    ∑ i ∈ Finset.range n, F (rev f n i) = ∑ i ∈ Finset.range n, F i := by
  unfold rev
  cases f
  · rfl
  · exact Finset.sum_range_reflect F n

end rev

section flat
variable {α : Type}

theorem mirrorIdx_idx (v h : Bool) {r c : Nat} (o : Nat) {i j : Nat} (hi : i < r) (hj : j < c) :
    mirrorIdx v h r c (o * (r * c) + (i * c + j)) = o * (r * c) + (rev v r i * c + rev h c j) := by
  obtain ⟨h1, h2, h3⟩ := flat_dec o hi hj
  unfold mirrorIdx
  rw [h1, h2, h3]

theorem flat_split {n r c k : Nat} (hk : k < n * (r * c)) :
    ∃ o i j, o < n ∧ i < r ∧ j < c ∧ k = o * (r * c) + (i * c + j) := by
  have hs : 0 < r * c := by
    rcases Nat.eq_zero_or_pos (r * c) with h | h
    · rw [h] at hk; simp at hk
    · exact h
  have hc : 0 < c := Nat.pos_of_mul_pos_left hs
  refine ⟨k / (r * c), k % (r * c) / c, k % (r * c) % c, Nat.div_lt_of_lt_mul (by rwa [Nat.mul_comm]),
    (Nat.div_lt_iff_lt_mul hc).mpr (Nat.mod_lt _ hs), Nat.mod_lt _ hc, ?_⟩
  rw [Nat.mul_comm (k % (r * c) / c), Nat.div_add_mod, Nat.mul_comm, Nat.div_add_mod]

theorem flatOf_mirror (v h : Bool) {n r c : Nat} (F : Nat → Nat → Nat → α) {k : Nat}
    (hk : k < n * (r * c)) :
    flatOf r c (fun o => mirrored v h r c (F o)) k = flatOf r c F (mirrorIdx v h r c k) := by
  obtain ⟨o, i, j, -, hi, hj, rfl⟩ := flat_split hk
  rw [mirrorIdx_idx v h o hi hj, flatOf_idx _ o hi hj, flatOf_idx _ o (rev_lt v hi) (rev_lt h hj)]
  rfl

theorem sum_mirrorIdx [AddCommMonoid α] (v h : Bool) (n r c : Nat) (F : Nat → α) :
    ∑ k ∈ Finset.range (n * (r * c)), F (mirrorIdx v h r c k)
      = ∑ k ∈ Finset.range (n * (r * c)), F k := by
  rw [sum_cube, sum_cube]
  refine Finset.sum_congr rfl fun o _ => ?_
  rw [← sum_rev v r fun i => ∑ j ∈ Finset.range c, F (o * (r * c) + (i * c + j))]
  refine Finset.sum_congr rfl fun i hi => ?_
  rw [← sum_rev h c fun j => F (o * (r * c) + (rev v r i * c + j))]
  refine Finset.sum_congr rfl fun j hj => ?_
  rw [mirrorIdx_idx v h o (Finset.mem_range.mp hi) (Finset.mem_range.mp hj)]

theorem MapsAre.congr' {ms : List (Mat α)} {n r c : Nat} {X Y : Nat → Nat → Nat → α}
    (h : MapsAre ms n r c X) (he : ∀ o, o < n → ∀ i, i < r → ∀ j, j < c → X o i j = Y o i j) :
    MapsAre ms n r c Y := by
  refine ⟨h.1, fun o m hm => ?_⟩
  have ho : o < n := by
    rw [← h.1]
    exact (List.getElem?_eq_some_iff.mp hm).1
  exact ⟨(h.2 o m hm).1, (h.2 o m hm).2.trans (table_congr (he o ho))⟩

theorem kvec_congr {nf n p q : Nat} {D E : Nat → Nat → Nat → Nat → α}
    (h : ∀ o, o < nf → ∀ ch, ch < n → ∀ a, a < p → ∀ b, b < q → D o ch a b = E o ch a b) :
    kvec nf n p q D = kvec nf n p q E := by
  unfold kvec
  rw [List.flatMap_def, List.flatMap_def]
  congr 1
  exact List.map_congr_left fun o ho => cube_congr (h o (List.mem_range.mp ho))

end flat

section sums
variable {α P : Type} [CplxOps α P] [CommRing α] [LawfulOps α]

theorem convPre_mirror (v h : Bool) {n p q r c : Nat} (hp : 1 ≤ p) (hpr : p ≤ r) (hq : 1 ≤ q)
    (hqc : q ≤ c) (X : Nat → Nat → Nat → α) (K : Nat → Nat → Nat → Nat → α) (b : Nat → α) (o : Nat)
    {i j : Nat} (hi : i < r - p + 1) (hj : j < c - q + 1) :
    convPre n p q (fun ch => mirrored v h r c (X ch)) (fun o ch => mirrored v h p q (K o ch)) b o i j
      = convPre n p q X K b o (rev v (r - p + 1) i) (rev h (c - q + 1) j) := by
  rw [convPre_sum, convPre_sum]
  congr 1
  refine Finset.sum_congr rfl fun ch _ => ?_
  rw [← sum_rev v p fun a => ∑ b ∈ Finset.range q, X ch (rev v (r - p + 1) i + a)
    (rev h (c - q + 1) j + b) * K o ch a b]
  refine Finset.sum_congr rfl fun a ha => ?_
  rw [← sum_rev h q fun b => X ch (rev v (r - p + 1) i + rev v p a)
    (rev h (c - q + 1) j + b) * K o ch (rev v p a) b]
  refine Finset.sum_congr rfl fun b hb => ?_
  unfold mirrored
  rw [rev_add v hp hpr hi (Finset.mem_range.mp ha), rev_add h hq hqc hj (Finset.mem_range.mp hb)]

omit [CplxOps α P] [LawfulOps α] in
theorem kernelGrad_mirror (v h : Bool) {p q r c : Nat} (hp : 1 ≤ p) (hpr : p ≤ r) (hq : 1 ≤ q)
    (hqc : q ≤ c) (x m m' : Nat → Nat → α) (hm : ∀ i, i < r - p + 1 → ∀ j, j < c - q + 1 →
      m' i j = mirrored v h (r - p + 1) (c - q + 1) m i j) {a b : Nat} (ha : a < p) (hb : b < q) :
    kernelGrad (r - p + 1) (c - q + 1) (mirrored v h r c x) m' a b
      = mirrored v h p q (kernelGrad (r - p + 1) (c - q + 1) x m) a b := by
  unfold kernelGrad mirrored
  beta_reduce
  rw [← sum_rev v (r - p + 1) fun i => ∑ j ∈ Finset.range (c - q + 1),
    x (rev v p a + i) (rev h q b + j) * m i j]
  refine Finset.sum_congr rfl fun i hi => ?_
  rw [← sum_rev h (c - q + 1) fun j => x (rev v p a + rev v (r - p + 1) i) (rev h q b + j)
    * m (rev v (r - p + 1) i) j]
  refine Finset.sum_congr rfl fun j hj => ?_
  have hi := Finset.mem_range.mp hi
  have hj := Finset.mem_range.mp hj
  rw [hm i hi j hj, Nat.add_comm a i, Nat.add_comm b j, rev_add v hp hpr hi ha,
    rev_add h hq hqc hj hb, Nat.add_comm (rev v p a), Nat.add_comm (rev h q b)]
  rfl

omit [CommRing α] [LawfulOps α] in
theorem padded_mirror (v h : Bool) {R C p q : Nat} (m m' : Nat → Nat → α)
    (hm : ∀ i, i < R → ∀ j, j < C → m' i j = mirrored v h R C m i j) {i j : Nat}
    (hi : i < R + 2 * p) (hj : j < C + 2 * q) :
    padded R C p q m' i j = padded R C p q m (rev v (R + 2 * p) i) (rev h (C + 2 * q) j) := by
  unfold padded
  by_cases h0 : p ≤ i ∧ i < p + R ∧ q ≤ j ∧ j < q + C
  · have h1 : p ≤ rev v (R + 2 * p) i ∧ rev v (R + 2 * p) i < p + R
        ∧ rev v (R + 2 * p) i - p = rev v R (i - p) := by
      unfold rev
      split <;> omega
    have h2 : q ≤ rev h (C + 2 * q) j ∧ rev h (C + 2 * q) j < q + C
        ∧ rev h (C + 2 * q) j - q = rev h C (j - q) := by
      unfold rev
      split <;> omega
    rw [if_pos h0, if_pos ⟨h1.1, h1.2.1, h2.1, h2.2.1⟩, h1.2.2, h2.2.2, hm _ (by omega) _ (by omega)]
    rfl
  · have h1 : ¬ (p ≤ rev v (R + 2 * p) i ∧ rev v (R + 2 * p) i < p + R
        ∧ q ≤ rev h (C + 2 * q) j ∧ rev h (C + 2 * q) j < q + C) := by
      unfold rev
      split <;> split <;> omega
    rw [if_neg h0, if_neg h1]

omit [LawfulOps α] in
theorem inputGrad_mirror (v h : Bool) {p q r c : Nat} (hp : 1 ≤ p) (hpr : p ≤ r) (hq : 1 ≤ q)
    (hqc : q ≤ c) (m m' k : Nat → Nat → α) (hm : ∀ i, i < r - p + 1 → ∀ j, j < c - q + 1 →
      m' i j = mirrored v h (r - p + 1) (c - q + 1) m i j) {i j : Nat} (hi : i < r) (hj : j < c) :
    inputGrad (r - p + 1) (c - q + 1) p q m' (mirrored v h p q k) i j
      = inputGrad (r - p + 1) (c - q + 1) p q m k (rev v r i) (rev h c j) := by
  unfold inputGrad
  rw [← sum_rev v p fun a => ∑ b ∈ Finset.range q, padded (r - p + 1) (c - q + 1) (p - 1) (q - 1) m
    (rev v r i + a) (rev h c j + b) * k (p - 1 - a) (q - 1 - b)]
  refine Finset.sum_congr rfl fun a ha => ?_
  rw [← sum_rev h q fun b => padded (r - p + 1) (c - q + 1) (p - 1) (q - 1) m
    (rev v r i + rev v p a) (rev h c j + b) * k (p - 1 - rev v p a) (q - 1 - b)]
  refine Finset.sum_congr rfl fun b hb => ?_
  have ha := Finset.mem_range.mp ha
  have hb := Finset.mem_range.mp hb
  rw [padded_mirror v h m m' hm (by omega) (by omega)]
  have e1 : rev v (r - p + 1 + 2 * (p - 1)) (i + a) = rev v r i + rev v p a := by
    unfold rev
    split <;> omega
  have e2 : rev h (c - q + 1 + 2 * (q - 1)) (j + b) = rev h c j + rev h q b := by
    unfold rev
    split <;> omega
  have e3 : rev v p (p - 1 - a) = p - 1 - rev v p a := by
    unfold rev
    split <;> omega
  have e4 : rev h q (q - 1 - b) = q - 1 - rev h q b := by
    unfold rev
    split <;> omega
  unfold mirrored
  rw [e1, e2, e3, e4]

omit [CommRing α] [LawfulOps α] in
theorem spread_mirror (v h : Bool) {r c p q u w : Nat} (hp : 0 < p) (hq : 0 < q)
    (hv : v = true → 2 * u + 1 = p) (hh : h = true → 2 * w + 1 = q) (f : Nat → Nat → α) {i j : Nat}
    (hi : i < r * p) (hj : j < c * q) :
    spread p q u w (mirrored v h r c f) i j
      = mirrored v h (r * p) (c * q) (spread p q u w f) i j := by
  have key : ∀ (v : Bool) (r p u i : Nat), 0 < p → (v = true → 2 * u + 1 = p) → i < r * p →
      rev v (r * p) i / p = rev v r (i / p) ∧ (rev v (r * p) i % p = u ↔ i % p = u) := by
    intro v r p u i hp hv hi
    have h1 : i % p < p := Nat.mod_lt _ hp
    have h2 : i / p < r := (Nat.div_lt_iff_lt_mul hp).mpr hi
    have h3 := rev_mul v h2 h1
    rw [Nat.div_add_mod'] at h3
    have h4 := rev_lt v h1
    rw [h3]
    constructor
    · rw [Nat.mul_comm, Nat.mul_add_div hp, Nat.div_eq_of_lt h4, Nat.add_zero]
    · rw [Nat.mul_comm, Nat.mul_add_mod, Nat.mod_eq_of_lt h4]
      unfold rev
      split
      · rename_i hv'
        have := hv hv'
        omega
      · rfl
  obtain ⟨a1, a2⟩ := key v r p u i hp hv hi
  obtain ⟨b1, b2⟩ := key h c q w j hq hh hj
  unfold spread mirrored
  simp only [a1, b1, a2, b2]

theorem upMap_mirror (v h : Bool) {r c p q : Nat} (hp : 0 < p) (hq : 0 < q)
    (hv : v = true → 2 * upOff p + 1 = p) (hh : h = true → 2 * leftOff p q + 1 = q)
    (k f : Nat → Nat → α) (hk : ∀ a, a < 3 → ∀ b, b < 3 → mirrored v h 3 3 k a b = k a b) {i j : Nat}
    (hi : i < r * p) (hj : j < c * q) :
    upMap r c p q k (mirrored v h r c f) i j
      = mirrored v h (r * p) (c * q) (upMap r c p q k f) i j := by
  change _ = upMap r c p q k f (rev v (r * p) i) (rev h (c * q) j)
  unfold upMap
  rw [corr_sum, corr_sum]
  rw [← sum_rev v 3 fun a => ∑ b ∈ Finset.range 3, padded (r * p) (c * q) 1 1
    (spread p q (upOff p) (leftOff p q) f) (rev v (r * p) i + a) (rev h (c * q) j + b) * k a b]
  refine Finset.sum_congr rfl fun a ha => ?_
  rw [← sum_rev h 3 fun b => padded (r * p) (c * q) 1 1 (spread p q (upOff p) (leftOff p q) f)
    (rev v (r * p) i + rev v 3 a) (rev h (c * q) j + b) * k (rev v 3 a) b]
  refine Finset.sum_congr rfl fun b hb => ?_
  have ha := Finset.mem_range.mp ha
  have hb := Finset.mem_range.mp hb
  have e1 : rev v (r * p + 2 * 1) (i + a) = rev v (r * p) i + rev v 3 a := by
    unfold rev
    split <;> omega
  have e2 : rev h (c * q + 2 * 1) (j + b) = rev h (c * q) j + rev h 3 b := by
    unfold rev
    split <;> omega
  have e3 := hk a ha b hb
  unfold mirrored at e3
  have e4 := padded_mirror v h (R := r * p) (C := c * q) (p := 1) (q := 1)
    (spread p q (upOff p) (leftOff p q) f) (spread p q (upOff p) (leftOff p q) (mirrored v h r c f))
    (fun i hi j hj => spread_mirror v h hp hq hv hh f hi hj) (i := i + a) (j := j + b) (by omega)
    (by omega)
  rw [e4, e1, e2, e3]

end sums

/-! ## The layers of mirrored networks -/

variable {α P : Type}

/-- Maps, mirrored on the other side. -/
def Iface.mirror (α : Type) (v h : Bool) (n r c : Nat) : Iface α :=
  { feat := MirrorImage v h n r c,
    back := fun d d' => ∃ G, d = cube n r c G ∧ d' = cube n r c fun ch => mirrored v h r c (G ch) }

/-- The same after they have been flattened. -/
def Iface.mirrorFlat (α : Type) (v h : Bool) (n r c : Nat) : Iface α :=
  { feat := fun x x' => ∃ X, x = .scalar (cube n r c X)
      ∧ x' = .scalar (cube n r c fun ch => mirrored v h r c (X ch)),
    back := fun d d' => ∃ G, d = cube n r c G ∧ d' = cube n r c fun ch => mirrored v h r c (G ch) }

variable [CplxOps α P] [CommRing α] [LawfulOps α]

/-- A convolutional layer with mirrored kernels. -/
def Kind.mirrorConv (v h : Bool) (nf n p q r c : Nat) : Kind α where
  rel l l' := ∃ a a' K b f, l = .conv a ∧ l' = .conv a' ∧ a.Is nf n p q K b f
    ∧ a'.Is nf n p q (fun o ch => mirrored v h p q (K o ch)) b f ∧ ActTotal α f
    ∧ 0 < nf ∧ 0 < n ∧ 1 ≤ p ∧ p ≤ r ∧ 1 ≤ q ∧ q ≤ c
  vec g g' := ∃ D e, g = (kvec nf n p q D, (List.range nf).map e)
    ∧ g' = (kvec nf n p q fun o ch => mirrored v h p q (D o ch), (List.range nf).map e)
  inp := .mirror α v h n r c
  out := .mirror α v h nf (r - p + 1) (c - q + 1)
  wf := by
    rintro l l' ⟨a, a', K, b, f, rfl, rfl, h, h', -⟩
    exact ⟨h.wf, h'.wf⟩
  forward := by
    rintro l l' x x' ⟨a, a', K, b, f, rfl, rfl, ha, ha', ⟨hA, -⟩, hf, hn, hp, hpr, hq, hqc⟩
      ⟨ms, ms', X, rfl, rfl, hX, hX'⟩
    choose A hA using hA
    refine ⟨_, _, Conv.forward_maps ha hf hn hp hpr hq hqc hX A hA,
      Conv.forward_maps ha' hf hn hp hpr hq hqc hX' A hA, _, _, _, rfl, rfl,
      mapsAre_fromBody _ _ _ (fun o i j => A (convPre n p q X K b o i j)), ?_⟩
    refine (mapsAre_fromBody nf (r - p + 1) (c - q + 1) fun o i j => A (convPre n p q
      (fun ch => mirrored v h r c (X ch)) (fun o ch => mirrored v h p q (K o ch)) b o i j)).congr'
      fun o _ i hi j hj => ?_
    rw [convPre_mirror v h hp hpr hq hqc X K b o hi hj]
    rfl
  backward := by
    rintro l l' x x' d d' dc dc' ⟨a, a', K, b, f, rfl, rfl, ha, ha', ⟨-, hD, hDC⟩, hf, hn, hp, hpr,
      hq, hqc⟩ ⟨ms, ms', X, rfl, rfl, hX, hX'⟩ ⟨G, rfl, rfl⟩ ⟨GC, rfl, rfl⟩
    choose D hD using hD
    choose DC hDC using hDC
    have e1 := Conv.back_is ha hf hn hp hpr hq hqc hX G GC D DC hD hDC
    have e2 := Conv.back_is ha' hf hn hp hpr hq hqc hX'
      (fun o => mirrored v h (r - p + 1) (c - q + 1) (G o))
      (fun o => mirrored v h (r - p + 1) (c - q + 1) (GC o)) D DC hD hDC
    have hpre := fun o i (hi : i < r - p + 1) j (hj : j < c - q + 1) =>
      convPre_mirror (n := n) v h hp hpr hq hqc X K b o hi hj
    refine ⟨_, _, _, _, _, _, e1, e2, ⟨_, _, rfl, ?_⟩, Conv.fits_kvec ha _ _, Conv.fits_kvec ha' _ _,
      ⟨_, rfl, ?_⟩, _, rfl, ?_⟩
    · rw [Prod.mk.injEq]
      constructor
      · refine kvec_congr fun o _ ch _ i hi j hj => ?_
        refine kernelGrad_mirror v h hp hpr hq hqc (X ch) _ _ (fun i hi j hj => ?_) hi hj
        rw [hpre o i hi j hj]
        rfl
      · refine List.map_congr_left fun o _ => ?_
        rw [← sum_rev v (r - p + 1) fun i => ∑ j ∈ Finset.range (c - q + 1),
          (D (convPre n p q X K b o i j) * G o i j
            + CplxOps.conj (DC (convPre n p q X K b o i j)) * GC o i j)]
        refine Finset.sum_congr rfl fun i hi => ?_
        rw [← sum_rev h (c - q + 1) fun j =>
          (D (convPre n p q X K b o (rev v (r - p + 1) i) j) * G o (rev v (r - p + 1) i) j
            + CplxOps.conj (DC (convPre n p q X K b o (rev v (r - p + 1) i) j))
              * GC o (rev v (r - p + 1) i) j)]
        refine Finset.sum_congr rfl fun j hj => ?_
        rw [hpre o i (Finset.mem_range.mp hi) j (Finset.mem_range.mp hj)]
        rfl
    · refine cube_congr fun ch _ i hi j hj => ?_
      refine Finset.sum_congr rfl fun o _ => ?_
      refine inputGrad_mirror v h hp hpr hq hqc _ _ (K o ch) (fun i hi j hj => ?_) hi hj
      rw [hpre o i hi j hj]
      rfl
    · refine cube_congr fun ch _ i hi j hj => ?_
      refine Finset.sum_congr rfl fun o _ => ?_
      refine inputGrad_mirror v h hp hpr hq hqc _ _ (K o ch) (fun i hi j hj => ?_) hi hj
      rw [hpre o i hi j hj]
      rfl
  zero := by
    rintro l l' ⟨a, a', K, b, f, rfl, rfl, h, h', -⟩
    exact ⟨_, _, Conv.initAcc_kvec h, Conv.initAcc_kvec h'⟩
  add := by
    rintro a a' g g' r r' ⟨D, e, rfl, rfl⟩ ⟨E, e', rfl, rfl⟩ h h'
    exact ⟨_, _, addPair_kvec h, addPair_kvec h'⟩
  update := by
    rintro l l' g g' upd - ⟨a, a', K, b, f, rfl, rfl, ha, ha', ht⟩ ⟨D, e, rfl, rfl⟩ - -
    obtain ⟨m, e1, e2⟩ := Conv.move_is ha upd D e
    obtain ⟨m', e1', e2'⟩ := Conv.move_is ha' upd (fun o ch => mirrored v h p q (D o ch)) e
    exact ⟨m, m', _, _, f, e1, e1', e2, e2', ht⟩

/-- A pooling layer that treats mirrored maps alike. -/
def Kind.mirrorPool (v h : Bool) (n r c p q : Nat) : Kind α where
  rel l l' := ∃ a, l = .reduce a ∧ l' = .reduce a ∧ a.blockSize = (p, q) ∧ MirrorPool v h a
    ∧ (Layer.reduce a).Total ∧ (Layer.reduce a).TotalBack ∧ 0 < n ∧ 0 < r ∧ 0 < c ∧ 0 < p ∧ 0 < q
  vec g g' := g = ([], []) ∧ g' = ([], [])
  inp := .mirror α v h n (r * p) (c * q)
  out := .mirror α v h n r c
  wf := by rintro l l' ⟨a, rfl, rfl, -⟩; exact ⟨trivial, trivial⟩
  forward := by
    rintro l l' x x' ⟨a, rfl, rfl, hs, hm, ht, -, hn, hr, hc, hp, hq⟩ ⟨ms, ms', X, rfl, rfl, hX, hX'⟩
    have : Nonempty α := ⟨0⟩
    have ht' : ∀ b : List α, ∃ y, b.length = p * q → a.blockFunc b = some y := by
      intro b
      by_cases hb : b.length = p * q
      · obtain ⟨y, hy⟩ := ht b (by rw [hs]; exact hb)
        exact ⟨y, fun _ => hy⟩
      · exact ⟨0, fun h => absurd h hb⟩
    choose B hB using ht'
    obtain ⟨o, e1, e2⟩ := C41_reduce hs hp hq hr hc hX
      (Y := fun ch i j => B (table p q fun a b => X ch (i * p + a) (j * q + b)))
      (fun ch _ i _ j _ => hB _ (table_length _ _ _))
    obtain ⟨o', e1', e2'⟩ := C41_reduce hs hp hq hr hc hX'
      (Y := fun ch => mirrored v h r c fun i j => B (table p q fun a b =>
        X ch (i * p + a) (j * q + b))) (fun ch _ i hi j hj => by
        have h1 := hm.1 fun a b => X ch (rev v r i * p + a) (rev h c j * q + b)
        rw [hs] at h1
        refine Eq.trans ?_ (h1.trans (hB _ (table_length _ _ _)))
        congr 1
        refine table_congr fun a ha b hb => ?_
        unfold mirrored
        rw [rev_mul v hi ha, rev_mul h hj hb])
    exact ⟨_, _, e1, e1', o, o', _, rfl, rfl, e2, e2'⟩
  backward := by
    rintro l l' x x' d d' dc dc' ⟨a, rfl, rfl, hs, hm, -, ⟨hk, hks, hodd, -⟩, hn, hr, hc, hp, hq⟩
      ⟨ms, ms', X, rfl, rfl, hX, hX'⟩ ⟨G, rfl, rfl⟩ ⟨GC, rfl, rfl⟩
    have : Nonempty α := ⟨0⟩
    obtain ⟨k, hk⟩ := Mat.Rect.exists_is hk
    rw [hks] at hk
    obtain ⟨-, m1, m2, m3⟩ := hm
    rw [hs] at hodd m2 m3
    have hfit : LayerVec.Fits (([], []) : LayerVec α) (.reduce a) := by
      unfold LayerVec.Fits
      rw [if_pos (show (Layer.reduce a).propagates = true from rfl)]
      exact ⟨rfl, rfl⟩
    refine ⟨_, _, _, _, _, _, Reduce.back_is hs hk hp hq hodd hn hr hc G GC hX,
      Reduce.back_is hs hk hp hq hodd hn hr hc _ _ hX', ⟨rfl, rfl⟩, hfit, hfit,
      ⟨fun o => upMap r c p q k (G o), rfl, ?_⟩, fun o => upMap r c p q k (GC o), rfl, ?_⟩ <;>
    exact cube_congr fun o _ i hi j hj => upMap_mirror v h hp hq m2 m3 k _ (m1 k hk) hi hj
  zero := by
    rintro l l' ⟨a, rfl, rfl, -⟩
    exact ⟨rfl, rfl⟩
  add := by
    rintro a a' g g' r r' ⟨rfl, rfl⟩ ⟨rfl, rfl⟩ h h'
    exact ⟨addPair_nil h, addPair_nil h'⟩
  update := by
    rintro l l' g g' upd - ⟨a, rfl, rfl, h⟩ - - -
    exact ⟨a, rfl, rfl, h⟩

/-- A `Flatten` layer after mirrored maps. -/
def Kind.mirrorFlatten (v h : Bool) (n r c : Nat) : Kind α where
  rel l l' := ∃ a : Flatten, l = .flatten a ∧ l' = .flatten a ∧ a.inputSize = ((r, c), n)
  vec g g' := g = ([], []) ∧ g' = ([], [])
  inp := .mirror α v h n r c
  out := .mirrorFlat α v h n r c
  wf := by rintro l l' ⟨a, rfl, rfl, -⟩; exact ⟨trivial, trivial⟩
  forward := by
    rintro l l' x x' ⟨a, rfl, rfl, -⟩ ⟨ms, ms', X, rfl, rfl, hX, hX'⟩
    exact ⟨_, _, C41_flatten (l := a) hX, C41_flatten (l := a) hX', X, rfl, rfl⟩
  backward := by
    rintro l l' x x' d d' dc dc' ⟨a, rfl, rfl, -⟩ - ⟨G, rfl, rfl⟩ ⟨GC, rfl, rfl⟩
    exact ⟨_, _, _, _, _, _, rfl, rfl, ⟨rfl, rfl⟩, rfl, rfl, ⟨G, rfl, rfl⟩, GC, rfl, rfl⟩
  zero := by
    rintro l l' ⟨a, rfl, rfl, -⟩
    exact ⟨rfl, rfl⟩
  add := by
    rintro a a' g g' r r' ⟨rfl, rfl⟩ ⟨rfl, rfl⟩ h h'
    exact ⟨addPair_nil h, addPair_nil h'⟩
  update := by
    rintro l l' g g' upd - ⟨a, rfl, rfl, h⟩ - - -
    exact ⟨a, rfl, rfl, h⟩

/-- A dense layer that reads mirrored maps. -/
def Kind.mirrorColumns (v h : Bool) (u n r c : Nat) : Kind α where
  rel l l' := ∃ a a' V b f, l = .dense a ∧ l' = .dense a' ∧ a.Is u (n * (r * c)) V b f
    ∧ a'.Is u (n * (r * c)) (fun j i => V j (mirrorIdx v h r c i)) b f ∧ ActTotal α f
    ∧ 0 < n * (r * c)
  vec g g' := ∃ A e, g = (table u (n * (r * c)) A, (List.range u).map e)
    ∧ g' = (table u (n * (r * c)) fun j i => A j (mirrorIdx v h r c i), (List.range u).map e)
  inp := .mirrorFlat α v h n r c
  out := .same α (.vec u)
  wf := by
    rintro l l' ⟨a, a', V, b, f, rfl, rfl, h, h', -⟩
    exact ⟨h.wf_of, h'.wf_of⟩
  forward := by
    rintro l l' x x' ⟨a, a', V, b, f, rfl, rfl, ha, ha', ⟨hA, -⟩, hn⟩ ⟨X, rfl, rfl⟩
    choose A hA using hA
    refine ⟨.scalar ((List.range u).map fun j => A ((∑ i ∈ Finset.range (n * (r * c)),
      V j i * flatOf r c X i) + b j)), _, ?_, ?_, rfl, by simp [IOType.HasSize]⟩
    · rw [cube_flat]
      exact C38_forward_exact_partial ha hn _ _ fun j _ => hA _
    · rw [cube_flat]
      refine C38_forward_exact_partial ha' hn _ _ fun j _ => ?_
      rw [hA]
      congr 3
      rw [← sum_mirrorIdx v h n r c fun i => V j i * flatOf r c X i]
      refine Finset.sum_congr rfl fun i hi => ?_
      rw [flatOf_mirror v h _ (Finset.mem_range.mp hi)]
  backward := by
    rintro l l' x x' d d' dc dc' ⟨a, a', V, b, f, rfl, rfl, ha, ha', ⟨-, hD, hDC⟩, hn⟩ ⟨X, rfl, rfl⟩
      ⟨rfl, hd⟩ ⟨rfl, hdc⟩
    have : Nonempty α := ⟨0⟩
    obtain ⟨g, hg⟩ := exists_range_map d'
    obtain ⟨gc, hgc⟩ := exists_range_map dc'
    rw [hd] at hg
    rw [hdc] at hgc
    simp only [Size.len] at hg hgc
    subst hg hgc
    choose D hD using hD
    choose DC hDC using hDC
    have hpre : ∀ j, ∑ i ∈ Finset.range (n * (r * c)), V j (mirrorIdx v h r c i)
        * flatOf r c (fun ch => mirrored v h r c (X ch)) i
        = ∑ i ∈ Finset.range (n * (r * c)), V j i * flatOf r c X i := by
      intro j
      rw [← sum_mirrorIdx v h n r c fun i => V j i * flatOf r c X i]
      refine Finset.sum_congr rfl fun i hi => ?_
      rw [flatOf_mirror v h _ (Finset.mem_range.mp hi)]
    obtain ⟨mid, hmid⟩ : ∃ mid : Nat → α, ∀ j, mid j
        = D ((∑ i ∈ Finset.range (n * (r * c)), V j i * flatOf r c X i) + b j) * g j
        + CplxOps.conj (DC ((∑ i ∈ Finset.range (n * (r * c)), V j i * flatOf r c X i) + b j)) * gc j :=
      ⟨_, fun _ => rfl⟩
    have e1 := Dense.back_is ha hn (flatOf r c X) g gc D DC hD hDC mid hmid
    have e2 := Dense.back_is ha' hn (flatOf r c fun ch => mirrored v h r c (X ch)) g gc D DC hD hDC mid
      fun j => by rw [hpre]; exact hmid j
    rw [← cube_flat] at e1 e2
    have hflat : ∀ F : Nat → α, ∃ G, (List.range (n * (r * c))).map F = cube n r c G
        ∧ (List.range (n * (r * c))).map (fun i => F (mirrorIdx v h r c i))
          = cube n r c fun ch => mirrored v h r c (G ch) := by
      intro F
      refine ⟨fun o i j => F (o * (r * c) + (i * c + j)), range_map_cube _ _ _ _, ?_⟩
      rw [range_map_cube]
      exact cube_congr fun o _ i hi j hj => by rw [mirrorIdx_idx v h o hi hj]; rfl
    refine ⟨_, _, _, _, _, _, e1, e2, ⟨_, _, rfl, ?_⟩, Dense.fits_table ha _ _,
      Dense.fits_table ha' _ _, hflat fun i => ∑ j ∈ Finset.range u, V j i * mid j,
      hflat fun i => CplxOps.conj (∑ j ∈ Finset.range u, V j i * mid j)⟩
    rw [Prod.mk.injEq]
    exact ⟨table_congr fun j _ i hi => by rw [flatOf_mirror v h _ hi], rfl⟩
  zero := by
    rintro l l' ⟨a, a', V, b, f, rfl, rfl, h, h', -⟩
    exact ⟨_, _, Dense.initAcc_table h, Dense.initAcc_table h'⟩
  add := by
    rintro a a' g g' r r' ⟨A, e, rfl, rfl⟩ ⟨B, e', rfl, rfl⟩ h h'
    exact ⟨_, _, addPair_dense h, addPair_dense h'⟩
  update := by
    rintro l l' g g' upd - ⟨a, a', V, b, f, rfl, rfl, ha, ha', ht⟩ ⟨A, e, rfl, rfl⟩ - -
    obtain ⟨m, e1, e2⟩ := Dense.zipParams_is ha (A := A) (s := e) upd
    obtain ⟨m', e1', e2'⟩ := Dense.zipParams_is ha' (A := fun j i => A j (mirrorIdx v h r c i))
      (s := e) upd
    exact ⟨m, m', _, _, f, e1, e1', e2, e2', ht⟩

end Renplex
