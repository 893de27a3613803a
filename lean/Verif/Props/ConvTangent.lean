import Verif.Props.ConvGrad
/-!
# A convolutional layer along a curve of inputs and parameters
-/

namespace Renplex
open Filter Topology ComplexConjugate

section sums
variable {α : Type} [CommRing α]

theorem sum_comm22 (R C p q : Nat) (F : Nat → Nat → Nat → Nat → α) :
    (∑ i ∈ Finset.range R, ∑ j ∈ Finset.range C, ∑ a ∈ Finset.range p, ∑ b ∈ Finset.range q,
      F i j a b)
    = ∑ a ∈ Finset.range p, ∑ b ∈ Finset.range q, ∑ i ∈ Finset.range R, ∑ j ∈ Finset.range C,
      F i j a b := by
  calc _ = ∑ i ∈ Finset.range R, ∑ a ∈ Finset.range p, ∑ j ∈ Finset.range C,
          ∑ b ∈ Finset.range q, F i j a b :=
        Finset.sum_congr rfl fun i _ => Finset.sum_comm
    _ = ∑ a ∈ Finset.range p, ∑ i ∈ Finset.range R, ∑ j ∈ Finset.range C,
          ∑ b ∈ Finset.range q, F i j a b := Finset.sum_comm
    _ = ∑ a ∈ Finset.range p, ∑ i ∈ Finset.range R, ∑ b ∈ Finset.range q,
          ∑ j ∈ Finset.range C, F i j a b :=
        Finset.sum_congr rfl fun a _ => Finset.sum_congr rfl fun i _ => Finset.sum_comm
    _ = _ := Finset.sum_congr rfl fun a _ => Finset.sum_comm

theorem sum_comm21 (R C n : Nat) (F : Nat → Nat → Nat → α) :
    (∑ i ∈ Finset.range R, ∑ j ∈ Finset.range C, ∑ ch ∈ Finset.range n, F i j ch)
    = ∑ ch ∈ Finset.range n, ∑ i ∈ Finset.range R, ∑ j ∈ Finset.range C, F i j ch := by
  calc _ = ∑ i ∈ Finset.range R, ∑ ch ∈ Finset.range n, ∑ j ∈ Finset.range C, F i j ch :=
        Finset.sum_congr rfl fun i _ => Finset.sum_comm
    _ = _ := Finset.sum_comm

theorem kernelGrad_pair (R C p q : Nat) (x m d : Nat → Nat → α) :
    (∑ i ∈ Finset.range R, ∑ j ∈ Finset.range C, m i j
      * ∑ a ∈ Finset.range p, ∑ b ∈ Finset.range q, x (i + a) (j + b) * d a b)
    = ∑ a ∈ Finset.range p, ∑ b ∈ Finset.range q, kernelGrad R C x m a b * d a b := by
  unfold kernelGrad
  simp only [Finset.mul_sum, Finset.sum_mul]
  rw [sum_comm22]
  refine Finset.sum_congr rfl fun a _ => Finset.sum_congr rfl fun b _ =>
    Finset.sum_congr rfl fun i _ => Finset.sum_congr rfl fun j _ => ?_
  rw [Nat.add_comm a i, Nat.add_comm b j]
  ring

variable [BasicOps α] [LawfulOps α]

theorem inputGrad_pair (r c p q : Nat) (hp : 1 ≤ p) (hpr : p ≤ r) (hq : 1 ≤ q) (hqc : q ≤ c)
    (v m k : Nat → Nat → α) :
    (∑ i ∈ Finset.range (r - p + 1), ∑ j ∈ Finset.range (c - q + 1), m i j
      * ∑ a ∈ Finset.range p, ∑ b ∈ Finset.range q, v (i + a) (j + b) * k a b)
    = ∑ i ∈ Finset.range r, ∑ j ∈ Finset.range c,
      inputGrad (r - p + 1) (c - q + 1) p q m k i j * v i j := by
  have := adjoint_sum r c p q v k m hp hpr hq hqc
  unfold inputGrad
  simp only [mul_comm (m _ _)]
  rw [this]
  exact Finset.sum_congr rfl fun i _ => Finset.sum_congr rfl fun j _ => mul_comm _ _

/-- The derivative of the pre-activations in a direction. -/
def convVar (n p q : Nat) (X v : Nat → Nat → Nat → α) (K D : Nat → Nat → Nat → Nat → α)
    (e : Nat → α) (o i j : Nat) : α :=
  (∑ ch ∈ Finset.range n, ∑ a ∈ Finset.range p, ∑ b ∈ Finset.range q,
    (v ch (i + a) (j + b) * K o ch a b + X ch (i + a) (j + b) * D o ch a b)) + e o

/-- The chain rule through the pre-activations of a convolutional layer. -/
theorem conv_pair (nf n r c p q : Nat) (hp : 1 ≤ p) (hpr : p ≤ r) (hq : 1 ≤ q) (hqc : q ≤ c)
    (X v : Nat → Nat → Nat → α) (K D : Nat → Nat → Nat → Nat → α) (e : Nat → α)
    (m : Nat → Nat → Nat → α) :
    (∑ o ∈ Finset.range nf, ∑ i ∈ Finset.range (r - p + 1), ∑ j ∈ Finset.range (c - q + 1),
      m o i j * convVar n p q X v K D e o i j)
    = (∑ o ∈ Finset.range nf, ∑ ch ∈ Finset.range n, ∑ a ∈ Finset.range p, ∑ b ∈ Finset.range q,
        kernelGrad (r - p + 1) (c - q + 1) (X ch) (m o) a b * D o ch a b)
      + (∑ o ∈ Finset.range nf, (∑ i ∈ Finset.range (r - p + 1), ∑ j ∈ Finset.range (c - q + 1),
        m o i j) * e o)
      + ∑ ch ∈ Finset.range n, ∑ i ∈ Finset.range r, ∑ j ∈ Finset.range c,
        (∑ o ∈ Finset.range nf, inputGrad (r - p + 1) (c - q + 1) p q (m o) (K o ch) i j)
          * v ch i j := by
  have hA : ∀ o, (∑ i ∈ Finset.range (r - p + 1), ∑ j ∈ Finset.range (c - q + 1),
      m o i j * convVar n p q X v K D e o i j)
      = (∑ ch ∈ Finset.range n, ∑ a ∈ Finset.range p, ∑ b ∈ Finset.range q,
          kernelGrad (r - p + 1) (c - q + 1) (X ch) (m o) a b * D o ch a b)
        + (∑ i ∈ Finset.range (r - p + 1), ∑ j ∈ Finset.range (c - q + 1), m o i j) * e o
        + ∑ ch ∈ Finset.range n, ∑ i ∈ Finset.range r, ∑ j ∈ Finset.range c,
          inputGrad (r - p + 1) (c - q + 1) p q (m o) (K o ch) i j * v ch i j := by
    intro o
    have h1 : ∀ i j, m o i j * convVar n p q X v K D e o i j
        = (∑ ch ∈ Finset.range n, m o i j * ∑ a ∈ Finset.range p, ∑ b ∈ Finset.range q,
            X ch (i + a) (j + b) * D o ch a b) + m o i j * e o
          + ∑ ch ∈ Finset.range n, m o i j * ∑ a ∈ Finset.range p, ∑ b ∈ Finset.range q,
            v ch (i + a) (j + b) * K o ch a b := by
      intro i j
      unfold convVar
      rw [← Finset.mul_sum, ← Finset.mul_sum]
      simp only [Finset.sum_add_distrib]
      ring
    simp only [h1, Finset.sum_add_distrib]
    rw [sum_comm21 (r - p + 1) (c - q + 1) n, sum_comm21 (r - p + 1) (c - q + 1) n]
    congr 1
    · congr 1
      · exact Finset.sum_congr rfl fun ch _ => kernelGrad_pair _ _ p q (X ch) (m o) (D o ch)
      · simp only [Finset.sum_mul]
    · exact Finset.sum_congr rfl fun ch _ =>
        inputGrad_pair r c p q hp hpr hq hqc (v ch) (m o) (K o ch)
  simp only [hA, Finset.sum_add_distrib]
  congr 1
  rw [Finset.sum_comm]
  refine Finset.sum_congr rfl fun ch _ => ?_
  rw [← sum_comm21]
  simp only [Finset.sum_mul]

end sums

/-! ## Indices -/

/-- Every index of `n` tables is that of an entry. -/
theorem flat_ind {n r c : Nat} {Q : Nat → Prop}
    (h : ∀ o, o < n → ∀ i, i < r → ∀ j, j < c → Q (o * (r * c) + (i * c + j))) :
    ∀ k, k < n * (r * c) → Q k := by
  intro k hk
  have hrc : 0 < r * c := Nat.pos_of_ne_zero fun h0 => by rw [h0, Nat.mul_zero] at hk; omega
  have hc : 0 < c := Nat.pos_of_ne_zero fun h0 => by rw [h0, Nat.mul_zero] at hrc; omega
  have h1 : k / (r * c) < n := Nat.div_lt_of_lt_mul (by rwa [Nat.mul_comm])
  have h2 : k % (r * c) < r * c := Nat.mod_lt _ hrc
  have h3 : k % (r * c) / c < r := Nat.div_lt_of_lt_mul (by rwa [Nat.mul_comm c r])
  have h4 : k % (r * c) % c < c := Nat.mod_lt _ hc
  have := h _ h1 _ h3 _ h4
  rwa [Nat.div_add_mod', Nat.div_add_mod'] at this

/-- The entry an index belongs to. -/
theorem flat_dec {r c : Nat} (o : Nat) {i j : Nat} (hi : i < r) (hj : j < c) :
    (o * (r * c) + (i * c + j)) / (r * c) = o
    ∧ (o * (r * c) + (i * c + j)) % (r * c) / c = i
    ∧ (o * (r * c) + (i * c + j)) % (r * c) % c = j := by
  have h1 := idx_lt hi hj
  have h3 : (o * (r * c) + (i * c + j)) % (r * c) = i * c + j := by
    rw [Nat.mul_comm o, Nat.mul_add_mod, Nat.mod_eq_of_lt h1]
  refine ⟨?_, ?_, ?_⟩
  · rw [Nat.mul_comm, Nat.mul_add_div (by omega), Nat.div_eq_of_lt h1, Nat.add_zero]
  · rw [h3, Nat.mul_comm, Nat.mul_add_div (by omega), Nat.div_eq_of_lt hj, Nat.add_zero]
  · rw [h3, Nat.mul_comm, Nat.mul_add_mod, Nat.mod_eq_of_lt hj]

/-- A function on entries as a function on indices. -/
def flatOf {β : Type} (r c : Nat) (F : Nat → Nat → Nat → β) (k : Nat) : β :=
  F (k / (r * c)) (k % (r * c) / c) (k % (r * c) % c)

theorem flatOf_idx {β : Type} {r c : Nat} (F : Nat → Nat → Nat → β) (o : Nat) {i j : Nat}
    (hi : i < r) (hj : j < c) : flatOf r c F (o * (r * c) + (i * c + j)) = F o i j := by
  obtain ⟨h1, h2, h3⟩ := flat_dec o hi hj
  unfold flatOf
  rw [h1, h2, h3]

/-! ## Displaced kernels -/

theorem zipKernels_map_table {α ι : Type} (upd : α → α → α) (p q : Nat) (ks : List ι)
    (M : ι → Mat α) (K D : ι → Nat → Nat → α) (hM : ∀ k ∈ ks, (M k).Is p q (K k)) :
    zipKernels upd (ks.map M) (ks.flatMap fun k => table p q (D k))
      = ks.map fun k => ⟨table p q fun a b => upd (K k a b) (D k a b), (p, q), (M k).capacity⟩ := by
  induction ks with
  | nil => rfl
  | cons k ks ih =>
    have hk := hM k (by simp)
    rw [List.map_cons, List.flatMap_cons, zipKernels, hk.2, hk.1, table_length,
      List.take_append_of_le_length (by simp [table_length]),
      List.take_of_length_le (by simp [table_length]),
      List.drop_append_of_le_length (by simp [table_length]),
      List.drop_of_length_le (by simp [table_length]), table_zipWith, List.nil_append,
      ih fun k hk => hM k (by simp [hk])]
    rfl

theorem flatMap_cube_pairs {α : Type} (nf n p q : Nat) (D : Nat → Nat → Nat → Nat → α) :
    ((List.range nf).flatMap fun o => cube n p q (D o))
      = (table nf n Prod.mk).flatMap fun k => table p q (D k.1 k.2) := by
  unfold cube table
  rw [List.flatMap_assoc]
  simp only [List.flatMap_map]

/-- The displaced layer. -/
theorem Conv.move_is {α : Type} {l : Conv α} {nf n p q : Nat} {K : Nat → Nat → Nat → Nat → α}
    {b : Nat → α} {f : ActFunc} (h : l.Is nf n p q K b f) (upd : α → α → α)
    (D : Nat → Nat → Nat → Nat → α) (e : Nat → α) :
    ∃ l' : Conv α, (Layer.conv l).zipParams upd ((List.range nf).flatMap (fun o => cube n p q (D o)),
        (List.range nf).map e) = .conv l'
      ∧ l'.Is nf n p q (fun o ch a b => upd (K o ch a b) (D o ch a b)) (fun o => upd (b o) (e o)) f := by
  obtain ⟨h1, h2, h3, M, h4, h5⟩ := h
  refine ⟨_, rfl, h1, ?_, h3, fun o ch => ⟨table p q fun a b => upd (K o ch a b) (D o ch a b),
    (p, q), (M o ch).capacity⟩, ⟨h4.1, ?_⟩, fun o _ ch _ => ⟨rfl, rfl⟩⟩
  · show List.zipWith _ l.biases _ = _
    rw [h2]; simp [List.zipWith_map, List.zipWith_self]
  · show zipKernels upd l.kernels.body _ = _
    simp only
    rw [h4.2, flatMap_cube_pairs]
    have e1 : table nf n M = (table nf n Prod.mk).map fun k => M k.1 k.2 := by rw [table_map]
    rw [e1, zipKernels_map_table upd p q _ (fun k : Nat × Nat => M k.1 k.2)
      (fun k => K k.1 k.2) (fun k => D k.1 k.2), table_map]
    intro k hk
    unfold table at hk
    simp only [List.mem_flatMap, List.mem_map, List.mem_range] at hk
    obtain ⟨o, ho, ch, hch, rfl⟩ := hk
    exact h5 o ho ch hch

theorem Conv.paramsLen_is {α : Type} {l : Conv α} {nf n p q : Nat}
    {K : Nat → Nat → Nat → Nat → α} {b : Nat → α} {f : ActFunc} (h : l.Is nf n p q K b f) :
    l.paramsLen = (nf * n * (p * q), nf) := by
  obtain ⟨h1, h2, h3, M, h4, h5⟩ := h
  unfold Conv.paramsLen
  rw [h2, h4.2]
  congr 1
  · have : ∀ (ks : List (Mat α)) (a : Nat), (∀ k ∈ ks, k.shape = (p, q)) →
        ks.foldl (fun acc k => acc + k.shape.1 * k.shape.2) a = a + ks.length * (p * q) := by
      intro ks
      induction ks with
      | nil => simp
      | cons k ks ih =>
        intro a hk
        rw [List.foldl_cons, ih _ fun k h => hk k (by simp [h]), hk k (by simp), List.length_cons,
          Nat.succ_mul]
        simp only
        omega
    rw [this, table_length]
    · simp
    · intro k hk
      unfold table at hk
      simp only [List.mem_flatMap, List.mem_map, List.mem_range] at hk
      obtain ⟨o, ho, ch, hch, rfl⟩ := hk
      exact (h5 o ho ch hch).1
  · simp

/-- A vector with one entry per kernel entry. -/
theorem exists_kernels {α : Type} [Nonempty α] (nf n p q : Nat) (d : List α)
    (h : d.length = nf * n * (p * q)) :
    ∃ D : Nat → Nat → Nat → Nat → α, d = (List.range nf).flatMap fun o => cube n p q (D o) := by
  obtain ⟨f, hf⟩ := exists_range_map d
  rw [h, range_map_cube] at hf
  refine ⟨fun o ch a b => f ((o * n + ch) * (p * q) + (a * q + b)), ?_⟩
  rw [hf, flatMap_cube_pairs]
  unfold cube
  rw [range_mul]
  unfold table
  simp only [List.flatMap_assoc, List.flatMap_map]

/-! ## The layer along a curve -/

variable {w : Width}

theorem Cf.ofC_zero_add (z : Cf w ℝ) (d : ℂ) : (Cf.ofC (z.toC + ((0 : ℝ) : ℂ) * d) : Cf w ℝ) = z := by
  simp [Cf.ofC_toC]

theorem convPre_curve {n r c p q : Nat} {X : Nat → Nat → Nat → Cf w ℝ}
    {K D : Nat → Nat → Nat → Nat → Cf w ℝ} {b e : Nat → Cf w ℝ} {cu : Nat → Nat → Nat → ℝ → ℂ}
    {v : Nat → Nat → Nat → Cf w ℝ} (hc : ∀ ch, ch < n → ∀ i, i < r → ∀ j, j < c →
      HasDerivAt (cu ch i j) (v ch i j).toC 0 ∧ cu ch i j 0 = (X ch i j).toC)
    (hpr : p ≤ r) (hqc : q ≤ c) {o i j : Nat} (hi : i < r - p + 1)
    (hj : j < c - q + 1) :
    HasDerivAt (fun s : ℝ => (convPre n p q (fun ch i j => (Cf.ofC (cu ch i j s) : Cf w ℝ))
        (fun o ch a b => Cf.ofC ((K o ch a b).toC + s * (D o ch a b).toC))
        (fun o => Cf.ofC ((b o).toC + s * (e o).toC)) o i j).toC)
      (convVar n p q X v K D e o i j).toC 0 := by
  have hlin : ∀ a d : ℂ, HasDerivAt (fun s : ℝ => a + s * d) d 0 := by
    intro a d
    have h := ((Complex.ofRealCLM.hasDerivAt (x := (0 : ℝ))).mul_const d).const_add a
    refine h.congr_deriv ?_
    simp
  simp only [convPre_sum, Cf.toC_hom_add, Cf.toC_sum, Cf.toC_hom_mul, Cf.toC_ofC, convVar]
  refine HasDerivAt.add ?_ (hlin _ _)
  refine HasDerivAt.fun_sum fun ch hch => HasDerivAt.fun_sum fun a ha =>
    HasDerivAt.fun_sum fun b hb => ?_
  rw [Finset.mem_range] at hch ha hb
  obtain ⟨h1, h2⟩ := hc ch hch (i + a) (by omega) (j + b) (by omega)
  have := h1.mul (hlin (K o ch a b).toC (D o ch a b).toC)
  refine this.congr_deriv ?_
  rw [h2]
  simp

/-- The outputs of a convolutional layer along a curve of inputs and parameters. -/
theorem Conv.tangent {l : Conv (Cf w ℝ)} {nf n r c p q : Nat}
    {K : Nat → Nat → Nat → Nat → Cf w ℝ} {b : Nat → Cf w ℝ} {f : ActFunc}
    (h : l.Is nf n p q K b f) (hf : 0 < nf) (hn : 0 < n) (hp : 1 ≤ p) (hpr : p ≤ r) (hq : 1 ≤ q)
    (hqc : q ≤ c) (X v : Nat → Nat → Nat → Cf w ℝ) (cu : Nat → Nat → Nat → ℝ → ℂ)
    (hc : ∀ ch, ch < n → ∀ i, i < r → ∀ j, j < c →
      HasDerivAt (cu ch i j) (v ch i j).toC 0 ∧ cu ch i j 0 = (X ch i j).toC)
    (D : Nat → Nat → Nat → Nat → Cf w ℝ) (e : Nat → Cf w ℝ) (d dc y : Nat → Nat → Nat → Cf w ℝ)
    (hr : ∀ o, o < nf → ∀ i, i < r - p + 1 → ∀ j, j < c - q + 1 →
      RunDerivAt (Act.activate f) (convPre n p q X K b o i j) (d o i j) (dc o i j)
      ∧ Act.activate f (convPre n p q X K b o i j) = some (y o i j)) :
    ∃ c' : Nat → Nat → Nat → ℝ → ℂ, (∀ o, o < nf → ∀ i, i < r - p + 1 → ∀ j, j < c - q + 1 →
        HasDerivAt (c' o i j) ((d o i j).toC * (convVar n p q X v K D e o i j).toC
          + (dc o i j).toC * conj (convVar n p q X v K D e o i j).toC) 0
        ∧ c' o i j 0 = (y o i j).toC)
      ∧ ∀ᶠ s : ℝ in 𝓝 0, ∀ maps, MapsAre maps n r c (fun ch i j => Cf.ofC (cu ch i j s)) →
        ∃ outs, Layer.forward ((Layer.conv l).zipParams
          (fun p d => Cf.ofC (p.toC + (s : ℂ) * d.toC))
          ((List.range nf).flatMap (fun o => cube n p q (D o)), (List.range nf).map e))
          (.matrix maps) = some (.ok (.matrix outs))
        ∧ MapsAre outs nf (r - p + 1) (c - q + 1) fun o i j => Cf.ofC (c' o i j s) := by
  have h0 : ∀ o i j, i < r - p + 1 → j < c - q + 1 → (convPre n p q
        (fun ch i j => (Cf.ofC (cu ch i j 0) : Cf w ℝ))
        (fun o ch a b => Cf.ofC ((K o ch a b).toC + ((0 : ℝ) : ℂ) * (D o ch a b).toC))
        (fun o => Cf.ofC ((b o).toC + ((0 : ℝ) : ℂ) * (e o).toC)) o i j)
      = convPre n p q X K b o i j := by
    intro o i j hi hj
    simp only [convPre_sum, Cf.ofC_zero_add]
    congr 1
    refine Finset.sum_congr rfl fun ch hch => Finset.sum_congr rfl fun a ha =>
      Finset.sum_congr rfl fun b hb => ?_
    rw [Finset.mem_range] at hch ha hb
    rw [(hc ch hch (i + a) (by omega) (j + b) (by omega)).2, Cf.ofC_toC]
  have key : ∀ o i j, ∃ F : ℝ → ℂ, o < nf → i < r - p + 1 → j < c - q + 1 →
      HasDerivAt F ((d o i j).toC * (convVar n p q X v K D e o i j).toC
          + (dc o i j).toC * conj (convVar n p q X v K D e o i j).toC) 0
      ∧ F 0 = (y o i j).toC
      ∧ ∀ᶠ s : ℝ in 𝓝 0, Act.activate f (convPre n p q
          (fun ch i j => (Cf.ofC (cu ch i j s) : Cf w ℝ))
          (fun o ch a b => Cf.ofC ((K o ch a b).toC + s * (D o ch a b).toC))
          (fun o => Cf.ofC ((b o).toC + s * (e o).toC)) o i j) = some (Cf.ofC (F s)) := by
    intro o i j
    by_cases hh : o < nf ∧ i < r - p + 1 ∧ j < c - q + 1
    · obtain ⟨ho, hi, hj⟩ := hh
      obtain ⟨F, h1, h2, h3⟩ := act_curve (convPre_curve (o := o) (K := K) (D := D) (b := b) (e := e)
        hc hpr hqc hi hj) (congrArg Cf.toC (h0 o i j hi hj)) (hr o ho i hi j hj).1
      refine ⟨F, fun _ _ _ => ⟨h1, ?_, ?_⟩⟩
      · rw [(hr o ho i hi j hj).2] at h2
        rw [Option.some.inj h2, Cf.toC_ofC]
      · filter_upwards [h3] with s hs
        rw [← hs, Cf.ofC_toC]
    · exact ⟨fun _ => 0, fun h1 h2 h3 => absurd ⟨h1, h2, h3⟩ hh⟩
  choose F hF using key
  refine ⟨F, fun o ho i hi j hj => ⟨(hF o i j ho hi hj).1, (hF o i j ho hi hj).2.1⟩, ?_⟩
  have hall : ∀ᶠ s : ℝ in 𝓝 0, ∀ o ∈ Finset.range nf, ∀ i ∈ Finset.range (r - p + 1),
      ∀ j ∈ Finset.range (c - q + 1), Act.activate f (convPre n p q
          (fun ch i j => (Cf.ofC (cu ch i j s) : Cf w ℝ))
          (fun o ch a b => Cf.ofC ((K o ch a b).toC + s * (D o ch a b).toC))
          (fun o => Cf.ofC ((b o).toC + s * (e o).toC)) o i j) = some (Cf.ofC (F o i j s)) :=
    (Finset.eventually_all _).mpr fun o ho => (Finset.eventually_all _).mpr fun i hi =>
      (Finset.eventually_all _).mpr fun j hj =>
        (hF o i j (Finset.mem_range.mp ho) (Finset.mem_range.mp hi) (Finset.mem_range.mp hj)).2.2
  filter_upwards [hall] with s hs maps hmaps
  obtain ⟨l', hl, hIs⟩ := Conv.move_is h (fun p d => Cf.ofC (p.toC + (s : ℂ) * d.toC)) D e
  rw [hl]
  refine C40_forward hIs hf hn hp hpr hq hqc hmaps (fun o i j => Cf.ofC (F o i j s)) ?_
  intro o ho i hi j hj
  exact hs o (Finset.mem_range.mpr ho) i (Finset.mem_range.mpr hi) j (Finset.mem_range.mpr hj)

end Renplex
