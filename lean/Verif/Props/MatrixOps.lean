import Verif.Props.MatrixStore
import Verif.Lemmas.Table
import Verif.Spec.Conv
/-!
# C09–C17: padding, arithmetic, convolution, block reduction, up-sampling, slices
-/

namespace Renplex
open Mat
variable {α : Type} [BasicOps α]

/-! ## C09 pad -/

omit [BasicOps α] in
theorem pad_row (c q : Nat) (g : Nat → α) (z : α) :
    List.replicate q z ++ (List.range c).map g ++ List.replicate q z
      = (List.range (c + 2 * q)).map (fun j => if q ≤ j ∧ j < q + c then g (j - q) else z) := by
  rw [show c + 2 * q = q + c + q by omega, range_map_add, range_map_add]
  congr 1
  · congr 1
    · rw [← range_map_const]
      exact range_map_congr fun i hi => by rw [if_neg (by omega)]
    · exact range_map_congr fun i hi => by rw [if_pos (by omega)]; congr 1; omega
  · rw [← range_map_const]
    exact range_map_congr fun i hi => by rw [if_neg (by omega)]

theorem padLoop_eq (r c p q : Nat) (f : Nat → Nat → α) (n k : Nat) (hk : k + n = r + 2 * p) :
    padLoop (r, c) (p, q) n k ((table r c f).drop ((k - p) * c))
      = some (table n (c + 2 * q) (fun i j => padded r c p q f (k + i) j)) := by
  induction n generalizing k with
  | zero => simp [padLoop, table_zero]
  | succ n ih =>
    have hrow : ∀ (x : List α), x = (List.range (c + 2 * q)).map (fun j => padded r c p q f k j) →
        x ++ table n (c + 2 * q) (fun i j => padded r c p q f (k + 1 + i) j)
          = table (n + 1) (c + 2 * q) (fun i j => padded r c p q f (k + i) j) := by
      intro x hx
      rw [hx, table_succ]
      congr 1
      exact table_congr fun i _ j _ => by rw [show k + 1 + i = k + (i + 1) by omega]
    unfold padLoop
    by_cases h1 : k < p
    · have e : (k - p) = (k + 1 - p) := by omega
      simp only [h1, if_true]
      rw [e, ih (k + 1) (by omega)]
      simp only [Option.bind_eq_bind, Option.bind_some]
      rw [hrow]
      rw [← range_map_const]
      exact range_map_congr fun j _ => by unfold padded; rw [if_neg (by omega)]
    · simp only [h1, if_false]
      by_cases h2 : k ≥ r + 2 * p - p
      · have hd : ∀ s, r ≤ s → (table r c f).drop (s * c) = [] := by
          intro s hs
          apply List.drop_eq_nil_of_le
          rw [table_length]; exact Nat.mul_le_mul_right c hs
        simp only [h2, if_true]
        rw [hd (k - p) (by omega), ← hd (k + 1 - p) (by omega), ih (k + 1) (by omega)]
        simp only [Option.bind_eq_bind, Option.bind_some]
        rw [hrow]
        rw [← range_map_const]
        exact range_map_congr fun j _ => by unfold padded; rw [if_neg (by omega)]
      · simp only [h2, if_false]
        have e : (k + 1 - p) * c = (k - p) * c + c := by
          rw [← Nat.succ_mul]; congr 1; omega
        have hdr : drainFront c ((table r c f).drop ((k - p) * c))
            = some ((List.range c).map (f (k - p)), (table r c f).drop ((k + 1 - p) * c)) := by
          rw [table_drop r c f (k - p) (by omega)]
          obtain ⟨s, hs⟩ : ∃ s, r - (k - p) = s + 1 := ⟨r - (k - p) - 1, by omega⟩
          rw [hs, table_succ, drainFront_append c _ _ (by simp)]
          rw [table_drop r c f (k + 1 - p) (by omega)]
          rw [show r - (k + 1 - p) = s by omega]
          simp only [Nat.add_zero, Option.some.injEq, Prod.mk.injEq, true_and]
          exact table_congr fun i _ j _ => by rw [show k - p + (i + 1) = k + 1 - p + i by omega]
        rw [hdr]
        simp only [Option.bind_eq_bind, Option.bind_some]
        rw [ih (k + 1) (by omega)]
        simp only [Option.bind_some]
        rw [hrow]
        rw [pad_row]
        exact range_map_congr fun j _ => by
          unfold padded
          by_cases hj : q ≤ j ∧ j < q + c
          · rw [if_pos hj, if_pos (by omega)]
          · rw [if_neg hj, if_neg (by omega)]

theorem pad_is {m : Mat α} {r c : Nat} {f : Nat → Nat → α} (h : m.Is r c f) (p q : Nat) :
    m.pad (p, q) = some (fromBody (table (r + 2 * p) (c + 2 * q) (padded r c p q f))
      (r + 2 * p, c + 2 * q)) := by
  unfold Mat.pad
  have := padLoop_eq r c p q f (r + 2 * p) 0 (by omega)
  simp only [Nat.zero_sub, Nat.zero_mul, List.drop_zero, Nat.zero_add] at this
  rw [h.1, h.2, this]
  rfl

/-- C09. `pad((p,q))` of a rectangular matrix never panics and surrounds it with `p` rows and `q`
columns of the default value on each side. -/
theorem C09_pad {m : Mat α} {r c : Nat} {f : Nat → Nat → α} (h : m.Is r c f) (p q : Nat) :
    ∃ m', m.pad (p, q) = some m' ∧ m'.Is (r + 2 * p) (c + 2 * q) (fun i j =>
      if p ≤ i ∧ i < p + r ∧ q ≤ j ∧ j < q + c then f (i - p) (j - q) else BasicOps.zero) :=
  ⟨_, pad_is h p q, rfl, rfl⟩

example : (Mat.fromBody [1, 2, 3, 4] (2, 2) : Mat Int).pad (1, 2) = some (Mat.fromBody
    [0, 0, 0, 0, 0, 0,
     0, 0, 1, 2, 0, 0,
     0, 0, 3, 4, 0, 0,
     0, 0, 0, 0, 0, 0] (4, 6)) := rfl

/-! ## C10 addition and scalar operations -/

/-- C10. Equal shapes (not both "never filled"): addition entry by entry. -/
theorem C10_add {m n : Mat α} {r c : Nat} {f g : Nat → Nat → α} (hm : m.Is r c f) (hn : n.Is r c g)
    (h0 : 0 < r) :
    ∃ m', m.addMut n = .ok m' ∧ m'.Is r c (fun i j => BasicOps.addAssign (f i j) (g i j))
      ∧ m'.capacity = m.capacity := by
  refine ⟨{ m with body := zipUpd BasicOps.addAssign m.body n.body }, ?_, ⟨hm.1, ?_⟩, rfl⟩
  · unfold Mat.addMut
    have e1 : m.isEmpty = false := by simp [Mat.isEmpty, hm.1]; omega
    have e2 : n.isEmpty = false := by simp [Mat.isEmpty, hn.1]; omega
    simp [hm.1, hn.1, e1, e2]
  · simp only
    rw [hm.2, hn.2, zipUpd_eq_zipWith _ _ _ (by simp [table_length]), table_zipWith]

/-- C10. A matrix made by `Matrix::new` is neutral on the left (the right operand is copied) … -/
theorem C10_new_add (n : Mat α) : (Mat.new : Mat α).addMut n = .ok n := by
  simp [Mat.addMut, Mat.isEmpty, Mat.new]

/-- … and on the right. -/
theorem C10_add_new (m : Mat α) : m.addMut Mat.new = .ok m := by
  unfold Mat.addMut
  by_cases h : m.isEmpty = true
  · have : m = Mat.new := by
      obtain ⟨b, s, k⟩ := m
      simp [Mat.isEmpty, Mat.new] at *
      exact ⟨h.1.1, h.1.2, h.2⟩
    subst this; rfl
  · have e : (Mat.new : Mat α).isEmpty = true := rfl
    simp [h, e]

/-- C10 is false of the code for a never-filled matrix that was made by `with_capacity`: it is
rejected on both sides by every matrix of another shape, unless that one is made by `new`. -/
theorem C10_refuted (cap : Nat × Nat) (hcap : cap ≠ (0, 0)) (m : Mat α) (hs : m.shape ≠ (0, 0)) :
    m.addMut (Mat.withCapacity cap) = .error .inconsistentShape
      ∧ (Mat.withCapacity cap).addMut m = .error .inconsistentShape := by
  have e1 : (Mat.withCapacity cap : Mat α).isEmpty = false := by
    simp [Mat.isEmpty, Mat.withCapacity, hcap]
  have e2 : m.isEmpty = false := by simp [Mat.isEmpty, hs]
  constructor
  · unfold Mat.addMut
    rw [if_pos ⟨by simpa [Mat.withCapacity] using hs, by simp [e1, e2]⟩]
  · unfold Mat.addMut
    rw [if_pos ⟨by simpa [Mat.withCapacity] using fun h => hs h.symm, by simp [e1, e2]⟩]

/-- C10. Mismatched shapes are rejected unless one side is never filled (`is_empty`). -/
theorem C10_mismatch (m n : Mat α) (hs : m.shape ≠ n.shape) (h1 : m.isEmpty = false)
    (h2 : n.isEmpty = false) : m.addMut n = .error .inconsistentShape := by
  unfold Mat.addMut
  rw [if_pos ⟨hs, by simp [h1, h2]⟩]

/-- C10. Scalar addition and multiplication act on every entry. -/
theorem C10_scalar {m : Mat α} {r c : Nat} {f : Nat → Nat → α} (hm : m.Is r c f) (s : α) :
    (m.addMutScalar s).Is r c (fun i j => BasicOps.addAssign (f i j) s)
      ∧ (m.mulScalar s).Is r c (fun i j => BasicOps.mulAssign (f i j) s) := by
  refine ⟨⟨hm.1, ?_⟩, ⟨hm.1, ?_⟩⟩
  · simp [Mat.addMutScalar, hm.2, table_map]
  · simp [Mat.mulScalar, mulMutScalar, hm.2, table_map]

/-- C10. Scalar division acts on every entry, and panics exactly if one of the divisions does. -/
theorem C10_div_scalar {m : Mat α} {r c : Nat} {f : Nat → Nat → α} (hm : m.Is r c f) (s : α) :
    (∀ g : Nat → Nat → α, (∀ i, i < r → ∀ j, j < c → BasicOps.divAssign (f i j) s = some (g i j)) →
        ∃ m', m.divScalar s = some m' ∧ m'.Is r c g)
      ∧ (∀ i j, i < r → j < c → BasicOps.divAssign (f i j) s = none → m.divScalar s = none) := by
  constructor
  · intro g hg
    have : divMutScalar m.body s = some (table r c g) := by
      unfold divMutScalar
      rw [hm.2]
      unfold table
      obtain ⟨out, ho⟩ := (mapM_some_iff (fun a => BasicOps.divAssign a s) (table r c f)).mpr (by
        intro a ha
        obtain ⟨i, hi, ha⟩ := List.mem_flatMap.mp ha
        obtain ⟨j, hj, rfl⟩ := List.mem_map.mp ha
        exact ⟨_, hg i (List.mem_range.mp hi) j (List.mem_range.mp hj)⟩)
      have hl := mapM_length ho
      rw [table_length] at hl
      obtain ⟨g', hg'⟩ := @exists_table α ⟨s⟩ r c out hl
      have : out = table r c g := by
        rw [hg']
        apply table_congr
        intro i hi j hj
        have := mapM_getElem? ho (i * c + j)
        rw [hg', table_getElem? r c g' hi hj, table_getElem? r c f hi hj] at this
        have h2 := hg i hi j hj
        simp only [Option.bind_eq_bind, Option.bind_some] at this
        rw [h2] at this
        exact Option.some.inj this
      rw [this] at ho
      exact ho
    exact ⟨{ m with body := table r c g }, by simp [Mat.divScalar, this], hm.1, rfl⟩
  · intro i j hi hj h
    have : divMutScalar m.body s = none := by
      unfold divMutScalar
      apply mapM_eq_none_of _ _ (f i j) _ h
      rw [hm.2]
      exact List.mem_flatMap.mpr ⟨i, List.mem_range.mpr hi, List.mem_map.mpr
        ⟨j, List.mem_range.mpr hj, rfl⟩⟩
    simp [Mat.divScalar, this]

example : (Mat.fromBody [1, 2, 3, 4] (2, 2) : Mat Int).addMut (Mat.fromBody [5, 6, 7, 8] (2, 2))
    = .ok (Mat.fromBody [6, 8, 10, 12] (2, 2)) := rfl
example : (Mat.fromBody [1, 2, 3, 4] (2, 2) : Mat Int).addMut (Mat.fromBody [5, 6] (2, 1))
    = .error .inconsistentShape := rfl

/-! ## C11 matrix-vector product -/

/-- C11. For a rectangular matrix with at least one column, `mul_slice`/`mul_vec` return for every
row the sum of products with the vector, and reject vectors of any other length. -/
theorem C11_mulSlice {m : Mat α} {r c : Nat} {f : Nat → Nat → α} (hm : m.Is r c f) (hc : 0 < c)
    (x : Nat → α) (n : Nat) :
    m.mulSlice ((List.range n).map x)
      = some (if n = c then .ok ((List.range r).map fun i => dotN c (f i) x)
          else .error .invalidRHS) := by
  unfold Mat.mulSlice
  by_cases hn : n = c
  · subst hn
    rw [C18_rows hm hc]
    simp only [hm.1, List.length_map, List.length_range, ne_eq, not_true_eq_false, if_false,
      Option.bind_eq_bind, Option.bind_some, if_true, List.map_map]
    congr 3
    funext i
    simp only [Function.comp]
    rw [zip_range_map, List.foldl_map]
    rfl
  · simp [hm.1, hn, Ne.symm hn]

theorem dotN_sum [CommRing α] [LawfulOps α] (n : Nat) (x w : Nat → α) :
    dotN n x w = ∑ b ∈ Finset.range n, x b * w b := by
  unfold dotN
  simp only [LawfulOps.add_eq, LawfulOps.mul_eq, LawfulOps.zero_eq]
  rw [foldl_range_sum, zero_add]

/-- C11 in exact arithmetic: the result is the mathematical matrix-vector product. -/
theorem C11_mulSlice_exact [CommRing α] [LawfulOps α] {m : Mat α} {r c : Nat} {f : Nat → Nat → α}
    (hm : m.Is r c f) (hc : 0 < c) (x : Nat → α) :
    m.mulSlice ((List.range c).map x)
      = some (.ok ((List.range r).map fun i => ∑ j ∈ Finset.range c, f i j * x j)) := by
  rw [C11_mulSlice hm hc]
  simp [dotN_sum]

example : (Mat.fromBody [1, 2, 3, 4, 5, 6] (2, 3) : Mat Int).mulSlice [1, 0, -1]
    = some (.ok [-2, -2]) := rfl

/-! ## C12 convolution -/

theorem conv_fold (n kc : Nat) (x : Nat → Nat → α) (k : Nat → Nat → α) (l : List Nat) (h : Nat → α) :
    (l.map fun a => ((List.range (n + kc - 1)).map (x a), (List.range kc).map (k a))).foldlM
      (fun acc p => do
        let ws ← windows kc p.1
        unwrap (addSliceMut acc (ws.map fun s => scalarProd s p.2)))
      ((List.range n).map h)
    = if kc = 0 ∧ l ≠ [] then none else
      some ((List.range n).map fun j => l.foldl (fun acc a =>
        BasicOps.addAssign acc (dotN kc (fun b => x a (j + b)) (k a))) (h j)) := by
  by_cases hk : kc = 0
  · subst hk
    cases l with
    | nil => simp
    | cons a l => simp [windows]
  · simp only [hk, false_and, if_false]
    induction l generalizing h with
    | nil => simp
    | cons a l ih =>
      rw [List.map_cons, List.foldlM_cons]
      simp only
      rw [windows_range_map kc _ _ (by omega)]
      simp only [Option.bind_eq_bind, Option.bind_some, List.map_map]
      have e : n + kc - 1 + 1 - kc = n := by omega
      rw [e]
      have : addSliceMut ((List.range n).map h)
          ((List.range n).map ((fun s => scalarProd s ((List.range kc).map (k a)))
            ∘ fun j => (List.range kc).map fun b => x a (j + b)))
          = .ok ((List.range n).map fun j => BasicOps.addAssign (h j)
              (dotN kc (fun b => x a (j + b)) (k a))) := by
        unfold addSliceMut
        rw [if_neg (by simp), zipUpd_eq_zipWith _ _ _ (by simp)]
        rw [List.zipWith_map, List.zipWith_self]
        congr 2
        funext j
        simp only [Function.comp]
        unfold scalarProd
        rw [zip_range_map, List.foldl_map]
        rfl
      rw [this]
      simp only [unwrap, Option.bind_some]
      exact ih _

omit [BasicOps α] in
theorem getSlider_is {m : Mat α} {r c : Nat} {f : Nat → Nat → α} (hm : m.Is r c f) (hc : 0 < c)
    (i n : Nat) (h : i + n ≤ r) :
    m.getSlider i n = some ((List.range n).map fun a => (List.range c).map (f (i + a))) := by
  unfold Mat.getSlider
  rw [hm.1, hm.2]
  simp only
  rw [slice_table r c f i n h]
  simp only [Option.bind_eq_bind, Option.bind_some]
  exact chunks_table n c _ hc

theorem convolution_is {m k : Mat α} {r c kr kc : Nat} {f g : Nat → Nat → α} (hm : m.Is r c f)
    (hk : k.Is kr kc g) (h1 : 1 ≤ kr) (h2 : kr ≤ r) (h3 : 1 ≤ kc) (h4 : kc ≤ c) :
    m.convolution k = some (.ok (fromBody
      (table (r - kr + 1) (c - kc + 1) (corr kr kc f g)) (r - kr + 1, c - kc + 1))) := by
  unfold Mat.convolution
  rw [hm.1, hk.1]
  simp only
  rw [if_neg (by omega)]
  have u1 : usub kr 1 = some (kr - 1) := by simp [usub, h1]
  have u2 : usub r (kr - 1) = some (r - kr + 1) := by
    unfold usub; rw [if_pos (by omega)]; congr 1; omega
  have u3 : usub kc 1 = some (kc - 1) := by simp [usub, h3]
  have u4 : usub c (kc - 1) = some (c - kc + 1) := by
    unfold usub; rw [if_pos (by omega)]; congr 1; omega
  simp only [u1, u2, u3, u4, Option.bind_eq_bind, Option.bind_some]
  have hrow : ∀ i ∈ List.range (r - kr + 1), convRow m k (c - kc + 1) i
      = some ((List.range (c - kc + 1)).map fun j => corr kr kc f g i j) := by
    intro i hi
    rw [List.mem_range] at hi
    unfold convRow
    rw [hk.1]
    simp only
    rw [getSlider_is hm (by omega) i kr (by omega), C18_rows hk (by omega)]
    simp only [Option.bind_eq_bind, Option.bind_some]
    rw [zip_range_map]
    have e : c = c - kc + 1 + kc - 1 := by omega
    have := conv_fold (c - kc + 1) kc (fun a => f (i + a)) g (List.range kr) (fun _ => BasicOps.zero)
    rw [if_neg (by omega), ← e] at this
    rw [← range_map_const]
    exact this
  rw [mapM_some_of _ _ _ hrow]
  simp only [Option.bind_some]
  have e : ((List.range (r - kr + 1)).map fun i => (List.range (c - kc + 1)).map
      fun j => corr kr kc f g i j).flatten = table (r - kr + 1) (c - kc + 1) (corr kr kc f g) := by
    simp [table, List.flatMap_def]
  rw [e, Mat.toMatrix, if_neg (by simp [table_length])]
  rfl

/-- C12. Convolution with a fitting kernel never panics and yields the valid cross-correlation,
summed in the order rows first, for any element operations. -/
theorem C12_convolution {m k : Mat α} {r c kr kc : Nat} {f g : Nat → Nat → α} (hm : m.Is r c f)
    (hk : k.Is kr kc g) (h1 : 1 ≤ kr) (h2 : kr ≤ r) (h3 : 1 ≤ kc) (h4 : kc ≤ c) :
    ∃ m', m.convolution k = some (.ok m')
      ∧ m'.Is (r - kr + 1) (c - kc + 1) (corr kr kc f g) :=
  ⟨_, convolution_is hm hk h1 h2 h3 h4, rfl, rfl⟩

theorem corr_sum [CommRing α] [LawfulOps α] (kr kc : Nat) (f g : Nat → Nat → α) (i j : Nat) :
    corr kr kc f g i j
      = ∑ a ∈ Finset.range kr, ∑ b ∈ Finset.range kc, f (i + a) (j + b) * g a b := by
  unfold corr
  simp only [LawfulOps.addAssign_eq, dotN_sum, LawfulOps.zero_eq]
  rw [foldl_range_sum, zero_add]

/-- C12 in exact arithmetic: entry `(i,j)` is `Σ_{a<kr} Σ_{b<kc} m(i+a,j+b)·k(a,b)`. -/
theorem C12_convolution_exact [CommRing α] [LawfulOps α] {m k : Mat α} {r c kr kc : Nat}
    {f g : Nat → Nat → α} (hm : m.Is r c f) (hk : k.Is kr kc g) (h1 : 1 ≤ kr) (h2 : kr ≤ r)
    (h3 : 1 ≤ kc) (h4 : kc ≤ c) :
    ∃ m', m.convolution k = some (.ok m') ∧ m'.Is (r - kr + 1) (c - kc + 1) (fun i j =>
      ∑ a ∈ Finset.range kr, ∑ b ∈ Finset.range kc, f (i + a) (j + b) * g a b) := by
  refine ⟨_, convolution_is hm hk h1 h2 h3 h4, rfl, ?_⟩
  exact table_congr fun i _ j _ => corr_sum kr kc f g i j

/-- C12. A kernel larger than the matrix in either dimension is rejected with an error. -/
theorem C12_too_large (m k : Mat α) (h : k.shape.1 > m.shape.1 ∨ k.shape.2 > m.shape.2) :
    m.convolution k = some (.error .invalidRHS) := by
  simp [Mat.convolution, h]

/-- A kernel without rows or columns that is not too large panics (subtraction underflow). -/
theorem C12_empty_kernel (m k : Mat α) (h : ¬ (k.shape.1 > m.shape.1 ∨ k.shape.2 > m.shape.2))
    (h0 : k.shape.1 = 0 ∨ k.shape.2 = 0) : m.convolution k = none := by
  unfold Mat.convolution
  rw [if_neg h]
  by_cases h1 : k.shape.1 = 0
  · simp [h1, usub]
  · have h2 : k.shape.2 = 0 := by omega
    have u1 : usub k.shape.1 1 = some (k.shape.1 - 1) := by unfold usub; rw [if_pos (by omega)]
    have u2 : usub m.shape.1 (k.shape.1 - 1) = some (m.shape.1 - (k.shape.1 - 1)) := by
      unfold usub; rw [if_pos (by omega)]
    have u3 : usub k.shape.2 1 = none := by rw [h2]; rfl
    simp [u1, u3]

example : (Mat.fromBody [1, 2, 3, 4, 5, 6, 7, 8, 9] (3, 3) : Mat Int).convolution
    (Mat.fromBody [1, 0, 0, -1] (2, 2)) = some (.ok (Mat.fromBody [-4, -4, -4, -4] (2, 2))) := rfl
example : (Mat.fromBody [1, 2, 3, 4] (2, 2) : Mat Int).convolution
    (Mat.fromBody [1, 0, 0] (1, 3)) = some (.error .invalidRHS) := rfl

/-! ## C13 bilinearity -/

section Exact
variable [CommRing α] [LawfulOps α]

/-- C13. Convolution of a sum of equally shaped matrices is the sum of the convolutions. -/
theorem C13_add_left {x y k : Mat α} {r c kr kc : Nat} {f g h : Nat → Nat → α} (hx : x.Is r c f)
    (hy : y.Is r c g) (hk : k.Is kr kc h) (h1 : 1 ≤ kr) (h2 : kr ≤ r) (h3 : 1 ≤ kc) (h4 : kc ≤ c) :
    ∃ xy cxy cx cy s, x.addMut y = .ok xy ∧ xy.convolution k = some (.ok cxy)
      ∧ x.convolution k = some (.ok cx) ∧ y.convolution k = some (.ok cy)
      ∧ cx.addMut cy = .ok s ∧ cxy.shape = s.shape ∧ cxy.body = s.body := by
  obtain ⟨xy, a1, a2, -⟩ := C10_add hx hy (by omega)
  obtain ⟨cxy, b1, b2⟩ := C12_convolution_exact a2 hk h1 h2 h3 h4
  obtain ⟨cx, c1, c2⟩ := C12_convolution_exact hx hk h1 h2 h3 h4
  obtain ⟨cy, d1, d2⟩ := C12_convolution_exact hy hk h1 h2 h3 h4
  obtain ⟨s, e1, e2, -⟩ := C10_add c2 d2 (by omega)
  refine ⟨xy, cxy, cx, cy, s, a1, b1, c1, d1, e1, by rw [b2.1, e2.1], ?_⟩
  rw [b2.2, e2.2]
  apply table_congr
  intro i _ j _
  simp only [LawfulOps.addAssign_eq, add_mul, Finset.sum_add_distrib]

/-- C13. Additivity in the kernel. -/
theorem C13_add_right {x k l : Mat α} {r c kr kc : Nat} {f g h : Nat → Nat → α} (hx : x.Is r c f)
    (hk : k.Is kr kc g) (hl : l.Is kr kc h) (h1 : 1 ≤ kr) (h2 : kr ≤ r) (h3 : 1 ≤ kc)
    (h4 : kc ≤ c) :
    ∃ kl ckl ck cl s, k.addMut l = .ok kl ∧ x.convolution kl = some (.ok ckl)
      ∧ x.convolution k = some (.ok ck) ∧ x.convolution l = some (.ok cl)
      ∧ ck.addMut cl = .ok s ∧ ckl.shape = s.shape ∧ ckl.body = s.body := by
  obtain ⟨kl, a1, a2, -⟩ := C10_add hk hl (by omega)
  obtain ⟨cxy, b1, b2⟩ := C12_convolution_exact hx a2 h1 h2 h3 h4
  obtain ⟨cx, c1, c2⟩ := C12_convolution_exact hx hk h1 h2 h3 h4
  obtain ⟨cy, d1, d2⟩ := C12_convolution_exact hx hl h1 h2 h3 h4
  obtain ⟨s, e1, e2, -⟩ := C10_add c2 d2 (by omega)
  refine ⟨kl, cxy, cx, cy, s, a1, b1, c1, d1, e1, by rw [b2.1, e2.1], ?_⟩
  rw [b2.2, e2.2]
  apply table_congr
  intro i _ j _
  simp only [LawfulOps.addAssign_eq, mul_add, Finset.sum_add_distrib]

/-- C13. Scalars factor out of the matrix and out of the kernel. -/
theorem C13_scalar {x k xs ks : Mat α} {r c kr kc : Nat} {f g : Nat → Nat → α} (s : α)
    (hx : x.Is r c f) (hk : k.Is kr kc g) (hxs : xs.Is r c (fun i j => s * f i j))
    (hks : ks.Is kr kc (fun i j => s * g i j)) (h1 : 1 ≤ kr) (h2 : kr ≤ r) (h3 : 1 ≤ kc)
    (h4 : kc ≤ c) :
    ∃ c0 c1 c2, x.convolution k = some (.ok c0) ∧ xs.convolution k = some (.ok c1)
      ∧ x.convolution ks = some (.ok c2) ∧ c1.shape = c0.shape ∧ c2.shape = c0.shape
      ∧ c1.body = c0.body.map (s * ·) ∧ c2.body = c0.body.map (s * ·) := by
  obtain ⟨c0, a1, a2⟩ := C12_convolution_exact hx hk h1 h2 h3 h4
  obtain ⟨c1, b1, b2⟩ := C12_convolution_exact hxs hk h1 h2 h3 h4
  obtain ⟨c2, d1, d2⟩ := C12_convolution_exact hx hks h1 h2 h3 h4
  refine ⟨c0, c1, c2, a1, b1, d1, by rw [b2.1, a2.1], by rw [d2.1, a2.1], ?_, ?_⟩
  · rw [b2.2, a2.2, table_map]
    apply table_congr
    intro i _ j _
    simp only [Finset.mul_sum, mul_assoc]
  · rw [d2.2, a2.2, table_map]
    apply table_congr
    intro i _ j _
    simp only [Finset.mul_sum, mul_left_comm]

/-! ## C14 adjoint -/

/-- The sum identity behind C14. -/
theorem adjoint_sum (r c kr kc : Nat) (x k y : Nat → Nat → α) (h1 : 1 ≤ kr) (h2 : kr ≤ r)
    (h3 : 1 ≤ kc) (h4 : kc ≤ c) :
    (∑ i ∈ Finset.range (r - kr + 1), ∑ j ∈ Finset.range (c - kc + 1),
      (∑ a ∈ Finset.range kr, ∑ b ∈ Finset.range kc, x (i + a) (j + b) * k a b) * y i j)
    = ∑ i ∈ Finset.range r, ∑ j ∈ Finset.range c, x i j *
      (∑ a ∈ Finset.range kr, ∑ b ∈ Finset.range kc,
        padded (r - kr + 1) (c - kc + 1) (kr - 1) (kc - 1) y (i + a) (j + b)
          * k (kr - 1 - a) (kc - 1 - b)) := by
  have hR : ∀ i j, (∑ a ∈ Finset.range kr, ∑ b ∈ Finset.range kc,
        padded (r - kr + 1) (c - kc + 1) (kr - 1) (kc - 1) y (i + a) (j + b)
          * k (kr - 1 - a) (kc - 1 - b))
      = ∑ a ∈ Finset.range kr, ∑ b ∈ Finset.range kc,
        (if a ≤ i ∧ i < a + (r - kr + 1) then
          (if b ≤ j ∧ j < b + (c - kc + 1) then y (i - a) (j - b) else 0) else 0) * k a b := by
    intro i j
    rw [← Finset.sum_range_reflect _ kr]
    apply Finset.sum_congr rfl
    intro a ha
    rw [Finset.mem_range] at ha
    rw [← Finset.sum_range_reflect _ kc]
    apply Finset.sum_congr rfl
    intro b hb
    rw [Finset.mem_range] at hb
    rw [show kr - 1 - (kr - 1 - a) = a by omega, show kc - 1 - (kc - 1 - b) = b by omega]
    congr 1
    unfold padded
    rw [LawfulOps.zero_eq]
    by_cases c1 : a ≤ i ∧ i < a + (r - kr + 1)
    · by_cases c2 : b ≤ j ∧ j < b + (c - kc + 1)
      · rw [if_pos (by omega), if_pos c1, if_pos c2]
        congr 1 <;> omega
      · rw [if_neg (by omega), if_pos c1, if_neg c2]
    · rw [if_neg (by omega), if_neg c1]
  simp only [hR]
  simp only [Finset.sum_mul, Finset.mul_sum]
  -- move the kernel sums outermost on both sides
  have L : ∀ (R C : Nat) (F : Nat → Nat → Nat → Nat → α),
      (∑ i ∈ Finset.range R, ∑ j ∈ Finset.range C, ∑ a ∈ Finset.range kr, ∑ b ∈ Finset.range kc,
        F i j a b)
      = ∑ a ∈ Finset.range kr, ∑ b ∈ Finset.range kc, ∑ i ∈ Finset.range R, ∑ j ∈ Finset.range C,
        F i j a b := by
    intro R C F
    calc _ = ∑ i ∈ Finset.range R, ∑ a ∈ Finset.range kr, ∑ j ∈ Finset.range C,
            ∑ b ∈ Finset.range kc, F i j a b := by
          apply Finset.sum_congr rfl; intro i _; rw [Finset.sum_comm]
      _ = ∑ a ∈ Finset.range kr, ∑ i ∈ Finset.range R, ∑ j ∈ Finset.range C,
            ∑ b ∈ Finset.range kc, F i j a b := Finset.sum_comm
      _ = ∑ a ∈ Finset.range kr, ∑ i ∈ Finset.range R, ∑ b ∈ Finset.range kc,
            ∑ j ∈ Finset.range C, F i j a b := by
          apply Finset.sum_congr rfl; intro a _
          apply Finset.sum_congr rfl; intro i _; rw [Finset.sum_comm]
      _ = _ := by
          apply Finset.sum_congr rfl; intro a _; rw [Finset.sum_comm]
  rw [L, L]
  apply Finset.sum_congr rfl
  intro a ha
  apply Finset.sum_congr rfl
  intro b hb
  rw [Finset.mem_range] at ha hb
  have e1 : ∀ i, (∑ j ∈ Finset.range c, x i j * ((if a ≤ i ∧ i < a + (r - kr + 1) then
          (if b ≤ j ∧ j < b + (c - kc + 1) then y (i - a) (j - b) else 0) else 0) * k a b))
      = if a ≤ i ∧ i < a + (r - kr + 1) then
          (∑ j ∈ Finset.range (c - kc + 1), x i (b + j) * (y (i - a) j * k a b)) else 0 := by
    intro i
    by_cases c1 : a ≤ i ∧ i < a + (r - kr + 1)
    · simp only [if_pos c1]
      rw [show (∑ j ∈ Finset.range (c - kc + 1), x i (b + j) * (y (i - a) j * k a b))
        = ∑ j ∈ Finset.range (c - kc + 1), (fun j => x i j * (y (i - a) (j - b) * k a b)) (b + j) by
          apply Finset.sum_congr rfl; intro j _; simp]
      rw [← sum_window c b (c - kc + 1) (by omega) (fun j => x i j * (y (i - a) (j - b) * k a b))]
      apply Finset.sum_congr rfl
      intro j _
      by_cases c2 : b ≤ j ∧ j < b + (c - kc + 1)
      · simp [c2]
      · rw [if_neg c2, if_neg c2]; simp
    · simp only [if_neg c1]; simp
  simp only [e1]
  rw [sum_window r a (r - kr + 1) (by omega)]
  apply Finset.sum_congr rfl
  intro i _
  apply Finset.sum_congr rfl
  intro j _
  rw [Nat.add_sub_cancel_left, Nat.add_comm a i, Nat.add_comm b j]
  ring

/-- C14. `⟨x ⋆ k, y⟩ = ⟨x, pad(y) ⋆ flip(k)⟩`, the pairing being `scalar_prod` of the bodies. -/
theorem C14_adjoint {x k y : Mat α} {r c kr kc : Nat} {f g h : Nat → Nat → α} (hx : x.Is r c f)
    (hk : k.Is kr kc g) (hy : y.Is (r - kr + 1) (c - kc + 1) h) (h1 : 1 ≤ kr) (h2 : kr ≤ r)
    (h3 : 1 ≤ kc) (h4 : kc ≤ c) :
    ∃ xk py fk z, x.convolution k = some (.ok xk) ∧ y.pad (kr - 1, kc - 1) = some py
      ∧ k.flip = some (.ok fk) ∧ py.convolution fk = some (.ok z) ∧ z.shape = x.shape
      ∧ scalarProd xk.getBody y.getBody = scalarProd x.getBody z.getBody := by
  obtain ⟨xk, a1, a2⟩ := C12_convolution_exact hx hk h1 h2 h3 h4
  obtain ⟨py, b1, b2⟩ := C09_pad hy (kr - 1) (kc - 1)
  obtain ⟨fk, c1, c2⟩ := C08_flip hk
  obtain ⟨z, d1, d2⟩ := C12_convolution_exact b2 c2 h1 (by omega) h3 (by omega)
  have er : r - kr + 1 + 2 * (kr - 1) - kr + 1 = r := by omega
  have ec : c - kc + 1 + 2 * (kc - 1) - kc + 1 = c := by omega
  rw [er, ec] at d2
  refine ⟨xk, py, fk, z, a1, b1, c1, d1, by rw [d2.1, hx.1], ?_⟩
  simp only [Mat.getBody]
  rw [a2.2, hy.2, hx.2, d2.2, scalarProd_eq_sum, scalarProd_eq_sum, table_zipWith, table_zipWith,
    table_sum, table_sum]
  exact adjoint_sum r c kr kc f g h h1 h2 h3 h4

end Exact

/-- The hypotheses of C13/C14 with a 3 × 3 matrix and a 2 × 2 kernel. -/
example : ∃ (x k y : Mat Int), x.Is 3 3 (fun i j => 3 * i + j) ∧ k.Is 2 2 (fun i j => i - j)
    ∧ y.Is (3 - 2 + 1) (3 - 2 + 1) (fun i j => i * j + 1) :=
  ⟨Mat.fromBody [0, 1, 2, 3, 4, 5, 6, 7, 8] (3, 3), Mat.fromBody [0, -1, 1, 0] (2, 2),
    Mat.fromBody [1, 1, 1, 2] (2, 2), ⟨rfl, rfl⟩, ⟨rfl, rfl⟩, ⟨rfl, rfl⟩⟩

/-! ## C15 block reduction -/

omit [BasicOps α] in
theorem blockCols_eq (bf : List α → Run α) (p n : Nat) (C : Nat → Nat → List α) :
    blockCols bf n ((List.range p).map fun a => (List.range n).map (C a))
      = (List.range n).mapM fun j => bf ((List.range p).flatMap fun a => C a j) := by
  induction n generalizing C with
  | zero => rfl
  | succ n ih =>
    rw [blockCols, List.range_succ_eq_map, List.mapM_cons]
    have hh : ((List.range p).map fun a => (0 :: (List.range n).map Nat.succ).map (C a)).mapM
        List.head? = some ((List.range p).map fun a => C a 0) := by
      rw [mapM_map']
      exact mapM_some_of _ _ _ fun a _ => rfl
    have ht : ((List.range p).map fun a => (0 :: (List.range n).map Nat.succ).map (C a)).map List.tail
        = (List.range p).map fun a => (List.range n).map fun j => C a (j + 1) := by
      simp [Function.comp_def]
    rw [hh, ht, ih]
    simp only [Option.bind_eq_bind, Option.bind_some, mapM_map']
    rw [List.flatMap_def]
    rfl

omit [BasicOps α] in
theorem mapM_flatten_table (nr nc : Nat) (F : Nat → Nat → Run α) (h : Nat → Nat → α)
    (hF : ∀ i, i < nr → ∀ j, j < nc → F i j = some (h i j)) :
    ((List.range nr).mapM fun i => (List.range nc).mapM fun j => F i j)
      = some ((List.range nr).map fun i => (List.range nc).map fun j => h i j) := by
  apply mapM_some_of
  intro i hi
  apply mapM_some_of
  intro j hj
  exact hF i (List.mem_range.mp hi) j (List.mem_range.mp hj)

omit [BasicOps α] in
theorem chunks_range_map (n q : Nat) (g : Nat → α) (hq : 0 < q) :
    chunks q ((List.range (n * q)).map g)
      = some ((List.range n).map fun j => (List.range q).map fun b => g (j * q + b)) := by
  rw [range_map_mul, chunks_table _ _ _ hq]

omit [BasicOps α] in
theorem blockRows_eq (bf : List α → Run α) (p q nc n : Nat) (hq : 0 < q) (R : Nat → Nat → α) :
    blockRows bf (p, q) nc n ((List.range (n * p)).map fun i => (List.range (nc * q)).map (R i))
      = ((List.range n).mapM fun i => (List.range nc).mapM fun j =>
          bf (table p q fun a b => R (i * p + a) (j * q + b))).map List.flatten := by
  induction n generalizing R with
  | zero => rfl
  | succ n ih =>
    rw [blockRows]
    have e : (n + 1) * p = p + n * p := by rw [Nat.succ_mul, Nat.add_comm]
    rw [e, range_map_add]
    simp only
    rw [drainFront_append p _ _ (by simp)]
    simp only [Option.bind_eq_bind, Option.bind_some]
    have hch : ((List.range p).map fun i => (List.range (nc * q)).map (R i)).mapM (chunks q)
        = some ((List.range p).map fun a => (List.range nc).map fun j => (List.range q).map fun b =>
            R a (j * q + b)) := by
      rw [mapM_map']
      exact mapM_some_of _ _ _ fun a _ => chunks_range_map nc q (R a) hq
    rw [hch]
    simp only [Option.bind_some]
    rw [blockCols_eq, ih, List.range_succ_eq_map, List.mapM_cons, mapM_map']
    have e2 : ∀ i j, (table p q fun a b => R (p + (i * p + a)) (j * q + b))
        = table p q fun a b => R (i.succ * p + a) (j * q + b) := by
      intro i j
      apply table_congr
      intro a _ b _
      rw [Nat.succ_mul]
      congr 1
      omega
    simp only [e2]
    have e3 : ∀ j, ((List.range p).flatMap fun a => (List.range q).map fun b => R a (j * q + b))
        = table p q fun a b => R (0 * p + a) (j * q + b) := by
      intro j; unfold table; simp
    simp only [e3]
    cases ((List.range nc).mapM fun j => bf (table p q fun a b => R (0 * p + a) (j * q + b))) with
    | none => rfl
    | some x =>
      simp only [Option.bind_some]
      cases ((List.range n).mapM fun i => (List.range nc).mapM fun j =>
        bf (table p q fun a b => R (i.succ * p + a) (j * q + b))) with
      | none => rfl
      | some y => simp

/-- The `(i,j)` block of a matrix with entries `f`, listed row by row. -/
def blockOf (p q : Nat) (f : Nat → Nat → α) (i j : Nat) : List α :=
  table p q fun a b => f (i * p + a) (j * q + b)

omit [BasicOps α] in
theorem blockReduce_eq {m : Mat α} {nr nc p q : Nat} {f : Nat → Nat → α}
    (hm : m.Is (nr * p) (nc * q) f) (hp : 0 < p) (hq : 0 < q) (hr : 0 < nr) (hc : 0 < nc)
    (bf : List α → Run α) :
    m.blockReduce (p, q) bf = ((List.range nr).mapM fun i => (List.range nc).mapM fun j =>
      bf (blockOf p q f i j)).map fun rows => .ok (fromBody rows.flatten (nr, nc)) := by
  have hr' : p ≤ nr * p := Nat.le_mul_of_pos_left p hr
  have hc' : q ≤ nc * q := Nat.le_mul_of_pos_left q hc
  unfold Mat.blockReduce
  rw [C18_rows hm (by omega), hm.1]
  simp only
  rw [if_neg (by omega), if_neg (by simp), if_neg (by omega), if_neg (by simp), if_neg (by omega)]
  simp only [Option.bind_eq_bind, Option.bind_some, Nat.mul_div_cancel _ hp, Nat.mul_div_cancel _ hq]
  rw [blockRows_eq _ _ _ _ _ hq]
  unfold blockOf
  cases ((List.range nr).mapM fun i => (List.range nc).mapM fun j =>
    bf (table p q fun a b => f (i * p + a) (j * q + b))) <;> rfl

omit [BasicOps α] in
/-- C15. A dividing block size `p × q` gives the `(rows/p) × (cols/q)` matrix of the block
function's value on exactly the elements of each block, in row-major order. -/
theorem C15_blockReduce {m : Mat α} {nr nc p q : Nat} {f h : Nat → Nat → α}
    (hm : m.Is (nr * p) (nc * q) f) (hp : 0 < p) (hq : 0 < q) (hr : 0 < nr) (hc : 0 < nc)
    (bf : List α → Run α)
    (hbf : ∀ i, i < nr → ∀ j, j < nc →
      bf ((List.range p).flatMap fun a => (List.range q).map fun b => f (i * p + a) (j * q + b))
        = some (h i j)) :
    ∃ m', m.blockReduce (p, q) bf = some (.ok m') ∧ m'.Is nr nc h := by
  rw [blockReduce_eq hm hp hq hr hc,
    mapM_flatten_table nr nc (fun i j => bf (blockOf p q f i j)) h hbf]
  refine ⟨_, rfl, rfl, ?_⟩
  simp [Mat.fromBody, table, List.flatMap_def]

omit [BasicOps α] in
/-- C15. If the block function panics on some block, so does `block_reduce`. -/
theorem C15_panic {m : Mat α} {nr nc p q : Nat} {f : Nat → Nat → α}
    (hm : m.Is (nr * p) (nc * q) f) (hp : 0 < p) (hq : 0 < q) (bf : List α → Run α) (i j : Nat)
    (hi : i < nr) (hj : j < nc)
    (hbf : bf ((List.range p).flatMap fun a => (List.range q).map fun b =>
      f (i * p + a) (j * q + b)) = none) :
    m.blockReduce (p, q) bf = none := by
  rw [blockReduce_eq hm hp hq (by omega) (by omega)]
  rw [mapM_eq_none_of _ _ i (List.mem_range.mpr hi)]
  · rfl
  · exact mapM_eq_none_of _ _ j (List.mem_range.mpr hj) hbf

omit [BasicOps α] in
/-- C15. Block sizes that do not divide the shape, or exceed it, are rejected with an error. -/
theorem C15_reject (m : Mat α) (p q : Nat) (hp : 0 < p) (hq : 0 < q) (bf : List α → Run α)
    (h : ¬ (p ∣ m.shape.1) ∨ ¬ (q ∣ m.shape.2) ∨ m.shape.1 < p ∨ m.shape.2 < q) :
    m.blockReduce (p, q) bf = some (.error .inconsistentShape) := by
  unfold Mat.blockReduce
  simp only
  rw [if_neg (by omega)]
  by_cases h1 : m.shape.1 % p = 0
  · rw [if_neg (by simp [h1]), if_neg (by omega)]
    by_cases h2 : m.shape.2 % q = 0
    · rw [if_neg (by simp [h2]), if_pos]
      rcases h with h | h | h | h
      · exact absurd (Nat.dvd_of_mod_eq_zero h1) h
      · exact absurd (Nat.dvd_of_mod_eq_zero h2) h
      · exact Or.inl h
      · exact Or.inr h
    · rw [if_pos h2]
  · rw [if_pos h1]

omit [BasicOps α] in
/-- A zero block dimension panics (remainder by zero) unless the other check rejects first. -/
theorem C15_zero_block (m : Mat α) (q : Nat) (bf : List α → Run α) :
    m.blockReduce (0, q) bf = none := by simp [Mat.blockReduce]

example : (Mat.fromBody [1, 2, 3, 4, 5, 6, 7, 8] (2, 4) : Mat Int).blockReduce (2, 2)
    (fun b => some (b.foldl (· + ·) 0)) = some (.ok (Mat.fromBody [14, 22] (1, 2))) := rfl
example : (Mat.fromBody [1, 2, 3, 4, 5, 6, 7, 8] (2, 4) : Mat Int).blockReduce (2, 3)
    (fun b => some (b.foldl (· + ·) 0)) = some (.error .inconsistentShape) := rfl

/-! ## C16 fractional up-sampling -/

theorem spread_block (p q u v i j a b : Nat) (f : Nat → Nat → α) (ha : a < p) (hb : b < q) :
    spread p q u v f (i * p + a) (j * q + b)
      = if a = u ∧ b = v then f i j else BasicOps.zero := by
  have e1 : (i * p + a) % p = a := by rw [Nat.mul_comm, Nat.mul_add_mod, Nat.mod_eq_of_lt ha]
  have e2 : (j * q + b) % q = b := by rw [Nat.mul_comm, Nat.mul_add_mod, Nat.mod_eq_of_lt hb]
  have e3 : (i * p + a) / p = i := by
    rw [Nat.mul_comm, Nat.mul_add_div (by omega), Nat.div_eq_of_lt ha]; omega
  have e4 : (j * q + b) / q = j := by
    rw [Nat.mul_comm, Nat.mul_add_div (by omega), Nat.div_eq_of_lt hb]; omega
  unfold spread
  rw [e1, e2, e3, e4]

omit [BasicOps α] in
theorem replicate_flatten (n k : Nat) (z : α) :
    (List.replicate n (List.replicate k z)).flatten = table n k (fun _ _ => z) := by
  rw [← table_replicate]; simp

theorem stuff_row (c q v : Nat) (hv : v < q) (g : Nat → α) :
    ((List.range c).map g).flatMap (fun e => List.replicate v BasicOps.zero ++ [e]
        ++ List.replicate (q - v - 1) BasicOps.zero)
      = (List.range (c * q)).map (fun j => if j % q = v then g (j / q) else BasicOps.zero) := by
  rw [range_map_mul, table, List.flatMap_map]
  rw [List.flatMap_def, List.flatMap_def]
  congr 1
  apply List.map_congr_left
  intro i _
  have e : q = v + 1 + (q - v - 1) := by omega
  have hb : ∀ b, b < q → (if (i * q + b) % q = v then g ((i * q + b) / q) else BasicOps.zero)
      = if b = v then g i else (BasicOps.zero : α) := by
    intro b hb
    have e2 : (i * q + b) % q = b := by rw [Nat.mul_comm, Nat.mul_add_mod, Nat.mod_eq_of_lt hb]
    have e4 : (i * q + b) / q = i := by
      rw [Nat.mul_comm, Nat.mul_add_div (by omega), Nat.div_eq_of_lt hb]; omega
    rw [e2, e4]
  rw [range_map_congr hb]
  conv_rhs => rw [e, range_map_add, range_map_add]
  congr 1
  · congr 1
    · rw [← range_map_const]
      exact range_map_congr fun b hb => by rw [if_neg (by omega)]
    · simp
  · rw [← range_map_const]
    exact range_map_congr fun b hb => by rw [if_neg (by omega)]

theorem stuffLoop_eq (n c p q u v : Nat) (hu : u < p) (hv : v < q) (f : Nat → Nat → α) :
    stuffLoop (c * q) u (p - u - 1) v (q - v - 1) n
        ((List.range n).map fun i => (List.range c).map (f i))
      = some (table (n * p) (c * q) (spread p q u v f)) := by
  induction n generalizing f with
  | zero => simp [stuffLoop, table]
  | succ n ih =>
    rw [stuffLoop, List.range_succ_eq_map]
    simp only [List.map_cons, List.head?_cons, List.tail_cons, List.map_map, Option.bind_eq_bind,
      Option.bind_some]
    have := ih (fun i => f (i + 1))
    simp only [Function.comp_def, Nat.succ_eq_add_one]
    rw [this]
    simp only [Option.bind_some]
    rw [Nat.succ_mul, Nat.add_comm (n * p) p, table_add p]
    congr 2
    · rw [replicate_flatten, replicate_flatten, stuff_row c q v hv]
      have e : p = u + 1 + (p - u - 1) := by omega
      conv_rhs => rw [e, table_add, table_add, table_one]
      have hrow : ∀ a j, a < p → spread p q u v f a j
          = if a = u ∧ j % q = v then f 0 (j / q) else BasicOps.zero := by
        intro a j ha
        unfold spread
        rw [Nat.mod_eq_of_lt ha, Nat.div_eq_of_lt ha]
      rw [← e]
      congr 1
      · congr 1
        · apply table_congr
          intro a ha j _
          rw [hrow a j (by omega), if_neg (by omega)]
        · apply range_map_congr
          intro j _
          rw [hrow _ j (by omega)]
          simp
      · apply table_congr
        intro a ha j _
        rw [hrow _ j (by omega), if_neg (by omega)]
    · apply table_congr
      intro i _ j _
      unfold spread
      rw [Nat.add_mod_left, Nat.add_div_left _ (by omega)]

theorem upsampling_eq {m k : Mat α} {r c p q kr kc : Nat} {f g : Nat → Nat → α} (hm : m.Is r c f)
    (hk : k.Is kr kc g) (hc : 0 < c) (hp : 0 < p) (hq : 0 < q) (hl : leftOff p q < q)
    (hkr : kr % 2 = 1) (hkc : kc % 2 = 1) (h3 : 3 ≤ kr) (hf1 : kr ≤ r * p + 2 * (kr - 2))
    (hf2 : kc ≤ c * q + 2 * (kr - 2)) :
    m.fractionalUpsampling (p, q) k = some (.ok (fromBody
      (table (r * p + 2 * (kr - 2) - kr + 1) (c * q + 2 * (kr - 2) - kc + 1)
        (corr kr kc (padded (r * p) (c * q) (kr - 2) (kr - 2)
          (spread p q (upOff p) (leftOff p q) f)) g))
      (r * p + 2 * (kr - 2) - kr + 1, c * q + 2 * (kr - 2) - kc + 1))) := by
  unfold Mat.fractionalUpsampling
  rw [C18_rows hm hc, hm.1, hk.1]
  simp only [Option.bind_eq_bind, Option.bind_some]
  have hu : upOff p < p := by unfold upOff; split <;> omega
  have h1 : halfOffset p p = some (upOff p) := by
    unfold upOff halfOffset usub
    by_cases he : p % 2 = 0
    · simp only [he, if_true]; rw [if_pos (by omega)]
    · simp only [he, if_false]; rw [if_pos (by omega)]; rfl
  have h2 : halfOffset q p = some (leftOff p q) := by
    unfold leftOff halfOffset usub
    by_cases he : q % 2 = 0
    · simp only [he, if_true]; rw [if_pos (by omega)]
    · simp only [he, if_false]; rw [if_pos (by omega)]; rfl
  have h3' : (usub p (upOff p)).bind (fun x => usub x 1) = some (p - upOff p - 1) := by
    unfold usub
    rw [if_pos (by omega)]
    simp only [Option.bind_some]
    rw [if_pos (by omega)]
  have h4 : (usub q (leftOff p q)).bind (fun x => usub x 1) = some (q - leftOff p q - 1) := by
    unfold usub
    rw [if_pos (by omega)]
    simp only [Option.bind_some]
    rw [if_pos (by omega)]
  simp only [h1, h2, h3', h4, Option.bind_some]
  rw [stuffLoop_eq r c p q _ _ hu hl f]
  simp only [Option.bind_some]
  rw [if_neg (by simp [table_length]), if_neg (by omega)]
  have h5 : usub kr 2 = some (kr - 2) := by unfold usub; rw [if_pos (by omega)]
  simp only [h5, Option.bind_some]
  rw [pad_is (Mat.fromBody_is _ _ _)]
  simp only [Option.bind_some]
  rw [convolution_is (Mat.fromBody_is _ _ _) hk (by omega) hf1 (by omega) hf2]
  rfl

/-- C16, the part that holds: with a 3 × 3 kernel, and a block whose odd column size is larger
than half the row size (automatic for square blocks), up-sampling never panics and restores the
shape (rows·p) × (cols·q); the entries are the 3 × 3 correlation of the zero-padded spread-out
matrix, each original entry sitting in the (upper left) middle of its block, except that the column
comes from the block's height when its width is odd (missing: other odd kernels, see
`C16_refuted`). -/
theorem C16_partial {m k : Mat α} {r c p q : Nat} {f g : Nat → Nat → α} (hm : m.Is r c f)
    (hk : k.Is 3 3 g) (hr : 0 < r) (hc : 0 < c) (hp : 0 < p) (hq : 0 < q)
    (hodd : q % 2 = 1 → (p - 1) / 2 < q) :
    ∃ m', upOff p < p ∧ leftOff p q < q ∧ m.fractionalUpsampling (p, q) k = some (.ok m')
      ∧ m'.Is (r * p) (c * q)
        (corr 3 3 (padded (r * p) (c * q) 1 1 (spread p q (upOff p) (leftOff p q) f)) g) := by
  have hl : leftOff p q < q := by
    unfold leftOff
    by_cases h : q % 2 = 0
    · rw [if_pos h]; omega
    · rw [if_neg h]; exact hodd (by omega)
  have hu : upOff p < p := by unfold upOff; split <;> omega
  have e1 : 0 < r * p := Nat.mul_pos hr hp
  have e2 : 0 < c * q := Nat.mul_pos hc hq
  refine ⟨_, hu, hl,
    upsampling_eq hm hk hc hp hq hl rfl rfl (by omega) (by omega) (by omega), ?_⟩
  have e3 : r * p + 2 * (3 - 2) - 3 + 1 = r * p := by omega
  have e4 : c * q + 2 * (3 - 2) - 3 + 1 = c * q := by omega
  rw [e3, e4]
  exact ⟨rfl, rfl⟩

/-- C16 for square blocks and 3 × 3 kernels (the crate's own use): the shape is restored. -/
theorem C16_partial_square {m k : Mat α} {r c p : Nat} {f g : Nat → Nat → α} (hm : m.Is r c f)
    (hk : k.Is 3 3 g) (hr : 0 < r) (hc : 0 < c) (hp : 0 < p) :
    ∃ m', m.fractionalUpsampling (p, p) k = some (.ok m') ∧ m'.shape = (r * p, c * p)
      ∧ m'.Rect := by
  obtain ⟨m', -, -, h1, h2⟩ := C16_partial hm hk hr hc hp hp (by omega)
  exact ⟨m', h1, h2.1, h2.rect⟩

/-- C16 is false of the code: with a `k × k` kernel, `k` odd and `k ≥ 5`, the result is too large
in both dimensions, for every matrix and every square block. -/
theorem C16_refuted {m k : Mat α} {r c p n : Nat} {f g : Nat → Nat → α} (hm : m.Is r c f)
    (hk : k.Is n n g) (hodd : n % 2 = 1) (hn : 5 ≤ n) (hc : 0 < c) (hp : 0 < p) :
    ∃ m', m.fractionalUpsampling (p, p) k = some (.ok m')
      ∧ m'.shape = (r * p + (n - 3), c * p + (n - 3)) ∧ m'.shape ≠ (r * p, c * p) := by
  have hl : leftOff p p < p := by unfold leftOff; split <;> omega
  refine ⟨_, upsampling_eq hm hk hc hp hp hl hodd hodd (by omega) (by omega) (by omega), ?_, ?_⟩
  · simp only [Mat.fromBody, Prod.mk.injEq]; omega
  · simp only [Mat.fromBody, ne_eq, Prod.mk.injEq]; omega

/-- … and an interpolation kernel of a single row panics. -/
theorem C16_refuted_panic {m k : Mat α} {r c : Nat} {f g : Nat → Nat → α} (hm : m.Is r c f)
    (hk : k.Is 1 1 g) (hc : 0 < c) : m.fractionalUpsampling (1, 1) k = none := by
  unfold Mat.fractionalUpsampling
  rw [C18_rows hm hc, hm.1, hk.1]
  have := stuffLoop_eq r c 1 1 0 0 (by omega) (by omega) f
  simp only [Nat.sub_zero, Nat.sub_self, Nat.mul_one] at this
  simp [usub]

example : (Mat.fromBody [1, 2] (1, 2) : Mat Int).fractionalUpsampling (2, 2)
    (Mat.fromBody [0, 0, 0, 0, 1, 0, 0, 0, 0] (3, 3))
    = some (.ok (Mat.fromBody [1, 0, 2, 0, 0, 0, 0, 0] (2, 4))) := rfl

/-! ## C17 slices -/

/-- C17. On equal lengths the slice operations act element by element; on unequal lengths they are
rejected (with `add_slice` accepting an empty left operand). -/
theorem C17_slices (l r : List α) :
    (l.length = r.length →
      addSliceMut l r = .ok (List.zipWith BasicOps.addAssign l r)
      ∧ mulSliceMut l r = .ok (List.zipWith BasicOps.mulAssign l r)
      ∧ mulSliceElt l r = .ok (List.zipWith BasicOps.mul l r)
      ∧ addSlice l r = .ok (List.zipWith BasicOps.add l r))
    ∧ (l.length ≠ r.length →
      addSliceMut l r = .error .inconsistentShape ∧ mulSliceMut l r = .error .inconsistentShape
      ∧ mulSliceElt l r = .error .inconsistentShape
      ∧ addSlice l r = if l = [] then .ok r else .error .inconsistentShape) := by
  constructor
  · intro h
    refine ⟨?_, ?_, ?_, ?_⟩
    · rw [addSliceMut, if_neg (by simp [h]), zipUpd_eq_zipWith _ _ _ h]
    · rw [mulSliceMut, if_neg (by simp [h]), zipUpd_eq_zipWith _ _ _ h]
    · rw [mulSliceElt, if_neg (by simp [h])]
    · unfold addSlice
      by_cases h0 : l.length = 0
      · have h1 : r = [] := by rw [h0] at h; exact List.length_eq_zero_iff.mp h.symm
        have h2 : l = [] := List.length_eq_zero_iff.mp h0
        simp [h1, h2]
      · rw [if_neg h0, if_neg (by simp [h])]
  · intro h
    refine ⟨by simp [addSliceMut, h], by simp [mulSliceMut, h], by simp [mulSliceElt, h], ?_⟩
    unfold addSlice
    by_cases h0 : l = []
    · simp [h0]
    · simp [h0, h]

/-- C17. `scalar_prod` adds the products of corresponding elements, left to right from zero. -/
theorem C17_scalarProd (n : Nat) (f g : Nat → α) :
    scalarProd ((List.range n).map f) ((List.range n).map g) = dotN n f g := by
  unfold scalarProd dotN
  rw [zip_range_map, List.foldl_map]

/-- C17 in exact arithmetic. -/
theorem C17_scalarProd_exact [CommRing α] [LawfulOps α] (l r : List α) :
    scalarProd l r = (List.zipWith (· * ·) l r).sum := scalarProd_eq_sum l r

example : addSlice [1, 2, 3] [10, 20, (30 : Int)] = .ok [11, 22, 33]
    ∧ addSlice [] [10, (20 : Int)] = .ok [10, 20]
    ∧ addSliceMut [1] [10, (20 : Int)] = .error .inconsistentShape
    ∧ scalarProd [1, 2, 3] [10, 20, (30 : Int)] = 140 := ⟨rfl, rfl, rfl, rfl⟩

end Renplex
