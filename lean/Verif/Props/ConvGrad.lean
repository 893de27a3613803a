import Verif.Props.Backprop
import Verif.Props.NetworkSize
/-!
# The derivatives of one convolutional layer
-/

namespace Renplex
open Filter Topology ComplexConjugate

section lists
variable {α β γ : Type}

/-- `n` tables one after the other. -/
def cube (n r c : Nat) (F : Nat → Nat → Nat → α) : List α :=
  (List.range n).flatMap fun o => table r c (F o)

theorem zipWith_flatMap (op : α → β → γ) (l : List Nat) (F : Nat → List α) (G : Nat → List β)
    (h : ∀ o, (F o).length = (G o).length) :
    List.zipWith op (l.flatMap F) (l.flatMap G) = l.flatMap fun o => List.zipWith op (F o) (G o) := by
  induction l with
  | nil => rfl
  | cons o l ih => rw [List.flatMap_cons, List.flatMap_cons, List.zipWith_append (h o), ih,
      List.flatMap_cons]

theorem cube_zipWith (n r c : Nat) (op : α → β → γ) (F : Nat → Nat → Nat → α)
    (G : Nat → Nat → Nat → β) :
    List.zipWith op (cube n r c F) (cube n r c G)
      = cube n r c fun o i j => op (F o i j) (G o i j) := by
  unfold cube
  rw [zipWith_flatMap _ _ _ _ (by simp [table_length])]
  simp only [table_zipWith]

theorem flatMap_table_length (l : List Nat) (r c : Nat) (F : Nat → Nat → Nat → α) :
    (l.flatMap fun o => table r c (F o)).length = l.length * (r * c) := by
  induction l with
  | nil => simp
  | cons o l ih => rw [List.flatMap_cons, List.length_append, ih, table_length, List.length_cons,
      Nat.succ_mul, Nat.add_comm]

theorem cube_length (n r c : Nat) (F : Nat → Nat → Nat → α) :
    (cube n r c F).length = n * (r * c) := by
  unfold cube; rw [flatMap_table_length, List.length_range]

theorem cube_map (n r c : Nat) (F : Nat → Nat → Nat → α) (g : α → β) :
    (cube n r c F).map g = cube n r c fun o i j => g (F o i j) := by
  unfold cube
  rw [List.map_flatMap]
  simp only [table_map]

theorem cube_congr {n r c : Nat} {F G : Nat → Nat → Nat → α}
    (h : ∀ o, o < n → ∀ i, i < r → ∀ j, j < c → F o i j = G o i j) :
    cube n r c F = cube n r c G := by
  unfold cube
  rw [List.flatMap_def, List.flatMap_def]
  congr 1
  refine List.map_congr_left fun o ho => ?_
  exact table_congr fun i hi j hj => h o (List.mem_range.mp ho) i hi j hj

/-- A vector cut into tables. -/
theorem range_map_cube (n r c : Nat) (f : Nat → α) :
    (List.range (n * (r * c))).map f = cube n r c fun o i j => f (o * (r * c) + (i * c + j)) := by
  rw [range_map_mul]
  unfold table cube
  rw [List.flatMap_def, List.flatMap_def]
  congr 1
  refine List.map_congr_left fun ch _ => ?_
  rw [range_map_mul]

theorem mem_cube {n r c : Nat} {F : Nat → Nat → Nat → α} {o i j : Nat} (ho : o < n) (hi : i < r)
    (hj : j < c) : F o i j ∈ cube n r c F := by
  unfold cube table
  simp only [List.mem_flatMap, List.mem_map, List.mem_range]
  exact ⟨o, ho, i, hi, j, hj, rfl⟩

theorem cube_sum [AddCommMonoid α] (n r c : Nat) (F : Nat → Nat → Nat → α) :
    (cube n r c F).sum = ∑ o ∈ Finset.range n, ∑ i ∈ Finset.range r, ∑ j ∈ Finset.range c,
      F o i j := by
  unfold cube
  rw [List.flatMap_def, List.sum_flatten, List.map_map, ← sum_range_list]
  congr 1
  refine List.map_congr_left fun o _ => ?_
  exact table_sum r c (F o)

/-- A sum over a vector, by tables. -/
theorem sum_cube [AddCommMonoid α] (n r c : Nat) (f : Nat → α) :
    ∑ k ∈ Finset.range (n * (r * c)), f k
      = ∑ o ∈ Finset.range n, ∑ i ∈ Finset.range r, ∑ j ∈ Finset.range c,
        f (o * (r * c) + (i * c + j)) := by
  rw [← sum_range_list, range_map_cube, cube_sum]

theorem cube_mapM {n r c : Nat} {F : Nat → Nat → Nat → α} {G : Nat → Nat → Nat → β}
    (f : α → Option β)
    (h : ∀ o, o < n → ∀ i, i < r → ∀ j, j < c → f (F o i j) = some (G o i j)) :
    (cube n r c F).mapM f = some (cube n r c G) := by
  unfold cube
  rw [List.flatMap_def, List.flatMap_def, mapM_flatten, mapM_map',
    mapM_some_of _ (fun o => table r c (G o))]
  · rfl
  · intro o ho
    exact table_mapM_some _ fun i hi j hj => h o (List.mem_range.mp ho) i hi j hj

theorem cube_zip (n r c : Nat) (F : Nat → Nat → Nat → α) (G : Nat → Nat → Nat → β) :
    (cube n r c F).zip (cube n r c G) = cube n r c fun o i j => (F o i j, G o i j) := by
  rw [List.zip_eq_zipWith, cube_zipWith]

end lists

section conv
variable {α P : Type}

/-- The pre-activations of a convolutional layer. -/
theorem Conv.computeQ_is [BasicOps α] {l : Conv α} {nf n p q r c : Nat}
    {K : Nat → Nat → Nat → Nat → α} {b : Nat → α} {f : ActFunc} (h : l.Is nf n p q K b f)
    (hf : 0 < nf) (hn : 0 < n) (hp : 1 ≤ p) (hpr : p ≤ r) (hq : 1 ≤ q) (hqc : q ≤ c)
    {maps : List (Mat α)} {X : Nat → Nat → Nat → α} (hX : MapsAre maps n r c X) :
    l.computeQ maps = some (cube nf (r - p + 1) (c - q + 1) (convPre n p q X K b)) := by
  have ho := Conv.outShape_is h hf hn hp hpr hq hqc hX
  obtain ⟨-, hb, hfn, M, hk, hM⟩ := h
  obtain ⟨Mx, rfl, hMx⟩ := hX.exists_fun
  unfold Conv.computeQ
  simp only [Option.bind_eq_bind]
  rw [ho]
  simp only [Option.bind_some]
  rw [C18_rows hk hn, hb]
  simp only [Option.bind_some]
  rw [zip_range_map, mapM_map', mapM_some_of _ (fun o => Mat.fromBody
    (table (r - p + 1) (c - q + 1) (convPre n p q X K b o)) (r - p + 1, c - q + 1))]
  · simp only [Option.bind_some]
    unfold cube
    rw [List.flatMap_map]; rfl
  · intro o ho'
    have ho' := List.mem_range.mp ho'
    simp only
    rw [Conv.feature_is hp hpr hq hqc hMx (hM o ho')]
    rfl

variable [CommRing α]

theorem convPre_sum [BasicOps α] [LawfulOps α] (n p q : Nat) (X : Nat → Nat → Nat → α)
    (K : Nat → Nat → Nat → Nat → α) (b : Nat → α) (o i j : Nat) :
    convPre n p q X K b o i j = (∑ ch ∈ Finset.range n, ∑ a ∈ Finset.range p,
      ∑ b ∈ Finset.range q, X ch (i + a) (j + b) * K o ch a b) + b o := by
  unfold convPre
  rw [LawfulOps.addAssign_eq, accN_sum]
  simp only [corr_sum]

/-- The derivative with respect to one kernel entry: the sum over all positions it is applied to. -/
def kernelGrad (R C : Nat) (x m : Nat → Nat → α) (a b : Nat) : α :=
  ∑ i ∈ Finset.range R, ∑ j ∈ Finset.range C, x (a + i) (b + j) * m i j

/-- The derivative with respect to one input entry, as the code computes it: the padded map
convolved with the flipped kernel. -/
def inputGrad [BasicOps α] (R C p q : Nat) (m k : Nat → Nat → α) (i j : Nat) : α :=
  ∑ a ∈ Finset.range p, ∑ b ∈ Finset.range q,
    padded R C (p - 1) (q - 1) m (i + a) (j + b) * k (p - 1 - a) (q - 1 - b)

theorem kernelGrad_add (R C : Nat) (x m m' : Nat → Nat → α) (a b : Nat) :
    kernelGrad R C x (fun i j => m i j + m' i j) a b
      = kernelGrad R C x m a b + kernelGrad R C x m' a b := by
  unfold kernelGrad
  simp only [← Finset.sum_add_distrib, mul_add]

variable [BasicOps α] [LawfulOps α]

theorem inputGrad_add (R C p q : Nat) (m m' k : Nat → Nat → α) (i j : Nat) :
    inputGrad R C p q (fun i j => m i j + m' i j) k i j
      = inputGrad R C p q m k i j + inputGrad R C p q m' k i j := by
  unfold inputGrad
  simp only [← Finset.sum_add_distrib, ← add_mul]
  refine Finset.sum_congr rfl fun a _ => Finset.sum_congr rfl fun b _ => ?_
  congr 1
  unfold padded
  split
  · rfl
  · simp

theorem inputGrad_zero (R C p q : Nat) (k : Nat → Nat → α) (i j : Nat) :
    inputGrad R C p q (fun _ _ => 0) k i j = 0 := by
  unfold inputGrad padded
  simp

theorem Conv.operA_is {n r c R C p q : Nat} {M : Nat → Mat α} {X : Nat → Nat → Nat → α}
    (hM : ∀ ch, ch < n → (M ch).Is r c (X ch)) (hR : 1 ≤ R) (hRr : R ≤ r) (hC : 1 ≤ C) (hCc : C ≤ c)
    (hp : r - R + 1 = p) (hq : c - C + 1 = q) {feat cfeat : Mat α} {v cv : Nat → Nat → α}
    (h1 : feat.Is R C v) (h2 : cfeat.Is R C cv) :
    Conv.operA ((List.range n).map M) feat cfeat
      = some (cube n p q fun ch => kernelGrad R C (X ch) (fun i j => v i j + cv i j),
          table R C fun i j => v i j + cv i j) := by
  unfold Conv.operA
  rw [mapM_map', mapM_some_of _ (fun ch => table p q
    (kernelGrad R C (X ch) (fun i j => v i j + cv i j)))]
  · have : addSlice feat.body cfeat.body = .ok (table R C fun i j => v i j + cv i j) := by
      unfold addSlice
      have : 0 < R * C := Nat.mul_pos hR hC
      rw [h1.2, h2.2, table_length, table_length, if_neg (by omega), if_neg (by simp),
        table_zipWith]
      simp only [LawfulOps.add_eq]
    rw [this]
    simp only [Option.bind_eq_bind, Option.bind_some, unwrap]
    unfold cube
    rw [List.flatMap_def]
  · intro ch hch
    have e1 := convolution_is (hM ch (List.mem_range.mp hch)) h1 hR hRr hC hCc
    have e2 := convolution_is (hM ch (List.mem_range.mp hch)) h2 hR hRr hC hCc
    rw [hp, hq] at e1 e2
    rw [e1, e2]
    simp only [Option.bind_eq_bind, Option.bind_some, unwrap]
    obtain ⟨m', k1, k2, -⟩ := C10_add (Mat.fromBody_is p q (corr R C (X ch) v))
      (Mat.fromBody_is p q (corr R C (X ch) cv)) (by omega)
    rw [k1]
    simp only [Option.bind_some]
    rw [k2.2]
    refine congrArg some (table_congr fun a _ b _ => ?_)
    rw [LawfulOps.addAssign_eq, corr_sum, corr_sum, kernelGrad_add]
    rfl

theorem Conv.operB_is {n r c R C p q : Nat} {F : Nat → Mat α} {K : Nat → Nat → Nat → α}
    (hF : ∀ ch, ch < n → (F ch).Is p q fun a b => K ch (p - 1 - a) (q - 1 - b)) (hp : 1 ≤ p)
    (hq : 1 ≤ q) (hR : 1 ≤ R) (hC : 1 ≤ C) (hr : R + (p - 1) = r) (hc : C + (q - 1) = c)
    {pd : Mat α} {v : Nat → Nat → α}
    (hpd : pd.Is (R + 2 * (p - 1)) (C + 2 * (q - 1)) (padded R C (p - 1) (q - 1) v)) :
    Conv.operB ((List.range n).map F) pd
      = some (cube n r c fun ch => inputGrad R C p q v (K ch)) := by
  unfold Conv.operB
  rw [mapM_map', mapM_some_of _ (fun ch => table r c (inputGrad R C p q v (K ch)))]
  · simp only [Option.bind_eq_bind, Option.bind_some]
    unfold cube
    rw [List.flatMap_def]
  · intro ch hch
    have e := convolution_is hpd (hF ch (List.mem_range.mp hch)) hp (by omega) hq (by omega)
    rw [e]
    simp only [Option.bind_eq_bind, Option.bind_some, unwrap, Mat.fromBody]
    rw [show R + 2 * (p - 1) - p + 1 = r by omega, show C + 2 * (q - 1) - q + 1 = c by omega]
    refine congrArg some (table_congr fun i _ j _ => ?_)
    rw [corr_sum]
    rfl

theorem reduce_sum (l : List α) (h : l ≠ []) : reduce BasicOps.add l = some l.sum := by
  cases l with
  | nil => exact absurd rfl h
  | cons a l =>
    have : (BasicOps.add : α → α → α) = (· + ·) := by
      funext x y; exact LawfulOps.add_eq x y
    simp only [reduce, this]
    rw [foldl_add_sum, List.sum_cons]

theorem addSliceMut_cube (n r c : Nat) (F G : Nat → Nat → Nat → α) :
    addSliceMut (cube n r c F) (cube n r c G)
      = .ok (cube n r c fun ch i j => F ch i j + G ch i j) := by
  unfold addSliceMut
  rw [if_neg (by simp [cube_length]), zipUpd_eq_zipWith _ _ _ (by simp [cube_length]), cube_zipWith]
  simp only [LawfulOps.addAssign_eq]

/-- The loop over the filters. -/
theorem Conv.derivLoop_is {n r c R C p q : Nat} {M : Nat → Mat α} {Km : Nat → Nat → Mat α}
    {X : Nat → Nat → Nat → α} {K : Nat → Nat → Nat → Nat → α}
    (hM : ∀ ch, ch < n → (M ch).Is r c (X ch)) (hp : 1 ≤ p) (hq : 1 ≤ q) (hR : 1 ≤ R) (hC : 1 ≤ C)
    (hr : R + (p - 1) = r) (hc : C + (q - 1) = c) (V CV : Nat → Nat → Nat → α) (os : List Nat)
    (hK : ∀ o ∈ os, ∀ ch, ch < n → (Km o ch).Is p q (K o ch)) (A B : List α)
    (N NC : Nat → Nat → Nat → α) :
    (os.map fun o => (List.range n).map (Km o)).foldlM
      (Conv.derivStep ((List.range n).map M) (R, C) (p - 1) (q - 1) (R * C))
      ⟨os.flatMap (fun o => table R C (V o)), os.flatMap (fun o => table R C (CV o)), A, B,
        cube n r c N, cube n r c NC⟩
      = some ⟨[], [], A ++ os.flatMap (fun o => cube n p q fun ch =>
            kernelGrad R C (X ch) (fun i j => V o i j + CV o i j)),
          B ++ os.map (fun o => ∑ i ∈ Finset.range R, ∑ j ∈ Finset.range C, (V o i j + CV o i j)),
          cube n r c fun ch i j => N ch i j
            + (os.map fun o => inputGrad R C p q (V o) (K o ch) i j).sum,
          cube n r c fun ch i j => NC ch i j
            + (os.map fun o => inputGrad R C p q (CV o) (K o ch) i j).sum⟩ := by
  induction os generalizing A B N NC with
  | nil => simp
  | cons o os ih =>
    rw [List.map_cons, List.foldlM_cons]
    have step : Conv.derivStep ((List.range n).map M) (R, C) (p - 1) (q - 1) (R * C)
        ⟨(o :: os).flatMap (fun o => table R C (V o)), (o :: os).flatMap (fun o => table R C (CV o)),
          A, B, cube n r c N, cube n r c NC⟩ ((List.range n).map (Km o))
        = some ⟨os.flatMap (fun o => table R C (V o)), os.flatMap (fun o => table R C (CV o)),
          A ++ cube n p q (fun ch => kernelGrad R C (X ch) (fun i j => V o i j + CV o i j)),
          B ++ [∑ i ∈ Finset.range R, ∑ j ∈ Finset.range C, (V o i j + CV o i j)],
          cube n r c fun ch i j => N ch i j + inputGrad R C p q (V o) (K o ch) i j,
          cube n r c fun ch i j => NC ch i j + inputGrad R C p q (CV o) (K o ch) i j⟩ := by
      unfold Conv.derivStep
      have hdrain : ∀ W : Nat → Nat → Nat → α,
          drainFront (R * C) ((o :: os).flatMap fun o => table R C (W o))
            = some (table R C (W o), os.flatMap fun o => table R C (W o)) := by
        intro W
        unfold drainFront
        rw [List.flatMap_cons, if_pos (by simp [table_length])]
        rw [List.take_append_of_le_length (by simp [table_length]),
          List.drop_append_of_le_length (by simp [table_length])]
        rw [List.take_of_length_le (by simp [table_length]),
          List.drop_of_length_le (by simp [table_length])]
        rfl
      simp only [hdrain, Option.bind_eq_bind, Option.bind_some]
      rw [mapM_map', mapM_some_of _ (fun ch => Mat.fromBody (table p q fun a b =>
        K o ch (p - 1 - a) (q - 1 - b)) (p, q))]
      · have hp1 := pad_is (Mat.fromBody_is R C (V o)) (p - 1) (q - 1)
        have hp2 := pad_is (Mat.fromBody_is R C (CV o)) (p - 1) (q - 1)
        simp only [Option.bind_some, hp1, hp2]
        rw [Conv.operA_is hM hR (by omega) hC (by omega) (by omega : r - R + 1 = p)
          (by omega : c - C + 1 = q) (Mat.fromBody_is R C (V o)) (Mat.fromBody_is R C (CV o))]
        have hB : ∀ W : Nat → Nat → Nat → α, Conv.operB ((List.range n).map fun ch =>
            Mat.fromBody (table p q fun a b => K o ch (p - 1 - a) (q - 1 - b)) (p, q))
            (Mat.fromBody (table (R + 2 * (p - 1)) (C + 2 * (q - 1))
              (padded R C (p - 1) (q - 1) (W o))) (R + 2 * (p - 1), C + 2 * (q - 1)))
            = some (cube n r c fun ch => inputGrad R C p q (W o) (K o ch)) := fun W =>
          Conv.operB_is (fun ch _ => Mat.fromBody_is p q _) hp hq hR hC hr hc
            (Mat.fromBody_is _ _ _)
        simp only [Option.bind_some, hB V, hB CV]
        have hne : table R C (fun i j => V o i j + CV o i j) ≠ [] := by
          intro h0
          have := congrArg List.length h0
          rw [table_length] at this
          have : 0 < R * C := Nat.mul_pos hR hC
          simp at *
          omega
        rw [reduce_sum _ hne, table_sum, addSliceMut_cube, addSliceMut_cube]
        simp only [Option.bind_some, unwrap]
      · intro ch hch
        rw [flip_is (hK o (by simp) ch (List.mem_range.mp hch))]
        rfl
    rw [step]
    simp only [Option.bind_eq_bind, Option.bind_some]
    rw [ih (fun o ho => hK o (by simp [ho]))]
    simp only [List.append_assoc, List.flatMap_cons, List.map_cons, List.sum_cons, add_assoc,
      List.singleton_append]

end conv

section derivs
variable {α P : Type} [CommRing α] [CplxOps α P] [LawfulOps α]

/-- What the derivatives of a convolutional layer are. `V` and `CV` are the two halves of the
derivative with respect to the pre-activations. -/
theorem Conv.computeDerivatives_is {l : Conv α} {nf n p q r c : Nat}
    {K : Nat → Nat → Nat → Nat → α} {b : Nat → α} {f : ActFunc} (h : l.Is nf n p q K b f)
    (hf : 0 < nf) (hn : 0 < n) (hp : 1 ≤ p) (hpr : p ≤ r) (hq : 1 ≤ q) (hqc : q ≤ c)
    {maps : List (Mat α)} {X : Nat → Nat → Nat → α} (hX : MapsAre maps n r c X)
    (G GC d dc : Nat → Nat → Nat → α)
    (hd : ∀ o, o < nf → ∀ i, i < r - p + 1 → ∀ j, j < c - q + 1 →
      CplxOps.dActivate f (convPre n p q X K b o i j) = some (d o i j))
    (hdc : ∀ o, o < nf → ∀ i, i < r - p + 1 → ∀ j, j < c - q + 1 →
      CplxOps.dConjActivate f (convPre n p q X K b o i j) = some (dc o i j)) :
    l.computeDerivatives (.matrix maps) (cube nf (r - p + 1) (c - q + 1) G)
        (cube nf (r - p + 1) (c - q + 1) GC)
      = some (.ok ((List.range nf).flatMap (fun o => cube n p q fun ch =>
            kernelGrad (r - p + 1) (c - q + 1) (X ch) (fun i j => d o i j * G o i j
              + CplxOps.conj (dc o i j) * GC o i j)),
          (List.range nf).map (fun o => ∑ i ∈ Finset.range (r - p + 1),
            ∑ j ∈ Finset.range (c - q + 1), (d o i j * G o i j
              + CplxOps.conj (dc o i j) * GC o i j)),
          cube n r c fun ch i j => ∑ o ∈ Finset.range nf, inputGrad (r - p + 1) (c - q + 1) p q
            (fun i j => d o i j * G o i j) (K o ch) i j,
          cube n r c fun ch i j => ∑ o ∈ Finset.range nf, inputGrad (r - p + 1) (c - q + 1) p q
            (fun i j => CplxOps.conj (dc o i j) * GC o i j) (K o ch) i j)) := by
  have hQ := Conv.computeQ_is h hf hn hp hpr hq hqc hX
  obtain ⟨k, hk1, hk2⟩ := Conv.kernel00 h hf hn
  obtain ⟨-, hb, hfn, M, hk, hM⟩ := h
  obtain ⟨Mx, rfl, hMx⟩ := hX.exists_fun
  have h0 : ((List.range n).map Mx)[0]? = some (Mx 0) := by
    rw [List.getElem?_map, List.getElem?_range hn]; rfl
  have hs := (hMx 0 hn).1
  have u1 : usub p 1 = some (p - 1) := by simp [usub, hp]
  have u2 : usub q 1 = some (q - 1) := by simp [usub, hq]
  have u3 : usub r (p - 1) = some (r - p + 1) := by
    unfold usub; rw [if_pos (by omega)]; congr 1; omega
  have u4 : usub c (q - 1) = some (c - q + 1) := by
    unfold usub; rw [if_pos (by omega)]; congr 1; omega
  unfold Conv.computeDerivatives
  simp only [h0, hk1, hk2, hs, Option.bind_eq_bind, Option.bind_some, unwrap, u1, u2, u3, u4, hQ,
    cube_zip, hfn]
  rw [cube_mapM (G := fun o i j => d o i j * G o i j) _ (by
      intro o ho i hi j hj; simp [hd o ho i hi j hj]),
    cube_mapM (G := fun o i j => CplxOps.conj (dc o i j) * GC o i j) _ (by
      intro o ho i hi j hj; simp [hdc o ho i hi j hj])]
  simp only [Option.bind_some, hk.1, cube_length]
  rw [if_neg (by omega), C18_rows hk hn, Nat.mul_div_cancel_left _ hf, List.length_map,
    List.length_range]
  simp only [Option.bind_some]
  have hz : List.replicate (r * c * n) (BasicOps.zero : α) = cube n r c fun _ _ _ => 0 := by
    rw [LawfulOps.zero_eq, Nat.mul_comm, ← range_map_const, range_map_cube]
  rw [hz]
  have := Conv.derivLoop_is (R := r - p + 1) (C := c - q + 1) hMx hp hq (by omega) (by omega)
    (by omega) (by omega) (fun o i j => d o i j * G o i j)
    (fun o i j => CplxOps.conj (dc o i j) * GC o i j) (List.range nf)
    (fun o ho => hM o (List.mem_range.mp ho)) [] [] (fun _ _ _ => 0) (fun _ _ _ => 0)
  unfold cube at this ⊢
  rw [this]
  simp only [Option.bind_some, List.nil_append, zero_add, sum_range_list]

end derivs

end Renplex
