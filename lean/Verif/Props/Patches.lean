import Verif.Spec.Patches
import Verif.Props.LeastSquares
import Verif.Props.Channels
import Verif.Props.Affine
/-!
# C119: training a convolutional layer is training a dense layer on the patches
-/

namespace Renplex
variable {w : Width}

/-! ## Patches -/

theorem patch_maps {ms : List (Mat (Cf w ℝ))} {n r c p q : Nat} {X : Nat → Nat → Nat → Cf w ℝ} (h : MapsAre ms n r c X)
    {i j : Nat} (hi : i + p ≤ r) (hj : j + q ≤ c) :
    ∃ ms', patchAt p q i j (.matrix ms) = .matrix ms' ∧ MapsAre ms' n p q fun ch a b => X ch (i + a) (j + b) := by
  refine ⟨_, rfl, by simpa using h.1, fun ch m' hm => ?_⟩
  rw [List.getElem?_map] at hm
  obtain ⟨m, hm2, rfl⟩ := Option.map_eq_some_iff.mp hm
  obtain ⟨h1, h2⟩ := h.2 ch m hm2
  refine ⟨rfl, ?_⟩
  change table p q _ = _
  refine table_congr fun a ha b hb => ?_
  have := table_getElem? r c (X ch) (show i + a < r by omega) (show j + b < c by omega)
  rw [h1, h2, List.getD_eq_getElem?_getD, this]
  rfl

theorem pixelAt_cube {nf R C i j : Nat} (hi : i < R) (hj : j < C) (T : Nat → Nat → Nat → Cf w ℝ) :
    pixelAt nf R C i j (cube nf R C T) = (List.range nf).map fun o => T o i j := by
  unfold pixelAt
  refine List.map_congr_left fun o ho => ?_
  have hk := idx_lt (List.mem_range.mp ho) (idx_lt hi hj)
  rw [cube_flat, List.getD_eq_getElem?_getD, List.getElem?_map, List.getElem?_range hk]
  change flatOf R C T _ = _
  rw [flatOf_idx T o hi hj]

theorem kvec_table (nf n p q : Nat) (K : Nat → Nat → Nat → Nat → Cf w ℝ) :
    kvec nf n p q K = table nf (n * (p * q)) fun o => flatOf p q (K o) := by
  unfold kvec table
  rw [List.flatMap_def, List.flatMap_def]
  congr 1
  refine List.map_congr_left fun o _ => ?_
  rw [cube_flat]

section
variable {nf n p q r c : Nat} {f : ActFunc} {l : Conv (Cf w ℝ)} {d : Dense (Cf w ℝ)}
  {K : Nat → Nat → Nat → Nat → Cf w ℝ} {b : Nat → Cf w ℝ} {W : Nat → Nat → Cf w ℝ}

/-- The weighted sum of a unit on a patch. -/
theorem patch_pre (hW : ∀ o, o < nf → ∀ ch, ch < n → ∀ a, a < p → ∀ e, e < q → W o (ch * (p * q) + (a * q + e)) = K o ch a e)
    (X : Nat → Nat → Nat → Cf w ℝ) {o : Nat} (ho : o < nf) (i j : Nat) :
    (∑ k ∈ Finset.range (n * (p * q)), W o k * flatOf p q (fun ch a b => X ch (i + a) (j + b)) k) + b o
      = convPre n p q X K b o i j := by
  rw [convPre_sum, sum_cube]
  congr 1
  refine Finset.sum_congr rfl fun ch hch => Finset.sum_congr rfl fun a ha => Finset.sum_congr rfl fun e he => ?_
  rw [Finset.mem_range] at hch ha he
  rw [hW o ho ch hch a ha e he, flatOf_idx _ ch ha he, mul_comm]

/-- What the loss passes back. -/
theorem dLoss_range (lf : LossFunc) (m : Nat) (t y : Nat → Cf w ℝ) :
    CplxOps.dLoss lf (.scalar ((List.range m).map t)) (.scalar ((List.range m).map y))
      = .ok ((List.range m).map fun k => CplxOps.conj (y k - t k)) := by
  have e : Loss.dMeanSq ((List.range m).map t) ((List.range m).map y)
      = (List.range m).map fun k => CplxOps.conj (y k - t k) := by
    unfold Loss.dMeanSq
    rw [zip_range_map, List.map_map]
    rfl
  cases lf
  · exact congrArg Except.ok e
  · exact congrArg Except.ok e

theorem dLoss_cube (lf : LossFunc) (n r c : Nat) (t y : Nat → Nat → Nat → Cf w ℝ) :
    CplxOps.dLoss lf (.scalar (cube n r c t)) (.scalar (cube n r c y))
      = .ok (cube n r c fun o i j => CplxOps.conj (y o i j - t o i j)) := by
  rw [cube_flat, cube_flat, cube_flat, dLoss_range]
  rfl

/-- What reaches the weighted sum `z` of an output with target `t`. -/
noncomputable def reaches (A D DC : Cf w ℝ → Cf w ℝ) (z t : Cf w ℝ) : Cf w ℝ :=
  D z * CplxOps.conj (A z - t) + CplxOps.conj (DC z) * CplxOps.conj (CplxOps.conj (A z - t))

variable {A D DC : Cf w ℝ → Cf w ℝ}

theorem image_forward (hl : l.Is nf n p q K b f) (hf : 0 < nf) (hn : 0 < n) (hp : 1 ≤ p) (hpr : p ≤ r) (hq : 1 ≤ q)
    (hqc : q ≤ c) (hA : ∀ z, CplxOps.activate f z = some (A z)) (fl : Flatten)
    {ms : List (Mat (Cf w ℝ))} {X : Nat → Nat → Nat → Cf w ℝ} (hX : MapsAre ms n r c X) :
    ∃ y, Chain [.conv l, .flatten fl] (.matrix ms)
      [y, .scalar (cube nf (r - p + 1) (c - q + 1) fun o i j => A (convPre n p q X K b o i j))] := by
  refine ⟨_, .cons (Conv.forward_maps hl hf hn hp hpr hq hqc hX A hA) (.cons ?_ (.nil _))⟩
  have hm := mapsAre_fromBody nf (r - p + 1) (c - q + 1) fun o i j => A (convPre n p q X K b o i j)
  have hfl : (IOType.matrix ((List.range nf).map fun o => Mat.fromBody (table (r - p + 1) (c - q + 1) fun i j =>
      A (convPre n p q X K b o i j)) (r - p + 1, c - q + 1))).HasFlat (.maps nf (r - p + 1) (c - q + 1))
      (flatOf (r - p + 1) (c - q + 1) fun o i j => A (convPre n p q X K b o i j)) := by
    refine ⟨hm.1, fun ch m hm' => ⟨(hm.2 ch m hm').1, ?_⟩⟩
    rw [(hm.2 ch m hm').2]
    exact table_congr fun i hi j hj => (flatOf_idx (fun o i j => A (convPre n p q X K b o i j)) ch hi hj).symm
  rw [cube_flat]
  exact flatten_flat (l := fl) hfl

theorem patch_forward (hd : d.Is nf (n * (p * q)) W b f)
    (hW : ∀ o, o < nf → ∀ ch, ch < n → ∀ a, a < p → ∀ e, e < q → W o (ch * (p * q) + (a * q + e)) = K o ch a e)
    (hn : 0 < n) (hp : 1 ≤ p) (hq : 1 ≤ q) (hA : ∀ z, CplxOps.activate f z = some (A z)) (fl : Flatten)
    (X : Nat → Nat → Nat → Cf w ℝ) {i j : Nat} {ms : List (Mat (Cf w ℝ))}
    (hX : MapsAre ms n p q fun ch a b => X ch (i + a) (j + b)) :
    Chain [.flatten fl, .dense d] (.matrix ms)
      [.scalar ((List.range (n * (p * q))).map (flatOf p q fun ch a b => X ch (i + a) (j + b))),
        .scalar ((List.range nf).map fun o => A (convPre n p q X K b o i j))] := by
  have hN : 0 < n * (p * q) := Nat.mul_pos hn (Nat.mul_pos (by omega) (by omega))
  have hfl : (IOType.matrix ms).HasFlat (.maps n p q) (flatOf p q fun ch a b => X ch (i + a) (j + b)) := by
    refine ⟨hX.1, fun ch m hm => ⟨(hX.2 ch m hm).1, ?_⟩⟩
    rw [(hX.2 ch m hm).2]
    exact table_congr fun a ha e he => (flatOf_idx (fun ch a b => X ch (i + a) (j + b)) ch ha he).symm
  refine .cons (flatten_flat (l := fl) hfl) (.cons ?_ (.nil _))
  refine C38_forward_exact_partial hd hN _ _ fun o ho => ?_
  rw [patch_pre hW X ho]
  exact hA _

theorem two_sample {N : Net (Cf w ℝ)} {a e : Layer (Cf w ℝ)} (hN : N.layers = [a, e]) {x y z t : IOType (Cf w ℝ)} (hc : Chain N.layers x [y, z])
    {lf : LossFunc} {δ : List (Cf w ℝ)} (hd : CplxOps.dLoss lf t z = .ok δ) {g g' : LayerVec (Cf w ℝ)}
    {r r' : List (Cf w ℝ) × List (Cf w ℝ)} (h1 : e.back y δ (δ.map CplxOps.conj) = some (g, r))
    (h2 : a.back x r.1 r.2 = some (g', r')) : sampleGrads N lf (x, t) = some [g', g] := by
  unfold sampleGrads
  rw [(C44_collect N (by rw [hN]; simp) x _).mpr ⟨_, hc, rfl⟩]
  simp only [Option.bind_eq_bind, Option.bind_some, unwrap, List.reverse_cons, List.reverse_nil, List.nil_append,
    List.cons_append, List.head?_cons, List.tail_cons, hd, hN, List.zip_cons_cons, List.zip_nil_left]
  rw [backGrads_cons, h1]
  simp only [Option.bind_eq_bind, Option.bind_some]
  rw [backGrads_cons, h2]
  simp [backGrads]

/-- The derivatives of one image. -/
theorem image_sample (hl : l.Is nf n p q K b f) (hf : 0 < nf) (hn : 0 < n) (hp : 1 ≤ p) (hpr : p ≤ r) (hq : 1 ≤ q)
    (hqc : q ≤ c) (hA : ∀ z, CplxOps.activate f z = some (A z)) (hD : ∀ z, CplxOps.dActivate f z = some (D z))
    (hDC : ∀ z, CplxOps.dConjActivate f z = some (DC z)) (R C : Nat) (lf : LossFunc)
    {ms : List (Mat (Cf w ℝ))} {X : Nat → Nat → Nat → Cf w ℝ} (hX : MapsAre ms n r c X) (T : Nat → Nat → Nat → Cf w ℝ) :
    sampleGrads (imageNet nf R C l) lf (.matrix ms, .scalar (cube nf (r - p + 1) (c - q + 1) T))
      = some [(kvec nf n p q fun o ch => kernelGrad (r - p + 1) (c - q + 1) (X ch) fun i j =>
          reaches A D DC (convPre n p q X K b o i j) (T o i j),
        (List.range nf).map fun o => ∑ i ∈ Finset.range (r - p + 1), ∑ j ∈ Finset.range (c - q + 1),
          reaches A D DC (convPre n p q X K b o i j) (T o i j)), ([], [])] := by
  obtain ⟨y, hc⟩ := image_forward hl hf hn hp hpr hq hqc hA ⟨((R, C), nf)⟩ hX
  have hb := Conv.back_is hl hf hn hp hpr hq hqc hX
    (fun o i j => CplxOps.conj (A (convPre n p q X K b o i j) - T o i j))
    (fun o i j => CplxOps.conj (CplxOps.conj (A (convPre n p q X K b o i j) - T o i j))) D DC hD hDC
  refine two_sample (N := imageNet nf R C l) rfl hc (dLoss_cube lf _ _ _ T _) (g := ([], []))
    (r := (cube nf (r - p + 1) (c - q + 1) fun o i j => CplxOps.conj (A (convPre n p q X K b o i j) - T o i j), cube nf (r - p + 1) (c - q + 1) fun o i j =>
      CplxOps.conj (CplxOps.conj (A (convPre n p q X K b o i j) - T o i j)))) ?_ hb
  rw [cube_map]
  rfl

/-- The derivatives of one patch. -/
theorem patch_sample (hd : d.Is nf (n * (p * q)) W b f)
    (hW : ∀ o, o < nf → ∀ ch, ch < n → ∀ a, a < p → ∀ e, e < q → W o (ch * (p * q) + (a * q + e)) = K o ch a e)
    (hn : 0 < n) (hp : 1 ≤ p) (hq : 1 ≤ q)
    (hA : ∀ z, CplxOps.activate f z = some (A z)) (hD : ∀ z, CplxOps.dActivate f z = some (D z))
    (hDC : ∀ z, CplxOps.dConjActivate f z = some (DC z)) (lf : LossFunc)
    (X : Nat → Nat → Nat → Cf w ℝ) {i j : Nat} {ms : List (Mat (Cf w ℝ))}
    (hX : MapsAre ms n p q fun ch a b => X ch (i + a) (j + b)) (T : Nat → Cf w ℝ) :
    sampleGrads (withHead (patchFront n p q) d) lf (.matrix ms, .scalar ((List.range nf).map T))
      = some [([], []), (kvec nf n p q fun o ch a e => X ch (i + a) (j + e)
          * reaches A D DC (convPre n p q X K b o i j) (T o),
        (List.range nf).map fun o => reaches A D DC (convPre n p q X K b o i j) (T o))] := by
  have hN : 0 < n * (p * q) := Nat.mul_pos hn (Nat.mul_pos (by omega) (by omega))
  have hc := patch_forward hd hW hn hp hq hA ⟨((p, q), n)⟩ X hX
  have hder := Dense.computeDerivatives_is hd hN (flatOf p q fun ch a b => X ch (i + a) (j + b))
    (fun o => CplxOps.conj (A (convPre n p q X K b o i j) - T o))
    (fun o => CplxOps.conj (CplxOps.conj (A (convPre n p q X K b o i j) - T o)))
    (fun o => D (convPre n p q X K b o i j)) (fun o => DC (convPre n p q X K b o i j))
    (fun o ho => by rw [patch_pre hW X ho]; exact hD _) (fun o ho => by rw [patch_pre hW X ho]; exact hDC _)
  have e : kvec nf n p q (fun o ch a e => X ch (i + a) (j + e) * reaches A D DC (convPre n p q X K b o i j) (T o))
      = table nf (n * (p * q)) fun o k => flatOf p q (fun ch a b => X ch (i + a) (j + b)) k
        * reaches A D DC (convPre n p q X K b o i j) (T o) := by
    rw [kvec_table]
    rfl
  have hb : ∃ r, (Layer.dense d).back
      (.scalar ((List.range (n * (p * q))).map (flatOf p q fun ch a b => X ch (i + a) (j + b))))
      ((List.range nf).map fun o => CplxOps.conj (A (convPre n p q X K b o i j) - T o))
      (((List.range nf).map fun o => CplxOps.conj (A (convPre n p q X K b o i j) - T o)).map CplxOps.conj)
      = some ((table nf (n * (p * q)) fun o k => flatOf p q (fun ch a b => X ch (i + a) (j + b)) k
        * reaches A D DC (convPre n p q X K b o i j) (T o),
        (List.range nf).map fun o => reaches A D DC (convPre n p q X K b o i j) (T o)), r) := by
    rw [List.map_map]
    unfold Layer.back
    rw [if_pos (by rfl)]
    simp only [Layer.computeDerivatives]
    erw [hder]
    exact ⟨_, rfl⟩
  obtain ⟨⟨r1, r2⟩, hb⟩ := hb
  rw [e]
  exact two_sample (N := withHead (patchFront n p q) d) rfl hc (dLoss_range lf _ T _) (r := (r1, r2)) hb
    (g' := ([], [])) (r' := (r1, r2)) rfl

end

/-! ## Sums of derivatives -/

theorem foldl_kvec {β : Type} {nf n p q : Nat} (D : β → Nat → Nat → Nat → Nat → Cf w ℝ) (E : β → Nat → Cf w ℝ)
    (qs : List β) (D0 : Nat → Nat → Nat → Nat → Cf w ℝ) (E0 : Nat → Cf w ℝ) :
    (qs.map fun x => (kvec nf n p q (D x), (List.range nf).map (E x))).foldl LayerVec.add
        (kvec nf n p q D0, (List.range nf).map E0)
      = (kvec nf n p q fun o ch a e => D0 o ch a e + (qs.map fun x => D x o ch a e).sum,
        (List.range nf).map fun o => E0 o + (qs.map fun x => E x o).sum) := by
  induction qs generalizing D0 E0 with
  | nil => simp
  | cons x qs ih =>
    rw [List.map_cons, List.foldl_cons]
    unfold LayerVec.add
    rw [kvec_zipWith, List.zipWith_map, List.zipWith_self]
    have := ih (fun o ch a e => D0 o ch a e + D x o ch a e) fun o => E0 o + E x o
    unfold LayerVec.add at this
    rw [this]
    simp only [List.map_cons, List.sum_cons, add_assoc]

theorem foldl_first {β : Type} (G : β → LayerVec (Cf w ℝ)) (qs : List β) (A : LayerVec (Cf w ℝ)) :
    (qs.map fun x => [G x, ([], [])]).foldl (List.zipWith LayerVec.add) [A, ([], [])]
      = [(qs.map G).foldl LayerVec.add A, ([], [])] := by
  induction qs generalizing A with
  | nil => rfl
  | cons x qs ih =>
    simp only [List.map_cons, List.foldl_cons]
    exact ih _

theorem foldl_second {β : Type} (G : β → LayerVec (Cf w ℝ)) (qs : List β) (A : LayerVec (Cf w ℝ)) :
    (qs.map fun x => [([], []), G x]).foldl (List.zipWith LayerVec.add) [([], []), A]
      = [([], []), (qs.map G).foldl LayerVec.add A] := by
  induction qs generalizing A with
  | nil => rfl
  | cons x qs ih =>
    simp only [List.map_cons, List.foldl_cons]
    exact ih _

theorem sum_places {β : Type} {M : Type} [AddCommMonoid M] (R C : Nat) (xs : List β) (F : β → Nat → Nat → M) :
    ((xs.flatMap fun x => table R C fun i j => (x, i, j)).map fun y => F y.1 y.2.1 y.2.2).sum
      = (xs.map fun x => ∑ i ∈ Finset.range R, ∑ j ∈ Finset.range C, F x i j).sum := by
  induction xs with
  | nil => simp
  | cons x xs ih =>
    rw [List.flatMap_cons, List.map_append, List.sum_append, ih, List.map_cons, List.sum_cons, table_map, table_sum]

theorem zero_dense_kvec {l : Dense (Cf w ℝ)} {nf n p q : Nat} {W : Nat → Nat → Cf w ℝ} {b : Nat → Cf w ℝ}
    {f : ActFunc} (h : l.Is nf (n * (p * q)) W b f) :
    LayerVec.zero (.dense l) = (kvec nf n p q fun _ _ _ _ => (0 : Cf w ℝ), (List.range nf).map fun _ => (0 : Cf w ℝ)) := by
  unfold LayerVec.zero
  rw [if_pos (by rfl)]
  show (List.replicate (l.weights.shape.1 * l.weights.shape.2) (0 : Cf w ℝ),
    List.replicate l.biases.length (0 : Cf w ℝ)) = _
  rw [h.1.1, h.2.1, kvec_table]
  congr 1
  · rw [eq_comm, List.eq_replicate_iff]
    refine ⟨by simp [table_length], fun z hz => ?_⟩
    obtain ⟨j, -, hz⟩ := List.mem_flatMap.mp hz
    obtain ⟨i, -, rfl⟩ := List.mem_map.mp hz
    rfl
  · rw [eq_comm, List.eq_replicate_iff]
    refine ⟨by simp, fun z hz => ?_⟩
    obtain ⟨j, -, rfl⟩ := List.mem_map.mp hz
    rfl

theorem Dense.move_kvec {l : Dense (Cf w ℝ)} {nf n p q : Nat} {W : Nat → Nat → Cf w ℝ} {b : Nat → Cf w ℝ}
    {f : ActFunc} (h : l.Is nf (n * (p * q)) W b f) (upd : Cf w ℝ → Cf w ℝ → Cf w ℝ)
    (D : Nat → Nat → Nat → Nat → Cf w ℝ) (e : Nat → Cf w ℝ) :
    ∃ l' : Dense (Cf w ℝ), (Layer.dense l).zipParams upd (kvec nf n p q D, (List.range nf).map e) = .dense l'
      ∧ l'.Is nf (n * (p * q)) (fun o k => upd (W o k) (flatOf p q (D o) k)) (fun o => upd (b o) (e o)) f := by
  refine ⟨_, rfl, ⟨h.1.1, ?_⟩, ?_, h.2.2⟩
  · show List.zipWith _ l.weights.body _ = _
    rw [h.1.2, kvec_table, table_zipWith]
  · show List.zipWith _ l.biases _ = _
    rw [h.2.1, List.zipWith_map, List.zipWith_self]

/-! ## Images -/

section
variable {nf n p q r c : Nat} {f : ActFunc} {l : Conv (Cf w ℝ)} {d : Dense (Cf w ℝ)}
  {pts : List (IOType (Cf w ℝ) × List (Cf w ℝ))}

theorem image_entries {x : IOType (Cf w ℝ)} (h : x.HasSize (.maps n r c)) :
    ∃ ms X, x = .matrix ms ∧ MapsAre ms n r c X := by
  obtain ⟨a, ha⟩ := h.exists_flat
  cases x with
  | scalar v => exact ha.elim
  | matrix ms => exact ⟨ms, _, rfl, ha⟩

theorem Images.entries (h : Images nf n p q r c pts) : ∃ (ms : IOType (Cf w ℝ) × List (Cf w ℝ) → List (Mat (Cf w ℝ)))
    (X T : IOType (Cf w ℝ) × List (Cf w ℝ) → Nat → Nat → Nat → Cf w ℝ), ∀ x ∈ pts,
      x = (.matrix (ms x), cube nf (r - p + 1) (c - q + 1) (T x)) ∧ MapsAre (ms x) n r c (X x) := by
  have : Nonempty (Cf w ℝ) := ⟨0⟩
  have : ∀ x : IOType (Cf w ℝ) × List (Cf w ℝ), ∃ (ms : List (Mat (Cf w ℝ))) (X T : Nat → Nat → Nat → Cf w ℝ),
      x ∈ pts → x = (.matrix ms, cube nf (r - p + 1) (c - q + 1) T) ∧ MapsAre ms n r c X := by
    intro x
    by_cases hx : x ∈ pts
    · obtain ⟨h1, h2⟩ := h x hx
      obtain ⟨ms, X, e, hX⟩ := image_entries h1
      obtain ⟨T, hT⟩ := exists_cube nf (r - p + 1) (c - q + 1) x.2 h2
      exact ⟨ms, X, T, fun _ => ⟨Prod.ext e hT, hX⟩⟩
    · exact ⟨[], fun _ _ _ => 0, fun _ _ _ => 0, fun h => absurd h hx⟩
  choose ms X T h using this
  exact ⟨ms, X, T, h⟩

theorem allPatches_map : allPatches nf p q r c pts
    = (pts.flatMap fun x => table (r - p + 1) (c - q + 1) fun i j => (x, i, j)).map fun y =>
      (patchAt p q y.2.1 y.2.2 y.1.1, pixelAt nf (r - p + 1) (c - q + 1) y.2.1 y.2.2 y.1.2) := by
  unfold allPatches patchesOf
  rw [List.map_flatMap]
  simp only [table_map]

theorem mem_places {R C : Nat} {β : Type} {xs : List β} {y : β × Nat × Nat}
    (h : y ∈ xs.flatMap fun x => table R C fun i j => (x, i, j)) : y.1 ∈ xs ∧ y.2.1 < R ∧ y.2.2 < C := by
  obtain ⟨x, hx, hy⟩ := List.mem_flatMap.mp h
  obtain ⟨i, hi, hy⟩ := List.mem_flatMap.mp hy
  obtain ⟨j, hj, rfl⟩ := List.mem_map.mp hy
  exact ⟨hx, List.mem_range.mp hi, List.mem_range.mp hj⟩

theorem allPatches_length : (allPatches nf p q r c pts).length
    = pts.length * ((r - p + 1) * (c - q + 1)) := by
  unfold allPatches patchesOf
  simp [List.length_flatMap, table_length]

/-- C119. A convolutional layer computes at every place what a dense layer with the same weights computes on
the patch at that place. -/
theorem C119_forward (hs : ImageSetting w nf n p q r c f) (h : SameWeights nf n p q f l d) {x : IOType (Cf w ℝ)}
    (hx : x.HasSize (.maps n r c)) :
    ∃ y, (imageNet nf (r - p + 1) (c - q + 1) l).forward x = some (.ok (.scalar y))
      ∧ y.length = nf * ((r - p + 1) * (c - q + 1))
      ∧ ∀ i, i < r - p + 1 → ∀ j, j < c - q + 1 → (withHead (patchFront n p q) d).forward (patchAt p q i j x)
        = some (.ok (.scalar (pixelAt nf (r - p + 1) (c - q + 1) i j y))) := by
  obtain ⟨K, b, W, hl, hd, hW⟩ := h
  obtain ⟨ms, X, rfl, hX⟩ := image_entries hx
  choose A hA using hs.value
  obtain ⟨y, hy⟩ := image_forward hl hs.filters hs.channels hs.rows.1 hs.rows.2 hs.cols.1 hs.cols.2 hA
    ⟨((r - p + 1, c - q + 1), nf)⟩ hX
  refine ⟨_, (C44_forward (imageNet nf (r - p + 1) (c - q + 1) l) (by simp [imageNet]) _ _).mpr ⟨_, _, hy, rfl, rfl⟩,
    cube_length _ _ _ _, fun i hi j hj => ?_⟩
  have hr := hs.rows
  have hc := hs.cols
  obtain ⟨ms', e, hX'⟩ := patch_maps (p := p) (q := q) hX (show i + p ≤ r by omega) (show j + q ≤ c by omega)
  rw [e, pixelAt_cube hi hj]
  exact (C44_forward (withHead (patchFront n p q) d) (by simp [withHead]) _ _).mpr
    ⟨_, _, patch_forward hd hW hs.channels hs.rows.1 hs.cols.1 hA _ X hX', rfl, rfl⟩

theorem pixelAt_length (R C i j : Nat) (t : List (Cf w ℝ)) : (pixelAt nf R C i j t).length = nf := by
  simp [pixelAt]

theorem rate_scale {lr : Cf w ℝ} {B k : Nat} (hB : B ≠ 0) (hk : k ≠ 0) :
    ∃ s, BasicOps.div lr (CplxOps.ofUsize B : Cf w ℝ) = some s
      ∧ BasicOps.div (timesRate k lr) (CplxOps.ofUsize (B * k) : Cf w ℝ) = some s := by
  have hB' : (B : ℂ) ≠ 0 := by exact_mod_cast hB
  have hk' : (k : ℂ) ≠ 0 := by exact_mod_cast hk
  obtain ⟨s, h1, h2⟩ := div_toC lr (Cf.ofUsize B) (by rw [Cf.toC_ofUsize]; exact hB')
  obtain ⟨s', h1', h2'⟩ := div_toC (timesRate k lr) (Cf.ofUsize (B * k)) (by
    rw [Cf.toC_ofUsize]; push_cast; exact mul_ne_zero hB' hk')
  have e : (timesRate k lr).toC = lr.toC * k := by
    unfold timesRate Cf.toC
    apply Complex.ext <;> simp
  have : s = s' := by
    have h : s.toC = s'.toC := by
      rw [h2, h2', e, Cf.toC_ofUsize, Cf.toC_ofUsize]
      push_cast
      field_simp
    exact Cf.toC_inj.mp h
  exact ⟨s, h1, this ▸ h1'⟩

/-- C119. One training call on images changes a convolutional layer as one training call on all their patches
changes the dense layer, with the learning rate multiplied by the number of patches of an image. -/
theorem C119_step (hs : ImageSetting w nf n p q r c f) (h : SameWeights nf n p q f l d)
    (hp : Images nf n p q r c pts) (hB : pts ≠ []) (lf : LossFunc) (lr : Cf w ℝ) :
    ∃ l' d', (imageNet nf (r - p + 1) (c - q + 1) l).gradientOpt (batchOf pts) lf lr
        = some (.ok (), imageNet nf (r - p + 1) (c - q + 1) l')
      ∧ (withHead (patchFront n p q) d).gradientOpt (batchOf (allPatches nf p q r c pts)) lf
          (timesRate ((r - p + 1) * (c - q + 1)) lr) = some (.ok (), withHead (patchFront n p q) d')
      ∧ SameWeights nf n p q f l' d' := by
  obtain ⟨K, b, W, hl, hd, hW⟩ := h
  choose A hA using hs.value
  choose D hD using hs.deriv
  choose DC hDC using hs.derivConj
  obtain ⟨ms, X, T, hx⟩ := hp.entries
  have hr := hs.rows
  have hc := hs.cols
  have hRC : (r - p + 1) * (c - q + 1) ≠ 0 := Nat.mul_ne_zero (by omega) (by omega)
  obtain ⟨s, hs1, hs2⟩ := rate_scale (lr := lr) (B := pts.length) (by simpa using hB) hRC
  set P := pts.flatMap fun x => table (r - p + 1) (c - q + 1) fun i j => (x, i, j) with hP
  have hlen : (allPatches nf p q r c pts).length = pts.length * ((r - p + 1) * (c - q + 1)) := allPatches_length
  -- the images
  have g1 := (C50_step (imageNet nf (r - p + 1) (c - q + 1) l) _ (by simp [imageNet]) (by
    intro k hk
    rcases List.mem_cons.mp hk with rfl | hk
    · exact hl.wf
    · obtain rfl := List.mem_singleton.mp hk
      trivial) (batchOf pts) lf lr (.ok ())).mpr ⟨rfl,
    pts.map (fun x => [(kvec nf n p q fun o ch => kernelGrad (r - p + 1) (c - q + 1) (X x ch) fun i j =>
          reaches A D DC (convPre n p q (X x) K b o i j) (T x o i j),
        (List.range nf).map fun o => ∑ i ∈ Finset.range (r - p + 1), ∑ j ∈ Finset.range (c - q + 1),
          reaches A D DC (convPre n p q (X x) K b o i j) (T x o i j)), ([], [])]), s, by
      rw [batchOf_points, List.forall₂_map_left_iff, List.forall₂_map_right_iff, List.forall₂_same]
      intro x hxm
      obtain ⟨e, hX⟩ := hx x hxm
      refine ⟨?_, .cons (Conv.fits_kvec hl _ _) (.cons rfl .nil)⟩
      have e1 : x.1 = .matrix (ms x) := congrArg Prod.fst e
      have e2 : x.2 = cube nf (r - p + 1) (c - q + 1) (T x) := congrArg Prod.snd e
      rw [e1, e2]
      exact image_sample hl hs.filters hs.channels hr.1 hr.2 hc.1 hc.2 hA hD hDC _ _ lf hX _,
    by simpa [batchOf] using hs1, rfl⟩
  -- the patches
  have g2 := (C50_step (withHead (patchFront n p q) d) _ (by simp [withHead, patchFront]) (by
    intro k hk
    rcases List.mem_cons.mp hk with rfl | hk
    · trivial
    · obtain rfl := List.mem_singleton.mp hk
      exact ⟨hd.1.rect, by rw [hd.2.1, hd.1.1]; simp⟩) (batchOf (allPatches nf p q r c pts)) lf
        (timesRate ((r - p + 1) * (c - q + 1)) lr) (.ok ())).mpr ⟨rfl,
    P.map (fun y => [([], []), (kvec nf n p q fun o ch a e => X y.1 ch (y.2.1 + a) (y.2.2 + e)
          * reaches A D DC (convPre n p q (X y.1) K b o y.2.1 y.2.2) (T y.1 o y.2.1 y.2.2),
        (List.range nf).map fun o => reaches A D DC (convPre n p q (X y.1) K b o y.2.1 y.2.2) (T y.1 o y.2.1 y.2.2))]),
      s, by
      rw [batchOf_points, allPatches_map, List.map_map, List.forall₂_map_left_iff, List.forall₂_map_right_iff,
        List.forall₂_same]
      intro y hy
      obtain ⟨hy1, hy2, hy3⟩ := mem_places hy
      obtain ⟨e, hX⟩ := hx y.1 hy1
      refine ⟨?_, .cons rfl (.cons ?_ .nil)⟩
      · have e1 : y.1.1 = .matrix (ms y.1) := congrArg Prod.fst e
        have e2 : y.1.2 = cube nf (r - p + 1) (c - q + 1) (T y.1) := congrArg Prod.snd e
        obtain ⟨ms', e3, hX'⟩ := patch_maps (p := p) (q := q) hX (show y.2.1 + p ≤ r by omega)
          (show y.2.2 + q ≤ c by omega)
        simp only [Function.comp_apply]
        rw [e1, e2, e3, pixelAt_cube hy2 hy3]
        exact patch_sample hd hW hs.channels hr.1 hc.1 hA hD hDC lf (X y.1) hX' _
      · rw [kvec_table]
        exact Dense.fits_table hd _ _,
    by
      have : (batchOf (allPatches nf p q r c pts)).inputs.length = pts.length * ((r - p + 1) * (c - q + 1)) := by
        rw [← hlen]; simp [batchOf]
      rw [this]
      exact hs2, rfl⟩
  set upd : Cf w ℝ → Cf w ℝ → Cf w ℝ := fun p d => p - CplxOps.conj (BasicOps.mulAssign d s) with hupd
  obtain ⟨l', k1, i1⟩ := Conv.move_is hl upd (fun o ch a e => 0 + (pts.map fun x =>
      kernelGrad (r - p + 1) (c - q + 1) (X x ch) (fun i j =>
          reaches A D DC (convPre n p q (X x) K b o i j) (T x o i j)) a e).sum)
    (fun o => 0 + (pts.map fun x => ∑ i ∈ Finset.range (r - p + 1), ∑ j ∈ Finset.range (c - q + 1),
          reaches A D DC (convPre n p q (X x) K b o i j) (T x o i j)).sum)
  obtain ⟨d', k2, i2⟩ := Dense.move_kvec (n := n) (p := p) (q := q) hd upd (fun o ch a e => 0 + (P.map fun y =>
      X y.1 ch (y.2.1 + a) (y.2.2 + e)
          * reaches A D DC (convPre n p q (X y.1) K b o y.2.1 y.2.2) (T y.1 o y.2.1 y.2.2)).sum)
    (fun o => 0 + (P.map fun y =>
      reaches A D DC (convPre n p q (X y.1) K b o y.2.1 y.2.2) (T y.1 o y.2.1 y.2.2)).sum)
  have hbias : (fun o => upd (b o) (0 + (P.map fun y =>
        reaches A D DC (convPre n p q (X y.1) K b o y.2.1 y.2.2) (T y.1 o y.2.1 y.2.2)).sum))
      = fun o => upd (b o) (0 + (pts.map fun x => ∑ i ∈ Finset.range (r - p + 1), ∑ j ∈ Finset.range (c - q + 1),
          reaches A D DC (convPre n p q (X x) K b o i j) (T x o i j)).sum) := by
    funext o
    rw [hP, sum_places (F := fun x i j => reaches A D DC (convPre n p q (X x) K b o i j) (T x o i j))]
  rw [hbias] at i2
  refine ⟨l', d', ?_, ?_, _, _, _, i1, i2, fun o ho ch hch a ha e he => ?_⟩
  · rw [g1]
    congr 2
    unfold sumGrads imageNet
    simp only [List.map_cons, List.map_nil, zero_conv hl]
    have hz : LayerVec.zero (Layer.flatten ⟨((r - p + 1, c - q + 1), nf)⟩ : Layer (Cf w ℝ)) = ([], []) := rfl
    rw [hz, foldl_first, foldl_kvec]
    exact congrArg (fun a => (⟨[a, _]⟩ : Net (Cf w ℝ))) k1
  · rw [g2]
    congr 2
    unfold sumGrads withHead patchFront
    simp only [List.cons_append, List.nil_append, List.map_cons, List.map_nil, zero_dense_kvec hd]
    have hz : LayerVec.zero (Layer.flatten ⟨((p, q), n)⟩ : Layer (Cf w ℝ)) = ([], []) := rfl
    rw [hz, foldl_second, foldl_kvec]
    exact congrArg (fun a => (⟨[_, a]⟩ : Net (Cf w ℝ))) k2
  · beta_reduce
    rw [hW o ho ch hch a ha e he, flatOf_idx _ ch ha he]
    beta_reduce
    rw [hP, sum_places (F := fun x i j => X x ch (i + a) (j + e)
      * reaches A D DC (convPre n p q (X x) K b o i j) (T x o i j))]
    unfold kernelGrad
    simp only [Nat.add_comm a, Nat.add_comm e]

/-- C119. The same for whole training histories, with any batches, losses and complex learning rates. -/
theorem C119_training (hs : ImageSetting w nf n p q r c f) (h : SameWeights nf n p q f l d)
    (steps : List (List (IOType (Cf w ℝ) × List (Cf w ℝ)) × LossFunc × Cf w ℝ))
    (hst : ∀ st ∈ steps, Images nf n p q r c st.1 ∧ st.1 ≠ []) :
    ∃ l' d', (imageNet nf (r - p + 1) (c - q + 1) l).train (steps.map fun st => (batchOf st.1, st.2))
        = some (imageNet nf (r - p + 1) (c - q + 1) l')
      ∧ (withHead (patchFront n p q) d).train (steps.map fun st => (batchOf (allPatches nf p q r c st.1), st.2.1,
          timesRate ((r - p + 1) * (c - q + 1)) st.2.2)) = some (withHead (patchFront n p q) d')
      ∧ SameWeights nf n p q f l' d' := by
  induction steps generalizing l d with
  | nil => exact ⟨l, d, rfl, rfl, h⟩
  | cons st steps ih =>
    obtain ⟨h1, h2⟩ := hst st (by simp)
    obtain ⟨l1, d1, e1, e2, h3⟩ := C119_step hs h h1 h2 st.2.1 st.2.2
    obtain ⟨l', d', e3, e4, h4⟩ := ih h3 fun st h => hst st (by simp [h])
    refine ⟨l', d', ?_, ?_, h4⟩
    · unfold Net.train at e3 ⊢
      rw [List.map_cons, List.foldlM_cons, e1]
      exact e3
    · unfold Net.train at e4 ⊢
      rw [List.map_cons, List.foldlM_cons, e2]
      exact e4

theorem batchError_iff {N : Net (Cf w ℝ)} {Y : IOType (Cf w ℝ) × List (Cf w ℝ) → List (Cf w ℝ)}
    (h : ∀ x ∈ pts, N.forward x.1 = some (.ok (.scalar (Y x)))) (e : ℝ) :
    BatchError N pts e ↔ e = (pts.map fun x => sqSum x.2 (Y x)).sum := by
  have h1 : BatchError N pts (pts.map fun x => sqSum x.2 (Y x)).sum := by
    refine ⟨pts.map Y, ?_, ?_⟩
    · rw [List.forall₂_map_right_iff, List.forall₂_same]
      exact h
    · rw [List.zipWith_map_right, List.zipWith_self]
  constructor
  · exact fun h2 => h2.unique h1
  · rintro rfl
    exact h1

/-- C119. The error on the images is the error on the patches. -/
theorem C119_error (hs : ImageSetting w nf n p q r c f) (h : SameWeights nf n p q f l d)
    (hp : Images nf n p q r c pts) (e : ℝ) :
    BatchError (imageNet nf (r - p + 1) (c - q + 1) l) pts e
      ↔ BatchError (withHead (patchFront n p q) d) (allPatches nf p q r c pts) e := by
  have : Nonempty (Cf w ℝ) := ⟨0⟩
  have key : ∀ x : IOType (Cf w ℝ) × List (Cf w ℝ), ∃ y T, x ∈ pts →
      (imageNet nf (r - p + 1) (c - q + 1) l).forward x.1
        = some (.ok (.scalar (cube nf (r - p + 1) (c - q + 1) y)))
      ∧ x.2 = cube nf (r - p + 1) (c - q + 1) T
      ∧ ∀ i, i < r - p + 1 → ∀ j, j < c - q + 1 → (withHead (patchFront n p q) d).forward (patchAt p q i j x.1)
        = some (.ok (.scalar ((List.range nf).map fun o => y o i j))) := by
    intro x
    by_cases hx : x ∈ pts
    · obtain ⟨h1, h2⟩ := hp x hx
      obtain ⟨y, h3, h4, h5⟩ := C119_forward hs h h1
      obtain ⟨y, rfl⟩ := exists_cube _ _ _ y h4
      obtain ⟨T, hT⟩ := exists_cube _ _ _ x.2 h2
      refine ⟨y, T, fun _ => ⟨h3, hT, fun i hi j hj => ?_⟩⟩
      rw [h5 i hi j hj, pixelAt_cube hi hj]
    · exact ⟨fun _ _ _ => 0, fun _ _ _ => 0, fun h => absurd h hx⟩
  choose y T key using key
  rw [batchError_iff (fun x hx => (key x hx).1)]
  have e2 : BatchError (withHead (patchFront n p q) d) (allPatches nf p q r c pts)
      (pts.map fun x => ∑ i ∈ Finset.range (r - p + 1), ∑ j ∈ Finset.range (c - q + 1),
        ∑ o ∈ Finset.range nf, ‖(T x o i j).toC - (y x o i j).toC‖ ^ 2).sum := by
    refine ⟨(pts.flatMap fun x => table (r - p + 1) (c - q + 1) fun i j => (x, i, j)).map fun z =>
      (List.range nf).map fun o => y z.1 o z.2.1 z.2.2, ?_, ?_⟩
    · rw [allPatches_map, List.forall₂_map_left_iff, List.forall₂_map_right_iff, List.forall₂_same]
      intro z hz
      obtain ⟨h1, h2, h3⟩ := mem_places hz
      exact (key z.1 h1).2.2 _ h2 _ h3
    · rw [allPatches_map, List.zipWith_map, List.zipWith_self, ← sum_places]
      congr 1
      refine List.map_congr_left fun z hz => ?_
      obtain ⟨h1, h2, h3⟩ := mem_places hz
      beta_reduce
      rw [(key z.1 h1).2.1, pixelAt_cube h2 h3, sqSum_range]
  have e3 : (pts.map fun x => sqSum x.2 (cube nf (r - p + 1) (c - q + 1) (y x))).sum
      = (pts.map fun x => ∑ i ∈ Finset.range (r - p + 1), ∑ j ∈ Finset.range (c - q + 1),
        ∑ o ∈ Finset.range nf, ‖(T x o i j).toC - (y x o i j).toC‖ ^ 2).sum := by
    congr 1
    refine List.map_congr_left fun x hx => ?_
    rw [(key x hx).2.1, cube_flat, cube_flat, sqSum_range, sum_cube, Finset.sum_comm]
    refine Finset.sum_congr rfl fun i hi => ?_
    rw [Finset.sum_comm]
    refine Finset.sum_congr rfl fun j hj => Finset.sum_congr rfl fun o _ => ?_
    rw [Finset.mem_range] at hi hj
    rw [flatOf_idx _ o hi hj, flatOf_idx _ o hi hj]
  rw [e3]
  exact ⟨fun h => h ▸ e2, fun h => h.unique e2⟩

/-! ## Layers without activation function -/

theorem exists_sameDense (h : l.Linear nf n p q) : ∃ d, SameWeights nf n p q .none l d := by
  obtain ⟨K, b, hl⟩ := h
  exact ⟨Dense.of nf (n * (p * q)) (fun o => flatOf p q (K o)) b .none, K, b, _, hl, Dense.of_is _ _ _ _ _,
    fun o _ ch _ a ha e he => flatOf_idx _ ch ha he⟩

theorem exists_sameConv (h : d.Linear nf (n * (p * q))) : ∃ l, SameWeights nf n p q .none l d := by
  obtain ⟨W, b, hd⟩ := h
  refine ⟨⟨n, Mat.fromBody (table nf n fun o ch => Mat.fromBody (table p q fun a e => W o (ch * (p * q) + (a * q + e)))
    (p, q)) (nf, n), (List.range nf).map b, .none⟩, fun o ch a e => W o (ch * (p * q) + (a * q + e)), b, W,
    ⟨rfl, rfl, rfl, _, ⟨rfl, rfl⟩, fun _ _ _ _ => ⟨rfl, rfl⟩⟩, hd, fun _ _ _ _ _ _ _ _ => rfl⟩

theorem SameWeights.linear (h : SameWeights nf n p q .none l d) : l.Linear nf n p q ∧ d.Linear nf (n * (p * q)) := by
  obtain ⟨K, b, W, h1, h2, -⟩ := h
  exact ⟨⟨_, _, h1⟩, _, _, h2⟩

theorem conv_dist {l' : Conv (Cf w ℝ)} {K K' : Nat → Nat → Nat → Nat → Cf w ℝ} {b b' : Nat → Cf w ℝ}
    (h : l.Is nf n p q K b f) (h' : l'.Is nf n p q K' b' f) :
    l.distSq l' = (∑ o ∈ Finset.range nf, ∑ ch ∈ Finset.range n, ∑ a ∈ Finset.range p, ∑ e ∈ Finset.range q,
        ‖(K o ch a e).toC - (K' o ch a e).toC‖ ^ 2) + ∑ o ∈ Finset.range nf, ‖(b o).toC - (b' o).toC‖ ^ 2 := by
  obtain ⟨-, h2, -, M, h4, h5⟩ := h
  obtain ⟨-, h2', -, M', h4', h5'⟩ := h'
  unfold Conv.distSq
  rw [h2, h2', h4.2, h4'.2, table_zipWith, table_sum, List.zipWith_map, List.zipWith_self, sum_range_list]
  congr 1
  refine Finset.sum_congr rfl fun o ho => Finset.sum_congr rfl fun ch hch => ?_
  rw [Finset.mem_range] at ho hch
  rw [(h5 o ho ch hch).2, (h5' o ho ch hch).2, table_zipWith, table_sum]

theorem SameWeights.dist {l' : Conv (Cf w ℝ)} {d' : Dense (Cf w ℝ)} (h : SameWeights nf n p q f l d)
    (h' : SameWeights nf n p q f l' d') : l.distSq l' = d.distSq d' := by
  obtain ⟨K, b, W, h1, h2, h3⟩ := h
  obtain ⟨K', b', W', h1', h2', h3'⟩ := h'
  rw [conv_dist h1 h1']
  unfold Dense.distSq
  rw [h2.1.2, h2'.1.2, h2.2.1, h2'.2.1, table_zipWith, table_sum, List.zipWith_map, List.zipWith_self, sum_range_list]
  congr 1
  refine Finset.sum_congr rfl fun o ho => ?_
  rw [sum_cube]
  refine Finset.sum_congr rfl fun ch hch => Finset.sum_congr rfl fun a ha => Finset.sum_congr rfl fun e he => ?_
  rw [Finset.mem_range] at ho hch ha he
  rw [h3 o ho ch hch a ha e he, h3' o ho ch hch a ha e he]

theorem patch_front (hn : 0 < n) (hp : 1 ≤ p) (hq : 1 ≤ q) :
    FixedFront (patchFront n p q : List (Layer (Cf w ℝ))) (.maps n p q) (n * (p * q)) where
  ne := by simp [patchFront]
  fixed := by simp [patchFront, Layer.Fixed]
  total := by simp [patchFront, Layer.Total]
  totalBack := by simp [patchFront, Layer.TotalBack]
  fits := .cons (s₁ := .vec (n * (p * q))) ⟨rfl, by simp [Nat.mul_comm]⟩ (.nil _)
  pos := Nat.mul_pos hn (Nat.mul_pos (by omega) (by omega))

theorem none_setting (hf : 0 < nf) (hn : 0 < n) (hp : 1 ≤ p ∧ p ≤ r) (hq : 1 ≤ q ∧ q ≤ c) :
    ImageSetting w nf n p q r c .none :=
  ⟨hf, hn, hp, hq, fun _ => ⟨_, rfl⟩, fun _ => ⟨_, rfl⟩, fun _ => ⟨_, rfl⟩⟩

theorem imageNet_inj {R C : Nat} {l l' : Conv (Cf w ℝ)} (h : imageNet nf R C l = imageNet nf R C l') : l = l' := by
  have := congrArg Net.layers h
  simpa [imageNet] using this

theorem patches_size (hp : 1 ≤ p ∧ p ≤ r) (hq : 1 ≤ q ∧ q ≤ c) (h : Images nf n p q r c pts) :
    ∀ x ∈ allPatches nf p q r c pts, x.1.HasSize (.maps n p q) ∧ x.2.length = nf := by
  intro x hx
  rw [allPatches_map] at hx
  obtain ⟨y, hy, rfl⟩ := List.mem_map.mp hx
  obtain ⟨h1, h2, h3⟩ := mem_places hy
  obtain ⟨ms, X, e, hX⟩ := image_entries (h y.1 h1).1
  obtain ⟨ms', e', hX'⟩ := patch_maps (p := p) (q := q) hX (show y.2.1 + p ≤ r by omega) (show y.2.2 + q ≤ c by omega)
  refine ⟨?_, pixelAt_length _ _ _ _ _⟩
  beta_reduce
  rw [e, e']
  refine ⟨hX'.1, fun m hm => ?_⟩
  obtain ⟨ch, hch⟩ := List.getElem?_of_mem hm
  have := hX'.2 ch m hch
  exact ⟨this.rect, this.1⟩

theorem patches_ne (h : pts ≠ []) : allPatches nf p q r c pts ≠ [] := by
  have hl := allPatches_length (nf := nf) (p := p) (q := q) (r := r) (c := c) (pts := pts)
  have : 0 < pts.length := List.length_pos_iff.mpr h
  have : 0 < pts.length * ((r - p + 1) * (c - q + 1)) := Nat.mul_pos this (Nat.mul_pos (by omega) (by omega))
  exact List.length_pos_iff.mp (by omega)

/-- C119. Training calls on images give a run, from every initial layer. -/
theorem C119_run (hf : 0 < nf) (hn : 0 < n) (hp : 1 ≤ p ∧ p ≤ r) (hq : 1 ≤ q ∧ q ≤ c) (hi : Images nf n p q r c pts)
    (hB : pts ≠ []) (hl : l.Linear nf n p q) (lf : LossFunc) (s : ℝ) :
    ∃ L e, L 0 = l ∧ ImageRun nf n p q r c pts lf s L e := by
  have hs := none_setting (w := w) hf hn hp hq
  obtain ⟨d, hd⟩ := exists_sameDense hl
  have hrep : ∀ T : Nat, (List.replicate T (batchOf pts, lf, (⟨s, 0⟩ : Cf w ℝ)))
      = (List.replicate T (pts, lf, (⟨s, 0⟩ : Cf w ℝ))).map fun st => (batchOf st.1, st.2) := by
    intro T
    rw [List.map_replicate]
  have key : ∀ T : Nat, ∃ l' e, (imageNet nf (r - p + 1) (c - q + 1) l).train
        (List.replicate T (batchOf pts, lf, (⟨s, 0⟩ : Cf w ℝ))) = some (imageNet nf (r - p + 1) (c - q + 1) l')
      ∧ l'.Linear nf n p q ∧ BatchError (imageNet nf (r - p + 1) (c - q + 1) l') pts e := by
    intro T
    obtain ⟨l', d', h1, -, h2⟩ := C119_training hs hd (List.replicate T (pts, lf, ⟨s, 0⟩)) fun st hst => by
      obtain rfl := (List.mem_replicate.mp hst).2
      exact ⟨hi, hB⟩
    obtain ⟨W, b, hd'⟩ := h2.linear.2
    obtain ⟨e, he⟩ : ∃ e, BatchError (withHead (patchFront n p q) d') (allPatches nf p q r c pts) e :=
      ⟨_, ((patch_front hn hp.1 hq.1).error hd' (patches_size hp hq hi) _).mpr rfl⟩
    exact ⟨l', e, by rw [hrep]; exact h1, h2.linear.1, (C119_error hs h2 hi e).mpr he⟩
  choose L e h1 h2 h3 using key
  have h0 : L 0 = l := (imageNet_inj (Option.some.inj (h1 0))).symm
  exact ⟨L, e, h0, h2, fun T => by rw [h0]; exact h1 T, h3⟩

/-- The run of the dense layer on the patches that belongs to a run on the images. -/
theorem ImageRun.patches (hf : 0 < nf) (hn : 0 < n) (hp : 1 ≤ p ∧ p ≤ r) (hq : 1 ≤ q ∧ q ≤ c)
    (hi : Images nf n p q r c pts) (hB : pts ≠ []) {lf : LossFunc} {s : ℝ} {L : Nat → Conv (Cf w ℝ)} {e : Nat → ℝ}
    (hr : ImageRun nf n p q r c pts lf s L e) :
    ∃ D : Nat → Dense (Cf w ℝ), (∀ T, SameWeights nf n p q .none (L T) (D T))
      ∧ TrainingRun (patchFront n p q) nf (n * (p * q)) (allPatches nf p q r c pts) lf
        (s * (((r - p + 1) * (c - q + 1) : Nat) : ℝ)) D e := by
  have hs := none_setting (w := w) hf hn hp hq
  obtain ⟨d, hd⟩ := exists_sameDense (hr.linear 0)
  have key : ∀ T : Nat, ∃ d', (withHead (patchFront n p q) d).train
        (List.replicate T (batchOf (allPatches nf p q r c pts), lf,
          (⟨s * (((r - p + 1) * (c - q + 1) : Nat) : ℝ), 0⟩ : Cf w ℝ)))
        = some (withHead (patchFront n p q) d')
      ∧ SameWeights nf n p q .none (L T) d' := by
    intro T
    obtain ⟨l', d', h1, h2, h3⟩ := C119_training hs hd (List.replicate T (pts, lf, ⟨s, 0⟩)) fun st hst => by
      obtain rfl := (List.mem_replicate.mp hst).2
      exact ⟨hi, hB⟩
    rw [List.map_replicate] at h1 h2
    have e1 := h1.symm.trans (hr.train T)
    obtain rfl := imageNet_inj (Option.some.inj e1)
    refine ⟨d', ?_, h3⟩
    rw [← h2]
    unfold timesRate
    simp only [zero_mul]
  choose D h1 h2 using key
  have h0 : D 0 = d := (withHead_inj (Option.some.inj (h1 0))).symm
  refine ⟨D, h2, fun T => (h2 T).linear.2, fun T => by rw [h0]; exact h1 T, fun T => ?_⟩
  exact (C119_error hs (h2 T) hi _).mp (hr.error T)

theorem rate_patches {s : ℝ} {B : ℝ} (h : rateSum (patchFront n p q) (allPatches nf p q r c pts) s < B * pts.length) :
    rateSum (patchFront n p q) (allPatches nf p q r c pts) (s * (((r - p + 1) * (c - q + 1) : Nat) : ℝ))
      < B * (allPatches nf p q r c pts).length := by
  have hpos : (0 : ℝ) < (((r - p + 1) * (c - q + 1) : Nat) : ℝ) := by
    exact_mod_cast Nat.mul_pos (by omega) (by omega)
  have e : rateSum (patchFront n p q) (allPatches nf p q r c pts) (s * (((r - p + 1) * (c - q + 1) : Nat) : ℝ))
      = rateSum (patchFront n p q) (allPatches nf p q r c pts) s * (((r - p + 1) * (c - q + 1) : Nat) : ℝ) := by
    unfold rateSum
    ring
  have e2 : ((allPatches nf p q r c pts).length : ℝ) = pts.length * (((r - p + 1) * (c - q + 1) : Nat) : ℝ) := by
    rw [allPatches_length]
    exact_mod_cast rfl
  rw [e, e2, ← mul_assoc]
  exact mul_lt_mul_of_pos_right h hpos

open Filter Topology

/-- C119. Without activation function, and with a learning rate `s` for which `s·Σ(1 + ‖patch‖²)`, over all
patches of all `B` images, is less than `2B`: the error never increases and converges to the least error of all
choices of kernels and biases, and the kernels and biases converge to the best ones nearest to the initial ones. -/
theorem C119_limit (hf : 0 < nf) (hn : 0 < n) (hp : 1 ≤ p ∧ p ≤ r) (hq : 1 ≤ q ∧ q ≤ c)
    (hi : Images nf n p q r c pts) (hB : pts ≠ []) {lf : LossFunc} {s : ℝ} (hs : 0 < s)
    (hK : rateSum (patchFront n p q) (allPatches nf p q r c pts) s < 2 * pts.length)
    {L : Nat → Conv (Cf w ℝ)} {e : Nat → ℝ} (hr : ImageRun nf n p q r c pts lf s L e) :
    Antitone e ∧ ∃ (l' : Conv (Cf w ℝ)) (e' : ℝ), l'.Linear nf n p q
      ∧ BatchError (imageNet nf (r - p + 1) (c - q + 1) l') pts e'
      ∧ LeastImageError nf n p q r c pts e' ∧ Tendsto (fun T => (L T).distSq l') atTop (𝓝 0)
      ∧ Tendsto e atTop (𝓝 e')
      ∧ ∀ l'' : Conv (Cf w ℝ), l''.Linear nf n p q → BatchError (imageNet nf (r - p + 1) (c - q + 1) l'') pts e' →
        (L 0).distSq l'' = (L 0).distSq l' + l'.distSq l'' := by
  have hset := none_setting (w := w) hf hn hp hq
  have hfr := patch_front (w := w) hn hp.1 hq.1
  obtain ⟨D, hD, hrun⟩ := hr.patches hf hn hp hq hi hB
  have hpos : (0 : ℝ) < (((r - p + 1) * (c - q + 1) : Nat) : ℝ) := by
    exact_mod_cast Nat.mul_pos (by omega) (by omega)
  have hsz := patches_size hp hq hi
  have hne := patches_ne (nf := nf) (p := p) (q := q) (r := r) (c := c) hB
  refine ⟨C102_decrease hfr hne hsz (mul_pos hs hpos) (rate_patches hK) hrun, ?_⟩
  obtain ⟨d', e', h1, h2, h3, h4, h5, h6⟩ := C102_limit hfr hne hsz (mul_pos hs hpos) (rate_patches hK) hrun
  obtain ⟨l', hl'⟩ := exists_sameConv h1
  refine ⟨l', e', hl'.linear.1, (C119_error hset hl' hi e').mpr h2, ?_, ?_, h5, ?_⟩
  · intro l e1 hl he
    obtain ⟨d, hd⟩ := exists_sameDense hl
    exact h3 d e1 hd.linear.2 ((C119_error hset hd hi e1).mp he)
  · have : (fun T => (L T).distSq l') = fun T => (D T).distSq d' := funext fun T => (hD T).dist hl'
    rw [this]
    exact h4
  · intro l'' hl'' he
    obtain ⟨d'', hd''⟩ := exists_sameDense hl''
    rw [(hD 0).dist hd'', (hD 0).dist hl', hl'.dist hd'']
    exact h6 d'' hd''.linear.2 ((C119_error hset hd'' hi e').mp he)

/-- C119. The excess over the least error shrinks at least by a constant factor with every call. -/
theorem C119_factor (hf : 0 < nf) (hn : 0 < n) (hp : 1 ≤ p ∧ p ≤ r) (hq : 1 ≤ q ∧ q ≤ c)
    (hi : Images nf n p q r c pts) (hB : pts ≠ []) {s : ℝ} (hs : 0 < s)
    (hK : rateSum (patchFront n p q) (allPatches nf p q r c pts) s < 2 * pts.length) :
    ∃ ρ : ℝ, 0 ≤ ρ ∧ ρ < 1 ∧ ∀ (lf : LossFunc) (L : Nat → Conv (Cf w ℝ)) (e : Nat → ℝ),
      ImageRun nf n p q r c pts lf s L e → ∀ (l' : Conv (Cf w ℝ)) (e' : ℝ), l'.Linear nf n p q →
        BatchError (imageNet nf (r - p + 1) (c - q + 1) l') pts e' → LeastImageError nf n p q r c pts e' →
        ∀ T : Nat, e T - e' ≤ ρ ^ T * (e 0 - e') := by
  have hset := none_setting (w := w) hf hn hp hq
  have hfr := patch_front (w := w) hn hp.1 hq.1
  have hpos : (0 : ℝ) < (((r - p + 1) * (c - q + 1) : Nat) : ℝ) := by
    exact_mod_cast Nat.mul_pos (by omega) (by omega)
  obtain ⟨ρ, r1, r2, r3⟩ := C102_factor hfr (patches_ne (nf := nf) (p := p) (q := q) (r := r) (c := c) hB)
    (patches_size hp hq hi) (mul_pos hs hpos) (rate_patches hK)
  refine ⟨ρ, r1, r2, fun lf L e hr l' e' hl' he' hle T => ?_⟩
  obtain ⟨D, hD, hrun⟩ := hr.patches hf hn hp hq hi hB
  obtain ⟨d', hd'⟩ := exists_sameDense hl'
  refine r3 lf D e hrun d' e' hd'.linear.2 ((C119_error hset hd' hi e').mp he') ?_ T
  intro d e1 hd he
  obtain ⟨l, hl⟩ := exists_sameConv hd
  exact hle l e1 hl.linear.1 ((C119_error hset hl hi e1).mpr he)

/-- C119. A call leaves the layer unchanged exactly if no kernels and biases have a smaller error. -/
theorem C119_stationary (hf : 0 < nf) (hn : 0 < n) (hp : 1 ≤ p ∧ p ≤ r) (hq : 1 ≤ q ∧ q ≤ c)
    (hi : Images nf n p q r c pts) (hB : pts ≠ []) (hl : l.Linear nf n p q) (lf : LossFunc) {s : ℝ} (hs : s ≠ 0) :
    ∃ l', (imageNet nf (r - p + 1) (c - q + 1) l).gradientOpt (batchOf pts) lf ⟨s, 0⟩
        = some (.ok (), imageNet nf (r - p + 1) (c - q + 1) l')
      ∧ l'.Linear nf n p q ∧ (l.distSq l' = 0
        ↔ ∃ e, BatchError (imageNet nf (r - p + 1) (c - q + 1) l) pts e ∧ LeastImageError nf n p q r c pts e) := by
  have hset := none_setting (w := w) hf hn hp hq
  have hfr := patch_front (w := w) hn hp.1 hq.1
  have hpos : (0 : ℝ) < (((r - p + 1) * (c - q + 1) : Nat) : ℝ) := by
    exact_mod_cast Nat.mul_pos (by omega) (by omega)
  obtain ⟨d, hd⟩ := exists_sameDense hl
  obtain ⟨l', d', h1, h2, h3⟩ := C119_step hset hd hi hB lf ⟨s, 0⟩
  refine ⟨l', h1, h3.linear.1, ?_⟩
  obtain ⟨d1, g1, -, g2⟩ := C102_stationary hfr hd.linear.2
    (patches_ne (nf := nf) (p := p) (q := q) (r := r) (c := c) hB) (patches_size hp hq hi) lf
    (mul_ne_zero hs hpos.ne')
  have e1 : timesRate ((r - p + 1) * (c - q + 1)) (⟨s, 0⟩ : Cf w ℝ)
      = ⟨s * (((r - p + 1) * (c - q + 1) : Nat) : ℝ), 0⟩ := by
    unfold timesRate
    simp only [zero_mul]
  rw [e1, g1] at h2
  obtain rfl := withHead_inj (Prod.mk.inj (Option.some.inj h2)).2
  rw [hd.dist h3, g2]
  constructor
  · rintro ⟨e, he, hle⟩
    refine ⟨e, (C119_error hset hd hi e).mpr he, fun l1 e1 hl1 he1 => ?_⟩
    obtain ⟨d1, hd1⟩ := exists_sameDense hl1
    exact hle d1 e1 hd1.linear.2 ((C119_error hset hd1 hi e1).mp he1)
  · rintro ⟨e, he, hle⟩
    refine ⟨e, (C119_error hset hd hi e).mp he, fun d1 e1 hd1 he1 => ?_⟩
    obtain ⟨l1, hl1⟩ := exists_sameConv hd1
    exact hle l1 e1 hl1.linear.1 ((C119_error hset hl1 hi e1).mpr he1)

end

/-- Small learning rates satisfy the condition of `C119_limit`. -/
theorem small_rate {n p q : Nat} {qs pts : List (IOType (Cf w ℝ) × List (Cf w ℝ))} (hB : pts ≠ []) :
    ∃ s : ℝ, 0 < s ∧ rateSum (patchFront n p q) qs s < 2 * pts.length := by
  set S := (qs.map fun x => 1 + ((features (patchFront n p q) x.1).map fun z => ‖z.toC‖ ^ 2).sum).sum with hS
  have h0 : 0 ≤ S := by
    refine List.sum_nonneg fun y hy => ?_
    obtain ⟨x, -, rfl⟩ := List.mem_map.mp hy
    have : 0 ≤ ((features (patchFront n p q) x.1).map fun z => ‖z.toC‖ ^ 2).sum := by
      refine List.sum_nonneg fun y hy => ?_
      obtain ⟨z, -, rfl⟩ := List.mem_map.mp hy
      positivity
    linarith
  have h1 : (1 : ℝ) ≤ pts.length := by exact_mod_cast List.length_pos_iff.mpr hB
  refine ⟨1 / (S + 1), by positivity, ?_⟩
  unfold rateSum
  rw [← hS]
  have : 1 / (S + 1) * S < 1 := by
    rw [one_div, inv_mul_lt_iff₀ (by linarith)]
    linarith
  linarith

/-- An image of 3 × 3 zeros with 2 × 2 targets. -/
noncomputable def exImage : IOType (Cf w ℝ) × List (Cf w ℝ) :=
  (.matrix [Mat.fromBody (List.replicate 9 0) (3, 3)], List.replicate 4 1)

/-- One 2 × 2 kernel on one such image. -/
example : Images 1 1 2 2 3 3 [(exImage : IOType (Cf w ℝ) × List (Cf w ℝ))] ∧ (∃ l : Conv (Cf w ℝ), l.Linear 1 1 2 2)
    ∧ (∃ s : ℝ, 0 < s ∧ rateSum (patchFront 1 2 2) (allPatches 1 2 2 3 3
        [(exImage : IOType (Cf w ℝ) × List (Cf w ℝ))]) s < 2 * [(exImage : IOType (Cf w ℝ) × List (Cf w ℝ))].length)
    ∧ ImageSetting w 1 1 2 2 3 3 .none := by
  refine ⟨?_, ?_, small_rate (by simp), none_setting (by omega) (by omega) (by omega) (by omega)⟩
  · intro x hx
    obtain rfl := List.mem_singleton.mp hx
    exact ⟨⟨rfl, by simp [Mat.fromBody, Mat.Rect]⟩, rfl⟩
  · obtain ⟨l, hl⟩ := exists_sameConv (w := w) (nf := 1) (n := 1) (p := 2) (q := 2)
      ⟨_, _, Dense.of_is 1 4 (fun _ _ => 0) (fun _ => 0) .none⟩
    exact ⟨l, hl.linear.1⟩

end Renplex
