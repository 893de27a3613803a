import Verif.Props.MatrixOps
import Verif.Props.Data
import Verif.Props.DenseGrad
import Verif.Spec.IntNet
/-!
# C74, C75: convolution with the conjugated kernel, and printing a matrix
-/

namespace Renplex
open Mat

section
variable {α P : Type} [CplxOps α P]

theorem cconvolution_eq (m k : Mat α) (hk : k.Rect) :
    m.cconvolution k = (do
      let k0 ← usub k.shape.1 1
      let f0 ← usub m.shape.1 k0
      let k1 ← usub k.shape.2 1
      let f1 ← usub m.shape.2 k1
      let rows ← (List.range f0).mapM fun i =>
        convRow m (fromBody (k.body.map CplxOps.conj) k.shape) f1 i
      let r ← unwrap (toMatrix rows.flatten (f0, f1))
      some (.ok r)) := by
  unfold Mat.cconvolution
  have : unwrap (toMatrix (k.body.map CplxOps.conj) k.shape)
      = some (fromBody (k.body.map CplxOps.conj) k.shape) := by
    rw [toMatrix, if_neg (by rw [List.length_map]; exact not_not.mpr hk)]
    rfl
  rw [this]
  rfl

/-- C74, any arithmetic. With a kernel that fits, it is the convolution with the kernel whose entries
are conjugated. -/
theorem C74_conjugated_partial {m k : Mat α} {r c kr kc : Nat} {f g : Nat → Nat → α} (hm : m.Is r c f)
    (hk : k.Is kr kc g) (h1 : 1 ≤ kr) (h2 : kr ≤ r) (h3 : 1 ≤ kc) (h4 : kc ≤ c) :
    m.cconvolution k = m.convolution (fromBody (k.body.map CplxOps.conj) k.shape)
      ∧ ∃ m', m.cconvolution k = some (.ok m')
        ∧ m'.Is (r - kr + 1) (c - kc + 1) (corr kr kc f fun a b => CplxOps.conj (g a b)) := by
  have e : m.cconvolution k = m.convolution (fromBody (k.body.map CplxOps.conj) k.shape) := by
    rw [cconvolution_eq m k hk.rect, Mat.convolution, if_neg (by
      simp only [fromBody]; rw [hm.1, hk.1]; simp only; omega)]
    rfl
  refine ⟨e, ?_⟩
  rw [e]
  refine C12_convolution hm ⟨hk.1, ?_⟩ h1 h2 h3 h4
  simp only [fromBody]
  rw [hk.2, table_map]

/-- C74. It never returns an error, whatever the shapes. -/
theorem C74_refuted_no_error (m k : Mat α) (e : OpErr) : m.cconvolution k ≠ some (.error e) := by
  unfold Mat.cconvolution
  intro h
  simp only [Option.bind_eq_bind, Option.bind_eq_some_iff, Option.some.injEq, reduceCtorEq,
    and_false, exists_false] at h

/-- C74 is false of the code for larger kernels: instead of reporting an error it returns an empty
matrix if the kernel is one row too high, and panics if it is higher or more than one column too
wide. -/
theorem C74_refuted_larger {m k : Mat α} {r c kr kc : Nat} {f g : Nat → Nat → α} (hm : m.Is r c f)
    (hk : k.Is kr kc g) :
    (kr = r + 1 → 1 ≤ kc → kc ≤ c + 1 →
        m.cconvolution k = some (.ok (fromBody [] (0, c + 1 - kc))))
      ∧ (1 ≤ kr → kr ≤ r → 1 ≤ c → kc = c + 1 →
        m.cconvolution k = some (.ok (fromBody [] (r - kr + 1, 0))))
      ∧ (r + 1 < kr ∨ c + 1 < kc → m.cconvolution k = none) := by
  refine ⟨?_, ?_, ?_⟩
  · intro h1 h2 h3
    rw [cconvolution_eq m k hk.rect, hm.1, hk.1]
    simp only
    have u1 : usub kr 1 = some r := by unfold usub; rw [if_pos (by omega)]; congr 1; omega
    have u2 : usub r r = some 0 := by unfold usub; rw [if_pos (by omega)]; congr 1; omega
    have u3 : usub kc 1 = some (kc - 1) := by unfold usub; rw [if_pos (by omega)]
    have u4 : usub c (kc - 1) = some (c + 1 - kc) := by
      unfold usub; rw [if_pos (by omega)]; congr 1; omega
    simp only [u1, u2, u3, u4, Option.bind_eq_bind, Option.bind_some, List.range_zero, List.mapM_nil,
      pure, List.flatten_nil, toMatrix, List.length_nil, Nat.zero_mul, ne_eq, not_true_eq_false,
      if_false, unwrap]
  · intro h1 h2 h3 h4
    rw [cconvolution_eq m k hk.rect, hm.1, hk.1]
    simp only
    have u1 : usub kr 1 = some (kr - 1) := by unfold usub; rw [if_pos (by omega)]
    have u2 : usub r (kr - 1) = some (r - kr + 1) := by
      unfold usub; rw [if_pos (by omega)]; congr 1; omega
    have u3 : usub kc 1 = some c := by unfold usub; rw [if_pos (by omega)]; congr 1; omega
    have u4 : usub c c = some 0 := by unfold usub; rw [if_pos (by omega)]; congr 1; omega
    simp only [u1, u2, u3, u4, Option.bind_eq_bind, Option.bind_some]
    have hk' : (fromBody (k.body.map CplxOps.conj) (kr, kc)).Is kr kc
        (fun a b => CplxOps.conj (g a b)) := by
      refine ⟨rfl, ?_⟩
      simp only [fromBody]
      rw [hk.2, table_map]
    have hrow : ∀ i ∈ List.range (r - kr + 1),
        convRow m (fromBody (k.body.map CplxOps.conj) (kr, kc)) 0 i = some ([] : List α) := by
      intro i hi
      rw [List.mem_range] at hi
      unfold convRow
      rw [hk'.1]
      simp only
      rw [getSlider_is hm (by omega) i kr (by omega), C18_rows hk' (by omega)]
      simp only [Option.bind_eq_bind, Option.bind_some]
      rw [zip_range_map]
      generalize List.range kr = l
      induction l with
      | nil => rfl
      | cons a l ih =>
        rw [List.map_cons, List.foldlM_cons]
        have hw : windows kc ((List.range c).map (f (i + a))) = some [] := by
          unfold windows
          rw [if_neg (by omega)]
          simp [h4]
        simp only [hw, Option.bind_eq_bind, Option.bind_some, List.map_nil, List.replicate_zero]
        exact ih
    rw [mapM_some_of _ (fun _ => ([] : List α)) _ hrow]
    have hfl : ((List.range (r - kr + 1)).map fun _ => ([] : List α)).flatten = [] := by simp
    simp only [Option.bind_some, hfl, toMatrix, List.length_nil, Nat.mul_zero, ne_eq,
      not_true_eq_false, if_false, unwrap]
  · intro h
    unfold Mat.cconvolution
    rw [hm.1, hk.1]
    simp only
    by_cases h0 : kr = 0
    · rw [h0]; rfl
    have u1 : usub kr 1 = some (kr - 1) := by unfold usub; rw [if_pos (by omega)]
    rw [u1]
    by_cases h1 : r + 1 < kr
    · have u2 : usub r (kr - 1) = none := by unfold usub; rw [if_neg (by omega)]
      simp [u2]
    · have u2 : usub r (kr - 1) = some (r - (kr - 1)) := by unfold usub; rw [if_pos (by omega)]
      have u3 : usub kc 1 = some (kc - 1) := by unfold usub; rw [if_pos (by omega)]
      have u4 : usub c (kc - 1) = none := by unfold usub; rw [if_neg (by omega)]
      simp [u3, u4]

end

/-- C74, exact arithmetic: entry `(i,j)` is `Σ_{a<kr} Σ_{b<kc} m(i+a,j+b)·conj k(a,b)`. -/
theorem C74_exact_partial {w : Width} {m k : Mat (Cf w ℝ)} {r c kr kc : Nat} {f g : Nat → Nat → Cf w ℝ}
    (hm : m.Is r c f) (hk : k.Is kr kc g) (h1 : 1 ≤ kr) (h2 : kr ≤ r) (h3 : 1 ≤ kc) (h4 : kc ≤ c) :
    ∃ m', m.cconvolution k = some (.ok m') ∧ m'.Is (r - kr + 1) (c - kc + 1) (fun i j => Cf.ofC
      (∑ a ∈ Finset.range kr, ∑ b ∈ Finset.range kc,
        (f (i + a) (j + b)).toC * starRingEnd ℂ (g a b).toC)) := by
  obtain ⟨m', e1, e2⟩ := (C74_conjugated_partial hm hk h1 h2 h3 h4).2
  refine ⟨m', e1, e2.1, e2.2.trans (table_congr fun i _ j _ => ?_)⟩
  rw [corr_sum]
  apply Cf.toC_inj.mp
  rw [Cf.toC_ofC]
  simp only [Cf.toC_sum, Cf.toC_hom_mul]
  refine Finset.sum_congr rfl fun a _ => Finset.sum_congr rfl fun b _ => ?_
  exact congrArg _ (Cf.toC_conj _)

/-- So convolving a matrix with itself gives one entry, the sum of the squared moduli. -/
theorem C74_self_partial {w : Width} {m : Mat (Cf w ℝ)} {r c : Nat} {f : Nat → Nat → Cf w ℝ}
    (hm : m.Is r c f) (hr : 1 ≤ r) (hc : 1 ≤ c) :
    ∃ m', m.cconvolution m = some (.ok m') ∧ m'.Is 1 1 (fun _ _ =>
      ⟨∑ a ∈ Finset.range r, ∑ b ∈ Finset.range c, ‖(f a b).toC‖ ^ 2, 0⟩) := by
  obtain ⟨m', e1, e2⟩ := C74_exact_partial hm hm hr le_rfl hc le_rfl
  rw [Nat.sub_self, Nat.sub_self, Nat.zero_add] at e2
  refine ⟨m', e1, e2.1, e2.2.trans (table_congr fun i hi j hj => ?_)⟩
  obtain rfl : i = 0 := by omega
  obtain rfl : j = 0 := by omega
  apply Cf.toC_inj.mp
  rw [Cf.toC_ofC]
  have : ∀ z : ℂ, z * starRingEnd ℂ z = ((‖z‖ ^ 2 : ℝ) : ℂ) := fun z => by
    rw [Complex.mul_conj, Complex.normSq_eq_norm_sq]
  simp only [Nat.zero_add, this]
  have hr : ∀ a : ℝ, (⟨a, 0⟩ : Cf w ℝ).toC = (a : ℂ) := fun a => Complex.ext (by simp) (by simp)
  rw [hr, Complex.ofReal_sum]
  exact Finset.sum_congr rfl fun a _ => (Complex.ofReal_sum _ _).symm

example : (Mat.fromBody [1, 2, 3, 4, 5, 6, 7, 8, 9] (3, 3) : Mat Int).cconvolution
    (Mat.fromBody [1, 0, 0, -1] (2, 2)) = some (.ok (Mat.fromBody [-4, -4, -4, -4] (2, 2))) := rfl
example : (Mat.fromBody [1, 2, 3, 4] (2, 2) : Mat Int).cconvolution
    (Mat.fromBody [1, 0, 0] (1, 3)) = some (.ok (Mat.fromBody [] (2, 0)))
    ∧ (Mat.fromBody [1, 2, 3, 4] (2, 2) : Mat Int).cconvolution
    (Mat.fromBody [1, 0, 0, 1] (1, 4)) = none := ⟨rfl, rfl⟩

/-! ## C75 -/

/-- C75. A matrix with at least one column is printed as one line per row, followed by a line with its
shape and capacity. -/
theorem C75_display_partial {α : Type} (rowFmt : List α → String) (arrFmt : Nat × Nat → String)
    {m : Mat α} {r c : Nat} {A : Nat → Nat → α} (h : m.Is r c A) (hc : 0 < c)
    (hrow : ∀ l, '\n' ∉ (rowFmt l).toList) (harr : ∀ s, '\n' ∉ (arrFmt s).toList) :
    ∃ text, m.display rowFmt arrFmt = some text
      ∧ (text.toList.splitOn '\n').map String.ofList
        = ((List.range r).map fun i => rowFmt ((List.range c).map (A i)))
          ++ ["shape: " ++ arrFmt (r, c) ++ ", capacity: " ++ arrFmt m.capacity] := by
  obtain ⟨h1, h2⟩ := h
  unfold Mat.display
  rw [h1, h2]
  simp only [chunks_table r c A hc, Option.bind_eq_bind, Option.bind_some]
  refine ⟨_, rfl, ?_⟩
  have key : ∀ (ls : List (List Char)) (t : List Char), (∀ l ∈ ls, '\n' ∉ l) → '\n' ∉ t →
      ((ls.flatMap fun l => l ++ ['\n']) ++ t).splitOn '\n' = ls ++ [t] := by
    intro ls t hl ht
    induction ls with
    | nil => simpa using List.splitOn_eq_singleton ht
    | cons l ls ih =>
      rw [List.flatMap_cons, List.append_assoc, List.append_assoc, List.singleton_append,
        List.splitOn_append_cons_self_of_not_mem (hl l (by simp)), ih fun l h => hl l (by simp [h])]
      rfl
  have e : (String.join (((List.range r).map fun i => (List.range c).map (A i)).map fun r =>
      rowFmt r ++ "\n") ++ "shape: " ++ arrFmt (r, c) ++ ", capacity: " ++ arrFmt m.capacity).toList
      = (((List.range r).map fun i => (rowFmt ((List.range c).map (A i))).toList).flatMap
          fun l => l ++ ['\n'])
        ++ ("shape: " ++ arrFmt (r, c) ++ ", capacity: " ++ arrFmt m.capacity).toList := by
    simp only [String.toList_append, String.toList_join, List.flatMap_map, List.append_assoc]
    rfl
  rw [e, key]
  · simp only [List.map_append, List.map_map, Function.comp_def, String.ofList_toList, List.map_cons,
      List.map_nil]
  · intro l hl
    obtain ⟨i, -, rfl⟩ := List.mem_map.mp hl
    exact hrow _
  · simp only [String.toList_append, List.mem_append, not_or]
    exact ⟨⟨⟨by decide, harr _⟩, by decide⟩, harr _⟩

/-- C75 is false of the code for a matrix without columns, such as a new one: printing panics. -/
theorem C75_refuted {α : Type} (rowFmt : List α → String) (arrFmt : Nat × Nat → String) (m : Mat α)
    (h : m.shape.2 = 0) : m.display rowFmt arrFmt = none := by
  simp [Mat.display, h, chunks]

/-- C75. A complex number is printed as its two parts in brackets; if these print without blanks and
brackets, the text determines them. -/
theorem C75_complex {w : Width} {R : Type} (disp : R → String) (hd : Function.Injective disp)
    (hb : ∀ x, ' ' ∉ (disp x).toList) (z z' : Cf w R) (h : z.display disp = z'.display disp) :
    z = z' := by
  have h1 := congrArg String.toList h
  simp only [Cf.display, String.toList_append] at h1
  have h2 : (disp z.x).toList ++ ' ' :: ((disp z.y).toList ++ [']'])
      = (disp z'.x).toList ++ ' ' :: ((disp z'.y).toList ++ [']']) := by
    simpa using h1
  have key : ∀ a b a' b' : List Char, ' ' ∉ a → ' ' ∉ a' → a ++ ' ' :: b = a' ++ ' ' :: b' →
      a = a' ∧ b = b' := by
    intro a
    induction a with
    | nil =>
      intro b a' b' _ h' e
      cases a' with
      | nil => simpa using e
      | cons x a' => simp only [List.nil_append, List.cons_append, List.cons.injEq] at e
                     exact absurd (List.mem_cons.mpr (.inl e.1)) h'
    | cons y a ih =>
      intro b a' b' h h' e
      cases a' with
      | nil => simp only [List.nil_append, List.cons_append, List.cons.injEq] at e
               exact absurd (List.mem_cons.mpr (.inl e.1.symm)) h
      | cons x a' =>
        simp only [List.cons_append, List.cons.injEq] at e
        obtain ⟨i1, i2⟩ := ih b a' b' (fun h0 => h (by simp [h0])) (fun h0 => h' (by simp [h0])) e.2
        exact ⟨by rw [e.1, i1], i2⟩
  obtain ⟨k1, k2⟩ := key _ _ _ _ (hb _) (hb _) h2
  have k2 := List.append_cancel_right k2
  obtain ⟨x, y⟩ := z
  obtain ⟨x', y'⟩ := z'
  have e1 : x = x' := hd (String.toList_inj.mp k1)
  have e2 : y = y' := hd (String.toList_inj.mp k2)
  rw [e1, e2]

example : (Mat.fromBody [1, 2, 3, 4] (2, 2) : Mat Nat).display (fun l => toString l)
    (fun s => s!"[{s.1}, {s.2}]") = some "[1, 2]\n[3, 4]\nshape: [2, 2], capacity: [2, 2]" := by
  decide +kernel

end Renplex
