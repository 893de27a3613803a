import Verif.Model.Tests
import Verif.Spec.Tests
import Verif.Props.Mnist
import Verif.Props.Signal
import Verif.Props.MatrixMore
import Mathlib.Analysis.SpecialFunctions.Complex.Arctan
import Mathlib.Tactic.FinCases
/-!
# The crate's own test programs (C99)
-/

namespace Renplex
namespace Tests
open Mnist

theorem map_table28 {R : Type} (l : List UInt8) (g : Nat → R) (h : l.length = 784) :
    (l.map fun b => g b.toNat) = table 28 28 fun i j => g (l.getD (28 * i + j) 0).toNat := by
  apply List.ext_getElem?
  intro n
  by_cases hn : n < 784
  · have e : n / 28 * 28 + n % 28 = n := Nat.div_add_mod' n 28
    have := table_getElem? 28 28 (fun i j => g (l.getD (28 * i + j) 0).toNat)
      (show n / 28 < 28 by omega) (show n % 28 < 28 by omega)
    rw [e] at this
    rw [this, List.getElem?_map, List.getElem?_eq_getElem (by omega), List.getD_eq_getElem?_getD,
      show 28 * (n / 28) + n % 28 = n by omega, List.getElem?_eq_getElem (by omega)]
    rfl
  · rw [List.getElem?_eq_none (by simp; omega), List.getElem?_eq_none (by rw [table_length]; omega)]

section any
variable {R : Type} [Scalar R]

/-- Reading and picking, in any arithmetic: record 58. -/
theorem image_ok {hi hl : List UInt8} (h1 : hi.length = 16) (h2 : hl.length = 8)
    {recs : List Record} (hw : ∀ r ∈ recs, r.WF) (hn : 100 ≤ recs.length) :
    ∃ m : Mat R, image (files hi hl recs) = some m ∧ m.Is 28 28
      (pixelOf (fun b => Scalar.div (Scalar.ofNat b) (Scalar.ofNat 255)) (recs[58]'(by omega))) := by
  obtain ⟨ds, s, hc, hp, -, -⟩ := history (α := R)
    (pixel := fun b => BasicOps.div (RealOps.ofUsize b) (RealOps.ofUsize 255))
    (hot := fun l => genPred RealOps.runit degree l >>= unwrap)
    (p := fun b => Scalar.div (Scalar.ofNat b) (Scalar.ofNat 255))
    (z := BasicOps.zero) (o := BasicOps.addAssign BasicOps.zero RealOps.runit)
    (fun b _ => rfl) (fun l hl => by rw [degree, (C59_partial _ 10 l).1 hl]; rfl)
    h1 h2 hw [100] (by simpa [advance] using hn)
  simp only [calls] at hc
  cases hb : asBatch (P := R) 100 (files hi hl recs) with
  | none =>
    have : readBatch (fun b => BasicOps.div (RealOps.ofUsize b : R) (RealOps.ofUsize 255))
      (fun l => genPred RealOps.runit degree l >>= unwrap) 100 (files hi hl recs) = none := hb
    rw [this] at hc
    simp at hc
  | some q =>
    obtain ⟨d, s'⟩ := q
    have : readBatch (fun b => BasicOps.div (RealOps.ofUsize b : R) (RealOps.ofUsize 255))
      (fun l => genPred RealOps.runit degree l >>= unwrap) 100 (files hi hl recs)
        = some (d, s') := hb
    rw [this] at hc
    simp only [Option.bind_eq_bind, Option.bind_some, Option.some.injEq, Prod.mk.injEq] at hc
    rw [← hc.1] at hp
    have h58 : d.points[58]? = some ((recs[58]'(by omega)).point
        (fun b => Scalar.div (Scalar.ofNat b) (Scalar.ofNat 255)) BasicOps.zero
        (BasicOps.addAssign BasicOps.zero RealOps.runit)) := by
      rw [List.flatMap_singleton] at hp
      rw [hp]
      simp [advance, List.getElem?_eq_getElem (show 58 < recs.length by omega)]
    have hz := List.getElem?_zip_eq_some.mp h58
    refine ⟨⟨(recs[58]'(by omega)).image.map fun b =>
      Scalar.div (Scalar.ofNat b.toNat) (Scalar.ofNat 255), (28, 28), (28, 28)⟩, ?_, rfl, ?_⟩
    · unfold image
      rw [hb]
      simp only [Option.bind_eq_bind, Option.bind_some, Dataset.getPoint, hz.1, hz.2, Record.point]
      rfl
    · have hlen := (hw (recs[58]'(by omega)) (List.getElem_mem _)).1
      exact map_table28 _ (fun b => Scalar.div (Scalar.ofNat b) (Scalar.ofNat 255)) hlen

/-- Entry `(i, j)` of a list of nine. -/
theorem is33 {α : Type} (a b c d e f g h i : α) :
    (Mat.fromBody [a, b, c, d, e, f, g, h, i] (3, 3)).Is 3 3
      fun x y => ([a, b, c, d, e, f, g, h, i][3 * x + y]?).getD a := ⟨rfl, rfl⟩

/-- The value of an exported matrix never depends on whether a file can be written: it always can. -/
theorem toCsv_ok {α : Type} (disp : α → String) {m : Mat α} {r c : Nat} {A : Nat → Nat → α}
    (h : m.Is r c A) (hc : 0 < c) : ∃ t, m.toCsv disp = some t := by
  unfold Mat.toCsv
  rw [h.1, h.2]
  simp only [chunks_table r c A hc]
  exact ⟨_, rfl⟩

/-- The filtered images, in any arithmetic. -/
theorem sobel_is {m : Mat R} {f : Nat → Nat → R} (hm : m.Is 28 28 f) :
    ∃ gx gy : Nat → Nat → R, ∃ a b, m.convolution kernelX = some (.ok a)
      ∧ m.convolution kernelY = some (.ok b) ∧ a.Is 26 26 gx ∧ b.Is 26 26 gy
      ∧ sobel m = some (Mat.fromBody (table 26 26 fun i j => modulus (gx i j) (gy i j)) (26, 26),
        Mat.fromBody (table 26 26 fun i j =>
          (Cf.new (modulus (gx i j) (gy i j)) (phase (gx i j) (gy i j)) : Cf .w32 R)) (26, 26)) := by
  have ex := convolution_is hm (is33 _ _ _ _ _ _ _ _ _) (by omega) (by omega) (by omega) (by omega)
    (k := (kernelX : Mat R))
  have ey := convolution_is hm (is33 _ _ _ _ _ _ _ _ _) (by omega) (by omega) (by omega) (by omega)
    (k := (kernelY : Mat R))
  refine ⟨_, _, _, _, ex, ey, ⟨rfl, rfl⟩, ⟨rfl, rfl⟩, ?_⟩
  unfold sobel
  rw [ex, ey]
  simp only [Option.bind_eq_bind, Option.bind_some, unwrap, Mat.getBody, Mat.fromBody,
    List.zip]
  rw [table_zipWith, table_map, table_map]

theorem average_eq (l : List R) :
    average l = some (Scalar.div (l.foldl Scalar.add Scalar.zero) (Scalar.ofNat l.length)) := rfl

/-- Pooling and up-sampling, in any arithmetic. -/
theorem poolUp_is {m : Mat R} {f : Nat → Nat → R} (hm : m.Is 28 28 f) :
    ∃ a b, poolUp m = some (a, b)
      ∧ a.Is 14 14 (fun i j => Scalar.div ((table 2 2 fun x y => f (i * 2 + x) (j * 2 + y)).foldl
          Scalar.add Scalar.zero) (Scalar.ofNat 4))
      ∧ b.Is 28 28 (corr 3 3 (padded 28 28 1 1 (spread 2 2 0 0 fun i j =>
          Scalar.div ((table 2 2 fun x y => f (i * 2 + x) (j * 2 + y)).foldl
            Scalar.add Scalar.zero) (Scalar.ofNat 4)))
          fun x y => ([Scalar.lit 25 100, Scalar.lit 5 10, Scalar.lit 25 100, Scalar.lit 5 10,
            Scalar.lit 1 1, Scalar.lit 5 10, Scalar.lit 25 100, Scalar.lit 5 10,
            Scalar.lit 25 100][3 * x + y]?).getD (Scalar.lit 25 100)) := by
  obtain ⟨a, ha, hai⟩ := C15_blockReduce (nr := 14) (nc := 14) (p := 2) (q := 2) hm (by omega)
    (by omega) (by omega) (by omega) average (h := fun i j =>
      Scalar.div ((table 2 2 fun x y => f (i * 2 + x) (j * 2 + y)).foldl
          Scalar.add Scalar.zero) (Scalar.ofNat 4)) (fun i _ j _ => rfl)
  obtain ⟨b, -, -, hb, hbi⟩ := C16_partial (p := 2) (q := 2) (k := (kernelUp : Mat R)) hai
    (is33 _ _ _ _ _ _ _ _ _) (by omega) (by omega) (by omega) (by omega) (by omega)
  refine ⟨a, b, ?_, hai, hbi⟩
  unfold poolUp
  rw [ha]
  simp only [Option.bind_eq_bind, Option.bind_some, unwrap, hb]

end any

/-! ## Exact arithmetic -/

theorem gradX_eq (f : Nat → Nat → ℝ) (i j : Nat) :
    corr 3 3 f (fun x y => ([Scalar.lit 1 1, Scalar.zero, Scalar.lit (-1) 1, Scalar.lit 2 1,
      Scalar.zero, Scalar.lit (-2) 1, Scalar.lit 1 1, Scalar.zero,
      Scalar.lit (-1) 1][3 * x + y]?).getD (Scalar.lit 1 1)) i j = gradX f i j := by
  rw [corr_sum]
  simp [Finset.sum_range_succ, gradX]
  ring

theorem gradY_eq (f : Nat → Nat → ℝ) (i j : Nat) :
    corr 3 3 f (fun x y => ([Scalar.lit 1 1, Scalar.lit 2 1, Scalar.lit 1 1, Scalar.zero,
      Scalar.zero, Scalar.zero, Scalar.lit (-1) 1, Scalar.lit (-2) 1,
      Scalar.lit (-1) 1][3 * x + y]?).getD (Scalar.lit 1 1)) i j = gradY f i j := by
  rw [corr_sum]
  simp [Finset.sum_range_succ, gradY]
  ring

theorem mean2_eq (f : Nat → Nat → ℝ) (i j : Nat) :
    Scalar.div ((table 2 2 fun x y => f (i * 2 + x) (j * 2 + y)).foldl Scalar.add Scalar.zero)
      (Scalar.ofNat 4) = mean2 f i j := by
  simp [table, List.range_succ, mean2, Nat.mul_comm]

theorem spread_eq (p : Nat → Nat → ℝ) (u v : Nat) :
    padded 28 28 1 1 (spread 2 2 0 0 p) u v
      = if u % 2 = 1 ∧ v % 2 = 1 then inside 14 p (u / 2) (v / 2) else 0 := by
  have hz : (BasicOps.zero : ℝ) = 0 := LawfulOps.zero_eq
  unfold padded spread inside
  rw [hz]
  by_cases h : u % 2 = 1 ∧ v % 2 = 1
  · rw [if_pos h]
    have e1 : (u - 1) / 2 = u / 2 := by omega
    have e2 : (v - 1) / 2 = v / 2 := by omega
    rw [e1, e2, if_pos (show (u - 1) % 2 = 0 ∧ (v - 1) % 2 = 0 by omega)]
    exact if_congr (by omega) rfl rfl
  · rw [if_neg h]
    split
    · rw [if_neg (by omega)]
    · rfl

theorem upsample_eq (p : Nat → Nat → ℝ) (i j : Nat) :
    corr 3 3 (padded 28 28 1 1 (spread 2 2 0 0 p))
      (fun x y => ([Scalar.lit 25 100, Scalar.lit 5 10, Scalar.lit 25 100, Scalar.lit 5 10,
            Scalar.lit 1 1, Scalar.lit 5 10, Scalar.lit 25 100, Scalar.lit 5 10,
            Scalar.lit 25 100][3 * x + y]?).getD (Scalar.lit 25 100)) i j
      = bilinear (inside 14 p) i j := by
  rw [corr_sum]
  obtain ⟨x, a, ha, rfl⟩ : ∃ x a, a < 2 ∧ i = 2 * x + a := ⟨i / 2, i % 2, by omega, by omega⟩
  obtain ⟨y, b, hb, rfl⟩ : ∃ y b, b < 2 ∧ j = 2 * y + b := ⟨j / 2, j % 2, by omega, by omega⟩
  simp only [Finset.sum_range_succ, Finset.sum_range_zero, spread_eq, bilinear]
  interval_cases a <;> interval_cases b <;>
    simp [Nat.mul_add_mod, Nat.mul_add_div, add_assoc] <;> ring

theorem display_ok {α : Type} (rowFmt : List α → String) (arrFmt : Nat × Nat → String) {m : Mat α}
    {r c : Nat} {A : Nat → Nat → α} (h : m.Is r c A) (hc : 0 < c) :
    ∃ t, m.display rowFmt arrFmt = some t := by
  unfold Mat.display
  rw [h.1, h.2]
  simp only [chunks_table r c A hc]
  exact ⟨_, rfl⟩

theorem sobel_exact {m : Mat ℝ} {f : Nat → Nat → ℝ} (hm : m.Is 28 28 f) :
    ∃ a b, sobel m = some (a, b)
      ∧ a.Is 26 26 (fun i j => modulus (gradX f i j) (gradY f i j))
      ∧ b.Is 26 26 (fun i j => Cf.new (modulus (gradX f i j) (gradY f i j))
          (phase (gradX f i j) (gradY f i j))) := by
  have ex := convolution_is hm (is33 _ _ _ _ _ _ _ _ _) (by omega) (by omega) (by omega) (by omega)
    (k := (kernelX : Mat ℝ))
  have ey := convolution_is hm (is33 _ _ _ _ _ _ _ _ _) (by omega) (by omega) (by omega) (by omega)
    (k := (kernelY : Mat ℝ))
  obtain ⟨gx, gy, a, b, e1, e2, ha, hb, e3⟩ := sobel_is hm
  have hgx : table 26 26 gx = table 26 26 (gradX f) := by
    rw [ex] at e1
    simp only [Option.some.injEq, Except.ok.injEq] at e1
    rw [← ha.2, ← e1]
    exact table_congr fun i _ j _ => gradX_eq f i j
  have hgy : table 26 26 gy = table 26 26 (gradY f) := by
    rw [ey] at e2
    simp only [Option.some.injEq, Except.ok.injEq] at e2
    rw [← hb.2, ← e2]
    exact table_congr fun i _ j _ => gradY_eq f i j
  refine ⟨_, _, e3, ⟨rfl, ?_⟩, ⟨rfl, ?_⟩⟩
  · simp only [Mat.fromBody]
    rw [← table_zipWith 26 26 gx gy modulus, ← table_zipWith 26 26 (gradX f) (gradY f) modulus, hgx,
      hgy]
  · simp only [Mat.fromBody]
    rw [← table_zipWith 26 26 gx gy fun x y => (Cf.new (modulus x y) (phase x y) : Cf .w32 ℝ),
      ← table_zipWith 26 26 (gradX f) (gradY f) fun x y =>
        (Cf.new (modulus x y) (phase x y) : Cf .w32 ℝ), hgx, hgy]

theorem modulus_eq (x y : ℝ) : modulus x y = √(x ^ 2 + y ^ 2) := rfl

/-- The Sobel modulus of pixels between 0 and 1 is at most `√20`. -/
theorem modulus_le {f : Nat → Nat → ℝ} (hf : ∀ i j, 0 ≤ f i j ∧ f i j ≤ 1) (i j : Nat) :
    gradX f i j ^ 2 + gradY f i j ^ 2 ≤ 20 := by
  obtain ⟨P, hP⟩ : ∃ P, P = f i j - f (i + 2) (j + 2) := ⟨_, rfl⟩
  obtain ⟨Q, hQ⟩ : ∃ Q, Q = f i (j + 2) - f (i + 2) j := ⟨_, rfl⟩
  obtain ⟨D, hD⟩ : ∃ D, D = f (i + 1) j - f (i + 1) (j + 2) := ⟨_, rfl⟩
  obtain ⟨B, hB⟩ : ∃ B, B = f i (j + 1) - f (i + 2) (j + 1) := ⟨_, rfl⟩
  have hx : gradX f i j = P - Q + 2 * D := by rw [gradX, hP, hQ, hD]; ring
  have hy : gradY f i j = P + Q + 2 * B := by rw [gradY, hP, hQ, hB]; ring
  have bound : ∀ a b c d, |f a b - f c d| ≤ 1 := fun a b c d => by
    have h1 := hf a b
    have h2 := hf c d
    rw [abs_le]; constructor <;> linarith
  have pP : |P| ≤ 1 := hP ▸ bound _ _ _ _
  have pQ : |Q| ≤ 1 := hQ ▸ bound _ _ _ _
  have pD : |D| ≤ 1 := hD ▸ bound _ _ _ _
  have pB : |B| ≤ 1 := hB ▸ bound _ _ _ _
  have sq : ∀ x : ℝ, |x| ≤ 1 → x ^ 2 ≤ 1 := fun x hx => by
    rw [← sq_abs]; nlinarith [abs_nonneg x]
  have m1 : D * (P - Q) ≤ |P - Q| := by
    calc D * (P - Q) ≤ |D * (P - Q)| := le_abs_self _
      _ = |D| * |P - Q| := abs_mul _ _
      _ ≤ |P - Q| := by nlinarith [abs_nonneg (P - Q)]
  have m2 : B * (P + Q) ≤ |P + Q| := by
    calc B * (P + Q) ≤ |B * (P + Q)| := le_abs_self _
      _ = |B| * |P + Q| := abs_mul _ _
      _ ≤ |P + Q| := by nlinarith [abs_nonneg (P + Q)]
  have m3 : |P - Q| + |P + Q| ≤ 2 := by
    rw [abs_le] at pP pQ
    rcases abs_cases (P - Q) with h | h <;> rcases abs_cases (P + Q) with h' | h' <;> linarith
  rw [hx, hy]
  nlinarith [sq P pP, sq Q pQ, sq D pD, sq B pB]

theorem good_list {n : Nat} {thr : ℝ} (ps : List (IOType (Cf .w32 ℝ) × IOType (Cf .w32 ℝ)))
    (h : ∀ p ∈ ps, Signal.GoodPoint n thr p) :
    ∃ qs : List (List (Cf .w32 ℝ) × List (Cf .w32 ℝ)),
      ps = qs.map (fun p => (IOType.scalar p.1, IOType.scalar p.2))
      ∧ ∀ p ∈ qs, p.1.length = n ∧ CleanSignal n p.2 := by
  induction ps with
  | nil => exact ⟨[], rfl, by simp⟩
  | cons p ps ih =>
    obtain ⟨qs, e, hq⟩ := ih fun p hp => h p (by simp [hp])
    obtain ⟨x, y, rfl, h1, h2, -⟩ := h p (by simp)
    refine ⟨(x, y) :: qs, by rw [e]; rfl, fun q hm => ?_⟩
    rcases List.mem_cons.mp hm with rfl | hm
    · exact ⟨h1, h2⟩
    · exact hq q hm

end Tests

open Tests

/-- C99. `matrix_add` prints the doubled matrix and then the same with 2 added. -/
theorem C99_add (rowFmt : List ℝ → String) (arrFmt : Nat × Nat → String) :
    ∃ t1 t2, matrixAdd rowFmt arrFmt = some [t1, t2]
      ∧ (Mat.fromBody (table 4 4 fun i _ => 2 * ((i : ℝ) + 1)) (4, 4)).display rowFmt arrFmt = some t1
      ∧ (Mat.fromBody (table 4 4 fun i _ => 2 * ((i : ℝ) + 1) + 2) (4, 4)).display rowFmt arrFmt
        = some t2 := by
  have e1 : (fours : Mat ℝ).addMut fours
      = .ok (Mat.fromBody (table 4 4 fun i _ => 2 * ((i : ℝ) + 1)) (4, 4)) := by
    simp [fours, Mat.addMut, Mat.isEmpty, Mat.fromBody, zipUpd, table, List.range_succ, BasicOps.addAssign]
    norm_num
  have e2 : (Mat.fromBody (table 4 4 fun i _ => 2 * ((i : ℝ) + 1)) (4, 4)).addMutScalar
      (Scalar.lit 2 1) = Mat.fromBody (table 4 4 fun i _ => 2 * ((i : ℝ) + 1) + 2) (4, 4) := by
    simp [Mat.addMutScalar, Mat.fromBody, table, List.range_succ, BasicOps.addAssign]
  obtain ⟨t1, h1⟩ := display_ok rowFmt arrFmt
    (Mat.fromBody_is 4 4 fun i _ => 2 * ((i : ℝ) + 1)) (by omega)
  obtain ⟨t2, h2⟩ := display_ok rowFmt arrFmt
    (Mat.fromBody_is 4 4 fun i _ => 2 * ((i : ℝ) + 1) + 2) (by omega)
  refine ⟨t1, t2, ?_, h1, h2⟩
  unfold matrixAdd
  rw [e1]
  simp only [unwrap, Option.bind_eq_bind, Option.bind_some, h1, e2, h2]

/-- C99. `matrix_mul` prints the doubled matrix, the matrix itself (halving undoes doubling), and
twice the product with `[1, 2, 0]`. -/
theorem C99_mul (rowFmt : List ℝ → String) (arrFmt : Nat × Nat → String) :
    ∃ t1 t2, matrixMul rowFmt arrFmt
        = some [t1, t2, rowFmt [4, 23 / 2, 113 / 10], rowFmt [4, 23 / 2, 113 / 10]]
      ∧ (Mat.fromBody [4, 2, 12 / 5, 3, 10, 2, 93 / 5, 2, 0] (3, 3)).display rowFmt arrFmt = some t1
      ∧ (Mat.fromBody [2, 1, 6 / 5, 3 / 2, 5, 1, 93 / 10, 1, 0] (3, 3)).display rowFmt arrFmt
        = some t2 := by
  have e1 : (threes : Mat ℝ).mulScalar (Scalar.lit 2 1)
      = Mat.fromBody [4, 2, 12 / 5, 3, 10, 2, 93 / 5, 2, 0] (3, 3) := by
    simp [threes, Mat.mulScalar, mulMutScalar, Mat.fromBody, BasicOps.mulAssign]
    norm_num
  have e2 : (Mat.fromBody [4, 2, 12 / 5, 3, 10, 2, 93 / 5, 2, 0] (3, 3) : Mat ℝ).divScalar
      (Scalar.lit 2 1) = some (Mat.fromBody [2, 1, 6 / 5, 3 / 2, 5, 1, 93 / 10, 1, 0] (3, 3)) := by
    simp [Mat.divScalar, divMutScalar, Mat.fromBody, BasicOps.divAssign]
    norm_num
  have e3 : (Mat.fromBody [2, 1, 6 / 5, 3 / 2, 5, 1, 93 / 10, 1, 0] (3, 3) : Mat ℝ).mulSlice
      [Scalar.lit 1 1, Scalar.lit 2 1, Scalar.zero] = some (.ok [4, 23 / 2, 113 / 10]) := by
    simp [Mat.mulSlice, Mat.rowsAsIter, Mat.fromBody, chunks, chunksPos, chunksAux, BasicOps.add, BasicOps.mul]
    norm_num
  obtain ⟨t1, h1⟩ := display_ok rowFmt arrFmt
    (is33 (4 : ℝ) 2 (12 / 5) 3 10 2 (93 / 5) 2 0) (by omega)
  obtain ⟨t2, h2⟩ := display_ok rowFmt arrFmt
    (is33 (2 : ℝ) 1 (6 / 5) (3 / 2) 5 1 (93 / 10) 1 0) (by omega)
  refine ⟨t1, t2, ?_, h1, h2⟩
  unfold matrixMul
  simp only [unwrap, Option.bind_eq_bind, Option.bind_some, e1, h1, e2, h2, e3]

/-- C99. The vectors and the scalar product of `vec_add`. -/
theorem C99_vectors : (vecAdd : Run (List (List ℝ) × ℝ)) = some
    ([[3, 3, 5], [4, 5, 8], [8, 10, 16], [16, 5, 48], [8, 10, 1998 / 125]], 10) := by
  simp [vecAdd, addSliceMut, addSlice, mulSliceMut, mulSliceElt, mulMutScalar, scalarProd, unwrap,
    zipUpd, BasicOps.add, BasicOps.mul, BasicOps.addAssign, BasicOps.mulAssign]
  norm_num

/-- C99. The angles of `atan_test` and the numbers of `hyper_tan`. -/
theorem C99_angles : (atanTest : ℝ × ℝ) = (-(Real.pi / 4), -(3 * Real.pi / 4))
    ∧ (hyperTan : ℝ × Cf .w32 ℝ) = (Real.tanh 1000000000, ⟨50, 50 * √3⟩) := by
  refine ⟨Prod.ext ?_ ?_, Prod.ext ?_ (Cf.ext ?_ ?_)⟩
  · simp [atanTest]
  · have h := Complex.arg_mul_cos_add_sin_mul_I (r := √2) (θ := -(3 * Real.pi / 4)) (by positivity)
      ⟨by linarith [Real.pi_pos], by linarith [Real.pi_pos]⟩
    have e1 : Real.cos (-(3 * Real.pi / 4)) = -(√2 / 2) := by
      rw [Real.cos_neg, show 3 * Real.pi / 4 = Real.pi - Real.pi / 4 by ring, Real.cos_pi_sub,
        Real.cos_pi_div_four]
    have e2 : Real.sin (-(3 * Real.pi / 4)) = -(√2 / 2) := by
      rw [Real.sin_neg, show 3 * Real.pi / 4 = Real.pi - Real.pi / 4 by ring, Real.sin_pi_sub,
        Real.sin_pi_div_four]
    rw [← Complex.ofReal_cos, ← Complex.ofReal_sin, e1, e2] at h
    rw [← h]
    simp only [atanTest, satan2]
    congr 1
    have hs : √2 * √2 = (2 : ℝ) := Real.mul_self_sqrt (by norm_num)
    apply Complex.ext <;> simp <;> linarith
  · simp [hyperTan]
  · simp [hyperTan, Cf.newe]; norm_num
  · simp [hyperTan, Cf.newe]; ring

/-- C99. In every arithmetic the image tests run to their end on files with at least 100 records, and
the matrix tests always do. -/
theorem C99_runs {R : Type} [Scalar R] (rowFmt : List R → String) (arrFmt : Nat × Nat → String)
    (disp : R → String) {hi hl : List UInt8} (h1 : hi.length = 16) (h2 : hl.length = 8)
    {recs : List Mnist.Record} (hw : ∀ r ∈ recs, r.WF) (hn : 100 ≤ recs.length) :
    (∃ o, matrixAdd rowFmt arrFmt = some o) ∧ (∃ o, matrixMul rowFmt arrFmt = some o)
      ∧ (∃ o, (vecAdd : Run (List (List R) × R)) = some o)
      ∧ (∃ o, imageConv disp (Mnist.files hi hl recs) = some o)
      ∧ ∃ o, imagePool disp (Mnist.files hi hl recs) = some o := by
  obtain ⟨m, hm, hI⟩ := image_ok (R := R) h1 h2 hw hn
  refine ⟨⟨_, rfl⟩, ⟨_, rfl⟩, ⟨_, rfl⟩, ?_, ?_⟩
  · obtain ⟨gx, gy, -, -, -, -, -, -, e⟩ := sobel_is hI
    obtain ⟨t0, e0⟩ := toCsv_ok disp hI (by omega)
    obtain ⟨t1, e1⟩ := toCsv_ok disp (Mat.fromBody_is 26 26 fun i j => modulus (gx i j) (gy i j))
      (by omega)
    obtain ⟨t2, e2⟩ := toCsv_ok (Cf.display disp) (Mat.fromBody_is 26 26 fun i j =>
      (Cf.new (modulus (gx i j) (gy i j)) (phase (gx i j) (gy i j)) : Cf .w32 R)) (by omega)
    refine ⟨[("./out/conv_tests/original.csv", t0), ("./out/conv_tests/conv_sobel.csv", t1),
      ("./out/conv_tests/conv_csobel.csv", t2)], ?_⟩
    unfold imageConv
    rw [hm]
    simp only [Option.bind_eq_bind, Option.bind_some, e0, e, e1, e2]
  · obtain ⟨a, b, e, ha, hb⟩ := poolUp_is hI
    obtain ⟨t0, e0⟩ := toCsv_ok disp hI (by omega)
    obtain ⟨t1, e1⟩ := toCsv_ok disp ha (by omega)
    obtain ⟨t2, e2⟩ := toCsv_ok disp hb (by omega)
    refine ⟨[("./out/conv_tests/original.csv", t0), ("./out/conv_tests/avg_pool.csv", t1),
      ("./out/conv_tests/avg_pool_upsampled.csv", t2)], ?_⟩
    unfold imagePool
    rw [hm]
    simp only [Option.bind_eq_bind, Option.bind_some, e0, e, e1, e2]

/-- C99, the part that holds. The edge filter of `image_conv_test`, for every 28 × 28 image: the first
result holds the moduli of the gradients, the second modulus and phase, and the phase is right wherever
the horizontal part is not zero or the vertical part is (missing: vertical gradients, see
`C99_refuted_phase`). -/
theorem C99_partial_sobel {m : Mat ℝ} {f : Nat → Nat → ℝ} (hm : m.Is 28 28 f) :
    ∃ a b, sobel m = some (a, b)
      ∧ a.Is 26 26 (fun i j => ‖(⟨gradX f i j, gradY f i j⟩ : ℂ)‖)
      ∧ ∃ F : Nat → Nat → Cf .w32 ℝ, b.Is 26 26 F
        ∧ (∀ i j, (F i j).x = ‖(⟨gradX f i j, gradY f i j⟩ : ℂ)‖)
        ∧ ∀ i j, (gradX f i j ≠ 0 ∨ gradY f i j = 0 →
          (F i j).x * Complex.exp ((F i j).y * Complex.I) = ⟨gradX f i j, gradY f i j⟩) := by
  obtain ⟨a, b, e, ha, hb⟩ := sobel_exact hm
  have hn : ∀ x y : ℝ, modulus x y = ‖(⟨x, y⟩ : ℂ)‖ := fun x y => by
    rw [modulus_eq, Complex.norm_eq_sqrt_sq_add_sq]
  simp only [hn] at ha hb
  refine ⟨a, b, e, ha, _, hb, fun i j => rfl, fun i j h => ?_⟩
  simp only [Cf.new]
  by_cases hx : gradX f i j = 0
  · have hy : gradY f i j = 0 := by tauto
    rw [hx, hy]
    have : (⟨0, 0⟩ : ℂ) = 0 := rfl
    simp [this]
  · have : phase (gradX f i j) (gradY f i j) = Complex.arg ⟨gradX f i j, gradY f i j⟩ := by
      simp [phase, hx]
    rw [this, Complex.norm_mul_exp_arg_mul_I]

/-- C99 is false where the gradient is vertical: its direction is stored as `π`, that is, as pointing to
the left. -/
theorem C99_refuted_phase {m : Mat ℝ} {f : Nat → Nat → ℝ} (hm : m.Is 28 28 f) (i j : Nat)
    (hx : gradX f i j = 0) (hy : gradY f i j ≠ 0) :
    ∃ a b, sobel m = some (a, b) ∧ ∃ F : Nat → Nat → Cf .w32 ℝ, b.Is 26 26 F
      ∧ (F i j).y = Real.pi
      ∧ (F i j).x * Complex.exp ((F i j).y * Complex.I) = ⟨-|gradY f i j|, 0⟩
      ∧ (F i j).x * Complex.exp ((F i j).y * Complex.I) ≠ ⟨gradX f i j, gradY f i j⟩ := by
  obtain ⟨a, b, e, ha, hb⟩ := sobel_exact hm
  have hp : phase (gradX f i j) (gradY f i j) = Real.pi := by simp [phase, hx]
  have hv : (Cf.new (modulus (gradX f i j) (gradY f i j)) (phase (gradX f i j) (gradY f i j)) :
      Cf .w32 ℝ).x * Complex.exp ((Cf.new (modulus (gradX f i j) (gradY f i j))
        (phase (gradX f i j) (gradY f i j)) : Cf .w32 ℝ).y * Complex.I) = ⟨-|gradY f i j|, 0⟩ := by
    simp only [Cf.new, hp, Complex.exp_pi_mul_I]
    apply Complex.ext <;> simp [modulus_eq, hx, Real.sqrt_sq_eq_abs]
  refine ⟨a, b, e, _, hb, hp, hv, ?_⟩
  rw [hv]
  intro h
  exact hy (congrArg Complex.im h).symm

/-- Non-vacuity of `C99_refuted_phase`: the upper edge of a dark area. -/
example : gradX (fun i _ => if i < 2 then (1 : ℝ) else 0) 0 0 = 0
    ∧ gradY (fun i _ => if i < 2 then (1 : ℝ) else 0) 0 0 = 4 := by
  norm_num [gradX, gradY]

/-- C99. On pixels between 0 and 1 the exported moduli lie between 0 and `√20`, which is reached; on a
neighbourhood of equal pixels the modulus is 0. -/
theorem C99_sobel_bounds :
    (∀ f : Nat → Nat → ℝ, (∀ i j, 0 ≤ f i j ∧ f i j ≤ 1) → ∀ i j,
      ‖(⟨gradX f i j, gradY f i j⟩ : ℂ)‖ ≤ √20)
    ∧ (∃ f : Nat → Nat → ℝ, (∀ i j, 0 ≤ f i j ∧ f i j ≤ 1)
      ∧ ‖(⟨gradX f 0 0, gradY f 0 0⟩ : ℂ)‖ = √20)
    ∧ ∀ (f : Nat → Nat → ℝ) (i j : Nat), (∀ a b, a < 3 → b < 3 → f (i + a) (j + b) = f i j) →
      ‖(⟨gradX f i j, gradY f i j⟩ : ℂ)‖ = 0 := by
  refine ⟨fun f hf i j => ?_, ?_, fun f i j h => ?_⟩
  · rw [Complex.norm_eq_sqrt_sq_add_sq]
    exact Real.sqrt_le_sqrt (modulus_le hf i j)
  · refine ⟨fun i j => if i = 0 ∨ (i = 1 ∧ j = 0) then 1 else 0, fun i j => ?_, ?_⟩
    · dsimp only
      split <;> norm_num
    · rw [Complex.norm_eq_sqrt_sq_add_sq]
      norm_num [gradX, gradY]
  · have e : ∀ a b, a < 3 → b < 3 → f (i + a) (j + b) = f i j := h
    have h00 : gradX f i j = 0 := by
      have := e 0 2; have := e 1 0; have := e 1 2; have := e 2 0; have := e 2 2
      simp_all [gradX]
    have h01 : gradY f i j = 0 := by
      have := e 0 1; have := e 0 2; have := e 2 0; have := e 2 1; have := e 2 2
      simp_all [gradY]
    rw [h00, h01, Complex.norm_eq_sqrt_sq_add_sq]
    simp

/-- C99. `image_pool_test`, for every 28 × 28 image: the means of the 2 × 2 blocks, and their bilinear
interpolation with zeros below and to the right; if all pixels lie between 0 and 1, so do all results. -/
theorem C99_pool {m : Mat ℝ} {f : Nat → Nat → ℝ} (hm : m.Is 28 28 f) :
    ∃ a b, poolUp m = some (a, b) ∧ a.Is 14 14 (mean2 f)
      ∧ b.Is 28 28 (bilinear (inside 14 (mean2 f)))
      ∧ (∀ i j, i < 14 → j < 14 → bilinear (inside 14 (mean2 f)) (2 * i) (2 * j) = mean2 f i j)
      ∧ ((∀ i j, 0 ≤ f i j ∧ f i j ≤ 1) → ∀ i j, (0 ≤ mean2 f i j ∧ mean2 f i j ≤ 1)
        ∧ 0 ≤ bilinear (inside 14 (mean2 f)) i j ∧ bilinear (inside 14 (mean2 f)) i j ≤ 1)
      ∧ ∀ v, (∀ i j, f i j = v) → ∀ i j, i < 27 → j < 27 →
        bilinear (inside 14 (mean2 f)) i j = v := by
  obtain ⟨a, b, e, ha, hb⟩ := poolUp_is hm
  have hmean : (fun i j => Scalar.div ((table 2 2 fun x y => f (i * 2 + x) (j * 2 + y)).foldl
      Scalar.add Scalar.zero) (Scalar.ofNat 4)) = mean2 f := by
    funext i j; exact mean2_eq f i j
  rw [hmean] at ha hb
  refine ⟨a, b, e, ha, ⟨hb.1, hb.2.trans (table_congr fun i _ j _ => upsample_eq _ i j)⟩,
    fun i j hi hj => ?_, fun hf i j => ?_, fun v hv i j hi hj => ?_⟩
  · have e1 : 2 * i / 2 = i := by omega
    have e2 : (2 * i + 1) / 2 = i := by omega
    have e3 : 2 * j / 2 = j := by omega
    have e4 : (2 * j + 1) / 2 = j := by omega
    simp only [bilinear, e1, e2, e3, e4, inside, if_pos (And.intro hi hj)]
    ring
  · have hmn : ∀ i j, 0 ≤ mean2 f i j ∧ mean2 f i j ≤ 1 := fun i j => by
      have h1 := hf (2 * i) (2 * j)
      have h2 := hf (2 * i) (2 * j + 1)
      have h3 := hf (2 * i + 1) (2 * j)
      have h4 := hf (2 * i + 1) (2 * j + 1)
      unfold mean2
      constructor <;> linarith
    have hin : ∀ i j, 0 ≤ inside 14 (mean2 f) i j ∧ inside 14 (mean2 f) i j ≤ 1 := fun i j => by
      unfold inside
      split
      · exact hmn i j
      · norm_num
    refine ⟨hmn i j, ?_⟩
    have h1 := hin (i / 2) (j / 2)
    have h2 := hin ((i + 1) / 2) (j / 2)
    have h3 := hin (i / 2) ((j + 1) / 2)
    have h4 := hin ((i + 1) / 2) ((j + 1) / 2)
    unfold bilinear
    constructor <;> linarith
  · have hmn : ∀ i j, mean2 f i j = v := fun i j => by simp only [mean2, hv]; ring
    simp only [bilinear, inside, hmn]
    rw [if_pos (by omega), if_pos (by omega), if_pos (by omega), if_pos (by omega)]
    ring

/-- C99. What the files of the two image tests contain, for data files with at least 100 records: the
picture of record 58, its pixels divided by 255, and the results for it. -/
theorem C99_files (disp : ℝ → String) (hd : ∀ x, CellText (disp x)) {hi hl : List UInt8}
    (h1 : hi.length = 16) (h2 : hl.length = 8) {recs : List Mnist.Record} (hw : ∀ r ∈ recs, r.WF)
    (hn : 100 ≤ recs.length) :
    ∃ (f : Nat → Nat → ℝ) (t0 t1 t2 t3 t4 : String),
      f = pixelOf (fun b => (b : ℝ) / 255) (recs[58]'(by omega))
      ∧ imageConv disp (Mnist.files hi hl recs) = some [("./out/conv_tests/original.csv", t0),
        ("./out/conv_tests/conv_sobel.csv", t1), ("./out/conv_tests/conv_csobel.csv", t2)]
      ∧ imagePool disp (Mnist.files hi hl recs) = some [("./out/conv_tests/original.csv", t0),
        ("./out/conv_tests/avg_pool.csv", t3), ("./out/conv_tests/avg_pool_upsampled.csv", t4)]
      ∧ csvCells t0 = ((List.range 28).map fun i => ((List.range 28).map fun j => disp (f i j))
        ++ [""]) ++ [[""]]
      ∧ csvCells t1 = ((List.range 26).map fun i => ((List.range 26).map fun j =>
          disp (modulus (gradX f i j) (gradY f i j))) ++ [""]) ++ [[""]]
      ∧ csvCells t2 = ((List.range 26).map fun i => ((List.range 26).map fun j =>
          "[" ++ disp (modulus (gradX f i j) (gradY f i j)) ++ " "
            ++ disp (phase (gradX f i j) (gradY f i j)) ++ "]") ++ [""]) ++ [[""]]
      ∧ csvCells t3 = ((List.range 14).map fun i => ((List.range 14).map fun j =>
          disp (mean2 f i j)) ++ [""]) ++ [[""]]
      ∧ csvCells t4 = ((List.range 28).map fun i => ((List.range 28).map fun j =>
          disp (bilinear (inside 14 (mean2 f)) i j)) ++ [""]) ++ [[""]] := by
  obtain ⟨m, hm, hI⟩ := image_ok (R := ℝ) h1 h2 hw hn
  have hf : pixelOf (fun b => Scalar.div (Scalar.ofNat b) (Scalar.ofNat 255)) (recs[58]'(by omega))
      = pixelOf (fun b => (b : ℝ) / 255) (recs[58]'(by omega)) := by
    simp [pixelOf]
  rw [hf] at hI
  obtain ⟨a, b, e, ha, hb⟩ := sobel_exact hI
  obtain ⟨c, d, e', hc, hd', -⟩ := C99_pool hI
  have hcd : ∀ z : Cf .w32 ℝ, CellText (Cf.display disp z) := fun z => by
    have hx := hd z.x
    have hy := hd z.y
    simp only [CellText] at hx hy
    simp [CellText, Cf.display, hx.1, hx.2, hy.1, hy.2]
  obtain ⟨t0, e0, c0⟩ := C62_matrix_partial disp hI (by omega) fun _ _ _ _ => hd _
  obtain ⟨t1, e1, c1⟩ := C62_matrix_partial disp ha (by omega) fun _ _ _ _ => hd _
  obtain ⟨t2, e2, c2⟩ := C62_matrix_partial (Cf.display disp) hb (by omega) fun _ _ _ _ => hcd _
  obtain ⟨t3, e3, c3⟩ := C62_matrix_partial disp hc (by omega) fun _ _ _ _ => hd _
  obtain ⟨t4, e4, c4⟩ := C62_matrix_partial disp hd' (by omega) fun _ _ _ _ => hd _
  refine ⟨_, t0, t1, t2, t3, t4, rfl, ?_, ?_, c0, c1, c2, c3, c4⟩
  · unfold imageConv
    rw [hm]
    simp only [Option.bind_eq_bind, Option.bind_some, e0, e, e1, e2]
  · unfold imagePool
    rw [hm]
    simp only [Option.bind_eq_bind, Option.bind_some, e0, e', e3, e4]

/-- Non-vacuity of `C99_files` and `C99_runs`. -/
example : ∃ recs : List Mnist.Record, (∀ r ∈ recs, r.WF) ∧ 100 ≤ recs.length :=
  ⟨List.replicate 100 ⟨List.replicate 784 0, 7⟩, fun r hr => by
    rw [List.eq_of_mem_replicate hr]
    exact ⟨List.length_replicate, show (7 : UInt8).toNat < 10 by decide⟩,
    List.length_replicate.ge⟩

example : ∀ x : ℝ, CellText ((fun _ => "0.5") x) := fun _ =>
  ⟨by simp, by simp⟩

/-- C99. `signal_data` runs to its end and writes two files of 20000 lines with 1024 cells each: 512
noisy samples and the 512 samples of a clean signal. -/
theorem C99_signals (disp : ℝ → String) (hd : ∀ x, CellText (disp x)) :
    ∃ (t1 t2 : String) (p1 p2 : List (List (Cf .w32 ℝ) × List (Cf .w32 ℝ))),
      signalData disp = some [("train.csv", t1), ("test.csv", t2)]
      ∧ p1.length = 20000 ∧ p2.length = 20000
      ∧ (∀ p ∈ p1 ++ p2, p.1.length = 512 ∧ CleanSignal 512 p.2)
      ∧ csvCells t1 = (p1.map fun p => (p.1 ++ p.2).map (Cf.display disp)) ++ [[""]]
      ∧ csvCells t2 = (p2.map fun p => (p.1 ++ p.2).map (Cf.display disp)) ++ [[""]] := by
  obtain ⟨ps, pst, s, st, e, l1, l2, g1, g2⟩ := Signal.reconstruction_ok 512 rfl
    (Scalar.lit 25 1000) (200 * 100) 223895746827 4346877248692 [] []
    (by unfold Signal.Fits; norm_num) (by unfold Signal.Fits; norm_num)
  obtain ⟨p1, q1, k1⟩ := good_list ps g1
  obtain ⟨p2, q2, k2⟩ := good_list pst g2
  have hcd : ∀ z : Cf .w32 ℝ, CellText (Cf.display disp z) := fun z => by
    have hx := hd z.x
    have hy := hd z.y
    simp only [CellText] at hx hy
    simp [CellText, Cf.display, hx.1, hx.2, hy.1, hy.2]
  have hne : ∀ p : List (Cf .w32 ℝ) × List (Cf .w32 ℝ), p.1.length = 512 → p.1 ≠ [] :=
    fun p h h0 => by rw [h0] at h; simp at h
  obtain ⟨t1, e1, c1⟩ := C62_dataset (Cf.display disp) p1 (fun p hp => hne p (k1 p hp).1)
    fun _ _ _ _ => hcd _
  obtain ⟨t2, e2, c2⟩ := C62_dataset (Cf.display disp) p2 (fun p hp => hne p (k2 p hp).1)
    fun _ _ _ _ => hcd _
  refine ⟨t1, t2, p1, p2, ?_, ?_, ?_, ?_, c1, c2⟩
  · unfold signalData signals
    rw [show Dataset.new = Dataset.ofPoints ([] : List (IOType (Cf .w32 ℝ) × IOType (Cf .w32 ℝ)))
      from rfl, e]
    simp only [Option.bind_eq_bind, Option.bind_some, List.nil_append, q1, q2, e1, e2]
  · rw [q1, List.length_map] at l1; exact l1
  · rw [q2, List.length_map] at l2; exact l2
  · intro p hp
    rcases List.mem_append.mp hp with hp | hp
    · exact k1 p hp
    · exact k2 p hp

end Renplex
