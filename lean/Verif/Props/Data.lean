import Verif.Spec.Data
import Verif.Spec.Lawful
import Verif.Spec.Matrix
import Verif.Lemmas.Table
import Verif.Lemmas.Exact
import Verif.Spec.IntNet
/-!
# Data sets, one-hot vectors, CSV and input wrappers: C58, C59, C62, C63
-/

namespace Renplex
variable {α : Type}

/-! ## C58 -/

theorem Dataset.foldl_addPoint (pts : List (IOType α × IOType α)) (d : Dataset α) :
    pts.foldl Dataset.addPoint d = ⟨d.inputs ++ pts.map (·.1), d.target ++ pts.map (·.2)⟩ := by
  induction pts generalizing d with
  | nil => simp
  | cons p pts ih => rw [List.foldl_cons, ih]; simp [Dataset.addPoint]

/-- C58. A data set is the ordered list of the points added to it. -/
theorem C58_points (pts : List (IOType α × IOType α)) :
    (Dataset.ofPoints pts).nPoints = pts.length
      ∧ (Dataset.ofPoints pts).inputs = pts.map (·.1)
      ∧ (Dataset.ofPoints pts).target = pts.map (·.2)
      ∧ (Dataset.ofPoints pts).points = pts
      ∧ ∀ i, (Dataset.ofPoints pts).getPoint i = pts[i]? := by
  have h : Dataset.ofPoints pts = ⟨pts.map (·.1), pts.map (·.2)⟩ := by
    rw [Dataset.ofPoints, Dataset.foldl_addPoint]; simp [Dataset.new]
  rw [h]
  refine ⟨by simp [Dataset.nPoints], rfl, rfl, ?_, fun i => ?_⟩
  · simp [Dataset.points, List.zip_map']
  · unfold Dataset.getPoint
    rw [List.getElem?_map, List.getElem?_map]
    cases pts[i]? <;> rfl

/-- C58. An index out of range panics. -/
theorem C58_panics (pts : List (IOType α × IOType α)) (i : Nat) :
    (Dataset.ofPoints pts).getPoint i = none ↔ pts.length ≤ i := by
  rw [(C58_points pts).2.2.2.2 i, List.getElem?_eq_none_iff]

/-- C58. A further point leaves the earlier ones where they are. -/
theorem C58_add (pts : List (IOType α × IOType α)) (p : IOType α × IOType α) :
    (Dataset.ofPoints pts).addPoint p = Dataset.ofPoints (pts ++ [p]) := by
  simp [Dataset.ofPoints, List.foldl_append]

example : ∃ p q : IOType Int × IOType Int, (Dataset.ofPoints [p, q]).getPoint 1 = some q
    ∧ (Dataset.ofPoints [p, q]).getPoint 2 = none :=
  ⟨(.scalar [1], .scalar [2]), (.scalar [3], .scalar [4]), rfl, rfl⟩

/-! ## C59 -/

theorem replicate_set (n k : Nat) (z a : α) : (List.replicate n z).set k a = oneHotVec z a n k := by
  refine List.ext_getElem (by simp [oneHotVec]) fun i h1 h2 => ?_
  rw [List.getElem_set]
  simp [oneHotVec, eq_comm]

/-- C59, the part that holds. An index inside the vector gives the one-hot vector, an index beyond
`size` an error. (Missing: `k = size`, which panics, see `C59_refuted`.) -/
theorem C59_partial [BasicOps α] (one : α) (size k : Nat) :
    (k < size → genPred one size k
      = some (.ok (oneHotVec BasicOps.zero (BasicOps.addAssign BasicOps.zero one) size k)))
    ∧ (size < k → genPred one size k = some (.error .criticalIndexOverflow)) := by
  constructor
  · intro h
    have h1 : ¬ size < k := by omega
    simp only [genPred, if_neg h1, List.getElem?_replicate, if_pos h, replicate_set]
  · intro h
    rw [genPred, if_pos h]

/-- C59 is false of the code at `k = size`: the call panics instead of reporting an error. -/
theorem C59_refuted [BasicOps α] (one : α) (size : Nat) : genPred one size size = none := by
  simp [genPred]

/-- C59 for `Cf32`/`Cf64` and for the real types in exact arithmetic: the entries are 0 and 1. -/
theorem C59_partial_exact {w : Width} (size k : Nat) (h : k < size) :
    genPred (CplxOps.unit : Cf w ℝ) size k = some (.ok (oneHotVec 0 1 size k))
      ∧ genPred (RealOps.runit : ℝ) size k = some (.ok (oneHotVec 0 1 size k)) := by
  refine ⟨?_, ?_⟩
  · rw [(C59_partial _ size k).1 h]
    simp only [LawfulOps.zero_eq, LawfulOps.addAssign_eq, zero_add]
    rw [show (CplxOps.unit : Cf w ℝ) = 1 from Cf.toC_inj.mp
      (by apply Complex.ext <;> simp [CplxOps.unit, Cf.unit, Cf.toC_hom_one])]
  · rw [(C59_partial _ size k).1 h]
    simp only [LawfulOps.zero_eq, LawfulOps.addAssign_eq, zero_add]
    rw [show (RealOps.runit : ℝ) = 1 by simp [RealOps.runit]]

example : genPred (1 : Int) 4 2 = some (.ok [0, 0, 1, 0])
    ∧ genPred (1 : Int) 4 5 = some (.error .criticalIndexOverflow)
    ∧ genPred (1 : Int) 4 4 = none := ⟨rfl, rfl, rfl⟩

/-! ## C62 -/

/-- Lines, each followed by a newline. -/
theorem splitOn_lines (c : Char) (ls : List (List Char)) (h : ∀ l ∈ ls, c ∉ l) :
    (ls.flatMap fun l => l ++ [c]).splitOn c = ls ++ [[]] := by
  induction ls with
  | nil => rfl
  | cons l ls ih =>
    rw [List.flatMap_cons, List.append_assoc, List.singleton_append,
      List.splitOn_append_cons_self_of_not_mem (h l (by simp)), ih fun l hl => h l (by simp [hl])]
    rfl

theorem intercalate_cons (c : Char) (x : List Char) (xs : List (List Char)) :
    [c].intercalate (x :: xs) = x ++ xs.flatMap fun l => c :: l := by
  induction xs generalizing x with
  | nil => simp
  | cons y xs ih => rw [List.intercalate_cons_cons, ih]; simp

theorem mem_intercalate {c d : Char} {xs : List (List Char)} (h : d ∈ [c].intercalate xs) :
    d = c ∨ ∃ l ∈ xs, d ∈ l := by
  cases xs with
  | nil => simp at h
  | cons x xs =>
    rw [intercalate_cons, List.mem_append] at h
    rcases h with h | h
    · exact .inr ⟨x, by simp, h⟩
    · obtain ⟨l, hl, h⟩ := List.mem_flatMap.mp h
      rcases List.mem_cons.mp h with h | h
      · exact .inl h
      · exact .inr ⟨l, by simp [hl], h⟩

theorem csvCells_lines (ls : List (List Char)) (h : ∀ l ∈ ls, '\n' ∉ l) (s : String)
    (hs : s.toList = ls.flatMap fun l => l ++ ['\n']) :
    csvCells s = (ls.map fun l => (l.splitOn ',').map String.ofList) ++ [[""]] := by
  rw [csvCells, hs, splitOn_lines _ _ h, List.map_append]
  rfl

/-- C62, the part that holds for matrices. A matrix with at least one column is written row by row; every cell is followed by a comma,
so a reader finds the cells of row `i`, then an empty cell; after the last row an empty line.
(Missing: matrices without columns, see `C62_refuted_no_columns`.) -/
theorem C62_matrix_partial (disp : α → String) {m : Mat α} {r c : Nat} {A : Nat → Nat → α}
    (h : m.Is r c A) (hc : 0 < c) (hd : ∀ i, i < r → ∀ j, j < c → CellText (disp (A i j))) :
    ∃ text, m.toCsv disp = some text
      ∧ csvCells text = ((List.range r).map fun i => ((List.range c).map fun j => disp (A i j))
        ++ [""]) ++ [[""]] := by
  obtain ⟨h1, h2⟩ := h
  unfold Mat.toCsv
  rw [h1, h2]
  simp only [chunks_table r c A hc, Option.bind_eq_bind, Option.bind_some]
  refine ⟨_, rfl, ?_⟩
  rw [csvCells_lines ((List.range r).map fun i => (List.range c).flatMap fun j =>
    (disp (A i j)).toList ++ [','])]
  · congr 1
    rw [List.map_map]
    refine List.map_congr_left fun i hi => ?_
    have hi := List.mem_range.mp hi
    simp only [Function.comp_apply]
    have := splitOn_lines ',' ((List.range c).map fun j => (disp (A i j)).toList) (by
      intro l hl
      obtain ⟨j, hj, rfl⟩ := List.mem_map.mp hl
      exact (hd i hi j (List.mem_range.mp hj)).1)
    rw [List.flatMap_map] at this
    rw [this]
    simp
  · intro l hl
    obtain ⟨i, hi, rfl⟩ := List.mem_map.mp hl
    have hi := List.mem_range.mp hi
    simp only [List.mem_flatMap, not_exists, not_and]
    intro j hj hn
    rw [List.mem_append] at hn
    rcases hn with hn | hn
    · exact (hd i hi j (List.mem_range.mp hj)).2 hn
    · simp at hn
  · rw [String.toList_join, List.flatMap_map, List.flatMap_map, List.flatMap_map]
    simp only [String.toList_append, String.toList_join]
    simp [List.flatMap_map]

/-- C62 is false for a matrix without columns: the export panics. -/
theorem C62_refuted_no_columns (disp : α → String) (m : Mat α) (h : m.shape.2 = 0) :
    m.toCsv disp = none := by
  simp [Mat.toCsv, h, chunks]

/-- C62. A data set of vectors is written one line per point, inputs then targets. -/
theorem C62_dataset (disp : α → String) (pts : List (List α × List α))
    (hne : ∀ p ∈ pts, p.1 ≠ []) (hd : ∀ p ∈ pts, ∀ a ∈ p.1 ++ p.2, CellText (disp a)) :
    ∃ text, (Dataset.ofPoints (pts.map fun p => (IOType.scalar p.1, IOType.scalar p.2))).toCsv disp
        = some text
      ∧ csvCells text = (pts.map fun p => (p.1 ++ p.2).map disp) ++ [[""]] := by
  unfold Dataset.toCsv
  rw [(C58_points _).2.2.2.1, List.mapM_map]
  have hrow : ∀ pts : List (List α × List α), (∀ p ∈ pts, p.1 ≠ []) →
      pts.mapM (fun p : List α × List α => (do
        let input ← (IOType.scalar p.1).asSlice
        let first ← input.head?
        let target ← (IOType.scalar p.2).asSlice
        some (disp first ++ String.join (input.tail.map fun v => "," ++ disp v)
          ++ String.join (target.map fun v => "," ++ disp v) ++ "\n") : Run String))
      = some (pts.map fun p => String.ofList ([','].intercalate ((p.1 ++ p.2).map
          fun a => (disp a).toList) ++ ['\n'])) := by
    intro pts hne
    induction pts with
    | nil => rfl
    | cons p pts ih =>
      rw [List.mapM_cons, ih fun p hp => hne p (by simp [hp])]
      obtain ⟨v, t⟩ := p
      cases v with
      | nil => exact absurd rfl (hne ([], t) (by simp))
      | cons a v =>
        simp only [IOType.asSlice, Option.bind_eq_bind, Option.bind_some, List.head?_cons,
          Option.pure_def, List.map_cons, Option.some.injEq, List.cons.injEq, and_true,
          List.tail_cons]
        apply String.toList_injective
        simp only [String.toList_append, String.toList_join, String.toList_ofList]
        rw [List.cons_append, List.map_cons, intercalate_cons, List.flatMap_map, List.flatMap_map,
          List.flatMap_map, List.flatMap_append]
        simp
  simp only [Function.comp_def]
  rw [hrow pts hne]
  simp only [Option.bind_eq_bind, Option.bind_some]
  refine ⟨_, rfl, ?_⟩
  have hmem : ∀ p ∈ pts, '\n' ∉ [','].intercalate ((p.1 ++ p.2).map fun a => (disp a).toList) := by
    intro p hp hn
    rcases mem_intercalate hn with hn | ⟨l, hl, hn⟩
    · simp at hn
    · obtain ⟨a, ha, rfl⟩ := List.mem_map.mp hl
      exact (hd p hp a ha).2 hn
  rw [csvCells_lines (pts.map fun p => [','].intercalate ((p.1 ++ p.2).map
    fun a => (disp a).toList))]
  · congr 1
    rw [List.map_map]
    refine List.map_congr_left fun p hp => ?_
    simp only [Function.comp_apply]
    rw [List.splitOn_intercalate]
    · rw [List.map_map]
      exact List.map_congr_left fun a _ => String.ofList_toList
    · intro l hl
      obtain ⟨a, ha, rfl⟩ := List.mem_map.mp hl
      exact (hd p hp a ha).1
    · have := hne p hp
      simp [this]
  · intro l hl
    obtain ⟨p, hp, rfl⟩ := List.mem_map.mp hl
    exact hmem p hp
  · rw [String.toList_join, List.flatMap_map, List.flatMap_map]
    simp

/-- C62. Exporting a data set panics exactly when some point has feature maps or an empty input. -/
theorem C62_dataset_panics (disp : α → String) (pts : List (IOType α × IOType α)) :
    (Dataset.ofPoints pts).toCsv disp = none
      ↔ ∃ p ∈ pts, ¬ ∃ a v t, p = (IOType.scalar (a :: v), IOType.scalar t) := by
  unfold Dataset.toCsv
  rw [(C58_points _).2.2.2.1]
  simp only [Option.bind_eq_bind, Option.bind_eq_none_iff, reduceCtorEq, imp_false]
  rw [← Option.eq_none_iff_forall_ne_some, mapM_eq_none_iff]
  refine exists_congr fun p => and_congr_right fun _ => ?_
  obtain ⟨x, t⟩ := p
  cases x with
  | matrix ms => simp [IOType.asSlice]
  | scalar v => cases v with
    | nil => simp [IOType.asSlice]
    | cons a v => cases t <;> simp [IOType.asSlice]

example : (Mat.fromBody [1, 2, 3, 4, 5, 6] (2, 3) : Mat Int).toCsv toString
    = some "1,2,3,\n4,5,6,\n" := by decide

/-! ## C63 -/

/-- C63. Each accessor returns the content of its own kind and refuses the other. -/
theorem C63_release (v : List α) (ms : List (Mat α)) :
    (IOType.scalar v).releaseVec = .ok v ∧ (IOType.scalar v).releaseMaps = .error .invalidType
      ∧ (IOType.scalar v).asSlice = some v ∧ (IOType.scalar v).copyVec = some v
      ∧ (IOType.matrix ms).releaseMaps = .ok ms
      ∧ (IOType.matrix ms).releaseVec = .error .invalidType
      ∧ (IOType.matrix ms).asSlice = none ∧ (IOType.matrix ms).copyVec = none :=
  ⟨rfl, rfl, rfl, rfl, rfl, rfl, rfl, rfl⟩

/-- C63. A value is determined by what its accessors return: exactly one of the two `release`
functions succeeds, and wrapping its result again gives the value. -/
theorem C63_roundtrip (x : IOType α) :
    ((∃ v, x.releaseVec = .ok v ∧ x = .scalar v) ∧ ∃ e, x.releaseMaps = .error e)
      ∨ ((∃ ms, x.releaseMaps = .ok ms ∧ x = .matrix ms) ∧ ∃ e, x.releaseVec = .error e) := by
  cases x with
  | scalar v => exact .inl ⟨⟨v, rfl, rfl⟩, _, rfl⟩
  | matrix ms => exact .inr ⟨⟨ms, rfl, rfl⟩, _, rfl⟩

/-- C63. A store through the mutable slice changes that element and no other; it panics exactly on
feature maps or an index out of range. -/
theorem C63_mut (i : Nat) (a : α) (x : IOType α) :
    (∀ y, x.asMutSet i a = some y → ∃ v w, x = .scalar v ∧ y = .scalar w ∧ w.length = v.length
        ∧ w[i]? = some a ∧ ∀ j, j ≠ i → w[j]? = v[j]?)
      ∧ (x.asMutSet i a = none ↔ ∀ v, x = .scalar v → v.length ≤ i) := by
  cases x with
  | matrix ms => simp [IOType.asMutSet]
  | scalar v =>
    by_cases h : i < v.length
    · refine ⟨fun y hy => ?_, ?_⟩
      · rw [IOType.asMutSet, if_pos h] at hy
        cases hy
        refine ⟨v, _, rfl, rfl, by simp, by simp [h], fun j hj => ?_⟩
        rw [List.getElem?_set_ne (Ne.symm hj)]
      · simp [IOType.asMutSet, h]
    · simp [IOType.asMutSet, h]; omega

example : (IOType.scalar [1, 2, 3] : IOType Int).asMutSet 1 7 = some (.scalar [1, 7, 3]) := rfl

end Renplex
