import Verif.Spec.History
import Verif.Lemmas.List
import Verif.Spec.Lawful
/-!
# C01–C08, C18: storage, addressing and row/column edits of `Matrix<T>`
-/

namespace Renplex
open Mat
variable {α : Type}

/-! ## C02 addressing -/

/-- C02. On a rectangular matrix with entries `f`, `elm` succeeds exactly in range and returns the
entry; no access panics. -/
theorem C02_elm {m : Mat α} {r c : Nat} {f : Nat → Nat → α} (h : m.Is r c f) (i j : Nat) :
    m.elm i j = some (if i < r ∧ j < c then .ok (f i j) else .error .outOfBounds) := by
  obtain ⟨hs, hb⟩ := h
  unfold Mat.elm
  rw [hs, hb]
  by_cases hi : i < r <;> by_cases hj : j < c
  · simp [hi, hj, table_getElem? r c f hi hj, Nat.not_le.mpr hi, Nat.not_le.mpr hj]
  all_goals simp [hi, hj, Nat.not_lt.mp]

/-- C02 for `row`. -/
theorem C02_row {m : Mat α} {r c : Nat} {f : Nat → Nat → α} (h : m.Is r c f) (i : Nat) :
    m.row i = some (if i < r then .ok ((List.range c).map (f i)) else .error .outOfBounds) := by
  obtain ⟨hs, hb⟩ := h
  unfold Mat.row
  rw [hs, hb]
  by_cases hi : i < r
  · simp [hi, slice_table_row r c f i hi, Nat.not_le.mpr hi]
  · simp [hi, Nat.not_lt.mp hi]

theorem col_mapM (r c : Nat) (f : Nat → Nat → α) (j : Nat) (hj : j < c) :
    (List.range r).mapM (fun i => (table r c f)[i * c + j]?)
      = some ((List.range r).map fun i => f i j) :=
  mapM_some_of _ _ _ fun _ hi => table_getElem? r c f (List.mem_range.mp hi) hj

/-- C02 for `copy_col_into_vec`. -/
theorem C02_copyCol {m : Mat α} {r c : Nat} {f : Nat → Nat → α} (h : m.Is r c f) (j : Nat) :
    m.copyCol j
      = some (if j < c then .ok ((List.range r).map fun i => f i j) else .error .outOfBounds) := by
  obtain ⟨hs, hb⟩ := h
  unfold Mat.copyCol
  rw [hs, hb]
  by_cases hj : j < c
  · have := col_mapM r c f j hj
    simp only [hj, if_true, ge_iff_le, Nat.not_le.mpr hj, if_false, this]; rfl
  · simp [hj, Nat.not_lt.mp hj]

/-- C02 for `row_into_slice`: the target slice must have the row's length. -/
theorem C02_rowIntoSlice {m : Mat α} {r c : Nat} {f : Nat → Nat → α} (h : m.Is r c f) (i : Nat)
    (out : List α) :
    m.rowIntoSlice i out
      = some (if i < r then
          (if out.length = c then .ok ((List.range c).map (f i)) else .error .inconsistentShape)
        else .error .outOfBounds) := by
  obtain ⟨hs, hb⟩ := h
  unfold Mat.rowIntoSlice
  rw [hs, hb]
  by_cases hi : i < r
  · by_cases ho : out.length = c
    · simp [hi, ho, slice_table_row r c f i hi, Nat.not_le.mpr hi]
    · simp [hi, ho, Nat.not_le.mpr hi]
  · simp [hi, Nat.not_lt.mp hi]

/-- C02 for `col_into_slice`: the target slice must have the column's length. -/
theorem C02_colIntoSlice {m : Mat α} {r c : Nat} {f : Nat → Nat → α} (h : m.Is r c f) (j : Nat)
    (out : List α) :
    m.colIntoSlice j out
      = some (if j < c then
          (if out.length = r then .ok ((List.range r).map fun i => f i j)
            else .error .inconsistentShape)
        else .error .outOfBounds) := by
  obtain ⟨hs, hb⟩ := h
  unfold Mat.colIntoSlice
  rw [hs, hb]
  by_cases hj : j < c
  · by_cases ho : out.length = r
    · have := col_mapM r c f j hj
      simp only [hj, if_true, ge_iff_le, Nat.not_le.mpr hj, if_false, this, ho, ne_eq,
        not_true_eq_false]; rfl
    · simp [hj, ho, Nat.not_le.mpr hj]
  · simp [hj, Nat.not_lt.mp hj]

/-- A concrete 2 × 3 matrix meeting the hypotheses: element (1,2), row 1 and column 0. -/
example : let m := Mat.fromBody [10, 11, 12, 20, 21, 22] (2, 3)
    m.Is 2 3 (fun i j => 10 * (i + 1) + j) ∧ m.elm 1 2 = some (.ok 22)
      ∧ m.row 1 = some (.ok [20, 21, 22]) ∧ m.copyCol 0 = some (.ok [10, 20])
      ∧ m.elm 2 0 = some (.error .outOfBounds) := by
  refine ⟨⟨rfl, rfl⟩, rfl, rfl, rfl, rfl⟩

/-! ## C03 element write -/

theorem table_set (r c : Nat) (f : Nat → Nat → α) (i j : Nat) (hi : i < r) (hj : j < c) (v : α) :
    (table r c f).set (i * c + j) v
      = table r c (fun a b => if a = i ∧ b = j then v else f a b) := by
  apply List.ext_getElem?
  intro n
  by_cases hn : n < r * c
  · have hc : 0 < c := by omega
    have e : n / c * c + n % c = n := Nat.div_add_mod' n c
    have h1 : n / c < r := Nat.div_lt_of_lt_mul (by rwa [Nat.mul_comm])
    have h2 : n % c < c := Nat.mod_lt _ hc
    have t1 := table_getElem? r c f h1 h2
    have t2 := table_getElem? r c (fun a b => if a = i ∧ b = j then v else f a b) h1 h2
    rw [e] at t1 t2
    rw [t2]
    by_cases he : i * c + j = n
    · subst he
      have a1 : (i * c + j) / c = i := by
        rw [Nat.mul_comm, Nat.mul_add_div hc, Nat.div_eq_of_lt hj]; omega
      have a2 : (i * c + j) % c = j := by
        rw [Nat.mul_comm, Nat.mul_add_mod, Nat.mod_eq_of_lt hj]
      rw [List.getElem?_set_self (by rw [table_length]; exact hn)]
      simp [a1, a2]
    · rw [List.getElem?_set_ne he, t1]
      have : ¬ (n / c = i ∧ n % c = j) := by
        rintro ⟨rfl, rfl⟩; exact he e
      simp [this]
  · rw [List.getElem?_eq_none (by rw [List.length_set, table_length]; omega),
      List.getElem?_eq_none (by rw [table_length]; omega)]

/-- C03. A write through `elm_mut(i,j)` in range yields the same matrix with only entry `(i,j)`
replaced; out of range it is an error. -/
theorem C03_elm_write {m : Mat α} {r c : Nat} {f : Nat → Nat → α} (h : m.Is r c f) (i j : Nat)
    (v : α) :
    (i < r → j < c → ∃ m', m.elmSet i j v = some (.ok m')
        ∧ m'.Is r c (fun a b => if a = i ∧ b = j then v else f a b) ∧ m'.capacity = m.capacity)
      ∧ (¬ (i < r ∧ j < c) → m.elmSet i j v = some (.error .outOfBounds)) := by
  obtain ⟨hs, hb⟩ := h
  constructor
  · intro hi hj
    refine ⟨{ m with body := m.body.set (i * c + j) v }, ?_, ⟨hs, ?_⟩, rfl⟩
    · unfold Mat.elmSet
      rw [hs, hb]
      have := idx_lt hi hj
      simp [Nat.not_le.mpr hi, Nat.not_le.mpr hj, table_length, this]
    · simp only [hb]; exact table_set r c f i j hi hj v
  · intro hn
    unfold Mat.elmSet
    rw [hs, if_pos (by simp only [ge_iff_le]; omega)]

/-- C03 as observed through `elm`: after the write, `(i,j)` reads `v`, everything else reads as
before. -/
theorem C03_elm_after_write {m m' : Mat α} {r c : Nat} {f : Nat → Nat → α} (h : m.Is r c f)
    (i j : Nat) (v : α) (hm : m.elmSet i j v = some (.ok m')) :
    m'.elm i j = some (.ok v) ∧ ∀ a b, ¬ (a = i ∧ b = j) → m'.elm a b = m.elm a b := by
  by_cases hij : i < r ∧ j < c
  · obtain ⟨m'', h1, h2, -⟩ := (C03_elm_write h i j v).1 hij.1 hij.2
    rw [h1] at hm
    cases hm
    refine ⟨by rw [C02_elm h2]; simp [hij], fun a b hab => ?_⟩
    rw [C02_elm h2, C02_elm h]; simp [hab]
  · rw [(C03_elm_write h i j v).2 hij] at hm
    cases hm

example : (Mat.fromBody [1, 2, 3, 4, 5, 6] (2, 3)).elmSet 1 0 9
    = some (.ok (Mat.fromBody [1, 2, 3, 9, 5, 6] (2, 3))) := rfl

/-- Replacing the `i`-th block of `c` entries of a table. -/
theorem table_set_row (r c : Nat) (f : Nat → Nat → α) (i : Nat) (hi : i < r) (g : Nat → α) :
    (table r c f).take (i * c) ++ (List.range c).map g ++ (table r c f).drop (i * c + c)
      = table r c (fun a b => if a = i then g b else f a b) := by
  obtain ⟨k, rfl⟩ : ∃ k, r = i + 1 + k := ⟨r - (i + 1), by omega⟩
  rw [table_take _ _ _ _ (by omega), show i * c + c = (i + 1) * c by rw [Nat.succ_mul],
    table_drop _ _ _ _ (by omega), show i + 1 + k - (i + 1) = k by omega]
  have e : table (i + 1 + k) c (fun a b => if a = i then g b else f a b)
      = table (i + 1) c (fun a b => if a = i then g b else f a b)
        ++ table k c (fun a b => if i + 1 + a = i then g b else f (i + 1 + a) b) := by
    simp [table, List.range_add, List.flatMap_map]
  rw [e, table_succ_last]
  congr 1
  · congr 1
    · apply table_congr; intro a ha b _; simp [show a ≠ i by omega]
    · simp
  · apply table_congr; intro a _ b _; simp [show i + 1 + a ≠ i by omega]

/-- C03 for a whole row: writing `vs` through `row_as_mut(i)` in range replaces exactly the
entries of row `i`; a row out of range is an error; a slice of another length panics
(`copy_from_slice`). -/
theorem C03_row_write {m : Mat α} {r c : Nat} {f : Nat → Nat → α} (h : m.Is r c f) (i : Nat)
    (vs : List α) :
    (∀ g : Nat → α, vs = (List.range c).map g → i < r → ∃ m', m.rowSet i vs = some (.ok m')
        ∧ m'.Is r c (fun a b => if a = i then g b else f a b) ∧ m'.capacity = m.capacity)
      ∧ (¬ i < r → m.rowSet i vs = some (.error .outOfBounds))
      ∧ (i < r → vs.length ≠ c → m.rowSet i vs = none) := by
  obtain ⟨hs, hb⟩ := h
  refine ⟨fun g hg hi => ?_, fun hn => ?_, fun hi hl => ?_⟩
  · subst hg
    refine ⟨{ m with
      body := m.body.take (i * c) ++ (List.range c).map g ++ m.body.drop (i * c + c) }, ?_, ⟨hs, ?_⟩, rfl⟩
    · unfold Mat.rowSet
      rw [hs, hb]
      simp [slice_table_row r c f i hi, Nat.not_le.mpr hi]
    · simp only [hb]; exact table_set_row r c f i hi g
  · unfold Mat.rowSet
    rw [hs]; simp [Nat.not_lt.mp hn]
  · unfold Mat.rowSet
    rw [hs, hb]
    simp [slice_table_row r c f i hi, Nat.not_le.mpr hi, Ne.symm hl]

example : (Mat.fromBody [1, 2, 3, 4, 5, 6] (2, 3)).rowSet 1 [7, 8, 9]
    = some (.ok (Mat.fromBody [1, 2, 3, 7, 8, 9] (2, 3))) := rfl

/-! ## C04 add_row -/

/-- C04. `add_row` is accepted exactly when the row has the matrix width (any width if the matrix
has shape `[0,0]`) and one more row of that width fits the capacity; then it appends exactly that
row; otherwise the matrix is unchanged. -/
theorem C04_addRow (m : Mat α) (row : List α) :
    let accepted := (row.length = m.shape.2 ∨ m.shape = (0, 0))
      ∧ m.shape.1 < m.capacity.1 ∧ m.shape.2 ≤ m.capacity.2 ∧ row.length ≤ m.capacity.2
    (accepted → m.addRow row
        = (.ok (), ⟨m.body ++ row, (m.shape.1 + 1, row.length), m.capacity⟩))
      ∧ (¬ accepted → ∃ e, m.addRow row = (.error e, m)) := by
  intro accepted
  obtain ⟨body, ⟨r, c⟩, ⟨cr, cc⟩⟩ := m
  simp only [accepted]
  constructor
  · rintro ⟨h1, h2, h3, h4⟩
    have hg : (row.length == c || (r, c) == (0, 0)) = true := by
      rcases h1 with h1 | h1 <;> simp_all
    unfold Mat.addRow
    simp only [hg, Bool.not_true]
    rw [if_neg (by simp), if_neg (by omega)]
  · intro hn
    unfold Mat.addRow
    by_cases hg : (row.length == c || (r, c) == (0, 0)) = true
    · simp only [hg, Bool.not_true]
      have h1 : row.length = c ∨ (r, c) = (0, 0) := by simpa using hg
      rw [if_neg (by simp), if_pos (by by_cases h5 : r < cr <;> by_cases h6 : c ≤ cc <;>
        by_cases h7 : row.length ≤ cc <;> simp_all <;> omega)]
      exact ⟨.overflow, by simp⟩
    · rw [if_pos (by simpa using hg)]
      exact ⟨_, rfl⟩

/-- C04 on entries: on a rectangular matrix an accepted row becomes row `r`, the others keep their
entries. -/
theorem C04_addRow_entries {m m' : Mat α} {r c : Nat} {f : Nat → Nat → α} (h : m.Is r c f)
    (row : Nat → α) (n : Nat) (hacc : m.addRow ((List.range n).map row) = (.ok (), m')) :
    m'.Is (r + 1) n (fun i j => if i < r then f i j else row j) := by
  have hC := C04_addRow m ((List.range n).map row)
  simp only [List.length_map, List.length_range] at hC
  by_cases ha : (n = m.shape.2 ∨ m.shape = (0, 0))
      ∧ m.shape.1 < m.capacity.1 ∧ m.shape.2 ≤ m.capacity.2 ∧ n ≤ m.capacity.2
  · rw [hC.1 ha] at hacc
    cases hacc
    refine ⟨by simp [h.1], ?_⟩
    have hc : n = c ∨ r = 0 := by
      rcases ha.1 with h1 | h1
      · left; rw [h1, h.1]
      · right; rw [h.1] at h1; exact congrArg Prod.fst h1
    simp only
    rw [h.2, table_succ_last]
    congr 1
    · rcases hc with rfl | rfl
      · exact table_congr fun i hi j _ => by simp [hi]
      · simp [table_zero]
    · simp
  · obtain ⟨e, he⟩ := hC.2 ha
    rw [he] at hacc
    cases hacc

/-- An accepted and a rejected row on a 1 × 2 matrix with capacity 2 × 2. -/
example : (⟨[1, 2], (1, 2), (2, 2)⟩ : Mat Nat).addRow [3, 4]
      = (.ok (), ⟨[1, 2, 3, 4], (2, 2), (2, 2)⟩)
    ∧ (⟨[1, 2], (1, 2), (2, 2)⟩ : Mat Nat).addRow [3]
      = (.error .inconsistentLength, ⟨[1, 2], (1, 2), (2, 2)⟩)
    ∧ (⟨[1, 2], (1, 2), (1, 2)⟩ : Mat Nat).addRow [3, 4]
      = (.error .overflow, ⟨[1, 2], (1, 2), (1, 2)⟩) := ⟨rfl, rfl, rfl⟩

/-! ## C05 del_row -/

/-- C05. In range, `del_row(i)` returns row `i` and keeps the other rows in order (the last row
removed leaves shape `[0,0]`), with capacity equal to the shape; out of range it reports an error
and changes nothing. It never panics on a rectangular matrix. -/
theorem C05_delRow {m : Mat α} {r c : Nat} {f : Nat → Nat → α} (h : m.Is r c f) (i : Nat) :
    (i < r → ∃ m', m.delRow i = some (.ok ((List.range c).map (f i)), m')
        ∧ m'.Is (r - 1) (if r = 1 then 0 else c) (fun a b => if a < i then f a b else f (a + 1) b)
        ∧ m'.capacity = m'.shape)
      ∧ (r ≤ i → m.delRow i = some (.error .outOfBounds, m)) := by
  obtain ⟨hs, hb⟩ := h
  constructor
  · intro hi
    obtain ⟨k, rfl⟩ : ∃ k, r = i + 1 + k := ⟨r - i - 1, by omega⟩
    refine ⟨?_, ?_, ⟨?_, ?_⟩, ?_⟩
    · exact ⟨m.body.take (i * c) ++ m.body.drop (i * c + c), (i + k, if i + k = 0 then 0 else c),
        (i + k, if i + k = 0 then 0 else c)⟩
    · unfold Mat.delRow
      rw [hs, hb]
      simp only [ge_iff_le, Nat.not_le.mpr hi, if_false, slice_table_row _ c f i hi]
      rw [if_neg (by omega)]
      have : i + 1 + k - 1 = i + k := by omega
      simp only [this, Mat.dealloc]
      split <;> rfl
    · simp only
      have : i + 1 + k - 1 = i + k := by omega
      rw [this]
      by_cases h0 : i + k = 0
      · rw [if_pos h0, if_pos (by omega)]
      · rw [if_neg h0, if_neg (by omega)]
    · simp only [hb]
      have e : i * c + c = (i + 1) * c := by rw [Nat.succ_mul]
      rw [table_take _ _ _ _ (by omega), e, table_drop _ _ _ _ (by omega)]
      have e1 : i + 1 + k - (i + 1) = k := by omega
      have e2 : i + 1 + k - 1 = i + k := by omega
      rw [e1, e2]
      by_cases h0 : i + k = 0
      · obtain ⟨rfl, rfl⟩ : i = 0 ∧ k = 0 := by omega
        simp [table_zero]
      · rw [if_neg (by omega)]
        unfold table
        rw [show List.range (i + k) = List.range i ++ (List.range k).map (i + ·) from
          List.range_add, List.flatMap_append]
        congr 1
        · exact table_congr fun a ha b _ => by simp [ha]
        · rw [List.flatMap_map]
          exact table_congr (f := fun a b => f (i + 1 + a) b) fun a _ b _ => by
            simp only; rw [if_neg (by omega)]; congr 1; omega
    · rfl
  · intro hi
    unfold Mat.delRow
    rw [hs, if_pos hi]

/-- C05, last sentence: after a successful `del_row` every `add_row` is rejected. -/
theorem C05_addRow_after_delRow {m m' : Mat α} (i : Nat) (row deleted : List α)
    (hd : m.delRow i = some (.ok deleted, m')) : ∃ e, m'.addRow row = (.error e, m') := by
  apply (C04_addRow m' row).2
  have hcap : m'.capacity = m'.shape := by
    unfold Mat.delRow at hd
    by_cases h1 : i ≥ m.shape.1
    · rw [if_pos h1] at hd; cases hd
    · rw [if_neg h1] at hd
      by_cases h2 : m.shape.1 = 0
      · rw [if_pos h2] at hd; cases hd
      · rw [if_neg h2] at hd
        cases hs : slice m.body (i * m.shape.2) (i * m.shape.2 + m.shape.2) with
        | none => simp [hs] at hd
        | some s =>
          simp only [hs] at hd
          cases hd
          rfl
  rw [hcap]
  omega

example : (Mat.fromBody [1, 2, 3, 4, 5, 6] (3, 2)).delRow 1
    = some (.ok [3, 4], Mat.fromBody [1, 2, 5, 6] (2, 2)) := rfl

/-! ## C06 add_mut_row -/

/-- C06 is false of the code: `add_mut_row` accepts a wide row on a matrix of zero-width rows
(where `add_row` reports an inconsistent length) and a row longer than the column capacity of an
empty matrix (where `add_row` reports an overflow). -/
theorem C06_refuted (a : α) :
    ¬ ∀ (m : Mat α) (row : List α), m.Rect →
        ((m.addMutRow row).1, (m.addMutRow row).2.1) = m.addRow row := by
  intro h
  have := h ⟨[], (0, 0), (1, 0)⟩ [a] rfl
  simp [Mat.addMutRow, Mat.addRow] at this

theorem C06_refuted_zero_width (a : α) :
    let m : Mat α := ⟨[], (1, 0), (2, 1)⟩
    m.Rect ∧ m.addRow [a] = (.error .inconsistentLength, m)
      ∧ m.addMutRow [a] = (.ok (), ⟨[a], (2, 1), (2, 1)⟩, []) := ⟨rfl, rfl, rfl⟩

/-- C06, the part that holds: `add_mut_row` gives the same verdict and the same matrix as `add_row`
whenever the matrix has columns, or is `[0,0]`-shaped and the row is within the column capacity
(missing: zero-width rows; rows beyond the column capacity of an empty matrix). On success the
caller's vector is emptied, on failure it is kept. -/
theorem C06_partial (m : Mat α) (row : List α)
    (h : m.shape.2 ≠ 0 ∨ (m.shape.1 = 0 ∧ row.length ≤ m.capacity.2)) :
    m.addMutRow row = ((m.addRow row).1, (m.addRow row).2,
      match (m.addRow row).1 with | .ok _ => [] | .error _ => row) := by
  obtain ⟨body, ⟨r, c⟩, ⟨cr, cc⟩⟩ := m
  simp only at h
  unfold Mat.addMutRow Mat.addRow
  simp only
  by_cases hc : c = 0
  · obtain ⟨hr, hl⟩ : r = 0 ∧ row.length ≤ cc := by
      rcases h with h | h
      · exact absurd hc h
      · exact h
    subst hc hr
    by_cases h1 : cr = 0
    · simp [h1]
    · simp [h1]
      rw [if_neg (by omega)]
      simp
  · have e : ((r, c) == ((0, 0) : Nat × Nat)) = false := by simp [hc]
    simp only [e, Bool.or_false, Bool.not_eq_true']
    by_cases hl : row.length = c
    · by_cases hcap : r ≥ cr ∨ c > cc
      · have : r + 1 > cr ∨ c > cc ∨ row.length > cc := by omega
        simp [hl, hcap]
        rw [if_pos (by omega)]
        simp
      · simp [hl, hcap]
        rw [if_neg (by omega)]
        simp
    · have : (row.length == c) = false := by simp [hl]
      have h0 : (c == 0) = false := by simp [hc]
      simp [this, h0]

example : (⟨[1, 2], (1, 2), (2, 2)⟩ : Mat Nat).addMutRow [3, 4]
    = (.ok (), ⟨[1, 2, 3, 4], (2, 2), (2, 2)⟩, []) := rfl

/-! ## C07 add_col -/

/-- C07 is false of the code, in the strongest way: `add_col` *always* rejects a column whose
length is the number of rows, whatever the matrix. -/
theorem C07_refuted (m : Mat α) (col : List α) (h : col.length = m.shape.1) :
    m.addCol col = some (.error .inconsistentLength, m, col) := by
  simp [Mat.addCol, h]

theorem addColLoop_length (cols : Nat) (i : Nat) (col body out : List α)
    (h : addColLoop cols i col body = some out) : out.length = body.length + col.length := by
  induction col generalizing i body with
  | nil => simp [addColLoop] at h; simp [h]
  | cons x xs ih =>
    rw [addColLoop] at h
    by_cases hp : i * cols + cols - 1 ≤ body.length
    · simp only [hp, if_true] at h
      rw [ih _ _ h]
      simp [Nat.min_eq_left hp]
      omega
    · simp [hp] at h

/-- C07: whenever `add_col` does succeed on a rectangular matrix that has columns, the result is
corrupt: it no longer stores rows × columns elements. -/
theorem C07_refuted_corrupts {m m' : Mat α} (col left : List α) (h : m.Rect)
    (hc : 0 < m.shape.2) (hok : m.addCol col = some (.ok (), m', left)) : ¬ m'.Rect := by
  unfold Mat.addCol at hok
  by_cases h1 : col.length = m.shape.1
  · simp [h1] at hok
  · by_cases h2 : m.shape.2 < m.capacity.2
    · simp [h1, h2] at hok
    · cases hl : addColLoop (m.shape.2 + 1) 0 col m.body with
      | none => simp [h1, h2, hl] at hok
      | some b =>
        simp [h1, h2, hl] at hok
        obtain ⟨rfl, -⟩ := hok
        have := addColLoop_length _ _ _ _ _ hl
        unfold Mat.Rect at h ⊢
        simp only
        intro hb
        rw [hb, h, Nat.mul_succ] at this
        have h3 : col.length * m.shape.2 = m.shape.1 * m.shape.2 := by omega
        exact h1 (Nat.eq_of_mul_eq_mul_right hc h3)

/-- The corruption happens: a 2 × 1 matrix that accepts a column of length 1. -/
example : (Mat.fromBody [1, 2] (2, 1)).addCol [7]
    = some (.ok (), ⟨[1, 7, 2], (1, 2), (2, 1)⟩, []) := rfl

/-- … and so does a panic. -/
example : (Mat.fromBody [1] (1, 1)).addCol [7, 8] = none := rfl

theorem addColLoop_one (i : Nat) (col body : List α) (h : body.length = i) :
    addColLoop 1 i col body = some (body ++ col) := by
  induction col generalizing i body with
  | nil => simp [addColLoop]
  | cons x xs ih =>
    rw [addColLoop]
    subst h
    simp only [Nat.mul_one, Nat.add_sub_cancel, Nat.le_refl, if_true, List.take_length,
      List.drop_length]
    rw [ih _ _ (by simp)]
    simp

/-- C07, the part that holds: rejected calls change nothing; and on an empty matrix without column
capacity a column becomes a one-column matrix (missing: everything else, see `C07_refuted`). -/
theorem C07_partial (m : Mat α) (col : List α) :
    (∀ e m' left, m.addCol col = some (.error e, m', left) → m' = m ∧ left = col)
      ∧ (m.body = [] → m.shape = (0, 0) → m.capacity.2 = 0 → col ≠ [] →
          ∃ m', m.addCol col = some (.ok (), m', []) ∧ m'.body = col ∧ m'.shape = (col.length, 1)
            ∧ m'.Rect) := by
  constructor
  · intro e m' left h
    unfold Mat.addCol at h
    by_cases h1 : col.length = m.shape.1
    · simp [h1] at h; exact ⟨h.2.1.symm, h.2.2.symm⟩
    · by_cases h2 : m.shape.2 < m.capacity.2
      · simp [h1, h2] at h; exact ⟨h.2.1.symm, h.2.2.symm⟩
      · cases hl : addColLoop (m.shape.2 + 1) 0 col m.body with
        | none => simp [h1, h2, hl] at h
        | some b => simp [h1, h2, hl] at h
  · intro hb hs hcap hne
    refine ⟨{ m with body := col, shape := (col.length, 1) }, ?_, rfl, rfl, ?_⟩
    · unfold Mat.addCol
      rw [hs, hcap, hb]
      simp [hne, addColLoop_one 0 col [] rfl]
    · simp [Mat.Rect]

example : (Mat.new : Mat Nat).addCol [4, 5] = some (.ok (), ⟨[4, 5], (2, 1), (0, 0)⟩, []) := rfl

/-- `widen c col body`: after every `c` elements of the body one of the column. -/
def widen (c : Nat) : List α → List α → List α
  | [], body => body
  | x :: xs, body => body.take c ++ x :: widen c xs (body.drop c)

theorem addColLoop_widen (c : Nat) (i : Nat) (col front body : List α)
    (hf : front.length = i * (c + 1)) :
    addColLoop (c + 1) i col (front ++ body)
      = if col.length * c ≤ body.length then some (front ++ widen c col body) else none := by
  induction col generalizing i front body with
  | nil => simp [addColLoop, widen]
  | cons x xs ih =>
    rw [addColLoop]
    have hpos : i * (c + 1) + (c + 1) - 1 = front.length + c := by omega
    rw [List.length_cons, Nat.succ_mul]
    by_cases hb : c ≤ body.length
    · rw [if_pos (by rw [hpos, List.length_append]; omega), hpos,
        List.take_length_add_append, List.drop_length_add_append,
        show front ++ body.take c ++ x :: body.drop c
          = (front ++ body.take c ++ [x]) ++ body.drop c by simp,
        ih (i + 1) _ _ (by simp [hf, Nat.min_eq_left hb, Nat.succ_mul]), List.length_drop]
      by_cases h2 : xs.length * c + c ≤ body.length
      · rw [if_pos (by omega), if_pos h2]
        simp [widen]
      · rw [if_neg (by omega), if_neg h2]
    · rw [if_neg (by rw [hpos, List.length_append]; omega), if_neg (by omega)]

/-- C07, the rest of what `add_col` does. A column of a wrong height is refused as too large where the
matrix has room for it. Where the matrix has no room, a rectangular matrix with columns takes every
column that is too short, spread over its first rows, and every column that is too high panics. -/
theorem C07_refuted_room (m : Mat α) (col : List α) (h : col.length ≠ m.shape.1) :
    (m.shape.2 < m.capacity.2 → m.addCol col = some (.error .overflow, m, col))
      ∧ (m.capacity.2 ≤ m.shape.2 → m.Rect → 0 < m.shape.2 →
        (col.length < m.shape.1 → m.addCol col = some (.ok (),
          { m with body := widen m.shape.2 col m.body, shape := (col.length, m.shape.2 + 1) }, []))
        ∧ (m.shape.1 < col.length → m.addCol col = none)) := by
  refine ⟨fun h2 => by simp [Mat.addCol, h, h2], fun h2 hr hc => ?_⟩
  have e : m.addCol col = addColLoop (m.shape.2 + 1) 0 col m.body >>= fun body =>
      some (.ok (), { m with body := body, shape := (col.length, m.shape.2 + 1) }, []) := by
    unfold Mat.addCol
    rw [if_neg h, if_neg (by omega)]
  have l := addColLoop_widen m.shape.2 0 col [] m.body (by simp)
  simp only [List.nil_append] at l
  unfold Mat.Rect at hr
  rw [e, l, hr]
  constructor
  · intro hl
    rw [if_pos (Nat.mul_le_mul_right _ hl.le)]
    rfl
  · intro hl
    rw [if_neg (by rw [Nat.not_le]; exact Nat.mul_lt_mul_of_pos_right hl hc)]
    rfl

example : (Mat.fromBody [1, 2, 3, 4] (2, 2)).addCol [7]
    = some (.ok (), ⟨[1, 2, 7, 3, 4], (1, 3), (2, 2)⟩, []) := rfl

/-! ## C01 histories -/

section History
variable [BasicOps α]

/-- C01 is false of the code: a history of sane calls can end in a matrix that does not store
rows × columns elements, and another one panics. -/
theorem C01_refuted (a : α) :
    (∃ (cap : Nat × Nat) (ops : List (MatOp α)) (m : Mat α), (∀ o ∈ ops, o.Sane)
        ∧ (Mat.withCapacity cap).history ops = some m ∧ ¬ m.Rect)
      ∧ (∃ (cap : Nat × Nat) (ops : List (MatOp α)), (∀ o ∈ ops, o.Sane)
        ∧ (Mat.withCapacity cap).history ops = none) := by
  constructor
  · refine ⟨(2, 1), [.addMutRow [], .addMutRow [a]], ⟨[a], (2, 1), (2, 1)⟩, ?_, rfl, ?_⟩
    · simp [MatOp.Sane]
    · simp [Mat.Rect]
  · exact ⟨(1, 1), [.addRow [a], .addCol [a, a]], by simp [MatOp.Sane], rfl⟩

/-- The invariant of the well-behaved part: rectangular, and no zero-width rows. -/
def Mat.Solid (m : Mat α) : Prop := m.Rect ∧ (m.shape.2 = 0 → m.shape.1 = 0)

omit [BasicOps α] in
theorem addRow_solid {m : Mat α} (h : m.Solid) (row : List α) (hne : row ≠ []) :
    (m.addRow row).2.Solid := by
  have hC := C04_addRow m row
  simp only at hC
  have hl : row.length ≠ 0 := by simpa using hne
  by_cases ha : (row.length = m.shape.2 ∨ m.shape = (0, 0))
      ∧ m.shape.1 < m.capacity.1 ∧ m.shape.2 ≤ m.capacity.2 ∧ row.length ≤ m.capacity.2
  · rw [hC.1 ha]
    refine ⟨?_, fun h0 => absurd h0 hl⟩
    unfold Mat.Rect
    have hr := h.1
    unfold Mat.Rect at hr
    rw [List.length_append, hr, Nat.succ_mul]
    rcases ha.1 with h1 | h1
    · rw [h1]
    · simp [h1]
  · obtain ⟨e, he⟩ := hC.2 ha
    rw [he]; exact h

omit [BasicOps α] in
theorem addMutRow_solid {m : Mat α} (h : m.Solid) (row : List α) (hne : row ≠ []) :
    (m.addMutRow row).2.1.Solid := by
  have hl : row.length ≠ 0 := by simpa using hne
  unfold Mat.addMutRow
  by_cases hg : (row.length == m.shape.2 || m.shape.2 == 0) = true
  · rw [if_neg (by simp [hg])]
    by_cases hcap : m.shape.1 ≥ m.capacity.1 ∨ m.shape.2 > m.capacity.2
    · rw [if_pos hcap]; exact h
    · rw [if_neg hcap]
      refine ⟨?_, fun h0 => absurd h0 hl⟩
      unfold Mat.Rect
      have hr := h.1
      unfold Mat.Rect at hr
      simp only
      rw [List.length_append, hr, Nat.succ_mul]
      rcases (by simpa using hg : row.length = m.shape.2 ∨ m.shape.2 = 0) with h1 | h1
      · rw [h1]
      · rw [h.2 h1]; simp
  · rw [if_pos (by simpa using hg)]; exact h

theorem delRow_total {m : Mat α} (h : m.Rect) (i : Nat) :
    ∃ m', (m.delRow i).map (·.2) = some m' ∧ m'.Rect
      ∧ ((m.shape.2 = 0 → m.shape.1 = 0) → (m'.shape.2 = 0 → m'.shape.1 = 0)) := by
  haveI : Nonempty α := ⟨BasicOps.zero⟩
  obtain ⟨f, hf⟩ := h.exists_is
  by_cases hi : i < m.shape.1
  · obtain ⟨m', h1, h2, -⟩ := (C05_delRow hf i).1 hi
    refine ⟨m', by rw [h1]; rfl, h2.rect, ?_⟩
    rw [h2.1]
    simp only
    split <;> omega
  · exact ⟨m, by rw [(C05_delRow hf i).2 (by omega)]; rfl, h, fun h => h⟩

omit [BasicOps α] in
theorem zipUpd_rect {m : Mat α} (h : m.Rect) (f : α → α → α) (r : List α) :
    ({ m with body := zipUpd f m.body r } : Mat α).Rect := by
  unfold Mat.Rect at *; simpa [zipUpd_length] using h

theorem apply_rect {m : Mat α} (h : m.Rect) (o : MatOp α) (hs : o.Sane)
    (hr : o.Plain) :
    ∃ m', MatOp.apply m o = some m' ∧ m'.Rect
      ∧ ((match o with | .addRow row => row ≠ [] | _ => True) →
          (m.shape.2 = 0 → m.shape.1 = 0) → (m'.shape.2 = 0 → m'.shape.1 = 0)) := by
  haveI : Nonempty α := ⟨BasicOps.zero⟩
  cases o with
  | addRow row =>
    refine ⟨_, rfl, ?_, fun hne h0 => ?_⟩
    · have hC := C04_addRow m row
      simp only at hC
      by_cases ha : (row.length = m.shape.2 ∨ m.shape = (0, 0))
          ∧ m.shape.1 < m.capacity.1 ∧ m.shape.2 ≤ m.capacity.2 ∧ row.length ≤ m.capacity.2
      · rw [hC.1 ha]
        unfold Mat.Rect at h ⊢
        rw [List.length_append, h, Nat.succ_mul]
        rcases ha.1 with h1 | h1
        · rw [h1]
        · simp [h1]
      · obtain ⟨e, he⟩ := hC.2 ha
        rw [he]; exact h
    · exact (addRow_solid ⟨h, h0⟩ row hne).2
  | addMutRow row => exact hr.elim
  | delRow i =>
    obtain ⟨m', h1, h2, h3⟩ := delRow_total h i
    exact ⟨m', h1, h2, fun _ => h3⟩
  | addCol col => exact hr.elim
  | dealloc => exact ⟨_, rfl, h, fun _ h => h⟩
  | elmSet i j v =>
    obtain ⟨f, hf⟩ := h.exists_is
    by_cases hij : i < m.shape.1 ∧ j < m.shape.2
    · obtain ⟨m', h1, h2, -⟩ := (C03_elm_write hf i j v).1 hij.1 hij.2
      refine ⟨m', by simp [MatOp.apply, h1], h2.rect, fun _ h => ?_⟩
      rw [h2.1]; exact h
    · exact ⟨m, by simp [MatOp.apply, (C03_elm_write hf i j v).2 hij], h, fun _ h => h⟩
  | rowSet i g =>
    obtain ⟨f, hf⟩ := h.exists_is
    have hC := C03_row_write hf i ((List.range m.shape.2).map g)
    by_cases hi : i < m.shape.1
    · obtain ⟨m', h1, h2, -⟩ := hC.1 g rfl hi
      refine ⟨m', by simp [MatOp.apply, h1], h2.rect, fun _ h => ?_⟩
      rw [h2.1]; exact h
    · exact ⟨m, by simp [MatOp.apply, hC.2.1 hi], h, fun _ h => h⟩
  | addMut rhs =>
    unfold MatOp.apply Mat.addMut
    by_cases h1 : m.shape ≠ rhs.shape ∧ (!m.isEmpty && !rhs.isEmpty) = true
    · simp only [if_pos h1]; exact ⟨m, rfl, h, fun _ h => h⟩
    · simp only [if_neg h1]
      by_cases h2 : m.isEmpty = true
      · simp only [if_pos h2]; exact ⟨_, rfl, hs.1, fun _ _ => hs.2⟩
      · simp only [if_neg h2]
        by_cases h3 : rhs.isEmpty = true
        · simp only [if_pos h3]; exact ⟨m, rfl, h, fun _ h => h⟩
        · simp only [if_neg h3]; exact ⟨_, rfl, zipUpd_rect h _ _, fun _ h => h⟩
  | addScalar s =>
    exact ⟨_, rfl, by unfold Mat.Rect at *; simpa [Mat.addMutScalar] using h, fun _ h => h⟩
  | mulScalar s =>
    exact ⟨_, rfl, by unfold Mat.Rect at *; simpa [Mat.mulScalar, mulMutScalar] using h,
      fun _ h => h⟩
  | divScalar s =>
    obtain ⟨b, hb⟩ := (mapM_some_iff (fun a => BasicOps.divAssign a s) m.body).mpr
      (fun a _ => hs a)
    refine ⟨{ m with body := b }, by simp [MatOp.apply, Mat.divScalar, divMutScalar, hb], ?_,
      fun _ h => h⟩
    unfold Mat.Rect at *
    simp only [mapM_length hb]; exact h

/-- C01, the part that holds: every history of sane calls without `add_col` in which all added rows
are non-empty runs without panicking and ends in a rectangular matrix (missing: `add_col`, and
`add_mut_row` after zero-width rows, for which the claim is false, see `C01_refuted`). -/
theorem C01_partial (cap : Nat × Nat) (ops : List (MatOp α)) (hs : ∀ o ∈ ops, o.Sane)
    (hr : ∀ o ∈ ops, o.NonemptyRows) :
    ∃ m, (Mat.withCapacity cap).history ops = some m ∧ m.Rect
      ∧ (m.shape.2 = 0 → m.shape.1 = 0) := by
  have key : ∀ (ops : List (MatOp α)) (m : Mat α), m.Solid → (∀ o ∈ ops, o.Sane) →
      (∀ o ∈ ops, o.NonemptyRows) → ∃ m', m.history ops = some m' ∧ m'.Solid := by
    intro ops
    induction ops with
    | nil => exact fun m hm _ _ => ⟨m, rfl, hm⟩
    | cons o ops ih =>
      intro m hm hs hr
      have hstep : ∃ m', MatOp.apply m o = some m' ∧ m'.Solid := by
        have ho := hr o (by simp)
        have hso := hs o (by simp)
        cases o with
        | addMutRow row => exact ⟨_, rfl, addMutRow_solid hm row ho⟩
        | addCol col => exact ho.elim
        | addRow row => exact ⟨_, rfl, addRow_solid hm row ho⟩
        | delRow i =>
          obtain ⟨m', h1, h2, h3⟩ := delRow_total hm.1 i
          exact ⟨m', h1, h2, h3 hm.2⟩
        | dealloc => exact ⟨_, rfl, hm⟩
        | elmSet i j v =>
          obtain ⟨m', h1, h2, h3⟩ := apply_rect hm.1 (.elmSet i j v) hso trivial
          exact ⟨m', h1, h2, h3 trivial hm.2⟩
        | rowSet i g =>
          obtain ⟨m', h1, h2, h3⟩ := apply_rect hm.1 (.rowSet i g) hso trivial
          exact ⟨m', h1, h2, h3 trivial hm.2⟩
        | addMut rhs =>
          obtain ⟨m', h1, h2, h3⟩ := apply_rect hm.1 (.addMut rhs) hso trivial
          exact ⟨m', h1, h2, h3 trivial hm.2⟩
        | addScalar s =>
          obtain ⟨m', h1, h2, h3⟩ := apply_rect hm.1 (.addScalar s) hso trivial
          exact ⟨m', h1, h2, h3 trivial hm.2⟩
        | mulScalar s =>
          obtain ⟨m', h1, h2, h3⟩ := apply_rect hm.1 (.mulScalar s) hso trivial
          exact ⟨m', h1, h2, h3 trivial hm.2⟩
        | divScalar s =>
          obtain ⟨m', h1, h2, h3⟩ := apply_rect hm.1 (.divScalar s) hso trivial
          exact ⟨m', h1, h2, h3 trivial hm.2⟩
      obtain ⟨m', h1, h2⟩ := hstep
      obtain ⟨m'', h3, h4⟩ := ih m' h2 (fun o ho => hs o (by simp [ho]))
        (fun o ho => hr o (by simp [ho]))
      exact ⟨m'', by rw [Mat.history, List.foldlM_cons, h1]; exact h3, h4⟩
  obtain ⟨m, h1, h2⟩ := key ops (Mat.withCapacity cap)
    ⟨by simp [Mat.Rect, Mat.withCapacity], fun _ => rfl⟩ hs hr
  exact ⟨m, h1, h2.1, h2.2⟩

/-- C01, a second part that holds: rows may be empty if `add_mut_row` is not used at all. -/
theorem C01_partial_any_rows (cap : Nat × Nat) (ops : List (MatOp α)) (hs : ∀ o ∈ ops, o.Sane)
    (hr : ∀ o ∈ ops, o.Plain) :
    ∃ m, (Mat.withCapacity cap).history ops = some m ∧ m.Rect := by
  have key : ∀ (ops : List (MatOp α)) (m : Mat α), m.Rect → (∀ o ∈ ops, o.Sane) →
      (∀ o ∈ ops, o.Plain) →
      ∃ m', m.history ops = some m' ∧ m'.Rect := by
    intro ops
    induction ops with
    | nil => exact fun m hm _ _ => ⟨m, rfl, hm⟩
    | cons o ops ih =>
      intro m hm hs hr
      obtain ⟨m', h1, h2, -⟩ := apply_rect hm o (hs o (by simp)) (hr o (by simp))
      obtain ⟨m'', h3, h4⟩ := ih m' h2 (fun o ho => hs o (by simp [ho]))
        (fun o ho => hr o (by simp [ho]))
      exact ⟨m'', by rw [Mat.history, List.foldlM_cons, h1]; exact h3, h4⟩
  exact key ops (Mat.withCapacity cap) (by simp [Mat.Rect, Mat.withCapacity]) hs hr

/-- A history that uses every kind of call covered by `C01_partial`, with a rejected row, a
rejected write and a deletion in it. -/
example : let ops : List (MatOp Int) := [.addRow [1, 2], .addMutRow [3, 4], .addRow [9],
      .addRow [5, 6], .elmSet 0 1 7, .elmSet 5 5 0, .rowSet 1 (fun j => j + 8), .delRow 0, .dealloc,
      .addMut (Mat.fromBody [1, 1, 1, 1] (2, 2)), .addScalar 1, .mulScalar 2]
    (∀ o ∈ ops, o.Sane) ∧ (∀ o ∈ ops, o.NonemptyRows)
      ∧ (Mat.withCapacity (3, 2)).history ops = some (Mat.fromBody [20, 22, 14, 16] (2, 2)) := by
  refine ⟨?_, ?_, rfl⟩ <;>
    simp [MatOp.Sane, MatOp.NonemptyRows, Mat.Rect, Mat.fromBody]

end History

/-! ## C08 flip -/

theorem range_reverse (n : Nat) : (List.range n).reverse = (List.range n).map (fun i => n - 1 - i) := by
  apply List.ext_getElem?
  intro i
  by_cases hi : i < n
  · rw [List.getElem?_reverse (by simpa using hi)]
    simp [hi, show n - 1 - i < n by omega]
  · simp [hi]

/-- The flip of a rectangular matrix. -/
theorem flip_is {m : Mat α} {r c : Nat} {f : Nat → Nat → α} (h : m.Is r c f) :
    m.flip = some (.ok (fromBody (table r c fun i j => f (r - 1 - i) (c - 1 - j)) (r, c))) := by
  unfold Mat.flip
  rw [h.1]
  simp only
  rw [mapM_some_of _ (fun i => (List.range c).reverse.map fun j => f i j)]
  · simp only [Option.bind_eq_bind, Option.bind_some]
    rw [range_reverse r, range_reverse c]
    simp [table, List.flatMap_def, Function.comp_def]
  · intro i hi
    have hi : i < r := by simpa using hi
    apply mapM_some_of
    intro j hj
    have hj : j < c := by simpa using hj
    rw [C02_elm h]
    simp [hi, hj, unwrap]

/-- C08. `flip` keeps the shape and reverses both axes, for every rectangular matrix. -/
theorem C08_flip {m : Mat α} {r c : Nat} {f : Nat → Nat → α} (h : m.Is r c f) :
    ∃ m', m.flip = some (.ok m') ∧ m'.Is r c (fun i j => f (r - 1 - i) (c - 1 - j)) :=
  ⟨_, flip_is h, rfl, rfl⟩

/-- C08. Flipping twice gives back the elements. -/
theorem C08_flip_flip [Nonempty α] {m : Mat α} (h : m.Rect) :
    ∃ m' m'', m.flip = some (.ok m') ∧ m'.flip = some (.ok m'') ∧ m''.shape = m.shape
      ∧ m''.body = m.body := by
  obtain ⟨f, hf⟩ := h.exists_is
  refine ⟨_, _, flip_is hf, flip_is (Mat.fromBody_is _ _ _), rfl, ?_⟩
  rw [hf.2]
  apply table_congr
  intro i hi j hj
  rw [show m.shape.1 - 1 - (m.shape.1 - 1 - i) = i by omega,
    show m.shape.2 - 1 - (m.shape.2 - 1 - j) = j by omega]

example : (Mat.fromBody [1, 2, 3, 4, 5, 6] (2, 3)).flip
    = some (.ok (Mat.fromBody [6, 5, 4, 3, 2, 1] (2, 3))) := rfl

/-! ## C18 rows round-trip -/

/-- C18. `rows_as_iter` of a rectangular matrix with columns yields the rows in order. -/
theorem C18_rows {m : Mat α} {r c : Nat} {f : Nat → Nat → α} (h : m.Is r c f) (hc : 0 < c) :
    m.rowsAsIter = some ((List.range r).map fun i => (List.range c).map (f i)) := by
  rw [Mat.rowsAsIter, h.1, h.2]; exact chunks_table r c f hc

/-- C18. As many rows as the shape says, of the width the shape says, and their concatenation is
the body. -/
theorem C18_rows_roundtrip {m : Mat α} (h : m.Rect) (hc : 0 < m.shape.2) :
    ∃ rows, m.rowsAsIter = some rows ∧ rows.length = m.shape.1
      ∧ (∀ row ∈ rows, row.length = m.shape.2) ∧ rows.flatten = m.getBody := by
  by_cases hb : m.body = []
  · have hr : m.shape.1 = 0 := by
      unfold Mat.Rect at h; rw [hb] at h
      rcases Nat.mul_eq_zero.mp h.symm with h | h <;> omega
    refine ⟨[], ?_, by simp [hr], by simp, by simp [Mat.getBody, hb]⟩
    simp [Mat.rowsAsIter, chunks, hb, chunksPos, chunksAux, Nat.ne_of_gt hc]
  · obtain ⟨a, -⟩ := List.exists_mem_of_ne_nil _ hb
    haveI : Nonempty α := ⟨a⟩
    obtain ⟨f, hf⟩ := h.exists_is
    refine ⟨_, C18_rows hf hc, by simp, ?_, ?_⟩
    · simp only [List.mem_map]
      rintro _ ⟨i, -, rfl⟩
      simp
    · rw [Mat.getBody, hf.2]; simp [table, List.flatMap_def]

/-- C18. A matrix with no columns cannot be iterated by rows: it panics. -/
theorem C18_rows_zero_cols (m : Mat α) (h : m.shape.2 = 0) : m.rowsAsIter = none := by
  simp [Mat.rowsAsIter, chunks, h]

/-- C18. `to_matrix` succeeds exactly for the right length, and exporting returns the slice. -/
theorem C18_toMatrix (l : List α) (r c : Nat) :
    (l.length = r * c → ∃ m, Mat.toMatrix l (r, c) = .ok m ∧ m.Rect ∧ m.shape = (r, c)
        ∧ m.getBody = l)
      ∧ (l.length ≠ r * c → Mat.toMatrix l (r, c) = .error .inconsistentShape) := by
  constructor
  · intro h
    exact ⟨fromBody l (r, c), by simp [Mat.toMatrix, h], h, rfl, rfl⟩
  · intro h; simp [Mat.toMatrix, h]

example : (Mat.fromBody [1, 2, 3, 4, 5, 6] (3, 2)).rowsAsIter = some [[1, 2], [3, 4], [5, 6]] := rfl

end Renplex
