import Verif.Lemmas.List
import Verif.Spec.Lawful
import Mathlib.Algebra.BigOperators.Intervals
import Mathlib.Tactic.Ring
/-!
# More about tables: splitting, products of ranges, sums
-/

namespace Renplex
variable {α β : Type}

theorem table_add (r s c : Nat) (f : Nat → Nat → α) :
    table (r + s) c f = table r c f ++ table s c (fun i j => f (r + i) j) := by
  simp [table, List.range_add, List.flatMap_map]

/-- `0 .. a*b` listed in blocks of `b`. -/
theorem range_mul (a b : Nat) : List.range (a * b) = table a b (fun i j => i * b + j) := by
  induction a with
  | zero => simp [table]
  | succ a ih => rw [Nat.succ_mul, List.range_add, ih, table_succ_last]

theorem range_map_mul (a b : Nat) (f : Nat → α) :
    (List.range (a * b)).map f = table a b (fun i j => f (i * b + j)) := by
  rw [range_mul, table_map]

theorem range_map_add (a b : Nat) (f : Nat → α) :
    (List.range (a + b)).map f = (List.range a).map f ++ (List.range b).map (fun i => f (a + i)) := by
  simp [List.range_add]

theorem range_map_const (n : Nat) (a : α) : (List.range n).map (fun _ => a) = List.replicate n a := by
  rw [List.map_const', List.length_range]

theorem range_map_congr {n : Nat} {f g : Nat → α} (h : ∀ i, i < n → f i = g i) :
    (List.range n).map f = (List.range n).map g :=
  List.map_congr_left fun i hi => h i (List.mem_range.mp hi)

theorem zip_range_map (n : Nat) (f : Nat → α) (g : Nat → β) :
    ((List.range n).map f).zip ((List.range n).map g) = (List.range n).map fun i => (f i, g i) := by
  rw [List.zip_map, List.zip_eq_zipWith]
  simp [List.zipWith_self]

/-- Every list is the listing of a function over its indices. -/
theorem exists_range_map [Nonempty α] (l : List α) : ∃ f, l = (List.range l.length).map f := by
  obtain ⟨f, hf⟩ := exists_table 1 l.length l (by simp)
  exact ⟨f 0, by rw [table_one] at hf; exact hf⟩

theorem foldl_range_sum [AddCommMonoid α] (n : Nat) (f : Nat → α) (a : α) :
    (List.range n).foldl (fun acc i => acc + f i) a = a + ∑ i ∈ Finset.range n, f i := by
  induction n with
  | zero => simp
  | succ n ih => rw [List.range_succ, List.foldl_append, ih, Finset.sum_range_succ]; simp [add_assoc]

theorem sum_range_list [AddCommMonoid α] (n : Nat) (f : Nat → α) :
    ((List.range n).map f).sum = ∑ i ∈ Finset.range n, f i := by
  induction n with
  | zero => simp
  | succ n ih => rw [List.range_succ, Finset.sum_range_succ]; simp [ih]

theorem foldl_add_sum [AddCommMonoid α] (l : List α) (a : α) :
    l.foldl (· + ·) a = a + l.sum := by
  induction l generalizing a with
  | nil => simp
  | cons x l ih => simp [ih, add_assoc]

theorem table_sum [AddCommMonoid α] (r c : Nat) (f : Nat → Nat → α) :
    (table r c f).sum = ∑ i ∈ Finset.range r, ∑ j ∈ Finset.range c, f i j := by
  induction r with
  | zero => simp [table]
  | succ r ih => rw [table_succ_last, List.sum_append, ih, sum_range_list, Finset.sum_range_succ]

/-- Shifting a sum: only the window `[a, a + R)` of `range r` contributes. -/
theorem sum_window [AddCommMonoid α] (r a R : Nat) (h : a + R ≤ r) (F : Nat → α) :
    (∑ i ∈ Finset.range r, if a ≤ i ∧ i < a + R then F i else 0)
      = ∑ i ∈ Finset.range R, F (a + i) := by
  obtain ⟨k, rfl⟩ : ∃ k, r = a + R + k := ⟨r - (a + R), by omega⟩
  rw [Finset.sum_range_add, Finset.sum_range_add]
  rw [Finset.sum_eq_zero (s := Finset.range a), Finset.sum_eq_zero (s := Finset.range k)]
  · simp only [zero_add, add_zero]
    apply Finset.sum_congr rfl
    intro i hi
    rw [Finset.mem_range] at hi
    rw [if_pos (by omega)]
  · intro i hi
    rw [if_neg (by omega)]
  · intro i hi
    rw [Finset.mem_range] at hi
    rw [if_neg (by omega)]

theorem scalarProd_range [BasicOps α] [CommRing α] [LawfulOps α] (n : Nat) (f g : Nat → α) :
    scalarProd ((List.range n).map f) ((List.range n).map g)
      = ∑ i ∈ Finset.range n, f i * g i := by
  unfold scalarProd
  rw [zip_range_map, List.foldl_map]
  simp only [LawfulOps.add_eq, LawfulOps.mul_eq, LawfulOps.zero_eq]
  rw [foldl_range_sum, zero_add]

theorem scalarProd_eq_sum [BasicOps α] [CommRing α] [LawfulOps α] (l r : List α) :
    scalarProd l r = (List.zipWith (· * ·) l r).sum := by
  unfold scalarProd
  simp only [LawfulOps.add_eq, LawfulOps.mul_eq, LawfulOps.zero_eq]
  have : ∀ a : α, (l.zip r).foldl (fun acc p => acc + p.1 * p.2) a
      = a + (List.zipWith (fun x y => x * y) l r).sum := by
    induction l generalizing r with
    | nil => simp
    | cons x l ih =>
      cases r with
      | nil => simp
      | cons y r => intro a; simp [ih, add_assoc]
  rw [this, zero_add]

end Renplex
