import Verif.Spec.Matrix
/-!
# List lemmas about the iterator adaptors of `Verif.Model.Basic` and about tables
-/

namespace Renplex
variable {α β γ : Type}

/-! ## `Option`-valued `mapM`, folds -/

theorem mapM_some_of (f : α → Option β) (g : α → β) (l : List α)
    (h : ∀ x ∈ l, f x = some (g x)) : l.mapM f = some (l.map g) := by
  induction l with
  | nil => rfl
  | cons a l ih =>
    rw [List.mapM_cons, h a (by simp), ih (fun x hx => h x (by simp [hx]))]
    rfl

theorem mapM_eq_none_of (f : α → Option β) (l : List α) (x : α) (hx : x ∈ l) (h : f x = none) :
    l.mapM f = none := by
  induction l with
  | nil => cases hx
  | cons a l ih =>
    rw [List.mapM_cons]
    rcases List.mem_cons.mp hx with rfl | hx
    · rw [h]; rfl
    · cases f a with
      | none => rfl
      | some b => simp [ih hx]

theorem mapM_length {f : α → Option β} {l : List α} {r : List β} (h : l.mapM f = some r) :
    r.length = l.length := by
  induction l generalizing r with
  | nil => cases h; rfl
  | cons a l ih =>
    rw [List.mapM_cons] at h
    cases ha : f a with
    | none => simp [ha] at h
    | some b =>
      cases hl : l.mapM f with
      | none => simp [ha, hl] at h
      | some bs =>
        simp [ha, hl] at h
        subst h
        simp [ih hl]

theorem mapM_some_iff (f : α → Option β) (l : List α) :
    (∃ r, l.mapM f = some r) ↔ ∀ x ∈ l, ∃ y, f x = some y := by
  constructor
  · rintro ⟨r, hr⟩ x hx
    cases hfx : f x with
    | none => rw [mapM_eq_none_of f l x hx hfx] at hr; cases hr
    | some y => exact ⟨y, rfl⟩
  · intro h
    induction l with
    | nil => exact ⟨[], rfl⟩
    | cons a l ih =>
      obtain ⟨y, hy⟩ := h a (by simp)
      obtain ⟨r, hr⟩ := ih (fun x hx => h x (by simp [hx]))
      exact ⟨y :: r, by rw [List.mapM_cons, hy, hr]; rfl⟩

theorem mapM_getElem? {f : α → Option β} {l : List α} {r : List β} (h : l.mapM f = some r)
    (i : Nat) : r[i]? = l[i]? >>= f := by
  induction l generalizing r i with
  | nil => cases h; simp
  | cons a l ih =>
    rw [List.mapM_cons] at h
    cases ha : f a with
    | none => simp [ha] at h
    | some b =>
      cases hl : l.mapM f with
      | none => simp [ha, hl] at h
      | some bs =>
        simp [ha, hl] at h
        subst h
        cases i with
        | zero => simp [ha]
        | succ i => simpa using ih hl i

theorem mapM_eq_some_iff (f : α → Option β) (l : List α) (r : List β) :
    l.mapM f = some r ↔ r.length = l.length
      ∧ ∀ (i : Nat) (h : i < l.length) (h' : i < r.length), f l[i] = some r[i] := by
  constructor
  · intro h
    refine ⟨mapM_length h, fun i hi hi' => ?_⟩
    have := mapM_getElem? h i
    rw [List.getElem?_eq_getElem hi, List.getElem?_eq_getElem hi'] at this
    exact this.symm
  · rintro ⟨hl, h⟩
    induction l generalizing r with
    | nil => cases r with
      | nil => rfl
      | cons b r => simp at hl
    | cons a l ih => cases r with
      | nil => simp at hl
      | cons b r =>
        have h0 := h 0 (by simp) (by simp)
        simp only [List.getElem_cons_zero] at h0
        rw [List.mapM_cons, h0, ih r (by simpa using hl) (fun i hi hi' =>
          h (i + 1) (Nat.succ_lt_succ hi) (Nat.succ_lt_succ hi'))]
        rfl

theorem mapM_eq_none_iff (f : α → Option β) (l : List α) :
    l.mapM f = none ↔ ∃ x ∈ l, f x = none := by
  constructor
  · intro h
    refine Classical.byContradiction fun hcon => ?_
    obtain ⟨r, hr⟩ := (mapM_some_iff f l).mpr
      (fun x hx => Option.ne_none_iff_exists'.mp (fun h0 => hcon ⟨x, hx, h0⟩))
    rw [hr] at h
    cases h
  · rintro ⟨x, hx, h⟩
    exact mapM_eq_none_of f l x hx h

theorem mapM_congr {f g : α → Option β} {l : List α} (h : ∀ x ∈ l, f x = g x) :
    l.mapM f = l.mapM g := by
  induction l with
  | nil => rfl
  | cons a l ih =>
    rw [List.mapM_cons, List.mapM_cons, h a (by simp), ih (fun x hx => h x (by simp [hx]))]

theorem mapM_map' (f : β → Option γ) (g : α → β) (l : List α) :
    (l.map g).mapM f = l.mapM (fun x => f (g x)) := by
  induction l with
  | nil => rfl
  | cons a l ih => rw [List.map_cons, List.mapM_cons, List.mapM_cons, ih]

theorem foldlM_some_of (f : β → α → Option β) (g : β → α → β) (l : List α) (b : β)
    (h : ∀ b, ∀ x ∈ l, f b x = some (g b x)) : l.foldlM f b = some (l.foldl g b) := by
  induction l generalizing b with
  | nil => rfl
  | cons a l ih =>
    rw [List.foldlM_cons, h b a (by simp), List.foldl_cons]
    exact ih (g b a) (fun b x hx => h b x (by simp [hx]))

/-- `foldlM` under an invariant on the accumulator. -/
theorem foldlM_some_inv (P : β → Prop) (f : β → α → Option β) (g : β → α → β) (l : List α) (b : β)
    (hb : P b) (h : ∀ b, P b → ∀ x ∈ l, f b x = some (g b x) ∧ P (g b x)) :
    l.foldlM f b = some (l.foldl g b) ∧ P (l.foldl g b) := by
  induction l generalizing b with
  | nil => exact ⟨rfl, hb⟩
  | cons a l ih =>
    obtain ⟨h1, h2⟩ := h b hb a (by simp)
    rw [List.foldlM_cons, h1, List.foldl_cons]
    exact ih (g b a) h2 (fun b hb x hx => h b hb x (by simp [hx]))

/-! ## `zipUpd` -/

theorem zipUpd_eq_zipWith (f : α → β → α) (l : List α) (r : List β) (h : l.length = r.length) :
    zipUpd f l r = List.zipWith f l r := by
  induction l generalizing r with
  | nil => cases r <;> simp_all [zipUpd]
  | cons a l ih =>
    cases r with
    | nil => simp at h
    | cons b r => simp [zipUpd, ih r (by simpa using h)]

theorem zipUpd_length (f : α → β → α) (l : List α) (r : List β) :
    (zipUpd f l r).length = l.length := by
  induction l generalizing r with
  | nil => cases r <;> simp [zipUpd]
  | cons a l ih => cases r <;> simp [zipUpd, ih]

/-! ## Tables -/

theorem table_zero (c : Nat) (f : Nat → Nat → α) : table 0 c f = [] := by simp [table]

theorem table_succ (r c : Nat) (f : Nat → Nat → α) :
    table (r + 1) c f = (List.range c).map (f 0) ++ table r c (fun i j => f (i + 1) j) := by
  simp [table, List.range_succ_eq_map, List.flatMap_cons, List.flatMap_map]

theorem table_succ_last (r c : Nat) (f : Nat → Nat → α) :
    table (r + 1) c f = table r c f ++ (List.range c).map (f r) := by
  simp [table, List.range_succ]

theorem table_length (r c : Nat) (f : Nat → Nat → α) : (table r c f).length = r * c := by
  induction r generalizing f with
  | zero => simp [table]
  | succ r ih => rw [table_succ, List.length_append, ih]; simp [Nat.succ_mul, Nat.add_comm]

theorem idx_lt {r c i j : Nat} (hi : i < r) (hj : j < c) : i * c + j < r * c := by
  have : (i + 1) * c ≤ r * c := Nat.mul_le_mul_right c hi
  rw [Nat.succ_mul] at this
  omega

theorem table_getElem? (r c : Nat) (f : Nat → Nat → α) {i j : Nat} (hi : i < r) (hj : j < c) :
    (table r c f)[i * c + j]? = some (f i j) := by
  induction r generalizing f i with
  | zero => omega
  | succ r ih =>
    rw [table_succ]
    cases i with
    | zero => simp [List.getElem?_append, hj]
    | succ i =>
      rw [List.getElem?_append_right (by simp [Nat.succ_mul]; omega)]
      have : (i + 1) * c + j - ((List.range c).map (f 0)).length = i * c + j := by
        simp [Nat.succ_mul]; omega
      rw [this]
      exact ih (fun i j => f (i + 1) j) (by omega)

theorem table_congr {r c : Nat} {f g : Nat → Nat → α}
    (h : ∀ i, i < r → ∀ j, j < c → f i j = g i j) : table r c f = table r c g := by
  unfold table
  rw [List.flatMap_def, List.flatMap_def]
  congr 1
  apply List.map_congr_left
  intro i hi
  apply List.map_congr_left
  intro j hj
  exact h i (List.mem_range.mp hi) j (List.mem_range.mp hj)

theorem table_inj {r c : Nat} {f g : Nat → Nat → α} (h : table r c f = table r c g) :
    ∀ i, i < r → ∀ j, j < c → f i j = g i j := by
  intro i hi j hj
  have h1 := table_getElem? r c f hi hj
  rw [h, table_getElem? r c g hi hj] at h1
  exact (Option.some.inj h1).symm

theorem table_map (r c : Nat) (f : Nat → Nat → α) (g : α → β) :
    (table r c f).map g = table r c (fun i j => g (f i j)) := by
  simp [table, List.map_flatMap, Function.comp_def]

theorem table_zipWith (r c : Nat) (f : Nat → Nat → α) (g : Nat → Nat → β) (op : α → β → γ) :
    List.zipWith op (table r c f) (table r c g) = table r c (fun i j => op (f i j) (g i j)) := by
  induction r generalizing f g with
  | zero => simp [table]
  | succ r ih =>
    rw [table_succ, table_succ, table_succ, List.zipWith_append (by simp), ih]
    congr 1
    simp [List.zipWith_map_left, List.zipWith_map_right]

theorem table_replicate (r c : Nat) (a : α) :
    List.replicate (r * c) a = table r c (fun _ _ => a) := by
  induction r with
  | zero => simp [table]
  | succ r ih =>
    rw [table_succ, ← ih, Nat.succ_mul, Nat.add_comm, ← List.replicate_append_replicate]
    rw [List.map_const', List.length_range]

theorem table_one (c : Nat) (f : Nat → Nat → α) : table 1 c f = (List.range c).map (f 0) := by
  simp [table]

theorem table_drop (r c : Nat) (f : Nat → Nat → α) (k : Nat) (hk : k ≤ r) :
    (table r c f).drop (k * c) = table (r - k) c (fun i j => f (k + i) j) := by
  induction k generalizing r f with
  | zero => simp
  | succ k ih =>
    cases r with
    | zero => omega
    | succ r =>
      rw [table_succ, Nat.succ_mul, Nat.add_comm, ← List.drop_drop]
      rw [List.drop_left' (by simp)]
      rw [ih r _ (by omega)]
      rw [Nat.add_sub_add_right]
      exact table_congr fun i _ j _ => by rw [show k + i + 1 = k + 1 + i by omega]

theorem table_take (r c : Nat) (f : Nat → Nat → α) (k : Nat) (hk : k ≤ r) :
    (table r c f).take (k * c) = table k c f := by
  induction k generalizing r f with
  | zero => simp [table]
  | succ k ih =>
    cases r with
    | zero => omega
    | succ r =>
      rw [table_succ, table_succ, Nat.succ_mul, Nat.add_comm, List.take_append]
      simp only [List.length_map, List.length_range, Nat.add_sub_cancel_left]
      rw [ih r _ (by omega), List.take_of_length_le (by simp)]

/-- Every list of the right length is the table of its entries. -/
theorem exists_table [Nonempty α] (r c : Nat) (l : List α) (h : l.length = r * c) :
    ∃ f, l = table r c f := by
  obtain ⟨d⟩ := (inferInstance : Nonempty α)
  refine ⟨fun i j => l.getD (i * c + j) d, ?_⟩
  apply List.ext_getElem?
  intro n
  by_cases hn : n < r * c
  · have hc : 0 < c := Nat.pos_of_ne_zero (by rintro rfl; simp at hn)
    have e : n / c * c + n % c = n := Nat.div_add_mod' n c
    have hi : n / c < r := Nat.div_lt_of_lt_mul (by rwa [Nat.mul_comm])
    have hj : n % c < c := Nat.mod_lt _ hc
    have := table_getElem? r c (fun i j => l.getD (i * c + j) d) hi hj
    rw [e] at this
    rw [this, List.getElem?_eq_getElem (by omega), List.getD_eq_getElem?_getD]
    rw [List.getElem?_eq_getElem (by omega)]
    rfl
  · rw [List.getElem?_eq_none (by omega), List.getElem?_eq_none (by rw [table_length]; omega)]

theorem Mat.Is.rect {m : Mat α} {r c : Nat} {f : Nat → Nat → α} (h : m.Is r c f) : m.Rect := by
  unfold Mat.Rect; rw [h.1, h.2, table_length]

theorem Mat.Rect.exists_is [Nonempty α] {m : Mat α} (h : m.Rect) :
    ∃ f, m.Is m.shape.1 m.shape.2 f := by
  obtain ⟨f, hf⟩ := exists_table m.shape.1 m.shape.2 m.body h
  exact ⟨f, rfl, hf⟩

theorem Mat.fromBody_is (r c : Nat) (f : Nat → Nat → α) :
    (Mat.fromBody (table r c f) (r, c)).Is r c f := ⟨rfl, rfl⟩

/-! ## Slices, chunks, windows of tables -/

theorem slice_eq_some (l : List α) (a b : Nat) (h1 : a ≤ b) (h2 : b ≤ l.length) :
    slice l a b = some ((l.drop a).take (b - a)) := by simp [slice, h1, h2]

theorem slice_table (r c : Nat) (f : Nat → Nat → α) (i k : Nat) (h : i + k ≤ r) :
    slice (table r c f) (i * c) (i * c + k * c) = some (table k c (fun a j => f (i + a) j)) := by
  rw [slice_eq_some]
  · rw [table_drop r c f i (by omega)]
    have : i * c + k * c - i * c = k * c := by omega
    rw [this, table_take _ _ _ _ (by omega)]
  · omega
  · rw [table_length, ← Nat.add_mul]; exact Nat.mul_le_mul_right c h

theorem slice_table_row (r c : Nat) (f : Nat → Nat → α) (i : Nat) (h : i < r) :
    slice (table r c f) (i * c) (i * c + c) = some ((List.range c).map (f i)) := by
  have := slice_table r c f i 1 (by omega)
  rw [Nat.one_mul, table_one] at this
  simpa using this

theorem chunksAux_nil (n fuel : Nat) : chunksAux n fuel ([] : List α) = [] := by
  cases fuel <;> rfl

theorem chunksAux_table (r c : Nat) (f : Nat → Nat → α) (hc : 0 < c) (fuel : Nat)
    (hf : r * c ≤ fuel) :
    chunksAux c fuel (table r c f) = (List.range r).map fun i => (List.range c).map (f i) := by
  induction r generalizing f fuel with
  | zero => simp [table_zero, chunksAux_nil]
  | succ r ih =>
    rw [Nat.succ_mul] at hf
    obtain ⟨fuel, rfl⟩ : ∃ k, fuel = k + 1 := ⟨fuel - 1, by omega⟩
    cases hl : table (r + 1) c f with
    | nil =>
      have := table_length (r + 1) c f
      rw [hl] at this
      simp [Nat.succ_mul] at this
      omega
    | cons a l =>
      rw [chunksAux, ← hl]
      have h1 : (table (r + 1) c f).take c = (List.range c).map (f 0) := by
        rw [table_succ, List.take_left' (by simp)]
      have h2 : (table (r + 1) c f).drop c = table r c (fun i j => f (i + 1) j) := by
        rw [table_succ, List.drop_left' (by simp)]
      rw [h1, h2, ih _ _ (by omega), List.range_succ_eq_map]
      simp

theorem chunks_table (r c : Nat) (f : Nat → Nat → α) (hc : 0 < c) :
    chunks c (table r c f) = some ((List.range r).map fun i => (List.range c).map (f i)) := by
  rw [chunks, if_neg (by omega), chunksPos]
  rw [chunksAux_table r c f hc _ (by rw [table_length]; exact Nat.le_refl _)]

theorem windows_range_map (k n : Nat) (f : Nat → α) (hk : 0 < k) :
    windows k ((List.range n).map f)
      = some ((List.range (n + 1 - k)).map fun j => (List.range k).map fun b => f (j + b)) := by
  rw [windows, if_neg (by omega)]
  congr 1
  simp only [List.length_map, List.length_range]
  apply List.map_congr_left
  intro i hi
  rw [List.mem_range] at hi
  apply List.ext_getElem?
  intro a
  by_cases ha : a < k
  · simp [ha, show i + a < n by omega]
  · simp [List.getElem?_take, ha]

theorem drainFront_append (n : Nat) (l₁ l₂ : List α) (h : l₁.length = n) :
    drainFront n (l₁ ++ l₂) = some (l₁, l₂) := by
  subst h; simp [drainFront]

end Renplex
