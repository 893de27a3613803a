import Verif.Props.Nan
import Verif.Props.ExampleNets
/-!
# NaN spreads over convolutional networks

The analogue of C87 for images. Forwards a kernel meets a pixel only at some places, so a layer of
filters hands on at least one number that is not a number, and the first dense layer spreads it over all
its units. Backwards it is enough that each map of the derivative has one such number somewhere: each kernel
and each bias sums over the whole map.
-/

namespace Renplex
variable {α P : Type}

/-- The first `n` chunks of length `k` each have such a number. -/
def InEach (N : α → Prop) (k : Nat) : Nat → List α → Prop
  | 0, _ => True
  | n + 1, d => (∃ e ∈ d.take k, N e) ∧ InEach N k n (d.drop k)

theorem forall₂_partner {β : Type} {R : α → β → Prop} {d : List α} {r : List β} (h : List.Forall₂ R d r) {a : α} (ha : a ∈ d) :
    ∃ b ∈ r, R a b := by
  induction h with
  | nil => cases ha
  | cons h _ ih =>
    rcases List.mem_cons.mp ha with rfl | ha
    · exact ⟨_, by simp, h⟩
    · obtain ⟨b, hb, h'⟩ := ih ha
      exact ⟨b, by simp [hb], h'⟩

theorem InEach.of_forall₂ {N : α → Prop} {k n : Nat} {d r : List α}
    (h : List.Forall₂ (fun a b => N a → N b) d r) (hd : InEach N k n d) : InEach N k n r := by
  induction n generalizing d r with
  | zero => trivial
  | succ n ih =>
    obtain ⟨⟨e, he, hN⟩, h2⟩ := hd
    refine ⟨?_, ih (List.forall₂_drop k h) h2⟩
    obtain ⟨b, hb, h3⟩ := forall₂_partner (List.forall₂_take k h) he
    exact ⟨b, hb, h3 hN⟩

theorem InEach.of_flatten {N : α → Prop} {k : Nat} {parts : List (List α)}
    (hl : ∀ l ∈ parts, l.length = k) (hN : ∀ l ∈ parts, ∃ e ∈ l, N e) : InEach N k parts.length parts.flatten := by
  induction parts with
  | nil => trivial
  | cons l parts ih =>
    have h := hl l (by simp)
    refine ⟨?_, ?_⟩
    · rw [List.flatten_cons, List.take_append_of_le_length (by omega), List.take_of_length_le (by omega)]
      exact hN l (by simp)
    · rw [List.flatten_cons, ← h, List.drop_left]
      rw [h]
      exact ih (fun l hl' => hl l (by simp [hl'])) fun l hl' => hN l (by simp [hl'])

theorem InEach.of_all {N : α → Prop} {k n : Nat} {d : List α} (hk : 0 < k) (hd : d.length = n * k)
    (h : ∀ e ∈ d, N e) : InEach N k n d := by
  induction n generalizing d with
  | zero => trivial
  | succ n ih =>
    rw [Nat.succ_mul] at hd
    refine ⟨?_, ih (by rw [List.length_drop]; omega) fun e he => h e (List.mem_of_mem_drop he)⟩
    obtain ⟨e, he⟩ := List.exists_mem_of_length_pos (l := d.take k) (by rw [List.length_take]; omega)
    exact ⟨e, he, h e (List.mem_of_mem_take he)⟩

theorem zipUpd_forall₂ {f : α → α → α} {R : α → α → Prop} {l r : List α} (hl : l.length = r.length)
    (h : ∀ a b, R b (f a b)) : List.Forall₂ R r (zipUpd f l r) := by
  induction l generalizing r with
  | nil => cases r with
    | nil => exact .nil
    | cons b r => simp at hl
  | cons a l ih => cases r with
    | nil => simp at hl
    | cons b r => exact .cons (h a b) (ih (by simpa using hl))

theorem mem_table {r c : Nat} {f : Nat → Nat → α} {e : α} :
    e ∈ table r c f ↔ ∃ i, i < r ∧ ∃ j, j < c ∧ e = f i j := by
  unfold table
  simp only [List.mem_flatMap, List.mem_range, List.mem_map]
  constructor
  · rintro ⟨i, hi, j, hj, rfl⟩; exact ⟨i, hi, j, hj, rfl⟩
  · rintro ⟨i, hi, j, hj, rfl⟩; exact ⟨i, hi, j, hj, rfl⟩

/-- The entries of a list of maps. -/
theorem MapsAre.mem_flat {ms : List (Mat α)} {n r c : Nat} {X : Nat → Nat → Nat → α} (h : MapsAre ms n r c X)
    {e : α} : e ∈ (IOType.matrix ms).flat ↔ ∃ ch, ch < n ∧ ∃ i, i < r ∧ ∃ j, j < c ∧ e = X ch i j := by
  constructor
  · intro he
    obtain ⟨m, hm, he⟩ := List.mem_flatMap.mp he
    obtain ⟨ch, hch, rfl⟩ := List.getElem_of_mem hm
    have h1 := h.2 ch _ (List.getElem?_eq_getElem hch)
    change e ∈ (ms[ch]).body at he
    rw [h1.2] at he
    obtain ⟨i, hi, j, hj, rfl⟩ := mem_table.mp he
    exact ⟨ch, h.1 ▸ hch, i, hi, j, hj, rfl⟩
  · rintro ⟨ch, hch, i, hi, j, hj, rfl⟩
    have hch' : ch < ms.length := h.1.symm ▸ hch
    refine List.mem_flatMap.mpr ⟨ms[ch], List.getElem_mem hch', ?_⟩
    have h1 := h.2 ch _ (List.getElem?_eq_getElem hch')
    change _ ∈ (ms[ch]).body
    rw [h1.2]
    exact mem_table.mpr ⟨i, hi, j, hj, rfl⟩

section
variable [CplxOps α P] {N M : α → Prop} (hN : Absorbs N)

include hN in
theorem Absorbs.foldl_addAssign {ι : Type} (l : List ι) (v : ι → α) (acc : α) (h : N acc ∨ ∃ a ∈ l, N (v a)) :
    N (l.foldl (fun acc a => BasicOps.addAssign acc (v a)) acc) := by
  induction l generalizing acc with
  | nil => exact h.resolve_right (by simp)
  | cons a l ih =>
    refine ih _ ?_
    rcases h with h | ⟨b, hb, h⟩
    · exact .inl (hN.addAssign_left h)
    · rcases List.mem_cons.mp hb with rfl | hb
      · exact .inl (hN.addAssign_right h)
      · exact .inr ⟨b, hb, h⟩

include hN in
theorem Absorbs.foldl_add (l : List α) (acc : α) (h : N acc ∨ ∃ a ∈ l, N a) : N (l.foldl BasicOps.add acc) := by
  induction l generalizing acc with
  | nil => exact h.resolve_right (by simp)
  | cons a l ih =>
    refine ih _ ?_
    rcases h with h | ⟨b, hb, h⟩
    · exact .inl (hN.add_left h)
    · rcases List.mem_cons.mp hb with rfl | hb
      · exact .inl (hN.add_right h)
      · exact .inr ⟨b, hb, h⟩

include hN in
theorem Absorbs.dotN_left (hL : ∀ a b, M a → N (BasicOps.mul a b)) (n : Nat) (w x : Nat → α)
    (h : ∃ b, b < n ∧ M (w b)) : N (Renplex.dotN n w x) := by
  have key : ∀ (l : List Nat) (acc : α), (N acc ∨ ∃ b ∈ l, M (w b)) →
      N (l.foldl (fun acc b => BasicOps.add acc (BasicOps.mul (w b) (x b))) acc) := by
    intro l
    induction l with
    | nil => exact fun acc h => h.resolve_right (by simp)
    | cons a l ih =>
      intro acc h
      refine ih _ ?_
      rcases h with h | ⟨b, hb, h⟩
      · exact .inl (hN.add_left h)
      · rcases List.mem_cons.mp hb with rfl | hb
        · exact .inl (hN.add_right (hL _ _ h))
        · exact .inr ⟨b, hb, h⟩
  obtain ⟨b, hb, h⟩ := h
  exact key _ _ (.inr ⟨b, List.mem_range.mpr hb, h⟩)

include hN in
/-- A window with such a number. -/
theorem Absorbs.corr_left (hL : ∀ a b, M a → N (BasicOps.mul a b)) {kr kc : Nat} {f g : Nat → Nat → α} {i j a b : Nat}
    (ha : a < kr) (hb : b < kc) (h : M (f (i + a) (j + b))) : N (corr kr kc f g i j) :=
  hN.foldl_addAssign _ _ _ (.inr ⟨a, List.mem_range.mpr ha, hN.dotN_left hL _ _ _ ⟨b, hb, h⟩⟩)

include hN in
/-- A kernel with such a number. -/
theorem Absorbs.corr_right {kr kc : Nat} {f g : Nat → Nat → α} {i j a b : Nat}
    (ha : a < kr) (hb : b < kc) (h : N (g a b)) : N (corr kr kc f g i j) :=
  hN.foldl_addAssign _ _ _ (.inr ⟨a, List.mem_range.mpr ha, hN.dotN (fun _ _ => hN.mul_right) _ _ _ ⟨b, hb, h⟩⟩)

/-! ## Forward -/

/-- The block function maps blocks with such a number to such numbers. -/
def PoolKeeps (M N : α → Prop) (f : List α → Run α) : Prop := ∀ b y, (∃ e ∈ b, M e) → f b = some y → N y

/-- Dense with at least one unit or convolutional, with an activation that keeps such numbers; pooling
with such a block function; or flatten. -/
def Layer.Conveys (M N : α → Prop) : Layer α → Prop
  | .dense d => d.biases ≠ [] ∧ ActKeeps N d.func
  | .conv d => ActKeeps N d.func
  | .reduce d => PoolKeeps M N d.blockFunc
  | .flatten _ => True

include hN in
theorem Absorbs.conv (hL : ∀ a b, M a → N (BasicOps.mul a b)) {l : Conv α} (hw : (Layer.conv l).WF)
    (ht : (Layer.conv l).Total) (hf : ActKeeps N l.func) {s s' : Size} (hs : (Layer.conv l).Fits s s') {x y : IOType α}
    (hx : x.HasSize s) (h : l.forward x = some (.ok y)) (ho : (∃ e ∈ x.flat, M e) ∨ ∀ b ∈ l.biases, N b) :
    ∃ e ∈ y.flat, N e := by
  have : Nonempty α := ⟨BasicOps.zero⟩
  cases x with
  | scalar v => cases h
  | matrix ms =>
  cases s with
  | vec n => exact hs.elim
  | maps n r c =>
  cases s' with
  | vec n => exact hs.elim
  | maps nf r' c' =>
  obtain ⟨hn, hnf, hk0, p, q, hk, hp, hpr, hq, hqc, rfl, rfl⟩ := hs
  obtain ⟨K, b, hK⟩ := Conv.exists_is hw hk
  rw [hk0] at hK
  obtain ⟨X, hXs⟩ := MapsAre.exists_of hx
  choose A hA using ht
  obtain ⟨outs, h1, h2⟩ := C40_forward hK hnf hn hp hpr hq hqc hXs
    (fun o i j => A (BasicOps.addAssign (accN n fun ch => corr p q (X ch) (K o ch) i j) (b o)))
    (fun _ _ _ _ _ _ => hA _)
  rw [h1] at h
  cases h
  have key : ∃ i, i < r - p + 1 ∧ ∃ j, j < c - q + 1
      ∧ N (BasicOps.addAssign (accN n fun ch => corr p q (X ch) (K 0 ch) i j) (b 0)) := by
    rcases ho with ⟨e, he, hM⟩ | ho
    · obtain ⟨ch, hch, i, hi, j, hj, rfl⟩ := hXs.mem_flat.mp he
      refine ⟨min i (r - p), by omega, min j (c - q), by omega, hN.addAssign_left ?_⟩
      refine hN.foldl_addAssign _ _ _ (.inr ⟨ch, List.mem_range.mpr hch, ?_⟩)
      refine hN.corr_left hL (a := i - min i (r - p)) (b := j - min j (c - q)) (by omega) (by omega) ?_
      rwa [show min i (r - p) + (i - min i (r - p)) = i by omega,
        show min j (c - q) + (j - min j (c - q)) = j by omega]
    · refine ⟨0, by omega, 0, by omega, hN.addAssign_right (ho _ ?_)⟩
      rw [hK.2.1]
      exact List.mem_map.mpr ⟨0, List.mem_range.mpr hnf, rfl⟩
  obtain ⟨i, hi, j, hj, hkey⟩ := key
  exact ⟨_, h2.mem_flat.mpr ⟨0, hnf, i, hi, j, hj, rfl⟩, hf _ _ hkey (hA _)⟩

omit [CplxOps α P] in
theorem pool_keeps [CplxOps α P] {l : Reduce α} (ht : (Layer.reduce l).Total) (hf : PoolKeeps M N l.blockFunc) {s s' : Size}
    (hs : (Layer.reduce l).Fits s s') {x y : IOType α} (hx : x.HasSize s)
    (h : l.forward x = some (.ok y)) (ho : ∃ e ∈ x.flat, M e) : ∃ e ∈ y.flat, N e := by
  have : Nonempty α := ⟨BasicOps.zero⟩
  cases x with
  | scalar v => cases h
  | matrix ms =>
  cases s with
  | vec n => exact hs.elim
  | maps n r c =>
  cases s' with
  | vec n => exact hs.elim
  | maps n' r' c' =>
  obtain ⟨rfl, -, hr, hc, hp, hq, rfl, rfl⟩ := hs
  obtain ⟨X, hXs⟩ := MapsAre.exists_of hx
  have hy : ∀ ch i j, ∃ y, l.blockFunc ((List.range l.blockSize.1).flatMap fun a =>
      (List.range l.blockSize.2).map fun b => X ch (i * l.blockSize.1 + a) (j * l.blockSize.2 + b)) = some y := by
    intro ch i j
    refine ht _ ?_
    exact table_length l.blockSize.1 l.blockSize.2 fun a b => X ch (i * l.blockSize.1 + a) (j * l.blockSize.2 + b)
  choose Y hY using hy
  obtain ⟨outs, h1, h2⟩ := C41_reduce (l := l) rfl hp hq hr hc hXs (Y := Y) (fun ch _ i _ j _ => hY ch i j)
  rw [h1] at h
  cases h
  obtain ⟨e, he, hM⟩ := ho
  obtain ⟨ch, hch, i, hi, j, hj, rfl⟩ := hXs.mem_flat.mp he
  refine ⟨Y ch (i / l.blockSize.1) (j / l.blockSize.2), h2.mem_flat.mpr ⟨ch, hch, _, ?_, _, ?_, rfl⟩, ?_⟩
  · exact Nat.div_lt_of_lt_mul (by rwa [Nat.mul_comm])
  · exact Nat.div_lt_of_lt_mul (by rwa [Nat.mul_comm])
  · refine hf _ _ ⟨X ch i j, ?_, hM⟩ (hY ch _ _)
    refine List.mem_flatMap.mpr ⟨i % l.blockSize.1, List.mem_range.mpr (Nat.mod_lt _ hp), ?_⟩
    refine List.mem_map.mpr ⟨j % l.blockSize.2, List.mem_range.mpr (Nat.mod_lt _ hq), ?_⟩
    rw [Nat.mul_comm _ l.blockSize.1, Nat.mul_comm _ l.blockSize.2, Nat.div_add_mod, Nat.div_add_mod]

include hN in
/-- Every activation has such a number, and after a dense layer there are no others. -/
theorem Absorbs.conveys (hL : ∀ a b, M a → N (BasicOps.mul a b)) (hR : ∀ a b, M b → N (BasicOps.mul a b))
    (hNM : ∀ a, N a → M a) {ls : List (Layer α)} {s s' : Size} (hf : FitsChain ls s s') (hw : ∀ l ∈ ls, l.WF)
    (ht : ∀ l ∈ ls, l.Total) (hl : ∀ l ∈ ls, l.Conveys M N) {x : IOType α} {ys : List (IOType α)} (hx : x.HasSize s)
    (h : Chain ls x ys) (ho : ∃ e ∈ x.flat, M e) :
    (∀ z ∈ x :: ys, ∃ e ∈ z.flat, M e)
      ∧ ∀ y, (x :: ys).getLast? = some y → ((∃ d, Layer.dense d ∈ ls) → ∀ e ∈ y.flat, N e)
        ∧ (s = .vec s.len → (∀ e ∈ x.flat, N e) → ∀ e ∈ y.flat, N e) := by
  induction hf generalizing x ys with
  | nil s =>
    cases h
    refine ⟨by simpa using ho, fun y hy => ?_⟩
    cases hy
    exact ⟨by simp, fun _ h => h⟩
  | @cons l ls s s₁ s' h0 t ih =>
    cases h with
    | @cons _ _ _ z ys h1 h2 =>
    have hw0 := hw l (by simp)
    have ht0 := ht l (by simp)
    have hl0 := hl l (by simp)
    obtain ⟨z', e1, hz⟩ := Layer.forward_fits hw0 ht0 h0 hx
    rw [h1] at e1
    cases e1
    have ih := ih (fun l h => hw l (by simp [h])) (fun l h => ht l (by simp [h])) (fun l h => hl l (by simp [h])) hz h2
    have fin : (∃ e ∈ z.flat, M e) → ∀ z' ∈ x :: z :: ys, ∃ e ∈ z'.flat, M e := by
      intro hz z' hz'
      rcases List.mem_cons.mp hz' with rfl | hz'
      · exact ho
      · exact (ih hz).1 z' hz'
    cases l with
    | dense d =>
      obtain ⟨v, rfl, k1, k2⟩ := hN.dense hR hw0 hl0.2 h1 (.inl ho)
      obtain ⟨e, he⟩ := List.exists_mem_of_ne_nil v (by
        rintro rfl
        exact hl0.1 (List.eq_nil_of_length_eq_zero k1.symm))
      have hv : ∃ e ∈ (IOType.scalar v).flat, M e := ⟨e, he, hNM e (k2 e he)⟩
      refine ⟨fin hv, fun y hy => ?_⟩
      rw [List.getLast?_cons_cons] at hy
      have hall := ((ih hv).2 y hy).2 (by
        cases s₁ with
        | vec n => rfl
        | maps n r c => cases s <;> exact h0.elim) k2
      exact ⟨fun _ => hall, fun _ _ => hall⟩
    | conv d =>
      obtain ⟨e, he, k1⟩ := hN.conv hL hw0 ht0 hl0 h0 hx h1 (.inl ho)
      have hv : ∃ e ∈ z.flat, M e := ⟨e, he, hNM e k1⟩
      refine ⟨fin hv, fun y hy => ?_⟩
      rw [List.getLast?_cons_cons] at hy
      refine ⟨fun ⟨d, hd⟩ => ((ih hv).2 y hy).1 ⟨d, by simpa using hd⟩, fun hs => ?_⟩
      rw [hs] at h0
      exact h0.elim
    | reduce d =>
      obtain ⟨e, he, k1⟩ := pool_keeps ht0 hl0 h0 hx h1 ho
      have hv : ∃ e ∈ z.flat, M e := ⟨e, he, hNM e k1⟩
      refine ⟨fin hv, fun y hy => ?_⟩
      rw [List.getLast?_cons_cons] at hy
      refine ⟨fun ⟨d, hd⟩ => ((ih hv).2 y hy).1 ⟨d, by simpa using hd⟩, fun hs => ?_⟩
      rw [hs] at h0
      exact h0.elim
    | flatten f =>
      have hzx : z.flat = x.flat := by
        cases x with
        | scalar v => cases h1
        | matrix ms => cases h1; rfl
      have hv : ∃ e ∈ z.flat, M e := by rw [hzx]; exact ho
      refine ⟨fin hv, fun y hy => ?_⟩
      rw [List.getLast?_cons_cons] at hy
      refine ⟨fun ⟨d, hd⟩ => ((ih hv).2 y hy).1 ⟨d, by simpa using hd⟩, fun hs => ?_⟩
      rw [hs] at h0
      exact h0.elim

include hN in
theorem Absorbs.dense_chain (hR : ∀ a b, M b → N (BasicOps.mul a b)) (hNM : ∀ a, N a → M a) {ls : List (Layer α)}
    (hw : ∀ l ∈ ls, l.WF) (hl : ∀ l ∈ ls, l.Conveys M N) {x y : IOType α} {ys : List (IOType α)} (h : Chain ls x ys)
    {v : List α} (hx : x = .scalar v) (hv : v ≠ []) (ha : ∀ e ∈ v, N e) (hy : (x :: ys).getLast? = some y) :
    y.flat ≠ [] ∧ ∀ e ∈ y.flat, N e := by
  induction h generalizing v with
  | nil x =>
    cases hy
    subst hx
    exact ⟨hv, ha⟩
  | @cons l ls x z ys h1 h2 ih =>
    subst hx
    rw [List.getLast?_cons_cons] at hy
    have hl0 := hl l (by simp)
    cases l with
    | dense d =>
      obtain ⟨e, he⟩ := List.exists_mem_of_ne_nil v hv
      obtain ⟨v', k0, k1, k2⟩ := hN.dense (l := d) (x := .scalar v) hR (hw _ (by simp)) hl0.2 h1
        (.inl ⟨e, he, hNM e (ha e he)⟩)
      refine ih (fun l h => hw l (by simp [h])) (fun l h => hl l (by simp [h])) k0 ?_ k2 hy
      rintro rfl
      exact hl0.1 (List.eq_nil_of_length_eq_zero k1.symm)
    | conv d => cases h1
    | reduce d => cases h1
    | flatten d => cases h1

include hN in
/-- If the biases of a dense layer are such numbers, so is every prediction. -/
theorem Absorbs.lost (hR : ∀ a b, M b → N (BasicOps.mul a b)) (hNM : ∀ a, N a → M a) {ls : List (Layer α)}
    (hw : ∀ l ∈ ls, l.WF) (hl : ∀ l ∈ ls, l.Conveys M N) {x y : IOType α} {ys : List (IOType α)} (h : Chain ls x ys)
    (hd : ∃ d, Layer.dense d ∈ ls) (hb : ∀ d, Layer.dense d ∈ ls → ∀ b ∈ d.biases, N b)
    (hy : (x :: ys).getLast? = some y) : y.flat ≠ [] ∧ ∀ e ∈ y.flat, N e := by
  induction h with
  | nil x => simp at hd
  | @cons l ls x z ys h1 h2 ih =>
    rw [List.getLast?_cons_cons] at hy
    have hl0 := hl l (by simp)
    by_cases hc : ∃ d, l = .dense d
    · obtain ⟨d, rfl⟩ := hc
      obtain ⟨v, k0, k1, k2⟩ := hN.dense (l := d) hR (hw _ (by simp)) hl0.2 h1 (.inr (hb d (by simp)))
      refine hN.dense_chain hR hNM (fun l h => hw l (by simp [h])) (fun l h => hl l (by simp [h])) h2 k0 ?_ k2 hy
      rintro rfl
      exact hl0.1 (List.eq_nil_of_length_eq_zero k1.symm)
    · refine ih (fun l h => hw l (by simp [h])) (fun l h => hl l (by simp [h])) ?_ (fun d hd => hb d (by simp [hd])) hy
      obtain ⟨d, hd⟩ := hd
      rcases List.mem_cons.mp hd with rfl | hd
      · exact absurd ⟨d, rfl⟩ hc
      · exact ⟨d, hd⟩

/-! ## Backward -/

/-- A derivative with such numbers: everywhere for a vector, somewhere in each map for maps. -/
def Size.Seen (N : α → Prop) : Size → List α → Prop
  | .vec _, d => ∀ e ∈ d, N e
  | .maps n r c, d => InEach N (r * c) n d

omit [CplxOps α P] in
theorem mapM_zip_forall₂ {f : α × α → Option α} {q d r : List α} (hl : q.length = d.length)
    (h : (q.zip d).mapM f = some r) (hf : ∀ a b y, f (a, b) = some y → N b → N y) :
    List.Forall₂ (fun a b => N a → N b) d r := by
  induction q generalizing d r with
  | nil =>
    cases d with
    | nil => cases h; exact .nil
    | cons b d => simp at hl
  | cons a q ih =>
    cases d with
    | nil => simp at hl
    | cons b d =>
      rw [List.zip_cons_cons, List.mapM_cons] at h
      obtain ⟨y, h1, h⟩ := Option.bind_eq_some_iff.mp h
      obtain ⟨ys, h2, h⟩ := Option.bind_eq_some_iff.mp h
      cases h
      exact .cons (hf a b y h1) (ih (by simpa using hl) h2)

include hN in
/-- The kernel and bias derivatives of a filter whose map has such a number. -/
theorem Absorbs.operA {maps : List (Mat α)} {n r c R C : Nat} (hX : (IOType.matrix maps).HasSize (.maps n r c))
    (hR : 1 ≤ R) (hRr : R ≤ r) (hC : 1 ≤ C) (hCc : C ≤ c) {v cv : Nat → Nat → α} {dk db : List α}
    (h : Conv.operA maps (Mat.fromBody (table R C v) (R, C)) (Mat.fromBody (table R C cv) (R, C)) = some (dk, db))
    (hv : ∃ e ∈ table R C v, N e) : (∀ e ∈ dk, N e) ∧ ∃ e ∈ db, N e := by
  have : Nonempty α := ⟨BasicOps.zero⟩
  obtain ⟨e, he, hNe⟩ := hv
  obtain ⟨a, ha, b, hb, rfl⟩ := mem_table.mp he
  obtain ⟨parts, h1, h⟩ := Option.bind_eq_some_iff.mp h
  obtain ⟨s, h2, h⟩ := Option.bind_eq_some_iff.mp h
  cases h
  constructor
  · intro e he
    obtain ⟨l, hl, he⟩ := List.mem_flatten.mp he
    obtain ⟨m, hm, h3⟩ := mapM_mem h1 hl
    obtain ⟨hmr, hms⟩ := hX.2 m hm
    obtain ⟨f, hf⟩ := Mat.Rect.exists_is hmr
    rw [hms] at hf
    simp only [convolution_is hf (Mat.fromBody_is R C v) hR hRr hC hCc,
      convolution_is hf (Mat.fromBody_is R C cv) hR hRr hC hCc, Option.bind_eq_bind, Option.bind_some, unwrap] at h3
    obtain ⟨m', k1, k2, -⟩ := C10_add (Mat.fromBody_is (r - R + 1) (c - C + 1) (corr R C f v))
      (Mat.fromBody_is (r - R + 1) (c - C + 1) (corr R C f cv)) (by omega)
    rw [k1] at h3
    cases h3
    rw [k2.2] at he
    obtain ⟨i, hi, j, hj, rfl⟩ := mem_table.mp he
    exact hN.addAssign_left (hN.corr_right ha hb hNe)
  · have hadd : addSlice (table R C v) (table R C cv) = .ok (table R C fun i j => BasicOps.add (v i j) (cv i j)) := by
      unfold addSlice
      have : 0 < R * C := Nat.mul_pos hR hC
      rw [table_length, table_length, if_neg (by omega), if_neg (by simp), table_zipWith]
    have h2 : unwrap (addSlice (table R C v) (table R C cv)) = some db := h2
    rw [hadd] at h2
    cases h2
    exact ⟨_, mem_table.mpr ⟨a, ha, b, hb, rfl⟩, hN.add_left hNe⟩

include hN in
/-- The derivatives with respect to the inputs of such a filter. -/
theorem Absorbs.operB (hL : ∀ a b, N a → N (BasicOps.mul a b)) {ks : List (Mat α)} {R C p q : Nat} (hp : 1 ≤ p)
    (hq : 1 ≤ q) (hk : ∀ k ∈ ks, k.Rect ∧ k.shape = (p, q)) {v : Nat → Nat → α} {d : List α}
    (h : Conv.operB ks (Mat.fromBody (table (R + 2 * (p - 1)) (C + 2 * (q - 1)) (padded R C (p - 1) (q - 1) v))
      (R + 2 * (p - 1), C + 2 * (q - 1))) = some d) (hR : 1 ≤ R) (hC : 1 ≤ C)
    (hv : ∃ e ∈ table R C v, N e) : InEach N ((R + (p - 1)) * (C + (q - 1))) ks.length d := by
  have : Nonempty α := ⟨BasicOps.zero⟩
  obtain ⟨e, he, hNe⟩ := hv
  obtain ⟨a, ha, b, hb, rfl⟩ := mem_table.mp he
  obtain ⟨parts, h1, h⟩ := Option.bind_eq_some_iff.mp h
  cases h
  have key : ∀ l ∈ parts, l.length = (R + (p - 1)) * (C + (q - 1)) ∧ ∃ e ∈ l, N e := by
    intro l hl
    obtain ⟨k, hk', h2⟩ := mapM_mem h1 hl
    obtain ⟨hr, hs⟩ := hk k hk'
    obtain ⟨f, hf⟩ := Mat.Rect.exists_is hr
    rw [hs] at hf
    rw [convolution_is (Mat.fromBody_is _ _ _) hf hp (by omega) hq (by omega)] at h2
    cases h2
    change (table _ _ _).length = _ ∧ ∃ e ∈ table _ _ _, N e
    rw [show R + 2 * (p - 1) - p + 1 = R + (p - 1) by omega, show C + 2 * (q - 1) - q + 1 = C + (q - 1) by omega]
    refine ⟨table_length _ _ _, _, mem_table.mpr ⟨a, by omega, b, by omega, rfl⟩, ?_⟩
    refine hN.corr_left hL (a := p - 1) (b := q - 1) (by omega) (by omega) ?_
    unfold padded
    rw [if_pos (by omega), Nat.add_sub_cancel, Nat.add_sub_cancel]
    exact hNe
  rw [← mapM_length h1]
  exact InEach.of_flatten (fun l hl => (key l hl).1) fun l hl => (key l hl).2

include hN in
theorem Absorbs.convLoop (hL : ∀ a b, N a → N (BasicOps.mul a b)) {maps : List (Mat α)} {n r c R C p q : Nat}
    (hX : (IOType.matrix maps).HasSize (.maps n r c)) (hp : 1 ≤ p) (hq : 1 ≤ q) (hR : 1 ≤ R)
    (hC : 1 ≤ C) (hr : R + (p - 1) = r) (hc : C + (q - 1) = c) (filters : List (List (Mat α)))
    (hf : ∀ ks ∈ filters, ks.length = n ∧ ∀ k ∈ ks, k.Rect ∧ k.shape = (p, q)) {s s' : Conv.DState α}
    (h1 : s.val.length = filters.length * (R * C)) (h2 : s.conjVal.length = filters.length * (R * C))
    (h : filters.foldlM (Conv.derivStep maps (R, C) (p - 1) (q - 1) (R * C)) s = some s')
    (hv : InEach N (R * C) filters.length s.val) (hk : ∀ e ∈ s.dldk, N e) (hb : ∀ e ∈ s.dldb, N e)
    (hd : filters ≠ [] ∨ InEach N (r * c) n s.newDlda) :
    (∀ e ∈ s'.dldk, N e) ∧ (∀ e ∈ s'.dldb, N e) ∧ InEach N (r * c) n s'.newDlda := by
  have : Nonempty α := ⟨BasicOps.zero⟩
  induction filters generalizing s with
  | nil =>
    cases h
    exact ⟨hk, hb, hd.resolve_left (by simp)⟩
  | cons ks filters ih =>
    rw [List.foldlM_cons] at h
    obtain ⟨s1, h3, h⟩ := Option.bind_eq_some_iff.mp h
    obtain ⟨hkn, hks⟩ := hf ks (by simp)
    have hpos : 0 < R * C := Nat.mul_pos hR hC
    rw [List.length_cons, Nat.succ_mul] at h1 h2
    obtain ⟨v, hv1⟩ := exists_table R C (s.val.take (R * C)) (by rw [List.length_take]; omega)
    obtain ⟨cv, hcv⟩ := exists_table R C (s.conjVal.take (R * C)) (by rw [List.length_take]; omega)
    obtain ⟨hv2, hv3⟩ := hv
    rw [hv1] at hv2
    obtain ⟨fl, e1, e2, e3⟩ := Conv.flips_total hks
    have hpv := pad_is (Mat.fromBody_is R C v) (p - 1) (q - 1)
    have hpcv := pad_is (Mat.fromBody_is R C cv) (p - 1) (q - 1)
    unfold Conv.derivStep drainFront at h3
    rw [if_pos (by omega), if_pos (by omega), hv1, hcv] at h3
    simp only [Option.bind_eq_bind, Option.bind_some] at h3 e1
    rw [e1] at h3
    simp only [Option.bind_some, hpv, hpcv] at h3
    obtain ⟨⟨dk, db⟩, a1, h3⟩ := Option.bind_eq_some_iff.mp h3
    obtain ⟨nd, a2, h3⟩ := Option.bind_eq_some_iff.mp h3
    obtain ⟨ndc, a3, h3⟩ := Option.bind_eq_some_iff.mp h3
    obtain ⟨b, a4, h3⟩ := Option.bind_eq_some_iff.mp h3
    obtain ⟨y, a5, h3⟩ := Option.bind_eq_some_iff.mp h3
    obtain ⟨yc, a6, h3⟩ := Option.bind_eq_some_iff.mp h3
    cases h3
    obtain ⟨o1, o2⟩ := hN.operA hX hR (by omega) hC (by omega) a1 hv2
    have o3 := hN.operB hL hp hq e3 a2 hR hC hv2
    rw [hr, hc, e2, hkn] at o3
    have o4 : N b := by
      cases db with
      | nil => cases a4
      | cons x db =>
        cases a4
        obtain ⟨e, he, hNe⟩ := o2
        refine hN.foldl_add _ _ ?_
        rcases List.mem_cons.mp he with rfl | he
        · exact .inl hNe
        · exact .inr ⟨e, he, hNe⟩
    obtain ⟨w1, rfl⟩ := addSliceMut_ok a5
    refine ih (fun ks hks => hf ks (by simp [hks])) (by simp only [List.length_drop]; omega)
      (by simp only [List.length_drop]; omega) h hv3 ?_ ?_ (.inr ?_)
    · intro e he
      rcases List.mem_append.mp he with he | he
      · exact hk e he
      · exact o1 e he
    · intro e he
      rcases List.mem_append.mp he with he | he
      · exact hb e he
      · rw [List.mem_singleton.mp he]; exact o4
    · exact InEach.of_forall₂ (zipUpd_forall₂ w1 fun a b => hN.addAssign_right) o3

include hN in
theorem Absorbs.convBack (hL : ∀ a b, N a → N (BasicOps.mul a b)) {l : Conv α} (hw : (Layer.conv l).WF)
    {s s' : Size} (hs : (Layer.conv l).Fits s s') {x : IOType α} (hx : x.HasSize s) {d dc w b nd ndc : List α}
    (hd : d.length = s'.len) (hdc : dc.length = s'.len) (hS : s'.Seen N d)
    (h : l.computeDerivatives x d dc = some (.ok (w, b, nd, ndc))) :
    (∀ e ∈ w, N e) ∧ (∀ e ∈ b, N e) ∧ s.Seen N nd := by
  have : Nonempty α := ⟨BasicOps.zero⟩
  cases x with
  | scalar v => cases h
  | matrix maps =>
  cases s with
  | vec n => exact hs.elim
  | maps n r c =>
  cases s' with
  | vec n => exact hs.elim
  | maps nf r' c' =>
  obtain ⟨hn, hnf, hk0, p, q, hk, hp, hpr, hq, hqc, rfl, rfl⟩ := hs
  obtain ⟨K, b, hK⟩ := Conv.exists_is hw hk
  rw [hk0] at hK
  obtain ⟨X, hXs⟩ := MapsAre.exists_of hx
  have hcq := Conv.computeQ_is hK hnf hn hp hpr hq hqc hXs
  obtain ⟨k0, hk0e, hk0'⟩ := Conv.kernel00 hK hnf hn
  obtain ⟨-, -, -, Mk, hM, hMK⟩ := hK
  have hr := C18_rows hM hn
  have hf : ∀ ks ∈ (List.range nf).map (fun o => (List.range n).map (Mk o)),
      ks.length = n ∧ ∀ k ∈ ks, k.Rect ∧ k.shape = (p, q) := by
    intro ks hks
    obtain ⟨o, ho, rfl⟩ := List.mem_map.mp hks
    refine ⟨by simp, fun k hk => ?_⟩
    obtain ⟨ch, hch, rfl⟩ := List.mem_map.mp hk
    have := hMK o (List.mem_range.mp ho) ch (List.mem_range.mp hch)
    exact ⟨this.rect, this.1⟩
  obtain ⟨m0, hm0⟩ : ∃ m0, maps[0]? = some m0 :=
    ⟨_, List.getElem?_eq_getElem (by rw [hx.1]; exact hn)⟩
  have hm0s := (hx.2 m0 (List.mem_iff_getElem?.mpr ⟨0, hm0⟩)).2
  have hel : (l.kernels.elm 0 0 >>= unwrap) = some k0 := by rw [hk0e]; rfl
  unfold Conv.computeDerivatives at h
  simp only [Option.bind_eq_bind] at hel h
  rw [hm0] at h
  simp only [Option.bind_some] at h
  rw [hel] at h
  have u1 : usub p 1 = some (p - 1) := by simp [usub, hp]
  have u2 : usub q 1 = some (q - 1) := by simp [usub, hq]
  have u3 : usub r (p - 1) = some (r - p + 1) := by unfold usub; rw [if_pos (by omega)]; congr 1; omega
  have u4 : usub c (q - 1) = some (c - q + 1) := by unfold usub; rw [if_pos (by omega)]; congr 1; omega
  simp only [Option.bind_some, hk0', hm0s, u1, u2, u3, u4] at h
  rw [hcq] at h
  simp only [Option.bind_some] at h
  obtain ⟨r1, e1, h⟩ := Option.bind_eq_some_iff.mp h
  obtain ⟨r2, e2, h⟩ := Option.bind_eq_some_iff.mp h
  have hd : d.length = nf * ((r - p + 1) * (c - q + 1)) := hd
  have hdc : dc.length = nf * ((r - p + 1) * (c - q + 1)) := hdc
  have l1 : r1.length = nf * ((r - p + 1) * (c - q + 1)) := by
    rw [mapM_length e1, List.length_zip, cube_length, hd, Nat.min_self]
  have l2 : r2.length = nf * ((r - p + 1) * (c - q + 1)) := by
    rw [mapM_length e2, List.length_zip, cube_length, hdc, Nat.min_self]
  rw [hk0] at h
  simp only at h
  rw [if_neg (by omega), hr, l1, Nat.mul_div_cancel_left _ hnf, hx.1] at h
  simp only [Option.bind_some] at h
  obtain ⟨st, e3, h⟩ := Option.bind_eq_some_iff.mp h
  cases h
  refine hN.convLoop hL hx hp hq (by omega) (by omega) (by omega) (by omega) _ hf (by simpa using l1)
    (by simpa using l2) e3 ?_ (by simp) (by simp) (.inl ?_)
  · have := mapM_zip_forall₂ (N := N) (by rw [cube_length, hd]) e1 (by
      intro a b y hy hb
      obtain ⟨z, -, hz⟩ := Option.bind_eq_some_iff.mp hy
      cases hz
      exact hN.mul_right hb)
    simpa using InEach.of_forall₂ this hS
  · intro e
    have := congrArg List.length e
    simp at this
    omega

omit [CplxOps α P] in
theorem InEach.chunksAux {k n fuel : Nat} {d : List α} (hl : d.length = n * k)
    (h : InEach N k n d) : ∀ row ∈ Renplex.chunksAux k fuel d, ∃ e ∈ row, N e := by
  induction fuel generalizing n d with
  | zero => simp [Renplex.chunksAux]
  | succ fuel ih =>
    cases d with
    | nil => simp [Renplex.chunksAux]
    | cons a d =>
      cases n with
      | zero => simp at hl
      | succ n =>
        intro row hr
        rw [Renplex.chunksAux] at hr
        rcases List.mem_cons.mp hr with rfl | hr
        · exact h.1
        · refine ih (n := n) ?_ h.2 row hr
          rw [List.length_drop, hl, Nat.succ_mul]
          omega

include hN in
theorem Absorbs.poolLoop (hL : ∀ a b, N a → N (BasicOps.mul a b)) {l : Reduce α} (hk : l.interpKernel.Rect)
    (hks : l.interpKernel.shape = (3, 3)) (hodd : l.blockSize.2 % 2 = 1 → (l.blockSize.1 - 1) / 2 < l.blockSize.2)
    {r c : Nat} (hr : 0 < r) (hc : 0 < c) (hp : 0 < l.blockSize.1) (hq : 0 < l.blockSize.2) {maps : List (Mat α)}
    (hm : ∀ m ∈ maps, m.shape = (r * l.blockSize.1, c * l.blockSize.2)) {ds dcs : List (List α)} {a b : List α}
    (h1 : ∀ d ∈ ds, ∃ e ∈ d, N e) (h : l.derivLoop maps ds dcs = some (a, b)) :
    InEach N (r * l.blockSize.1 * (c * l.blockSize.2)) maps.length a := by
  have : Nonempty α := ⟨BasicOps.zero⟩
  obtain ⟨g, hg⟩ := Mat.Rect.exists_is hk
  rw [hks] at hg
  induction maps generalizing ds dcs a b with
  | nil => trivial
  | cons m maps ih =>
    unfold Reduce.derivLoop at h
    rw [hm m (by simp)] at h
    have w1 : Reduce.udiv (r * l.blockSize.1) l.blockSize.1 = some r := by
      unfold Reduce.udiv; rw [if_neg (by omega), Nat.mul_div_cancel _ hp]
    have w2 : Reduce.udiv (c * l.blockSize.2) l.blockSize.2 = some c := by
      unfold Reduce.udiv; rw [if_neg (by omega), Nat.mul_div_cancel _ hq]
    simp only [w1, w2, Option.bind_eq_bind, Option.bind_some] at h
    obtain ⟨d, e1, h⟩ := Option.bind_eq_some_iff.mp h
    obtain ⟨m1, e2, h⟩ := Option.bind_eq_some_iff.mp h
    obtain ⟨u, e3, h⟩ := Option.bind_eq_some_iff.mp h
    obtain ⟨dc, -, h⟩ := Option.bind_eq_some_iff.mp h
    obtain ⟨mc, -, h⟩ := Option.bind_eq_some_iff.mp h
    obtain ⟨uc, -, h⟩ := Option.bind_eq_some_iff.mp h
    obtain ⟨⟨r', rc⟩, e4, h⟩ := Option.bind_eq_some_iff.mp h
    cases h
    cases ds with
    | nil => cases e1
    | cons d' ds =>
    obtain rfl : d' = d := by simpa using e1
    have hi := ih (fun m hm' => hm m (by simp [hm'])) (fun d hd => h1 d (List.mem_cons_of_mem _ hd)) e4
    unfold Mat.toMatrix at e2
    split_ifs at e2 with hlen
    · cases e2
    · cases e2
      obtain ⟨f, hf⟩ := exists_table r c d' (by simpa using hlen)
      obtain ⟨e, he, hNe⟩ := h1 d' (by simp)
      rw [hf] at he e3
      obtain ⟨x, hx, y, hy, rfl⟩ := mem_table.mp he
      obtain ⟨m', hu, hv, k1, k2⟩ := C16_partial (Mat.fromBody_is r c f) hg hr hc hp hq hodd
      have hbs : l.blockSize = (l.blockSize.1, l.blockSize.2) := rfl
      rw [← hbs] at k1
      rw [k1] at e3
      cases e3
      have hlen' : u.body.length = r * l.blockSize.1 * (c * l.blockSize.2) := by rw [k2.2, table_length]
      have hxl : x * l.blockSize.1 + upOff l.blockSize.1 < r * l.blockSize.1 := idx_lt hx hu
      have hyl : y * l.blockSize.2 + leftOff l.blockSize.1 l.blockSize.2 < c * l.blockSize.2 := idx_lt hy hv
      constructor
      · rw [List.take_append_of_le_length (by omega), List.take_of_length_le (by omega), k2.2]
        refine ⟨_, mem_table.mpr ⟨_, hxl, _, hyl, rfl⟩, ?_⟩
        refine hN.corr_left hL (a := 1) (b := 1) (by omega) (by omega) ?_
        unfold padded spread
        rw [if_pos (by omega), if_pos]
        · rw [Nat.add_sub_cancel, Nat.add_sub_cancel, Nat.mul_comm x, Nat.mul_comm y, Nat.mul_add_div hp,
            Nat.mul_add_div hq, Nat.div_eq_of_lt hu, Nat.div_eq_of_lt hv]
          exact hNe
        · rw [Nat.add_sub_cancel, Nat.add_sub_cancel, Nat.mul_comm x, Nat.mul_comm y, Nat.mul_add_mod,
            Nat.mul_add_mod, Nat.mod_eq_of_lt hu, Nat.mod_eq_of_lt hv]
          exact ⟨rfl, rfl⟩
      · rw [← hlen', List.drop_left, hlen']
        exact hi

include hN in
theorem Absorbs.poolBack (hL : ∀ a b, N a → N (BasicOps.mul a b)) {l : Reduce α} (ht : (Layer.reduce l).TotalBack)
    {s s' : Size} (hs : (Layer.reduce l).Fits s s') {x : IOType α} (hx : x.HasSize s) {d dc w b nd ndc : List α}
    (hd : d.length = s'.len) (hS : s'.Seen N d)
    (h : l.computeDerivatives x d dc = some (.ok (w, b, nd, ndc))) : w = [] ∧ b = [] ∧ s.Seen N nd := by
  cases x with
  | scalar v => cases h
  | matrix maps =>
  cases s with
  | vec n => exact hs.elim
  | maps n r c =>
  cases s' with
  | vec n => exact hs.elim
  | maps n' r' c' =>
  obtain ⟨rfl, hn, hr, hc, hp, hq, rfl, rfl⟩ := hs
  obtain ⟨hk, hks, hodd, hpos⟩ := ht
  have hd : d.length = n * (r' * c') := hd
  have hrc : 0 < r' * c' := Nat.mul_pos hr hc
  unfold Reduce.computeDerivatives at h
  have w : Reduce.udiv d.length maps.length = some (r' * c') := by
    unfold Reduce.udiv
    rw [hx.1, if_neg (by omega), hd, Nat.mul_div_cancel_left _ (by omega)]
  simp only [w, Option.bind_eq_bind, Option.bind_some] at h
  obtain ⟨ds, e1, h⟩ := Option.bind_eq_some_iff.mp h
  obtain ⟨dcs, -, h⟩ := Option.bind_eq_some_iff.mp h
  obtain ⟨⟨a, b⟩, e3, h⟩ := Option.bind_eq_some_iff.mp h
  cases h
  refine ⟨rfl, rfl, ?_⟩
  rw [chunks, if_neg (by omega)] at e1
  cases e1
  have := hN.poolLoop hL hk hks hodd hr hc hp hq (fun m hm => (hx.2 m hm).2)
    (InEach.chunksAux hd hS) e3
  rwa [hx.1] at this

include hN in
/-- The backward pass makes every derivative of every parameter such a number. -/
theorem Absorbs.backFits (hL : ∀ a b, N a → N (BasicOps.mul a b)) {rest : List (IOType α × Layer α)} {s : Size}
    (hf : BackFits rest s) (hne : ∀ p ∈ rest, p.1.flat ≠ []) (hu : ∀ d, Layer.dense d ∈ rest.map Prod.snd → d.biases ≠ [])
    {d dc : List α} {gs : List (LayerVec α)} (hd : d.length = s.len) (hdc : dc.length = s.len) (hS : s.Seen N d)
    (h : Renplex.backGrads rest d dc = some gs) : ∀ g ∈ gs, g.All N := by
  induction hf generalizing d dc gs with
  | nil => cases h; simp
  | @cons x l rest s s' hw ht h0 hx t ih =>
    obtain ⟨γ, nd, ndc, e, e1, e2, e3⟩ := Layer.back_fits hw ht h0 hx d dc hd hdc
    rw [backGrads_cons, e] at h
    obtain ⟨gs', h1, rfl⟩ := Option.map_eq_some_iff.mp h
    have key : γ.All N ∧ s.Seen N nd := by
      unfold Layer.back at e
      cases l with
      | dense l =>
        rw [if_pos (show (Layer.dense l).propagates = true from rfl)] at e
        obtain ⟨⟨w, b, d', dc'⟩, k1, k2⟩ := Option.map_eq_some_iff.mp e
        cases k2
        obtain ⟨r, k3, k4⟩ := Option.bind_eq_some_iff.mp k1
        cases r with
        | error e => cases k4
        | ok r =>
        cases k4
        cases s with
        | maps n r c => exact h0.elim
        | vec n =>
        cases s' with
        | maps n r c => exact h0.elim
        | vec u =>
        obtain ⟨g1, g2, g3⟩ := hN.computeDerivatives k3 hS
        refine ⟨⟨g1, g2⟩, (g3 ?_).1⟩
        rintro rfl
        unfold LayerVec.Fits at e1
        rw [if_pos (show (Layer.dense l).propagates = true from rfl)] at e1
        exact hu l (by simp) (List.eq_nil_of_length_eq_zero e1.2.symm)
      | conv l =>
        rw [if_pos (show (Layer.conv l).propagates = true from rfl)] at e
        obtain ⟨⟨w, b, d', dc'⟩, k1, k2⟩ := Option.map_eq_some_iff.mp e
        cases k2
        obtain ⟨r, k3, k4⟩ := Option.bind_eq_some_iff.mp k1
        cases r with
        | error e => cases k4
        | ok r =>
        cases k4
        obtain ⟨g1, g2, g3⟩ := hN.convBack hL hw h0 hx hd hdc hS k3
        exact ⟨⟨g1, g2⟩, g3⟩
      | reduce l =>
        rw [if_pos (show (Layer.reduce l).propagates = true from rfl)] at e
        obtain ⟨⟨w, b, d', dc'⟩, k1, k2⟩ := Option.map_eq_some_iff.mp e
        cases k2
        obtain ⟨r, k3, k4⟩ := Option.bind_eq_some_iff.mp k1
        cases r with
        | error e => cases k4
        | ok r =>
        cases k4
        obtain ⟨rfl, rfl, g3⟩ := hN.poolBack hL ht h0 hx hd hS k3
        exact ⟨⟨by simp, by simp⟩, g3⟩
      | flatten l =>
        rw [if_neg (show ¬ (Layer.flatten l : Layer α).propagates = true from Bool.false_ne_true)] at e
        cases e
        refine ⟨⟨by simp, by simp⟩, ?_⟩
        cases s with
        | vec n => exact h0.elim
        | maps n r c =>
        cases s' with
        | maps n r c => exact h0.elim
        | vec u =>
        cases x with
        | scalar v => exact hx.elim
        | matrix ms =>
        refine InEach.of_all (Nat.pos_of_ne_zero fun hz => ?_) e2 hS
        refine hne (.matrix ms, .flatten l) (by simp) ?_
        refine List.eq_nil_iff_forall_not_mem.mpr fun e he => ?_
        obtain ⟨m, hm, he⟩ := List.mem_flatMap.mp he
        obtain ⟨q1, q2⟩ := hx.2 m hm
        rw [Mat.Rect, q2, hz] at q1
        rw [show m.getBody = [] from List.eq_nil_of_length_eq_zero q1] at he
        cases he
    intro g hg
    rcases List.mem_cons.mp hg with rfl | hg
    · exact key.1
    · exact ih (fun p hp => hne p (by simp [hp])) (fun d hd => hu d (by simp only [List.map_cons, List.mem_cons]; exact .inr hd))
        e2 e3 key.2 h1 g hg

/-! ## Training -/

omit [CplxOps α P] in
theorem FitsChain.from_vec {ls : List (Layer α)} {s s' : Size} (h : FitsChain ls s s') (hs : s = .vec s.len) :
    s' = .vec s'.len := by
  induction h with
  | nil s => exact hs
  | @cons l ls s s₁ s' h0 t ih =>
    refine ih ?_
    rw [hs] at h0
    cases s₁ with
    | vec n => rfl
    | maps n r c => cases l <;> exact h0.elim

omit [CplxOps α P] in
theorem FitsChain.dense_vec {ls : List (Layer α)} {s s' : Size} (h : FitsChain ls s s') (hd : ∃ d, Layer.dense d ∈ ls) :
    s' = .vec s'.len := by
  induction h with
  | nil s => simp at hd
  | @cons l ls s s₁ s' h0 t ih =>
    obtain ⟨d, hd⟩ := hd
    rcases List.mem_cons.mp hd with rfl | hd
    · refine t.from_vec ?_
      cases s₁ with
      | vec n => rfl
      | maps n r c => cases s <;> exact h0.elim
    · exact ih ⟨d, hd⟩

include hN in
/-- The contribution of a sample with such a number in its input. -/
theorem Absorbs.sampleReady (hD : LossAbsorbs N) (hL : ∀ a b, M a → N (BasicOps.mul a b))
    (hR : ∀ a b, M b → N (BasicOps.mul a b)) (hNM : ∀ a, N a → M a) {n : Net α} {s s' : Size} (hr : n.Ready s s')
    (hl : ∀ l ∈ n.layers, l.Conveys M N) (hd : ∃ d, Layer.dense d ∈ n.layers) {f : LossFunc}
    {p : IOType α × IOType α} (hx : p.1.HasSize s) (ho : ∃ e ∈ p.1.flat, M e)
    (hlen : ∀ y d, y.HasSize s' → CplxOps.dLoss f p.2 y = .ok d → d.length = s'.len) {gs : List (LayerVec α)}
    (h : sampleGrads n f p = some gs) : ∀ g ∈ gs, g.All N := by
  obtain ⟨ys, y, h1, h2, h3, h4⟩ := hr.fits.backFits hr.wf hr.total hr.totalBack hx [] (.nil s)
  rw [List.append_nil] at h4
  obtain ⟨c1, c2⟩ := hN.conveys hL hR hNM hr.fits hr.wf hr.total hl hx h1 ho
  have hs' := hr.fits.dense_vec hd
  have hy := (c2 y h2).1 hd
  have hacts : n.collectActs p.1 = some (.ok (p.1 :: ys)) :=
    (C44_collect n (by obtain ⟨d, hd⟩ := hd; exact List.ne_nil_of_mem hd) p.1 _).mpr ⟨ys, h1, rfl⟩
  unfold sampleGrads at h
  rw [hacts] at h
  simp only [Option.bind_eq_bind, Option.bind_some, unwrap] at h
  rw [List.head?_reverse, h2] at h
  simp only [Option.bind_some] at h
  obtain ⟨d, e1, h⟩ := Option.bind_eq_some_iff.mp h
  obtain ⟨gs', e2, rfl⟩ := Option.map_eq_some_iff.mp h
  have e1 : CplxOps.dLoss f p.2 y = .ok d := by
    cases hh : CplxOps.dLoss f p.2 y with
    | error e => rw [hh] at e1; cases e1
    | ok d' => rw [hh] at e1; cases e1; rfl
  have hdl := hlen y d h3 e1
  have hS : s'.Seen N d := by
    rw [hs'] at h3 ⊢
    cases y with
    | matrix ms => exact h3.elim
    | scalar v => exact hD f p.2 v d hy e1
  intro g hg
  refine hN.backFits (fun a b ha => hL a b (hNM a ha)) h4 ?_ ?_ hdl (by simpa using hdl) hS e2 g (List.mem_reverse.mp hg)
  · intro q hq
    have := (List.of_mem_zip hq).1
    obtain ⟨e, he, -⟩ := c1 q.1 (List.mem_reverse.mp (List.mem_of_mem_tail this))
    exact List.ne_nil_of_mem he
  · intro d hd'
    obtain ⟨q, hq, e⟩ := List.mem_map.mp hd'
    have := (List.of_mem_zip hq).2
    rw [e] at this
    exact (hl _ (List.mem_reverse.mp this)).1

include hN in
theorem Absorbs.fold_of {n : Net α} {f : LossFunc} (Bad : IOType α × IOType α → Prop)
    (pts : List (IOType α × IOType α))
    (hB : ∀ p ∈ pts, Bad p → ∀ gs, sampleGrads n f p = some gs → ∀ g ∈ gs, g.All N) {acc acc' : List (LayerVec α)}
    (hacc : List.Forall₂ LayerVec.Fits acc n.layers) (h : pts.foldlM (Net.sampleStep n f) acc = some acc')
    (ho : (∀ a ∈ acc, a.All N) ∨ ∃ p ∈ pts, Bad p) :
    List.Forall₂ LayerVec.Fits acc' n.layers ∧ ∀ a ∈ acc', a.All N := by
  induction pts generalizing acc with
  | nil =>
    cases h
    exact ⟨hacc, ho.resolve_right (by simp)⟩
  | cons p pts ih =>
    rw [List.foldlM_cons] at h
    obtain ⟨acc1, h1, h⟩ := Option.bind_eq_some_iff.mp h
    rw [Net.sampleStep_eq n f acc (hacc.imp fun a l h => h.nonprop)] at h1
    obtain ⟨gs, h2, h3⟩ := Option.bind_eq_some_iff.mp h1
    obtain ⟨f1, f2⟩ := addPairs_fits hacc (sampleGrads_length h2) h3
    refine ih (fun p hp => hB p (by simp [hp])) f2 h ?_
    rcases ho with ho | ⟨q, hq, hb⟩
    · exact .inl (hN.addPairs h3 (.inl ho))
    · rcases List.mem_cons.mp hq with rfl | hq
      · exact .inl (hN.addPairs h3 (.inr (hB q (by simp) hb gs h2)))
      · exact .inr ⟨q, hq, hb⟩

omit [CplxOps α P] in
theorem zipWith_all {f : α → α → α} (hf : ∀ p d, N d → N (f p d)) {ps ds : List α} (h : ∀ e ∈ ds, N e) :
    ∀ e ∈ List.zipWith f ps ds, N e := by
  intro e he
  rw [← List.map_uncurry_zip_eq_zipWith] at he
  obtain ⟨q, hq, rfl⟩ := List.mem_map.mp he
  exact hf _ _ (h _ (List.of_mem_zip hq).2)

omit [CplxOps α P] in
theorem zipKernels_all {f : α → α → α} (hf : ∀ p d, N d → N (f p d)) {ks : List (Mat α)} {ds : List α}
    (h : ∀ e ∈ ds, N e) : ∀ k ∈ zipKernels f ks ds, ∀ e ∈ k.body, N e := by
  induction ks generalizing ds with
  | nil => simp [zipKernels]
  | cons k ks ih =>
    intro k' hk
    rcases List.mem_cons.mp hk with rfl | hk
    · exact zipWith_all hf fun e he => h e (List.mem_of_mem_take he)
    · exact ih (fun e he => h e (List.mem_of_mem_drop he)) k' hk

include hN in
theorem Absorbs.training_of {n n' : Net α} (hw : ∀ l ∈ n.layers, l.WF) {data : Dataset α} {f : LossFunc} {lr : α}
    (Bad : IOType α × IOType α → Prop)
    (hB : ∀ p ∈ data.points, Bad p → ∀ gs, sampleGrads n f p = some gs → ∀ g ∈ gs, g.All N)
    (h : n.gradientOpt data f lr = some (.ok (), n')) (ho : ∃ p ∈ data.points, Bad p) :
    ∀ l' ∈ n'.layers, l'.AllParams N ∧ ∃ l ∈ n.layers, ∃ g upd, LayerVec.Fits g l ∧ l' = l.zipParams upd g := by
  unfold Net.gradientOpt at h
  rw [if_neg (fun e => by rw [if_pos e] at h; cases h)] at h
  obtain ⟨acc, h1, h⟩ := Option.bind_eq_some_iff.mp h
  obtain ⟨scale, -, h⟩ := Option.bind_eq_some_iff.mp h
  obtain ⟨layers, h2, h⟩ := Option.bind_eq_some_iff.mp h
  cases h
  obtain ⟨f1, f2⟩ := hN.fold_of Bad data.points hB (acc := n.layers.map Net.initAcc) (by
    rw [List.forall₂_map_left_iff]
    exact List.forall₂_same.mpr fun l _ => Net.initAcc_fits l) h1 (.inr ho)
  intro l' hl'
  obtain ⟨⟨g, l⟩, hq, h3⟩ := mapM_mem h2 hl'
  obtain ⟨hg, hlm⟩ := List.of_mem_zip hq
  have hfit : LayerVec.Fits g l := (List.forall₂_iff_zip.mp f1).2 hq
  rw [Net.updateLayer_eq scale g l (hw l hlm) hfit] at h3
  cases h3
  obtain ⟨a1, a2⟩ := f2 g hg
  have key : ∀ p d : α, N d → N (BasicOps.subAssign p (CplxOps.conj (BasicOps.mulAssign d scale))) :=
    fun p d h => hN.subAssign_right (hN.conj (hN.mulAssign_left h))
  refine ⟨?_, l, hlm, g, _, hfit, rfl⟩
  cases l with
  | dense l => exact ⟨zipWith_all key a1, zipWith_all key a2⟩
  | conv l => exact ⟨zipKernels_all key a1, zipWith_all key a2⟩
  | reduce l => trivial
  | flatten l => trivial

end

/-! ## NaN -/

section nan
variable {w : Width} {B : Binary} {L : Libm B}

theorem Cf.nan_mul (a b : Cf w (Fl L)) (h : a.HasNan) : (Cf.mul a b).IsNan := by
  rcases h with h | h
  · constructor
    · change (a.x.fp.mul b.x.fp).sub _ = _
      rw [h, Fp.nan_mul, Fp.nan_sub]
    · change Fp.add (a.x.fp.mul b.y.fp) (a.y.fp.mul b.x.fp) = _
      rw [h, Fp.nan_mul, Fp.nan_add]
  · constructor
    · change Fp.sub _ (a.y.fp.mul b.y.fp) = _
      rw [h, Fp.nan_mul, Fp.sub_nan]
    · change Fp.add (a.x.fp.mul b.y.fp) (a.y.fp.mul b.x.fp) = _
      rw [h, Fp.nan_mul, Fp.add_nan]

theorem Layer.Conveys.zipParams {α P : Type} [CplxOps α P] {M N : α → Prop} {l : Layer α} (h : l.Conveys M N)
    {g : LayerVec α} (hg : g.Fits l) (upd : α → α → α) : (l.zipParams upd g).Conveys M N := by
  cases l with
  | dense d =>
    unfold LayerVec.Fits at hg
    rw [if_pos (show (Layer.dense d).propagates = true from rfl)] at hg
    refine ⟨fun e => h.1 ?_, h.2⟩
    have h1 := congrArg List.length e
    change (List.zipWith upd d.biases g.2).length = 0 at h1
    have h2 : g.2.length = d.biases.length := hg.2
    rw [List.length_zipWith, h2, Nat.min_self] at h1
    exact List.eq_nil_of_length_eq_zero h1
  | conv d => exact h
  | reduce d => exact h
  | flatten d => trivial

/-- C118. The mean of a block is NaN if one of its entries has a NaN part. -/
theorem C118_mean : PoolKeeps Cf.HasNan Cf.IsNan (meanBlock : List (Cf w (Fl L)) → Run (Cf w (Fl L))) := by
  intro b y hb h
  have hadd : ∀ a b : Cf w (Fl L), a.HasNan ∨ b.HasNan → (Cf.add a b).HasNan := by
    rintro a b ((h | h) | h | h)
    · left
      change a.x.fp.add b.x.fp = _
      rw [h, Fp.nan_add]
    · right
      change a.y.fp.add b.y.fp = _
      rw [h, Fp.nan_add]
    · left
      change a.x.fp.add b.x.fp = _
      rw [h, Fp.add_nan]
    · right
      change a.y.fp.add b.y.fp = _
      rw [h, Fp.add_nan]
  have hsum : ∀ (l : List (Cf w (Fl L))) (acc : Cf w (Fl L)), (acc.HasNan ∨ ∃ e ∈ l, e.HasNan) →
      (l.foldl Cf.add acc).HasNan := by
    intro l
    induction l with
    | nil => exact fun acc h => h.resolve_right (by simp)
    | cons a l ih =>
      intro acc h
      refine ih _ ?_
      rcases h with h | ⟨e, he, h⟩
      · exact .inl (hadd _ _ (.inl h))
      · rcases List.mem_cons.mp he with rfl | he
        · exact .inl (hadd _ _ (.inr h))
        · exact .inr ⟨e, he, h⟩
  have h1 := hsum b Cf.default (.inr hb)
  unfold meanBlock Cf.div at h
  split_ifs at h
  cases h
  generalize b.foldl Cf.add Cf.default = a at h1
  constructor
  · change Fp.div (Fp.add (a.x.fp.mul _) (a.y.fp.mul _)) _ = _
    rcases h1 with h1 | h1 <;> rw [h1]
    · rw [Fp.nan_mul, Fp.nan_add, Fp.nan_div]
    · rw [Fp.nan_mul, Fp.add_nan, Fp.nan_div]
  · change Fp.div (Fp.sub (a.y.fp.mul _) (a.x.fp.mul _)) _ = _
    rcases h1 with h1 | h1 <;> rw [h1]
    · rw [Fp.nan_mul, Fp.sub_nan, Fp.nan_div]
    · rw [Fp.nan_mul, Fp.nan_sub, Fp.nan_div]

/-- C118. One NaN part anywhere in the image makes every output NaN. -/
theorem C118_forward {n : Net (Cf w (Fl L))} {s s' : Size} (hr : n.Ready s s')
    (hl : ∀ l ∈ n.layers, l.Conveys Cf.HasNan Cf.IsNan) (hd : ∃ d, Layer.dense d ∈ n.layers)
    {x y : IOType (Cf w (Fl L))} (hs : x.HasSize s) (hx : ∃ e ∈ x.flat, e.HasNan)
    (h : n.forward x = some (.ok y)) : y.flat ≠ [] ∧ ∀ e ∈ y.flat, e.IsNan := by
  obtain ⟨ys, y', hc, hy, e⟩ := (C44_forward n (by obtain ⟨d, hd⟩ := hd; exact List.ne_nil_of_mem hd) x _).mp h
  cases e
  have hne : ys ≠ [] := by rintro rfl; cases hy
  have hy' : (x :: ys).getLast? = some y := by rw [List.getLast?_cons_of_ne_nil hne, hy]
  obtain ⟨c1, c2⟩ := Cf.nan_absorbs.conveys Cf.nan_mul Cf.mul_nan (fun a h => .inl h.1) hr.fits hr.wf hr.total hl hs hc hx
  obtain ⟨e, he, -⟩ := c1 y (List.mem_of_getLast? hy')
  exact ⟨List.ne_nil_of_mem he, (c2 y hy').1 hd⟩

theorem nan_training {n n' : Net (Cf w (Fl L))} {s s' : Size} (hr : n.Ready s s')
    (hl : ∀ l ∈ n.layers, l.Conveys Cf.HasNan Cf.IsNan) (hd : ∃ d, Layer.dense d ∈ n.layers)
    {data : Dataset (Cf w (Fl L))} (hs : data.HasSize s s') {f : LossFunc} {lr : Cf w (Fl L)}
    (hx : ∃ p ∈ data.points, ∃ e ∈ p.1.flat, e.HasNan) (h : n.gradientOpt data f lr = some (.ok (), n')) :
    ∀ l' ∈ n'.layers, l'.AllParams Cf.IsNan ∧ ∃ l ∈ n.layers, ∃ g upd, LayerVec.Fits g l ∧ l' = l.zipParams upd g := by
  refine Cf.nan_absorbs.training_of hr.wf (fun p => ∃ e ∈ p.1.flat, e.HasNan) (fun p hp hb gs hg => ?_) h hx
  refine Cf.nan_absorbs.sampleReady Cf.nan_loss Cf.nan_mul Cf.mul_nan (fun a h => .inl h.1) hr hl hd (hs p hp).1 hb
    (fun y d hy hd => ?_) hg
  obtain ⟨d', e1, e2⟩ := dLoss_total f p.2 y (hs p hp).2 hy
  rw [e1] at hd
  cases hd
  exact e2

/-- C118. If one pixel of one image of the batch has a NaN part, a training call makes every kernel, every
weight and every bias of the network NaN, whatever the other images are. -/
theorem C118_training {n n' : Net (Cf w (Fl L))} {s s' : Size} (hr : n.Ready s s')
    (hl : ∀ l ∈ n.layers, l.Conveys Cf.HasNan Cf.IsNan) (hd : ∃ d, Layer.dense d ∈ n.layers)
    {data : Dataset (Cf w (Fl L))} (hs : data.HasSize s s') {f : LossFunc} {lr : Cf w (Fl L)}
    (hx : ∃ p ∈ data.points, ∃ e ∈ p.1.flat, e.HasNan) (h : n.gradientOpt data f lr = some (.ok (), n')) :
    ∀ l ∈ n'.layers, l.AllParams Cf.IsNan := fun l hl' => (nan_training hr hl hd hs hx h l hl').1

/-- C118. From then on every prediction is NaN, whatever the image. -/
theorem C118_useless {n n' : Net (Cf w (Fl L))} {s s' : Size} (hr : n.Ready s s')
    (hl : ∀ l ∈ n.layers, l.Conveys Cf.HasNan Cf.IsNan) (hd : ∃ d, Layer.dense d ∈ n.layers)
    {data : Dataset (Cf w (Fl L))} (hs : data.HasSize s s') {f : LossFunc} {lr : Cf w (Fl L)}
    (hx : ∃ p ∈ data.points, ∃ e ∈ p.1.flat, e.HasNan) (h : n.gradientOpt data f lr = some (.ok (), n'))
    {x y : IOType (Cf w (Fl L))} (hy : n'.forward x = some (.ok y)) : y.flat ≠ [] ∧ ∀ e ∈ y.flat, e.IsNan := by
  have h1 := nan_training hr hl hd hs hx h
  have hd' : ∃ d, Layer.dense d ∈ n'.layers := by
    obtain ⟨d, hd⟩ := hd
    obtain ⟨l', h2, h3⟩ := forall₂_partner (Net.gradientOpt_kin h) hd
    cases l' with
    | dense d' => exact ⟨d', h2⟩
    | conv d' => exact h3.elim
    | reduce d' => exact h3.elim
    | flatten d' => exact h3.elim
  obtain ⟨ys, y', hc, hy, e⟩ := (C44_forward n' (by obtain ⟨d, hd⟩ := hd'; exact List.ne_nil_of_mem hd) x _).mp hy
  cases e
  have hne : ys ≠ [] := by rintro rfl; cases hy
  refine Cf.nan_absorbs.lost Cf.mul_nan (M := Cf.HasNan) (fun a h => .inl h.1) (sameShape_wf (Net.gradientOpt_shape hr.wf h))
    (fun l' hl' => ?_) hc hd' (fun d hd => (h1 _ hd).1.2) (by rw [List.getLast?_cons_of_ne_nil hne, hy])
  obtain ⟨-, l, h2, g, upd, h3, rfl⟩ := h1 l' hl'
  exact (hl l h2).zipParams h3 upd

end nan

/-- C118. The convolutional network of classification.rs, from any seed: if the sign bit of NaN is clear
(otherwise RITReLU turns NaN into zero), one NaN pixel in a batch of 28 × 28 images makes all its 32410
parameters NaN in a single training call, and every later prediction. -/
theorem C118_classification {L : Libm binary32} (hS : L.Standard) (hneg : L.nanNeg = false) (seed : Nat)
    (h : 1103515245 * seed + 12345 < 2 ^ 128) :
    ∃ n : Net (Cf .w32 (Fl L)), Examples.twoConv seed = some ((2, n), lcgNext^[65944] seed)
      ∧ ∀ (data : Dataset (Cf .w32 (Fl L))) (f : LossFunc) (lr : Cf .w32 (Fl L)),
        data.HasSize (.maps 1 28 28) (.vec 10) → (∃ p ∈ data.points, ∃ e ∈ p.1.flat, e.HasNan) →
        ∃ n', n.gradientOpt data f lr = some (.ok (), n') ∧ (∀ l ∈ n'.layers, l.AllParams Cf.IsNan)
          ∧ ∀ x y, n'.forward x = some (.ok y) → y.flat ≠ [] ∧ ∀ e ∈ y.flat, e.IsNan := by
  have h4 : Scalar.beq (Cf.new (Scalar.ofNat 4) Scalar.zero : Cf .w32 (Fl L)).den Scalar.zero = false := by
    rw [← Bool.not_eq_true]
    intro e
    have := (Fl.ofUsize_tiny (w := .w32) (L := L) 4).mp ((Fl.den_zero_iff _).mp e)
    omega
  obtain ⟨n, e1, hr, -, -, -, l1, l3, l5, l6, s1, s3, s5, s6, hl, ⟨c1, rfl, -, -, -, -, -, f1, -⟩,
    ⟨c3, rfl, -, -, -, -, -, f3, -⟩, ⟨c5, rfl, -, -, -, b5, f5⟩, ⟨c6, rfl, -, -, -, b6, f6⟩⟩ := C69_two_conv (R := Fl L) seed h h4
  have hc : ∀ l ∈ n.layers, l.Conveys Cf.HasNan Cf.IsNan := by
    intro l hl'
    rw [hl] at hl'
    simp only [List.mem_cons, List.not_mem_nil, or_false] at hl'
    rcases hl' with rfl | rfl | rfl | rfl | rfl | rfl
    · change ActKeeps _ c1.func
      rw [f1]
      exact (C87_relu (.inl rfl)).mpr hneg
    · exact C118_mean
    · change ActKeeps _ c3.func
      rw [f3]
      exact (C87_relu (.inl rfl)).mpr hneg
    · trivial
    · exact ⟨by rw [b5]; simp, f5 ▸ C87_activations hS (by simp)⟩
    · exact ⟨by rw [b6]; simp, f6 ▸ C87_activations hS (by simp)⟩
  have hd : ∃ d, Layer.dense d ∈ n.layers := ⟨c5, by rw [hl]; simp⟩
  refine ⟨n, e1, fun data f lr hs hx => ?_⟩
  obtain ⟨scale, hsc⟩ : ∃ scale, BasicOps.div lr (CplxOps.ofUsize data.inputs.length) = some scale := by
    rw [← Option.ne_none_iff_exists']
    change Cf.div lr (Cf.ofUsize _) ≠ none
    rw [Ne, (C85_panics_iff lr _).1, Fl.ofUsize_tiny, List.length_eq_zero_iff]
    intro e
    obtain ⟨p, hp, -⟩ := hx
    have := (List.of_mem_zip hp).1
    rw [e] at this
    cases this
  obtain ⟨n', h1, -⟩ := C66_step n hr data hs f lr scale hsc
  exact ⟨n', h1, C118_training hr hc hd hs hx h1, fun x y hy => C118_useless hr hc hd hs hx h1 hy⟩

/-! ## Non-vacuity -/

/-- An image with a single NaN, in the imaginary part of one pixel, after a proper image. -/
example (seed : Nat) (h : 1103515245 * seed + 12345 < 2 ^ 128) (a : Cf .w32 (Fl (Libm.rounded binary32)))
    (m : Mat (Cf .w32 (Fl (Libm.rounded binary32)))) (hm : m.Rect ∧ m.shape = (28, 28))
    (t u : List (Cf .w32 (Fl (Libm.rounded binary32)))) (ht : t.length = 10) (hu : u.length = 10)
    (f : LossFunc) (lr : Cf .w32 (Fl (Libm.rounded binary32))) :
    ∃ n n' : Net (Cf .w32 (Fl (Libm.rounded binary32))), Examples.twoConv seed = some ((2, n), lcgNext^[65944] seed)
      ∧ n.gradientOpt ⟨[.matrix [m], .matrix [Mat.fromBody (List.replicate 783 a ++ [⟨a.x, ⟨.nan⟩⟩]) (28, 28)]],
        [.scalar t, .scalar u]⟩ f lr = some (.ok (), n')
      ∧ ∀ l ∈ n'.layers, l.AllParams Cf.IsNan := by
  obtain ⟨n, h1, h2⟩ := C118_classification (Libm.rounded_standard _) rfl seed h
  obtain ⟨B, hB⟩ : ∃ B, B = List.replicate 783 a ++ [⟨a.x, ⟨.nan⟩⟩] := ⟨_, rfl⟩
  have hlen : B.length = 28 * 28 := by rw [hB, List.length_append, List.length_replicate]; rfl
  have hbad : ∃ e ∈ B, e.HasNan := ⟨⟨a.x, ⟨.nan⟩⟩, by rw [hB]; exact List.mem_append_right _ (List.mem_singleton.mpr rfl), .inr rfl⟩
  rw [← hB]
  clear hB
  obtain ⟨n', h3, h4, -⟩ := h2 ⟨[.matrix [m], .matrix [Mat.fromBody B (28, 28)]], [.scalar t, .scalar u]⟩ f lr (fun p hp => by
    simp only [Dataset.points, List.zip_cons_cons, List.zip_nil_right, List.mem_cons, List.not_mem_nil, or_false] at hp
    rcases hp with rfl | rfl
    · exact ⟨⟨rfl, by simpa using hm⟩, ht⟩
    · refine ⟨⟨rfl, fun m' hm' => ?_⟩, hu⟩
      obtain rfl := List.mem_singleton.mp hm'
      exact ⟨hlen, rfl⟩) (by
    obtain ⟨e, he, h⟩ := hbad
    exact ⟨(.matrix [Mat.fromBody B (28, 28)], .scalar u), by simp [Dataset.points], e, by simpa [IOType.flat, Mat.fromBody, Mat.getBody] using he, h⟩)
  exact ⟨n, n', h1, h3, h4⟩

end Renplex
