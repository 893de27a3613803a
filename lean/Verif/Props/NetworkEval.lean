import Verif.Props.NetworkSize
/-!
# C47, C54, C56, C57: parameter count, degenerate training calls, accuracy and loss
-/

namespace Renplex
variable {α P : Type}

/-! ## C47 parameter count -/

theorem Layer.paramsLen_stored {l : Layer α} (hw : l.WF) :
    l.paramsLen.1 + l.paramsLen.2 = l.stored := by
  cases l with
  | dense l =>
    simp only [Layer.paramsLen, Layer.stored, Dense.paramsLen]
    rw [hw.1]
  | conv l =>
    simp only [Layer.paramsLen, Layer.stored, Conv.paramsLen]
    congr 1
    have : ∀ (ks : List (Mat α)) (a : Nat), (∀ k ∈ ks, k.Rect) →
        ks.foldl (fun acc k => acc + k.shape.1 * k.shape.2) a
          = a + (ks.map fun k => k.body.length).sum := by
      intro ks
      induction ks with
      | nil => simp
      | cons k ks ih =>
        intro a h
        rw [List.foldl_cons, ih _ fun k hk => h k (by simp [hk]), List.map_cons, List.sum_cons,
          h k (by simp)]
        omega
    rw [this _ _ hw.2.2.2.1, Nat.zero_add]
  | reduce l => rfl
  | flatten l => rfl

/-- C47. `params_len` counts the stored weights and biases. -/
theorem C47_count (n : Net α) (hw : ∀ l ∈ n.layers, l.WF) :
    n.paramsLen = (n.layers.map Layer.stored).sum := by
  have : ∀ (ls : List (Layer α)) (a : Nat), (∀ l ∈ ls, l.WF) →
      ls.foldl (fun len l => len + (l.paramsLen.1 + l.paramsLen.2)) a
        = a + (ls.map Layer.stored).sum := by
    intro ls
    induction ls with
    | nil => simp
    | cons l ls ih =>
      intro a h
      rw [List.foldl_cons, ih _ fun l hl => h l (by simp [hl]), List.map_cons, List.sum_cons,
        Layer.paramsLen_stored (h l (by simp))]
      omega
  rw [Net.paramsLen, this _ _ hw, Nat.zero_add]

section
variable [CplxOps α P]

theorem Net.backLoop_length {rest : List (IOType α × Layer α)} {k : Nat} {d dc : List α}
    {acc acc' : List (List α × List α)} (h : Net.backLoop rest k d dc acc = some acc') :
    acc'.length = acc.length := by
  induction rest generalizing k d dc acc with
  | nil => cases h; rfl
  | cons p rest ih =>
    obtain ⟨prev, layer⟩ := p
    simp only [Net.backLoop] at h
    by_cases hp : layer.propagates = true
    · rw [if_pos hp] at h
      simp only [Option.bind_eq_bind] at h
      obtain ⟨r, -, h⟩ := Option.bind_eq_some_iff.mp h
      obtain ⟨⟨_, _, _, _⟩, -, h⟩ := Option.bind_eq_some_iff.mp h
      obtain ⟨⟨_, _⟩, -, h⟩ := Option.bind_eq_some_iff.mp h
      obtain ⟨_, -, h⟩ := Option.bind_eq_some_iff.mp h
      obtain ⟨_, -, h⟩ := Option.bind_eq_some_iff.mp h
      rw [ih h, List.length_set]
    · rw [if_neg hp] at h
      exact ih h

theorem Net.sampleStep_length {n : Net α} {f : LossFunc} {acc acc' : List (List α × List α)}
    {p : IOType α × IOType α} (h : Net.sampleStep n f acc p = some acc') :
    acc'.length = acc.length := by
  simp only [Net.sampleStep, Option.bind_eq_bind] at h
  obtain ⟨_, -, h⟩ := Option.bind_eq_some_iff.mp h
  obtain ⟨_, -, h⟩ := Option.bind_eq_some_iff.mp h
  obtain ⟨_, -, h⟩ := Option.bind_eq_some_iff.mp h
  exact Net.backLoop_length h

theorem Net.samples_length {n : Net α} {f : LossFunc} (pts : List (IOType α × IOType α))
    {acc acc' : List (List α × List α)} (h : pts.foldlM (Net.sampleStep n f) acc = some acc') :
    acc'.length = acc.length := by
  induction pts generalizing acc with
  | nil => cases h; rfl
  | cons p pts ih =>
    rw [List.foldlM_cons] at h
    obtain ⟨a, h1, h2⟩ := Option.bind_eq_some_iff.mp h
    rw [ih h2, Net.sampleStep_length h1]

/-- Two layers of the same kind, shape and storage. -/
def Layer.SameShape (l l' : Layer α) : Prop :=
  l'.WF ∧ l'.inputShape = l.inputShape ∧ l'.outputShape = l.outputShape
    ∧ l'.paramsLen = l.paramsLen ∧ l'.isEmpty = l.isEmpty

theorem Net.updateLayer_shape {scale : α} {g : List α × List α} {l l' : Layer α} (hw : l.WF)
    (h : Net.updateLayer scale g l = some l') : l.SameShape l' := by
  unfold Net.updateLayer at h
  by_cases hp : l.propagates = true
  · rw [if_pos hp] at h
    obtain ⟨r, h1, h⟩ := Option.bind_eq_some_iff.mp h
    obtain ⟨_, -, h⟩ := Option.bind_eq_some_iff.mp h
    cases h
    exact C55_keeps_shape l r.2 hw _ _ r.1 h1
  · rw [if_neg hp] at h
    cases h
    exact ⟨hw, rfl, rfl, rfl, rfl⟩

theorem Net.updateAll_shape {scale : α} (acc : List (List α × List α)) (ls ls' : List (Layer α))
    (hl : acc.length = ls.length) (hw : ∀ l ∈ ls, l.WF)
    (h : (acc.zip ls).mapM (fun p => Net.updateLayer scale p.1 p.2) = some ls') :
    List.Forall₂ Layer.SameShape ls ls' := by
  induction acc generalizing ls ls' with
  | nil =>
    cases ls with
    | nil => cases h; exact .nil
    | cons => simp at hl
  | cons g acc ih =>
    cases ls with
    | nil => simp at hl
    | cons l ls =>
      rw [List.zip_cons_cons, List.mapM_cons] at h
      obtain ⟨l1, h1, h⟩ := Option.bind_eq_some_iff.mp h
      obtain ⟨ls1, h2, h⟩ := Option.bind_eq_some_iff.mp h
      cases h
      exact .cons (Net.updateLayer_shape (hw l (by simp)) h1)
        (ih ls ls1 (by simpa using hl) (fun l hl => hw l (by simp [hl])) h2)

/-- One training call keeps every layer's kind, shape and number of parameters. -/
theorem Net.gradientOpt_shape {n n' : Net α} {data : Dataset α} {f : LossFunc} {lr : α}
    {r : Except ForwardErr Unit} (hw : ∀ l ∈ n.layers, l.WF)
    (h : n.gradientOpt data f lr = some (r, n')) :
    List.Forall₂ Layer.SameShape n.layers n'.layers := by
  unfold Net.gradientOpt at h
  by_cases hl : n.layers.length ≤ 1
  · rw [if_pos hl] at h
    cases h
    exact List.forall₂_same.mpr fun l hm => ⟨hw l hm, rfl, rfl, rfl, rfl⟩
  · rw [if_neg hl] at h
    simp only [Option.bind_eq_bind] at h
    obtain ⟨acc, h1, h⟩ := Option.bind_eq_some_iff.mp h
    obtain ⟨scale, -, h⟩ := Option.bind_eq_some_iff.mp h
    obtain ⟨ls, h2, h⟩ := Option.bind_eq_some_iff.mp h
    cases h
    refine Net.updateAll_shape acc n.layers ls ?_ hw h2
    rw [Net.samples_length _ h1, List.length_map]

theorem sameShape_sum {ls ls' : List (Layer α)} (h : List.Forall₂ Layer.SameShape ls ls') (a : Nat) :
    ls'.foldl (fun len l => len + (l.paramsLen.1 + l.paramsLen.2)) a
      = ls.foldl (fun len l => len + (l.paramsLen.1 + l.paramsLen.2)) a := by
  induction h generalizing a with
  | nil => rfl
  | cons h _ ih => rw [List.foldl_cons, List.foldl_cons, h.2.2.2.1, ih]

theorem sameShape_wf {ls ls' : List (Layer α)} (h : List.Forall₂ Layer.SameShape ls ls') :
    ∀ l ∈ ls', l.WF := by
  induction h with
  | nil => simp
  | cons h _ ih => intro l hl; rcases List.mem_cons.mp hl with rfl | hl; exacts [h.1, ih l hl]

/-- C47. After any history of training calls that did not panic, the parameter count is unchanged
and still the number of stored weights and biases; in fact every layer keeps its shapes and its own
count. -/
theorem C47_training (n n' : Net α) (steps : List (TrainStep α)) (hw : ∀ l ∈ n.layers, l.WF)
    (h : n.train steps = some n') :
    n'.paramsLen = n.paramsLen ∧ n'.paramsLen = (n'.layers.map Layer.stored).sum
      ∧ List.Forall₂ Layer.SameShape n.layers n'.layers := by
  suffices h' : List.Forall₂ Layer.SameShape n.layers n'.layers from
    ⟨sameShape_sum h' 0, C47_count n' (sameShape_wf h'), h'⟩
  induction steps generalizing n with
  | nil => cases h; exact List.forall₂_same.mpr fun l hm => ⟨hw l hm, rfl, rfl, rfl, rfl⟩
  | cons s steps ih =>
    simp only [Net.train, List.foldlM_cons, Option.bind_eq_bind] at h
    obtain ⟨n1, h1, h⟩ := Option.bind_eq_some_iff.mp h
    obtain ⟨⟨r, n2⟩, h2, rfl⟩ := Option.map_eq_some_iff.mp h1
    have h3 := Net.gradientOpt_shape hw h2
    have h4 := ih n2 (sameShape_wf h3) h
    have trans : ∀ {a b c : List (Layer α)}, List.Forall₂ Layer.SameShape a b →
        List.Forall₂ Layer.SameShape b c → List.Forall₂ Layer.SameShape a c := by
      intro a b c hab
      induction hab generalizing c with
      | nil => intro hbc; cases hbc; exact .nil
      | cons h _ ih =>
        intro hbc
        cases hbc with
        | cons h' t =>
          exact .cons ⟨h'.1, h'.2.1.trans h.2.1, h'.2.2.1.trans h.2.2.1,
            h'.2.2.2.1.trans h.2.2.2.1, h'.2.2.2.2.trans h.2.2.2.2⟩ (ih t)
    exact trans h3 h4

end

example : exNet.paramsLen = 9 ∧ (∀ l ∈ exNet.layers, l.WF) := by
  refine ⟨rfl, ?_⟩
  simp [exNet, Layer.WF, Mat.Rect, Mat.fromBody]
example : (exNet.train [(⟨[.scalar [1, 1]], [.scalar [3]]⟩, .meanSquare, 2)]).bind
    (fun n => n.forward (.scalar [1, 1])) = some (.ok (.scalar [110])) := rfl

/-! ## C54 degenerate training calls -/

/-- C54. Training a network with fewer than two layers returns `MissingLayers` and changes
nothing, whatever the batch. -/
theorem C54_too_short [CplxOps α P] (n : Net α) (h : n.layers.length ≤ 1) (data : Dataset α)
    (f : LossFunc) (lr : α) : n.gradientOpt data f lr = some (.error .missingLayers, n) := by
  unfold Net.gradientOpt; rw [if_pos h]

/-- C54 as stated is false: with two or more layers an empty batch panics (the learning rate is
divided by the number of points), for every loss and learning rate. -/
theorem C54_refuted {w : Width} (n : Net (Cf w ℝ)) (h : 2 ≤ n.layers.length) (f : LossFunc)
    (lr : Cf w ℝ) : n.gradientOpt Dataset.new f lr = none := by
  have hd : BasicOps.div lr (CplxOps.ofUsize 0 : Cf w ℝ) = none := by
    refine (C19_div lr (Cf.ofUsize 0)).2.mpr ?_
    rw [Cf.toC_ofUsize, Nat.cast_zero]
  unfold Net.gradientOpt
  rw [if_neg (by omega)]
  simp [Dataset.new, Dataset.points, hd]

/-- C54 as stated is false: the loss of an empty batch panics, in any arithmetic. -/
theorem C54_refuted_loss [CplxOps α P] [RealOps P] (n : Net α) (f : LossFunc) :
    n.loss Dataset.new f = none := rfl

/-- C54. A training call never leaves a corrupt network behind: whenever it returns, all layers are
well-formed and keep their shapes; if it returns an error the network is unchanged. -/
theorem C54_no_corruption_partial [CplxOps α P] (n n' : Net α) (hw : ∀ l ∈ n.layers, l.WF)
    (data : Dataset α) (f : LossFunc) (lr : α) (r : Except ForwardErr Unit)
    (h : n.gradientOpt data f lr = some (r, n')) :
    List.Forall₂ Layer.SameShape n.layers n'.layers ∧ (∀ e, r = .error e → n' = n) := by
  refine ⟨Net.gradientOpt_shape hw h, ?_⟩
  rintro e rfl
  unfold Net.gradientOpt at h
  by_cases hl : n.layers.length ≤ 1
  · rw [if_pos hl] at h; cases h; rfl
  · rw [if_neg hl] at h
    simp only [Option.bind_eq_bind] at h
    obtain ⟨acc, h1, h⟩ := Option.bind_eq_some_iff.mp h
    obtain ⟨scale, -, h⟩ := Option.bind_eq_some_iff.mp h
    obtain ⟨ls, h2, h⟩ := Option.bind_eq_some_iff.mp h
    cases h

/-! ## C56 accuracy -/

theorem argmax_fold {w : Width} (v : List (Cf w ℝ)) (k : Nat) (i0 : Nat) (z0 : Cf w ℝ) :
    let r := (v.zipIdx k).foldl (fun (acc : Nat × Cf w ℝ) (e : Cf w ℝ × Nat) =>
      if BasicOps.gt e.1 acc.2 then (e.2, e.1) else acc) (i0, z0)
    (r = (i0, z0) ∧ ∀ y ∈ v, ‖y.toC‖ ≤ ‖z0.toC‖)
      ∨ ∃ i, r.1 = k + i ∧ v[i]? = some r.2 ∧ ‖z0.toC‖ < ‖r.2.toC‖
        ∧ (∀ y ∈ v, ‖y.toC‖ ≤ ‖r.2.toC‖)
        ∧ ∀ (j : Nat) (y : Cf w ℝ), j < i → v[j]? = some y → ‖y.toC‖ < ‖r.2.toC‖ := by
  induction v generalizing k i0 z0 with
  | nil => left; simp
  | cons a v ih =>
    simp only [List.zipIdx_cons, List.foldl_cons]
    have hgt : (BasicOps.gt a z0 = true) ↔ ‖z0.toC‖ < ‖a.toC‖ := (C22_partial a z0).2.2.1
    by_cases h : BasicOps.gt a z0 = true
    · rw [if_pos h]
      have h' := hgt.mp h
      right
      rcases ih (k + 1) k a with ⟨hr, hy⟩ | ⟨i, h1, h2, h3, h4, h5⟩
      · rw [hr]
        refine ⟨0, rfl, rfl, h', ?_, by simp⟩
        intro y hm
        rcases List.mem_cons.mp hm with rfl | hm
        · exact le_refl _
        · exact hy y hm
      · refine ⟨i + 1, by rw [h1]; omega, by simpa using h2, h'.trans h3, ?_, ?_⟩
        · intro y hm
          rcases List.mem_cons.mp hm with rfl | hm
          · exact h3.le
          · exact h4 y hm
        · intro j y hj hy
          cases j with
          | zero => obtain rfl : a = y := by simpa using hy
                    exact h3
          | succ j => exact h5 j y (by omega) (by simpa using hy)
    · rw [if_neg h]
      have h' := not_lt.mp (fun hlt => h (hgt.mpr hlt))
      rcases ih (k + 1) i0 z0 with ⟨hr, hy⟩ | ⟨i, h1, h2, h3, h4, h5⟩
      · left
        refine ⟨hr, ?_⟩
        intro y hm
        rcases List.mem_cons.mp hm with rfl | hm
        · exact h'
        · exact hy y hm
      · right
        refine ⟨i + 1, by rw [h1]; omega, by simpa using h2, h3, ?_, ?_⟩
        · intro y hm
          rcases List.mem_cons.mp hm with rfl | hm
          · exact h'.trans h3.le
          · exact h4 y hm
        · intro j y hj hy
          cases j with
          | zero => obtain rfl : a = y := by simpa using hy
                    exact h'.trans_lt h3
          | succ j => exact h5 j y (by omega) (by simpa using hy)

/-- C56. The index compared is the first position of a largest modulus (ties: the first). -/
theorem C56_argmax {w : Width} (v : List (Cf w ℝ)) (hv : v ≠ []) :
    FirstLargest v (Net.argmax v) := by
  have h := argmax_fold v 0 0 BasicOps.zero
  simp only at h
  rcases h with ⟨hr, hy⟩ | ⟨i, h1, h2, h3, h4, h5⟩
  · cases v with
    | nil => exact absurd rfl hv
    | cons a v =>
      have h0 : Net.argmax (a :: v) = 0 := by unfold Net.argmax; rw [hr]
      have hz : ‖(BasicOps.zero : Cf w ℝ).toC‖ = 0 := by
        have : (BasicOps.zero : Cf w ℝ).toC = 0 := Cf.toC_default
        rw [this, norm_zero]
      rw [h0]
      refine ⟨a, rfl, fun y hm => ?_, by simp⟩
      have := hy y hm
      rw [hz] at this
      exact this.trans (norm_nonneg _)
  · refine ⟨_, ?_, h4, ?_⟩
    · rw [← h2]
      congr 1
      unfold Net.argmax
      rw [h1, Nat.zero_add]
    · intro j y hj hy
      refine h5 j y ?_ hy
      unfold Net.argmax at hj
      rw [h1, Nat.zero_add] at hj
      exact hj

/-- C56. `FirstLargest` determines the index. -/
theorem C56_unique {w : Width} (v : List (Cf w ℝ)) (i j : Nat) (hi : FirstLargest v i)
    (hj : FirstLargest v j) : i = j := by
  obtain ⟨a, ha, ha1, ha2⟩ := hi
  obtain ⟨b, hb, hb1, hb2⟩ := hj
  rcases Nat.lt_trichotomy i j with h | h | h
  · exact absurd (hb2 i a h ha) (not_lt.mpr (ha1 b (List.mem_iff_getElem?.mpr ⟨j, hb⟩)))
  · exact h
  · exact absurd (ha2 j b h hb) (not_lt.mpr (hb1 a (List.mem_iff_getElem?.mpr ⟨i, ha⟩)))

open Classical in
/-- C56. For a batch of pairs, each forwarded by the network to a non-empty vector `pr` with a
non-empty vector target, `max_pred_test` returns `k / B`: `k` counts the points whose prediction and
target have the same first index of largest modulus. -/
theorem C56_accuracy {w : Width} (n : Net (Cf w ℝ)) (data : Dataset (Cf w ℝ))
    (hlen : data.inputs.length = data.target.length)
    (pr tg : IOType (Cf w ℝ) × IOType (Cf w ℝ) → List (Cf w ℝ))
    (hp : ∀ p ∈ data.points, n.forward p.1 = some (.ok (.scalar (pr p))) ∧ p.2 = .scalar (tg p)
      ∧ pr p ≠ [] ∧ tg p ≠ []) :
    n.maxPredTest data = some
      (((data.points.filter fun p => ∃ i, FirstLargest (pr p) i ∧ FirstLargest (tg p) i).length : ℝ)
  / data.points.length) := by
  have hl : data.points.length = data.target.length := by
    rw [Dataset.points, List.length_zip, hlen, Nat.min_self]
  have hm : (data.points.mapM fun p => do
      let prediction ← n.forward p.1 >>= unwrap
      let pred ← prediction.asSlice
      let targ ← p.2.asSlice
      some (if Net.argmax targ = Net.argmax pred then 1 else 0))
      = some (data.points.map fun p =>
        if ∃ i, FirstLargest (pr p) i ∧ FirstLargest (tg p) i then 1 else 0) := by
    apply mapM_some_of
    intro p hpm
    obtain ⟨h1, h2, h3, h4⟩ := hp p hpm
    simp only [h1, h2, IOType.asSlice, unwrap, Option.bind_eq_bind, Option.bind_some]
    congr 1
    refine if_congr ?_ rfl rfl
    constructor
    · intro he
      exact ⟨_, C56_argmax _ h3, by rw [← he]; exact C56_argmax _ h4⟩
    · rintro ⟨i, hi, hi'⟩
      rw [C56_unique _ _ _ (C56_argmax _ h4) hi', C56_unique _ _ _ (C56_argmax _ h3) hi]
  have hs : ∀ l : List (IOType (Cf w ℝ) × IOType (Cf w ℝ)), (l.map fun p =>
      if ∃ i, FirstLargest (pr p) i ∧ FirstLargest (tg p) i then 1 else 0).sum
      = (l.filter fun p => ∃ i, FirstLargest (pr p) i ∧ FirstLargest (tg p) i).length := by
    intro l
    induction l with
    | nil => rfl
    | cons a l ih =>
      rw [List.map_cons, List.sum_cons, ih, List.filter_cons]
      by_cases h : ∃ i, FirstLargest (pr a) i ∧ FirstLargest (tg a) i
      · simp [h, Nat.add_comm]
      · simp [h]
  unfold Net.maxPredTest
  rw [hm]
  simp only [Option.bind_eq_bind, Option.bind_some]
  rw [hs, ← hl]
  rfl

/-- C56. Whenever it returns for a non-empty batch, the value is a number between 0 and 1; more
precisely `k / B` with `k ≤ B`. -/
theorem C56_range {w : Width} (n : Net (Cf w ℝ)) (data : Dataset (Cf w ℝ)) (acc : ℝ)
    (h : n.maxPredTest data = some acc) :
    ∃ k : Nat, k ≤ data.target.length ∧ acc = k / data.target.length ∧ 0 ≤ acc ∧ acc ≤ 1 := by
  unfold Net.maxPredTest at h
  obtain ⟨res, h1, h⟩ := Option.bind_eq_some_iff.mp h
  have hle : res.sum ≤ res.length := by
    have : ∀ x ∈ res, x ≤ 1 := by
      intro x hx
      obtain ⟨i, hi⟩ := List.mem_iff_getElem?.mp hx
      rw [mapM_getElem? h1] at hi
      obtain ⟨p, -, hp⟩ := Option.bind_eq_some_iff.mp hi
      obtain ⟨_, -, hp⟩ := Option.bind_eq_some_iff.mp hp
      obtain ⟨_, -, hp⟩ := Option.bind_eq_some_iff.mp hp
      obtain ⟨_, -, hp⟩ := Option.bind_eq_some_iff.mp hp
      cases hp
      split_ifs <;> omega
    have := List.sum_le_card_nsmul res 1 this
    simpa using this
  have hlen : res.length ≤ data.target.length := by
    rw [mapM_length h1, Dataset.points, List.length_zip]
    exact Nat.min_le_right _ _
  have hk := hle.trans hlen
  have h : some ((res.sum : ℝ) / data.target.length) = some acc := h
  obtain rfl := Option.some.inj h
  refine ⟨res.sum, hk, rfl, by positivity, ?_⟩
  apply div_le_one_of_le₀
  · exact_mod_cast hk
  · positivity

/-! ## C57 the loss is the batch mean -/

/-- What one point contributes: `some v` if it can be forwarded and compared with its target. -/
def pointLoss [CplxOps α P] (n : Net α) (f : LossFunc) (p : IOType α × IOType α) : Option P :=
  n.forward p.1 >>= unwrap >>= fun pred => unwrap (CplxOps.loss f p.2 pred)

theorem pointLoss_iff [CplxOps α P] (n : Net α) (f : LossFunc) (p : IOType α × IOType α) (v : P) :
    pointLoss n f p = some v
      ↔ ∃ pred, n.forward p.1 = some (.ok pred) ∧ CplxOps.loss f p.2 pred = .ok v := by
  unfold pointLoss
  have hu : ∀ {ε β : Type} (r : Except ε β) (b : β), unwrap r = some b ↔ r = .ok b := by
    intro ε β r b; cases r <;> simp [unwrap]
  constructor
  · intro h
    obtain ⟨pred, h1, h2⟩ := Option.bind_eq_some_iff.mp h
    obtain ⟨r, h3, h4⟩ := Option.bind_eq_some_iff.mp h1
    rw [hu] at h2 h4
    exact ⟨pred, by rw [h3, h4], h2⟩
  · rintro ⟨pred, h1, h2⟩
    rw [h1]
    simp [unwrap, h2]

theorem Net.loss_eq [CplxOps α P] [RealOps P] (n : Net α) (data : Dataset α) (f : LossFunc) :
    n.loss data f = (do
      let vals ← data.points.mapM (pointLoss n f)
      let total ← reduce BasicOps.add vals
      BasicOps.div total (RealOps.ofUsize vals.length)) := rfl

/-- C57. In any arithmetic, the loss panics exactly for an empty batch or a point that cannot be
evaluated (the network cannot forward it, or prediction and target are of different kinds). -/
theorem C57_panics {w : Width} {R : Type} [Scalar R] (n : Net (Cf w R)) (data : Dataset (Cf w R))
    (f : LossFunc) :
    n.loss data f = none ↔ data.points = [] ∨ ∃ p ∈ data.points, ∀ pred v,
      n.forward p.1 = some (.ok pred) → CplxOps.loss f p.2 pred ≠ .ok v := by
  have hne : ∀ p, pointLoss n f p = none ↔ ∀ pred v, n.forward p.1 = some (.ok pred) →
      CplxOps.loss f p.2 pred ≠ .ok v := by
    intro p
    rw [Option.eq_none_iff_forall_ne_some]
    constructor
    · intro h pred v h1 h2; exact h v ((pointLoss_iff n f p v).mpr ⟨pred, h1, h2⟩)
    · intro h v hv
      obtain ⟨pred, h1, h2⟩ := (pointLoss_iff n f p v).mp hv
      exact h pred v h1 h2
  rw [Net.loss_eq]
  cases hm : data.points.mapM (pointLoss n f) with
  | none =>
    obtain ⟨p, hp, h⟩ := (mapM_eq_none_iff _ _).mp hm
    simp only [Option.bind_eq_bind, Option.bind_none, true_iff]
    exact .inr ⟨p, hp, (hne p).mp h⟩
  | some vals =>
    have hl := mapM_length hm
    simp only [Option.bind_eq_bind, Option.bind_some]
    have h2 : ¬ ∃ p ∈ data.points, ∀ pred v, n.forward p.1 = some (.ok pred) →
        CplxOps.loss f p.2 pred ≠ .ok v := by
      rintro ⟨p, hp, h⟩
      rw [mapM_eq_none_of _ _ p hp ((hne p).mpr h)] at hm
      cases hm
    simp only [h2, or_false]
    cases vals with
    | nil =>
      simp only [reduce, Option.bind_none, true_iff]
      exact List.length_eq_zero_iff.mp (by simpa using hl.symm)
    | cons v vals =>
      have : data.points ≠ [] := by intro h0; rw [h0] at hl; simp at hl
      simp only [this, iff_false]
      simp [reduce, BasicOps.div]

/-- C57. In exact arithmetic the loss is the arithmetic mean of the per-point losses. -/
theorem C57_mean {w : Width} (n : Net (Cf w ℝ)) (data : Dataset (Cf w ℝ)) (f : LossFunc)
    (hne : data.points ≠ []) (L : IOType (Cf w ℝ) × IOType (Cf w ℝ) → ℝ)
    (hL : ∀ p ∈ data.points, ∃ pred, n.forward p.1 = some (.ok pred)
      ∧ CplxOps.loss f p.2 pred = .ok (L p)) :
    n.loss data f = some ((data.points.map L).sum / data.points.length) := by
  rw [Net.loss_eq, mapM_some_of _ L _ fun p hp => (pointLoss_iff n f p _).mpr (hL p hp)]
  cases hd : data.points with
  | nil => exact absurd hd hne
  | cons p ps =>
    simp only [List.map_cons, Option.bind_eq_bind, Option.bind_some, reduce]
    have : (ps.map L).foldl BasicOps.add (L p) = L p + (ps.map L).sum := foldl_add_sum _ _
    rw [this, List.sum_cons]
    simp only [BasicOps.div, RealOps.ofUsize, sofNat, sdiv, List.length_cons, List.length_map]

/-- C57. In exact arithmetic the loss does not depend on the order of the points (including
whether it panics). -/
theorem C57_permutation {w : Width} (n : Net (Cf w ℝ)) (data data' : Dataset (Cf w ℝ))
    (f : LossFunc) (h : data.points.Perm data'.points) : n.loss data f = n.loss data' f := by
  by_cases hbad : n.loss data f = none
  · rw [hbad]
    rw [C57_panics] at hbad
    symm
    rw [C57_panics]
    rcases hbad with h0 | ⟨p, hp, hb⟩
    · left; rw [h0] at h; exact h.nil_eq.symm
    · right; exact ⟨p, h.mem_iff.mp hp, hb⟩
  · have hbad' := hbad
    rw [C57_panics, not_or] at hbad
    obtain ⟨h0, h1⟩ := hbad
    have : ∀ p, ∃ v, p ∈ data.points → ∃ pred, n.forward p.1 = some (.ok pred)
        ∧ CplxOps.loss f p.2 pred = .ok v := by
      intro p
      by_cases hp : p ∈ data.points
      · by_contra hc
        push Not at hc
        exact h1 ⟨p, hp, fun pred v h2 h3 => (hc v).2 pred h2 h3⟩
      · exact ⟨0, fun h => absurd h hp⟩
    choose L hL using this
    have h0' : data'.points ≠ [] := by
      intro he; rw [he] at h; exact h0 h.eq_nil
    rw [C57_mean n data f h0 L hL, C57_mean n data' f h0' L fun p hp => hL p (h.mem_iff.mpr hp),
      (h.map L).sum_eq, h.length_eq]

example : Net.argmax [(3 : Int), 7, 7, 1] = 1 := by decide
example : ∃ data : Dataset Int, data.points ≠ [] ∧ exNet.loss data .meanSquare = some 2 :=
  ⟨⟨[.scalar [1, 1], .scalar [1, 1]], [.scalar [4], .scalar [2]]⟩, by simp [Dataset.points], rfl⟩
/-- A batch as in C56 and C57 for the identity network on one scalar. -/
example {w : Width} : ∃ (n : Net (Cf w ℝ)) (data : Dataset (Cf w ℝ)), data.points ≠ []
    ∧ ∀ p ∈ data.points, ∃ v, n.forward p.1 = some (.ok (.scalar v)) ∧ v ≠ [] :=
  ⟨⟨[.dense ⟨Mat.fromBody [Cf.unit] (1, 1), [Cf.unit], .none⟩]⟩,
    ⟨[.scalar [Cf.unit]], [.scalar [Cf.unit]]⟩, by simp [Dataset.points], by
    intro p hp
    obtain rfl : p = (.scalar [Cf.unit], .scalar [Cf.unit]) := by simpa [Dataset.points] using hp
    exact ⟨_, rfl, by simp⟩⟩

end Renplex
