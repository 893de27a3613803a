import Verif.Props.ExampleRuns
import Verif.Props.SignalValue
import Mathlib.Data.Nat.Factorial.Basic
/-!
# C71: the regression program
-/

namespace Renplex
open Examples Signal

/-! ## What is recorded -/

theorem recorded_succ (l : Nat → ℝ) (B : Nat) :
    recorded l (B + 1) = (recorded l B + l B) / (B + 1 : ℕ) := by
  rw [recorded, List.range_succ, List.foldl_append]; rfl

/-- C71. The recorded value weighs loss `k` (from 0) with `k! / B!`. -/
theorem C71_recorded (l : Nat → ℝ) (B : Nat) :
    recorded l B = ∑ k ∈ Finset.range B, l k * (k.factorial / B.factorial : ℝ) := by
  induction B with
  | zero => simp [recorded]
  | succ B ih =>
    have h1 : ((B + 1 : ℕ) : ℝ) ≠ 0 := by exact_mod_cast Nat.succ_ne_zero B
    have h2 : (B.factorial : ℝ) ≠ 0 := by exact_mod_cast B.factorial_ne_zero
    rw [recorded_succ, ih, Finset.sum_range_succ, add_div, Finset.sum_div, Nat.factorial_succ,
      Nat.cast_mul]
    congr 1
    · refine Finset.sum_congr rfl fun k _ => ?_
      field_simp
    · field_simp

theorem weight_le {B k : Nat} (hk : k < B) : (k.factorial / B.factorial : ℝ) ≤ 1 / B := by
  obtain ⟨b, rfl⟩ : ∃ b, B = b + 1 := ⟨B - 1, by omega⟩
  have h1 : ((b + 1 : ℕ) : ℝ) ≠ 0 := by exact_mod_cast Nat.succ_ne_zero b
  have h2 : (0 : ℝ) < b.factorial := by exact_mod_cast b.factorial_pos
  have h3 : (0 : ℝ) < (b + 1 : ℕ) := by positivity
  rw [Nat.factorial_succ, Nat.cast_mul, div_le_div_iff₀ (by positivity) h3, one_mul, mul_comm]
  exact mul_le_mul_of_nonneg_left (by exact_mod_cast Nat.factorial_le (by omega)) h3.le

theorem weight_lt {B k : Nat} (hB : 3 ≤ B) (hk : k + 1 < B) :
    (k.factorial / B.factorial : ℝ) < 1 / B := by
  obtain ⟨b, rfl⟩ : ∃ b, B = b + 1 := ⟨B - 1, by omega⟩
  have h2 : (0 : ℝ) < b.factorial := by exact_mod_cast b.factorial_pos
  have h3 : (0 : ℝ) < (b + 1 : ℕ) := by positivity
  rw [Nat.factorial_succ, Nat.cast_mul, div_lt_div_iff₀ (by positivity) h3, one_mul, mul_comm]
  refine mul_lt_mul_of_pos_left ?_ h3
  have : k.factorial < b.factorial := by
    rcases Nat.eq_zero_or_pos k with rfl | h0
    · have := Nat.self_le_factorial b
      simp; omega
    · exact (Nat.factorial_lt h0).mpr (by omega)
  exact_mod_cast this

theorem mean_eq (l : Nat → ℝ) (B : Nat) :
    meanLoss l B = ∑ k ∈ Finset.range B, l k * (1 / B : ℝ) := by
  rw [meanLoss, Finset.sum_div]
  exact Finset.sum_congr rfl fun k _ => by ring

/-- C71. For non-negative losses the recorded value is at most their mean, and equals it exactly if
there are at most two batches or all losses but the last are zero. -/
theorem C71_mean_partial (l : Nat → ℝ) (hl : ∀ k, 0 ≤ l k) (B : Nat) :
    recorded l B ≤ meanLoss l B
      ∧ (recorded l B = meanLoss l B ↔ B ≤ 2 ∨ ∀ k, k + 1 < B → l k = 0) := by
  have hle : ∀ k ∈ Finset.range B, l k * (k.factorial / B.factorial : ℝ) ≤ l k * (1 / B : ℝ) :=
    fun k hk => mul_le_mul_of_nonneg_left (weight_le (Finset.mem_range.mp hk)) (hl k)
  rw [C71_recorded, mean_eq]
  refine ⟨Finset.sum_le_sum hle, ?_⟩
  rw [Finset.sum_eq_sum_iff_of_le hle]
  constructor
  · intro h
    by_cases hB : B ≤ 2
    · exact .inl hB
    · refine .inr fun k hk => ?_
      have h1 := h k (Finset.mem_range.mpr (by omega))
      have h2 := weight_lt (by omega) hk
      by_contra h0
      exact absurd (mul_left_cancel₀ h0 h1) h2.ne
  · rintro (h | h) k hk
    · have hk := Finset.mem_range.mp hk
      obtain ⟨rfl, rfl⟩ | ⟨rfl, rfl⟩ | ⟨rfl, rfl⟩ : (B = 1 ∧ k = 0) ∨ (B = 2 ∧ k = 0) ∨ (B = 2 ∧ k = 1) := by
        omega
      all_goals simp [Nat.factorial]
    · have hk := Finset.mem_range.mp hk
      by_cases h1 : k + 1 < B
      · rw [h k h1]; simp
      · obtain rfl : B = k + 1 := by omega
        have h2 : (k.factorial : ℝ) ≠ 0 := by exact_mod_cast k.factorial_ne_zero
        rw [Nat.factorial_succ, Nat.cast_mul]
        field_simp

/-- With three batches and losses 1, 1, 1 it records 2/3. -/
example : recorded (fun _ => 1) 3 = 2 / 3 := by
  rw [recorded_succ, recorded_succ, recorded_succ]; norm_num [recorded]

/-! ## The data -/

theorem fits_trainIter (samples k : Nat) {s : Nat} (h : Fits s) : Fits ((nextTrain samples)^[k] s) := by
  induction k with
  | zero => exact h
  | succ k ih => rw [Function.iterate_succ_apply']; exact fits_nextTrain _ _ ih

theorem fits_testIter (samples k : Nat) {s : Nat} (h : Fits s) : Fits ((nextTest samples)^[k] s) := by
  induction k with
  | zero => exact h
  | succ k ih => rw [Function.iterate_succ_apply']; exact fits_nextTest _ _ ih

section
variable {samples : Nat} (he : samples % 2 = 0) {thr : ℝ} {size train test : Nat}
  (h1 : Fits train) (h2 : Fits test)

include he h1 h2 in
theorem reconstruct_batch (b : Nat) :
    reconstruction samples thr size ((nextTrain samples)^[b * size] train)
        ((nextTest samples)^[b * size] test) Dataset.new Dataset.new
      = some ((signalTrain samples thr size train test b, signalTest samples thr size test b),
        (nextTrain samples)^[(b + 1) * size] train, (nextTest samples)^[(b + 1) * size] test) := by
  have := reconstruction_eq samples he thr size _ _ [] [] (fits_trainIter samples (b * size) h1)
    (fits_testIter samples (b * size) h2)
  have e : (b + 1) * size = size + b * size := by rw [Nat.add_mul, Nat.one_mul, Nat.add_comm]
  have e' : ∀ m, m + b * size = b * size + m := fun m => Nat.add_comm _ _
  simp only [← Function.iterate_add_apply, List.nil_append, e'] at this
  rw [e, e']
  exact this

theorem signal_good {d : Dataset (Cf .w32 ℝ)} {F G : Nat → Nat → ℂ}
    (hd : d = Dataset.ofPoints ((List.range size).map fun m =>
      (samplesOf samples (F m), samplesOf samples (G m)))) (hs : 0 < size) :
    GoodBatch (.vec samples) (.vec samples) d := by
  subst hd
  have hp := C58_points ((List.range size).map fun m =>
      (samplesOf samples (F m), samplesOf samples (G m)))
  refine ⟨?_, ?_, ?_⟩
  · intro p hm
    rw [hp.2.2.2.1] at hm
    obtain ⟨m, -, rfl⟩ := List.mem_map.mp hm
    simp [samplesOf, IOType.HasSize]
  · rw [hp.2.2.2.1]
    intro h0
    have := congrArg List.length h0
    simp at this; omega
  · rw [hp.2.1]
    simp only [List.length_map, List.length_range]
    exact ofUsize_ok size hs

theorem train_good (hs : 0 < size) (k : Nat) :
    GoodBatch (.vec samples) (.vec samples) (signalTrain samples thr size train test k) :=
  signal_good rfl hs

theorem test_good (hs : 0 < size) (k : Nat) :
    GoodBatch (.vec samples) (.vec samples) (signalTest samples thr size test k) :=
  signal_good rfl hs

variable {f : LossFunc} {lr : Cf .w32 ℝ} {F : Nat → Dataset (Cf .w32 ℝ)} {n : Net (Cf .w32 ℝ)}

include he h1 h2 in
theorem signalLoop_eq (hs : 0 < size) (h : n.Ready (.vec samples) (.vec samples)) (k : Nat) :
    ∀ (b j : Nat) (mt mv : ℝ), (∀ i, i < j + k → GoodBatch (.vec samples) (.vec samples) (F i)) →
    (∀ i, i < k → F (j + i) = signalTrain samples thr size train test (b + i)) →
    signalLoop f lr samples thr size k b ((nextTrain samples)^[b * size] train)
        ((nextTest samples)^[b * size] test) (netAfter f lr F n j) mt mv
      = some (netAfter f lr F n (j + k),
        (List.range k).foldl (fun m i => (m + lossOn f (netAfter f lr F n (j + i))
          (signalTrain samples thr size train test (b + i))) / (b + i + 1 : ℕ)) mt,
        (List.range k).foldl (fun m i => (m + lossOn f (netAfter f lr F n (j + i + 1))
          (signalTest samples thr size test (b + i))) / (b + i + 1 : ℕ)) mv) := by
  induction k with
  | zero => intro b j mt mv _ _; rfl
  | succ k ih =>
    intro b j mt mv hF hD
    have hr := netAfter_ready (f := f) (lr := lr) h j fun i hi => hF i (by omega)
    have hr' := netAfter_ready (f := f) (lr := lr) h (j + 1) fun i hi => hF i (by omega)
    have hk := hD 0 (by omega)
    simp only [Nat.add_zero] at hk
    have hst := netAfter_step (f := f) (lr := lr) h j fun i hi => hF i (by omega)
    rw [hk] at hst
    rw [signalLoop, reconstruct_batch he h1 h2 b]
    simp only [Option.bind_eq_bind, Option.bind_some,
      loss_eq_on hr (train_good hs b) f, hst, unwrap, loss_eq_on hr' (test_good hs b) f]
    rw [ih (b + 1) (j + 1) _ _ (fun i hi => hF i (by omega)) (fun i hi => by
      have := hD (i + 1) (by omega)
      rwa [← Nat.add_assoc, ← Nat.add_assoc, Nat.add_right_comm j, Nat.add_right_comm b] at this)]
    simp only [List.range_succ_eq_map, List.foldl_cons, List.foldl_map, Nat.add_zero,
      Nat.succ_eq_add_one]
    have e : ∀ a i : Nat, a + 1 + i = a + (i + 1) := by intros; omega
    simp only [e]
    rfl

include he h1 h2 in
theorem regEpochs_eq (hs : 0 < size) {B : Nat} (h : n.Ready (.vec samples) (.vec samples)) (E : Nat) :
    ∀ (e : Nat) (lv tv : List ℝ),
    regEpochs f lr samples thr B size train test E
        (signalNet f lr samples thr B size train test n (e * B)) lv tv
      = some (signalNet f lr samples thr B size train test n ((e + E) * B),
        lv ++ (List.range E).map (fun i => recorded (fun b =>
          lossOn f (signalNet f lr samples thr B size train test n ((e + i) * B + b))
            (signalTrain samples thr size train test b)) B),
        tv ++ (List.range E).map (fun i => recorded (fun b =>
          lossOn f (signalNet f lr samples thr B size train test n ((e + i) * B + b + 1))
            (signalTest samples thr size test b)) B)) := by
  induction E with
  | zero => intro e lv tv; simp [regEpochs]
  | succ E ih =>
    intro e lv tv
    have key := signalLoop_eq (f := f) (lr := lr) (thr := thr) he h1 h2 hs h B 0 (e * B) 0 0
      (F := fun i => signalTrain samples thr size train test (i % B))
      (fun i _ => train_good hs _) (fun i hi => by
        beta_reduce
        rw [Nat.mul_comm, Nat.mul_add_mod, Nat.mod_eq_of_lt hi, Nat.zero_add])
    rw [Nat.zero_mul, Function.iterate_zero_apply, Function.iterate_zero_apply] at key
    rw [regEpochs, signalEpoch, signalNet, szero, key]
    simp only [Option.bind_eq_bind, Option.bind_some]
    have e1 : e * B + B = (e + 1) * B := by rw [Nat.add_mul, Nat.one_mul]
    rw [e1]
    have := ih (e + 1)
    rw [signalNet] at this
    rw [this]
    simp only [List.range_succ_eq_map, List.map_cons, List.map_map, List.append_assoc,
      List.singleton_append, Nat.add_zero, Function.comp_def, Nat.succ_eq_add_one, Nat.zero_add]
    have e2 : ∀ i : Nat, e + 1 + i = e + (i + 1) := by intros; omega
    simp only [e2]
    rfl

include he h1 h2 in
/-- C71, exact arithmetic. The epochs of regression.rs, for any network taking the signals to signals,
any even number of samples, threshold, loss, learning rate, numbers of batches and epochs and seeds
the generator can hold: nothing panics, every epoch trains on the same `B` batches, and the two
curves are the losses merged by `recorded`. -/
theorem C71_epochs (hs : 0 < size) (B : Nat) (h : n.Ready (.vec samples) (.vec samples)) (E : Nat) :
    regEpochs f lr samples thr B size train test E n [] []
      = some (signalNet f lr samples thr B size train test n (E * B),
        signalCurve f (signalNet f lr samples thr B size train test n) samples thr B size train test E,
        signalTestCurve f (signalNet f lr samples thr B size train test n) samples thr B size test E)
      := by
  have := regEpochs_eq (f := f) (lr := lr) (thr := thr) he h1 h2 hs (B := B) h E 0 [] []
  rw [Nat.zero_mul] at this
  refine this.trans ?_
  simp only [Nat.zero_add, List.nil_append, signalCurve, signalTestCurve]

/-- C71. The networks in between: each is the result of a training call, without panic or error, on
the batch the generator delivers; and all losses are computed. -/
theorem C71_calls (hs : 0 < size) (B : Nat) (h : n.Ready (.vec samples) (.vec samples)) (k : Nat) :
    let net := signalNet f lr samples thr B size train test n
    net 0 = n ∧ (net k).Ready (.vec samples) (.vec samples)
      ∧ (net k).gradientOpt (signalTrain samples thr size train test (k % B)) f lr
        = some (.ok (), net (k + 1))
      ∧ (∀ b, (net k).loss (signalTrain samples thr size train test b) f
        = some (lossOn f (net k) (signalTrain samples thr size train test b)))
      ∧ ∀ b, (net k).loss (signalTest samples thr size test b) f
        = some (lossOn f (net k) (signalTest samples thr size test b)) := by
  have hr := netAfter_ready (f := f) (lr := lr) (n := n) h k
    (F := fun i => signalTrain samples thr size train test (i % B)) fun i _ => train_good hs _
  refine ⟨rfl, hr, netAfter_step h k fun i _ => train_good hs _, fun b => loss_eq_on hr (train_good hs b) f,
    fun b => loss_eq_on hr (test_good hs b) f⟩

theorem vecOutput_eq (h : n.Ready (.vec samples) (.vec samples)) (x : Nat → ℂ) :
    n.forward (samplesOf samples x) = some (.ok (.scalar (vecOutput n (samplesOf samples x))))
      ∧ (vecOutput n (samplesOf samples x)).length = samples := by
  obtain ⟨y, h1, h2⟩ := forward_some h (x := samplesOf samples x) (by simp [samplesOf, IOType.HasSize])
  cases y with
  | matrix => exact h2.elim
  | scalar v =>
    have : vecOutput n (samplesOf samples x) = v := by rw [vecOutput, h1]
    rw [this]
    exact ⟨h1, h2⟩

theorem loss_signal (h : n.Ready (.vec samples) (.vec samples)) (h2 : 2 ≤ samples) (hs : 0 < size)
    (F G : Nat → Nat → ℂ) :
    lossOn .meanSquare n (Dataset.ofPoints ((List.range size).map fun m =>
        (samplesOf samples (F m), samplesOf samples (G m))))
      = ((List.range size).map fun m => signalLoss n samples (F m) (G m)).sum / size := by
  have hp := C58_points ((List.range size).map fun m =>
      (samplesOf samples (F m), samplesOf samples (G m)))
  have key := C57_mean n (Dataset.ofPoints ((List.range size).map fun m =>
      (samplesOf samples (F m), samplesOf samples (G m)))) .meanSquare
    (signal_good (F := F) (G := G) rfl hs).points
    (fun p => match p.2 with | .scalar t => sqSum t (vecOutput n p.1) / (samples - 1) | _ => 0) (by
      intro p hm
      rw [hp.2.2.2.1] at hm
      obtain ⟨m, -, rfl⟩ := List.mem_map.mp hm
      obtain ⟨e, hlen⟩ := vecOutput_eq h (F m)
      refine ⟨_, e, ?_⟩
      obtain ⟨L, h1, h2, -⟩ := C33_partial ((List.range samples).map fun i => Cf.ofC (G m i))
        (vecOutput n (samplesOf samples (F m))) (by rw [hlen]; simp) (by omega)
      refine h1.trans ?_
      rw [h2, hlen]
      rfl)
  rw [lossOn, key, hp.2.2.2.1, Option.getD_some, List.map_map, List.length_map, List.length_range]
  rfl

/-- C71, exact arithmetic. The losses that are merged are the mean squared distances of the outputs to
the clean signals (with `samples - 1` for `samples`, see C33). -/
theorem C71_losses (h : n.Ready (.vec samples) (.vec samples)) (hm : 2 ≤ samples) (hs : 0 < size)
    (b : Nat) :
    lossOn .meanSquare n (signalTrain samples thr size train test b)
        = ((List.range size).map fun m =>
          let s := (nextTrain samples)^[b * size + m] train
          let st := (nextTest samples)^[b * size + m] test
          signalLoss n samples (trainAt samples thr s st) (cleanAt samples s)).sum / size
      ∧ lossOn .meanSquare n (signalTest samples thr size test b)
        = ((List.range size).map fun m =>
          let st := (nextTest samples)^[b * size + m] test
          signalLoss n samples (testAt samples thr st) (cleanAt samples st)).sum / size :=
  ⟨loss_signal h hm hs _ _, loss_signal h hm hs _ _⟩

theorem signalLoss_nonneg (hm : 2 ≤ samples) (x y : Nat → ℂ) : 0 ≤ signalLoss n samples x y := by
  have : (2 : ℝ) ≤ samples := by exact_mod_cast hm
  exact div_nonneg (sqSum_nonneg _ _) (by linarith)

theorem losses_nonneg (h : n.Ready (.vec samples) (.vec samples)) (hm : 2 ≤ samples) (hs : 0 < size)
    (b : Nat) : 0 ≤ lossOn .meanSquare n (signalTrain samples thr size train test b)
      ∧ 0 ≤ lossOn .meanSquare n (signalTest samples thr size test b) := by
  rw [(C71_losses (test := test) h hm hs b).1, (C71_losses (train := train) h hm hs b).2]
  refine ⟨div_nonneg (List.sum_nonneg ?_) (Nat.cast_nonneg (α := ℝ) size),
    div_nonneg (List.sum_nonneg ?_) (Nat.cast_nonneg (α := ℝ) size)⟩
  all_goals
    intro v hv
    obtain ⟨m, -, rfl⟩ := List.mem_map.mp hv
    exact signalLoss_nonneg hm _ _

/-- C71, exact arithmetic. So for the programs' loss every point of either curve is at most the mean of
the epoch's losses, and equal to it only if there are at most two batches or all losses but the last
are zero. -/
theorem C71_curve_partial (h : n.Ready (.vec samples) (.vec samples)) (hm : 2 ≤ samples) (hs : 0 < size)
    (B e : Nat) :
    let net := signalNet .meanSquare lr samples thr B size train test n
    let l := fun b => lossOn .meanSquare (net (e * B + b)) (signalTrain samples thr size train test b)
    let v := fun b => lossOn .meanSquare (net (e * B + b + 1)) (signalTest samples thr size test b)
    (recorded l B ≤ meanLoss l B
        ∧ (recorded l B = meanLoss l B ↔ B ≤ 2 ∨ ∀ k, k + 1 < B → l k = 0))
      ∧ (recorded v B ≤ meanLoss v B
        ∧ (recorded v B = meanLoss v B ↔ B ≤ 2 ∨ ∀ k, k + 1 < B → v k = 0)) := by
  intro net l v
  have hr := fun k => (C71_calls (f := .meanSquare) (lr := lr) (thr := thr) (train := train)
    (test := test) hs B h k).2.1
  exact ⟨C71_mean_partial l (fun b => (losses_nonneg (hr _) hm hs b).1) B,
    C71_mean_partial v (fun b => (losses_nonneg (test := test) (train := train) (hr _) hm hs b).2) B⟩

end

/-! ## A network for which the recorded value is not the mean -/

theorem le_foldl_max (l : List ℝ) (a : ℝ) : a ≤ l.foldl max a ∧ ∀ x ∈ l, x ≤ l.foldl max a := by
  induction l generalizing a with
  | nil => simp
  | cons b l ih =>
    obtain ⟨h1, h2⟩ := ih (max a b)
    refine ⟨(le_max_left a b).trans h1, ?_⟩
    intro x hx
    rcases List.mem_cons.mp hx with rfl | hx
    · exact (le_max_right a _).trans h1
    · exact h2 x hx

/-- The targets have modulus at most 1. -/
theorem cleanAt_le {samples seed i : Nat} (hi : i < samples) : ‖cleanAt samples seed i‖ ≤ 1 := by
  have hm := le_foldl_max ((List.range samples).map fun i => ‖rawSignal samples seed i‖) 0
  have h0 : 0 ≤ peakOf samples seed := hm.1
  have h1 : ‖rawSignal samples seed i‖ ≤ peakOf samples seed :=
    hm.2 _ (List.mem_map.mpr ⟨i, List.mem_range.mpr hi, rfl⟩)
  rw [cleanAt, norm_div, Complex.norm_real, Real.norm_of_nonneg h0]
  exact div_le_one_of_le₀ h1 h0

/-- A layer that gives 2 everywhere. -/
noncomputable def twoLayer (samples : Nat) : Dense (Cf .w32 ℝ) :=
  ⟨Mat.fromBody (table samples samples fun _ _ => 0) (samples, samples),
    (List.range samples).map fun _ => Cf.ofC 2, .none⟩

/-- The network of two such layers. -/
noncomputable def twoNet (samples : Nat) : Net (Cf .w32 ℝ) :=
  ⟨[.dense (twoLayer samples), .dense (twoLayer samples)]⟩

theorem twoLayer_is (samples : Nat) :
    (twoLayer samples).Is samples samples (fun _ _ => 0) (fun _ => Cf.ofC 2) .none := by
  refine ⟨⟨rfl, rfl⟩, rfl, rfl⟩

theorem twoNet_ready {samples : Nat} (h : 0 < samples) :
    (twoNet samples).Ready (.vec samples) (.vec samples) := by
  have hf : (Layer.dense (twoLayer samples)).Fits (.vec samples) (.vec samples) := ⟨h, rfl⟩
  have hw : (Layer.dense (twoLayer samples)).WF := by
    refine ⟨?_, ?_⟩
    · simp [twoLayer, Mat.Rect, Mat.fromBody, table]
    · simp [twoLayer, Mat.fromBody]
  refine ⟨by simp [twoNet], ?_, .cons hf (.cons hf (.nil _)), ?_, ?_⟩
  · simp only [twoNet, List.forall_mem_cons]
    exact ⟨hw, hw, by simp⟩
  · simp only [twoNet, List.forall_mem_cons]
    exact ⟨dense_total (f := .none) rfl (by simp), dense_total (f := .none) rfl (by simp), by simp⟩
  · simp only [twoNet, List.forall_mem_cons]
    exact ⟨dense_totalBack (f := .none) rfl (by simp), dense_totalBack (f := .none) rfl (by simp), by simp⟩

theorem twoNet_output {samples : Nat} (h : 0 < samples) (x : Nat → ℂ) :
    vecOutput (twoNet samples) (samplesOf samples x) = (List.range samples).map fun _ => Cf.ofC 2 := by
  have key : ∀ x : Nat → Cf .w32 ℝ, (twoLayer samples).forward (.scalar ((List.range samples).map x))
      = some (.ok (.scalar ((List.range samples).map fun _ => Cf.ofC 2))) := by
    intro x
    refine C38_forward_partial (twoLayer_is samples) h x (fun _ => Cf.ofC 2) ?_
    intro j _
    rw [dotN_sum, LawfulOps.addAssign_eq]
    simp
    rfl
  have : (twoNet samples).forward (samplesOf samples x)
      = some (.ok (.scalar ((List.range samples).map fun _ => Cf.ofC 2))) := by
    unfold Net.forward
    simp only [twoNet, Net.fwd, Layer.forward, samplesOf, key, unwrap, Option.bind_eq_bind,
      Option.bind_some, List.length_cons, List.foldlM_cons, List.foldlM_nil]
    rfl
  rw [vecOutput, this]

theorem twoNet_loss {samples : Nat} (h : 2 ≤ samples) (x : Nat → ℂ) (seed : Nat) :
    0 < signalLoss (twoNet samples) samples x (cleanAt samples seed) := by
  have h2 : (2 : ℝ) ≤ samples := by exact_mod_cast h
  refine div_pos ?_ (by linarith)
  rw [twoNet_output (by omega)]
  refine lt_of_le_of_ne (sqSum_nonneg _ _) fun h0 => ?_
  have := (sqSum_eq_zero _ _ (by simp)).mp h0.symm
  have := List.map_inj_left.mp this 0 (List.mem_range.mpr (by omega))
  have := congrArg Cf.toC this
  simp only [Cf.toC_ofC] at this
  have h1 := cleanAt_le (samples := samples) (seed := seed) (i := 0) (by omega)
  rw [this] at h1
  norm_num at h1

/-- C71 is false of the code: from three batches on, there is for every number of samples, seed,
threshold and learning rate a network whose first recorded training loss is smaller than the mean of
the losses of the epoch. -/
theorem C71_refuted {samples : Nat} (hm : 2 ≤ samples) (thr : ℝ) {size B : Nat} (hs : 0 < size)
    (hB : 3 ≤ B) (train test : Nat) (lr : Cf .w32 ℝ) :
    ∃ n : Net (Cf .w32 ℝ), n.Ready (.vec samples) (.vec samples)
      ∧ let net := signalNet .meanSquare lr samples thr B size train test n
        let l := fun b => lossOn .meanSquare (net b) (signalTrain samples thr size train test b)
        recorded l B < meanLoss l B := by
  have hr := twoNet_ready (samples := samples) (by omega)
  refine ⟨twoNet samples, hr, ?_⟩
  intro net l
  have key := (C71_curve_partial (lr := lr) (thr := thr) (train := train) (test := test) hr hm hs B 0).1
  simp only [Nat.zero_mul, Nat.zero_add] at key
  refine lt_of_le_of_ne key.1 fun h0 => ?_
  rcases key.2.mp h0 with h1 | h1
  · omega
  · have h1 := h1 0 (by omega)
    have h2 : lossOn .meanSquare (twoNet samples) (signalTrain samples thr size train test 0) = 0 := h1
    rw [(C71_losses hr hm hs 0).1] at h2
    have hpos : (0 : ℝ) < size := by exact_mod_cast hs
    refine absurd h2 (div_pos ?_ hpos).ne'
    refine List.sum_pos _ ?_ ?_
    · intro v hv
      obtain ⟨m, -, rfl⟩ := List.mem_map.mp hv
      exact twoNet_loss hm _ _
    · intro h3
      have := congrArg List.length h3
      simp at this
      omega

/-! ## The whole program -/

theorem explore_eq {samples : Nat} (he : samples % 2 = 0) {thr : ℝ} {train test : Nat}
    (h1 : Fits train) (h2 : Fits test) {n : Net (Cf .w32 ℝ)}
    (h : n.Ready (.vec samples) (.vec samples)) :
    explore n samples thr train test = some ((List.range 10).flatMap fun m =>
      let s := (nextTrain samples)^[m] train
      let st := (nextTest samples)^[m] test
      [Mat.fromBody ((List.range samples).map fun i => Cf.ofC (trainAt samples thr s st i)) (samples, 1),
        Mat.fromBody ((List.range samples).map fun i => Cf.ofC (cleanAt samples s i)) (samples, 1),
        Mat.fromBody (vecOutput n (samplesOf samples (trainAt samples thr s st))) (samples, 1)]) := by
  have hb := reconstruct_batch he (thr := thr) (size := 10) h1 h2 0
  rw [Nat.zero_mul, Function.iterate_zero_apply, Function.iterate_zero_apply] at hb
  unfold explore
  rw [hb]
  simp only [Option.bind_eq_bind, Option.bind_some]
  rw [mapM_some_of _ (fun m =>
      let s := (nextTrain samples)^[m] train
      let st := (nextTest samples)^[m] test
      [Mat.fromBody ((List.range samples).map fun i => Cf.ofC (trainAt samples thr s st i)) (samples, 1),
        Mat.fromBody ((List.range samples).map fun i => Cf.ofC (cleanAt samples s i)) (samples, 1),
        Mat.fromBody (vecOutput n (samplesOf samples (trainAt samples thr s st))) (samples, 1)])]
  · simp only [Option.bind_some, List.flatMap]
  · intro m hm
    have hp : (signalTrain samples thr 10 train test 0).getPoint m
        = some (samplesOf samples (trainAt samples thr ((nextTrain samples)^[m] train)
            ((nextTest samples)^[m] test)),
          samplesOf samples (cleanAt samples ((nextTrain samples)^[m] train))) := by
      rw [signalTrain, (C58_points _).2.2.2.2 m]
      simp only [List.getElem?_map, List.getElem?_range (List.mem_range.mp hm), Option.map_some,
        Nat.zero_mul, Nat.zero_add]
    obtain ⟨e, hl⟩ := vecOutput_eq h (trainAt samples thr ((nextTrain samples)^[m] train)
            ((nextTest samples)^[m] test))
    have hto : ∀ v : List (Cf .w32 ℝ), v.length = samples →
        unwrap (Mat.toMatrix v (samples, 1)) = some (Mat.fromBody v (samples, 1)) := by
      intro v hv
      rw [Mat.toMatrix, if_neg (by simp [hv])]
      rfl
    have hun : ∀ y : IOType (Cf .w32 ℝ), unwrap (.ok y : Except ForwardErr _) = some y := fun _ => rfl
    have hsl : ∀ x : Nat → ℂ, (samplesOf samples x).asSlice
        = some ((List.range samples).map fun i => Cf.ofC (x i)) := fun _ => rfl
    have hsc : ∀ v : List (Cf .w32 ℝ), (IOType.scalar v).asSlice = some v := fun _ => rfl
    simp only [hp, Option.bind_some, e, hun, hsl, hsc]
    rw [hto _ (by rw [List.length_map, List.length_range]),
      hto _ (by rw [List.length_map, List.length_range]), hto _ hl]
    rfl

theorem texts_eq (disp : ℝ → String) {ι : Type} (l : List ι) (a b c : ι → List (Cf .w32 ℝ)) (k : Nat) :
    (l.flatMap fun m => [Mat.fromBody (a m) (k, 1), Mat.fromBody (b m) (k, 1),
        Mat.fromBody (c m) (k, 1)]).mapM (Mat.toCsv (Cf.display disp))
      = some (l.flatMap fun m => [curveText (Cf.display disp) (a m), curveText (Cf.display disp) (b m),
        curveText (Cf.display disp) (c m)]) := by
  induction l with
  | nil => rfl
  | cons x l ih =>
    simp only [List.flatMap_cons, List.cons_append, List.nil_append, List.mapM_cons, curve_csv, ih,
      Option.bind_eq_bind, Option.bind_some, pure]

/-- C71, exact arithmetic. The program of regression.rs, from any seed the generator can hold: it never
panics. It trains the auto-encoder built from the seed for 16 epochs on the same 200 batches of 100
points with learning rate 0.005, and writes ten triples of corrupted signal, clean signal and
prediction and the two curves. -/
theorem C71_pipeline (disp : ℝ → String) (seed : Nat) (hs : 1103515245 * seed + 12345 < 2 ^ 128) :
    ∃ (n : Net (Cf .w32 ℝ)) (s : Nat), autoEncoder seed 512 = some ((3, n), s)
      ∧ n.Ready (.vec 512) (.vec 512)
      ∧ let net := signalNet .meanSquare ⟨0.005, 0⟩ 512 0.025 200 100 223895746827 4346877248692 n
        let l := signalCurve .meanSquare net 512 0.025 200 100 223895746827 4346877248692 16
        let v := signalTestCurve .meanSquare net 512 0.025 200 100 4346877248692 16
        regPipeline disp seed = some ((net 3200, l, v),
          exploreTexts disp (net 3200) 512 0.025 223895746827 4346877248692
            ++ [curveText disp l, curveText disp v]) := by
  obtain ⟨n, e, hr, -⟩ := C69_auto_encoder (R := ℝ) 512 (by omega) seed hs
  refine ⟨n, _, e, hr, ?_⟩
  have f1 : Fits 223895746827 := by unfold Fits; norm_num
  have f2 : Fits 4346877248692 := by unfold Fits; norm_num
  have hrate : (learningRate (Scalar.lit 50 10000) : Cf .w32 ℝ) = ⟨0.005, 0⟩ := by
    rw [C70_rate]; norm_num [Scalar.lit]
  have hthr : (Scalar.lit 25 1000 : ℝ) = 0.025 := by norm_num [Scalar.lit]
  unfold regPipeline
  generalize (223895746827 : Nat) = tr at *
  generalize (4346877248692 : Nat) = te at *
  intro net l v
  have key := C71_epochs (f := .meanSquare) (lr := ⟨0.005, 0⟩) (thr := 0.025) (samples := 512)
    (by omega) f1 f2 (size := 100) (by omega) 200 hr 16
  have hready := (C71_calls (f := .meanSquare) (lr := ⟨0.005, 0⟩) (thr := 0.025) (train := tr)
    (test := te) (size := 100) (by omega) 200 hr 3200).2.1
  rw [show 16 * 200 = 3200 by norm_num] at key
  have ex := explore_eq (samples := 512) (thr := 0.025) (by omega) f1 f2 hready
  simp only [Option.bind_eq_bind]
  rw [e, hrate, hthr]
  simp only [Option.bind_some]
  rw [key]
  simp only [Option.bind_some]
  rw [if_pos trivial, ex]
  simp only [Option.bind_some]
  rw [texts_eq]
  simp only [Option.bind_some, List.mapM_nil, List.mapM_cons, curve_csv, Option.bind_eq_bind,
    pure]
  rfl

/-- C71, exact arithmetic. `main` itself. -/
theorem C71_main (disp : ℝ → String) :
    ∃ (n : Net (Cf .w32 ℝ)) (s : Nat), autoEncoder 224783561 512 = some ((3, n), s)
      ∧ n.Ready (.vec 512) (.vec 512)
      ∧ let net := signalNet .meanSquare ⟨0.005, 0⟩ 512 0.025 200 100 223895746827 4346877248692 n
        let l := signalCurve .meanSquare net 512 0.025 200 100 223895746827 4346877248692 16
        let v := signalTestCurve .meanSquare net 512 0.025 200 100 4346877248692 16
        regMain disp = some ((net 3200, l, v),
          exploreTexts disp (net 3200) 512 0.025 223895746827 4346877248692
            ++ [curveText disp l, curveText disp v]) := by
  obtain ⟨n, s, e, hr, h⟩ := C71_pipeline disp 224783561 (by norm_num)
  refine ⟨n, s, e, hr, ?_⟩
  have hm : mainSeed = some 224783561 := by rfl
  rw [regMain, hm, Option.bind_eq_bind, Option.bind_some]
  exact h

end Renplex
