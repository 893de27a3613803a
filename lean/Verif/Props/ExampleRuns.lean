import Verif.Spec.Examples
import Verif.Props.ExampleNets
import Verif.Props.Mnist
/-!
# C70: the classification program
-/

namespace Renplex
open Examples Mnist

section
variable {R : Type} [Scalar R]

/-- What a batch must be for a training call on a ready network to return: points of the right
extents, at least one, and a size the learning rate can be divided by. -/
structure GoodBatch (s s' : Size) (d : Dataset (Cf .w32 R)) : Prop where
  size : d.HasSize s s'
  points : d.points ≠ []
  div : Scalar.beq (Cf.ofUsize d.inputs.length : Cf .w32 R).den Scalar.zero = false

theorem forward_some {n : Net (Cf .w32 R)} {s s' : Size} (h : n.Ready s s') {x : IOType (Cf .w32 R)}
    (hx : x.HasSize s) : ∃ y, n.forward x = some (.ok y) ∧ y.HasSize s' := by
  obtain ⟨y, _, h1, h2, -⟩ := C46_sized_partial n (by
    intro h0; have := h.layers; rw [h0] at this; simp at this) h.wf h.total h.fits x hx
  exact ⟨y, h1, h2⟩

theorem sameKind {s : Size} {x y : IOType (Cf .w32 R)} (hx : x.HasSize s) (hy : y.HasSize s) :
    isScalar x = isScalar y := by
  cases x <;> cases y <;> cases s <;> first | rfl | exact hx.elim | exact hy.elim

theorem loss_some {n : Net (Cf .w32 R)} {s s' : Size} (h : n.Ready s s') {d : Dataset (Cf .w32 R)}
    (hd : GoodBatch s s' d) (f : LossFunc) : ∃ l, n.loss d f = some l := by
  rw [← Option.isSome_iff_exists, ← Option.ne_none_iff_isSome, ne_eq, C57_panics]
  rintro (h0 | ⟨p, hp, h0⟩)
  · exact hd.points h0
  · obtain ⟨h1, h2⟩ := hd.size p hp
    obtain ⟨y, h3, h4⟩ := forward_some h h1
    obtain ⟨⟨l, h5⟩, -⟩ := (C36_kinds f p.2 y).2.2 (sameKind h2 h4)
    exact h0 y l h3 h5

theorem acc_some {n : Net (Cf .w32 R)} {s : Size} {m : Nat} (h : n.Ready s (.vec m))
    {d : Dataset (Cf .w32 R)} (hd : GoodBatch s (.vec m) d) : ∃ a, n.maxPredTest d = some a := by
  unfold Net.maxPredTest
  have : ∃ res, (d.points.mapM fun p => do
      let prediction ← n.forward p.1 >>= unwrap
      let pred ← prediction.asSlice
      let targ ← p.2.asSlice
      some (if Net.argmax targ = Net.argmax pred then 1 else 0)) = some res := by
    rw [← Option.isSome_iff_exists, ← Option.ne_none_iff_isSome, ne_eq, mapM_eq_none_iff]
    rintro ⟨p, hp, h0⟩
    obtain ⟨h1, h2⟩ := hd.size p hp
    obtain ⟨y, h3, h4⟩ := forward_some h h1
    obtain ⟨x, t⟩ := p
    cases t with
    | matrix ms => exact h2
    | scalar t =>
      cases y with
      | matrix ms => exact h4
      | scalar y =>
        rw [h3] at h0
        simp [unwrap, IOType.asSlice] at h0
  obtain ⟨res, e⟩ := this
  rw [e]
  exact ⟨_, rfl⟩

theorem step_some {n : Net (Cf .w32 R)} {s s' : Size} (h : n.Ready s s') {d : Dataset (Cf .w32 R)}
    (hd : GoodBatch s s' d) (f : LossFunc) (lr : Cf .w32 R) :
    ∃ n', n.gradientOpt d f lr = some (.ok (), n') ∧ n'.Ready s s' :=
  C66_step n h d hd.size f lr _ (if_neg (Bool.eq_false_iff.mp hd.div))

variable {f : LossFunc} {lr : Cf .w32 R} {F : Nat → Dataset (Cf .w32 R)} {n : Net (Cf .w32 R)}
  {s s' : Size}

theorem netAfter_ready (h : n.Ready s s') (k : Nat) (hF : ∀ i, i < k → GoodBatch s s' (F i)) :
    (netAfter f lr F n k).Ready s s' := by
  induction k with
  | zero => exact h
  | succ k ih =>
    obtain ⟨n', h1, h2⟩ := step_some (ih fun i hi => hF i (by omega)) (hF k (by omega)) f lr
    rw [netAfter, h1]
    exact h2

theorem netAfter_step (h : n.Ready s s') (k : Nat) (hF : ∀ i, i ≤ k → GoodBatch s s' (F i)) :
    (netAfter f lr F n k).gradientOpt (F k) f lr = some (.ok (), netAfter f lr F n (k + 1)) := by
  obtain ⟨n', h1, -⟩ := step_some (netAfter_ready h k fun i hi => hF i (by omega)) (hF k (by omega))
    f lr
  rw [netAfter, h1]
  rfl

theorem loss_eq_on {n : Net (Cf .w32 R)} (h : n.Ready s s') {d : Dataset (Cf .w32 R)}
    (hd : GoodBatch s s' d) (f : LossFunc) : n.loss d f = some (lossOn f n d) := by
  obtain ⟨l, e⟩ := loss_some h hd f
  rw [lossOn, e]; rfl

theorem acc_eq_on {n : Net (Cf .w32 R)} {m : Nat} (h : n.Ready s (.vec m)) {d : Dataset (Cf .w32 R)}
    (hd : GoodBatch s (.vec m) d) : n.maxPredTest d = some (accOn n d) := by
  obtain ⟨l, e⟩ := acc_some h hd
  rw [accOn, e]; rfl

/-- Files that deliver the batches `D b`. -/
def Delivers (B : Nat) (st : Nat → St) (D : Nat → Dataset (Cf .w32 R)) (T : Nat) : Prop :=
  ∀ b, b < T → asComplexBatch B (st b) = some (D b, st (b + 1))

theorem trainLoop_eq {m B T : Nat} {st : Nat → St} {D : Nat → Dataset (Cf .w32 R)}
    (h : n.Ready s (.vec m)) (hst : Delivers B st D T) (j : Nat) :
    ∀ (b k : Nat) (sl sa : R), b + j ≤ T → (∀ i, i < k + j → GoodBatch s (.vec m) (F i)) →
    (∀ i, i < j → F (k + i) = D (b + i)) →
    trainLoop f lr B j (st b) (netAfter f lr F n k) sl sa = some (netAfter f lr F n (k + j),
      ((List.range j).map fun i => lossOn f (netAfter f lr F n (k + i)) (D (b + i))).foldl
        Scalar.add sl,
      ((List.range j).map fun i => accOn (netAfter f lr F n (k + i)) (D (b + i))).foldl
        Scalar.add sa) := by
  induction j with
  | zero => intro b k sl sa _ _ _; rfl
  | succ j ih =>
    intro b k sl sa hb hF hD
    have hr := netAfter_ready (f := f) (lr := lr) h k fun i hi => hF i (by omega)
    have hk := hD 0 (by omega)
    simp only [Nat.add_zero] at hk
    have hg : GoodBatch s (.vec m) (D b) := hk ▸ hF k (by omega)
    have hs := netAfter_step (f := f) (lr := lr) h k fun i hi => hF i (by omega)
    rw [hk] at hs
    rw [trainLoop, hst b (by omega)]
    simp only [Option.bind_eq_bind, Option.bind_some, loss_eq_on hr hg f, acc_eq_on hr hg, hs, unwrap]
    rw [ih (b + 1) (k + 1) _ _ (by omega) (fun i hi => hF i (by omega)) (fun i hi => by
      have := hD (i + 1) (by omega)
      rwa [← Nat.add_assoc, ← Nat.add_assoc, Nat.add_right_comm k, Nat.add_right_comm b] at this)]
    simp only [List.range_succ_eq_map, List.map_cons, List.map_map, List.foldl_cons, Nat.add_zero,
      Function.comp_def, Nat.succ_eq_add_one]
    have e : ∀ a i : Nat, a + 1 + i = a + (i + 1) := by intros; omega
    simp only [e]
    rfl

theorem testLoop_eq {m B T : Nat} {st : Nat → St} {D : Nat → Dataset (Cf .w32 R)}
    (h : n.Ready s (.vec m)) (hst : Delivers B st D T) (j : Nat) :
    ∀ (b : Nat) (sl sa : R), b + j ≤ T → (∀ i, i < T → GoodBatch s (.vec m) (D i)) →
    testLoop n f B j (st b) sl sa = some
      (((List.range j).map fun i => lossOn f n (D (b + i))).foldl Scalar.add sl,
      ((List.range j).map fun i => accOn n (D (b + i))).foldl Scalar.add sa) := by
  induction j with
  | zero => intro b sl sa _ _; rfl
  | succ j ih =>
    intro b sl sa hb hF
    have hg := hF b (by omega)
    rw [testLoop, hst b (by omega)]
    simp only [Option.bind_eq_bind, Option.bind_some, loss_eq_on h hg f, acc_eq_on h hg]
    rw [ih (b + 1) _ _ (by omega) hF]
    simp only [List.range_succ_eq_map, List.map_cons, List.map_map, List.foldl_cons, Nat.add_zero,
      Function.comp_def, Nat.succ_eq_add_one]
    have e : ∀ a i : Nat, a + 1 + i = a + (i + 1) := by intros; omega
    simp only [e]
    rfl

/-! ## The files -/

theorem point_size {r : Record} (hr : r.WF) :
    (recordPoint (R := R) r).1.HasSize (.maps 1 28 28)
      ∧ (recordPoint (R := R) r).2.HasSize (.vec 10) := by
  refine ⟨⟨rfl, ?_⟩, ?_⟩
  · intro m hm
    rw [List.mem_singleton] at hm
    subst hm
    refine ⟨?_, rfl⟩
    simp [Mat.Rect, hr.1]
  · simp [recordPoint, Record.point, IOType.HasSize, oneHotVec]

theorem recordBatch_length {recs : List Record} {B b : Nat} (hb : (b + 1) * B ≤ recs.length) :
    ((batchRecords recs B b).map (recordPoint (R := R))).length = B := by
  rw [Nat.add_mul, Nat.one_mul] at hb
  simp [batchRecords]; omega

theorem recordBatch_good {recs : List Record} (hw : ∀ r ∈ recs, r.WF) {B b : Nat} (hB : 0 < B)
    (hb : (b + 1) * B ≤ recs.length)
    (hd : Scalar.beq (Cf.ofUsize B : Cf .w32 R).den Scalar.zero = false) :
    GoodBatch (.maps 1 28 28) (.vec 10) (recordBatch (R := R) recs B b) := by
  have hl := recordBatch_length (R := R) hb
  have hp := C58_points ((batchRecords recs B b).map (recordPoint (R := R)))
  refine ⟨?_, ?_, ?_⟩
  · intro p hm
    rw [recordBatch, hp.2.2.2.1] at hm
    obtain ⟨r, hr, rfl⟩ := List.mem_map.mp hm
    exact point_size (hw r (List.mem_of_mem_drop (List.mem_of_mem_take hr)))
  · rw [recordBatch, hp.2.2.2.1]
    intro h0
    rw [h0] at hl
    simp at hl; omega
  · rw [recordBatch, hp.2.1, List.length_map, hl]
    exact hd

/-- Fresh files, then the states after each batch. -/
def stOf (st : St) (recs : List Record) (B : Nat) : Nat → St
  | 0 => st
  | k + 1 => at_ recs ((k + 1) * B)

theorem delivers {recs : List Record} (hw : ∀ r ∈ recs, r.WF) {hi hl : List UInt8}
    (h1 : hi.length = 16) (h2 : hl.length = 8) {B T : Nat} (hT : T * B ≤ recs.length)
    (hT' : T * B ≤ 60000)
    (h255 : Scalar.beq (Cf.ofUsize 255 : Cf .w32 R).den Scalar.zero = false) :
    Delivers (R := R) B (stOf (files hi hl recs) recs B) (recordBatch recs B) T := by
  intro b hb
  have hbT : (b + 1) * B ≤ T * B := Nat.mul_le_mul_right B hb
  have hadv : advance (b * B) B = (b + 1) * B := by
    rw [Nat.add_mul, Nat.one_mul] at hbT ⊢
    unfold advance; split <;> omega
  have hp : ∀ b, b < 256 → BasicOps.div (CplxOps.ofUsize b : Cf .w32 R) (CplxOps.ofUsize 255)
      = some ((Cf.div (Cf.ofUsize b) (Cf.ofUsize 255)).getD Cf.default) := by
    intro b _
    show Cf.div _ _ = _
    rw [show (CplxOps.ofUsize 255 : Cf .w32 R) = Cf.ofUsize 255 from rfl,
      show (CplxOps.ofUsize b : Cf .w32 R) = Cf.ofUsize b from rfl, Cf.div, if_neg (by rw [h255]; simp)]
    rfl
  have hh : ∀ l, l < 10 → (genPred (CplxOps.unit : Cf .w32 R) degree l >>= unwrap)
      = some (oneHotVec Cf.default (Cf.addAssign Cf.default Cf.unit) 10 l) := by
    intro l hl
    rw [degree, (C59_partial _ 10 l).1 hl]; rfl
  have key := readBatch_at hp hh hw B (b * B) (by rw [hadv]; omega)
  rw [hadv, show (b + 1) * B - b * B = B by rw [Nat.add_mul, Nat.one_mul]; omega] at key
  have e : asComplexBatch B (stOf (files hi hl recs) recs B b)
      = readBatch (fun b => BasicOps.div (CplxOps.ofUsize b : Cf .w32 R) (CplxOps.ofUsize 255))
        (fun l => genPred (CplxOps.unit : Cf .w32 R) degree l >>= unwrap) B (at_ recs (b * B)) := by
    cases b with
    | zero => rw [Nat.zero_mul]; exact readBatch_files h1 h2 recs B
    | succ b => rfl
  rw [e, key]
  rfl

/-! ## Epochs -/

theorem average_eq (l : List R) {T : Nat} (h : l.length = T) :
    (BasicOps.divAssign (l.foldl Scalar.add Scalar.zero) (Scalar.ofNat T) : Run R)
      = some (average l) := by
  subst h; rfl

theorem trainPipeline_eq {recs : List Record} (hw : ∀ r ∈ recs, r.WF) {hi hl : List UInt8}
    (h1 : hi.length = 16) (h2 : hl.length = 8) {B T : Nat} (hB : 0 < B) (hT : T * B ≤ recs.length)
    (hT' : T * B ≤ 60000)
    (h255 : Scalar.beq (Cf.ofUsize 255 : Cf .w32 R).den Scalar.zero = false)
    (hd : Scalar.beq (Cf.ofUsize B : Cf .w32 R).den Scalar.zero = false)
    (h : n.Ready (.maps 1 28 28) (.vec 10)) (e : Nat) (tl ta : List R) :
    trainPipeline (netAt f lr recs B T n (e * T)) f lr T B (hi ++ recs.flatMap (·.image))
        (hl ++ recs.map (·.label)) tl ta
      = some (netAt f lr recs B T n ((e + 1) * T),
        tl ++ [trainMean (lossOn f) (netAt f lr recs B T n) recs B T e],
        ta ++ [trainMean accOn (netAt f lr recs B T n) recs B T e]) := by
  have key := trainLoop_eq (f := f) (lr := lr) (F := fun i => recordBatch recs B (i % T)) h
    (delivers hw h1 h2 hT hT' h255) T 0 (e * T) Scalar.zero Scalar.zero (by omega) (by
      intro i hi
      have hTp : 0 < T := by
        rcases Nat.eq_zero_or_pos T with rfl | h0
        · simp at hi
        · exact h0
      have := Nat.mod_lt i hTp
      exact recordBatch_good hw hB (Nat.le_trans (Nat.mul_le_mul_right B this) hT) hd) (by
      intro i hi
      simp only [Nat.zero_add]
      rw [Nat.mul_comm e, Nat.mul_add_mod, Nat.mod_eq_of_lt hi])
  unfold trainPipeline
  rw [show (⟨hi ++ recs.flatMap (·.image), hl ++ recs.map (·.label), 0⟩ : St)
    = stOf (files hi hl recs) recs B 0 from rfl]
  simp only [netAt]
  rw [key]
  simp only [Option.bind_eq_bind, Option.bind_some]
  rw [average_eq _ (by simp), Option.bind_some, average_eq _ (by simp), Option.bind_some,
    Nat.add_mul, Nat.one_mul]
  simp only [trainMean, Nat.zero_add]

theorem testPipeline_eq {recs : List Record} (hw : ∀ r ∈ recs, r.WF) {hi hl : List UInt8}
    (h1 : hi.length = 16) (h2 : hl.length = 8) {B T : Nat} (hB : 0 < B) (hT : T * B ≤ recs.length)
    (hT' : T * B ≤ 60000)
    (h255 : Scalar.beq (Cf.ofUsize 255 : Cf .w32 R).den Scalar.zero = false)
    (hd : Scalar.beq (Cf.ofUsize B : Cf .w32 R).den Scalar.zero = false)
    (h : n.Ready (.maps 1 28 28) (.vec 10)) (tl ta : List R) :
    testPipeline n f T B (hi ++ recs.flatMap (·.image)) (hl ++ recs.map (·.label)) tl ta
      = some (tl ++ [testMean (lossOn f) n recs B T], ta ++ [testMean accOn n recs B T]) := by
  have key := testLoop_eq (f := f) h (delivers hw h1 h2 hT hT' h255) T 0 Scalar.zero Scalar.zero
    (by omega) (fun i hi =>
      recordBatch_good hw hB (Nat.le_trans (Nat.mul_le_mul_right B hi) hT) hd)
  unfold testPipeline
  rw [show (⟨hi ++ recs.flatMap (·.image), hl ++ recs.map (·.label), 0⟩ : St)
    = stOf (files hi hl recs) recs B 0 from rfl]
  rw [key]
  simp only [Option.bind_eq_bind, Option.bind_some]
  rw [average_eq _ (by simp), Option.bind_some, average_eq _ (by simp), Option.bind_some]
  simp only [testMean, Nat.zero_add]

theorem netAt_ready {recs : List Record} (hw : ∀ r ∈ recs, r.WF) {B T : Nat} (hB : 0 < B)
    (hT0 : 0 < T) (hT : T * B ≤ recs.length)
    (hd : Scalar.beq (Cf.ofUsize B : Cf .w32 R).den Scalar.zero = false)
    (h : n.Ready (.maps 1 28 28) (.vec 10)) (k : Nat) :
    (netAt f lr recs B T n k).Ready (.maps 1 28 28) (.vec 10) :=
  netAfter_ready h k fun i _ => recordBatch_good hw hB
    (Nat.le_trans (Nat.mul_le_mul_right B (Nat.mod_lt i hT0)) hT) hd

theorem epochs_eq {files : MnistFiles} {train test : List Record} (hf : files.Holds train test)
    {B T V : Nat} (hB : 0 < B) (hT0 : 0 < T) (hT : T * B ≤ train.length) (hT' : T * B ≤ 60000)
    (hV : V * B ≤ test.length) (hV' : V * B ≤ 60000)
    (h255 : Scalar.beq (Cf.ofUsize 255 : Cf .w32 R).den Scalar.zero = false)
    (hd : Scalar.beq (Cf.ofUsize B : Cf .w32 R).den Scalar.zero = false)
    (h : n.Ready (.maps 1 28 28) (.vec 10)) (j : Nat) : ∀ (e : Nat) (tl ta vl va : List R),
    classEpochs f lr B T V files j ⟨netAt f lr train B T n (e * T), tl, ta, vl, va⟩
      = some ⟨netAt f lr train B T n ((e + j) * T),
        tl ++ (List.range j).map (fun i =>
          trainMean (lossOn f) (netAt f lr train B T n) train B T (e + i)),
        ta ++ (List.range j).map (fun i =>
          trainMean accOn (netAt f lr train B T n) train B T (e + i)),
        vl ++ (List.range j).map (fun i =>
          testMean (lossOn f) (netAt f lr train B T n ((e + i + 1) * T)) test B V),
        va ++ (List.range j).map (fun i =>
          testMean accOn (netAt f lr train B T n ((e + i + 1) * T)) test B V)⟩ := by
  obtain ⟨i₁, i₂, i₃, i₄, l₁, l₂, l₃, l₄, rfl, w₁, w₂⟩ := hf
  induction j with
  | zero => intro e tl ta vl va; simp [classEpochs]
  | succ j ih =>
    intro e tl ta vl va
    rw [classEpochs]
    simp only
    rw [trainPipeline_eq w₁ l₁ l₂ hB hT hT' h255 hd h]
    simp only [Option.bind_eq_bind, Option.bind_some]
    rw [testPipeline_eq w₂ l₃ l₄ hB hV hV' h255 hd (netAt_ready w₁ hB hT0 hT hd h _)]
    simp only [Option.bind_some]
    rw [ih (e + 1)]
    have e1 : ∀ a i : Nat, a + 1 + i = a + (i + 1) := by intros; omega
    simp only [List.range_succ_eq_map, List.map_cons, List.map_map, Nat.add_zero,
      Function.comp_def, Nat.succ_eq_add_one, e1, List.append_assoc, List.singleton_append]

omit [Scalar R] in
theorem curve_csv (disp : R → String) (v : List R) (k : Nat) :
    Mat.toCsv disp (Mat.fromBody v (k, 1)) = some (curveText disp v) := by
  have : ∀ (v : List R) (fuel : Nat), v.length ≤ fuel → chunksAux 1 fuel v = v.map fun x => [x] := by
    intro v
    induction v with
    | nil => intro fuel _; exact chunksAux_nil 1 fuel
    | cons a v ih =>
      intro fuel hf
      cases fuel with
      | zero => simp at hf
      | succ fuel => simp [chunksAux, ih fuel (by simpa using hf)]
  unfold Mat.toCsv
  rw [show (Mat.fromBody v (k, 1)).shape.2 = 1 from rfl, show (Mat.fromBody v (k, 1)).body = v from rfl,
    chunks, if_neg (by omega), chunksPos, this v _ (Nat.le_refl _)]
  simp [curveText, List.map_map, Function.comp_def]

/-- What the program must achieve on the way: all calls return. -/
theorem calls_return {train test : List Record} (w₁ : ∀ r ∈ train, r.WF) (w₂ : ∀ r ∈ test, r.WF)
    {B T V : Nat} (hB : 0 < B) (hT0 : 0 < T) (hT : T * B ≤ train.length) (hV : V * B ≤ test.length)
    (hd : Scalar.beq (Cf.ofUsize B : Cf .w32 R).den Scalar.zero = false)
    (h : n.Ready (.maps 1 28 28) (.vec 10)) (k : Nat) :
    (netAt f lr train B T n k).gradientOpt (recordBatch train B (k % T)) f lr
        = some (.ok (), netAt f lr train B T n (k + 1))
      ∧ (∀ b, b < T → (netAt f lr train B T n k).loss (recordBatch train B b) f
          = some (lossOn f (netAt f lr train B T n k) (recordBatch train B b))
        ∧ (netAt f lr train B T n k).maxPredTest (recordBatch train B b)
          = some (accOn (netAt f lr train B T n k) (recordBatch train B b)))
      ∧ ∀ b, b < V → (netAt f lr train B T n k).loss (recordBatch test B b) f
          = some (lossOn f (netAt f lr train B T n k) (recordBatch test B b))
        ∧ (netAt f lr train B T n k).maxPredTest (recordBatch test B b)
          = some (accOn (netAt f lr train B T n k) (recordBatch test B b)) := by
  have hr := netAt_ready (f := f) (lr := lr) w₁ hB hT0 hT hd h k
  have g1 : ∀ b, b < T → GoodBatch (.maps 1 28 28) (.vec 10) (recordBatch (R := R) train B b) :=
    fun b hb => recordBatch_good w₁ hB (Nat.le_trans (Nat.mul_le_mul_right B hb) hT) hd
  have g2 : ∀ b, b < V → GoodBatch (.maps 1 28 28) (.vec 10) (recordBatch (R := R) test B b) :=
    fun b hb => recordBatch_good w₂ hB (Nat.le_trans (Nat.mul_le_mul_right B hb) hV) hd
  refine ⟨?_, fun b hb => ⟨loss_eq_on hr (g1 b hb) f, acc_eq_on hr (g1 b hb)⟩,
    fun b hb => ⟨loss_eq_on hr (g2 b hb) f, acc_eq_on hr (g2 b hb)⟩⟩
  exact netAfter_step (F := fun i => recordBatch train B (i % T)) h k
    fun i _ => g1 _ (Nat.mod_lt i hT0)

/-! ## The features -/

theorem fits_columns {l : Layer (Cf .w32 R)} {s : Size} {k r c : Nat} (h : l.Fits s (.maps k r c)) :
    0 < c := by
  cases l <;> cases s
  case conv.maps => obtain ⟨-, -, -, p, q, -, -, -, -, -, -, e⟩ := h; omega
  case reduce.maps => exact h.2.2.2.1
  all_goals exact h.elim

theorem fits_matrix {l : Layer (Cf .w32 R)} (hw : l.WF) {s s' : Size} {k : Nat} (h : l.Fits s s')
    (hi : l.inputShape = .matrix k) : ∃ r c, s = .maps k r c := by
  cases l with
  | dense l => simp [Layer.inputShape, Dense.inputShape] at hi
  | conv l =>
    cases s with
    | vec => cases s' <;> exact h.elim
    | maps n r c =>
      cases s' with
      | vec => exact h.elim
      | maps n' r' c' =>
        simp only [Layer.inputShape, Conv.inputShape, IOShape.matrix.injEq] at hi
        have h1 := h.2.2.1
        have h2 := hw.2.1
        rw [h1] at h2
        refine ⟨r, c, ?_⟩
        rw [show n = k by rw [← hi]; exact h2]
  | reduce l =>
    cases s with
    | vec => cases s' <;> exact h.elim
    | maps n r c =>
      cases s' with
      | vec => exact h.elim
      | maps n' r' c' =>
        simp only [Layer.inputShape, Reduce.inputShape, IOShape.matrix.injEq] at hi
        exact ⟨r, c, by rw [h.2.1, hi]⟩
  | flatten l =>
    cases s with
    | vec => cases s' <;> exact h.elim
    | maps n r c =>
      cases s' with
      | maps => exact h.elim
      | vec u =>
        simp only [Layer.inputShape, Flatten.inputShape, IOShape.matrix.injEq] at hi
        have := h.1
        rw [this] at hi
        exact ⟨r, c, by rw [← hi]⟩

/-- What enters layer `i > 0` is what that layer expects. -/
theorem intercept_loop {ls : List (Layer (Cf .w32 R))} {s s' : Size} (h : FitsChain ls s s') :
    (∀ l ∈ ls, l.WF) → (∀ l ∈ ls, l.Total) → ∀ (i cur : Nat) (l : Layer (Cf .w32 R))
    (x : IOType (Cf .w32 R)), x.HasSize s → ls[i + 1]? = some l →
    ∃ y s₁ s₂, Net.interceptLoop (cur + (i + 1)) cur ls x = some (y, l) ∧ y.HasSize s₁
      ∧ l.Fits s₁ s₂ ∧ ∀ k r c, s₁ = .maps k r c → 0 < c := by
  induction h with
  | nil => intro _ _ i cur l x _ hl; simp at hl
  | @cons a ls s s₁ s' h t ih =>
    intro hw ht i cur l x hx hl
    obtain ⟨y, h1, hy⟩ := Layer.forward_fits (hw a (by simp)) (ht a (by simp)) h hx
    have e : ∀ j, Net.interceptLoop (cur + (i + 1)) cur (a :: ls) x = some j
        ↔ Net.interceptLoop (cur + (i + 1)) (cur + 1) ls y = some j := by
      intro j
      rw [Net.interceptLoop, if_neg (by omega), Net.fwd, h1]
      rfl
    cases i with
    | zero =>
      cases t with
      | nil => simp at hl
      | @cons b ls _ s₂ _ h2 t2 =>
        obtain rfl : b = l := by simpa using hl
        refine ⟨y, s₁, s₂, (e _).mpr ?_, hy, h2, ?_⟩
        · rw [Net.interceptLoop, if_pos rfl]
        · rintro k r c rfl
          exact fits_columns h
    | succ i =>
      obtain ⟨y', a1, a2, b1, b2, b3, b4⟩ := ih (fun l hl => hw l (by simp [hl]))
        (fun l hl => ht l (by simp [hl])) i (cur + 1) l y hy (by simpa using hl)
      refine ⟨y', a1, a2, (e _).mpr ?_, b2, b3, b4⟩
      rw [show cur + (i + 1 + 1) = cur + 1 + (i + 1) by omega]
      exact b1

theorem csv_some (disp : Cf .w32 R → String) {m : Mat (Cf .w32 R)} (h : 0 < m.shape.2) :
    ∃ t, m.toCsv disp = some t := by
  unfold Mat.toCsv chunks
  rw [if_neg (by omega)]
  exact ⟨_, rfl⟩

theorem features_some {n : Net (Cf .w32 R)} {s s' : Size} (h : n.Ready s s')
    {x : IOType (Cf .w32 R)} (hx : x.HasSize s) {i k : Nat}
    (hi : (n.layers.map Layer.inputShape)[i + 1]? = some (.matrix k)) :
    ∃ ms, (do
        let r ← n.intercept x (i + 1)
        let (v, _) ← unwrap r
        mapsOf v) = some ms ∧ ms.length = k ∧ (∀ m ∈ ms, 0 < m.shape.2)
      ∧ Entering n x (i + 1) ms := by
  rw [List.getElem?_map] at hi
  obtain ⟨l, hl, hs⟩ := Option.map_eq_some_iff.mp hi
  obtain ⟨y, s₁, s₂, h1, h2, h3, h4⟩ := intercept_loop h.fits h.wf h.total i 0 l x hx hl
  obtain ⟨r, c, rfl⟩ := fits_matrix (h.wf l (List.mem_of_getElem? hl)) h3 hs
  have hlen : i + 1 < n.layers.length := (List.getElem?_eq_some_iff.mp hl).1
  rw [Nat.zero_add] at h1
  cases y with
  | scalar v => exact h2.elim
  | matrix ms =>
    have hint : n.intercept x (i + 1) = some (.ok (.matrix ms, l)) := by
      unfold Net.intercept
      rw [usub, if_pos (by omega)]
      simp only [Option.bind_eq_bind, Option.bind_some]
      rw [if_neg (by omega), h1]
      rfl
    refine ⟨ms, ?_, h2.1, fun m hm => ?_, ?_⟩
    · rw [hint]; rfl
    · rw [(h2.2 m hm).2]
      exact h4 k r c rfl
    · obtain ⟨l', v, ys, -, hc, hv, he⟩ := ((C45_partial n (by
        intro h0; rw [h0] at hlen; simp at hlen) x (i + 1)).1 hlen _).mp hint
      cases he
      refine ⟨ys, hc, ?_⟩
      cases ys with
      | nil =>
        have := congrArg List.length (show (n.layers.take (i + 1)) = [] by
          generalize n.layers.take (i + 1) = L at hc
          cases hc; rfl)
        rw [List.length_take, List.length_nil] at this
        omega
      | cons y ys => rw [List.getLast?_cons_cons] at hv; exact hv

theorem netAt_shapes {recs : List Record} (hw : ∀ r ∈ recs, r.WF) {B T : Nat} (hB : 0 < B)
    (hT0 : 0 < T) (hT : T * B ≤ recs.length)
    (hd : Scalar.beq (Cf.ofUsize B : Cf .w32 R).den Scalar.zero = false)
    (h : n.Ready (.maps 1 28 28) (.vec 10)) (k : Nat) :
    (netAt f lr recs B T n k).layers.map Layer.inputShape = n.layers.map Layer.inputShape := by
  induction k with
  | zero => rfl
  | succ k ih =>
    have h1 := Net.gradientOpt_shape (netAt_ready (f := f) (lr := lr) hw hB hT0 hT hd h k).wf
      (calls_return (f := f) (lr := lr) hw hw hB hT0 hT (V := 0) (by omega) hd h k).1
    rw [← ih]
    have : ∀ {a b : List (Layer (Cf .w32 R))}, List.Forall₂ Layer.SameShape a b →
        b.map Layer.inputShape = a.map Layer.inputShape := by
      intro a b hab
      induction hab with
      | nil => rfl
      | cons hh _ ih => rw [List.map_cons, List.map_cons, ih, hh.2.1]
    exact this h1

theorem getPoint_record {recs : List Record} (h : 60 ≤ recs.length) (i : Nat) (hi : i < 60) :
    ∃ r ∈ recs, recs[i]? = some r
      ∧ (recordBatch (R := R) recs 60 0).getPoint i = some (recordPoint r) := by
  refine ⟨recs[i], List.getElem_mem _, List.getElem?_eq_getElem _, ?_⟩
  rw [recordBatch, (C58_points _).2.2.2.2 i]
  simp [batchRecords, hi, List.getElem?_eq_getElem (show i < recs.length by omega)]

theorem extract_some {recs : List Record} (hw : ∀ r ∈ recs, r.WF) {hi hl : List UInt8}
    (h1 : hi.length = 16) (h2 : hl.length = 8) (h60 : 60 ≤ recs.length)
    (h255 : Scalar.beq (Cf.ofUsize 255 : Cf .w32 R).den Scalar.zero = false)
    (h : n.Ready (.maps 1 28 28) (.vec 10))
    (ha : (n.layers.map Layer.inputShape)[1]? = some (.matrix 8))
    (hb : (n.layers.map Layer.inputShape)[3]? = some (.matrix 16)) :
    ∃ ms, extractFeatures n 2 (hi ++ recs.flatMap (·.image)) (hl ++ recs.map (·.label)) = some ms
      ∧ FeatureMaps n recs ms ∧ ∀ m ∈ ms, 0 < m.shape.2 := by
  have key := delivers (R := R) hw h1 h2 (B := 60) (T := 1) (by omega) (by omega) h255 0 (by omega)
  obtain ⟨r1, m1, w1, g1⟩ := getPoint_record (R := R) h60 18 (by omega)
  obtain ⟨r2, m2, w2, g2⟩ := getPoint_record (R := R) h60 58 (by omega)
  have z1 := (point_size (R := R) (hw r1 m1)).1
  have z2 := (point_size (R := R) (hw r2 m2)).1
  obtain ⟨f1, e1, l1, c1, n1⟩ := features_some h z1 ha
  obtain ⟨f2, e2, l2, c2, n2⟩ := features_some h z1 hb
  obtain ⟨f3, e3, l3, c3, n3⟩ := features_some h z2 ha
  obtain ⟨f4, e4, l4, c4, n4⟩ := features_some h z2 hb
  unfold extractFeatures
  rw [show (⟨hi ++ recs.flatMap (·.image), hl ++ recs.map (·.label), 0⟩ : St)
    = stOf (files hi hl recs) recs 60 0 from rfl, key]
  obtain ⟨p1, q1, s1, t1⟩ : ∃ m, Option.bind (mapsOf (recordPoint (R := R) r1).1) (fun x => x[0]?) = some m
      ∧ 0 < m.shape.2 ∧ (recordPoint (R := R) r1).1 = .matrix [m] := ⟨_, rfl, Nat.succ_pos 27, rfl⟩
  obtain ⟨p2, q2, s2, t2⟩ : ∃ m, Option.bind (mapsOf (recordPoint (R := R) r2).1) (fun x => x[0]?) = some m
      ∧ 0 < m.shape.2 ∧ (recordPoint (R := R) r2).1 = .matrix [m] := ⟨_, rfl, Nat.succ_pos 27, rfl⟩
  simp only [Option.bind_eq_bind, Option.bind_some, g1, g2, q1, q2] at e1 e2 e3 e4 ⊢
  rw [if_neg (by omega), if_pos trivial]
  simp only [Nat.zero_add] at e1 e2 e3 e4
  rw [e1, Option.bind_some, e2, Option.bind_some, e3, Option.bind_some, e4, Option.bind_some]
  refine ⟨_, rfl, ⟨r1, r2, p1, p2, f1, f2, f3, f4, w1, w2, t1, t2, n1, n2, n3, n4, l1, l2, l3, l4,
    by simp only [List.append_assoc, List.cons_append, List.nil_append]⟩, ?_⟩
  intro m hm
  simp only [List.mem_append, List.mem_cons, List.not_mem_nil, or_false] at hm
  rcases hm with (((((rfl | rfl) | hm) | hm) | hm) | hm)
  · exact s1
  · exact s2
  · exact c1 m hm
  · exact c2 m hm
  · exact c3 m hm
  · exact c4 m hm

theorem csvs_some (disp : Cf .w32 R → String) (ms : List (Mat (Cf .w32 R)))
    (h : ∀ m ∈ ms, 0 < m.shape.2) :
    ∃ ts, ms.mapM (Mat.toCsv disp) = some ts ∧ ts.length = ms.length := by
  cases e : ms.mapM (Mat.toCsv disp) with
  | none =>
    obtain ⟨m, hm, h0⟩ := (mapM_eq_none_iff _ _).mp e
    obtain ⟨t, ht⟩ := csv_some disp (h m hm)
    rw [ht] at h0
    cases h0
  | some ts => exact ⟨ts, rfl, mapM_length e⟩

/-- C70. The epochs of classification.rs, in any arithmetic in which dividing by 255 and by the batch
size does not panic, for any network taking one 28 × 28 image to 10 numbers, any loss, learning rate
and numbers of batches the files can serve: no call panics, and the result is the network and the
curves of the specification. -/
theorem C70_epochs {files : MnistFiles} {train test : List Record} (hf : files.Holds train test)
    {B T V : Nat} (hB : 0 < B) (hT0 : 0 < T) (hT : T * B ≤ train.length) (hT' : T * B ≤ 60000)
    (hV : V * B ≤ test.length) (hV' : V * B ≤ 60000)
    (h255 : Scalar.beq (Cf.ofUsize 255 : Cf .w32 R).den Scalar.zero = false)
    (hd : Scalar.beq (Cf.ofUsize B : Cf .w32 R).den Scalar.zero = false)
    (n : Net (Cf .w32 R)) (h : n.Ready (.maps 1 28 28) (.vec 10)) (f : LossFunc) (lr : Cf .w32 R)
    (E : Nat) :
    classEpochs f lr B T V files E ⟨n, [], [], [], []⟩ = some (curvesOf f lr train test B T V E n) := by
  have := epochs_eq (f := f) (lr := lr) hf hB hT0 hT hT' hV hV' h255 hd h E 0 [] [] [] []
  rw [Nat.zero_mul] at this
  refine this.trans ?_
  simp only [curvesOf, Nat.zero_add, List.nil_append]

/-- C70. On the way every training call on batch after batch, every loss and every accuracy is
computed without panic or error; so `netAt`, `lossOn` and `accOn` are the networks, losses and
accuracies of the code. -/
theorem C70_calls {train test : List Record} (w₁ : ∀ r ∈ train, r.WF) (w₂ : ∀ r ∈ test, r.WF)
    {B T V : Nat} (hB : 0 < B) (hT0 : 0 < T) (hT : T * B ≤ train.length) (hV : V * B ≤ test.length)
    (hd : Scalar.beq (Cf.ofUsize B : Cf .w32 R).den Scalar.zero = false)
    (n : Net (Cf .w32 R)) (h : n.Ready (.maps 1 28 28) (.vec 10)) (f : LossFunc) (lr : Cf .w32 R)
    (k : Nat) :
    let net := netAt f lr train B T n
    net 0 = n ∧ (net k).gradientOpt (recordBatch train B (k % T)) f lr = some (.ok (), net (k + 1))
      ∧ (∀ b, b < T → (net k).loss (recordBatch train B b) f
          = some (lossOn f (net k) (recordBatch train B b))
        ∧ (net k).maxPredTest (recordBatch train B b) = some (accOn (net k) (recordBatch train B b)))
      ∧ ∀ b, b < V → (net k).loss (recordBatch test B b) f
          = some (lossOn f (net k) (recordBatch test B b))
        ∧ (net k).maxPredTest (recordBatch test B b) = some (accOn (net k) (recordBatch test B b)) :=
  ⟨rfl, calls_return w₁ w₂ hB hT0 hT hV hd h k⟩

/-- The batches of an epoch are the first records in order, each once. -/
theorem C70_each_once (recs : List Record) (B T : Nat) (hT : T * B ≤ recs.length) :
    (List.range T).flatMap (fun b => (recordBatch (R := R) recs B b).points)
      = (recs.take (T * B)).map recordPoint := by
  induction T with
  | zero => simp
  | succ T ih =>
    rw [List.range_succ, List.flatMap_append, ih (by rw [Nat.add_mul] at hT; omega)]
    simp only [List.flatMap_cons, List.flatMap_nil, List.append_nil]
    rw [recordBatch, (C58_points _).2.2.2.1, ← List.map_append, batchRecords, ← List.take_add,
      Nat.add_mul, Nat.one_mul]

/-- C70. The program of classification.rs: with files of 60000 training and 10000 test records and any
seed the generator can hold it never panics, in any arithmetic in which dividing by 255 and by 100
does not. It trains the network built from the seed for 16 epochs on 600 batches of 100 records and
writes the four curves. -/
theorem C70_pipeline {files : MnistFiles} {train test : List Record} (hf : files.Holds train test)
    (h1 : train.length = 60000) (h2 : test.length = 10000)
    (h255 : Scalar.beq (Cf.ofUsize 255 : Cf .w32 R).den Scalar.zero = false)
    (h100 : Scalar.beq (Cf.ofUsize 100 : Cf .w32 R).den Scalar.zero = false)
    (disp : R → String) (seed : Nat) (hs : 1103515245 * seed + 12345 < 2 ^ 128) :
    ∃ (n : Net (Cf .w32 R)) (s : Nat), fullyConnected seed = some ((0, n), s)
      ∧ n.Ready (.maps 1 28 28) (.vec 10)
      ∧ classPipeline disp seed files = some
        (curvesOf .meanSquare classRate train test 100 600 100 16 n,
          curveTexts disp (curvesOf .meanSquare classRate train test 100 600 100 16 n)) := by
  obtain ⟨n, e, hr, -⟩ := C69_fully_connected (R := R) seed hs
  refine ⟨n, _, e, hr, ?_⟩
  unfold classPipeline
  rw [e]
  simp only [Option.bind_eq_bind, Option.bind_some]
  unfold classRun
  have key := C70_epochs hf (B := 100) (T := 600) (V := 100) (by omega) (by omega)
    (by omega) (by omega) (by omega) (by omega) h255 h100 n hr .meanSquare classRate 16
  simp only [Option.bind_eq_bind]
  rw [show (learningRate (Scalar.lit 25000 10000) : Cf .w32 R) = classRate from rfl,
    show 60000 / 100 = 600 by norm_num, show 10000 / 100 = 100 by norm_num, key]
  simp only [Option.bind_some]
  rw [if_neg (by omega)]
  simp only [Option.bind_some, List.mapM_nil, List.mapM_cons, curve_csv, Option.bind_eq_bind,
    pure, List.nil_append]
  rfl

/-- C70. The same for `main` itself, with the seed it uses. -/
theorem C70_main {files : MnistFiles} {train test : List Record} (hf : files.Holds train test)
    (h1 : train.length = 60000) (h2 : test.length = 10000)
    (h255 : Scalar.beq (Cf.ofUsize 255 : Cf .w32 R).den Scalar.zero = false)
    (h100 : Scalar.beq (Cf.ofUsize 100 : Cf .w32 R).den Scalar.zero = false) (disp : R → String) :
    ∃ (n : Net (Cf .w32 R)) (s : Nat), fullyConnected 224783561 = some ((0, n), s)
      ∧ n.Ready (.maps 1 28 28) (.vec 10)
      ∧ classMain disp files = some
        (curvesOf .meanSquare classRate train test 100 600 100 16 n,
          curveTexts disp (curvesOf .meanSquare classRate train test 100 600 100 16 n)) := by
  obtain ⟨n, s, e, hr, h⟩ := C70_pipeline hf h1 h2 h255 h100 disp 224783561 (by norm_num)
  refine ⟨n, s, e, hr, ?_⟩
  have hm : mainSeed = some 224783561 := by rfl
  rw [classMain, hm, Option.bind_eq_bind, Option.bind_some]
  exact h

/-- C70. The program with the convolutional network in place of the fully connected one: it does not
panic either, and writes 50 matrices (two images, and for each the 8 maps entering the pooling layer
and the 16 entering the flattening layer of the trained network) before the four curves. -/
theorem C70_two_conv {files : MnistFiles} {train test : List Record} (hf : files.Holds train test)
    (h1 : train.length = 60000) (h2 : test.length = 10000)
    (h255 : Scalar.beq (Cf.ofUsize 255 : Cf .w32 R).den Scalar.zero = false)
    (h100 : Scalar.beq (Cf.ofUsize 100 : Cf .w32 R).den Scalar.zero = false)
    (h4 : Scalar.beq (Cf.new (Scalar.ofNat 4) Scalar.zero : Cf .w32 R).den Scalar.zero = false)
    (disp : R → String) (seed : Nat) (hs : 1103515245 * seed + 12345 < 2 ^ 128) :
    ∃ (n : Net (Cf .w32 R)) (s : Nat) (ms : List (Mat (Cf .w32 R))) (feats : List String),
      twoConv seed = some ((2, n), s) ∧ n.Ready (.maps 1 28 28) (.vec 10)
      ∧ FeatureMaps (curvesOf .meanSquare classRate train test 100 600 100 16 n).net train ms
      ∧ ms.mapM (Mat.toCsv (Cf.display disp)) = some feats ∧ feats.length = 50
      ∧ classRun disp 2 n files = some
        (curvesOf .meanSquare classRate train test 100 600 100 16 n,
          feats ++ curveTexts disp (curvesOf .meanSquare classRate train test 100 600 100 16 n)) := by
  obtain ⟨n, e, hr, -, hsh, -⟩ := C69_two_conv (R := R) seed hs h4
  have key := C70_epochs hf (B := 100) (T := 600) (V := 100) (by omega) (by omega)
    (by omega) (by omega) (by omega) (by omega) h255 h100 n hr .meanSquare classRate 16
  obtain ⟨i₁, i₂, i₃, i₄, l₁, l₂, l₃, l₄, hfiles, w₁, w₂⟩ := hf
  have hc : (curvesOf .meanSquare classRate train test 100 600 100 16 n).net
      = netAt .meanSquare classRate train 100 600 n (16 * 600) := by rw [curvesOf]
  have hsh' := netAt_shapes (f := .meanSquare) (lr := classRate) w₁ (B := 100) (T := 600) (by omega)
    (by omega) (by omega) h100 hr (16 * 600)
  obtain ⟨ms, x1, x2, x3⟩ := extract_some (n := netAt .meanSquare classRate train 100 600 n (16 * 600))
    w₁ l₁ l₂ (by omega) h255
    (netAt_ready w₁ (by omega) (by omega) (by omega) h100 hr _)
    (by rw [hsh', hsh]; rfl) (by rw [hsh', hsh]; rfl)
  obtain ⟨ts, y1, y2⟩ := csvs_some (Cf.display disp) ms x3
  have hlen : ms.length = 50 := by
    obtain ⟨_, _, _, _, f1, f2, f3, f4, -, -, -, -, -, -, -, -, l1, l2, l3, l4, rfl⟩ := x2
    simp only [List.length_append, List.length_cons]
    omega
  refine ⟨n, _, ms, ts, e, hr, by rw [hc]; exact x2, y1, by omega, ?_⟩
  unfold classRun
  simp only [Option.bind_eq_bind]
  rw [show (learningRate (Scalar.lit 25000 10000) : Cf .w32 R) = classRate from rfl,
    show 60000 / 100 = 600 by norm_num, show 10000 / 100 = 100 by norm_num, key]
  simp only [Option.bind_some]
  rw [if_pos (Or.inr trivial), hc, show files.trainImages = i₁ ++ train.flatMap (·.image) by rw [hfiles],
    show files.trainLabels = i₂ ++ train.map (·.label) by rw [hfiles], x1]
  simp only [Option.bind_some, y1, List.mapM_nil, List.mapM_cons, curve_csv, Option.bind_eq_bind,
    pure]
  rfl

/-- C70. With the identifier 1 in place of 0 or 2 the program never ends regularly, whatever the network and the
files: the features of such a network are `unimplemented!`. -/
theorem C70_one_conv (disp : R → String) (n : Net (Cf .w32 R)) (files : MnistFiles) : classRun disp 1 n files = none := by
  unfold classRun
  simp only [Option.bind_eq_bind, Option.bind_eq_none_iff]
  intro c _
  rw [if_pos (Or.inl trivial)]
  unfold extractFeatures
  simp

end

/-! ## In exact arithmetic -/

/-- C70, exact arithmetic. The points made from the records are those of C60: pixels `byte / 255`, the
label one-hot; and neither 255 nor any other positive number makes a division panic. -/
theorem C70_points (r : Record) : recordPoint r = r.cpoint .w32 := by
  unfold recordPoint Record.cpoint
  congr 1
  · funext b
    have := cpixel (w := .w32) b
    rw [show (Cf.div (Cf.ofUsize b) (Cf.ofUsize 255) : Run (Cf .w32 ℝ)) = some (Cf.ofC ((b : ℂ) / 255))
      from this]
    rfl
  · exact LawfulOps.zero_eq
  · show BasicOps.addAssign (BasicOps.zero : Cf .w32 ℝ) CplxOps.unit = 1
    simp only [LawfulOps.zero_eq, LawfulOps.addAssign_eq, zero_add]
    exact Cf.toC_inj.mp (by apply Complex.ext <;> simp [CplxOps.unit, Cf.unit, Cf.toC_hom_one])

theorem ofUsize_ok (k : Nat) (hk : 0 < k) :
    Scalar.beq (Cf.ofUsize k : Cf .w32 ℝ).den Scalar.zero = false := by
  have : (k : ℝ) ≠ 0 := by exact_mod_cast hk.ne'
  simp [Cf.den, Cf.ofUsize, Scalar.beq, this]

/-- The learning rate is `r`: the phase is zero. -/
theorem C70_rate (r : ℝ) : (learningRate r : Cf .w32 ℝ) = ⟨r, 0⟩ := by
  simp [learningRate, Cf.new]

theorem label_first {r : Record} (hr : r.WF) :
    FirstLargest (oneHot (w := .w32) 10 r.label.toNat) r.label.toNat := by
  have e0 : (⟨0, 0⟩ : Cf .w32 ℝ).toC = 0 := Complex.ext rfl rfl
  have e1 : (⟨1, 0⟩ : Cf .w32 ℝ).toC = 1 := Complex.ext rfl rfl
  refine ⟨⟨1, 0⟩, by simp [oneHot, hr.2], ?_, ?_⟩
  · intro y hy
    simp only [oneHot, List.mem_map, List.mem_range] at hy
    obtain ⟨i, -, rfl⟩ := hy
    split
    · exact le_rfl
    · rw [e0, e1]; simp
  · intro j y hj hy
    have : j < 10 := by have := hr.2; omega
    simp only [oneHot, List.getElem?_map, List.getElem?_range this, Option.map_some,
      if_neg (show j ≠ r.label.toNat by omega), Option.some.injEq] at hy
    subst hy
    rw [e0, e1]; simp

theorem point_target (r : Record) : (recordPoint (R := ℝ) r).2 = .scalar (oneHot 10 r.label.toNat) := by
  rw [C70_points]
  rfl

/-- The output on a record. -/
noncomputable def outputOf (n : Net (Cf .w32 ℝ)) (x : IOType (Cf .w32 ℝ)) : List (Cf .w32 ℝ) :=
  match n.forward x with
  | some (.ok (.scalar v)) => v
  | _ => []

theorem output_eq {n : Net (Cf .w32 ℝ)} (h : n.Ready (.maps 1 28 28) (.vec 10)) {r : Record}
    (hr : r.WF) : n.forward (recordPoint r).1 = some (.ok (.scalar (outputOf n (recordPoint r).1)))
      ∧ (outputOf n (recordPoint r).1).length = 10 := by
  obtain ⟨y, h1, h2⟩ := forward_some h (point_size hr).1
  cases y with
  | matrix => exact h2.elim
  | scalar v =>
    have : outputOf n (recordPoint r).1 = v := by rw [outputOf, h1]
    rw [this]
    exact ⟨h1, h2⟩

open Classical in
theorem acc_batch {n : Net (Cf .w32 ℝ)} (h : n.Ready (.maps 1 28 28) (.vec 10)) {recs : List Record}
    (hw : ∀ r ∈ recs, r.WF) {B b : Nat} (hb : (b + 1) * B ≤ recs.length) :
    accOn n (recordBatch recs B b)
      = (((batchRecords recs B b).filter (Correct n)).length : ℝ) / B := by
  have hp := C58_points ((batchRecords recs B b).map (recordPoint (R := ℝ)))
  have hl := recordBatch_length (R := ℝ) hb
  have hwb : ∀ r ∈ batchRecords recs B b, r.WF :=
    fun r hr => hw r (List.mem_of_mem_drop (List.mem_of_mem_take hr))
  have key := C56_accuracy n (recordBatch recs B b) (by
      rw [recordBatch, hp.2.1, hp.2.2.1]; simp only [List.length_map])
    (fun p => outputOf n p.1) (fun p => match p.2 with | .scalar v => v | _ => []) (by
      intro p hm
      rw [recordBatch, hp.2.2.2.1] at hm
      obtain ⟨r, hr, rfl⟩ := List.mem_map.mp hm
      obtain ⟨e, hlen⟩ := output_eq h (hwb r hr)
      refine ⟨e, ?_, ?_, ?_⟩
      · rw [point_target]
      · intro h0; rw [h0] at hlen; simp at hlen
      · rw [point_target]; simp [oneHot])
  rw [accOn, key, recordBatch, hp.2.2.2.1, hl, List.filter_map, List.length_map, Option.getD_some]
  congr 3
  refine List.filter_congr fun r hr => ?_
  obtain ⟨e, -⟩ := output_eq h (hwb r hr)
  simp only [Function.comp_def, decide_eq_decide, point_target]
  constructor
  · rintro ⟨i, h1, h2⟩
    rw [C56_unique _ _ _ h2 (label_first (hwb r hr))] at h1
    exact ⟨_, e, h1⟩
  · rintro ⟨v, h1, h2⟩
    rw [e] at h1
    cases h1
    exact ⟨_, h2, label_first (hwb r hr)⟩

theorem loss_batch {n : Net (Cf .w32 ℝ)} (h : n.Ready (.maps 1 28 28) (.vec 10)) {recs : List Record}
    (hw : ∀ r ∈ recs, r.WF) {B b : Nat} (hB : 0 < B) (hb : (b + 1) * B ≤ recs.length) :
    lossOn .meanSquare n (recordBatch recs B b)
      = ((batchRecords recs B b).map (recordLoss n)).sum / B := by
  have hp := C58_points ((batchRecords recs B b).map (recordPoint (R := ℝ)))
  have hl := recordBatch_length (R := ℝ) hb
  have hwb : ∀ r ∈ batchRecords recs B b, r.WF :=
    fun r hr => hw r (List.mem_of_mem_drop (List.mem_of_mem_take hr))
  have key := C57_mean n (recordBatch recs B b) .meanSquare
    (recordBatch_good hw hB hb (ofUsize_ok B hB)).points
    (fun p => match p.2 with | .scalar t => sqSum t (outputOf n p.1) / 9 | _ => 0) (by
      intro p hm
      rw [recordBatch, hp.2.2.2.1] at hm
      obtain ⟨r, hr, rfl⟩ := List.mem_map.mp hm
      obtain ⟨e, hlen⟩ := output_eq h (hwb r hr)
      refine ⟨_, e, ?_⟩
      obtain ⟨L, h1, h2, -⟩ := C33_partial (oneHot 10 r.label.toNat) (outputOf n (recordPoint r).1)
        (by rw [hlen]; simp [oneHot]) (by omega)
      rw [point_target]
      refine h1.trans ?_
      rw [h2, hlen]
      norm_num)
  rw [lossOn, key, recordBatch, hp.2.2.2.1, hl, Option.getD_some, List.map_map]
  congr 2
  refine List.map_congr_left fun r hr => ?_
  obtain ⟨e, -⟩ := output_eq h (hwb r hr)
  simp only [Function.comp_def, point_target, recordLoss]
  rw [e]

theorem average_real (l : List ℝ) : average l = l.sum / l.length := by
  have : l.foldl Scalar.add Scalar.zero = l.sum := by
    have := foldl_add_sum l (0 : ℝ)
    rw [zero_add] at this
    simpa [Scalar.add, Scalar.zero, Scalar.lit] using this
  rw [average, this]
  simp

theorem flatMap_sum {ι : Type} (l : List ι) (g : ι → List ℝ) :
    (l.flatMap g).sum = (l.map fun i => (g i).sum).sum := by
  induction l with
  | nil => simp
  | cons a l ih => simp [ih]

theorem sum_div_const {ι : Type} (l : List ι) (g : ι → ℝ) (c : ℝ) :
    (l.map fun i => g i / c).sum = (l.map g).sum / c := by
  induction l with
  | nil => simp
  | cons a l ih => simp [ih, add_div]

theorem cast_sum {ι : Type} (l : List ι) (g : ι → Nat) :
    (l.map fun i => (g i : ℝ)).sum = ((l.map g).sum : ℕ) := by
  induction l with
  | nil => simp
  | cons a l ih => simp [ih]

theorem flatMap_batches (recs : List Record) (B T : Nat) :
    (List.range T).flatMap (batchRecords recs B) = recs.take (T * B) := by
  induction T with
  | zero => simp
  | succ T ih =>
    rw [List.range_succ, List.flatMap_append, ih]
    simp only [List.flatMap_cons, List.flatMap_nil, List.append_nil]
    rw [batchRecords, ← List.take_add, Nat.add_mul, Nat.one_mul]

theorem batch_le {B T b N : Nat} (hT : T * B ≤ N) (hb : b < T) : (b + 1) * B ≤ N :=
  Nat.le_trans (Nat.mul_le_mul_right B hb) hT

open Classical in
/-- C70, exact arithmetic. The recorded training loss of an epoch is the mean over all its records,
each evaluated by the network trained on the batches before; the recorded training accuracy is the
fraction of the records that this network classifies correctly. -/
theorem C70_train {net : Nat → Net (Cf .w32 ℝ)} (h : ∀ k, (net k).Ready (.maps 1 28 28) (.vec 10))
    {recs : List Record} (hw : ∀ r ∈ recs, r.WF) {B T : Nat} (hB : 0 < B) (hT : T * B ≤ recs.length)
    (e : Nat) :
    trainMean (lossOn .meanSquare) net recs B T e
        = ((List.range T).flatMap fun b =>
            (batchRecords recs B b).map (recordLoss (net (e * T + b)))).sum / (T * B : ℕ)
      ∧ trainMean accOn net recs B T e
        = (((List.range T).flatMap fun b =>
            (batchRecords recs B b).filter (Correct (net (e * T + b)))).length : ℝ) / (T * B : ℕ) := by
  constructor
  · rw [trainMean, average_real, List.length_map, List.length_range, flatMap_sum,
      List.map_congr_left fun b hb => loss_batch (h _) hw hB (batch_le hT (List.mem_range.mp hb)),
      sum_div_const, div_div, Nat.cast_mul, mul_comm (B : ℝ)]
  · rw [trainMean, average_real, List.length_map, List.length_range,
      List.map_congr_left fun b hb => acc_batch (h _) hw (batch_le hT (List.mem_range.mp hb)),
      sum_div_const, div_div, Nat.cast_mul, mul_comm (B : ℝ), List.length_flatMap]
    rw [cast_sum]

open Classical in
/-- C70, exact arithmetic. A recorded test loss is the mean over the test records, and the recorded
test accuracy the fraction of the test records the network classifies correctly. -/
theorem C70_test {n : Net (Cf .w32 ℝ)} (h : n.Ready (.maps 1 28 28) (.vec 10)) {recs : List Record}
    (hw : ∀ r ∈ recs, r.WF) {B V : Nat} (hB : 0 < B) (hV : V * B = recs.length) :
    testMean (lossOn .meanSquare) n recs B V = (recs.map (recordLoss n)).sum / recs.length
      ∧ testMean accOn n recs B V = ((recs.filter (Correct n)).length : ℝ) / recs.length := by
  have hfl : (List.range V).flatMap (batchRecords recs B) = recs := by
    rw [flatMap_batches, hV, List.take_length]
  obtain ⟨h1, h2⟩ := C70_train (net := fun _ => n) (fun _ => h) hw hB hV.le 0
  rw [show testMean (lossOn .meanSquare) n recs B V
      = trainMean (lossOn .meanSquare) (fun _ => n) recs B V 0 from rfl,
    show testMean accOn n recs B V = trainMean accOn (fun _ => n) recs B V 0 from rfl, h1, h2, hV]
  constructor
  · rw [← List.map_flatMap, hfl]
  · rw [← List.filter_flatMap, hfl]

open Classical in
/-- C70, exact arithmetic, in one statement: on well-formed files of 60000 and 10000 records `main`
does not panic. There are networks `net 0, net 1, …`, each the result of a training call on the next
batch of 100 records with mean square loss and learning rate 2.5, starting over every 600 batches.
The recorded test losses and accuracies of epoch `e` are the mean loss and the fraction of correctly
classified images over all 10000 test records, for the network after `e + 1` epochs. -/
theorem C70_exact {files : MnistFiles} {train test : List Record} (hf : files.Holds train test)
    (h1 : train.length = 60000) (h2 : test.length = 10000) (disp : ℝ → String) :
    ∃ (net : Nat → Net (Cf .w32 ℝ)) (c : Examples.Curves ℝ),
      (∃ s, fullyConnected 224783561 = some ((0, net 0), s))
      ∧ (∀ k, (net k).gradientOpt (Dataset.ofPoints ((batchRecords train 100 (k % 600)).map
          (Record.cpoint .w32))) .meanSquare ⟨2.5, 0⟩ = some (.ok (), net (k + 1)))
      ∧ classMain disp files = some (c, curveTexts disp c)
      ∧ c.net = net 9600
      ∧ c.testLoss = (List.range 16).map (fun e =>
        (test.map (recordLoss (net ((e + 1) * 600)))).sum / 10000)
      ∧ c.testAcc = (List.range 16).map (fun e =>
        ((test.filter (Correct (net ((e + 1) * 600)))).length : ℝ) / 10000)
      ∧ c.trainLoss = (List.range 16).map (fun e => ((List.range 600).flatMap fun b =>
        (batchRecords train 100 b).map (recordLoss (net (e * 600 + b)))).sum / 60000)
      ∧ c.trainAcc = (List.range 16).map (fun e => (((List.range 600).flatMap fun b =>
        (batchRecords train 100 b).filter (Correct (net (e * 600 + b)))).length : ℝ) / 60000) := by
  obtain ⟨n, s, e, hr, hm⟩ := C70_pipeline hf h1 h2 (ofUsize_ok 255 (by omega))
    (ofUsize_ok 100 (by omega)) disp 224783561 (by norm_num)
  obtain ⟨-, -, -, -, -, -, -, -, -, w₁, w₂⟩ := hf
  have hrate : (classRate : Cf .w32 ℝ) = ⟨2.5, 0⟩ := by
    rw [classRate, C70_rate]
    norm_num [Scalar.lit]
  rw [hrate] at hm
  generalize hnet : netAt .meanSquare ⟨2.5, 0⟩ train 100 600 n = net at *
  have hc := fun k => calls_return (f := .meanSquare) (lr := (⟨2.5, 0⟩ : Cf .w32 ℝ)) w₁ w₂ (B := 100)
    (T := 600) (V := 100) (by omega) (by omega) (by omega) (by omega) (ofUsize_ok 100 (by omega)) hr k
  have hready := fun k => netAt_ready (f := .meanSquare) (lr := (⟨2.5, 0⟩ : Cf .w32 ℝ)) w₁ (B := 100)
    (T := 600) (by omega) (by omega) (by omega) (ofUsize_ok 100 (by omega)) hr k
  rw [hnet] at hc hready
  have ht := fun e => C70_train hready w₁ (B := 100) (T := 600) (by omega) (by omega) e
  have hv := fun k => C70_test (hready k) w₂ (B := 100) (V := 100) (by omega) (by omega)
  refine ⟨net, curvesOf .meanSquare ⟨2.5, 0⟩ train test 100 600 100 16 n, ⟨s, ?_⟩, ?_, ?_, ?_, ?_, ?_,
    ?_, ?_⟩
  · rw [← hnet]; exact e
  · intro k
    have := (hc k).1
    rw [recordBatch, List.map_congr_left fun r _ => C70_points r] at this
    exact this
  · have hs : mainSeed = some 224783561 := by rfl
    rw [classMain, hs, Option.bind_eq_bind, Option.bind_some]
    exact hm
  · rw [curvesOf, hnet]
  · rw [curvesOf, hnet]
    refine List.map_congr_left fun e _ => ?_
    rw [(hv _).1, h2]; norm_num
  · rw [curvesOf, hnet]
    refine List.map_congr_left fun e _ => ?_
    rw [(hv _).2, h2]; norm_num
  · rw [curvesOf, hnet]
    refine List.map_congr_left fun e _ => ?_
    rw [(ht e).1, show ((600 * 100 : ℕ) : ℝ) = 60000 by norm_num]
  · rw [curvesOf, hnet]
    refine List.map_congr_left fun e _ => ?_
    rw [(ht e).2, show ((600 * 100 : ℕ) : ℝ) = 60000 by norm_num]

/-- Such files exist. -/
example : ∃ (files : MnistFiles) (train test : List Record), files.Holds train test
    ∧ train.length = 60000 ∧ test.length = 10000 := by
  have hb : ∀ N, ∀ r ∈ List.replicate N blank, r.WF := fun N r hr => by
    rw [List.eq_of_mem_replicate hr]; exact blank_WF
  exact ⟨_, List.replicate 60000 blank, List.replicate 10000 blank, ⟨List.replicate 16 0,
    List.replicate 8 0, List.replicate 16 0, List.replicate 8 0, List.length_replicate,
    List.length_replicate, List.length_replicate, List.length_replicate, rfl, hb _, hb _⟩,
    List.length_replicate, List.length_replicate⟩

end Renplex
