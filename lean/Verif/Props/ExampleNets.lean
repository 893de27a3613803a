import Verif.Spec.Examples
import Verif.Props.TrainTotal
/-!
# C69: the networks of the example programs
-/

namespace Renplex
open Examples Rng

section gen
variable {w : Width} {R : Type} [Scalar R]

theorem lcgf_some (seed : Nat) (h : 1103515245 * seed + 12345 < 2 ^ 128) :
    ∃ u : R, lcgf seed = some (u, lcgNext seed) :=
  ⟨Scalar.div (Scalar.ofNat (lcgNext seed)) (Scalar.ofNat m), by
    simp only [lcgf, step_eq seed h, Option.bind_eq_bind, Option.bind_some]⟩

theorem iterate_fits (k seed : Nat) (h : 1103515245 * seed + 12345 < 2 ^ 128) :
    1103515245 * (lcgNext^[k] seed) + 12345 < 2 ^ 128 := by
  cases k with
  | zero => exact h
  | succ k =>
    rw [Function.iterate_succ_apply']
    exact fits_of_lt (lcgNext_lt _)

/-- In any arithmetic every initialiser returns and advances the seed by its number of draws. -/
theorem gen_some (method : InitMethod) (seed : Nat) (h : 1103515245 * seed + 12345 < 2 ^ 128) :
    ∃ z : Cf w R, GenOps.gen method seed = some (z, lcgNext^[initSteps method] seed) := by
  obtain ⟨u1, h1⟩ := lcgf_some (R := R) seed h
  obtain ⟨u2, h2⟩ := lcgf_some (R := R) _ (iterate_fits 1 seed h)
  obtain ⟨u3, h3⟩ := lcgf_some (R := R) _ (iterate_fits 2 seed h)
  rw [Function.iterate_one] at h2
  rw [show lcgNext^[2] seed = lcgNext (lcgNext seed) from rfl] at h3
  cases method <;> simp only [GenOps.gen, Gen.gen, Gen.genXagu, Gen.genXa, Gen.genScaled, Gen.genHe,
    Gen.genXagn, Gen.genNormal, h1, h2, h3, Option.bind_eq_bind, Option.bind_some] <;>
    exact ⟨_, rfl⟩

theorem draws_some (method : InitMethod) (n seed : Nat) (h : 1103515245 * seed + 12345 < 2 ^ 128) :
    ∃ zs : List (Cf w R), zs.length = n
      ∧ Draws method seed zs (lcgNext^[n * initSteps method] seed) := by
  induction n generalizing seed with
  | zero => exact ⟨[], rfl, by simpa using Draws.nil seed⟩
  | succ n ih =>
    obtain ⟨z, hz⟩ := gen_some (w := w) (R := R) method seed h
    obtain ⟨zs, h1, h2⟩ := ih _ (iterate_fits _ seed h)
    refine ⟨z :: zs, by simp [h1], .cons hz ?_⟩
    rw [Nat.succ_mul, Function.iterate_add_apply]
    exact h2

theorem dense_some (n u : Nat) (func : ActFunc) (method : InitMethod) (seed : Nat)
    (h : 1103515245 * seed + 12345 < 2 ^ 128) :
    ∃ l : Dense (Cf .w32 R), dense n u func method seed
        = some (.dense l, lcgNext^[u * n * initSteps method] seed)
      ∧ (Layer.dense l).WF ∧ l.weights.shape = (u, n) ∧ l.biases.length = u ∧ l.func = func
      ∧ BuiltDense (.dense l) n u func method seed (lcgNext^[u * n * initSteps method] seed) := by
  obtain ⟨ws, h1, h2⟩ := draws_some (w := .w32) (R := R) method (u * n) seed h
  have h0 := (C37_init (α := Cf .w32 R) n u func method seed (lcgNext^[u * n * initSteps method] seed)
    (.ok ⟨Mat.fromBody ws (u, n), List.replicate u BasicOps.zero, func⟩)).mpr
    ⟨_, ws, rfl, h2, h1, rfl, rfl, rfl, rfl, rfl, rfl, by simp [Dense.outputShape],
      by simp [Dense.paramsLen, Mat.fromBody]⟩
  refine ⟨⟨Mat.fromBody ws (u, n), List.replicate u BasicOps.zero, func⟩, ?_, ⟨?_, ?_⟩, rfl, ?_, rfl,
    _, rfl, h2, h1, rfl, rfl, rfl⟩
  · unfold Examples.dense
    rw [h0]
    rfl
  · exact h1
  · simp [Mat.fromBody]
  · simp

theorem cut_kernels {α : Type} (p q m : Nat) (vs : List α) (h : vs.length = m * (p * q)) :
    ∃ ks : List (Mat α), ks.length = m ∧ ks.flatMap Mat.getBody = vs
      ∧ ∀ k ∈ ks, k.Rect ∧ k.shape = (p, q) ∧ k.capacity = (p, q) := by
  induction m generalizing vs with
  | zero =>
    rw [Nat.zero_mul] at h
    exact ⟨[], rfl, (List.length_eq_zero_iff.mp h).symm, by simp⟩
  | succ m ih =>
    obtain ⟨ks, h1, h2, h3⟩ := ih (vs.drop (p * q)) (by rw [List.length_drop, h, Nat.succ_mul]; omega)
    refine ⟨⟨vs.take (p * q), (p, q), (p, q)⟩ :: ks, by simp [h1], ?_, ?_⟩
    · simp [Mat.getBody] at h2 ⊢
      rw [h2, List.take_append_drop]
    · intro k hk
      rcases List.mem_cons.mp hk with rfl | hk
      · refine ⟨?_, rfl, rfl⟩
        change (vs.take (p * q)).length = p * q
        rw [List.length_take, h, Nat.succ_mul]
        omega
      · exact h3 k hk

theorem conv_some (n nf p q : Nat) (func : ActFunc) (method : InitMethod) (seed : Nat)
    (h : 1103515245 * seed + 12345 < 2 ^ 128) :
    ∃ l : Conv (Cf .w32 R), conv n nf (p, q) func method seed
        = some (.conv l, lcgNext^[nf * n * (p * q) * initSteps method] seed)
      ∧ (Layer.conv l).WF ∧ l.kernels.shape = (nf, n) ∧ (∀ k ∈ l.kernels.body, k.shape = (p, q))
      ∧ l.inputFeaturesLen = n ∧ l.biases.length = nf ∧ l.func = func
      ∧ l.paramsLen = (nf * n * (p * q), nf)
      ∧ BuiltConv (.conv l) n nf p q func method seed
        (lcgNext^[nf * n * (p * q) * initSteps method] seed) := by
  obtain ⟨vs, h1, h2⟩ := draws_some (w := .w32) (R := R) method (nf * n * (p * q)) seed h
  obtain ⟨ks, k1, k2, k3⟩ := cut_kernels p q (nf * n) vs h1
  have hp : (⟨n, Mat.fromBody ks (nf, n), List.replicate nf BasicOps.zero, func⟩ :
      Conv (Cf .w32 R)).paramsLen = (nf * n * (p * q), nf) := by
    simp only [Conv.paramsLen, Mat.fromBody, List.length_replicate]
    rw [foldl_add_const _ (p * q) ks (fun k hk => by rw [(k3 k hk).2.1]), k1, Nat.zero_add]
  have h0 := (C39_init (α := Cf .w32 R) n nf p q func method seed
    (lcgNext^[nf * n * (p * q) * initSteps method] seed)
    (.ok ⟨n, Mat.fromBody ks (nf, n), List.replicate nf BasicOps.zero, func⟩)).mpr
    ⟨_, ks, rfl, by rw [k2]; exact h2, k1, k3, rfl, rfl, rfl, rfl, rfl, rfl, rfl, rfl, hp⟩
  refine ⟨⟨n, Mat.fromBody ks (nf, n), List.replicate nf BasicOps.zero, func⟩, ?_,
    ⟨k1, rfl, by simp [Mat.fromBody], fun k hk => (k3 k hk).1, (p, q), fun k hk => (k3 k hk).2.1⟩, rfl,
    fun k hk => (k3 k hk).2.1, rfl, by simp, rfl, hp,
    _, rfl, by rw [← k2] at h2; exact h2, k1, rfl, fun k hk => ⟨(k3 k hk).1, (k3 k hk).2.1⟩, rfl, rfl, rfl⟩
  unfold Examples.conv
  rw [h0]
  rfl

end gen

theorem withInput_some {α : Type} (l : Layer α) (h : l.isEmpty = false) :
    withInput l = some ⟨[l]⟩ := by
  simp [withInput, Net.addInput, Net.new, h, unwrap]

theorem withLayer_some {α : Type} (ls : List (Layer α)) (last l : Layer α)
    (hl : ls.getLast? = some last) (h : l.isEmpty = false) (hs : last.outputShape = l.inputShape) :
    withLayer ⟨ls⟩ l = some ⟨ls ++ [l]⟩ := by
  have := C43_add_partial ⟨ls⟩ l last hl
  rw [if_neg (by simp [h]), if_pos hs] at this
  change Net.add _ l = _ at this
  simp [withLayer, this, unwrap]

theorem dense_isEmpty {α : Type} (l : Dense α) {u n : Nat} (h : l.weights.shape = (u, n))
    (hb : l.biases.length = u) (hu : 0 < u) : (Layer.dense l).isEmpty = false := by
  have h1 : u ≠ 0 := by omega
  have h2 : l.biases ≠ [] := by rintro h0; simp [h0] at hb; omega
  simp [Layer.isEmpty, Dense.isEmpty, h, h1, h2]

section
variable {R : Type} [Scalar R]

/-- A dense layer of the examples: what the constructor returns, with the new seed as a variable. -/
theorem dense_step (n u : Nat) (func : ActFunc) (k seed₀ : Nat) (method : InitMethod) (seed : Nat)
    (h : 1103515245 * seed₀ + 12345 < 2 ^ 128) (hs : seed = lcgNext^[k] seed₀) :
    ∃ (l : Dense (Cf .w32 R)) (s : Nat), dense n u func method seed = some (.dense l, s)
      ∧ s = lcgNext^[u * n * initSteps method + k] seed₀
      ∧ (Layer.dense l).WF ∧ l.weights.shape = (u, n) ∧ l.biases.length = u ∧ l.func = func
      ∧ BuiltDense (.dense l) n u func method seed s := by
  obtain ⟨l, h1, h2⟩ := dense_some (R := R) n u func method seed (by
    rw [hs]; exact iterate_fits k seed₀ h)
  refine ⟨l, _, h1, ?_, h2⟩
  rw [hs, Function.iterate_add_apply]

/-- The same for a convolutional layer. -/
theorem conv_step (n nf p q : Nat) (func : ActFunc) (k seed₀ : Nat) (method : InitMethod) (seed : Nat)
    (h : 1103515245 * seed₀ + 12345 < 2 ^ 128) (hs : seed = lcgNext^[k] seed₀) :
    ∃ (l : Conv (Cf .w32 R)) (s : Nat), conv n nf (p, q) func method seed = some (.conv l, s)
      ∧ s = lcgNext^[nf * n * (p * q) * initSteps method + k] seed₀
      ∧ (Layer.conv l).WF ∧ l.kernels.shape = (nf, n) ∧ (∀ k ∈ l.kernels.body, k.shape = (p, q))
      ∧ l.inputFeaturesLen = n ∧ l.biases.length = nf ∧ l.func = func
      ∧ l.paramsLen = (nf * n * (p * q), nf) ∧ BuiltConv (.conv l) n nf p q func method seed s := by
  obtain ⟨l, h1, h2⟩ := conv_some (R := R) n nf p q func method seed (by
    rw [hs]; exact iterate_fits k seed₀ h)
  refine ⟨l, _, h1, ?_, h2⟩
  rw [hs, Function.iterate_add_apply]

theorem flatten_dense {l : Dense (Cf .w32 R)} {u r c k : Nat} (h : l.weights.shape = (u, r * c * k)) :
    (Layer.flatten (Flatten.init (r, c) k) : Layer (Cf .w32 R)).outputShape
      = (Layer.dense l).inputShape := by
  simp [Layer.outputShape, Layer.inputShape, Flatten.outputShape, Flatten.init, Dense.inputShape, h]

theorem dense_dense {l l' : Dense (Cf .w32 R)} {u u' : Nat} (h : l.biases.length = u)
    (h' : l'.weights.shape = (u', u)) :
    (Layer.dense l).outputShape = (Layer.dense l').inputShape := by
  simp [Layer.outputShape, Layer.inputShape, Dense.outputShape, Dense.inputShape, h, h']

theorem dense_total {l : Dense (Cf .w32 R)} {f : ActFunc} (h : l.func = f) (hf : f ≠ .modZ) :
    (Layer.dense l).Total := fun z => by rw [h]; exact C46_total f hf z

theorem dense_totalBack {l : Dense (Cf .w32 R)} {f : ActFunc} (h : l.func = f) (hf : f ≠ .modZ) :
    (Layer.dense l).TotalBack := by
  rw [← h] at hf
  exact ⟨fun z => (C66_total l.func hf z).1, fun z => (C66_total l.func hf z).2⟩

/-- C69. The fully connected network of classification.rs is built without panicking from every seed
the generator can hold, in any arithmetic: its layers are accepted, it takes one 28 × 28 image to 10
numbers, is ready for training on such data, and has 22886 parameters; the seed advances by two
draws for each weight. -/
theorem C69_fully_connected (seed : Nat) (h : 1103515245 * seed + 12345 < 2 ^ 128) :
    ∃ n : Net (Cf .w32 R), fullyConnected seed = some ((0, n), lcgNext^[45632] seed)
      ∧ n.Ready (.maps 1 28 28) (.vec 10) ∧ n.paramsLen = 22886
      ∧ n.layers.map Layer.inputShape
        = [.matrix 1, .scalar 784, .scalar 28, .scalar 16, .scalar 16] ∧ n.outputShape = .ok (.scalar 10)
      ∧ ∃ l₂ l₃ l₄ l₅ s₂ s₃ s₄ s₅, n.layers = [.flatten ⟨((28, 28), 1)⟩, l₂, l₃, l₄, l₅]
        ∧ BuiltDense l₂ 784 28 .ritSigmoid (.xavierGlorotU 812) seed s₂
        ∧ BuiltDense l₃ 28 16 .ritSigmoid (.xavierGlorotU 44) s₂ s₃
        ∧ BuiltDense l₄ 16 16 .ritSigmoid (.xavierGlorotU 32) s₃ s₄
        ∧ BuiltDense l₅ 16 10 .ritSigmoid (.xavierGlorotU 26) s₄ s₅ := by
  obtain ⟨l2, t2, a2, e2, w2, s2, b2, f2, c2⟩ := dense_step (R := R) (28 * 28) 28 .ritSigmoid 0 seed
    (.xavierGlorotU (28 * 28 + 28)) seed h rfl
  obtain ⟨l3, t3, a3, e3, w3, s3, b3, f3, c3⟩ := dense_step (R := R) 28 16 .ritSigmoid _ seed
    (.xavierGlorotU (28 + 16)) t2 h e2
  obtain ⟨l4, t4, a4, e4, w4, s4, b4, f4, c4⟩ := dense_step (R := R) 16 16 .ritSigmoid _ seed
    (.xavierGlorotU (16 + 16)) t3 h e3
  obtain ⟨l5, t5, a5, e5, w5, s5, b5, f5, c5⟩ := dense_step (R := R) 16 10 .ritSigmoid _ seed
    (.xavierGlorotU (16 + 10)) t4 h e4
  have e : t5 = lcgNext^[45632] seed := by
    rw [e5]
    norm_num only [initSteps]
  refine ⟨⟨[.flatten (Flatten.init (28, 28) 1), .dense l2, .dense l3, .dense l4, .dense l5]⟩, ?_, ?_,
    ?_, ?_, ?_, _, _, _, _, _, _, _, _, rfl, c2, c3, c4, c5⟩
  · rw [← e]
    unfold fullyConnected
    simp only [a2, a3, a4, a5, Option.bind_eq_bind, Option.bind_some]
    rw [withInput_some _ rfl]
    simp only [Option.bind_some]
    rw [withLayer_some _ _ _ rfl (dense_isEmpty l2 s2 b2 (by omega)) (flatten_dense s2)]
    simp only [Option.bind_some]
    rw [withLayer_some _ _ _ rfl (dense_isEmpty l3 s3 b3 (by omega)) (dense_dense b2 s3)]
    simp only [Option.bind_some]
    rw [withLayer_some _ _ _ rfl (dense_isEmpty l4 s4 b4 (by omega)) (dense_dense b3 s4)]
    simp only [Option.bind_some]
    rw [withLayer_some _ _ _ rfl (dense_isEmpty l5 s5 b5 (by omega)) (dense_dense b4 s5)]
    rfl
  · refine ⟨by simp, ?_, ?_, ?_, ?_⟩
    · simp only [List.forall_mem_cons]
      exact ⟨trivial, w2, w3, w4, w5, by simp⟩
    · exact .cons (s₁ := .vec (28 * 28)) ⟨rfl, rfl⟩ (.cons (s₁ := .vec 28) ⟨by omega, s2⟩
        (.cons (s₁ := .vec 16) ⟨by omega, s3⟩ (.cons (s₁ := .vec 16) ⟨by omega, s4⟩
        (.cons (s₁ := .vec 10) ⟨by omega, s5⟩ (.nil _)))))
    · simp only [List.forall_mem_cons]
      exact ⟨trivial, dense_total f2 (by simp), dense_total f3 (by simp), dense_total f4 (by simp),
        dense_total f5 (by simp), by simp⟩
    · simp only [List.forall_mem_cons]
      exact ⟨trivial, dense_totalBack f2 (by simp), dense_totalBack f3 (by simp),
        dense_totalBack f4 (by simp), dense_totalBack f5 (by simp), by simp⟩
  · simp only [Net.paramsLen, List.foldl_cons, List.foldl_nil, Layer.paramsLen, Dense.paramsLen, s2, s3,
      s4, s5, b2, b3, b4, b5]
  · simp only [List.map_cons, List.map_nil, Layer.inputShape, Dense.inputShape, s2, s3, s4, s5]
    rfl
  · simp only [Net.outputShape, List.getLast?_cons_cons, List.getLast?_singleton, Layer.outputShape,
      Dense.outputShape, b5]

/-- C69. The auto-encoder of regression.rs, for any positive number of samples: it takes vectors of
that length to vectors of that length, is ready for training, and has 161·samples + 5328 parameters.
-/
theorem C69_auto_encoder (samples : Nat) (hs : 0 < samples) (seed : Nat)
    (h : 1103515245 * seed + 12345 < 2 ^ 128) :
    ∃ n : Net (Cf .w32 R), autoEncoder seed samples
        = some ((3, n), lcgNext^[2 * (160 * samples + 5120)] seed)
      ∧ n.Ready (.vec samples) (.vec samples) ∧ n.paramsLen = 161 * samples + 5328
      ∧ n.layers.map Layer.inputShape
        = [.scalar samples, .scalar 128, .scalar 32, .scalar 16, .scalar 32]
      ∧ n.outputShape = .ok (.scalar samples)
      ∧ ∃ l₁ l₂ l₃ l₄ l₅ s₁ s₂ s₃ s₄ s₅, n.layers = [l₁, l₂, l₃, l₄, l₅]
        ∧ BuiltDense l₁ samples 128 .ritTanh (.xavierGlorotU (samples + 128)) seed s₁
        ∧ BuiltDense l₂ 128 32 .ritTanh (.xavierGlorotU 160) s₁ s₂
        ∧ BuiltDense l₃ 32 16 .ritTanh (.xavierGlorotU 48) s₂ s₃
        ∧ BuiltDense l₄ 16 32 .ritTanh (.xavierGlorotU 48) s₃ s₄
        ∧ BuiltDense l₅ 32 samples .none (.xavierGlorotU (32 + samples)) s₄ s₅ := by
  obtain ⟨l1, t1, a1, e1, w1, s1, b1, f1, c1⟩ := dense_step (R := R) samples 128 .ritTanh 0 seed
    (.xavierGlorotU (samples + 128)) seed h rfl
  obtain ⟨l2, t2, a2, e2, w2, s2, b2, f2, c2⟩ := dense_step (R := R) 128 32 .ritTanh _ seed
    (.xavierGlorotU (128 + 32)) t1 h e1
  obtain ⟨l3, t3, a3, e3, w3, s3, b3, f3, c3⟩ := dense_step (R := R) 32 16 .ritTanh _ seed
    (.xavierGlorotU (32 + 16)) t2 h e2
  obtain ⟨l4, t4, a4, e4, w4, s4, b4, f4, c4⟩ := dense_step (R := R) 16 32 .ritTanh _ seed
    (.xavierGlorotU (16 + 32)) t3 h e3
  obtain ⟨l5, t5, a5, e5, w5, s5, b5, f5, c5⟩ := dense_step (R := R) 32 samples .none _ seed
    (.xavierGlorotU (32 + samples)) t4 h e4
  have e : t5 = lcgNext^[2 * (160 * samples + 5120)] seed := by
    have : samples * 32 * 2 + (32 * 16 * 2 + (16 * 32 * 2 + (32 * 128 * 2 + (128 * samples * 2 + 0))))
        = 2 * (160 * samples + 5120) := by omega
    rw [e5, ← this]
    simp only [initSteps]
  refine ⟨⟨[.dense l1, .dense l2, .dense l3, .dense l4, .dense l5]⟩, ?_, ?_, ?_, ?_, ?_,
    _, _, _, _, _, _, _, _, _, _, rfl, c1, c2, c3, c4, c5⟩
  · rw [← e]
    unfold autoEncoder
    simp only [a1, a2, a3, a4, a5, Option.bind_eq_bind, Option.bind_some]
    rw [withInput_some _ (dense_isEmpty l1 s1 b1 (by omega))]
    simp only [Option.bind_some]
    rw [withLayer_some _ _ _ rfl (dense_isEmpty l2 s2 b2 (by omega)) (dense_dense b1 s2)]
    simp only [Option.bind_some]
    rw [withLayer_some _ _ _ rfl (dense_isEmpty l3 s3 b3 (by omega)) (dense_dense b2 s3)]
    simp only [Option.bind_some]
    rw [withLayer_some _ _ _ rfl (dense_isEmpty l4 s4 b4 (by omega)) (dense_dense b3 s4)]
    simp only [Option.bind_some]
    rw [withLayer_some _ _ _ rfl (dense_isEmpty l5 s5 b5 hs) (dense_dense b4 s5)]
    rfl
  · refine ⟨by simp, ?_, ?_, ?_, ?_⟩
    · simp only [List.forall_mem_cons]
      exact ⟨w1, w2, w3, w4, w5, by simp⟩
    · exact .cons (s₁ := .vec 128) ⟨hs, s1⟩ (.cons (s₁ := .vec 32) ⟨by omega, s2⟩
        (.cons (s₁ := .vec 16) ⟨by omega, s3⟩ (.cons (s₁ := .vec 32) ⟨by omega, s4⟩
        (.cons (s₁ := .vec samples) ⟨by omega, s5⟩ (.nil _)))))
    · simp only [List.forall_mem_cons]
      exact ⟨dense_total f1 (by simp), dense_total f2 (by simp), dense_total f3 (by simp),
        dense_total f4 (by simp), dense_total f5 (by simp), by simp⟩
    · simp only [List.forall_mem_cons]
      exact ⟨dense_totalBack f1 (by simp), dense_totalBack f2 (by simp), dense_totalBack f3 (by simp),
        dense_totalBack f4 (by simp), dense_totalBack f5 (by simp), by simp⟩
  · simp only [Net.paramsLen, List.foldl_cons, List.foldl_nil, Layer.paramsLen, Dense.paramsLen, s1, s2,
      s3, s4, s5, b1, b2, b3, b4, b5]
    omega
  · simp only [List.map_cons, List.map_nil, Layer.inputShape, Dense.inputShape, s1, s2, s3, s4, s5]
  · simp only [Net.outputShape, List.getLast?_cons_cons, List.getLast?_singleton, Layer.outputShape,
      Dense.outputShape, b5]

/-- The mean of a block of four can be formed if dividing by 4 does not panic. -/
theorem avgPool_total (k : Nat)
    (h4 : Scalar.beq (Cf.new (Scalar.ofNat 4) Scalar.zero : Cf .w32 R).den Scalar.zero = false) :
    (Layer.reduce (avgPool (R := R) k)).Total := by
  intro b hb
  have hb : b.length = 4 := hb
  change ∃ y, avgBlock b = some y
  unfold avgBlock
  rw [hb]
  simp only [Cf.div, h4]
  exact ⟨_, rfl⟩

theorem avgPool_totalBack {k : Nat} (hk : 0 < k) :
    (Layer.reduce (avgPool (R := R) k)).TotalBack :=
  ⟨rfl, rfl, by simp [avgPool, Reduce.init], hk⟩

theorem conv_total {l : Conv (Cf .w32 R)} {f : ActFunc} (h : l.func = f) (hf : f ≠ .modZ) :
    (Layer.conv l).Total := fun z => by rw [h]; exact C46_total f hf z

theorem conv_totalBack {l : Conv (Cf .w32 R)} {f : ActFunc} (h : l.func = f) (hf : f ≠ .modZ) :
    (Layer.conv l).TotalBack := by
  rw [← h] at hf
  exact ⟨fun z => (C66_total l.func hf z).1, fun z => (C66_total l.func hf z).2⟩

/-- C69. The convolutional network of classification.rs, in any arithmetic in which dividing by 4
does not panic: it takes one 28 × 28 image to 10 numbers, is ready for training on such data, and has
32410 parameters. -/
theorem C69_two_conv (seed : Nat) (h : 1103515245 * seed + 12345 < 2 ^ 128)
    (h4 : Scalar.beq (Cf.new (Scalar.ofNat 4) Scalar.zero : Cf .w32 R).den Scalar.zero = false) :
    ∃ n : Net (Cf .w32 R), twoConv seed = some ((2, n), lcgNext^[65944] seed)
      ∧ n.Ready (.maps 1 28 28) (.vec 10) ∧ n.paramsLen = 32410
      ∧ n.layers.map Layer.inputShape
        = [.matrix 1, .matrix 8, .matrix 8, .matrix 16, .scalar 1936, .scalar 16]
      ∧ n.outputShape = .ok (.scalar 10)
      ∧ ∃ l₁ l₃ l₅ l₆ s₁ s₃ s₅ s₆,
        n.layers = [l₁, .reduce (avgPool 8), l₃, .flatten ⟨((11, 11), 16)⟩, l₅, l₆]
        ∧ BuiltConv l₁ 1 8 3 3 .ritReLU (.heInit 72) seed s₁
        ∧ BuiltConv l₃ 8 16 3 3 .ritReLU (.heInit 144) s₁ s₃
        ∧ BuiltDense l₅ 1936 16 .ritSigmoid (.xavierGlorotU 1952) s₃ s₅
        ∧ BuiltDense l₆ 16 10 .ritSigmoid (.xavierGlorotU 26) s₅ s₆ := by
  obtain ⟨l1, t1, a1, e1, w1, s1, k1, i1, b1, f1, p1, c1⟩ := conv_step (R := R) 1 8 3 3 .ritReLU 0 seed
    (.heInit (8 * 3 * 3)) seed h rfl
  obtain ⟨l3, t3, a3, e3, w3, s3, k3, i3, b3, f3, p3, c3⟩ := conv_step (R := R) 8 16 3 3 .ritReLU _ seed
    (.heInit (16 * 3 * 3)) t1 h e1
  obtain ⟨l5, t5, a5, e5, w5, s5, b5, f5, c5⟩ := dense_step (R := R) (11 * 11 * 16) 16 .ritSigmoid _ seed
    (.xavierGlorotU (11 * 11 * 16 + 16)) t3 h e3
  obtain ⟨l6, t6, a6, e6, w6, s6, b6, f6, c6⟩ := dense_step (R := R) 16 10 .ritSigmoid _ seed
    (.xavierGlorotU (16 + 10)) t5 h e5
  have e : t6 = lcgNext^[65944] seed := by
    rw [e6]
    norm_num only [initSteps]
  refine ⟨⟨[.conv l1, .reduce (avgPool 8), .conv l3, .flatten (Flatten.init (11, 11) 16), .dense l5,
    .dense l6]⟩, ?_, ?_, ?_, ?_, ?_, _, _, _, _, _, _, _, _, rfl, c1, c3, c5, c6⟩
  · rw [← e]
    unfold twoConv
    simp only [a1, a3, a5, a6, Option.bind_eq_bind, Option.bind_some]
    rw [withInput_some _ (by simp [Layer.isEmpty, Conv.isEmpty, s1])]
    simp only [Option.bind_some]
    rw [withLayer_some _ _ _ rfl rfl (by
      simp [Layer.outputShape, Layer.inputShape, Conv.outputShape, s1, avgPool, Reduce.init,
        Reduce.inputShape])]
    simp only [Option.bind_some]
    rw [withLayer_some _ _ _ rfl (by simp [Layer.isEmpty, Conv.isEmpty, s3]) (by
      simp [Layer.outputShape, Layer.inputShape, Conv.inputShape, i3, avgPool, Reduce.init,
        Reduce.outputShape])]
    simp only [Option.bind_some]
    rw [withLayer_some _ _ _ rfl rfl (by
      simp [Layer.outputShape, Layer.inputShape, Conv.outputShape, s3, Flatten.init,
        Flatten.inputShape])]
    simp only [Option.bind_some]
    rw [withLayer_some _ _ _ rfl (dense_isEmpty l5 s5 b5 (by omega)) (flatten_dense s5)]
    simp only [Option.bind_some]
    rw [withLayer_some _ _ _ rfl (dense_isEmpty l6 s6 b6 (by omega)) (dense_dense b5 s6)]
    rfl
  · refine ⟨by simp, ?_, ?_, ?_, ?_⟩
    · simp only [List.forall_mem_cons]
      exact ⟨w1, trivial, w3, trivial, w5, w6, by simp⟩
    · exact .cons (s₁ := .maps 8 26 26)
        ⟨by omega, by omega, s1, 3, 3, k1, by omega, by omega, by omega, by omega, rfl, rfl⟩
        (.cons (s₁ := .maps 8 13 13) ⟨rfl, rfl, by omega, by omega, by simp [avgPool, Reduce.init],
          by simp [avgPool, Reduce.init], rfl, rfl⟩
        (.cons (s₁ := .maps 16 11 11)
          ⟨by omega, by omega, s3, 3, 3, k3, by omega, by omega, by omega, by omega, rfl, rfl⟩
        (.cons (s₁ := .vec (11 * 11 * 16)) ⟨rfl, by omega⟩
        (.cons (s₁ := .vec 16) ⟨by omega, s5⟩ (.cons (s₁ := .vec 10) ⟨by omega, s6⟩ (.nil _))))))
    · simp only [List.forall_mem_cons]
      exact ⟨conv_total f1 (by simp), avgPool_total 8 h4, conv_total f3 (by simp), trivial,
        dense_total f5 (by simp), dense_total f6 (by simp), by simp⟩
    · simp only [List.forall_mem_cons]
      exact ⟨conv_totalBack f1 (by simp), avgPool_totalBack (by omega), conv_totalBack f3 (by simp),
        trivial, dense_totalBack f5 (by simp), dense_totalBack f6 (by simp), by simp⟩
  · simp only [Net.paramsLen, List.foldl_cons, List.foldl_nil, Layer.paramsLen, Dense.paramsLen, p1, p3,
      s5, s6, b5, b6, Reduce.paramsLen]
  · simp only [List.map_cons, List.map_nil, Layer.inputShape, Conv.inputShape, Dense.inputShape, i1, i3,
      s5, s6]
    rfl
  · simp only [Net.outputShape, List.getLast?_cons_cons, List.getLast?_singleton, Layer.outputShape,
      Dense.outputShape, b6]

theorem draws_overflow {method : InitMethod} {seed s : Nat} {vs : List (Cf .w32 R)} (hv : vs ≠ [])
    (h : ¬ 1103515245 * seed + 12345 < 2 ^ 128) : ¬ Draws method seed vs s := by
  intro d
  cases d with
  | nil => exact hv rfl
  | cons hg _ =>
    have h1 : lcgf (R := R) seed = none := by
      simp only [lcgf, step_none seed h, Option.bind_eq_bind, Option.bind_none]
    cases method <;> simp [GenOps.gen, Gen.gen, Gen.genXagu, Gen.genXa, Gen.genScaled, Gen.genHe,
      Gen.genXagn, Gen.genNormal, h1] at hg

theorem dense_overflow (n u : Nat) (hn : 0 < n) (hu : 0 < u) (func : ActFunc) (method : InitMethod)
    (seed : Nat) (h : ¬ 1103515245 * seed + 12345 < 2 ^ 128) :
    (dense n u func method seed : Run (Layer (Cf .w32 R) × Nat)) = none := by
  unfold Examples.dense
  cases hd : Dense.init (α := Cf .w32 R) (.scalar n) u func method seed with
  | none => rfl
  | some r =>
    obtain ⟨r, s⟩ := r
    obtain ⟨l, ws, -, d, hl, -⟩ := (C37_init _ _ _ _ _ _ _).mp hd
    exact absurd d (draws_overflow (by rintro rfl; have := Nat.mul_pos hu hn; simp at hl; omega) h)

theorem conv_overflow (n nf : Nat) (hn : 0 < n) (hf : 0 < nf) (func : ActFunc) (method : InitMethod)
    (seed : Nat) (h : ¬ 1103515245 * seed + 12345 < 2 ^ 128) :
    (conv n nf (3, 3) func method seed : Run (Layer (Cf .w32 R) × Nat)) = none := by
  unfold Examples.conv
  cases hd : Conv.init (α := Cf .w32 R) (.matrix n) nf (3, 3) func method seed with
  | none => rfl
  | some r =>
    obtain ⟨r, s⟩ := r
    obtain ⟨l, ks, rfl, -⟩ := (C39_init _ _ _ _ _ _ _ _ _).mp hd
    obtain ⟨vs, h1, h2, -⟩ := C39_draws _ _ _ _ _ _ _ _ _ hd
    exact absurd h2 (draws_overflow (by
      rintro rfl; have := Nat.mul_pos hf hn; simp at h1; omega) h)

/-- C69. With a seed near the top of the 128-bit range all three panic. -/
theorem C69_overflow (seed : Nat) (h : ¬ 1103515245 * seed + 12345 < 2 ^ 128) (samples : Nat)
    (hs : 0 < samples) :
    (fullyConnected seed : Run ((Nat × Net (Cf .w32 R)) × Nat)) = none
      ∧ (twoConv seed : Run ((Nat × Net (Cf .w32 R)) × Nat)) = none
      ∧ (autoEncoder seed samples : Run ((Nat × Net (Cf .w32 R)) × Nat)) = none := by
  refine ⟨?_, ?_, ?_⟩
  · unfold fullyConnected
    simp only [dense_overflow (R := R) (28 * 28) 28 (by omega) (by omega) _ _ seed h,
      Option.bind_eq_bind, Option.bind_none]
  · unfold twoConv
    simp only [conv_overflow (R := R) 1 8 (by omega) (by omega) _ _ seed h,
      Option.bind_eq_bind, Option.bind_none]
  · unfold autoEncoder
    simp only [dense_overflow (R := R) samples 128 hs (by omega) _ _ seed h,
      Option.bind_eq_bind, Option.bind_none]

/-- C69. So does the auto-encoder for zero samples: its last layer has no units and is rejected. -/
theorem C69_no_samples (seed : Nat) :
    (autoEncoder seed 0 : Run ((Nat × Net (Cf .w32 R)) × Nat)) = none := by
  rw [Option.eq_none_iff_forall_ne_some]
  intro r h
  simp only [autoEncoder, Option.bind_eq_bind, Option.bind_eq_some_iff] at h
  obtain ⟨_, -, _, -, _, -, _, -, ⟨l5, s5⟩, h5, _, -, _, -, _, -, n4, -, n5, hn, -⟩ := h
  simp only [Examples.dense, Option.bind_eq_bind, Option.bind_eq_some_iff] at h5
  obtain ⟨⟨e, s⟩, h6, l, h7, h8⟩ := h5
  obtain ⟨l', ws, rfl, -, -, -, -, -, h9, -⟩ := (C37_init _ _ _ _ _ _ _).mp h6
  cases h7
  cases h8
  have he : (Layer.dense l).isEmpty = true := by simp [Layer.isEmpty, Dense.isEmpty, h9]
  simp [withLayer, Net.add, he, unwrap] at hn

end

/-- In exact arithmetic dividing by 4 does not panic. -/
example : Scalar.beq (Cf.new (Scalar.ofNat 4) Scalar.zero : Cf .w32 ℝ).den Scalar.zero = false := by
  simp [Cf.den, Cf.new, Scalar.beq, Scalar.ofNat, Scalar.sq, Scalar.add, Scalar.zero, Scalar.lit]

/-- Both programs use this seed. -/
example : mainSeed = some 224783561 ∧ 1103515245 * 224783561 + 12345 < 2 ^ 128 := ⟨rfl, by norm_num⟩

end Renplex
