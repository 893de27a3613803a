import Verif.Props.ExampleReg
import Verif.Props.DescentLaw
/-!
# C73: training the auto-encoder is gradient descent

The activations of the auto-encoder of regression.rs are `tanh` and the identity, whose derivatives are
right everywhere. So C48 and C53 apply to every training call of the program, with no condition on the
values that occur.
-/

namespace Renplex
open Filter Topology Examples Rng

/-- A dense layer with `tanh` or no activation, or a flatten layer. -/
def Layer.Smooth {α : Type} (l : Layer α) : Prop :=
  l.DenseOrFlatten ∧ (l.act = .none ∨ l.act = .ritTanh)

section
variable {w : Width} {n : Net (Cf w ℝ)} {s : Size} {m : Nat}

theorem smooth_gradient (h : n.Ready s (.vec m)) (hs : ∀ l ∈ n.layers, l.Smooth) (f : LossFunc)
    {x : IOType (Cf w ℝ)} (hx : x.HasSize s) {t : List (Cf w ℝ)} (ht : t.length = m) :
    ∃ gs, sampleGrads n f (x, .scalar t) = some gs ∧ IsNetGradient n x t gs := by
  have hn : n.layers ≠ [] := by
    intro h0; have := h.layers; rw [h0] at this; simp at this
  obtain ⟨y, _, h1, h2, -⟩ := C46_sized_partial n hn h.wf h.total h.fits x hx
  obtain ⟨ys, y', h3, h4, h5⟩ := (C44_forward n hn x _).mp h1
  have h6 := (C44_collect n hn x _).mpr ⟨ys, h3, rfl⟩
  cases y with
  | matrix ms => exact h2.elim
  | scalar p =>
    have h2 : p.length = m := h2
    refine C48_partial n hn f h.wf (fun l hl => (hs l hl).1) x s hx _ h6 p t h1 (by rw [ht, h2]) ?_
    intro q hq v hv z hz
    rcases (hs q.2 (List.of_mem_zip hq).2).2 with e | e
    · rw [e]; exact none_right z
    · rw [e]; exact tanh_right z

theorem smooth_gradients (h : n.Ready s (.vec m)) (hs : ∀ l ∈ n.layers, l.Smooth) (f : LossFunc)
    (pts : List (IOType (Cf w ℝ) × List (Cf w ℝ)))
    (hp : ∀ q ∈ pts, q.1.HasSize s ∧ q.2.length = m) :
    ∃ gss, List.Forall₂ (fun q gs => sampleGrads n f (q.1, .scalar q.2) = some gs
      ∧ IsNetGradient n q.1 q.2 gs) pts gss := by
  induction pts with
  | nil => exact ⟨[], .nil⟩
  | cons q pts ih =>
    obtain ⟨gss, h1⟩ := ih fun q hq => hp q (by simp [hq])
    obtain ⟨gs, h2⟩ := smooth_gradient h hs f (hp q (by simp)).1 (hp q (by simp)).2
    exact ⟨gs :: gss, .cons h2 h1⟩

theorem zipParams_smooth {α : Type} (upd : α → α → α) (ls : List (Layer α)) (gs : List (LayerVec α))
    (h : ∀ l ∈ ls, l.Smooth) : ∀ l ∈ List.zipWith (Layer.zipParams upd) ls gs, l.Smooth := by
  induction ls generalizing gs with
  | nil => simp
  | cons l ls ih =>
    cases gs with
    | nil => simp
    | cons g gs =>
      intro l' hl
      rcases List.mem_cons.mp hl with rfl | hl
      · have := h l (by simp)
        cases l <;> exact this
      · exact ih gs (fun l hl => h l (by simp [hl])) l' hl

/-- C73, exact arithmetic. For a network of dense layers with `tanh` or no activation (behind flatten
layers), fitting its data, one training call with a real learning rate `r` on a non-empty batch
subtracts from every parameter `r/B` times the conjugate of the derivative of the batch's squared
error; the result is again such a network. -/
theorem C73_step (h : n.Ready s (.vec m)) (hs : ∀ l ∈ n.layers, l.Smooth) (f : LossFunc)
    (pts : List (IOType (Cf w ℝ) × List (Cf w ℝ))) (hB : pts ≠ [])
    (hp : ∀ q ∈ pts, q.1.HasSize s ∧ q.2.length = m) (r : ℝ) :
    ∃ gss n', List.Forall₂ (fun q gs => IsNetGradient n q.1 q.2 gs) pts gss
      ∧ n.gradientOpt ⟨pts.map (·.1), pts.map fun q => .scalar q.2⟩ f ⟨r, 0⟩ = some (.ok (), n')
      ∧ n' = n.zipParams (fun p d => Cf.ofC (p.toC - r / pts.length * starRingEnd ℂ d.toC))
          (sumGrads n gss)
      ∧ n'.Ready s (.vec m) ∧ ∀ l ∈ n'.layers, l.Smooth := by
  obtain ⟨gss, hg⟩ := smooth_gradients h hs f pts hp
  obtain ⟨data, hdata⟩ : ∃ d : Dataset (Cf w ℝ),
    d = ⟨pts.map (·.1), pts.map fun q => .scalar q.2⟩ := ⟨_, rfl⟩
  have hpts : data.points = pts.map fun q => (q.1, .scalar q.2) := by
    rw [hdata]; simp [Dataset.points, List.zip_map']
  have hlen : data.inputs.length = pts.length := by rw [hdata]; simp
  have hne : data.inputs ≠ [] := by
    intro h0; rw [h0] at hlen; exact hB (List.length_eq_zero_iff.mp hlen.symm)
  have hsz : data.HasSize s (.vec m) := by
    intro p hpm
    rw [hpts] at hpm
    obtain ⟨q, hq, rfl⟩ := List.mem_map.mp hpm
    exact hp q hq
  rw [← hdata]
  have hstep := (C50_partial n _ h.layers h.wf data hne f ⟨r, 0⟩ rfl (.ok ())).mpr
    ⟨rfl, gss, by
      rw [hpts, List.forall₂_map_left_iff]
      exact hg.imp fun q gs hq => ⟨hq.1, hq.2.1⟩, rfl⟩
  have hupd : ∀ p d : Cf w ℝ, Cf.ofC (w := w) (p.toC
      - starRingEnd ℂ ((⟨r, 0⟩ : Cf w ℝ).toC / data.inputs.length * d.toC))
      = Cf.ofC (p.toC - r / pts.length * starRingEnd ℂ d.toC) := by
    intro p d
    have hr : (⟨r, 0⟩ : Cf w ℝ).toC = (r : ℂ) := Complex.ext (by simp) (by simp)
    rw [hr, hlen, map_mul, map_div₀, Complex.conj_ofReal, Complex.conj_natCast]
  simp only [hupd] at hstep
  obtain ⟨n', h1, h2⟩ : ∃ n', n.gradientOpt data f ⟨r, 0⟩ = some (.ok (), n')
      ∧ n'.Ready s (.vec m) := by
    have : data.inputs.length ≠ 0 := fun h0 => hne (List.length_eq_zero_iff.mp h0)
    obtain ⟨q, hq, -⟩ := div_toC (⟨r, 0⟩ : Cf w ℝ) (Cf.ofUsize data.inputs.length)
      (by rw [Cf.toC_ofUsize]; exact_mod_cast this)
    exact C66_step n h data hsz f ⟨r, 0⟩ q hq
  rw [hstep] at h1
  have e := (Prod.mk.inj (Option.some.inj h1)).2
  rw [← e] at h2
  exact ⟨gss, _, hg.imp fun _ _ h => h.2, hstep, rfl, h2, zipParams_smooth _ _ _ hs⟩

/-- C73, exact arithmetic. The squared error of the batch after such a call, as a function of the
learning rate, has at 0 the derivative `-(2/B)` times the squared norm of its gradient; so unless the
gradient vanishes the call decreases the error for all small enough learning rates. -/
theorem C73_descent (h : n.Ready s (.vec m)) (hs : ∀ l ∈ n.layers, l.Smooth) (f : LossFunc)
    (pts : List (IOType (Cf w ℝ) × List (Cf w ℝ))) (hB : pts ≠ [])
    (hp : ∀ q ∈ pts, q.1.HasSize s ∧ q.2.length = m) :
    ∃ (gss : List (List (LayerVec (Cf w ℝ)))) (n' : ℝ → Net (Cf w ℝ)) (E : ℝ → ℝ),
      List.Forall₂ (fun q gs => IsNetGradient n q.1 q.2 gs) pts gss
      ∧ (∀ r, n.gradientOpt ⟨pts.map (·.1), pts.map fun q => .scalar q.2⟩ f ⟨r, 0⟩
        = some (.ok (), n' r))
      ∧ (∀ r, BatchError (n' r) pts (E r)) ∧ BatchError n pts (E 0)
      ∧ HasDerivAt E (-(2 / pts.length) * normSqAll (sumGrads n gss)) 0
      ∧ ((∃ g ∈ sumGrads n gss, ∃ z ∈ g.1 ++ g.2, z ≠ 0) → ∀ᶠ r in 𝓝[>] (0 : ℝ), E r < E 0) := by
  obtain ⟨gss, hg⟩ := smooth_gradients h hs f pts hp
  obtain ⟨n', E, h1, h2, h3, h4, h5⟩ := C53_partial n h.layers h.wf pts hB f gss hg
  -- the trained network forwards the batch at every rate, so the error is defined everywhere
  have hE : ∀ r, ∃ e, BatchError (n' r) pts e := by
    intro r
    obtain ⟨gss', n'', -, k1, -, k2, -⟩ := C73_step h hs f pts hB hp r
    rw [h1 r] at k1
    cases k1
    have hn : (n' r).layers ≠ [] := by
      intro h0; have := k2.layers; rw [h0] at this; simp at this
    have : ∃ ps, List.Forall₂ (fun q p => (n' r).forward q.1 = some (.ok (.scalar p))) pts ps := by
      clear hB hg h1 h2 h3 h4 h5
      induction pts with
      | nil => exact ⟨[], .nil⟩
      | cons q pts ih =>
        obtain ⟨ps, i1⟩ := ih fun q hq => hp q (by simp [hq])
        obtain ⟨y, _, i2, i3, -⟩ := C46_sized_partial (n' r) hn k2.wf k2.total k2.fits q.1
          (hp q (by simp)).1
        cases y with
        | matrix ms => exact i3.elim
        | scalar p => exact ⟨p :: ps, .cons i2 i1⟩
    obtain ⟨ps, k3⟩ := this
    exact ⟨_, ps, k3, rfl⟩
  choose E' hE' using hE
  have huniq : ∀ (N : Net (Cf w ℝ)) (a b : ℝ), BatchError N pts a → BatchError N pts b → a = b := by
    rintro N a b ⟨ps, i1, rfl⟩ ⟨ps', i2, rfl⟩
    have : ps = ps' := by
      clear hB hp hg h1 h2 h3 h4 h5 hE'
      induction i1 generalizing ps' with
      | nil => cases i2; rfl
      | cons a t ih =>
        cases i2 with
        | cons a' t' =>
          rw [a] at a'
          cases a'
          rw [ih _ t']
    rw [this]
  have heq : E' =ᶠ[𝓝 0] E := by
    filter_upwards [h2] with r hr
    exact huniq _ _ _ (hE' r) hr
  have h0 : E' 0 = E 0 := heq.self_of_nhds
  refine ⟨gss, n', E', hg.imp fun _ _ h => h.2, h1, hE', by rw [h0]; exact h3,
    h4.congr_of_eventuallyEq heq, fun hz => ?_⟩
  filter_upwards [h5 hz, nhdsWithin_le_nhds heq] with r hr hr'
  rw [hr', h0]
  exact hr

end

/-- The points of training batch `k` of the regression program: the corrupted signals and the clean
ones. -/
noncomputable def signalPoints (samples : Nat) (thr : ℝ) (size train test k : Nat) :
    List (IOType (Cf .w32 ℝ) × List (Cf .w32 ℝ)) :=
  (List.range size).map fun i =>
    let s := (nextTrain samples)^[k * size + i] train
    let st := (nextTest samples)^[k * size + i] test
    (samplesOf samples (trainAt samples thr s st),
      (List.range samples).map fun j => Cf.ofC (cleanAt samples s j))

theorem signalTrain_eq (samples : Nat) (thr : ℝ) (size train test k : Nat) :
    signalTrain samples thr size train test k
      = ⟨(signalPoints samples thr size train test k).map (·.1),
        (signalPoints samples thr size train test k).map fun q => .scalar q.2⟩ := by
  simp only [signalTrain, signalPoints, Dataset.ofPoints, Dataset.foldl_addPoint, List.map_map,
    samplesOf, Function.comp_def, Dataset.new, List.nil_append]

theorem signalPoints_fit (samples : Nat) (thr : ℝ) (size train test k : Nat) :
    ∀ q ∈ signalPoints samples thr size train test k,
      q.1.HasSize (.vec samples) ∧ q.2.length = samples := by
  intro q hq
  obtain ⟨i, -, rfl⟩ := List.mem_map.mp hq
  simp [samplesOf, IOType.HasSize]

theorem builtDense_smooth {R : Type} [Scalar R] {l : Layer (Cf .w32 R)} {n u : Nat} {func : ActFunc}
    {method : InitMethod} {seed next : Nat} (h : BuiltDense l n u func method seed next)
    (hf : func = .none ∨ func = .ritTanh) : l.Smooth := by
  obtain ⟨d, rfl, -, -, -, -, rfl⟩ := h
  exact ⟨trivial, hf⟩

/-- The auto-encoder is such a network. -/
theorem C73_auto_encoder (samples : Nat) (hs : 0 < samples) (seed : Nat)
    (h : 1103515245 * seed + 12345 < 2 ^ 128) :
    ∃ (n : Net (Cf .w32 ℝ)) (s : Nat), autoEncoder seed samples = some ((3, n), s)
      ∧ n.Ready (.vec samples) (.vec samples) ∧ ∀ l ∈ n.layers, l.Smooth := by
  obtain ⟨n, e, hr, -, -, -, l1, l2, l3, l4, l5, _, _, _, _, _, el, b1, b2, b3, b4, b5⟩ :=
    C69_auto_encoder (R := ℝ) samples hs seed h
  refine ⟨n, _, e, hr, ?_⟩
  rw [el]
  simp only [List.forall_mem_cons]
  exact ⟨builtDense_smooth b1 (.inr rfl), builtDense_smooth b2 (.inr rfl), builtDense_smooth b3 (.inr rfl), builtDense_smooth b4 (.inr rfl),
    builtDense_smooth b5 (.inl rfl), by simp⟩

/-- C73, exact arithmetic. Every training call of the regression program, whichever seed, sizes and
number of calls before it: from the network before the call to the one after it, every parameter
loses `r/size` times the conjugate of the derivative of the squared error of the batch. -/
theorem C73_regression (samples : Nat) (hs : 0 < samples) (seed : Nat)
    (h : 1103515245 * seed + 12345 < 2 ^ 128) (f : LossFunc) (r thr : ℝ) (B size train test : Nat)
    (hsize : 0 < size) :
    ∃ (n : Net (Cf .w32 ℝ)) (s : Nat), autoEncoder seed samples = some ((3, n), s)
      ∧ let net := signalNet f ⟨r, 0⟩ samples thr B size train test n
        ∀ k, ∃ gss, List.Forall₂ (fun q gs => IsNetGradient (net k) q.1 q.2 gs)
            (signalPoints samples thr size train test (k % B)) gss
          ∧ net (k + 1) = (net k).zipParams
            (fun p d => Cf.ofC (p.toC - r / size * starRingEnd ℂ d.toC)) (sumGrads (net k) gss) := by
  obtain ⟨n, s, e, hr, hsm⟩ := C73_auto_encoder samples hs seed h
  refine ⟨n, s, e, ?_⟩
  intro net
  have key : ∀ k, (net k).Ready (.vec samples) (.vec samples) ∧ (∀ l ∈ (net k).layers, l.Smooth) →
      ∃ gss, List.Forall₂ (fun q gs => IsNetGradient (net k) q.1 q.2 gs)
            (signalPoints samples thr size train test (k % B)) gss
          ∧ net (k + 1) = (net k).zipParams
            (fun p d => Cf.ofC (p.toC - r / size * starRingEnd ℂ d.toC)) (sumGrads (net k) gss)
          ∧ ∀ l ∈ (net (k + 1)).layers, l.Smooth := by
    rintro k ⟨h1, h2⟩
    obtain ⟨gss, n', k1, k2, k3, -, k4⟩ := C73_step h1 h2 f
      (signalPoints samples thr size train test (k % B)) (by simp [signalPoints]; omega)
      (signalPoints_fit _ _ _ _ _ _) r
    have k5 := (C71_calls (f := f) (lr := ⟨r, 0⟩) (thr := thr) (train := train) (test := test) hsize B
      hr k).2.2.1
    rw [signalTrain_eq, k2] at k5
    have k6 : n' = net (k + 1) := (Prod.mk.inj (Option.some.inj k5)).2
    rw [← k6]
    refine ⟨gss, k1, ?_, k4⟩
    rw [k3]
    simp only [signalPoints, List.length_map, List.length_range]
  have hall : ∀ k, (net k).Ready (.vec samples) (.vec samples) ∧ ∀ l ∈ (net k).layers, l.Smooth := by
    intro k
    refine ⟨(C71_calls (f := f) (lr := ⟨r, 0⟩) (thr := thr) (train := train) (test := test) hsize B
      hr k).2.1, ?_⟩
    induction k with
    | zero => exact hsm
    | succ k ih =>
      obtain ⟨_, _, _, h3⟩ := key k ⟨(C71_calls (f := f) (lr := ⟨r, 0⟩) (thr := thr) (train := train)
        (test := test) hsize B hr k).2.1, ih⟩
      exact h3
  intro k
  obtain ⟨gss, h1, h2, -⟩ := key k (hall k)
  exact ⟨gss, h1, h2⟩

/-- The program itself: 512 samples, seed 224783561, batches of 100, learning rate 0.005. -/
example : ∃ (n : Net (Cf .w32 ℝ)) (s : Nat), autoEncoder 224783561 512 = some ((3, n), s)
      ∧ let net := signalNet .meanSquare ⟨0.005, 0⟩ 512 0.025 200 100 223895746827 4346877248692 n
        ∀ k, ∃ gss, List.Forall₂ (fun q gs => IsNetGradient (net k) q.1 q.2 gs)
            (signalPoints 512 0.025 100 223895746827 4346877248692 (k % 200)) gss
          ∧ net (k + 1) = (net k).zipParams (fun p d => Cf.ofC (p.toC
              - (0.005 : ℝ) / (100 : ℕ) * starRingEnd ℂ d.toC)) (sumGrads (net k) gss) :=
  C73_regression 512 (by norm_num) 224783561 (by norm_num) _ _ _ _ _ _ _ (by norm_num)

end Renplex
