import Verif.Spec.Express
import Verif.Props.Unitary
import Verif.Props.Affine
import Mathlib.Topology.ContinuousMap.StoneWeierstrass
import Mathlib.Algebra.Module.Submodule.Union
/-!
# C106: dense networks can learn by heart and approximate
-/

namespace Renplex
variable {w : Width}

/-! ## Vectors -/

/-- The entries of a vector by number. -/
noncomputable def ext {m : Nat} (x : Fin m → ℂ) (i : Nat) : Cf w ℝ := if h : i < m then Cf.ofC (x ⟨i, h⟩) else 0

theorem vec_eq {m : Nat} (x : Fin m → ℂ) : vec (w := w) x = .scalar ((List.range m).map (ext x)) := by
  unfold vec
  congr 1
  refine List.ext_getElem (by simp) fun i h1 h2 => ?_
  have h : i < m := by simpa using h1
  simp [ext, h]

theorem vec_of {m : Nat} (x : Fin m → ℂ) {Y : Nat → Cf w ℝ} (h : ∀ i : Fin m, Y i = Cf.ofC (x i)) :
    IOType.scalar ((List.range m).map Y) = vec (w := w) x := by
  rw [vec_eq]
  congr 1
  refine range_map_congr fun i hi => ?_
  simp [ext, hi, h ⟨i, hi⟩]

theorem ext_dot {m : Nat} (a x : Fin m → ℂ) :
    (∑ i ∈ Finset.range m, (ext a i : Cf w ℝ) * ext x i).toC = ∑ i, a i * x i := by
  rw [Cf.toC_sum, Finset.sum_range]
  refine Finset.sum_congr rfl fun i _ => ?_
  simp [ext, Cf.toC_hom_mul]

/-- A unit with `RITReLU` whose imaginary bias is so low that only the real part comes through. -/
theorem relu_real {z b : Cf w ℝ} (h : z.y + b.y ≤ 0) :
    CplxOps.activate .ritReLU (z + b) = some (⟨max 0 (z.x + b.x), 0⟩ : Cf w ℝ) := by
  show some (⟨Act.relu _, Act.relu _⟩ : Cf w ℝ) = _
  rw [relu_eq, relu_eq]
  have e1 : (z + b).x = z.x + b.x := by rw [← Cf.toC_re, Cf.toC_hom_add]; rfl
  have e2 : (z + b).y = z.y + b.y := by rw [← Cf.toC_im, Cf.toC_hom_add]; rfl
  rw [e1, e2, max_eq_left h]

/-! ## Learning by heart -/

/-- A real direction in which no two of finitely many points fall together. -/
theorem separating {m N : Nat} {p : Fin N → Fin m → ℂ} (hp : Function.Injective p) :
    ∃ a : Fin m → ℂ, ∀ q r, q ≠ r → (∑ i, a i * p q i).re ≠ (∑ i, a i * p r i).re := by
  let D (t : {t : Fin N × Fin N // t.1 ≠ t.2}) : Module.Dual ℝ (Fin m → ℂ) :=
    { toFun := fun a => (∑ i, a i * (p t.1.1 i - p t.1.2 i)).re
      map_add' := fun a b => by simp [add_mul, Finset.sum_add_distrib]
      map_smul' := fun c a => by
        rw [RingHom.id_apply, smul_eq_mul, ← Complex.re_ofReal_mul, Finset.mul_sum]
        simp only [Pi.smul_apply, Complex.real_smul, mul_assoc] }
  obtain ⟨a, ha⟩ := Module.Dual.exists_forall_ne_zero_of_forall_exists D (by
    rintro ⟨⟨q, r⟩, hqr⟩
    refine ⟨fun i => starRingEnd ℂ (p q i - p r i), fun h => hqr (hp (funext fun i => ?_))⟩
    have h' : ∑ i, Complex.normSq (p q i - p r i) = 0 := by
      rw [← h]
      show _ = (∑ i, starRingEnd ℂ (p q i - p r i) * (p q i - p r i)).re
      rw [Complex.re_sum]
      refine Finset.sum_congr rfl fun i _ => ?_
      rw [← Complex.normSq_eq_conj_mul_self, Complex.ofReal_re]
    have := (Finset.sum_eq_zero_iff_of_nonneg fun i _ => Complex.normSq_nonneg _).mp h' i (Finset.mem_univ _)
    exact sub_eq_zero.mp (Complex.normSq_eq_zero.mp this))
  refine ⟨a, fun q r hqr h => ha ⟨(q, r), hqr⟩ ?_⟩
  show (∑ i, a i * (p q i - p r i)).re = 0
  simp only [mul_sub, Finset.sum_sub_distrib, Complex.sub_re, h, sub_self]

/-- Broken lines through any finite number of points. -/
theorem broken_line (S : Finset ℝ) (y : ℝ → Nat → ℂ) :
    ∃ (θ : Nat → ℝ) (V : Nat → Nat → ℂ), ∀ s ∈ S, ∀ k,
      ∑ j ∈ Finset.range S.card, V k j * ((max 0 (s - θ j) : ℝ) : ℂ) = y s k := by
  induction S using Finset.induction_on_max with
  | empty => exact ⟨fun _ => 0, fun _ _ => 0, by simp⟩
  | insert a S ha ih =>
    obtain ⟨θ, V, h⟩ := ih
    obtain ⟨t, ht, hS⟩ : ∃ t < a, ∀ s ∈ S, s ≤ t := by
      rcases S.eq_empty_or_nonempty with rfl | hne
      · exact ⟨a - 1, by linarith, by simp⟩
      · exact ⟨S.max' hne, ha _ (S.max'_mem hne), fun s hs => S.le_max' s hs⟩
    let prev k := ∑ j ∈ Finset.range S.card, V k j * ((max 0 (a - θ j) : ℝ) : ℂ)
    refine ⟨fun j => if j < S.card then θ j else t,
      fun k j => if j < S.card then V k j else (y a k - prev k) / ((a - t : ℝ) : ℂ), fun s hs k => ?_⟩
    have haS : a ∉ S := fun h => lt_irrefl _ (ha a h)
    rw [Finset.card_insert_of_notMem haS, Finset.sum_range_succ]
    have e : ∀ s, ∑ j ∈ Finset.range S.card, (if j < S.card then V k j else (y a k - prev k) / ((a - t : ℝ) : ℂ))
        * ((max 0 (s - if j < S.card then θ j else t) : ℝ) : ℂ)
        = ∑ j ∈ Finset.range S.card, V k j * ((max 0 (s - θ j) : ℝ) : ℂ) := fun s =>
      Finset.sum_congr rfl fun j hj => by rw [if_pos (Finset.mem_range.mp hj), if_pos (Finset.mem_range.mp hj)]
    rw [e]
    simp only [lt_irrefl, if_false]
    rcases Finset.mem_insert.mp hs with rfl | hs
    · have h0 : ((s - t : ℝ) : ℂ) ≠ 0 := by exact_mod_cast (by linarith : s - t ≠ 0)
      rw [max_eq_right (by linarith), div_mul_cancel₀ _ h0]
      show prev k + _ = _
      ring
    · rw [h s hs k, max_eq_left (by linarith [hS s hs])]
      simp

/-- C106. For any finite number of different inputs and any wanted outputs there is a network of two
dense layers, with as many hidden units as there are inputs, that returns exactly the wanted outputs. -/
theorem C106_memorise {m u N : Nat} (hm : 0 < m) (hN : 0 < N) (p : Fin N → Fin m → ℂ)
    (hp : Function.Injective p) (y : Fin N → Fin u → ℂ) :
    ∃ a b : Dense (Cf w ℝ), a.weights.shape = (N, m) ∧ ReluNet m u ⟨[.dense a, .dense b]⟩
      ∧ ∀ q, Net.forward ⟨[.dense a, .dense b]⟩ (vec (p q)) = some (.ok (vec (y q))) := by
  obtain ⟨a, ha⟩ := separating hp
  let s q := (∑ i, a i * p q i).re
  have hs : Function.Injective s := fun q r h => by_contra fun hne => ha q r hne h
  let S : Finset ℝ := Finset.univ.image s
  have hc : S.card = N := by rw [Finset.card_image_of_injective _ hs, Finset.card_univ, Fintype.card_fin]
  obtain ⟨θ, V, hV⟩ := broken_line S fun t k =>
    if h : (∃ q, s q = t) ∧ k < u then y h.1.choose ⟨k, h.2⟩ else 0
  let M := ∑ q, |(∑ i, a i * p q i).im|
  refine ⟨.of N m (fun _ => ext a) (fun j => ⟨-θ j, -M⟩) .ritReLU, .of u N (fun k j => Cf.ofC (V k j)) (fun _ => 0) .none,
    rfl, ⟨.cons (s₁ := .vec N) ⟨hm, rfl⟩ (.cons (s₁ := .vec u) ⟨hN, rfl⟩ (.nil _)), ?_,
      [.of N m (fun _ => ext a) (fun j => ⟨-θ j, -M⟩) .ritReLU], _, rfl, by simp [Dense.of], rfl⟩, fun q => ?_⟩
  · intro l hl
    simp only [List.mem_cons, List.not_mem_nil, or_false] at hl
    rcases hl with rfl | rfl
    · exact (Dense.of_is ..).wf
    · exact (Dense.of_is ..).wf
  · have hne : (⟨[.dense (.of N m (fun _ => ext a) (fun j => ⟨-θ j, -M⟩) .ritReLU),
      .dense (.of u N (fun k j => Cf.ofC (V k j)) (fun _ => 0) .none)]⟩ : Net (Cf w ℝ)).layers ≠ [] := by simp
    refine (C44_forward _ hne _ _).mpr ⟨_, vec (y q), .cons (y := .scalar ((List.range N).map fun j =>
      ⟨max 0 (s q - θ j), 0⟩)) ?_ (.cons (y := vec (y q)) ?_ (.nil _)), rfl, rfl⟩
    · rw [vec_eq]
      refine C38_forward_exact_partial (Dense.of_is ..) hm _ _ fun j hj => ?_
      rw [relu_real]
      · rw [← Cf.toC_re, ext_dot]
        rfl
      · rw [← Cf.toC_im, ext_dot]
        have : |(∑ i, a i * p q i).im| ≤ M :=
          Finset.single_le_sum (f := fun q => |(∑ i, a i * p q i).im|) (fun _ _ => abs_nonneg _) (Finset.mem_univ q)
        show (∑ i, a i * p q i).im + -M ≤ 0
        linarith [le_abs_self (∑ i, a i * p q i).im]
    · rw [← vec_of (y q) (Y := fun k => if h : k < u then Cf.ofC (y q ⟨k, h⟩) else 0) (by simp)]
      refine C38_forward_exact_partial (Dense.of_is ..) hN _ _ fun k hk => ?_
      show some _ = some _
      congr 1
      rw [dif_pos hk, add_zero, ← Cf.toC_inj, Cf.toC_sum, Cf.toC_ofC]
      have h := hV (s q) (Finset.mem_image_of_mem s (Finset.mem_univ q)) k
      rw [hc, dif_pos ⟨⟨q, rfl⟩, hk⟩] at h
      have e : (⟨q, rfl⟩ : ∃ r, s r = s q).choose = q := hs (⟨q, rfl⟩ : ∃ r, s r = s q).choose_spec
      rw [e] at h
      rw [← h]
      refine Finset.sum_congr rfl fun j _ => ?_
      rw [Cf.toC_hom_mul, Cf.toC_ofC]
      congr 1

/-! ## Hidden layers as lists of real functions -/

section Comp
variable {m : Nat} {K : Set (Fin m → ℂ)}

/-- A function of the values that the functions `g 0`, …, `g (r - 1)` take. -/
def Comb (r : Nat) (g : Nat → K → ℝ) (f : K → ℝ) : Prop :=
  ∃ (a : Nat → ℝ) (c : ℝ), ∀ x, f x = ∑ i ∈ Finset.range r, a i * g i x + c

/-- The values of `r` units behind `d + 1` hidden layers. -/
inductive Comp : Nat → Nat → (Nat → K → ℝ) → Prop
  | first {r : Nat} {g : Nat → K → ℝ} (hr : 0 < r) (h : ∀ j < r, ∃ (a : Fin m → ℂ) (c : ℝ),
      ∀ x : K, g j x = max 0 ((∑ i, a i * x.1 i).re + c)) : Comp 0 r g
  | next {d r r' : Nat} {g g' : Nat → K → ℝ} (t : Comp d r' g') (hr : 0 < r)
      (h : ∀ j < r, ∃ f, Comb r' g' f ∧ ∀ x, g j x = max 0 (f x)) : Comp (d + 1) r g

theorem Comp.pos {d r : Nat} {g : Nat → K → ℝ} (h : Comp d r g) : 0 < r := by cases h <;> assumption

theorem Comp.nonneg {d r : Nat} {g : Nat → K → ℝ} (h : Comp d r g) {j : Nat} (hj : j < r) (x : K) : 0 ≤ g j x := by
  cases h with
  | first _ h =>
    obtain ⟨a, c, h⟩ := h j hj
    rw [h]; exact le_max_left _ _
  | next _ _ h =>
    obtain ⟨f, -, h⟩ := h j hj
    rw [h]; exact le_max_left _ _

theorem Comb.coord {r : Nat} {g : Nat → K → ℝ} {j : Nat} (hj : j < r) : Comb r g (g j) :=
  ⟨fun i => if i = j then 1 else 0, 0, fun x => by simp [hj]⟩

theorem Comb.const (r : Nat) (g : Nat → K → ℝ) (c : ℝ) : Comb r g fun _ => c :=
  ⟨fun _ => 0, c, fun x => by simp⟩

theorem Comb.lin {r : Nat} {g : Nat → K → ℝ} {f f' : K → ℝ} (s t : ℝ) (h : Comb r g f) (h' : Comb r g f') :
    Comb r g fun x => s * f x + t * f' x := by
  obtain ⟨a, c, h⟩ := h
  obtain ⟨a', c', h'⟩ := h'
  refine ⟨fun i => s * a i + t * a' i, s * c + t * c', fun x => ?_⟩
  simp only [h, h', mul_add, Finset.mul_sum, add_mul, Finset.sum_add_distrib, mul_assoc]
  ring

/-- The one list of units behind the other. -/
def cat (r : Nat) (g g' : Nat → K → ℝ) (j : Nat) : K → ℝ := if j < r then g j else g' (j - r)

theorem cat_left {r : Nat} {g g' : Nat → K → ℝ} {j : Nat} (hj : j < r) : cat r g g' j = g j := if_pos hj

theorem cat_right (r : Nat) (g g' : Nat → K → ℝ) (j : Nat) : cat r g g' (r + j) = g' j := by simp [cat]

theorem Comb.left {r : Nat} {g : Nat → K → ℝ} {f : K → ℝ} (h : Comb r g f) (r' : Nat) (g' : Nat → K → ℝ) :
    Comb (r + r') (cat r g g') f := by
  obtain ⟨a, c, h⟩ := h
  refine ⟨fun i => if i < r then a i else 0, c, fun x => ?_⟩
  rw [Finset.sum_range_add, h]
  simp only [cat_right]
  have e : ∑ i ∈ Finset.range r, (if i < r then a i else 0) * cat r g g' i x = ∑ i ∈ Finset.range r, a i * g i x :=
    Finset.sum_congr rfl fun i hi => by rw [if_pos (Finset.mem_range.mp hi), cat_left (Finset.mem_range.mp hi)]
  rw [e]
  simp

theorem Comb.right {r' : Nat} {g' : Nat → K → ℝ} {f : K → ℝ} (h : Comb r' g' f) (r : Nat) (g : Nat → K → ℝ) :
    Comb (r + r') (cat r g g') f := by
  obtain ⟨a, c, h⟩ := h
  refine ⟨fun i => if i < r then 0 else a (i - r), c, fun x => ?_⟩
  rw [Finset.sum_range_add, h]
  simp only [cat_right]
  have e : ∑ i ∈ Finset.range r, (if i < r then 0 else a (i - r)) * cat r g g' i x = 0 :=
    Finset.sum_eq_zero fun i hi => by rw [if_pos (Finset.mem_range.mp hi), zero_mul]
  rw [e]
  simp

theorem cat_cases {r r' : Nat} {g g' : Nat → K → ℝ} {Q : (K → ℝ) → Prop} (h : ∀ j < r, Q (g j))
    (h' : ∀ j < r', Q (g' j)) : ∀ j < r + r', Q (cat r g g' j) := by
  intro j hj
  by_cases hr : j < r
  · rw [cat_left hr]; exact h j hr
  · obtain ⟨i, rfl⟩ := Nat.exists_eq_add_of_le (not_lt.mp hr)
    rw [cat_right]; exact h' i (by omega)

theorem Comp.cat {d r r' : Nat} {g g' : Nat → K → ℝ} (h : Comp d r g) (h' : Comp d r' g') :
    Comp d (r + r') (cat r g g') := by
  cases h with
  | first hr h =>
    cases h' with
    | first hr' h' => exact .first (by omega) (cat_cases
        (Q := fun g => ∃ (a : Fin m → ℂ) (c : ℝ), ∀ x : K, g x = max 0 ((∑ i, a i * x.1 i).re + c)) h h')
  | next t hr h =>
    cases h' with
    | next t' hr' h' =>
      refine .next (Comp.cat t t') (by omega) (cat_cases (Q := fun g => ∃ f, Comb _ _ f ∧ ∀ x, g x = max 0 (f x)) ?_ ?_)
      · intro j hj
        obtain ⟨f, h1, h2⟩ := h j hj
        exact ⟨f, h1.left _ _, h2⟩
      · intro j hj
        obtain ⟨f, h1, h2⟩ := h' j hj
        exact ⟨f, h1.right _ _, h2⟩

/-- One more layer that passes the values on. -/
theorem Comp.lift {d r : Nat} {g : Nat → K → ℝ} (h : Comp d r g) : Comp (d + 1) r g :=
  .next h h.pos fun j hj => ⟨g j, .coord hj, fun x => (max_eq_right (h.nonneg hj x)).symm⟩

theorem Comp.lift_le {d d' r : Nat} {g : Nat → K → ℝ} (h : Comp d r g) (hd : d ≤ d') : Comp d' r g := by
  induction hd with
  | refl => exact h
  | step _ ih => exact ih.lift

/-- One more unit. -/
theorem Comp.relu {d r : Nat} {g : Nat → K → ℝ} {f : K → ℝ} (h : Comp d r g) (hf : Comb r g f) :
    Comp (d + 1) (r + 1) (Renplex.cat r g fun _ x => max 0 (f x)) :=
  .next h (by omega) (cat_cases (Q := fun g' => ∃ f, Comb r g f ∧ ∀ x, g' x = max 0 (f x))
    (fun j hj => ⟨g j, .coord hj, fun x => (max_eq_right (h.nonneg hj x)).symm⟩) fun j _ => ⟨f, hf, fun _ => rfl⟩)

/-- The function is computed by some hidden layers and one unit without activation. -/
def Computed (f : K → ℝ) : Prop := ∃ d r g, Comp (K := K) d r g ∧ Comb r g f

theorem Computed.pair {f f' : K → ℝ} (h : Computed f) (h' : Computed f') :
    ∃ d r g, Comp (K := K) d r g ∧ Comb r g f ∧ Comb r g f' := by
  obtain ⟨d, r, g, h1, h2⟩ := h
  obtain ⟨d', r', g', h1', h2'⟩ := h'
  exact ⟨max d d', r + r', cat r g g', (h1.lift_le (le_max_left _ _)).cat (h1'.lift_le (le_max_right _ _)),
    h2.left _ _, h2'.right _ _⟩

theorem Computed.linear (a : Fin m → ℂ) (s c : ℝ) : Computed (K := K) fun x => s * (∑ i, a i * x.1 i).re + c := by
  refine ⟨0, 2, fun j x => if j = 0 then max 0 (∑ i, a i * x.1 i).re else max 0 (-(∑ i, a i * x.1 i).re),
    .first (by omega) fun j hj => ?_, fun j => if j = 0 then s else -s, c, fun x => ?_⟩
  · rcases (by omega : j = 0 ∨ j = 1) with rfl | rfl
    · exact ⟨a, 0, fun x => by simp⟩
    · exact ⟨fun i => -a i, 0, fun x => by simp [neg_mul, Finset.sum_neg_distrib]⟩
  · simp only [Finset.sum_range_succ, Finset.range_zero, Finset.sum_empty, if_true, if_neg one_ne_zero, zero_add]
    generalize (∑ i, a i * x.1 i).re = t
    rcases le_total 0 t with h | h
    · rw [max_eq_right h, max_eq_left (by linarith)]; ring
    · rw [max_eq_left h, max_eq_right (by linarith)]; ring

theorem Computed.max {f f' : K → ℝ} (h : Computed f) (h' : Computed f') : Computed fun x => max (f x) (f' x) := by
  obtain ⟨d, r, g, h1, h2, h3⟩ := h.pair h'
  refine ⟨d + 1, r + 1, _, h1.relu (h3.lin 1 (-1) h2), ?_⟩
  have := (h2.left 1 fun _ x => Max.max 0 (1 * f' x + -1 * f x)).lin 1 1
    (Comb.coord (g := cat r g fun _ x => Max.max 0 (1 * f' x + -1 * f x)) (j := r) (by omega))
  convert this using 2 with x
  have e := congrFun (cat_right r g (fun _ x => Max.max 0 (1 * f' x + -1 * f x)) 0) x
  rw [add_zero] at e
  rw [e]
  rcases le_total (f x) (f' x) with h | h
  · rw [max_eq_right h, max_eq_right (by linarith)]; ring
  · rw [max_eq_left h, max_eq_left (by linarith)]; ring

theorem Computed.neg {f : K → ℝ} (h : Computed f) : Computed fun x => -f x := by
  obtain ⟨d, r, g, h1, h2⟩ := h
  refine ⟨d, r, g, h1, ?_⟩
  have := h2.lin (-1) 0 (Comb.const r g 0)
  convert this using 2 with x
  ring

theorem Computed.min {f f' : K → ℝ} (h : Computed f) (h' : Computed f') : Computed fun x => min (f x) (f' x) := by
  have := (h.neg.max h'.neg).neg
  convert this using 2 with x
  rw [max_neg_neg, neg_neg]

theorem Computed.family {u : Nat} {f : Nat → K → ℝ} (h : ∀ k < u, Computed (f k)) :
    ∃ d r g, Comp (K := K) d r g ∧ ∀ k < u, Comb r g (f k) := by
  induction u with
  | zero => exact ⟨0, 1, fun _ _ => 0, .first (by omega) fun j _ => ⟨0, 0, fun x => by simp⟩, by simp⟩
  | succ u ih =>
    obtain ⟨d, r, g, h1, h2⟩ := ih fun k hk => h k (by omega)
    obtain ⟨d', r', g', h1', h2'⟩ := h u (by omega)
    refine ⟨Max.max d d', r + r', cat r g g', (h1.lift_le (le_max_left _ _)).cat (h1'.lift_le (le_max_right _ _)),
      fun k hk => ?_⟩
    rcases (by omega : k < u ∨ k = u) with hk | rfl
    · exact (h2 k hk).left _ _
    · exact h2'.right _ _

/-- The functions that are computed exactly lie close to every continuous function. -/
theorem Computed.dense (hK : IsCompact K) (F : C(K, ℝ)) {ε : ℝ} (hε : 0 < ε) :
    ∃ f, Computed f ∧ ∀ x : K, |f x - F x| < ε := by
  have : CompactSpace K := isCompact_iff_compactSpace.mp hK
  have hL := ContinuousMap.sublattice_closure_eq_top (X := K) {f : C(K, ℝ) | Computed (K := K) f} ⟨⟨fun _ => 0, continuous_const⟩, ?_⟩
    (fun f hf g hg => ?_) (fun f hf g hg => ?_) (fun v x y => ?_)
  · have hF : F ∈ closure {f : C(K, ℝ) | Computed (K := K) f} := by rw [hL]; trivial
    obtain ⟨f, hf, hd⟩ := Metric.mem_closure_iff.mp hF ε hε
    refine ⟨f, hf, fun x => lt_of_le_of_lt ?_ hd⟩
    rw [← Real.dist_eq, dist_comm]
    exact ContinuousMap.dist_apply_le_dist x
  · have := Computed.linear (K := K) 0 0 0
    simpa using this
  · exact Computed.min hf hg
  · exact Computed.max hf hg
  · by_cases hxy : x = y
    · subst hxy
      refine ⟨⟨fun _ => v x, continuous_const⟩, ?_, rfl, rfl⟩
      have := Computed.linear (K := K) 0 0 (v x)
      simpa using this
    · have hne : x.1 ≠ y.1 := fun h => hxy (Subtype.ext h)
      obtain ⟨i, hi⟩ := Function.ne_iff.mp hne
      obtain ⟨a, ha⟩ : ∃ a : Fin m → ℂ, (∑ i, a i * x.1 i).re ≠ (∑ i, a i * y.1 i).re := by
        by_contra! h
        refine hi (Complex.ext ?_ ?_)
        · simpa [Pi.single_apply, ite_mul, -Complex.re_sum] using h (Pi.single i 1)
        · simpa [Pi.single_apply, ite_mul, -Complex.re_sum] using h (Pi.single i (-Complex.I))
      let D := (∑ i, a i * y.1 i).re - (∑ i, a i * x.1 i).re
      have hD : D ≠ 0 := sub_ne_zero.mpr (Ne.symm ha)
      refine ⟨⟨fun z => (v y - v x) / D * (∑ i, a i * z.1 i).re + (v x - (v y - v x) / D * (∑ i, a i * x.1 i).re), ?_⟩,
        Computed.linear _ _ _, ?_, ?_⟩
      · refine (continuous_const.mul (Complex.continuous_re.comp (continuous_finsetSum _ fun i _ =>
          continuous_const.mul ((continuous_apply i).comp continuous_subtype_val)))).add continuous_const
      · simp only [ContinuousMap.coe_mk]
        ring
      · simp only [ContinuousMap.coe_mk]
        have : (v y - v x) / D * (∑ i, a i * y.1 i).re - (v y - v x) / D * (∑ i, a i * x.1 i).re = v y - v x := by
          rw [← mul_sub]; exact div_mul_cancel₀ _ hD
        linarith

/-! ## From functions to layers -/

theorem FitsChain.append {a b : List (Layer (Cf w ℝ))} {s t v : Size} (h : FitsChain a s t) (h' : FitsChain b t v) :
    FitsChain (a ++ b) s v := by
  induction h with
  | nil => exact h'
  | cons h _ ih => exact .cons h (ih h')

/-- The sum of real multiples of real numbers. -/
theorem real_dot (r : Nat) (a : Nat → ℂ) (g : Nat → ℝ) :
    (∑ i ∈ Finset.range r, Cf.ofC (a i) * (⟨g i, 0⟩ : Cf w ℝ)).toC = ∑ i ∈ Finset.range r, a i * (g i : ℂ) := by
  rw [Cf.toC_sum]
  refine Finset.sum_congr rfl fun i _ => ?_
  rw [Cf.toC_hom_mul, Cf.toC_ofC]
  congr 1

theorem Comp.layers (hm : 0 < m) (hK : IsCompact K) {d r : Nat} {g : Nat → K → ℝ} (h : Comp d r g) :
    ∃ hidden : List (Dense (Cf w ℝ)), FitsChain (hidden.map .dense) (.vec m) (.vec r)
      ∧ (∀ l ∈ hidden, (Layer.dense l).WF ∧ l.func = .ritReLU)
      ∧ ∀ x : K, ∃ ys, Chain (hidden.map .dense) (vec x.1) ys
        ∧ (vec x.1 :: ys).getLast? = some (.scalar ((List.range r).map fun j => ⟨g j x, 0⟩)) := by
  induction h with
  | @first r g hr h =>
    have h' : ∀ j, ∃ (a : Fin m → ℂ) (c : ℝ), j < r → ∀ x : K, g j x = max 0 ((∑ i, a i * x.1 i).re + c) := by
      intro j
      by_cases hj : j < r
      · obtain ⟨a, c, h⟩ := h j hj
        exact ⟨a, c, fun _ => h⟩
      · exact ⟨0, 0, fun h => absurd h hj⟩
    choose a c h using h'
    have hM : ∀ j, ∃ M : ℝ, ∀ x : K, (∑ i, a j i * x.1 i).im ≤ M := by
      intro j
      have hc : Continuous fun x : Fin m → ℂ => (∑ i, a j i * x i).im :=
        Complex.continuous_im.comp (continuous_finsetSum _ fun i _ => continuous_const.mul (continuous_apply i))
      obtain ⟨M, hM⟩ := (hK.image hc).bddAbove
      exact ⟨M, fun x => hM ⟨x.1, x.2, rfl⟩⟩
    choose M hM using hM
    refine ⟨[.of r m (fun j => ext (a j)) (fun j => ⟨c j, -M j⟩) .ritReLU], .cons (s₁ := .vec r) ⟨hm, rfl⟩ (.nil _), ?_,
      fun x => ⟨_, .cons (y := .scalar ((List.range r).map fun j => ⟨g j x, 0⟩)) ?_ (.nil _), rfl⟩⟩
    · intro l hl
      rw [List.mem_singleton] at hl
      subst hl
      exact ⟨(Dense.of_is ..).wf, rfl⟩
    · rw [vec_eq]
      refine C38_forward_exact_partial (Dense.of_is ..) hm _ _ fun j hj => ?_
      rw [relu_real]
      · rw [← Cf.toC_re, ext_dot, h j hj]
      · rw [← Cf.toC_im, ext_dot]
        show _ + -M j ≤ 0
        linarith [hM j x]
  | @next d r r' g g' t hr h ih =>
    obtain ⟨hidden, k1, k2, k3⟩ := ih
    have h' : ∀ j, ∃ (a : Nat → ℝ) (c : ℝ), j < r → ∀ x : K, g j x = max 0 (∑ i ∈ Finset.range r', a i * g' i x + c) := by
      intro j
      by_cases hj : j < r
      · obtain ⟨f, ⟨a, c, e⟩, h⟩ := h j hj
        exact ⟨a, c, fun _ x => by rw [h, e]⟩
      · exact ⟨fun _ => 0, 0, fun h => absurd h hj⟩
    choose a c h using h'
    refine ⟨hidden ++ [.of r r' (fun j i => Cf.ofC (a j i : ℂ)) (fun j => ⟨c j, 0⟩) .ritReLU], ?_, ?_, fun x => ?_⟩
    · rw [List.map_append]
      exact k1.append (.cons (s₁ := .vec r) ⟨t.pos, rfl⟩ (.nil _))
    · intro l hl
      rcases List.mem_append.mp hl with hl | hl
      · exact k2 l hl
      · rw [List.mem_singleton] at hl
        subst hl
        exact ⟨(Dense.of_is ..).wf, rfl⟩
    · obtain ⟨ys, hc, hy⟩ := k3 x
      refine ⟨ys ++ [.scalar ((List.range r).map fun j => ⟨g j x, 0⟩)], ?_, ?_⟩
      · rw [List.map_append]
        refine hc.append hy (.cons ?_ (.nil _))
        refine C38_forward_exact_partial (Dense.of_is ..) t.pos _ _ fun j hj => ?_
        have e : ∑ i ∈ Finset.range r', ((a j i : ℝ) : ℂ) * (g' i x : ℂ) = ((∑ i ∈ Finset.range r', a j i * g' i x : ℝ) : ℂ) := by
          push_cast; rfl
        rw [relu_real]
        · rw [← Cf.toC_re, real_dot, h j hj, e, Complex.ofReal_re]
        · rw [← Cf.toC_im, real_dot, e, Complex.ofReal_im]
          simp
      · rw [← List.cons_append, List.getLast?_append]
        rfl

/-- C106. On a compact set every continuous function of complex vectors is approximated, as closely as
one likes, by a network of dense layers with `RITReLU` and a last layer without activation function. -/
theorem C106_approximate {u : Nat} (hm : 0 < m) (hK : IsCompact K) {F : (Fin m → ℂ) → Fin u → ℂ}
    (hF : ContinuousOn F K) {ε : ℝ} (hε : 0 < ε) :
    ∃ n : Net (Cf w ℝ), ReluNet m u n ∧ ∀ x ∈ K, ∃ y : Fin u → ℂ,
      n.forward (vec x) = some (.ok (vec y)) ∧ ∀ k, ‖y k - F x k‖ < ε := by
  have hc : ∀ k : Fin u, Continuous fun x : K => F x.1 k := fun k =>
    (continuous_apply k).comp (continuousOn_iff_continuous_domRestrict.mp hF)
  have hre : ∀ k, ∃ f : K → ℝ, Computed f ∧ ∀ (hk : k < u) (x : K), |f x - (F x.1 ⟨k, hk⟩).re| < ε / 2 := by
    intro k
    by_cases hk : k < u
    · obtain ⟨f, h1, h2⟩ := Computed.dense hK ⟨fun x : K => (F x.1 ⟨k, hk⟩).re, Complex.continuous_re.comp (hc _)⟩ (half_pos hε)
      exact ⟨f, h1, fun _ => h2⟩
    · exact ⟨_, Computed.linear 0 0 0, fun h => absurd h hk⟩
  have him : ∀ k, ∃ f : K → ℝ, Computed f ∧ ∀ (hk : k < u) (x : K), |f x - (F x.1 ⟨k, hk⟩).im| < ε / 2 := by
    intro k
    by_cases hk : k < u
    · obtain ⟨f, h1, h2⟩ := Computed.dense hK ⟨fun x : K => (F x.1 ⟨k, hk⟩).im, Complex.continuous_im.comp (hc _)⟩ (half_pos hε)
      exact ⟨f, h1, fun _ => h2⟩
    · exact ⟨_, Computed.linear 0 0 0, fun h => absurd h hk⟩
  choose R hR hR' using hre
  choose I hI hI' using him
  obtain ⟨d, r, g, hg, hcomb⟩ := Computed.family (u := u + u) (f := cat u R I)
    (cat_cases (Q := Computed) (fun k _ => hR k) fun k _ => hI k)
  have h1 : ∀ k, ∃ (a : Nat → ℝ) (c : ℝ), k < u → ∀ x, R k x = ∑ i ∈ Finset.range r, a i * g i x + c := by
    intro k
    by_cases hk : k < u
    · obtain ⟨a, c, h⟩ := hcomb k (by omega)
      rw [cat_left hk] at h
      exact ⟨a, c, fun _ => h⟩
    · exact ⟨fun _ => 0, 0, fun h => absurd h hk⟩
  have h2 : ∀ k, ∃ (a : Nat → ℝ) (c : ℝ), k < u → ∀ x, I k x = ∑ i ∈ Finset.range r, a i * g i x + c := by
    intro k
    by_cases hk : k < u
    · obtain ⟨a, c, h⟩ := hcomb (u + k) (by omega)
      rw [cat_right] at h
      exact ⟨a, c, fun _ => h⟩
    · exact ⟨fun _ => 0, 0, fun h => absurd h hk⟩
  choose A C hAC using h1
  choose B D hBD using h2
  obtain ⟨hidden, k1, k2, k3⟩ := hg.layers (w := w) hm hK
  let out : Dense (Cf w ℝ) := .of u r (fun k i => Cf.ofC ⟨A k i, B k i⟩) (fun k => ⟨C k, D k⟩) .none
  refine ⟨⟨hidden.map .dense ++ [.dense out]⟩, ⟨k1.append (.cons (l := .dense out) (s₁ := .vec u) ⟨hg.pos, rfl⟩ (.nil _)), ?_,
    hidden, out, rfl, fun d hd => (k2 d hd).2, rfl⟩, fun x hx => ⟨fun k => ⟨R k ⟨x, hx⟩, I k ⟨x, hx⟩⟩, ?_, fun k => ?_⟩⟩
  · intro l hl
    rcases List.mem_append.mp hl with hl | hl
    · obtain ⟨d, hd, rfl⟩ := List.mem_map.mp hl
      exact (k2 d hd).1
    · rw [List.mem_singleton] at hl
      subst hl
      exact (Dense.of_is ..).wf
  · obtain ⟨ys, c1, c2⟩ := k3 ⟨x, hx⟩
    refine (C44_forward _ (by simp) _ _).mpr ⟨ys ++ [_], vec fun k => ⟨R k ⟨x, hx⟩, I k ⟨x, hx⟩⟩,
      c1.append c2 (.cons (y := vec fun k : Fin u => ⟨R k ⟨x, hx⟩, I k ⟨x, hx⟩⟩) ?_ (.nil _)), by simp, rfl⟩
    rw [← vec_of (fun k : Fin u => (⟨R k ⟨x, hx⟩, I k ⟨x, hx⟩⟩ : ℂ)) (Y := fun k => ⟨R k ⟨x, hx⟩, I k ⟨x, hx⟩⟩) (fun _ => rfl)]
    refine C38_forward_exact_partial (Dense.of_is ..) hg.pos _ _ fun k hk => ?_
    show some _ = some _
    congr 1
    rw [← Cf.toC_inj, Cf.toC_hom_add, real_dot]
    refine Complex.ext ?_ ?_
    · show (_ + _ : ℂ).re = R k ⟨x, hx⟩
      rw [hAC k hk]
      simp [Complex.re_sum]
    · show (_ + _ : ℂ).im = I k ⟨x, hx⟩
      rw [hBD k hk]
      simp [Complex.im_sum]
  · have e1 := hR' k k.2 ⟨x, hx⟩
    have e2 := hI' k k.2 ⟨x, hx⟩
    refine lt_of_le_of_lt (Complex.norm_le_abs_re_add_abs_im _) ?_
    rw [Complex.sub_re, Complex.sub_im]
    linarith

end Comp

/-! ## Data sets that can be learned without error -/

theorem ReluNet.total {m u : Nat} {n : Net (Cf w ℝ)} (h : ReluNet m u n) : ∀ l ∈ n.layers, l.Total := by
  obtain ⟨-, -, hidden, out, hl, h1, h2⟩ := h
  intro l hl'
  rw [hl] at hl'
  rcases List.mem_append.mp hl' with h | h
  · obtain ⟨d, hd, rfl⟩ := List.mem_map.mp h
    intro z
    rw [h1 d hd]
    exact ⟨_, rfl⟩
  · rw [List.mem_singleton] at h
    subst h
    intro z
    rw [h2]
    exact ⟨_, rfl⟩

theorem vec_of_size {m : Nat} {x : IOType (Cf w ℝ)} (h : x.HasSize (.vec m)) : ∃ v : Fin m → ℂ, x = vec v := by
  cases x with
  | matrix ms => exact h.elim
  | scalar v =>
    obtain rfl : v.length = m := h
    exact ⟨fun i => (v.get i).toC, by simp [vec]⟩

/-- C106. A data set of vectors can be learned without any error exactly if it does not want two
different outputs for the same input. -/
theorem C106_fit {m u : Nat} (hm : 0 < m) (hu : 2 ≤ u) {data : Dataset (Cf w ℝ)} (hne : data.points ≠ [])
    (hd : data.HasSize (.vec m) (.vec u)) :
    (∃ n : Net (Cf w ℝ), ReluNet m u n ∧ n.loss data .meanSquare = some 0)
      ↔ ∀ p ∈ data.points, ∀ q ∈ data.points, p.1 = q.1 → p.2 = q.2 := by
  have loss : ∀ t y : IOType (Cf w ℝ), t.HasSize (.vec u) → y.HasSize (.vec u) →
      ∃ L : ℝ, CplxOps.loss .meanSquare t y = .ok L ∧ 0 ≤ L ∧ (L = 0 ↔ t = y) := by
    intro t y ht hy
    cases t with
    | matrix ms => exact ht.elim
    | scalar t =>
      cases y with
      | matrix ms => exact hy.elim
      | scalar y =>
        have ht : t.length = u := ht
        have hy : y.length = u := hy
        obtain ⟨L, h1, -, h2, h3⟩ := C33_partial t y (by omega) (by omega)
        exact ⟨L, h1, h2, h3.trans ⟨fun h => by rw [h], fun h => by cases h; rfl⟩⟩
  constructor
  · rintro ⟨n, hn, h0⟩
    have hl : n.layers ≠ [] := by
      obtain ⟨-, -, hidden, out, hl, -, -⟩ := hn
      rw [hl]; simp
    have key : ∀ p, ∃ L : ℝ, p ∈ data.points → 0 ≤ L ∧ ∃ y, n.forward p.1 = some (.ok y)
        ∧ CplxOps.loss .meanSquare p.2 y = .ok L ∧ (L = 0 → p.2 = y) := by
      intro p
      by_cases hp : p ∈ data.points
      · obtain ⟨y, -, h1, h2, -, -⟩ := C46_sized_partial n hl hn.2.1 hn.total hn.1 p.1 (hd p hp).1
        obtain ⟨L, h3, h4, h5⟩ := loss p.2 y (hd p hp).2 h2
        exact ⟨L, fun _ => ⟨h4, y, h1, h3, h5.mp⟩⟩
      · exact ⟨0, fun h => absurd h hp⟩
    choose L hL using key
    have hmean := C57_mean n data .meanSquare hne L fun p hp => by
      obtain ⟨-, y, h1, h2, -⟩ := hL p hp
      exact ⟨y, h1, h2⟩
    rw [h0] at hmean
    have hsum : (data.points.map L).sum = 0 := by
      have h1 := Option.some.inj hmean
      have h2 : (data.points.length : ℝ) ≠ 0 := by exact_mod_cast (List.length_pos_iff.mpr hne).ne'
      rcases div_eq_zero_iff.mp h1.symm with h | h
      · exact h
      · exact absurd h h2
    have zero : ∀ p ∈ data.points, n.forward p.1 = some (.ok p.2) := by
      intro p hp
      obtain ⟨h1, y, h2, -, h3⟩ := hL p hp
      have h4 : L p ≤ (data.points.map L).sum := List.single_le_sum (by
        intro v hv
        obtain ⟨q, hq, rfl⟩ := List.mem_map.mp hv
        exact (hL q hq).1) _ (List.mem_map_of_mem hp)
      rw [h2, h3 (by linarith)]
    intro p hp q hq h
    have h1 := zero p hp
    rw [h, zero q hq] at h1
    exact (Except.ok.inj (Option.some.inj h1)).symm
  · classical
    intro hcons
    let xs := (data.points.map Prod.fst).dedup
    have hxs : ∀ i : Fin xs.length, ∃ p ∈ data.points, p.1 = xs.get i := fun i => by
      have := List.mem_dedup.mp (List.get_mem xs i)
      simpa using this
    choose pt hpt hpt' using hxs
    choose X hX using fun i => vec_of_size (hd _ (hpt i)).1
    choose Y hY using fun i => vec_of_size (hd _ (hpt i)).2
    have hpos : 0 < xs.length := by
      obtain ⟨p, hp⟩ := List.exists_mem_of_ne_nil _ hne
      exact List.length_pos_of_mem (List.mem_dedup.mpr (List.mem_map_of_mem (f := Prod.fst) hp))
    obtain ⟨a, b, -, hn, hf⟩ := C106_memorise (w := w) hm hpos X (by
      intro i j hij
      have : xs.get i = xs.get j := by rw [← hpt', ← hpt', hX, hX, hij]
      exact (List.nodup_dedup _).injective_get this) Y
    refine ⟨_, hn, ?_⟩
    have := C57_mean ⟨[.dense a, .dense b]⟩ data .meanSquare hne (fun _ => 0) fun p hp => by
      obtain ⟨i, hi⟩ := List.get_of_mem (List.mem_dedup.mpr (List.mem_map_of_mem (f := Prod.fst) hp))
      have e1 : (pt i).1 = p.1 := (hpt' i).trans hi
      have e2 := hcons _ (hpt i) p hp e1
      refine ⟨p.2, ?_, ?_⟩
      · rw [← e1, ← e2, hX, hY, hf]
      · obtain ⟨L, h1, -, h2⟩ := loss p.2 p.2 (hd p hp).2 (hd p hp).2
        rw [h1, h2.mpr rfl]
    rw [this]
    simp

/-- The exclusive or, which no network without activation functions computes (C103), is learned by four
hidden units. -/
example : ∃ a b : Dense (Cf w ℝ), a.weights.shape = (4, 2) ∧ ∀ x y : Bool,
    Net.forward ⟨[.dense a, .dense b]⟩ (vec ![if x then 1 else 0, if y then 1 else 0])
      = some (.ok (vec ![if x ^^ y then 1 else 0])) := by
  obtain ⟨a, b, h1, -, h2⟩ := C106_memorise (w := w) (m := 2) (u := 1) (N := 4) (by omega) (by omega)
    ![![0, 0], ![0, 1], ![1, 0], ![1, 1]] (by
      intro i j h
      fin_cases i <;> fin_cases j <;> simp_all)
    ![![0], ![1], ![1], ![0]]
  refine ⟨a, b, h1, fun x y => ?_⟩
  cases x <;> cases y
  · simpa using h2 0
  · simpa using h2 1
  · simpa using h2 2
  · simpa using h2 3

/-- Conjugation, which is not complex differentiable anywhere, on the unit disc. -/
example {ε : ℝ} (hε : 0 < ε) : ∃ n : Net (Cf w ℝ), ReluNet 1 1 n ∧ ∀ z : ℂ, ‖z‖ ≤ 1 → ∃ y : Fin 1 → ℂ,
    n.forward (vec ![z]) = some (.ok (vec y)) ∧ ‖y 0 - starRingEnd ℂ z‖ < ε := by
  obtain ⟨n, h1, h2⟩ := C106_approximate (w := w) (m := 1) (u := 1) (K := Metric.closedBall 0 1) (by omega)
    (isCompact_closedBall _ _) (F := fun x _ => starRingEnd ℂ (x 0))
    (Continuous.continuousOn (continuous_pi fun _ => Complex.continuous_conj.comp (continuous_apply 0))) hε
  refine ⟨n, h1, fun z hz => ?_⟩
  obtain ⟨y, h3, h4⟩ := h2 ![z] (by
    rw [mem_closedBall_zero_iff, pi_norm_le_iff_of_nonneg zero_le_one]
    intro i
    fin_cases i
    exact hz)
  exact ⟨y, h3, h4 0⟩

/-- Two points with different inputs; and the same input twice with different targets. -/
example : (∃ n : Net (Cf w ℝ), ReluNet 1 2 n ∧ n.loss ⟨[.scalar [0], .scalar [1]], [.scalar [0, 1], .scalar [1, 0]]⟩
      .meanSquare = some 0)
    ∧ ¬ ∃ n : Net (Cf w ℝ), ReluNet 1 2 n ∧ n.loss ⟨[.scalar [0], .scalar [0]], [.scalar [0, 1], .scalar [1, 0]]⟩
      .meanSquare = some 0 := by
  constructor
  · rw [C106_fit (by omega) (by omega) (by simp [Dataset.points]) (by
      intro p hp; simp [Dataset.points] at hp; rcases hp with rfl | rfl <;> exact ⟨rfl, rfl⟩)]
    intro p hp q hq
    simp [Dataset.points] at hp hq
    rcases hp with rfl | rfl <;> rcases hq with rfl | rfl <;> simp
  · rw [C106_fit (by omega) (by omega) (by simp [Dataset.points]) (by
      intro p hp; simp [Dataset.points] at hp; rcases hp with rfl | rfl <;> exact ⟨rfl, rfl⟩)]
    intro h
    have := h (.scalar [0], .scalar [0, 1]) (by simp [Dataset.points]) (.scalar [0], .scalar [1, 0])
      (by simp [Dataset.points]) rfl
    simp at this

end Renplex
