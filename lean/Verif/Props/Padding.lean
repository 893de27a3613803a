import Verif.Spec.Padding
import Verif.Props.Rescale
import Verif.Props.Span
import Verif.Props.Unitary
import Verif.Props.Symmetry
/-!
# C131: hidden units of which all parameters are zero
-/

namespace Renplex
variable {w : Width}

/-- Sums that differ in terms that are zero. -/
theorem sum_pad {u₀ u u' : Nat} (h : u₀ ≤ u) (h' : u₀ ≤ u') (F : Nat → Cf w ℝ) (hF : ∀ j, u₀ ≤ j → F j = 0) :
    ∑ j ∈ Finset.range u', F j = ∑ j ∈ Finset.range u, F j := by
  have key : ∀ {k}, u₀ ≤ k → ∑ j ∈ Finset.range u₀, F j = ∑ j ∈ Finset.range k, F j := fun {k} hk =>
    Finset.sum_subset (Finset.range_subset_range.mpr hk) fun j _ hj => hF j (by simpa using hj)
  rw [← key h, ← key h']

/-- A unit without weights and bias. -/
theorem silent_sum {u₀ m : Nat} {W : Nat → Nat → Cf w ℝ} {c : Nat → Cf w ℝ} (hc : ∀ j, u₀ ≤ j → c j = 0)
    (hW : ∀ j, u₀ ≤ j → ∀ i, W j i = 0) (X : Nat → Cf w ℝ) {j : Nat} (hj : u₀ ≤ j) :
    (∑ i ∈ Finset.range m, W j i * X i) + c j = 0 := by
  rw [hc j hj, add_zero]
  exact Finset.sum_eq_zero fun i _ => by rw [hW j hj, zero_mul]

section
variable {u₀ u u' m v : Nat} {a a' b b' : Dense (Cf w ℝ)} {W V : Nat → Nat → Cf w ℝ} {c d : Nat → Cf w ℝ} {f g : ActFunc}

/-- The two layers compute the same. -/
theorem pad_forward (hu : 0 < u) (hu' : 0 < u') (h0 : u₀ ≤ u) (h0' : u₀ ≤ u') (hm : 0 < m) (hf : f.Silent w)
    (ha : a.Is u m W c f) (ha' : a'.Is u' m W c f) (hb : b.Is v u V d g) (hb' : b'.Is v u' V d g)
    (hc : ∀ j, u₀ ≤ j → c j = 0) (hW : ∀ j, u₀ ≤ j → ∀ i, W j i = 0) (hV : ∀ j, u₀ ≤ j → ∀ i, V i j = 0)
    {x h y : IOType (Cf w ℝ)} (h1 : a.forward x = some (.ok h)) (h2 : b.forward h = some (.ok y)) :
    ∃ X H : Nat → Cf w ℝ, x = .scalar ((List.range m).map X) ∧ h = .scalar ((List.range u).map H)
      ∧ (∀ j, u₀ ≤ j → H j = 0)
      ∧ a'.forward x = some (.ok (.scalar ((List.range u').map H)))
      ∧ b'.forward (.scalar ((List.range u').map H)) = some (.ok y) := by
  obtain ⟨X, H, rfl, rfl, e1⟩ := Dense.forward_inv ha hm h1
  have hH : (List.range u).map H = (List.range u).map fun j => if j < u₀ then H j else 0 := by
    refine range_map_congr fun j hj => ?_
    by_cases hj0 : j < u₀
    · rw [if_pos hj0]
    · rw [if_neg hj0]
      have := e1 j hj
      rw [silent_sum hc hW X (by omega), hf.1] at this
      exact (Option.some.inj this).symm
  rw [hH] at h2
  obtain ⟨H', Y, e2, rfl, e3⟩ := Dense.forward_inv hb hu h2
  have hz : ∀ j, u₀ ≤ j → (if j < u₀ then H j else 0) = (0 : Cf w ℝ) := fun j hj => if_neg (by omega)
  refine ⟨X, fun j => if j < u₀ then H j else 0, rfl, by rw [hH], hz, ?_, ?_⟩
  · refine C38_forward_exact_partial ha' hm X _ fun j hj => ?_
    by_cases hj0 : j < u₀
    · rw [if_pos hj0]
      exact e1 j (by omega)
    · rw [if_neg hj0, silent_sum hc hW X (by omega)]
      exact hf.1
  · refine C38_forward_exact_partial hb' hu' _ Y fun j hj => ?_
    rw [← e3 j hj, sum_pad h0 h0' _ fun i hi => by rw [hV i hi, zero_mul]]
    congr 2
    refine Finset.sum_congr rfl fun i hi => ?_
    rw [IOType.scalar.injEq] at e2
    have := congrArg (fun q => q[i]?) e2
    have h3 : (if i < u₀ then H i else 0) = H' i := by simpa [Finset.mem_range.mp hi] using this
    rw [h3]

/-- Derivatives of the two layers, without or with the additional units. -/
def VecPad (u₀ k u u' m v : Nat) (gs gs' : List (LayerVec (Cf w ℝ))) : Prop :=
  ∃ (G1 G2 : List (LayerVec (Cf w ℝ))) (A : Nat → Nat → Cf w ℝ) (s : Nat → Cf w ℝ) (B : Nat → Nat → Cf w ℝ)
    (t : List (Cf w ℝ)), G1.length = k
    ∧ gs = G1 ++ (table u m A, (List.range u).map s) :: (table v u B, t) :: G2
    ∧ gs' = G1 ++ (table u' m A, (List.range u').map s) :: (table v u' B, t) :: G2
    ∧ (∀ j, u₀ ≤ j → s j = 0) ∧ (∀ j, u₀ ≤ j → ∀ i, A j i = 0) ∧ ∀ j, u₀ ≤ j → ∀ i, B i j = 0

/-- What comes back through the two layers. -/
theorem pad_back (hu : 0 < u) (hu' : 0 < u') (h0 : u₀ ≤ u) (h0' : u₀ ≤ u') (hm : 0 < m) (hf : f.Silent w)
    (ha : a.Is u m W c f) (ha' : a'.Is u' m W c f) (hb : b.Is v u V d g) (hb' : b'.Is v u' V d g)
    (hc : ∀ j, u₀ ≤ j → c j = 0) (hW : ∀ j, u₀ ≤ j → ∀ i, W j i = 0) (hV : ∀ j, u₀ ≤ j → ∀ i, V i j = 0)
    (X H : Nat → Cf w ℝ) (hH : ∀ j, u₀ ≤ j → H j = 0)
    (A : List (IOType (Cf w ℝ) × Layer (Cf w ℝ))) (D DC : List (Cf w ℝ)) (gs : List (LayerVec (Cf w ℝ)))
    (h : backGrads ((.scalar ((List.range u).map H), .dense b)
      :: (.scalar ((List.range m).map X), .dense a) :: A) D DC = some gs) :
    ∃ gs', backGrads ((.scalar ((List.range u').map H), .dense b')
        :: (.scalar ((List.range m).map X), .dense a') :: A) D DC = some gs'
      ∧ ∃ g2 F s B t, gs = (table v u B, t) :: (table u m F, (List.range u).map s) :: g2
        ∧ gs' = (table v u' B, t) :: (table u' m F, (List.range u').map s) :: g2
        ∧ (∀ j, u₀ ≤ j → s j = 0) ∧ (∀ j, u₀ ≤ j → ∀ i, F j i = 0) ∧ (∀ j, u₀ ≤ j → ∀ i, B i j = 0)
        ∧ g2.length = A.length := by
  have hp : ∀ l : Dense (Cf w ℝ), (Layer.dense l).propagates = true := fun _ => rfl
  simp only [backGrads, hp, if_true] at h ⊢
  obtain ⟨r, h1, h⟩ := Option.bind_eq_some_iff.mp h
  obtain ⟨gs1, h2, rfl⟩ := Option.map_eq_some_iff.mp h
  obtain ⟨q, h3, h2⟩ := Option.bind_eq_some_iff.mp h2
  obtain ⟨g2, h4, rfl⟩ := Option.map_eq_some_iff.mp h2
  obtain ⟨γ, γc, δ, δc, rfl, rfl, d1, d2, rfl⟩ := Dense.derivatives_data hb hu h1
  obtain ⟨η, ηc, ε, εc, e1, e2, d3, d4, rfl⟩ := Dense.derivatives_data ha hm h3
  obtain ⟨-, ⟨e0, he0⟩, ec0, hec0⟩ := hf
  have hs : ∀ k, ∑ i ∈ Finset.range u', V k i * H i = ∑ i ∈ Finset.range u, V k i * H i := fun k =>
    sum_pad h0 h0' _ fun i hi => by rw [hV i hi, zero_mul]
  let N : Nat → Cf w ℝ := fun i => ∑ j ∈ Finset.range v, V j i * (δ j * γ j + CplxOps.conj (δc j) * γc j)
  have hN : ∀ i, u₀ ≤ i → N i = 0 := fun i hi => Finset.sum_eq_zero fun j _ => by rw [hV i hi, zero_mul]
  have hη : ∀ i, i < u → η i = N i := by
    intro i hi
    have := congrArg (fun q => q[i]?) e1
    simpa [hi] using this.symm
  have hηc : ∀ i, i < u → ηc i = CplxOps.conj (N i) := by
    intro i hi
    have := congrArg (fun q => q[i]?) e2
    simpa [hi] using this.symm
  let ε' : Nat → Cf w ℝ := fun j => if j < u₀ then ε j else e0
  let εc' : Nat → Cf w ℝ := fun j => if j < u₀ then εc j else ec0
  have f1 := Dense.computeDerivatives_is hb' hu' H γ γc δ δc
    (fun j hj => by rw [hs]; exact d1 j hj) (fun j hj => by rw [hs]; exact d2 j hj)
  have f2 := Dense.computeDerivatives_is ha' hm X N (fun j => CplxOps.conj (N j)) ε' εc'
    (fun j hj => by
      by_cases hj0 : j < u₀
      · show _ = some (if _ then _ else _)
        rw [if_pos hj0]; exact d3 j (by omega)
      · show _ = some (if _ then _ else _)
        rw [if_neg hj0, silent_sum hc hW X (by omega)]; exact he0)
    (fun j hj => by
      by_cases hj0 : j < u₀
      · show _ = some (if _ then _ else _)
        rw [if_pos hj0]; exact d4 j (by omega)
      · show _ = some (if _ then _ else _)
        rw [if_neg hj0, silent_sum hc hW X (by omega)]; exact hec0)
  let S : Nat → Cf w ℝ := fun j => ε' j * N j + CplxOps.conj (εc' j) * CplxOps.conj (N j)
  have hS : ∀ j, u₀ ≤ j → S j = 0 := by
    intro j hj
    show ε' j * N j + CplxOps.conj (εc' j) * CplxOps.conj (N j) = 0
    rw [hN j hj, conj_zero', mul_zero, mul_zero, add_zero]
  have hS' : ∀ j, j < u → ε j * η j + CplxOps.conj (εc j) * ηc j = S j := by
    intro j hj
    by_cases hj0 : j < u₀
    · show _ = (if _ then _ else _) * _ + CplxOps.conj (if _ then _ else _) * _
      rw [if_pos hj0, if_pos hj0, hη j hj, hηc j hj]
    · rw [hη j hj, hηc j hj, hS j (by omega), hN j (by omega), conj_zero', mul_zero, mul_zero, add_zero]
  refine ⟨_, ?_, g2, fun j i => X i * S j, S, fun j i => H i * (δ j * γ j + CplxOps.conj (δc j) * γc j),
    (List.range v).map fun j => δ j * γ j + CplxOps.conj (δc j) * γc j, ?_, rfl, hS,
    fun j hj i => by simp only [hS j hj, mul_zero], fun j hj i => by simp only [hH j hj, zero_mul], backGrads_length h4⟩
  · rw [show (Layer.dense b').computeDerivatives = b'.computeDerivatives from rfl, f1]
    simp only [Option.bind_eq_bind, Option.bind_some, unwrap]
    have p2 : ((List.range u').map N).map CplxOps.conj = (List.range u').map fun j => CplxOps.conj (N j) := by
      rw [List.map_map]; rfl
    rw [show (List.range u').map (fun i => ∑ j ∈ Finset.range v, V j i * (δ j * γ j + CplxOps.conj (δc j) * γc j))
        = (List.range u').map N from rfl, p2,
      show (Layer.dense a').computeDerivatives = a'.computeDerivatives from rfl, f2]
    simp only [Option.bind_some, unwrap]
    have p3 : ∀ i, ∑ j ∈ Finset.range u', W j i * (ε' j * N j + CplxOps.conj (εc' j) * CplxOps.conj (N j))
        = ∑ j ∈ Finset.range u, W j i * (ε j * η j + CplxOps.conj (εc j) * ηc j) := by
      intro i
      rw [show ∑ j ∈ Finset.range u', W j i * (ε' j * N j + CplxOps.conj (εc' j) * CplxOps.conj (N j))
        = ∑ j ∈ Finset.range u', W j i * S j from rfl, sum_pad h0 h0' _ fun j hj => by rw [hW j hj, zero_mul]]
      exact Finset.sum_congr rfl fun j hj => by rw [hS' j (Finset.mem_range.mp hj)]
    simp only [p3]
    rw [h4]
    rfl
  · show _ :: _ :: _ = _
    congr 3
    · exact table_congr fun j hj i _ => by rw [hS' j hj]
    · exact range_map_congr fun j hj => hS' j hj

theorem pad_sample {n n' : Net (Cf w ℝ)} {pre post : List (Layer (Cf w ℝ))}
    (hu : 0 < u) (hu' : 0 < u') (h0 : u₀ ≤ u) (h0' : u₀ ≤ u') (hm : 0 < m) (hf : f.Silent w)
    (hn : n.layers = pre ++ .dense a :: .dense b :: post) (hn' : n'.layers = pre ++ .dense a' :: .dense b' :: post)
    (ha : a.Is u m W c f) (ha' : a'.Is u' m W c f) (hb : b.Is v u V d g) (hb' : b'.Is v u' V d g)
    (hc : ∀ j, u₀ ≤ j → c j = 0) (hW : ∀ j, u₀ ≤ j → ∀ i, W j i = 0) (hV : ∀ j, u₀ ≤ j → ∀ i, V i j = 0)
    (lf : LossFunc) (p : IOType (Cf w ℝ) × IOType (Cf w ℝ)) {gs : List (LayerVec (Cf w ℝ))}
    (h : sampleGrads n lf p = some gs) :
    ∃ gs', sampleGrads n' lf p = some gs' ∧ VecPad u₀ pre.length u u' m v gs gs' := by
  unfold sampleGrads at h ⊢
  obtain ⟨acts, hac, h⟩ := Option.bind_eq_some_iff.mp h
  obtain ⟨pred, h1, h⟩ := Option.bind_eq_some_iff.mp h
  obtain ⟨dl, hd, h⟩ := Option.bind_eq_some_iff.mp h
  obtain ⟨gs0, hbk, rfl⟩ := Option.map_eq_some_iff.mp h
  obtain ⟨r0, h2, h3⟩ := Option.bind_eq_some_iff.mp hac
  obtain ⟨zs, hc0, rfl⟩ := (C44_collect n (by rw [hn]; simp) _ r0).mp h2
  cases h3
  rw [hn] at hc0
  obtain ⟨ys, ws, as, prev, rfl, c1, c2, c3, c4⟩ := hc0.append_inv
  cases c4 with
  | @cons _ _ _ hh _ q1 t =>
  cases t with
  | @cons _ _ _ y ws q2 t =>
    obtain ⟨X, H, rfl, rfl, hH, q3, q4⟩ := pad_forward hu hu' h0 h0' hm hf ha ha' hb hb' hc hW hV q1 q2
    have hlast : (p.1 :: ys).getLast? = some (.scalar ((List.range m).map X)) := by rw [c2]; simp
    have hc' : Chain n'.layers p.1 (ys ++ .scalar ((List.range u').map H) :: y :: ws) := by
      rw [hn']
      exact c1.append hlast (.cons q3 (.cons q4 t))
    have hlen := t.length
    rw [acts_zip hn c2 c3 (by simp [hlen]) (by simp)] at hbk
    have hca : (n'.collectActs p.1 >>= unwrap)
        = some (p.1 :: (ys ++ .scalar ((List.range u').map H) :: y :: ws)) := by
      rw [(C44_collect n' (by rw [hn']; simp) p.1 _).mpr ⟨_, hc', rfl⟩]
      rfl
    rw [hca]
    simp only [Option.bind_eq_bind, Option.bind_some]
    have hh : (p.1 :: (ys ++ IOType.scalar ((List.range u').map H) :: y :: ws)).reverse.head?
        = some pred := by
      rw [← h1]
      simp only [List.head?_reverse]
      rw [← List.cons_append, ← List.cons_append, List.getLast?_append_of_ne_nil _ (by simp),
        List.getLast?_append_of_ne_nil _ (by simp)]
      simp
    rw [hh, acts_zip hn' c2 c3 (by simp [hlen]) (by simp)]
    simp only [Option.bind_some, hd]
    have key : ∀ (z z' : IOType (Cf w ℝ)) (l l' : Layer (Cf w ℝ)), ((z :: z' :: y :: ws).dropLast.reverse.zip
        (l :: l' :: post).reverse) ++ as.reverse.zip pre.reverse
        = ((y :: ws).dropLast.reverse.zip post.reverse) ++ (z', l') :: (z, l)
          :: as.reverse.zip pre.reverse := by
      intro z z' l l'
      rw [List.dropLast_cons_of_ne_nil (by simp), List.dropLast_cons_of_ne_nil (by simp)]
      simp only [List.reverse_cons, List.append_assoc]
      rw [List.zip_append (by simp [hlen])]
      simp
    rw [key] at hbk
    rw [key]
    obtain ⟨g1, g2, g2', rfl, k2, e⟩ := backGrads_replace
      (Rel := fun gs gs' => ∃ g2 F s B t, gs = (table v u B, t) :: (table u m F, (List.range u).map s) :: g2
        ∧ gs' = (table v u' B, t) :: (table u' m F, (List.range u').map s) :: g2
        ∧ (∀ j, u₀ ≤ j → s j = 0) ∧ (∀ j, u₀ ≤ j → ∀ i, F j i = 0) ∧ (∀ j, u₀ ≤ j → ∀ i, B i j = 0)
        ∧ g2.length = (as.reverse.zip pre.reverse).length)
      (fun D DC gs h => pad_back hu hu' h0 h0' hm hf ha ha' hb hb' hc hW hV X H hH _ D DC gs h) _ hbk
    obtain ⟨g3, F, s, B, t', rfl, rfl, z1, z2, z3, e3⟩ := e
    refine ⟨_, by rw [k2]; rfl, g3.reverse, g1.reverse, F, s, B, t', ?_, by simp, by simp, z1, z2, z3⟩
    rw [List.length_reverse, e3, List.length_zip, List.length_reverse, List.length_reverse, c3,
      Nat.min_self]

theorem VecPad.add {k : Nat} {x x' y y' : List (LayerVec (Cf w ℝ))}
    (h : VecPad u₀ k u u' m v x x') (h' : VecPad u₀ k u u' m v y y') :
    VecPad u₀ k u u' m v (List.zipWith LayerVec.add x y) (List.zipWith LayerVec.add x' y') := by
  obtain ⟨G1, G2, A, s, B, t, e1, rfl, rfl, z1, z2, z3⟩ := h
  obtain ⟨K1, K2, A', s', B', t', e1', rfl, rfl, z1', z2', z3'⟩ := h'
  refine ⟨List.zipWith LayerVec.add G1 K1, List.zipWith LayerVec.add G2 K2, fun j i => A j i + A' j i,
    fun j => s j + s' j, fun j i => B j i + B' j i, List.zipWith (· + ·) t t', by simp [e1, e1'], ?_, ?_,
    fun j hj => by simp only [z1 j hj, z1' j hj, add_zero], fun j hj i => by simp only [z2 j hj, z2' j hj, add_zero],
    fun j hj i => by simp only [z3 j hj, z3' j hj, add_zero]⟩
  · rw [List.zipWith_append (e1.trans e1'.symm)]
    simp only [List.zipWith_cons_cons, LayerVec.add, table_zipWith, List.zipWith_map, List.zipWith_self]
  · rw [List.zipWith_append (e1.trans e1'.symm)]
    simp only [List.zipWith_cons_cons, LayerVec.add, table_zipWith, List.zipWith_map, List.zipWith_self]

theorem pad_total {k : Nat} {gss gss' : List (List (LayerVec (Cf w ℝ)))}
    (h : List.Forall₂ (VecPad u₀ k u u' m v) gss gss') {acc acc' : List (LayerVec (Cf w ℝ))}
    (h0 : VecPad u₀ k u u' m v acc acc') : VecPad u₀ k u u' m v (gss.foldl (List.zipWith LayerVec.add) acc)
      (gss'.foldl (List.zipWith LayerVec.add) acc') := by
  induction h generalizing acc acc' with
  | nil => exact h0
  | cons h _ ih => exact ih (h0.add h)

theorem pad_update {n n' : Net (Cf w ℝ)} {pre post : List (Layer (Cf w ℝ))}
    (hu : 0 < u) (hu' : 0 < u') (h0 : u₀ ≤ u) (h0' : u₀ ≤ u') (hm : 0 < m) (hf : f.Silent w)
    (hn : n.layers = pre ++ .dense a :: .dense b :: post) (hn' : n'.layers = pre ++ .dense a' :: .dense b' :: post)
    (ha : a.Is u m W c f) (ha' : a'.Is u' m W c f) (hb : b.Is v u V d g) (hb' : b'.Is v u' V d g)
    (hc : ∀ j, u₀ ≤ j → c j = 0) (hW : ∀ j, u₀ ≤ j → ∀ i, W j i = 0) (hV : ∀ j, u₀ ≤ j → ∀ i, V i j = 0)
    (upd : Cf w ℝ → Cf w ℝ → Cf w ℝ) (h00 : upd 0 0 = 0)
    {G G' : List (LayerVec (Cf w ℝ))} (hG : VecPad u₀ pre.length u u' m v G G')
    (hfit : List.Forall₂ LayerVec.Fits G n.layers) :
    Padded u₀ pre.length u u' (n.zipParams upd G) (n'.zipParams upd G')
      ∧ List.Forall₂ LayerVec.Fits G' n'.layers := by
  have : Nonempty (Cf w ℝ) := ⟨0⟩
  obtain ⟨G1, G2, A, s, B, t, e1, rfl, rfl, z1, z2, z3⟩ := hG
  rw [hn] at hfit
  obtain ⟨K1, K2, hK, f1, f2⟩ := forall₂_append_inv hfit.flip
  have hlen : K1.length = G1.length := by rw [← f1.length_eq, e1]
  obtain ⟨rfl, rfl⟩ := List.append_inj hK hlen.symm
  cases f2 with
  | cons f2 f3 =>
  cases f3 with
  | cons f3 f4 =>
    have f3' : LayerVec.Fits (table v u B, t) (.dense b) := f3
    have ht : t.length = v := by
      unfold LayerVec.Fits at f3'
      rw [if_pos (by rfl)] at f3'
      rw [f3'.2]; show b.biases.length = v; rw [hb.2.1]; simp
    obtain ⟨τ, hτ⟩ := exists_range_map t
    rw [ht] at hτ
    subst hτ
    obtain ⟨l1, k1, i1⟩ := Dense.zipParams_is ha (A := A) (s := s) upd
    obtain ⟨l2, k2, i2⟩ := Dense.zipParams_is hb (A := B) (s := τ) upd
    obtain ⟨l3, k3, i3⟩ := Dense.zipParams_is ha' (A := A) (s := s) upd
    obtain ⟨l4, k4, i4⟩ := Dense.zipParams_is hb' (A := B) (s := τ) upd
    refine ⟨⟨hu, hu', h0, h0', List.zipWith (Layer.zipParams upd) pre G1, l1, l3, l2, l4,
      List.zipWith (Layer.zipParams upd) post G2, m, v, _, _, f, _, _, g, by simp [e1], hm, hf, ?_, ?_,
      i1, i3, i2, i4, fun j hj => by simp only [hc j hj, z1 j hj, h00],
      fun j hj i => by simp only [hW j hj, z2 j hj, h00], fun j hj i => by simp only [hV j hj, z3 j hj, h00]⟩, ?_⟩
    · show List.zipWith _ n.layers _ = _
      rw [hn, List.zipWith_append e1.symm, List.zipWith_cons_cons, List.zipWith_cons_cons, k1, k2]
    · show List.zipWith _ n'.layers _ = _
      rw [hn', List.zipWith_append e1.symm, List.zipWith_cons_cons, List.zipWith_cons_cons, k3, k4]
    · rw [hn']
      exact List.rel_append f1.flip (.cons (ha'.fits _ _) (.cons (hb'.fits _ _) f4.flip))

end

theorem Padded.symm {u₀ k u u' : Nat} {n n' : Net (Cf w ℝ)} (h : Padded u₀ k u u' n n') : Padded u₀ k u' u n' n := by
  obtain ⟨hu, hu', h0, h0', pre, a, a', b, b', post, m, v, W, c, f, V, d, g, hk, hm, hf, hn, hn', ha, ha', hb, hb', hz⟩ := h
  exact ⟨hu', hu, h0', h0, pre, a', a, b', b, post, m, v, W, c, f, V, d, g, hk, hm, hf, hn', hn, ha', ha, hb', hb, hz⟩

theorem Padded.wf {u₀ k u u' : Nat} {n n' : Net (Cf w ℝ)} (h : Padded u₀ k u u' n n')
    (hw : ∀ l ∈ n.layers, l.WF) : ∀ l ∈ n'.layers, l.WF := by
  obtain ⟨-, -, -, -, pre, a, a', b, b', post, m, v, W, c, f, V, d, g, -, -, -, hn, hn', -, ha', -, hb', -⟩ := h
  rw [hn] at hw
  rw [hn']
  intro l hl
  simp only [List.mem_append, List.mem_cons] at hl
  rcases hl with hl | rfl | rfl | hl
  · exact hw l (by simp [hl])
  · exact ha'.wf
  · exact hb'.wf
  · exact hw l (by simp [hl])

theorem pad_step {u₀ k u u' : Nat} {n n' : Net (Cf w ℝ)} (h : Padded u₀ k u u' n n')
    (hw : ∀ l ∈ n.layers, l.WF) {data : Dataset (Cf w ℝ)} {lf : LossFunc} {lr : Cf w ℝ} {r : Except ForwardErr Unit}
    {n1 : Net (Cf w ℝ)} (hg : n.gradientOpt data lf lr = some (r, n1)) :
    ∃ n1', n'.gradientOpt data lf lr = some (r, n1') ∧ Padded u₀ k u u' n1 n1' := by
  have hw' := h.wf hw
  obtain ⟨hu, hu', h0, h0', pre, a, a', b, b', post, m, v, W, c, f, V, d, g, rfl, hm, hf, hn, hn', ha, ha', hb, hb',
    hc, hW, hV⟩ := h
  obtain ⟨rfl, gss, scale, h1, h2, rfl⟩ := (C50_step n n1 (by rw [hn]; simp; omega) hw data lf lr r).mp hg
  have hss : ∃ gss', List.Forall₂ (fun p gs => sampleGrads n' lf p = some gs
        ∧ List.Forall₂ LayerVec.Fits gs n'.layers) data.points gss'
      ∧ List.Forall₂ (VecPad u₀ pre.length u u' m v) gss gss' := by
    clear hg
    generalize data.points = pts at h1
    induction h1 with
    | nil => exact ⟨[], .nil, .nil⟩
    | @cons p gs pts gss hp _ ih =>
      obtain ⟨gss', i1, i2⟩ := ih
      obtain ⟨gs', k1, k2⟩ := pad_sample hu hu' h0 h0' hm hf hn hn' ha ha' hb hb' hc hW hV lf p hp.1
      exact ⟨gs' :: gss', .cons ⟨k1, (pad_update hu hu' h0 h0' hm hf hn hn' ha ha' hb hb' hc hW hV (fun p _ => p) rfl k2
        hp.2).2⟩ i1, .cons k2 i2⟩
  obtain ⟨gss', j1, j2⟩ := hss
  have hfit := sumGrads_fits n gss fun gs hgs => by
    obtain ⟨p, -, hp⟩ := forall₂_mem_right h1 gs hgs
    exact hp.2
  have hz : VecPad u₀ pre.length u u' m v (n.layers.map LayerVec.zero) (n'.layers.map LayerVec.zero) := by
    refine ⟨pre.map LayerVec.zero, post.map LayerVec.zero, fun _ _ => 0, fun _ => 0, fun _ _ => 0,
      (List.range v).map fun _ => 0, by simp, ?_, ?_, fun _ _ => rfl, fun _ _ _ => rfl, fun _ _ _ => rfl⟩
    · rw [hn, List.map_append, List.map_cons, List.map_cons, zero_dense ha, zero_dense hb]
    · rw [hn', List.map_append, List.map_cons, List.map_cons, zero_dense ha', zero_dense hb']
  obtain ⟨q1, -⟩ := pad_update hu hu' h0 h0' hm hf hn hn' ha ha' hb hb' hc hW hV
    (fun p d => p - CplxOps.conj (BasicOps.mulAssign d scale))
    (show 0 - moved scale 0 = 0 by rw [moved_zero, sub_zero]) (pad_total j2 hz) hfit
  exact ⟨_, (C50_step n' _ (by rw [hn']; simp; omega) hw' data lf lr (.ok ())).mpr
    ⟨rfl, gss', scale, j1, h2, rfl⟩, q1⟩

/-! ## The network -/

/-- C131. Units of which all parameters are zero, incoming and outgoing, do not change what the network predicts:
for every input the networks with and without them return the same or both panic. -/
theorem C131_forward {u₀ k u u' : Nat} (n n' : Net (Cf w ℝ)) (h : Padded u₀ k u u' n n')
    (x : IOType (Cf w ℝ)) : n'.forward x = n.forward x := by
  have key : ∀ {u u' : Nat} {n n' : Net (Cf w ℝ)}, Padded u₀ k u u' n n' → ∀ r, n.forward x = some r →
      n'.forward x = some r := by
    intro u u' n n' h r hr
    obtain ⟨hu, hu', h0, h0', pre, a, a', b, b', post, m, v, W, c, f, V, d, g, -, hm, hf, hn, hn', ha, ha', hb, hb',
      hz, hW, hV⟩ := h
    obtain ⟨zs, y, hc, hy, rfl⟩ := (C44_forward n (by rw [hn]; simp) x r).mp hr
    rw [hn] at hc
    obtain ⟨ys, ws, as, prev, rfl, c1, c2, c3, c4⟩ := hc.append_inv
    cases c4 with
    | @cons _ _ _ hh _ q1 t =>
    cases t with
    | @cons _ _ _ y' ws q2 t =>
      obtain ⟨X, H, rfl, rfl, -, q3, q4⟩ := pad_forward hu hu' h0 h0' hm hf ha ha' hb hb' hz hW hV q1 q2
      have hlast : (x :: ys).getLast? = some (.scalar ((List.range m).map X)) := by rw [c2]; simp
      refine (C44_forward n' (by rw [hn']; simp) x _).mpr
        ⟨ys ++ .scalar ((List.range u').map H) :: y' :: ws, y, ?_, ?_, rfl⟩
      · rw [hn']
        exact c1.append hlast (.cons q3 (.cons q4 t))
      · rw [← hy, List.getLast?_append_of_ne_nil _ (by simp), List.getLast?_append_of_ne_nil _ (by simp)]
        simp
  cases hr : n.forward x with
  | some r => exact key h r hr
  | none =>
    cases hr' : n'.forward x with
    | none => rfl
    | some r => rw [key h.symm r hr'] at hr; cases hr

/-- C131. So the losses and accuracies are the same too. -/
theorem C131_measures {u₀ k u u' : Nat} (n n' : Net (Cf w ℝ)) (h : Padded u₀ k u u' n n') (data : Dataset (Cf w ℝ)) :
    (∀ lf, n'.loss data lf = n.loss data lf) ∧ n'.maxPredTest data = n.maxPredTest data := by
  constructor
  · intro lf
    unfold Net.loss
    simp only [C131_forward n n' h]
  · unfold Net.maxPredTest
    simp only [C131_forward n n' h]

/-- C131. Training does not wake such units: a training call returns for one network exactly if it returns
for the other, with the same result, and the networks it leaves still differ only in units of which all
parameters are zero. -/
theorem C131_step {u₀ k u u' : Nat} (n n' : Net (Cf w ℝ)) (h : Padded u₀ k u u' n n')
    (hw : ∀ l ∈ n.layers, l.WF) (data : Dataset (Cf w ℝ)) (lf : LossFunc) (lr : Cf w ℝ) :
    Option.Rel (fun o o' => o.1 = o'.1 ∧ Padded u₀ k u u' o.2 o'.2) (n.gradientOpt data lf lr)
      (n'.gradientOpt data lf lr) := by
  cases hr : n.gradientOpt data lf lr with
  | some o =>
    obtain ⟨n1', h1, h2⟩ := pad_step h hw (r := o.1) (n1 := o.2) hr
    rw [h1]
    exact .some ⟨rfl, h2⟩
  | none =>
    cases hr' : n'.gradientOpt data lf lr with
    | none => exact .none
    | some o =>
      obtain ⟨n1', h1, -⟩ := pad_step h.symm (h.wf hw) (r := o.1) (n1 := o.2) hr'
      rw [h1] at hr
      cases hr

/-- C131. The same for any history of training calls: the wide network never does more than the narrow
one. -/
theorem C131_train {u₀ k u u' : Nat} (n n' : Net (Cf w ℝ)) (h : Padded u₀ k u u' n n')
    (hw : ∀ l ∈ n.layers, l.WF) (steps : List (TrainStep (Cf w ℝ))) :
    Option.Rel (Padded u₀ k u u') (n.train steps) (n'.train steps) := by
  induction steps generalizing n n' with
  | nil => exact .some h
  | cons s steps ih =>
    simp only [Net.train, List.foldlM_cons, Option.bind_eq_bind]
    have := C131_step n n' h hw s.1 s.2.1 s.2.2
    cases hr : n.gradientOpt s.1 s.2.1 s.2.2 with
    | none =>
      rw [hr] at this
      cases hr' : n'.gradientOpt s.1 s.2.1 s.2.2 with
      | none => exact .none
      | some o => rw [hr'] at this; cases this
    | some o =>
      rw [hr] at this
      cases hr' : n'.gradientOpt s.1 s.2.1 s.2.2 with
      | none => rw [hr'] at this; cases this
      | some o' =>
        rw [hr'] at this
        cases this with
        | some this =>
          exact ih o.2 o'.2 this.2 (sameShape_wf (Net.gradientOpt_shape hw (r := o.1) (n' := o.2) hr))

/-- C131. If all units of the hidden layer are zero, the prediction does not depend on the input. -/
theorem C131_constant {k u : Nat} (n : Net (Cf w ℝ)) (h : Padded 0 k u u n n) (x x' : IOType (Cf w ℝ))
    (r r' : Except ForwardErr (IOType (Cf w ℝ))) (h1 : n.forward x = some r) (h2 : n.forward x' = some r') : r = r' := by
  obtain ⟨hu, -, h0, -, pre, a, a', b, b', post, m, v, W, c, f, V, d, g, -, hm, hf, hn, hn', ha, ha', hb, hb',
    hz, hW, hV⟩ := h
  have key : ∀ (x : IOType (Cf w ℝ)) r, n.forward x = some r → ∃ zs y,
      Chain (.dense b :: post) (.scalar ((List.range u).map fun _ => (0 : Cf w ℝ))) zs
        ∧ zs.getLast? = some y ∧ r = .ok y := by
    intro x r hr
    obtain ⟨zs, y, hc, hy, rfl⟩ := (C44_forward n (by rw [hn]; simp) x r).mp hr
    rw [hn] at hc
    obtain ⟨ys, ws, as, prev, rfl, c1, c2, c3, c4⟩ := hc.append_inv
    cases c4 with
    | @cons _ _ _ hh ws q1 t =>
    have t' := t
    cases t' with
    | @cons _ _ _ y' ws q2 t2 =>
      obtain ⟨X, H, rfl, rfl, hH, -, -⟩ := pad_forward hu hu h0 h0 hm hf ha ha hb hb hz hW hV q1 q2
      refine ⟨y' :: ws, y, ?_, ?_, rfl⟩
      · rw [show (fun _ => (0 : Cf w ℝ)) = H from funext fun j => (hH j (by omega)).symm]
        exact t
      · rw [← hy, List.getLast?_append_of_ne_nil _ (by simp)]
        simp
  obtain ⟨zs, y, p1, p2, rfl⟩ := key x r h1
  obtain ⟨zs', y', q1, q2, rfl⟩ := key x' r' h2
  obtain rfl := p1.unique q1
  rw [p2] at q2
  rw [Option.some.inj q2]

/-- C131. So a network with a hidden layer that starts with all its weights, its biases and the weights after it
zero never learns to tell inputs apart, whatever the data and the training. -/
theorem C131_zero_start {k u : Nat} (n n1 : Net (Cf w ℝ)) (h : Padded 0 k u u n n) (hw : ∀ l ∈ n.layers, l.WF)
    (steps : List (TrainStep (Cf w ℝ))) (ht : n.train steps = some n1) (x x' : IOType (Cf w ℝ))
    (r r' : Except ForwardErr (IOType (Cf w ℝ))) (h1 : n1.forward x = some r) (h2 : n1.forward x' = some r') :
    r = r' := by
  have := C131_train n n h hw steps
  rw [ht] at this
  cases this with
  | some this => exact C131_constant n1 this x x' r r' h1 h2

/-- C131. Which activations this covers: all but the sigmoid and the cardioid, which are not zero at zero, and
`ModZ`, which panics there. -/
theorem C131_which (w : Width) (f : ActFunc) :
    f.Silent w ↔ f = .none ∨ f = .ritTanh ∨ f = .ritReLU ∨ f = .zReLU := by
  have zx : (0 : Cf w ℝ).x = 0 := rfl
  have zy : (0 : Cf w ℝ).y = 0 := rfl
  constructor
  · rintro ⟨h, -, -⟩
    cases f with
    | none => simp
    | ritTanh => simp
    | ritReLU => simp
    | zReLU => simp
    | ritSigmoid =>
      exfalso
      have h' : Act.activate .ritSigmoid (0 : Cf w ℝ) = some 0 := h
      obtain ⟨y, h1, h2⟩ := C81_sigmoid (0 : Cf w ℝ)
      rw [h'] at h1
      cases h1
      exact lt_irrefl _ h2
    | modZ =>
      exfalso
      have h' : Act.modZ (0 : Cf w ℝ) = some 0 := h
      unfold Act.modZ Cf.div at h'
      simp [Cf.new, Cf.norm, Cf.den, zx, zy] at h'
    | cardioid =>
      exfalso
      have h' : some (Act.card (0 : Cf w ℝ)) = some 0 := h
      have hp : (0 : Cf w ℝ).phase = 0 := by
        cases w
        · show Complex.arg ⟨0, 0⟩ = 0
          exact Complex.arg_zero
        · show Real.arctan (0 / 0) = 0
          simp
      have h2 := congrArg Cf.x (Option.some.inj h')
      unfold Act.card at h2
      simp [hp, zx] at h2
  · rintro (rfl | rfl | rfl | rfl)
    · exact ⟨rfl, ⟨_, rfl⟩, ⟨_, rfl⟩⟩
    · refine ⟨?_, ⟨_, rfl⟩, ⟨_, rfl⟩⟩
      show some (⟨Real.tanh 0, Real.tanh 0⟩ : Cf w ℝ) = some ⟨0, 0⟩
      rw [Real.tanh_zero]
    · refine ⟨?_, ⟨_, rfl⟩, ⟨_, rfl⟩⟩
      show some (⟨Act.relu 0, Act.relu 0⟩ : Cf w ℝ) = some ⟨0, 0⟩
      simp [Act.relu]
    · refine ⟨?_, ⟨_, rfl⟩, ⟨_, rfl⟩⟩
      show some (Act.zRelu (0 : Cf w ℝ)) = some ⟨0, 0⟩
      unfold Act.zRelu
      split
      · simp only [szero]
      · rfl

/-- C131. With the sigmoid it does not hold: the first training call wakes a unit of which all parameters are
zero, for every learning rate whose real part is not zero. -/
theorem C131_sigmoid (lr : Cf w ℝ) (hlr : lr.x ≠ 0) (lf : LossFunc) :
    ∃ (n1 : Net (Cf w ℝ)) (a b : Dense (Cf w ℝ)) (v : Cf w ℝ),
      Net.gradientOpt ⟨[.dense ⟨Mat.fromBody [0] (1, 1), [0], .ritSigmoid⟩,
        .dense ⟨Mat.fromBody [0] (1, 1), [0], .none⟩]⟩ ⟨[.scalar [0]], [.scalar [-1]]⟩ lf lr = some (.ok (), n1)
      ∧ n1.layers = [.dense a, .dense b] ∧ b.weights.body = [v] ∧ v ≠ 0 := by
  obtain ⟨q, hq, hq'⟩ := div_toC lr (Cf.ofUsize 1) (by rw [Cf.toC_ofUsize]; simp)
  rw [Cf.toC_ofUsize, Nat.cast_one, div_one] at hq'
  obtain rfl := Cf.toC_inj.mp hq'
  let d1 : Dense (Cf w ℝ) := ⟨Mat.fromBody [0] (1, 1), [0], .ritSigmoid⟩
  let d2 : Dense (Cf w ℝ) := ⟨Mat.fromBody [0] (1, 1), [0], .none⟩
  let n : Net (Cf w ℝ) := ⟨[.dense d1, .dense d2]⟩
  let s : Cf w ℝ := Act.ritSigmoid 0
  have h1 : d1.Is 1 1 (fun _ _ => 0) (fun _ => 0) .ritSigmoid := ⟨⟨rfl, rfl⟩, rfl, rfl⟩
  have h2 : d2.Is 1 1 (fun _ _ => 0) (fun _ => 0) .none := ⟨⟨rfl, rfl⟩, rfl, rfl⟩
  have hw : ∀ l ∈ n.layers, l.WF := by
    intro l hl
    simp only [n, List.mem_cons, List.not_mem_nil, or_false] at hl
    rcases hl with rfl | rfl
    · exact h1.wf
    · exact h2.wf
  have f1 : (Layer.dense d1).forward (.scalar [0]) = some (.ok (.scalar [s])) := by
    simp [d1, s, Layer.forward, Dense.forward, Dense.computeQ, Mat.mulSlice, Mat.rowsAsIter, chunks,
      chunksPos, chunksAux, Mat.fromBody, unwrap, addSliceMut, zipUpd, activateMut, CplxOps.activate,
      Act.activate]
  have f2 : (Layer.dense d2).forward (.scalar [s]) = some (.ok (.scalar [0])) := by
    simp [d2, Layer.forward, Dense.forward, Dense.computeQ, Mat.mulSlice, Mat.rowsAsIter, chunks,
      chunksPos, chunksAux, Mat.fromBody, unwrap, addSliceMut, zipUpd, activateMut, CplxOps.activate,
      Act.activate]
  have hdl : CplxOps.dLoss lf (.scalar [(-1 : Cf w ℝ)]) (.scalar [0])
      = .ok [CplxOps.conj (0 - -1 : Cf w ℝ)] := by cases lf <;> rfl
  have hp1 : (Layer.dense d1).propagates = true := rfl
  have hp2 : (Layer.dense d2).propagates = true := rfl
  have hc : n.collectActs (.scalar [0]) = some (.ok [.scalar [0], .scalar [s], .scalar [0]]) := by
    simp [n, Net.collectActs, Net.collectLoop, Net.fwd, f1, f2, unwrap]
  have g2 : ∀ d dc : Cf w ℝ, (Layer.dense d2).computeDerivatives (.scalar [s]) [d] [dc]
      = some (.ok ([s * d], [d], [0], [0])) := by
    intro d dc
    have := Dense.computeDerivatives_is h2 (by omega) (fun _ => s) (fun _ => d) (fun _ => dc) (fun _ => 1) (fun _ => 0)
      (fun j _ => by show some Cf.unit = _; rw [unit_eq_one]) (fun j _ => by show some Cf.default = _; rw [default_eq_zero])
    rw [show (Layer.dense d2).computeDerivatives = d2.computeDerivatives from rfl]
    simpa [table, conj_zero'] using this
  have g1 : (Layer.dense d1).computeDerivatives (.scalar [0]) [0] [0]
      = some (.ok ([0], [0], [0], [0])) := by
    have := Dense.computeDerivatives_is h1 (by omega) (fun _ => 0) (fun _ => 0) (fun _ => 0) (fun _ => _) (fun _ => _)
      (fun j _ => rfl) (fun j _ => rfl)
    rw [show (Layer.dense d1).computeDerivatives = d1.computeDerivatives from rfl]
    simpa [table, conj_zero'] using this
  have k1 : sampleGrads n lf (.scalar [0], .scalar [-1]) = some [([0], [0]), ([s], [1])] := by
    unfold sampleGrads
    rw [hc]
    simp [unwrap, hdl, backGrads, hp1, hp2, g1, g2, n, conj_one]
  have hstep := (C50_step n _ (by simp [n]) hw
    ⟨[.scalar [0]], [.scalar [-1]]⟩ lf q (.ok ())).mpr ⟨rfl, _, q, .cons ⟨k1,
      .cons ⟨rfl, rfl⟩ (.cons ⟨rfl, rfl⟩ .nil)⟩ .nil, hq, rfl⟩
  have hsum : sumGrads n [[([0], [0]), ([s], [1])]] = [([0], [0]), ([s], [1])] := by
    have hl1 : (Layer.dense d1).paramsLen = (1, 1) := rfl
    have hl2 : (Layer.dense d2).paramsLen = (1, 1) := rfl
    simp [sumGrads, n, LayerVec.zero, hp1, hp2, hl1, hl2, LayerVec.add]
  rw [hsum] at hstep
  refine ⟨_, _, _, 0 - moved q s, hstep, rfl, rfl, fun h => ?_⟩
  obtain ⟨y, e, hy⟩ := C81_sigmoid (0 : Cf w ℝ)
  have e' : y = s := (Option.some.inj e).symm
  subst e'
  have hm : moved q s = 0 := by linear_combination -h
  have hs : s.x = s.y := rfl
  have m1 : s.x * q.x - s.y * q.y = 0 := congrArg Cf.x hm
  have m2 : -((s.x * q.x - s.y * q.y) * q.y + s.y * q.x) = 0 := congrArg Cf.y hm
  rw [m1] at m2
  rcases mul_eq_zero.mp (show s.y * q.x = 0 by linarith) with h | h
  · exact hy.ne' h
  · exact hlr h

/-- A hidden layer that is zero. -/
example (s : Cf .w64 ℝ) (g : ActFunc) : Padded 0 0 1 1
    ⟨[.dense ⟨Mat.fromBody [0] (1, 1), [0], .ritTanh⟩, .dense ⟨Mat.fromBody [0] (1, 1), [s], g⟩]⟩
    ⟨[.dense ⟨Mat.fromBody [0] (1, 1), [0], .ritTanh⟩, .dense ⟨Mat.fromBody [0] (1, 1), [s], g⟩]⟩ :=
  ⟨by omega, by omega, by omega, by omega, [], _, _, _, _, [], 1, 1, fun _ _ => 0, fun _ => 0, .ritTanh,
    fun _ _ => 0, fun _ => s, g, rfl, by omega, (C131_which _ _).mpr (by simp), rfl, rfl, ⟨⟨rfl, rfl⟩, rfl, rfl⟩,
    ⟨⟨rfl, rfl⟩, rfl, rfl⟩, ⟨⟨rfl, rfl⟩, rfl, rfl⟩, ⟨⟨rfl, rfl⟩, rfl, rfl⟩, fun _ _ => rfl, fun _ _ _ => rfl,
    fun _ _ _ => rfl⟩

/-- The relation holds for such networks: one unit, and the same with a second one that is zero. -/
example (p q r s : Cf .w64 ℝ) (g : ActFunc) : Padded 1 0 1 2
    ⟨[.dense ⟨Mat.fromBody [p] (1, 1), [q], .ritTanh⟩, .dense ⟨Mat.fromBody [r] (1, 1), [s], g⟩]⟩
    ⟨[.dense ⟨Mat.fromBody [p, 0] (2, 1), [q, 0], .ritTanh⟩, .dense ⟨Mat.fromBody [r, 0] (1, 2), [s], g⟩]⟩ := by
  refine ⟨by omega, by omega, by omega, by omega, [], _, _, _, _, [], 1, 1, fun j _ => if j = 0 then p else 0,
    fun j => if j = 0 then q else 0, .ritTanh, fun _ i => if i = 0 then r else 0, fun _ => s, g, rfl, by omega,
    (C131_which _ _).mpr (by simp), rfl, rfl, ⟨⟨rfl, ?_⟩, ?_, rfl⟩, ⟨⟨rfl, ?_⟩, ?_, rfl⟩, ⟨⟨rfl, ?_⟩, ?_, rfl⟩,
    ⟨⟨rfl, ?_⟩, ?_, rfl⟩, fun j hj => if_neg (by omega), fun j hj i => if_neg (by omega),
    fun j hj i => if_neg (by omega)⟩ <;>
    simp [Mat.fromBody, table, List.range_succ]

end Renplex
