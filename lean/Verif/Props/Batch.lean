import Verif.Spec.Batch
import Verif.Props.Descent
import Verif.Props.ComplexRate
import Verif.Props.DescentLaw
/-!
# C94: the laws of batches
-/

namespace Renplex
variable {α : Type} {w : Width}

/-! ## Updating twice -/

theorem zipWith_meet {b u v c k : α → α → α} (h : ∀ p d e, b (u p d) (v p e) = c p (k d e))
    (P D E : List α) :
    List.zipWith b (List.zipWith u P D) (List.zipWith v P E)
      = List.zipWith c P (List.zipWith k D E) := by
  induction P generalizing D E with
  | nil => rfl
  | cons p P ih =>
    cases D with
    | nil => rfl
    | cons d D =>
      cases E with
      | nil => rfl
      | cons e E => simp only [List.zipWith_cons_cons, h, ih]

theorem zipKernels_meet {b u v c k : α → α → α} (h : ∀ p d e, b (u p d) (v p e) = c p (k d e))
    {ks : List (Mat α)} {D E : List α} (hD : D.length = (ks.flatMap Mat.getBody).length)
    (hE : E.length = (ks.flatMap Mat.getBody).length) :
    zipKernels b (zipKernels u ks D) ((zipKernels v ks E).flatMap Mat.getBody)
      = zipKernels c ks (List.zipWith k D E) := by
  induction ks generalizing D E with
  | nil => rfl
  | cons m ks ih =>
    rw [List.flatMap_cons, List.length_append, Mat.getBody] at hD hE
    have hl : (List.zipWith u m.body (D.take m.body.length)).length
        = (List.zipWith v m.body (E.take m.body.length)).length := by
      simp only [List.length_zipWith, List.length_take]; omega
    simp only [zipKernels, List.flatMap_cons]
    rw [Mat.getBody, hl, List.take_left, List.drop_left, zipWith_meet h, ← List.take_zipWith,
      ih (by rw [List.length_drop]; omega) (by rw [List.length_drop]; omega), ← List.drop_zipWith]

theorem Layer.zipParams_meet {b u v c k : α → α → α}
    (h : ∀ p d e, b (u p d) (v p e) = c p (k d e)) {l : Layer α} (hw : l.WF) {D E : LayerVec α}
    (hD : D.Fits l) (hE : E.Fits l) :
    (l.zipParams u D).zipParams b (l.zipParams v E).params
      = l.zipParams c (List.zipWith k D.1 E.1, List.zipWith k D.2 E.2) := by
  unfold LayerVec.Fits at hD hE
  cases l with
  | dense l =>
    simp only [Layer.zipParams, Layer.params, zipWith_meet h]
  | conv l =>
    rw [if_pos (by rfl)] at hD hE
    have h1 : D.1.length = l.entries.length := by
      rw [Conv.entries_length hw.2.2.2.1]; exact hD.1
    have h2 : E.1.length = l.entries.length := by
      rw [Conv.entries_length hw.2.2.2.1]; exact hE.1
    simp only [Layer.zipParams, Layer.params, zipWith_meet h]
    rw [zipKernels_meet h h1 h2]
  | reduce l => rfl
  | flatten l => rfl

theorem Net.zipParams_meet {b u v c k : α → α → α}
    (h : ∀ p d e, b (u p d) (v p e) = c p (k d e)) {n : Net α} (hw : ∀ l ∈ n.layers, l.WF)
    {D E : List (LayerVec α)} (hD : List.Forall₂ LayerVec.Fits D n.layers)
    (hE : List.Forall₂ LayerVec.Fits E n.layers) :
    (n.zipParams u D).zipParams b (n.zipParams v E).params
      = n.zipParams c (List.zipWith
          (fun d e => (List.zipWith k d.1 e.1, List.zipWith k d.2 e.2)) D E) := by
  simp only [Net.zipParams, Net.params, Net.mk.injEq]
  generalize n.layers = ls at hw hD hE
  induction hD generalizing E with
  | nil => rfl
  | cons a t ih =>
    cases hE with
    | cons a' t' =>
      simp only [List.zipWith_cons_cons, List.map_cons]
      rw [Layer.zipParams_meet h (hw _ (by simp)) a a', ih (fun l hl => hw l (by simp [hl])) t']

theorem zipWith_left {u : α → α → α} (hu : ∀ p d, u p d = p) {P D : List α}
    (h : D.length = P.length) : List.zipWith u P D = P := by
  induction P generalizing D with
  | nil => rfl
  | cons p P ih =>
    cases D with
    | nil => simp at h
    | cons d D => rw [List.zipWith_cons_cons, hu, ih (by simpa using h)]

theorem zipKernels_left {u : α → α → α} (hu : ∀ p d, u p d = p) {ks : List (Mat α)} {d : List α}
    (hl : d.length = (ks.flatMap Mat.getBody).length) : zipKernels u ks d = ks := by
  induction ks generalizing d with
  | nil => rfl
  | cons k ks ih =>
    rw [List.flatMap_cons, List.length_append, Mat.getBody] at hl
    rw [zipKernels, ih (by rw [List.length_drop]; omega),
      zipWith_left hu (by rw [List.length_take]; omega)]

theorem Net.zipParams_left {u : α → α → α} (hu : ∀ p d, u p d = p) {n : Net α}
    (hw : ∀ l ∈ n.layers, l.WF) {gs : List (LayerVec α)}
    (hg : List.Forall₂ LayerVec.Fits gs n.layers) : n.zipParams u gs = n := by
  obtain ⟨ls⟩ := n
  simp only [Net.zipParams, Net.mk.injEq] at hw hg ⊢
  induction hg with
  | nil => rfl
  | @cons g l _ _ a t ih =>
    rw [List.zipWith_cons_cons, ih fun l hl => hw l (by simp [hl])]
    congr 1
    have hw := hw l (by simp)
    unfold LayerVec.Fits at a
    cases l with
    | dense l =>
      rw [if_pos (by rfl)] at a
      simp only [Layer.zipParams]
      rw [zipWith_left hu (by rw [hw.1]; exact a.1), zipWith_left hu a.2]
    | conv l =>
      rw [if_pos (by rfl)] at a
      have hl : g.1.length = l.entries.length := by
        rw [Conv.entries_length hw.2.2.2.1]; exact a.1
      simp only [Layer.zipParams]
      rw [zipKernels_left hu hl, zipWith_left hu a.2]
    | reduce l => rfl
    | flatten l => rfl

/-! ## Adding the derivatives of two batches -/

section
variable [CommRing α]

theorem zipWith_add_assoc (a b c : List α) :
    List.zipWith (· + ·) (List.zipWith (· + ·) a b) c
      = List.zipWith (· + ·) a (List.zipWith (· + ·) b c) := by
  induction a generalizing b c with
  | nil => rfl
  | cons x a ih =>
    cases b with
    | nil => rfl
    | cons y b =>
      cases c with
      | nil => rfl
      | cons z c => simp only [List.zipWith_cons_cons, ih b c, add_assoc]

theorem addAll_assoc (a b c : List (LayerVec α)) :
    List.zipWith LayerVec.add (List.zipWith LayerVec.add a b) c
      = List.zipWith LayerVec.add a (List.zipWith LayerVec.add b c) := by
  induction a generalizing b c with
  | nil => rfl
  | cons x a ih =>
    cases b with
    | nil => rfl
    | cons y b =>
      cases c with
      | nil => rfl
      | cons z c => simp only [List.zipWith_cons_cons, ih b c, LayerVec.add, zipWith_add_assoc]

theorem zipWith_zero_add (a : List α) {k : Nat} (h : a.length = k) :
    List.zipWith (· + ·) (List.replicate k 0) a = a := by
  subst h
  induction a with
  | nil => rfl
  | cons x a ih => rw [List.length_cons, List.replicate_succ, List.zipWith_cons_cons, zero_add, ih]

theorem addAll_zero {ls : List (Layer α)} {gs : List (LayerVec α)}
    (h : List.Forall₂ LayerVec.Fits gs ls) :
    List.zipWith LayerVec.add (ls.map LayerVec.zero) gs = gs := by
  induction h with
  | nil => rfl
  | @cons g l _ _ a t ih =>
    rw [List.map_cons, List.zipWith_cons_cons, ih]
    congr 1
    unfold LayerVec.Fits at a
    unfold LayerVec.zero LayerVec.add
    by_cases hp : l.propagates = true
    · rw [if_pos hp] at a
      rw [if_pos hp, zipWith_zero_add _ a.1, zipWith_zero_add _ a.2]
    · rw [if_neg hp] at a
      rw [if_neg hp, a]; rfl

theorem foldl_addAll (gss : List (List (LayerVec α))) {ls : List (Layer α)}
    (h : ∀ gs ∈ gss, List.Forall₂ LayerVec.Fits gs ls) {acc : List (LayerVec α)}
    (ha : List.Forall₂ LayerVec.Fits acc ls) :
    gss.foldl (List.zipWith LayerVec.add) acc = List.zipWith LayerVec.add acc
      (gss.foldl (List.zipWith LayerVec.add) (ls.map LayerVec.zero)) := by
  have hz : List.Forall₂ LayerVec.Fits (ls.map LayerVec.zero) ls := by
    rw [List.forall₂_map_left_iff, List.forall₂_same]
    exact fun l _ => LayerVec.zero_fits l
  induction gss generalizing acc with
  | nil =>
    have : List.zipWith LayerVec.add acc (ls.map LayerVec.zero) = acc := by
      have hc : ∀ a b : List (LayerVec α), List.zipWith LayerVec.add a b
          = List.zipWith LayerVec.add b a := by
        intro a b
        rw [List.zipWith_comm]
        congr 1
        funext x y
        simp only [LayerVec.add]
        rw [List.zipWith_comm_of_comm (fun a b => add_comm a b),
          List.zipWith_comm_of_comm (l := y.2) (fun a b => add_comm a b)]
      rw [hc, addAll_zero ha]
    exact this.symm
  | cons g gss ih =>
    have hg := h g (by simp)
    have ht : ∀ gs ∈ gss, List.Forall₂ LayerVec.Fits gs ls := fun x hx => h x (by simp [hx])
    rw [List.foldl_cons, List.foldl_cons, ih ht (addAll_fits' ha hg), addAll_zero hg, ih ht hg,
      addAll_assoc]

theorem sumGrads_append (n : Net α) (g1 g2 : List (List (LayerVec α)))
    (h1 : ∀ gs ∈ g1, List.Forall₂ LayerVec.Fits gs n.layers)
    (h2 : ∀ gs ∈ g2, List.Forall₂ LayerVec.Fits gs n.layers) :
    sumGrads n (g1 ++ g2) = List.zipWith LayerVec.add (sumGrads n g1) (sumGrads n g2) := by
  unfold sumGrads
  rw [List.foldl_append, foldl_addAll g2 h2]
  exact sumGrads_fits n g1 h1

end

theorem fits_of_samples [CplxOps α P] {n : Net α} {f : LossFunc} {pts : List (IOType α × IOType α)}
    {gss : List (List (LayerVec α))} (h : List.Forall₂ (fun p gs => sampleGrads n f p = some gs
          ∧ List.Forall₂ LayerVec.Fits gs n.layers) pts gss) :
    ∀ gs ∈ gss, List.Forall₂ LayerVec.Fits gs n.layers := by
  induction h with
  | nil => simp
  | cons a _ ih =>
    intro g hg
    rcases List.mem_cons.mp hg with rfl | hg
    · exact a.2
    · exact ih g hg

theorem forall₂_append_inv {β γ : Type} {R : β → γ → Prop} {a b : List β} {l : List γ}
    (h : List.Forall₂ R (a ++ b) l) :
    ∃ l1 l2, l = l1 ++ l2 ∧ List.Forall₂ R a l1 ∧ List.Forall₂ R b l2 := by
  induction a generalizing l with
  | nil => exact ⟨[], l, rfl, .nil, h⟩
  | cons x a ih =>
    cases h with
    | cons hx ht =>
      obtain ⟨l1, l2, rfl, h1, h2⟩ := ih ht
      exact ⟨_ :: l1, l2, rfl, .cons hx h1, h2⟩

theorem Dataset.points_append {d e : Dataset α} (h : d.inputs.length = d.target.length) :
    (d.append e).points = d.points ++ e.points := by
  unfold Dataset.points Dataset.append
  exact List.zip_append h

/-! ## C94 -/

/-- C94, the part that holds, for training (missing: complex learning rates, see
`C94_refuted_duplicate`). With a real rate, a training call on two batches joined returns exactly
when the calls on both batches return, and leaves the weighted mean of the networks that they leave:
every parameter is `(B₁·p₁ + B₂·p₂)/(B₁ + B₂)`, written as the fraction `B₂/(B₁ + B₂)` of the way
from `p₁` to `p₂`. -/
theorem C94_partial_concat (n n' : Net (Cf w ℝ)) (hl : 2 ≤ n.layers.length)
    (hw : ∀ l ∈ n.layers, l.WF) (d e : Dataset (Cf w ℝ)) (hd : d.inputs ≠ []) (he : e.inputs ≠ [])
    (hp : d.inputs.length = d.target.length) (f : LossFunc) (lr : Cf w ℝ) (hlr : lr.y = 0)
    (r : Except ForwardErr Unit) :
    n.gradientOpt (d.append e) f lr = some (r, n')
      ↔ r = .ok () ∧ ∃ n1 n2, n.gradientOpt d f lr = some (.ok (), n1)
        ∧ n.gradientOpt e f lr = some (.ok (), n2)
        ∧ n' = n1.blend n2 (e.inputs.length / (d.inputs.length + e.inputs.length)) := by
  have hn : (d.append e).inputs ≠ [] := by simp [Dataset.append, hd]
  have h1 : (d.inputs.length : ℂ) ≠ 0 := by exact_mod_cast (List.length_pos_iff.mpr hd).ne'
  have h2 : (e.inputs.length : ℂ) ≠ 0 := by exact_mod_cast (List.length_pos_iff.mpr he).ne'
  have h3 : (d.inputs.length : ℂ) + e.inputs.length ≠ 0 := by
    exact_mod_cast (Nat.add_pos_left (List.length_pos_iff.mpr hd) _).ne'
  have key : ∀ p a b : Cf w ℝ,
      (fun p q : Cf w ℝ => (Cf.ofC (p.toC + ((e.inputs.length
        / (d.inputs.length + e.inputs.length) : ℝ) : ℂ) * (q.toC - p.toC)) : Cf w ℝ))
        ((fun p d' : Cf w ℝ => Cf.ofC (p.toC
          - starRingEnd ℂ (lr.toC / d.inputs.length * d'.toC))) p a)
        ((fun p d' : Cf w ℝ => Cf.ofC (p.toC
          - starRingEnd ℂ (lr.toC / e.inputs.length * d'.toC))) p b)
      = (fun p d' : Cf w ℝ => Cf.ofC (p.toC
          - starRingEnd ℂ (lr.toC / (d.append e).inputs.length * d'.toC))) p (a + b) := by
    intro p a b
    simp only [Cf.toC_ofC, Dataset.append, List.length_append, Cf.toC_hom_add]
    congr 1
    simp only [map_mul, map_div₀, map_add, Complex.conj_natCast]
    push_cast
    field_simp
    ring
  rw [C50_partial n n' hl hw _ hn f lr hlr]
  constructor
  · rintro ⟨rfl, gss, hs, rfl⟩
    rw [Dataset.points_append hp] at hs
    obtain ⟨g1, g2, rfl, s1, s2⟩ := forall₂_append_inv hs
    refine ⟨rfl, _, _, (C50_partial n _ hl hw d hd f lr hlr _).mpr ⟨rfl, g1, s1, rfl⟩,
      (C50_partial n _ hl hw e he f lr hlr _).mpr ⟨rfl, g2, s2, rfl⟩, ?_⟩
    unfold Net.blend
    rw [Net.zipParams_meet (c := fun p d' => Cf.ofC (p.toC
        - starRingEnd ℂ (lr.toC / (d.append e).inputs.length * d'.toC))) (k := (· + ·)) key hw (sumGrads_fits n g1 (fits_of_samples s1))
      (sumGrads_fits n g2 (fits_of_samples s2)),
      sumGrads_append n g1 g2 (fits_of_samples s1) (fits_of_samples s2)]
    rfl
  · rintro ⟨rfl, n1, n2, e1, e2, rfl⟩
    obtain ⟨-, g1, s1, rfl⟩ := (C50_partial n n1 hl hw d hd f lr hlr _).mp e1
    obtain ⟨-, g2, s2, rfl⟩ := (C50_partial n n2 hl hw e he f lr hlr _).mp e2
    refine ⟨rfl, g1 ++ g2, ?_, ?_⟩
    · rw [Dataset.points_append hp]; exact List.rel_append s1 s2
    · unfold Net.blend
      rw [Net.zipParams_meet (c := fun p d' => Cf.ofC (p.toC
        - starRingEnd ℂ (lr.toC / (d.append e).inputs.length * d'.toC))) (k := (· + ·)) key hw (sumGrads_fits n g1 (fits_of_samples s1))
        (sumGrads_fits n g2 (fits_of_samples s2)),
        sumGrads_append n g1 g2 (fits_of_samples s1) (fits_of_samples s2)]
      rfl

theorem zipWith_self {b : α → α → α} (h : ∀ p, b p p = p) (P : List α) : List.zipWith b P P = P := by
  induction P with
  | nil => rfl
  | cons p P ih => rw [List.zipWith_cons_cons, h, ih]

theorem zipKernels_self {b : α → α → α} (h : ∀ p, b p p = p) (ks : List (Mat α)) :
    zipKernels b ks (ks.flatMap Mat.getBody) = ks := by
  induction ks with
  | nil => rfl
  | cons k ks ih =>
    rw [zipKernels, List.flatMap_cons, Mat.getBody, List.take_left, List.drop_left, ih,
      zipWith_self h]

theorem Net.zipParams_self {b : α → α → α} (h : ∀ p, b p p = p) (n : Net α) :
    n.zipParams b n.params = n := by
  obtain ⟨ls⟩ := n
  simp only [Net.zipParams, Net.params, Net.mk.injEq]
  induction ls with
  | nil => rfl
  | cons l ls ih =>
    rw [List.map_cons, List.zipWith_cons_cons, ih]
    congr 1
    cases l <;> simp only [Layer.zipParams, Layer.params, zipWith_self h, zipKernels_self h]

theorem Net.blend_self (n : Net (Cf w ℝ)) (t : ℝ) : n.blend n t = n :=
  Net.zipParams_self (fun p => by rw [sub_self, mul_zero, add_zero, Cf.ofC_toC]) n

theorem Dataset.copies_one (d : Dataset α) : d.copies 1 = d := by
  simp [Dataset.copies, Dataset.append]

theorem Dataset.copies_inputs {d : Dataset α} (h : d.inputs ≠ []) (k : Nat) :
    (d.copies (k + 1)).inputs ≠ [] := by
  simp [Dataset.copies, Dataset.append, h]

theorem gradientOpt_ok {n n' : Net (Cf w ℝ)} (hl : 2 ≤ n.layers.length) (hw : ∀ l ∈ n.layers, l.WF)
    {d : Dataset (Cf w ℝ)} {f : LossFunc} {lr : Cf w ℝ} {r : Except ForwardErr Unit}
    (h : n.gradientOpt d f lr = some (r, n')) : r = .ok () :=
  ((C50_step n n' hl hw d f lr r).mp h).1

/-- C94, the part that holds, for repeated batches (missing: complex learning rates, see
`C94_refuted_duplicate`). With a real rate, training on any positive number of copies of a batch is
training on the batch once: the same result, the same network, and a panic exactly when the other
panics. -/
theorem C94_partial_duplicate (n : Net (Cf w ℝ)) (hw : ∀ l ∈ n.layers, l.WF) (d : Dataset (Cf w ℝ))
    (hp : d.inputs.length = d.target.length) (f : LossFunc) (lr : Cf w ℝ) (hlr : lr.y = 0) (k : Nat)
    (hk : 0 < k) : n.gradientOpt (d.copies k) f lr = n.gradientOpt d f lr := by
  by_cases hl : n.layers.length ≤ 1
  · unfold Net.gradientOpt; rw [if_pos hl, if_pos hl]
  by_cases hd : d.inputs = []
  · have ht : d.target = [] := by
      rw [hd] at hp; exact List.length_eq_zero_iff.mp hp.symm
    have : d.copies k = d := by
      obtain ⟨i, t⟩ := d
      simp only at hd ht
      subst hd ht
      clear hk
      induction k with
      | zero => rfl
      | succ k ih => rw [Dataset.copies, ih]; rfl
    rw [this]
  obtain ⟨k, rfl⟩ : ∃ j, k = j + 1 := ⟨k - 1, by omega⟩
  clear hk
  induction k with
  | zero => rw [Dataset.copies_one]
  | succ k ih =>
    have key := fun n' r => C94_partial_concat n n' (by omega) hw d (d.copies (k + 1)) hd
      (Dataset.copies_inputs hd k) hp f lr hlr r
    rw [ih] at key
    rw [Dataset.copies]
    cases h : n.gradientOpt d f lr with
    | some p =>
      obtain ⟨r, n1⟩ := p
      obtain rfl := gradientOpt_ok (by omega) hw h
      exact (key n1 _).mpr ⟨rfl, n1, n1, h, h, (Net.blend_self n1 _).symm⟩
    | none =>
      cases h' : n.gradientOpt (d.append (d.copies (k + 1))) f lr with
      | none => rfl
      | some p =>
        obtain ⟨-, n1, _, h1, -⟩ := (key p.2 p.1).mp h'
        rw [h1] at h; cases h

theorem div_empty (a : Cf w ℝ) :
    BasicOps.div a (CplxOps.ofUsize ([] : List (IOType (Cf w ℝ))).length) = none :=
  (C19_div a (Cf.ofUsize 0)).2.mpr (by rw [Cf.toC_ofUsize]; simp)

/-- C94. In exact arithmetic, whether a training call returns or panics does not depend on the
learning rate, real or complex. -/
theorem C94_rate_returns (n : Net (Cf w ℝ)) (hw : ∀ l ∈ n.layers, l.WF) (d : Dataset (Cf w ℝ))
    (f : LossFunc) (lr lr' : Cf w ℝ) (h : n.gradientOpt d f lr = none) :
    n.gradientOpt d f lr' = none := by
  by_cases hl : n.layers.length ≤ 1
  · unfold Net.gradientOpt at h; rw [if_pos hl] at h; cases h
  cases h' : n.gradientOpt d f lr' with
  | none => rfl
  | some p =>
    exfalso
    obtain ⟨r, n'⟩ := p
    obtain ⟨-, gss, q, hs, hq, -⟩ := (C50_step n n' (by omega) hw d f lr' r).mp h'
    obtain ⟨q', hq'⟩ : ∃ q', BasicOps.div lr (CplxOps.ofUsize d.inputs.length) = some q' := by
      by_cases hd : d.inputs = []
      · rw [hd, div_empty] at hq
        cases hq
      · have hne : (d.inputs.length : ℂ) ≠ 0 := by
          exact_mod_cast (List.length_pos_iff.mpr hd).ne'
        obtain ⟨q, hq, -⟩ := div_toC lr (Cf.ofUsize d.inputs.length) (by rwa [Cf.toC_ofUsize])
        exact ⟨q, hq⟩
    rw [(C50_step n _ (by omega) hw d f lr (.ok ())).mpr ⟨rfl, gss, q', hs, hq', rfl⟩] at h
    cases h

/-- C94. A training call with rate zero leaves the network as it is. -/
theorem C94_zero_rate (n n' : Net (Cf w ℝ)) (hw : ∀ l ∈ n.layers, l.WF) (d : Dataset (Cf w ℝ))
    (f : LossFunc) (r : Except ForwardErr Unit) (h : n.gradientOpt d f ⟨0, 0⟩ = some (r, n')) :
    n' = n := by
  by_cases hl : n.layers.length ≤ 1
  · unfold Net.gradientOpt at h; rw [if_pos hl] at h; cases h; rfl
  by_cases hd : d.inputs = []
  · obtain ⟨-, gss, q, hs, hq, -⟩ := (C50_step n n' (by omega) hw d f _ r).mp h
    rw [hd, div_empty] at hq
    cases hq
  obtain ⟨-, gss, hs, rfl⟩ := (C50_partial n n' (by omega) hw d hd f _ rfl r).mp h
  refine Net.zipParams_left ?_ hw (sumGrads_fits n gss (fits_of_samples hs))
  intro p q
  have h0 : (⟨0, 0⟩ : Cf w ℝ).toC = 0 := rfl
  rw [h0, zero_div, zero_mul, map_zero, sub_zero, Cf.ofC_toC]

/-- C94, the part that holds, for scaled rates (missing: complex rates, on which the step is not
linear). Scaling a real rate by `t` scales the step: every parameter moves by the fraction `t` of the
way it moves with the unscaled rate. -/
theorem C94_partial_rate (n n' : Net (Cf w ℝ)) (hl : 2 ≤ n.layers.length)
    (hw : ∀ l ∈ n.layers, l.WF) (d : Dataset (Cf w ℝ)) (hd : d.inputs ≠ []) (f : LossFunc) (s t : ℝ)
    (r : Except ForwardErr Unit) (h : n.gradientOpt d f ⟨s, 0⟩ = some (r, n')) :
    n.gradientOpt d f ⟨t * s, 0⟩ = some (.ok (), n.blend n' t) := by
  obtain ⟨-, gss, hs, rfl⟩ := (C50_partial n n' hl hw d hd f _ rfl r).mp h
  refine (C50_partial n _ hl hw d hd f _ rfl _).mpr ⟨rfl, gss, hs, ?_⟩
  have hf := sumGrads_fits n gss (fits_of_samples hs)
  have e : n.zipParams (fun p _ => p) (sumGrads n gss) = n :=
    Net.zipParams_left (fun _ _ => rfl) hw hf
  have hz : ∀ (L : List (LayerVec (Cf w ℝ))), List.zipWith (fun d e : LayerVec (Cf w ℝ) =>
      (List.zipWith (fun _ b : Cf w ℝ => b) d.1 e.1, List.zipWith (fun _ b => b) d.2 e.2)) L L = L := by
    intro L
    rw [List.zipWith_self]
    conv_rhs => rw [← List.map_id L]
    refine List.map_congr_left fun g _ => ?_
    rw [zipWith_self fun _ => rfl, zipWith_self fun _ => rfl]
    rfl
  symm
  have key := Net.zipParams_meet (c := fun p d' => Cf.ofC (p.toC
        - starRingEnd ℂ ((⟨t * s, 0⟩ : Cf w ℝ).toC / d.inputs.length * d'.toC))) (k := fun _ b => b)
    (u := fun p _ => p) (b := fun p q => Cf.ofC (p.toC + t * (q.toC - p.toC)))
    (v := fun p d' => Cf.ofC (p.toC
        - starRingEnd ℂ ((⟨s, 0⟩ : Cf w ℝ).toC / d.inputs.length * d'.toC))) ?_ hw hf hf
  · rw [e, hz] at key
    exact key.symm
  intro p _ b
  have e1 : (⟨t * s, 0⟩ : Cf w ℝ).toC = t * (⟨s, 0⟩ : Cf w ℝ).toC := by
    apply Complex.ext <;> simp [Cf.toC]
  simp only [Cf.toC_ofC, e1, map_mul, map_div₀, Complex.conj_natCast, Complex.conj_ofReal]
  congr 1
  ring

theorem zipWith_add_self (a : List (Cf w ℝ)) : List.zipWith (· + ·) a a = a.map fun z => z + z := by
  induction a with
  | nil => rfl
  | cons x a ih => rw [List.zipWith_cons_cons, ih, List.map_cons]

theorem addAll_self (gs : List (LayerVec (Cf w ℝ))) :
    List.zipWith LayerVec.add gs gs = gs.map (LayerVec.map fun z => z + z) := by
  induction gs with
  | nil => rfl
  | cons g gs ih =>
    rw [List.zipWith_cons_cons, ih, List.map_cons]
    simp only [LayerVec.add, LayerVec.map, zipWith_add_self]

/-- C94, exactly when a repeated batch makes no difference, for every learning rate: a training call
on a batch taken twice leaves what the call on the batch leaves if and only if the rate is real or
`Re(lr·d) = 0` for the summed derivative `d` of every parameter. -/
theorem C94_partial_duplicate_iff (n n' : Net (Cf w ℝ)) (hl : 2 ≤ n.layers.length)
    (hw : ∀ l ∈ n.layers, l.WF) (d : Dataset (Cf w ℝ)) (hd : d.inputs ≠ [])
    (hp : d.inputs.length = d.target.length) (f : LossFunc) (lr : Cf w ℝ)
    (r : Except ForwardErr Unit) (h : n.gradientOpt d f lr = some (r, n')) :
    ∃ gss, List.Forall₂ (fun p gs => sampleGrads n f p = some gs) d.points gss
      ∧ (n.gradientOpt (d.append d) f lr = some (r, n')
        ↔ lr.y = 0 ∨ ∀ g ∈ sumGrads n gss, ∀ z ∈ g.1 ++ g.2, (lr.toC * z.toC).re = 0) := by
  have hB : (d.inputs.length : ℝ) ≠ 0 := by exact_mod_cast (List.length_pos_iff.mpr hd).ne'
  have hn : (d.append d).inputs ≠ [] := by simp [Dataset.append, hd]
  obtain ⟨rfl, gss, hs, rfl⟩ := (C50_partial_value n n' hl hw d hd f lr r).mp h
  refine ⟨gss, hs.imp fun _ _ h => h.1, ?_⟩
  have hf := fits_of_samples hs
  have hF := sumGrads_fits n gss hf
  have hlen : ((d.append d).inputs.length : ℝ) = 2 * d.inputs.length := by
    simp only [Dataset.append, List.length_append]; push_cast; ring
  have hone : ∀ gss', List.Forall₂ (fun p gs => sampleGrads n f p = some gs
          ∧ List.Forall₂ LayerVec.Fits gs n.layers) (d.append d).points gss' ↔ gss' = gss ++ gss := by
    intro gss'
    rw [Dataset.points_append hp]
    constructor
    · intro h'
      have hu : ∀ {a b : List (List (LayerVec (Cf w ℝ)))} {pts},
          List.Forall₂ (fun p gs => sampleGrads n f p = some gs
            ∧ List.Forall₂ LayerVec.Fits gs n.layers) pts a →
          List.Forall₂ (fun p gs => sampleGrads n f p = some gs
            ∧ List.Forall₂ LayerVec.Fits gs n.layers) pts b → a = b := by
        intro a b pts ha hb
        induction ha generalizing b with
        | nil => cases hb; rfl
        | cons h1 _ ih =>
          cases hb with
          | cons h2 t =>
            rw [ih t]
            congr 1
            exact Option.some.inj (h1.1.symm.trans h2.1)
      exact hu h' (List.rel_append hs hs)
    · rintro rfl; exact List.rel_append hs hs
  rw [C50_partial_value n _ hl hw _ hn f lr]
  simp only [hone, true_and, exists_eq_left]
  rw [sumGrads_append n gss gss hf hf, addAll_self, Net.zipParams_map,
    Net.zipParams_sub_inj (h1 := fun d' : Cf w ℝ => (⟨d'.x * (lr.x / d.inputs.length)
        - d'.y * (lr.y / d.inputs.length), -((d'.x * (lr.x / d.inputs.length)
        - d'.y * (lr.y / d.inputs.length)) * (lr.y / d.inputs.length)
        + d'.y * (lr.x / d.inputs.length))⟩ : Cf w ℝ))
      (h2 := fun d' : Cf w ℝ => (⟨(d' + d').x * (lr.x / (d.append d).inputs.length)
        - (d' + d').y * (lr.y / (d.append d).inputs.length),
        -(((d' + d').x * (lr.x / (d.append d).inputs.length)
        - (d' + d').y * (lr.y / (d.append d).inputs.length)) * (lr.y / (d.append d).inputs.length)
        + (d' + d').y * (lr.x / (d.append d).inputs.length))⟩ : Cf w ℝ)) hw hF]
  have hone' : ∀ z : Cf w ℝ, ((⟨z.x * (lr.x / d.inputs.length)
        - z.y * (lr.y / d.inputs.length), -((z.x * (lr.x / d.inputs.length)
        - z.y * (lr.y / d.inputs.length)) * (lr.y / d.inputs.length)
        + z.y * (lr.x / d.inputs.length))⟩ : Cf w ℝ)
      = ⟨(z + z).x * (lr.x / (d.append d).inputs.length)
        - (z + z).y * (lr.y / (d.append d).inputs.length),
        -(((z + z).x * (lr.x / (d.append d).inputs.length)
        - (z + z).y * (lr.y / (d.append d).inputs.length)) * (lr.y / (d.append d).inputs.length)
        + (z + z).y * (lr.x / (d.append d).inputs.length))⟩)
      ↔ lr.y = 0 ∨ (lr.toC * z.toC).re = 0 := by
    intro z
    have hx : (z + z).x = 2 * z.x := by rw [two_mul]; rfl
    have hy : (z + z).y = 2 * z.y := by rw [two_mul]; rfl
    have hre : (lr.toC * z.toC).re = lr.x * z.x - lr.y * z.y := rfl
    rw [hre, hlen, hx, hy, Cf.mk.injEq]
    have e1 : 2 * z.x * (lr.x / (2 * d.inputs.length)) - 2 * z.y * (lr.y / (2 * d.inputs.length))
        = z.x * (lr.x / d.inputs.length) - z.y * (lr.y / d.inputs.length) := by
      field_simp
    have e2 : z.x * (lr.x / d.inputs.length) - z.y * (lr.y / d.inputs.length)
        = (lr.x * z.x - lr.y * z.y) / d.inputs.length := by field_simp
    have e3 : 2 * z.y * (lr.x / (2 * d.inputs.length)) = z.y * (lr.x / d.inputs.length) := by
      field_simp
    have e4 : lr.y / (2 * (d.inputs.length : ℝ)) = lr.y / d.inputs.length / 2 := by
      field_simp
    rw [e1, e2, e3, e4, neg_inj, add_left_inj]
    simp only [true_and]
    constructor
    · intro h
      have : (lr.x * z.x - lr.y * z.y) / d.inputs.length * (lr.y / d.inputs.length) = 0 := by
        linarith
      rcases mul_eq_zero.mp this with h | h
      · exact .inr ((div_eq_zero_iff.mp h).resolve_right hB)
      · exact .inl ((div_eq_zero_iff.mp h).resolve_right hB)
    · rintro (h | h) <;> rw [h] <;> simp
  simp only [hone']
  constructor
  · intro h
    by_cases h0 : lr.y = 0
    · exact .inl h0
    · exact .inr fun g hg z hz => (h g hg z hz).resolve_left h0
  · rintro (h | h) g hg z hz
    · exact .inl h
    · exact .inr (h g hg z hz)

/-- C94 is false of the code for complex learning rates: for every rate that is not real there are a
network of two layers and a batch of one point such that training on the point given twice returns
and leaves another network than training on the point given once. -/
theorem C94_refuted_duplicate (f : LossFunc) (lr : Cf w ℝ) (hlr : lr.y ≠ 0) :
    ∃ (n n' n'' : Net (Cf w ℝ)) (d : Dataset (Cf w ℝ)), (∀ l ∈ n.layers, l.WF)
      ∧ d.inputs.length = 1 ∧ d.target.length = 1
      ∧ n.gradientOpt d f lr = some (.ok (), n')
      ∧ n.gradientOpt (d.append d) f lr = some (.ok (), n'') ∧ n'' ≠ n' := by
  have hc : CplxOps.conj ((1 : Cf w ℝ) - (1 - lr)) = CplxOps.conj lr := by rw [sub_sub_cancel]
  have hs := exTwo_sample f 1 (1 - lr)
  rw [hc, one_mul] at hs
  have hfit : List.Forall₂ LayerVec.Fits [([CplxOps.conj lr], [CplxOps.conj lr]),
      ([CplxOps.conj lr], [CplxOps.conj lr])] (exTwo : Net (Cf w ℝ)).layers :=
    .cons ⟨rfl, rfl⟩ (.cons ⟨rfl, rfl⟩ .nil)
  have h1 := (C50_partial_value exTwo _ (by simp [exTwo]) exTwo_wf
    ⟨[.scalar [1]], [.scalar [1 - lr]]⟩ (by simp) f lr (.ok ())).mpr
      ⟨rfl, _, .cons ⟨hs, hfit⟩ .nil, rfl⟩
  have h2 := (C50_partial_value exTwo _ (by simp [exTwo]) exTwo_wf
    (Dataset.append ⟨[.scalar [1]], [.scalar [1 - lr]]⟩ ⟨[.scalar [1]], [.scalar [1 - lr]]⟩)
      (by simp [Dataset.append]) f lr (.ok ())).mpr
      ⟨rfl, _, .cons ⟨hs, hfit⟩ (.cons ⟨hs, hfit⟩ .nil), rfl⟩
  refine ⟨exTwo, _, _, _, exTwo_wf, rfl, rfl, h1, h2, fun heq => ?_⟩
  rw [heq] at h2
  obtain ⟨gss, hg, hiff⟩ := C94_partial_duplicate_iff exTwo _ (by simp [exTwo]) exTwo_wf _ (by simp)
    rfl f lr _ h1
  rcases hiff.mp h2 with h | h
  · exact hlr h
  · cases hg with
    | cons a t =>
      cases t
      rw [hs] at a
      obtain rfl := Option.some.inj a
      rw [exTwo_sum] at h
      have h3 := h _ (List.mem_cons_self ..) (CplxOps.conj lr) (by simp)
      have h4 : (CplxOps.conj lr).toC = starRingEnd ℂ lr.toC := Cf.toC_conj lr
      rw [h4, Complex.mul_conj, Complex.ofReal_re, Complex.normSq_eq_zero] at h3
      exact hlr (congrArg Complex.im h3)

/-! ## The loss and the accuracy of joined data sets -/

theorem loss_sum (n : Net (Cf w ℝ)) (d : Dataset (Cf w ℝ)) (f : LossFunc) (v : ℝ) :
    n.loss d f = some v ↔ ∃ vals, d.points.mapM (pointLoss n f) = some vals ∧ vals ≠ []
      ∧ v = vals.sum / vals.length := by
  rw [Net.loss_eq]
  constructor
  · intro h
    obtain ⟨vals, h1, h⟩ := Option.bind_eq_some_iff.mp h
    cases vals with
    | nil => simp [reduce] at h
    | cons a vals =>
      refine ⟨_, h1, by simp, ?_⟩
      simp only [Option.bind_eq_bind, reduce, Option.bind_some] at h
      have : vals.foldl BasicOps.add a = a + vals.sum := foldl_add_sum _ _
      rw [this] at h
      simpa [BasicOps.div, RealOps.ofUsize, sofNat, sdiv] using h.symm
  · rintro ⟨vals, h1, h2, rfl⟩
    rw [h1]
    cases vals with
    | nil => exact absurd rfl h2
    | cons a vals =>
      simp only [Option.bind_eq_bind, reduce, Option.bind_some]
      have : vals.foldl BasicOps.add a = a + vals.sum := foldl_add_sum _ _
      rw [this, List.sum_cons]
      rfl

theorem mapM_append_iff {β γ : Type} (g : β → Option γ) (a b : List β) (l : List γ) :
    (a ++ b).mapM g = some l
      ↔ ∃ l1 l2, a.mapM g = some l1 ∧ b.mapM g = some l2 ∧ l = l1 ++ l2 := by
  rw [List.mapM_append]
  simp only [Option.bind_eq_bind, Option.bind_eq_some_iff, Option.pure_def, Option.some.injEq]
  constructor
  · rintro ⟨l1, h1, l2, h2, h3⟩; exact ⟨l1, l2, h1, h2, h3.symm⟩
  · rintro ⟨l1, l2, h1, h2, h3⟩; exact ⟨l1, h1, l2, h2, h3.symm⟩

/-- C94. In exact arithmetic the loss of two non-empty data sets joined is defined exactly when both
losses are, and is their mean weighted by the numbers of points. -/
theorem C94_loss (n : Net (Cf w ℝ)) (d e : Dataset (Cf w ℝ)) (hd : d.points ≠ []) (he : e.points ≠ [])
    (hp : d.inputs.length = d.target.length) (f : LossFunc) (v : ℝ) :
    n.loss (d.append e) f = some v ↔ ∃ a b, n.loss d f = some a ∧ n.loss e f = some b
      ∧ v = (d.points.length * a + e.points.length * b) / (d.points.length + e.points.length) := by
  have hlen : ∀ {pts : List (IOType (Cf w ℝ) × IOType (Cf w ℝ))} {vals : List ℝ},
      pts.mapM (pointLoss n f) = some vals → vals.length = pts.length := by
    intro pts vals h
    induction pts generalizing vals with
    | nil => cases h; rfl
    | cons p pts ih =>
      obtain ⟨l1, l2, h1, h2, rfl⟩ := (mapM_append_iff _ [p] pts vals).mp h
      rw [List.length_append, ih h2]
      simp only [List.mapM_cons, List.mapM_nil, Option.bind_eq_bind, Option.pure_def,
        Option.bind_eq_some_iff, Option.some.injEq] at h1
      obtain ⟨_, -, _, rfl, rfl⟩ := h1
      simp [Nat.add_comm]
  have hdl : (d.points.length : ℝ) ≠ 0 := by exact_mod_cast (List.length_pos_iff.mpr hd).ne'
  have hel : (e.points.length : ℝ) ≠ 0 := by exact_mod_cast (List.length_pos_iff.mpr he).ne'
  rw [loss_sum, Dataset.points_append hp]
  constructor
  · rintro ⟨vals, h1, -, rfl⟩
    obtain ⟨l1, l2, h2, h3, rfl⟩ := (mapM_append_iff _ _ _ _).mp h1
    have e1 := hlen h2
    have e2 := hlen h3
    refine ⟨_, _, (loss_sum n d f _).mpr ⟨l1, h2, ?_, rfl⟩, (loss_sum n e f _).mpr ⟨l2, h3, ?_, rfl⟩, ?_⟩
    · rintro rfl; exact hd (List.length_eq_zero_iff.mp e1.symm)
    · rintro rfl; exact he (List.length_eq_zero_iff.mp e2.symm)
    · rw [List.sum_append, List.length_append, e1, e2, mul_div_cancel₀ _ hdl, mul_div_cancel₀ _ hel]
      push_cast
      rfl
  · rintro ⟨a, b, ha, hb, rfl⟩
    obtain ⟨l1, h2, h3, rfl⟩ := (loss_sum n d f _).mp ha
    obtain ⟨l2, h4, h5, rfl⟩ := (loss_sum n e f _).mp hb
    have e1 := hlen h2
    have e2 := hlen h4
    refine ⟨l1 ++ l2, (mapM_append_iff _ _ _ _).mpr ⟨l1, l2, h2, h4, rfl⟩, by simp [h3], ?_⟩
    rw [List.sum_append, List.length_append, e1, e2, mul_div_cancel₀ _ hdl, mul_div_cancel₀ _ hel]
    push_cast
    rfl

/-- C94. In exact arithmetic the accuracy on two non-empty data sets joined is defined exactly when
both accuracies are, and is their mean weighted by the numbers of points. -/
theorem C94_accuracy (n : Net (Cf w ℝ)) (d e : Dataset (Cf w ℝ)) (hd : d.target ≠ [])
    (he : e.target ≠ []) (hp : d.inputs.length = d.target.length) (v : ℝ) :
    n.maxPredTest (d.append e) = some v ↔ ∃ a b, n.maxPredTest d = some a ∧ n.maxPredTest e = some b
      ∧ v = (d.target.length * a + e.target.length * b) / (d.target.length + e.target.length) := by
  have hdl : (d.target.length : ℝ) ≠ 0 := by exact_mod_cast (List.length_pos_iff.mpr hd).ne'
  have hel : (e.target.length : ℝ) ≠ 0 := by exact_mod_cast (List.length_pos_iff.mpr he).ne'
  have hm : ∀ (d : Dataset (Cf w ℝ)) (v : ℝ), n.maxPredTest d = some v ↔ ∃ res : List Nat,
      (d.points.mapM fun p => do
        let prediction ← n.forward p.1 >>= unwrap
        let pred ← prediction.asSlice
        let targ ← p.2.asSlice
        some (if Net.argmax targ = Net.argmax pred then 1 else 0)) = some res
      ∧ v = (res.sum : ℝ) / d.target.length := by
    intro d v
    unfold Net.maxPredTest
    rw [Option.bind_eq_bind, Option.bind_eq_some_iff]
    constructor
    · rintro ⟨res, h1, h2⟩
      exact ⟨res, h1, (Option.some.inj h2).symm⟩
    · rintro ⟨res, h1, rfl⟩
      exact ⟨res, h1, rfl⟩
  have ht : ((d.append e).target.length : ℝ) = d.target.length + e.target.length := by
    simp only [Dataset.append, List.length_append]; push_cast; rfl
  rw [hm, Dataset.points_append hp, ht]
  simp only [mapM_append_iff]
  constructor
  · rintro ⟨res, ⟨l1, l2, h1, h2, rfl⟩, rfl⟩
    refine ⟨_, _, (hm d _).mpr ⟨l1, h1, rfl⟩, (hm e _).mpr ⟨l2, h2, rfl⟩, ?_⟩
    rw [mul_div_cancel₀ _ hdl, mul_div_cancel₀ _ hel, List.sum_append]
    push_cast
    rfl
  · rintro ⟨a, b, ha, hb, rfl⟩
    obtain ⟨l1, h1, rfl⟩ := (hm d a).mp ha
    obtain ⟨l2, h2, rfl⟩ := (hm e b).mp hb
    refine ⟨_, ⟨l1, l2, h1, h2, rfl⟩, ?_⟩
    rw [mul_div_cancel₀ _ hdl, mul_div_cancel₀ _ hel, List.sum_append]
    push_cast
    rfl

/-! ## Examples -/

theorem exTwo_returns (f : LossFunc) (lr x t : Cf w ℝ) :
    ∃ n', (exTwo : Net (Cf w ℝ)).gradientOpt ⟨[.scalar [x]], [.scalar [t]]⟩ f lr
      = some (.ok (), n') :=
  ⟨_, (C50_partial_value exTwo _ (by simp [exTwo]) exTwo_wf _ (by simp) f lr (.ok ())).mpr
    ⟨rfl, _, .cons ⟨exTwo_sample f x t, .cons ⟨rfl, rfl⟩ (.cons ⟨rfl, rfl⟩ .nil)⟩ .nil, rfl⟩⟩

/-- Training calls on single points return, hence so does the call on the two points, and the network
it leaves lies half way between. -/
example (f : LossFunc) (s : ℝ) (x t x' t' : Cf .w64 ℝ) :
    ∃ n1 n2, exTwo.gradientOpt ⟨[.scalar [x]], [.scalar [t]]⟩ f ⟨s, 0⟩ = some (.ok (), n1)
      ∧ exTwo.gradientOpt ⟨[.scalar [x']], [.scalar [t']]⟩ f ⟨s, 0⟩ = some (.ok (), n2)
      ∧ exTwo.gradientOpt ⟨[.scalar [x], .scalar [x']], [.scalar [t], .scalar [t']]⟩ f ⟨s, 0⟩
        = some (.ok (), n1.blend n2 (1 / 2)) := by
  obtain ⟨n1, h1⟩ := exTwo_returns f (⟨s, 0⟩ : Cf .w64 ℝ) x t
  obtain ⟨n2, h2⟩ := exTwo_returns f (⟨s, 0⟩ : Cf .w64 ℝ) x' t'
  refine ⟨n1, n2, h1, h2, (C94_partial_concat exTwo _ (by simp [exTwo]) exTwo_wf
    ⟨[.scalar [x]], [.scalar [t]]⟩ ⟨[.scalar [x']], [.scalar [t']]⟩ (by simp) (by simp) rfl f _ rfl
    _).mpr ⟨rfl, n1, n2, h1, h2, ?_⟩⟩
  norm_num

/-- With rate zero the training call returns and changes nothing. -/
example (f : LossFunc) (x t : Cf .w32 ℝ) :
    exTwo.gradientOpt ⟨[.scalar [x]], [.scalar [t]]⟩ f ⟨0, 0⟩ = some (.ok (), exTwo) := by
  obtain ⟨n1, h1⟩ := exTwo_returns f (⟨0, 0⟩ : Cf .w32 ℝ) x t
  rw [h1, C94_zero_rate _ _ exTwo_wf _ _ _ h1]

/-- Halving the rate halves the step. -/
example (f : LossFunc) (x t : Cf .w32 ℝ) :
    ∃ n', exTwo.gradientOpt ⟨[.scalar [x]], [.scalar [t]]⟩ f ⟨1, 0⟩ = some (.ok (), n')
      ∧ exTwo.gradientOpt ⟨[.scalar [x]], [.scalar [t]]⟩ f ⟨1 / 2 * 1, 0⟩
        = some (.ok (), exTwo.blend n' (1 / 2)) := by
  obtain ⟨n1, h1⟩ := exTwo_returns f (⟨1, 0⟩ : Cf .w32 ℝ) x t
  exact ⟨n1, h1, C94_partial_rate _ _ (by simp [exTwo]) exTwo_wf _ (by simp) _ _ _ _ h1⟩

/-- The losses 1 and 3 of two points average to 2. -/
example (n : Net (Cf .w64 ℝ)) (x t x' t' : IOType (Cf .w64 ℝ)) (f : LossFunc)
    (h1 : n.loss ⟨[x], [t]⟩ f = some 1) (h2 : n.loss ⟨[x'], [t']⟩ f = some 3) :
    n.loss ⟨[x, x'], [t, t']⟩ f = some 2 :=
  (C94_loss n ⟨[x], [t]⟩ ⟨[x'], [t']⟩ (by simp [Dataset.points]) (by simp [Dataset.points]) rfl f
    2).mpr ⟨1, 3, h1, h2, by simp [Dataset.points]; norm_num⟩

end Renplex
