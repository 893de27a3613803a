import Verif.Spec.Still
import Verif.Props.Nan
import Verif.Props.Dead
import Verif.Props.Hidden
import Verif.Props.IeeeAct
/-!
# Parameters that training leaves alone, in `f32` and `f64`

The argument works for any set of numbers that is closed under what happens to a derivative on its way
to the parameter (`Nulls`).
-/

namespace Renplex
variable {α P : Type}

/-- Sums of such numbers, products with such numbers and their conjugates are again such numbers. -/
structure Nulls [CplxOps α P] (Z : α → Prop) : Prop where
  zero : Z BasicOps.zero
  add {a b : α} : Z a → Z b → Z (BasicOps.add a b)
  addAssign {a b : α} : Z a → Z b → Z (BasicOps.addAssign a b)
  mul_left {a b : α} : Z a → Z (BasicOps.mul a b)
  mul_right {a b : α} : Z b → Z (BasicOps.mul a b)
  mulAssign {a b : α} : Z a → Z (BasicOps.mulAssign a b)
  conj {a : α} : Z a → Z (CplxOps.conj a)

/-- The entries at the places `I` and `J` of the two vectors are such numbers. -/
def LayerVec.NullAt (Z : α → Prop) (I J : Nat → Prop) (g : LayerVec α) : Prop :=
  (∀ i, I i → ∀ e, g.1[i]? = some e → Z e) ∧ ∀ j, J j → ∀ e, g.2[j]? = some e → Z e

section
variable [CplxOps α P] {Z : α → Prop} (hZ : Nulls Z)

include hZ in
theorem Nulls.addSlice {l r s : List α} (h : unwrap (addSliceMut l r) = some s) {i : Nat}
    (hl : ∀ e, l[i]? = some e → Z e) (hr : ∀ e, r[i]? = some e → Z e) : ∀ e, s[i]? = some e → Z e := by
  obtain ⟨hlen, rfl⟩ := addSliceMut_ok h
  intro e he
  rw [zipUpd_eq_zipWith _ _ _ hlen, List.getElem?_zipWith] at he
  cases ha : l[i]? with
  | none => rw [ha] at he; cases he
  | some a =>
    cases hb : r[i]? with
    | none => rw [ha, hb] at he; cases he
    | some b =>
      rw [ha, hb] at he
      cases he
      exact hZ.addAssign (hl a ha) (hr b hb)

include hZ in
theorem Nulls.addPair {I J : Nat → Prop} {a g b : LayerVec α} (h : addPair a g = some b) (ha : a.NullAt Z I J)
    (hg : g.NullAt Z I J) : b.NullAt Z I J := by
  unfold Renplex.addPair at h
  obtain ⟨w, h1, h⟩ := Option.bind_eq_some_iff.mp h
  obtain ⟨v, h2, h⟩ := Option.bind_eq_some_iff.mp h
  cases h
  exact ⟨fun i hi => hZ.addSlice h1 (ha.1 i hi) (hg.1 i hi), fun j hj => hZ.addSlice h2 (ha.2 j hj) (hg.2 j hj)⟩

include hZ in
theorem Nulls.fold {I J : Nat → Prop} {n : Net α} {f : LossFunc} {k : Nat} (pts : List (IOType α × IOType α))
    {acc acc' : List (LayerVec α)} (hacc : List.Forall₂ LayerVec.Fits acc n.layers)
    (h : pts.foldlM (Net.sampleStep n f) acc = some acc') (h0 : ∀ a, acc[k]? = some a → a.NullAt Z I J)
    (hs : ∀ p ∈ pts, ∀ gs, sampleGrads n f p = some gs → ∀ g, gs[k]? = some g → g.NullAt Z I J) :
    List.Forall₂ LayerVec.Fits acc' n.layers ∧ ∀ a, acc'[k]? = some a → a.NullAt Z I J := by
  induction pts generalizing acc with
  | nil =>
    cases h
    exact ⟨hacc, h0⟩
  | cons p pts ih =>
    rw [List.foldlM_cons] at h
    obtain ⟨acc1, h1, h⟩ := Option.bind_eq_some_iff.mp h
    rw [Net.sampleStep_eq n f acc (hacc.imp fun a l h => h.nonprop)] at h1
    obtain ⟨gs, h2, h3⟩ := Option.bind_eq_some_iff.mp h1
    obtain ⟨f1, f2⟩ := addPairs_fits hacc (sampleGrads_length h2) h3
    refine ih f2 h ?_ fun p hp => hs p (by simp [hp])
    intro b hb
    rw [mapM_getElem? h3] at hb
    obtain ⟨⟨a, g⟩, h4, h5⟩ := Option.bind_eq_some_iff.mp hb
    rw [List.getElem?_zip_eq_some] at h4
    exact hZ.addPair h5 (h0 a h4.1) (hs p (by simp) gs h2 g h4.2)

include hZ in
/-- What a training call does to layer `k` if the derivatives of all points are null at some places. -/
theorem Nulls.training {I J : Nat → Prop} {n n' : Net α} (hw : ∀ l ∈ n.layers, l.WF) {data : Dataset α}
    {f : LossFunc} {lr : α} (h : n.gradientOpt data f lr = some (.ok (), n')) {k : Nat}
    (hs : ∀ p ∈ data.points, ∀ gs, sampleGrads n f p = some gs → ∀ g, gs[k]? = some g → g.NullAt Z I J)
    {l : Layer α} (hl : n.layers[k]? = some l) :
    ∃ scale g, LayerVec.Fits g l ∧ g.NullAt Z I J ∧ n'.layers[k]? = some (l.zipParams
      (fun p d => BasicOps.subAssign p (CplxOps.conj (BasicOps.mulAssign d scale))) g) := by
  unfold Net.gradientOpt at h
  rw [if_neg (fun e => by rw [if_pos e] at h; cases h)] at h
  obtain ⟨acc, h1, h⟩ := Option.bind_eq_some_iff.mp h
  obtain ⟨scale, -, h⟩ := Option.bind_eq_some_iff.mp h
  obtain ⟨layers, h2, h⟩ := Option.bind_eq_some_iff.mp h
  cases h
  obtain ⟨f1, f2⟩ := hZ.fold (I := I) (J := J) (k := k) data.points (acc := n.layers.map Net.initAcc) (by
    rw [List.forall₂_map_left_iff]
    exact List.forall₂_same.mpr fun l _ => Net.initAcc_fits l) h1 (by
      intro a ha
      rw [List.getElem?_map] at ha
      obtain ⟨l0, -, rfl⟩ := Option.map_eq_some_iff.mp ha
      unfold Net.initAcc
      split
      · constructor
        · intro i _ e he
          rw [List.getElem?_replicate] at he
          split at he
          · cases he; exact hZ.zero
          · cases he
        · intro i _ e he
          rw [List.getElem?_replicate] at he
          split at he
          · cases he; exact hZ.zero
          · cases he
      · constructor
        · intro i _ e he; simp at he
        · intro i _ e he; simp at he) hs
  have hk : k < acc.length := by
    rw [f1.length_eq]
    exact (List.getElem?_eq_some_iff.mp hl).1
  have hg : acc[k]? = some acc[k] := List.getElem?_eq_getElem hk
  have hfit : LayerVec.Fits acc[k] l := by
    have := List.forall₂_iff_zip.mp f1
    refine this.2 (List.mem_iff_getElem?.mpr ⟨k, ?_⟩)
    rw [List.getElem?_zip_eq_some]
    exact ⟨hg, hl⟩
  refine ⟨scale, acc[k], hfit, f2 _ hg, ?_⟩
  show layers[k]? = _
  rw [mapM_getElem? h2, show (acc.zip n.layers)[k]? = some (acc[k], l) from by
    rw [List.getElem?_zip_eq_some]; exact ⟨hg, hl⟩]
  exact Net.updateLayer_eq scale _ l (hw l (List.mem_of_getElem? hl)) hfit

omit [CplxOps α P] in
theorem derivLoop_out [BasicOps α] {input : List α} {items : List ((α × α) × List α)} {w b d w' b' d' : List α}
    (h : Dense.derivLoop input items (w, b, d) = some (w', b', d')) :
    w' = w ++ items.flatMap (fun p => input.map fun e => BasicOps.mul e (BasicOps.add p.1.1 p.1.2))
      ∧ b' = b ++ items.map fun p => BasicOps.add p.1.1 p.1.2 := by
  induction items generalizing w b d with
  | nil => cases h; simp
  | cons p items ih =>
    obtain ⟨⟨v, c⟩, row⟩ := p
    simp only [Dense.derivLoop] at h
    obtain ⟨d1, -, h⟩ := Option.bind_eq_some_iff.mp h
    obtain ⟨h1, h2⟩ := ih h
    rw [h1, h2]
    simp

/-- The derivatives of the parameters of a dense layer. -/
theorem Dense.params_out {l : Dense α} {prev : IOType α} {d dc : List α} {r : Derivs α}
    (h : ((Layer.dense l).computeDerivatives prev d dc >>= unwrap) = some r) :
    ∃ (v q : List α) (D C : Nat → α) (u : Nat), prev = .scalar v ∧ l.computeQ v = some q
      ∧ v.length = l.weights.shape.2
      ∧ (∀ j, j < u → ∃ z a b e e', q[j]? = some z ∧ CplxOps.dActivate l.func z = some a
          ∧ CplxOps.dConjActivate l.func z = some b ∧ D j = BasicOps.mul a e
          ∧ C j = BasicOps.mul (CplxOps.conj b) e')
      ∧ r.1 = (List.range u).flatMap (fun j => v.map fun e => BasicOps.mul e (BasicOps.add (D j) (C j)))
      ∧ r.2.1 = (List.range u).map fun j => BasicOps.add (D j) (C j) := by
  obtain ⟨r0, h, h'⟩ := Option.bind_eq_some_iff.mp h
  cases r0 with
  | error e => cases h'
  | ok r0 =>
  cases h'
  simp only [Layer.computeDerivatives] at h
  unfold Dense.computeDerivatives at h
  rw [if_neg (fun e => by rw [if_pos e] at h; cases h), if_neg (fun e => by
    rw [if_pos e] at h; cases h)] at h
  cases prev with
  | matrix ms => cases h
  | scalar v =>
    obtain ⟨q, hq, h⟩ := Option.bind_eq_some_iff.mp h
    obtain ⟨u, hu, h⟩ := Option.bind_eq_some_iff.mp h
    obtain ⟨c, hc, h⟩ := Option.bind_eq_some_iff.mp h
    obtain ⟨rows, hrows, h⟩ := Option.bind_eq_some_iff.mp h
    obtain ⟨⟨a1, a2, a3⟩, h3, h⟩ := Option.bind_eq_some_iff.mp h
    cases h
    obtain ⟨e1, e2⟩ := derivLoop_out h3
    have hv : v.length = l.weights.shape.2 := by
      obtain ⟨r, h1, h2⟩ := Option.bind_eq_some_iff.mp hq
      by_contra hc
      rw [Mat.mulSlice, if_pos (fun e => hc e.symm)] at h1
      cases h1
      obtain ⟨res, h3, -⟩ := Option.bind_eq_some_iff.mp h2
      cases h3
    have : Nonempty ((α × α) × List α) := ⟨((BasicOps.zero, BasicOps.zero), [])⟩
    obtain ⟨F, hF⟩ := exists_range_map ((u.zip c).zip rows)
    refine ⟨v, q, fun j => (F j).1.1, fun j => (F j).1.2, ((u.zip c).zip rows).length, rfl, hq, hv, ?_, ?_, ?_⟩
    · intro j hj
      have h4 : ((u.zip c).zip rows)[j]? = some (F j) := by
        rw [hF]
        rw [List.getElem?_map]
        rw [List.getElem?_range hj]
        rfl
      obtain ⟨h5, -⟩ := List.getElem?_zip_eq_some.mp h4
      obtain ⟨h6, h7⟩ := List.getElem?_zip_eq_some.mp h5
      rw [mapM_getElem? hu] at h6
      rw [mapM_getElem? hc] at h7
      obtain ⟨⟨z, e⟩, k1, k2⟩ := Option.bind_eq_some_iff.mp h6
      obtain ⟨⟨z', e'⟩, k3, k4⟩ := Option.bind_eq_some_iff.mp h7
      obtain ⟨k1, -⟩ := List.getElem?_zip_eq_some.mp k1
      obtain ⟨k3, -⟩ := List.getElem?_zip_eq_some.mp k3
      rw [k1] at k3
      cases k3
      obtain ⟨a, m1, m2⟩ := Option.bind_eq_some_iff.mp k2
      obtain ⟨b, m3, m4⟩ := Option.bind_eq_some_iff.mp k4
      exact ⟨z, a, b, e, e', k1, m1, m3, (Option.some.inj m2).symm, (Option.some.inj m4).symm⟩
    · rw [e1, List.nil_append]
      conv_lhs => rw [hF]
      rw [List.flatMap_map]
    · rw [e2, List.nil_append]
      conv_lhs => rw [hF]
      rw [List.map_map]
      rfl

end

section ieee
variable {w : Width} {B : Binary} {L : Libm B}

namespace Fp

theorem near_abs_val_lt {a : Fp B} (ha : a.Finite) : B.near |a.val| < B.top := by
  cases a with
  | nan => exact ha.elim
  | inf s => exact ha.elim
  | num s m k h =>
    rw [abs_val_num, B.near_stored h, B.top_eq]
    have h1 : (m : ℝ) < ((2 ^ B.p : Nat) : ℝ) := by exact_mod_cast h.1
    have h2 : (2 : ℝ) ^ k ≤ 2 ^ B.kmax := zpow_le_zpow_right₀ (by norm_num) h.2.2.1
    have h3 : (0 : ℝ) < 2 ^ k := by positivity
    calc (m : ℝ) * 2 ^ k < ((2 ^ B.p : Nat) : ℝ) * 2 ^ k := by gcongr
      _ ≤ _ := by gcongr

theorem near_zero_lt : B.near |(0 : ℝ)| < B.top := by
  have := near_abs_val_lt (zero_finite (B := B) false)
  rwa [zero_val] at this

theorem Null.zero (s : Bool) : (zero s : Fp B).Null := .inr ⟨zero_finite s, zero_val s⟩

theorem Null.neg {a : Fp B} (h : a.Null) : a.neg.Null := by
  rcases h with rfl | ⟨h1, h2⟩
  · exact .inl rfl
  · obtain ⟨h3, h4⟩ := neg_spec h1
    exact .inr ⟨h3, by rw [h4, h2, neg_zero]⟩

theorem Null.add {a b : Fp B} (ha : a.Null) (hb : b.Null) : (a.add b).Null := by
  rcases ha with rfl | ⟨h1, h2⟩
  · exact .inl (nan_add b)
  rcases hb with rfl | ⟨h3, h4⟩
  · exact .inl (add_nan a)
  have e : a.val + b.val = 0 := by rw [h2, h4, add_zero]
  obtain ⟨h5, h6⟩ := add_spec h1 h3 (by rw [e]; exact near_zero_lt)
  exact .inr ⟨h5, by rw [h6, e, B.round_zero]⟩

theorem Null.sub {a b : Fp B} (ha : a.Null) (hb : b.Null) : (a.sub b).Null := ha.add hb.neg

theorem Null.mul_left {a : Fp B} (ha : a.Null) (b : Fp B) : (a.mul b).Null := by
  rcases ha with rfl | ⟨h1, h2⟩
  · exact .inl (nan_mul b)
  by_cases hb : b.Finite
  · have e : a.val * b.val = 0 := by rw [h2, zero_mul]
    obtain ⟨h5, h6⟩ := mul_spec h1 hb (by rw [e]; exact near_zero_lt)
    exact .inr ⟨h5, by rw [h6, e, B.round_zero]⟩
  · cases a with
    | nan => exact h1.elim
    | inf s => exact h1.elim
    | num s m k h =>
      have hm : m = 0 := (val_eq_zero s h).mp h2
      cases b with
      | nan => exact .inl rfl
      | inf t => exact .inl (if_pos hm)
      | num t m' k' h' => exact (hb trivial).elim

theorem Null.mul_right {b : Fp B} (hb : b.Null) (a : Fp B) : (a.mul b).Null := by
  rcases hb with rfl | ⟨h1, h2⟩
  · exact .inl (mul_nan a)
  by_cases ha : a.Finite
  · have e : a.val * b.val = 0 := by rw [h2, mul_zero]
    obtain ⟨h5, h6⟩ := mul_spec ha h1 (by rw [e]; exact near_zero_lt)
    exact .inr ⟨h5, by rw [h6, e, B.round_zero]⟩
  · cases b with
    | nan => exact h1.elim
    | inf s => exact h1.elim
    | num s m k h =>
      have hm : m = 0 := (val_eq_zero s h).mp h2
      cases a with
      | nan => exact .inl rfl
      | inf t => exact .inl (if_pos hm)
      | num t m' k' h' => exact (ha trivial).elim

theorem Null.keeps {d : Fp B} (hd : d.Null) (a : Fp B) : a.Keeps (a.sub d) := by
  rcases hd with rfl | ⟨h1, h2⟩
  · exact .inl (add_nan a)
  by_cases ha : a.Finite
  · have e : a.val - d.val = a.val := by rw [h2, sub_zero]
    obtain ⟨h5, h6⟩ := sub_spec ha h1 (by rw [e]; exact near_abs_val_lt ha)
    exact .inr (.inr ⟨ha, h5, by rw [h6, e, B.round_val ha]⟩)
  · cases a with
    | nan => exact .inl (nan_add _)
    | inf s =>
      cases d with
      | nan => exact h1.elim
      | inf s => exact h1.elim
      | num t m k h => exact .inr (.inl rfl)
    | num t m' k' h' => exact (ha trivial).elim

theorem Keeps.trans {a b c : Fp B} (h : a.Keeps b) (h' : b.Keeps c) : a.Keeps c := by
  rcases h' with h' | rfl | ⟨h1, h2, h3⟩
  · exact .inl h'
  · exact h
  · rcases h with rfl | rfl | ⟨h4, h5, h6⟩
    · exact h1.elim
    · exact .inr (.inr ⟨h1, h2, h3⟩)
    · exact .inr (.inr ⟨h4, h2, h3.trans h6⟩)

end Fp

theorem Cf.Keeps.refl (z : Cf w (Fl L)) : z.Keeps z := ⟨.inr (.inl rfl), .inr (.inl rfl)⟩

theorem Cf.Keeps.trans {a b c : Cf w (Fl L)} (h : a.Keeps b) (h' : b.Keeps c) : a.Keeps c :=
  ⟨h.1.trans h'.1, h.2.trans h'.2⟩

theorem Fl.null_zero : (Scalar.zero : Fl L).fp.Null := by
  have h := Fl.zero_finite (L := L)
  exact .inr ⟨h.1, h.2⟩

theorem Cf.nulls : Nulls (Cf.Null : Cf w (Fl L) → Prop) where
  zero := ⟨Fl.null_zero, Fl.null_zero⟩
  add ha hb := ⟨ha.1.add hb.1, ha.2.add hb.2⟩
  addAssign ha hb := ⟨ha.1.add hb.1, ha.2.add hb.2⟩
  mul_left ha := ⟨(ha.1.mul_left _).sub (ha.2.mul_left _), (ha.1.mul_left _).add (ha.2.mul_left _)⟩
  mul_right hb := ⟨(hb.1.mul_right _).sub (hb.2.mul_right _), (hb.2.mul_right _).add (hb.1.mul_right _)⟩
  mulAssign ha := ⟨(ha.1.mul_left _).sub (ha.2.mul_left _),
    (((ha.1.mul_left _).sub (ha.2.mul_left _)).mul_left _).add (ha.2.mul_left _)⟩
  conj ha := ⟨ha.1, ha.2.neg⟩

theorem Cf.Null.keeps {d : Cf w (Fl L)} (hd : d.Null) (z : Cf w (Fl L)) : z.Keeps (BasicOps.subAssign z d) :=
  ⟨hd.1.keeps _, hd.2.keeps _⟩

/-- A training call on a dense layer whose derivatives are null at some places. -/
theorem still_dense {n n' : Net (Cf w (Fl L))} (hw : ∀ l ∈ n.layers, l.WF) {pre post : List (Layer (Cf w (Fl L)))}
    {l : Dense (Cf w (Fl L))} {u m : Nat} {W : Nat → Nat → Cf w (Fl L)} {b : Nat → Cf w (Fl L)} {f : ActFunc}
    (hn : n.layers = pre ++ .dense l :: post) (hl : l.Is u m W b f) {data : Dataset (Cf w (Fl L))}
    {lf : LossFunc} {lr : Cf w (Fl L)} (h : n.gradientOpt data lf lr = some (.ok (), n')) {I J : Nat → Prop}
    (hs : ∀ p ∈ data.points, ∀ gs, sampleGrads n lf p = some gs → ∀ g, gs[pre.length]? = some g →
      g.NullAt Cf.Null I J) :
    ∃ (l' : Dense (Cf w (Fl L))) (W' : Nat → Nat → Cf w (Fl L)) (b' : Nat → Cf w (Fl L)),
      n'.layers[pre.length]? = some (.dense l') ∧ l'.Is u m W' b' f
        ∧ (∀ j, j < u → ∀ i, i < m → I (j * m + i) → (W j i).Keeps (W' j i))
        ∧ ∀ j, j < u → J j → (b j).Keeps (b' j) := by
  obtain ⟨scale, g, h1, h2, h3⟩ := Cf.nulls.training hw h hs (l := .dense l) (by rw [hn]; simp)
  have : Nonempty (Cf w (Fl L)) := ⟨Cf.default⟩
  unfold LayerVec.Fits at h1
  rw [if_pos (show (Layer.dense l).propagates = true from rfl)] at h1
  have e1 : g.1.length = u * m := by
    rw [h1.1]
    show l.weights.shape.1 * l.weights.shape.2 = _
    rw [hl.1.1]
  have e2 : g.2.length = u := by
    rw [h1.2]
    show l.biases.length = _
    rw [hl.2.1]; simp
  obtain ⟨A, hA⟩ := exists_table u m g.1 e1
  obtain ⟨s, hs'⟩ := exists_range_map g.2
  rw [e2] at hs'
  have eg : g = (table u m A, (List.range u).map s) := Prod.ext hA hs'
  rw [eg] at h2 h3
  obtain ⟨l', e3, e4⟩ := Dense.zipParams_is (A := A) (s := s) hl
    (fun p d => BasicOps.subAssign p (CplxOps.conj (BasicOps.mulAssign d scale)))
  rw [e3] at h3
  refine ⟨l', _, _, h3, e4, ?_, ?_⟩
  · intro j hj i hi hI
    exact (Cf.nulls.conj (Cf.nulls.mulAssign (h2.1 _ hI _ (table_getElem? u m A hj hi)))).keeps _
  · intro j hj hJ
    refine (Cf.nulls.conj (Cf.nulls.mulAssign (h2.2 _ hJ _ ?_))).keeps _
    simp [hj]

/-- C109. In `f32` and `f64`, too, a weight whose input is zero at every point of the batch does not
change in training, for any loss and any learning rate; the only other thing it can become is NaN. The
weights belong to a dense layer anywhere in the network. -/
theorem C109_inputs {n n' : Net (Cf w (Fl L))} (hw : ∀ l ∈ n.layers, l.WF)
    {pre post : List (Layer (Cf w (Fl L)))} {l : Dense (Cf w (Fl L))} {u m : Nat}
    {W : Nat → Nat → Cf w (Fl L)} {b : Nat → Cf w (Fl L)} {f : ActFunc}
    (hn : n.layers = pre ++ .dense l :: post) (hl : l.Is u m W b f) {data : Dataset (Cf w (Fl L))}
    {lf : LossFunc} {lr : Cf w (Fl L)} (h : n.gradientOpt data lf lr = some (.ok (), n')) {I : Nat → Prop}
    (hz : ∀ p ∈ data.points, ∀ i, I i → ZeroAt pre i p.1) :
    ∃ (l' : Dense (Cf w (Fl L))) (W' : Nat → Nat → Cf w (Fl L)) (b' : Nat → Cf w (Fl L)),
      n'.layers[pre.length]? = some (.dense l') ∧ l'.Is u m W' b' f
        ∧ ∀ j, j < u → ∀ i, i < m → I i → (W j i).Keeps (W' j i) := by
  have : Nonempty (Cf w (Fl L)) := ⟨Cf.default⟩
  obtain ⟨l', W', b', h1, h2, h3, -⟩ := still_dense hw hn hl h
    (I := fun k => ∃ j i, j < u ∧ i < m ∧ I i ∧ k = j * m + i) (J := fun _ => False) (by
      intro p hp gs hgs g hg
      refine ⟨?_, fun j hj => hj.elim⟩
      rintro k ⟨j, i, hj, hi, hI, rfl⟩ e he
      obtain ⟨ys, prev, d, dc, r, A, g1, g2, s1, s2, s3, -, rfl, s5⟩ := sampleGrads_split hn rfl hgs
      have eg : g = (r.1, r.2.1) := by
        rw [List.getElem?_append_right (by simp [s5]), List.length_reverse, s5, Nat.sub_self] at hg
        exact (Option.some.inj hg).symm
      subst eg
      obtain ⟨v, q, D, C, u', rfl, -, hv, -, e1, -⟩ := Dense.params_out s3
      rw [hl.1.1] at hv
      obtain ⟨X, hX⟩ := exists_range_map v
      rw [show v.length = m from hv] at hX
      change r.1[j * m + i]? = _ at he
      have e2 : r.1 = table u' m fun j i => BasicOps.mul (X i) (BasicOps.add (D j) (C j)) := by
        rw [e1, hX]
        simp only [List.map_map]
        rfl
      rw [e2] at he
      have hj' : j < u' := by
        by_contra hc
        rw [List.getElem?_eq_none (by
          rw [table_length]
          have := Nat.mul_le_mul_right m (not_lt.mp hc)
          omega)] at he
        cases he
      rw [table_getElem? u' m _ hj' hi] at he
      cases he
      refine Cf.nulls.mul_left (hz p hp i hI ys s1 v s2 _ ?_)
      rw [hX]
      simp [hi])
  exact ⟨l', W', b', h1, h2, fun j hj i hi hI => h3 j hj i hi ⟨j, i, hj, hi, hI, rfl⟩⟩

/-- C109. In `f32` and `f64`, too, a training call does not move a unit of a dense layer whose
activation is flat at every point of the batch: its bias and its weights stay what they are, unless they
become NaN. -/
theorem C109_units {n n' : Net (Cf w (Fl L))} (hw : ∀ l ∈ n.layers, l.WF)
    {pre post : List (Layer (Cf w (Fl L)))} {l : Dense (Cf w (Fl L))} {u m : Nat}
    {W : Nat → Nat → Cf w (Fl L)} {b : Nat → Cf w (Fl L)} {f : ActFunc}
    (hn : n.layers = pre ++ .dense l :: post) (hl : l.Is u m W b f) {data : Dataset (Cf w (Fl L))}
    {lf : LossFunc} {lr : Cf w (Fl L)} (h : n.gradientOpt data lf lr = some (.ok (), n')) {J : Nat → Prop}
    (hz : ∀ p ∈ data.points, ∀ j, J j → FlatAt pre l j p.1) :
    ∃ (l' : Dense (Cf w (Fl L))) (W' : Nat → Nat → Cf w (Fl L)) (b' : Nat → Cf w (Fl L)),
      n'.layers[pre.length]? = some (.dense l') ∧ l'.Is u m W' b' f
        ∧ ∀ j, j < u → J j → (b j).Keeps (b' j) ∧ ∀ i, i < m → (W j i).Keeps (W' j i) := by
  have : Nonempty (Cf w (Fl L)) := ⟨Cf.default⟩
  obtain ⟨l', W', b', h1, h2, h3, h4⟩ := still_dense hw hn hl h
    (I := fun k => ∃ j i, j < u ∧ i < m ∧ J j ∧ k = j * m + i) (J := J) (by
      intro p hp gs hgs g hg
      obtain ⟨ys, prev, d, dc, r, A, g1, g2, s1, s2, s3, -, rfl, s5⟩ := sampleGrads_split hn rfl hgs
      have eg : g = (r.1, r.2.1) := by
        rw [List.getElem?_append_right (by simp [s5]), List.length_reverse, s5, Nat.sub_self] at hg
        exact (Option.some.inj hg).symm
      subst eg
      obtain ⟨v, q, D, C, u', rfl, hq, hv, hDC, e1, e3⟩ := Dense.params_out s3
      have key : ∀ j, j < u' → J j → (BasicOps.add (D j) (C j)).Null := by
        intro j hj hJ
        obtain ⟨z, a, b, e, e', k1, k2, k3, k4, k5⟩ := hDC j hj
        obtain ⟨f1, f2⟩ := hz p hp j hJ ys s1 v s2 q hq z k1
        rw [k4, k5]
        exact Cf.nulls.add (Cf.nulls.mul_left (f1 a k2)) (Cf.nulls.mul_left (Cf.nulls.conj (f2 b k3)))
      constructor
      · rintro k ⟨j, i, hj, hi, hJ, rfl⟩ e he
        rw [hl.1.1] at hv
        obtain ⟨X, hX⟩ := exists_range_map v
        rw [show v.length = m from hv] at hX
        change r.1[j * m + i]? = _ at he
        have e2 : r.1 = table u' m fun j i => BasicOps.mul (X i) (BasicOps.add (D j) (C j)) := by
          rw [e1, hX]
          simp only [List.map_map]
          rfl
        rw [e2] at he
        have hj' : j < u' := by
          by_contra hc
          rw [List.getElem?_eq_none (by
            rw [table_length]
            have := Nat.mul_le_mul_right m (not_lt.mp hc)
            omega)] at he
          cases he
        rw [table_getElem? u' m _ hj' hi] at he
        cases he
        exact Cf.nulls.mul_right (key j hj' hJ)
      · intro j hJ e he
        change r.2.1[j]? = _ at he
        rw [e3, List.getElem?_map] at he
        obtain ⟨j', k1, rfl⟩ := Option.map_eq_some_iff.mp he
        obtain ⟨hj, e⟩ := List.getElem?_eq_some_iff.mp k1
        rw [List.getElem_range] at e
        subst e
        exact key j (by simpa using hj) hJ)
  exact ⟨l', W', b', h1, h2, fun j hj hJ => ⟨h4 j hj hJ, fun i hi => h3 j hj i hi ⟨j, i, hj, hi, hJ, rfl⟩⟩⟩

/-- C109. Where the activations are flat: RITReLU if both sign bits are set, ZReLU if one is, and — unlike
in exact arithmetic (`C95_flat`) — RITTanh if the squares of both hyperbolic cosines overflow. -/
theorem C109_flat (z : Cf w (Fl L)) :
    (Scalar.signNeg z.x = true → Scalar.signNeg z.y = true →
        (Act.dRitRelu z).Null ∧ (Act.dConjRitRelu z).Null)
      ∧ (Scalar.signNeg z.x = true ∨ Scalar.signNeg z.y = true →
        (Act.dZRelu z).Null ∧ (Act.dConjZRelu z).Null)
      ∧ ((∃ s, (Scalar.sq (Scalar.cosh z.x)).fp = .inf s) → (∃ s, (Scalar.sq (Scalar.cosh z.y)).fp = .inf s) →
        (Act.dRitTanh z).Null ∧ (Act.dConjRitTanh z).Null) := by
  have hz := Fl.null_zero (L := L)
  refine ⟨fun hx hy => ?_, fun h => ?_, ?_⟩
  · have h1 : Act.dRelu z.x = Scalar.zero := by simp [Act.dRelu, hx]
    have h2 : Act.dRelu z.y = Scalar.zero := by simp [Act.dRelu, hy]
    unfold Act.dRitRelu Act.dConjRitRelu
    rw [h1, h2]
    exact ⟨⟨(hz.add hz).mul_left _, hz⟩, ⟨(hz.sub hz).mul_left _, hz⟩⟩
  · refine ⟨?_, hz, hz⟩
    unfold Act.dZRelu
    rw [if_pos (by
      rcases h with h | h
      · simp only [Cf.re, h, Bool.true_or]
      · simp only [Cf.im, h, Bool.or_true])]
    exact ⟨hz, hz⟩
  · rintro ⟨s, hs⟩ ⟨t, ht⟩
    have key : ∀ (v : Fl L) (s : Bool), (Scalar.sq (Scalar.cosh v)).fp = .inf s → (Act.sech2 v).fp.Null := by
      intro v s h
      show (Fp.div (Scalar.one : Fl L).fp (Scalar.sq (Scalar.cosh v)).fp).Null
      rw [h]
      have := (Fl.one_spec (L := L)).1
      generalize (Scalar.one : Fl L).fp = o at this
      cases o with
      | nan => exact this.elim
      | inf s => exact this.elim
      | num s m k h => exact .zero _
    have h1 := key z.x s hs
    have h2 := key z.y t ht
    exact ⟨⟨(h1.add h2).mul_left _, hz⟩, ⟨(h1.sub h2).mul_left _, hz⟩⟩

theorem still_fixed {n n' : Net (Cf w (Fl L))} (hw : ∀ l ∈ n.layers, l.WF) {data : Dataset (Cf w (Fl L))}
    {lf : LossFunc} {lr : Cf w (Fl L)} (h : n.gradientOpt data lf lr = some (.ok (), n'))
    {k : Nat} {l : Layer (Cf w (Fl L))} (hl : n.layers[k]? = some l) (hf : l.Fixed) : n'.layers[k]? = some l := by
  obtain ⟨scale, g, -, -, h3⟩ := Cf.nulls.training (I := fun _ => False) (J := fun _ => False) hw h
    (k := k) (fun p _ gs _ g _ => ⟨fun i h => h.elim, fun j h => h.elim⟩) hl
  rw [h3]
  cases l with
  | dense l => exact hf.elim
  | conv l => exact hf.elim
  | reduce l => rfl
  | flatten l => rfl

/-- C109. Over a whole history of training calls in `f32` or `f64`: if the first layer with parameters is
dense and its input `i` is zero at every training point, the weights of this input are in the end what they
were at the beginning, or NaN. -/
theorem C109_history {n n' : Net (Cf w (Fl L))} (hw : ∀ l ∈ n.layers, l.WF)
    {pre post : List (Layer (Cf w (Fl L)))} (hpre : ∀ l ∈ pre, l.Fixed) {l : Dense (Cf w (Fl L))} {u m : Nat}
    {W : Nat → Nat → Cf w (Fl L)} {b : Nat → Cf w (Fl L)} {f : ActFunc}
    (hn : n.layers = pre ++ .dense l :: post) (hl : l.Is u m W b f) {I : Nat → Prop}
    (steps : List (TrainStep (Cf w (Fl L)))) (hz : ∀ s ∈ steps, ∀ p ∈ s.1.points, ∀ i, I i → ZeroAt pre i p.1)
    (h : n.train steps = some n') :
    ∃ (l' : Dense (Cf w (Fl L))) (post' : List (Layer (Cf w (Fl L)))) (W' : Nat → Nat → Cf w (Fl L))
      (b' : Nat → Cf w (Fl L)), n'.layers = pre ++ .dense l' :: post' ∧ l'.Is u m W' b' f
        ∧ ∀ j, j < u → ∀ i, i < m → I i → (W j i).Keeps (W' j i) := by
  induction steps generalizing n l post W b with
  | nil =>
    cases h
    exact ⟨l, post, W, b, hn, hl, fun _ _ _ _ _ => .refl _⟩
  | cons s steps ih =>
    simp only [Net.train, List.foldlM_cons, Option.bind_eq_bind] at h
    obtain ⟨n1, h1, h2⟩ := Option.bind_eq_some_iff.mp h
    obtain ⟨⟨r, n2⟩, h3, h4⟩ := Option.map_eq_some_iff.mp h1
    cases h4
    have hz' : ∀ s ∈ steps, ∀ p ∈ s.1.points, ∀ i, I i → ZeroAt pre i p.1 := fun s hs => hz s (by simp [hs])
    have hw1 := sameShape_wf (Net.gradientOpt_shape hw h3)
    cases r with
    | error e =>
      have e1 : n2 = n := by
        unfold Net.gradientOpt at h3
        split_ifs at h3 with hlen
        · cases h3; rfl
        · obtain ⟨acc, -, h3⟩ := Option.bind_eq_some_iff.mp h3
          obtain ⟨scale, -, h3⟩ := Option.bind_eq_some_iff.mp h3
          obtain ⟨layers, -, h3⟩ := Option.bind_eq_some_iff.mp h3
          cases h3
      subst e1
      exact ih hw hn hl hz' h2
    | ok r =>
      obtain ⟨l1, W1, b1, k1, k2, k3⟩ := C109_inputs hw hn hl h3 (hz s (by simp))
      have hlen := (Net.gradientOpt_shape hw h3).length_eq
      obtain ⟨post1, e1⟩ : ∃ post1, n2.layers = pre ++ .dense l1 :: post1 := by
        refine ⟨n2.layers.drop (pre.length + 1), ?_⟩
        apply List.ext_getElem?
        intro k
        rcases lt_trichotomy k pre.length with hk | rfl | hk
        · rw [List.getElem?_append_left hk, List.getElem?_eq_getElem hk]
          refine still_fixed hw h3 ?_ (hpre _ (List.getElem_mem hk))
          rw [hn, List.getElem?_append_left hk, List.getElem?_eq_getElem hk]
        · rw [k1]; simp
        · rw [List.getElem?_append_right hk.le, show k - pre.length = (k - pre.length - 1) + 1 by omega,
            List.getElem?_cons_succ, List.getElem?_drop]
          congr 1
          omega
      obtain ⟨l', post', W', b', m1, m2, m3⟩ := ih hw1 e1 k2 hz' h2
      exact ⟨l', post', W', b', m1, m2, fun j hj i hi hI => (k3 j hj i hi hI).trans (m3 j hj i hi hI)⟩

/-! ## Updates that are too small -/

namespace Fp

/-- Two numbers closer than half of the last place of one of them are equal. -/
theorem val_eq_of_close {s t : Bool} {m m' : Nat} {k k' : Int} {h : B.Stored m k} {h' : B.Stored m' k'}
    (hc : |(num t m' k' h').val - (num s m k h).val| < 2 ^ (k - 1)) : (num t m' k' h').val = (num s m k h).val := by
  by_cases hk : k - 1 ≤ k'
  · have e1 : (num s m k h).val = ((if s then -1 else 1) * (2 * m) : ℤ) * (2 : ℝ) ^ (k - 1) := by
      rw [val_num, show k = k - 1 + 1 by ring, zpow_add₀ (by norm_num), show k - 1 + 1 - 1 = k - 1 by ring]
      cases s <;> push_cast <;> simp <;> ring
    have e2 : (num t m' k' h').val = ((if t then -1 else 1) * (m' * 2 ^ (k' - (k - 1)).toNat) : ℤ) * (2 : ℝ) ^ (k - 1) := by
      have : (2 : ℝ) ^ k' = 2 ^ (k' - (k - 1)).toNat * 2 ^ (k - 1) := by
        rw [← zpow_natCast, ← zpow_add₀ (by norm_num), Int.toNat_of_nonneg (by omega)]
        congr 1
        ring
      rw [val_num, this]
      cases t <;> push_cast <;> simp <;> ring
    generalize ((if s then -1 else 1) * (2 * m) : ℤ) = A at e1
    generalize ((if t then -1 else 1) * (m' * 2 ^ (k' - (k - 1)).toNat) : ℤ) = C at e2
    have hp : (0 : ℝ) < 2 ^ (k - 1) := by positivity
    rw [e1, e2, ← sub_mul, abs_mul, abs_of_pos hp] at hc
    have : |((C - A : ℤ) : ℝ)| < 1 := by
      push_cast
      by_contra hn
      nlinarith [not_lt.mp hn]
    have : C - A = 0 := by
      rw [← Int.abs_lt_one_iff]
      exact_mod_cast this
    rw [e1, e2, show C = A by omega]
  · exfalso
    have hm : 2 ^ (B.p - 1) ≤ m := by
      rcases h.2.2.2 with h2 | h2
      · exact h2
      · have := h'.2.1
        omega
    have h1 : (2 : ℝ) ^ ((B.p : ℤ) - 1 + k) ≤ |(num s m k h).val| := by
      rw [abs_val_num, zpow_add₀ (by norm_num)]
      have : ((2 : ℝ) ^ ((B.p : ℤ) - 1)) ≤ m := by
        have e : ((B.p : ℤ) - 1) = ((B.p - 1 : Nat) : ℤ) := by have := B.digits; omega
        rw [e, zpow_natCast]
        exact_mod_cast hm
      gcongr
    have h2 : |(num t m' k' h').val| ≤ (2 : ℝ) ^ ((B.p : ℤ) - 2 + k) := by
      rw [abs_val_num]
      have h3 : (m' : ℝ) ≤ (2 : ℝ) ^ (B.p : ℤ) := by
        rw [zpow_natCast]
        exact_mod_cast h'.1.le
      calc (m' : ℝ) * 2 ^ k' ≤ 2 ^ (B.p : ℤ) * 2 ^ k' := by gcongr
        _ = 2 ^ ((B.p : ℤ) + k') := by rw [zpow_add₀ (by norm_num)]
        _ ≤ _ := zpow_le_zpow_right₀ (by norm_num) (by omega)
    have h3 : (2 : ℝ) ^ ((B.p : ℤ) - 1 + k) = 2 * 2 ^ ((B.p : ℤ) - 2 + k) := by
      rw [show (B.p : ℤ) - 1 + k = 1 + ((B.p : ℤ) - 2 + k) by ring, zpow_add₀ (by norm_num)]
      norm_num
    have h4 : (2 : ℝ) ^ (k - 1) ≤ 2 ^ ((B.p : ℤ) - 2 + k) :=
      zpow_le_zpow_right₀ (by norm_num) (by have := B.digits; omega)
    have h5 := abs_sub_abs_le_abs_sub (num s m k h).val (num t m' k' h').val
    rw [abs_sub_comm] at h5
    linarith

/-- A number does not change if something below a quarter of its last place is subtracted. -/
theorem sub_swallow {s : Bool} {m : Nat} {k : Int} {h : B.Stored m k} {d : Fp B} (hd : d.Finite)
    (hs : |d.val| < 2 ^ (k - 2)) : (num s m k h).Keeps ((num s m k h).sub d) := by
  have hx : |(num s m k h).val - d.val| < B.top - 2 ^ (B.kmax - 1) := by
    have h1 : |(num s m k h).val| ≤ (((2 ^ B.p : Nat) : ℝ) - 1) * 2 ^ B.kmax := by
      rw [abs_val_num]
      have h1 : (m : ℝ) ≤ ((2 ^ B.p : Nat) : ℝ) - 1 := by
        have : m + 1 ≤ 2 ^ B.p := h.1
        have : ((m + 1 : Nat) : ℝ) ≤ ((2 ^ B.p : Nat) : ℝ) := by exact_mod_cast this
        push_cast at this ⊢
        linarith
      have h2 : (2 : ℝ) ^ k ≤ 2 ^ B.kmax := zpow_le_zpow_right₀ (by norm_num) h.2.2.1
      exact mul_le_mul h1 h2 (by positivity) ((Nat.cast_nonneg m).trans h1)
    have h2 : (2 : ℝ) ^ (k - 2) ≤ 2 ^ (B.kmax - 2) := zpow_le_zpow_right₀ (by norm_num) (by have := h.2.2.1; omega)
    have h3 : (2 : ℝ) ^ B.kmax = 4 * 2 ^ (B.kmax - 2) := by
      rw [show B.kmax = 2 + (B.kmax - 2) by ring, zpow_add₀ (by norm_num), show 2 + (B.kmax - 2) - 2 = B.kmax - 2 by ring]
      norm_num
    have h4 : (2 : ℝ) ^ (B.kmax - 1) = 2 * 2 ^ (B.kmax - 2) := by
      rw [show B.kmax - 1 = 1 + (B.kmax - 2) by ring, zpow_add₀ (by norm_num)]
      norm_num
    have h5 := abs_sub (num s m k h).val d.val
    have h6 : (0 : ℝ) < 2 ^ (B.kmax - 2) := by positivity
    rw [B.top_eq]
    rw [sub_mul, one_mul] at h1
    linarith
  obtain ⟨h1, h2⟩ := sub_spec (a := num s m k h) trivial hd ((B.near_lt_top_iff (abs_nonneg _)).mpr hx)
  obtain ⟨h3, h4⟩ := C84_nearest hx
  have h5 := (ofReal_spec (B := B) ((B.near_lt_top_iff (abs_nonneg _)).mpr hx)).2
  refine .inr (.inr ⟨trivial, h1, ?_⟩)
  rw [h2, ← h5]
  have h6 := h4 (num s m k h) trivial
  rw [show (num s m k h).val - ((num s m k h).val - d.val) = d.val by ring] at h6
  have h7 : (2 : ℝ) ^ (k - 1) = 2 * 2 ^ (k - 2) := by
    rw [show k - 1 = 1 + (k - 2) by ring, zpow_add₀ (by norm_num)]
    norm_num
  generalize (ofReal ((num s m k h).val - d.val) : Fp B) = c at h3 h6
  cases c with
  | nan => exact h3.elim
  | inf s => exact h3.elim
  | num t m' k' h' =>
    refine val_eq_of_close ?_
    have h8 := abs_sub_le (num t m' k' h').val ((num s m k h).val - d.val) (num s m k h).val
    rw [show (num s m k h).val - d.val - (num s m k h).val = -d.val by ring, abs_neg] at h8
    rw [h7]
    linarith

end Fp

theorem Fp.abs_round_le (x : ℝ) : |B.round x| ≤ 2 * |x| + 2 ^ (B.kmin - 1) := by
  have h1 := B.abs_round_sub_le x
  have h2 : (2 : ℝ) ^ (-(B.p : ℤ)) ≤ 1 := zpow_le_one_of_nonpos₀ (by norm_num) (by omega)
  have h3 : (0 : ℝ) < 2 ^ (B.kmin - 1) := by positivity
  have h4 := abs_sub_abs_le_abs_sub (B.round x) x
  have h5 := abs_nonneg x
  rcases le_max_iff.mp h1 with h | h
  · nlinarith
  · linarith

theorem Fp.near_lt_of_le {x : ℝ} (h : |x| ≤ 2 ^ B.kmax) : B.near |x| < B.top := by
  rw [B.near_lt_top_iff (abs_nonneg x), B.top_eq]
  have h1 : (2 : ℝ) ^ B.kmax = 2 * 2 ^ (B.kmax - 1) := by
    rw [show B.kmax = 1 + (B.kmax - 1) by ring, zpow_add₀ (by norm_num), show 1 + (B.kmax - 1) - 1 = B.kmax - 1 by ring]
    norm_num
  have h2 : (4 : ℝ) ≤ ((2 ^ B.p : Nat) : ℝ) := by
    have : 2 ^ 2 ≤ 2 ^ B.p := Nat.pow_le_pow_right (by norm_num) B.digits
    exact_mod_cast this
  have h3 : (0 : ℝ) < 2 ^ (B.kmax - 1) := by positivity
  nlinarith

theorem Fp.mul_small {a b : Fp B} (ha : a.Finite) (hb : b.Finite) {M N : ℝ} (h1 : |a.val| ≤ M) (h2 : |b.val| ≤ N)
    (h : M * N ≤ 2 ^ B.kmax) : (a.mul b).Finite ∧ |(a.mul b).val| ≤ 2 * (M * N) + 2 ^ (B.kmin - 1) := by
  have h3 : |a.val * b.val| ≤ M * N := by
    rw [abs_mul]
    exact mul_le_mul h1 h2 (abs_nonneg _) ((abs_nonneg _).trans h1)
  obtain ⟨h4, h5⟩ := mul_spec ha hb (near_lt_of_le (h3.trans h))
  refine ⟨h4, ?_⟩
  rw [h5]
  have := abs_round_le (B := B) (a.val * b.val)
  linarith

theorem Fp.add_small {a b : Fp B} (ha : a.Finite) (hb : b.Finite) {M N : ℝ} (h1 : |a.val| ≤ M) (h2 : |b.val| ≤ N)
    (h : M + N ≤ 2 ^ B.kmax) : (a.add b).Finite ∧ |(a.add b).val| ≤ 2 * (M + N) + 2 ^ (B.kmin - 1) := by
  have h3 : |a.val + b.val| ≤ M + N := (abs_add_le _ _).trans (add_le_add h1 h2)
  obtain ⟨h4, h5⟩ := add_spec ha hb (near_lt_of_le (h3.trans h))
  refine ⟨h4, ?_⟩
  rw [h5]
  have := abs_round_le (B := B) (a.val + b.val)
  linarith

theorem Fp.sub_small {a b : Fp B} (ha : a.Finite) (hb : b.Finite) {M N : ℝ} (h1 : |a.val| ≤ M) (h2 : |b.val| ≤ N)
    (h : M + N ≤ 2 ^ B.kmax) : (a.sub b).Finite ∧ |(a.sub b).val| ≤ 2 * (M + N) + 2 ^ (B.kmin - 1) := by
  obtain ⟨h3, h4⟩ := neg_spec hb
  exact add_small ha h3 h1 (by rw [h4, abs_neg]; exact h2) h

/-- How large an update can be. -/
theorem update_small {d s : Cf w (Fl L)} {G ε : ℝ} (hd : d.Finite) (hs : s.Finite) (hG : d.Below G) (hε : s.Below ε)
    (h1 : ε ≤ 1) (ht : 36 * (G * ε) + 25 * 2 ^ (B.kmin - 1) ≤ 2 ^ B.kmax) :
    (Cf.conj (Cf.mulAssign d s)).Finite
      ∧ (Cf.conj (Cf.mulAssign d s)).Below (36 * (G * ε) + 25 * 2 ^ (B.kmin - 1)) := by
  have hη : (0 : ℝ) < 2 ^ (B.kmin - 1) := by positivity
  have hG0 : 0 ≤ G := (abs_nonneg _).trans hG.1
  have hε0 : 0 ≤ ε := (abs_nonneg _).trans hε.1
  have hGε : 0 ≤ G * ε := mul_nonneg hG0 hε0
  obtain ⟨a1, a2⟩ := Fp.mul_small hd.1 hs.1 hG.1 hε.1 (by linarith)
  obtain ⟨b1, b2⟩ := Fp.mul_small hd.2 hs.2 hG.2 hε.2 (by linarith)
  obtain ⟨c1, c2⟩ := Fp.sub_small a1 b1 a2 b2 (by linarith)
  have c3 : |((d.x.fp.mul s.x.fp).sub (d.y.fp.mul s.y.fp)).val| ≤ 8 * (G * ε) + 5 * 2 ^ (B.kmin - 1) := by linarith
  have c4 : (8 * (G * ε) + 5 * 2 ^ (B.kmin - 1)) * ε ≤ 8 * (G * ε) + 5 * 2 ^ (B.kmin - 1) := by nlinarith
  obtain ⟨e1, e2⟩ := Fp.mul_small c1 hs.2 c3 hε.2 (by linarith)
  obtain ⟨f1, f2⟩ := Fp.mul_small hd.2 hs.1 hG.2 hε.1 (by linarith)
  have e3 : |(((d.x.fp.mul s.x.fp).sub (d.y.fp.mul s.y.fp)).mul s.y.fp).val| ≤ 16 * (G * ε) + 11 * 2 ^ (B.kmin - 1) := by
    linarith
  obtain ⟨g1, g2⟩ := Fp.add_small e1 f1 e3 f2 (by linarith)
  obtain ⟨k1, k2⟩ := Fp.neg_spec g1
  refine ⟨⟨c1, k1⟩, ?_, ?_⟩
  · show |((d.x.fp.mul s.x.fp).sub (d.y.fp.mul s.y.fp)).val| ≤ _
    linarith
  · change |(((((d.x.fp.mul s.x.fp).sub (d.y.fp.mul s.y.fp)).mul s.y.fp).add (d.y.fp.mul s.x.fp)).neg).val| ≤ _
    rw [k2, abs_neg]
    linarith

/-- C109. A parameter does not move at all if the update is below a quarter of its last place: with
derivatives up to `G` and a scaled learning rate up to `ε`, updates are at most `36 G ε` (plus a bit of
underflow). -/
theorem C109_swallowed {p d s : Cf w (Fl L)} {G ε : ℝ} (hd : d.Finite) (hs : s.Finite) (hG : d.Below G)
    (hε : s.Below ε) (h1 : ε ≤ 1)
    (hx : 4 * (36 * (G * ε) + 25 * 2 ^ (B.kmin - 1)) < p.x.fp.lastPlace)
    (hy : 4 * (36 * (G * ε) + 25 * 2 ^ (B.kmin - 1)) < p.y.fp.lastPlace) :
    p.Keeps (BasicOps.subAssign p (CplxOps.conj (BasicOps.mulAssign d s))) := by
  have hη : (0 : ℝ) < 2 ^ (B.kmin - 1) := by positivity
  have hG0 : 0 ≤ G := (abs_nonneg _).trans hG.1
  have hε0 : 0 ≤ ε := (abs_nonneg _).trans hε.1
  have hGε : 0 ≤ G * ε := mul_nonneg hG0 hε0
  have key : ∀ a : Fp B, 4 * (36 * (G * ε) + 25 * 2 ^ (B.kmin - 1)) < a.lastPlace →
      36 * (G * ε) + 25 * 2 ^ (B.kmin - 1) ≤ 2 ^ B.kmax
        ∧ ∀ e : Fp B, e.Finite → |e.val| ≤ 36 * (G * ε) + 25 * 2 ^ (B.kmin - 1) → a.Keeps (a.sub e) := by
    intro a ha
    cases a with
    | nan => exact absurd ha (by simp only [Fp.lastPlace, not_lt]; positivity)
    | inf s => exact absurd ha (by simp only [Fp.lastPlace, not_lt]; positivity)
    | num t m k h =>
      simp only [Fp.lastPlace] at ha
      have h2 : (2 : ℝ) ^ k ≤ 2 ^ B.kmax := zpow_le_zpow_right₀ (by norm_num) h.2.2.1
      refine ⟨by nlinarith, fun e he hs => Fp.sub_swallow he ?_⟩
      have h3 : (2 : ℝ) ^ k = 4 * 2 ^ (k - 2) := by
        rw [show k = 2 + (k - 2) by ring, zpow_add₀ (by norm_num), show 2 + (k - 2) - 2 = k - 2 by ring]
        norm_num
      linarith
  obtain ⟨k1, k2⟩ := key _ hx
  obtain ⟨-, k3⟩ := key _ hy
  obtain ⟨u1, u2⟩ := update_small hd hs hG hε h1 k1
  exact ⟨k2 _ u1.1 u2.1, k3 _ u1.2 u2.2⟩

theorem forall₂_zipWith_of {α : Type} {R : α → α → Prop} {upd : α → α → α} {l d : List α} (hlen : d.length = l.length)
    (h : ∀ p ∈ l, ∀ e ∈ d, R p (upd p e)) : List.Forall₂ R l (List.zipWith upd l d) := by
  induction l generalizing d with
  | nil => simp
  | cons a l ih =>
    cases d with
    | nil => simp at hlen
    | cons e d =>
      exact .cons (h a (by simp) e (by simp)) (ih (by simpa using hlen) fun p hp e he => h p (by simp [hp]) e (by simp [he]))

theorem forall₂_zipKernels {α : Type} {R : α → α → Prop} {upd : α → α → α} {ks : List (Mat α)} {d : List α}
    (hlen : (ks.map fun k => k.body.length).sum ≤ d.length) (h : ∀ k ∈ ks, ∀ p ∈ k.body, ∀ e ∈ d, R p (upd p e)) :
    List.Forall₂ (fun k k' => k'.shape = k.shape ∧ List.Forall₂ R (Mat.body k) (Mat.body k')) ks (zipKernels upd ks d) := by
  induction ks generalizing d with
  | nil => exact .nil
  | cons k ks ih =>
    rw [List.map_cons, List.sum_cons] at hlen
    refine .cons ⟨rfl, forall₂_zipWith_of (by rw [List.length_take]; omega)
      fun p hp e he => h k (by simp) p hp e (List.mem_of_mem_take he)⟩ (ih (by rw [List.length_drop]; omega) ?_)
    exact fun k hk p hp e he => h k (by simp [hk]) p hp e (List.mem_of_mem_drop he)

/-- A layer whose parameters are changed by small updates only. -/
theorem Layer.paired_of {α : Type} {R : α → α → Prop} {upd : α → α → α} {l : Layer α} (hw : l.WF) {g : LayerVec α}
    (hg : g.Fits l) {S : α → Prop} (hS : l.AllParams S)
    (h : ∀ p, S p → ∀ e, e ∈ g.1 ∨ e ∈ g.2 → R p (upd p e)) : l.Paired R (l.zipParams upd g) := by
  cases l with
  | dense l =>
    unfold LayerVec.Fits at hg
    rw [if_pos (show (Layer.dense l).propagates = true from rfl)] at hg
    exact ⟨rfl, rfl, forall₂_zipWith_of (by rw [hw.1]; exact hg.1) fun p hp e he => h p (hS.1 p hp) e (.inl he),
      forall₂_zipWith_of hg.2 fun p hp e he => h p (hS.2 p hp) e (.inr he)⟩
  | conv l =>
    unfold LayerVec.Fits at hg
    rw [if_pos (show (Layer.conv l).propagates = true from rfl)] at hg
    refine ⟨rfl, rfl, rfl, forall₂_zipKernels ?_ fun k hk p hp e he => h p (hS.1 k hk p hp) e (.inl he),
      forall₂_zipWith_of hg.2 fun p hp e he => h p (hS.2 p hp) e (.inr he)⟩
    rw [hg.1, show (Layer.conv l).paramsLen.1 = l.paramsLen.1 from rfl, ← Conv.entries_length hw.2.2.2.1]
    unfold Conv.entries
    rw [List.length_flatMap]
    exact le_rfl
  | reduce l => rfl
  | flatten l => rfl

/-- C109. Learning rates that are too small do nothing in `f32` and `f64`: if the derivatives of a batch,
summed up by the code, are at most `G` and the learning rate divided by the size of the batch is at most
`ε`, then a call on a network whose parameters all have a last place above `4 (36 G ε + 25 η)` returns the
network it was given. `η` is half of the smallest positive number. In exact arithmetic every such step
decreases the loss (`C53`). -/
theorem C109_stall {n n' : Net (Cf w (Fl L))} (hw : ∀ l ∈ n.layers, l.WF) {data : Dataset (Cf w (Fl L))}
    {lf : LossFunc} {lr scale : Cf w (Fl L)} (h : n.gradientOpt data lf lr = some (.ok (), n'))
    (hsc : BasicOps.div lr (CplxOps.ofUsize data.inputs.length) = some scale)
    {acc : List (LayerVec (Cf w (Fl L)))}
    (hacc : data.points.foldlM (Net.sampleStep n lf) (n.layers.map Net.initAcc) = some acc) {G ε : ℝ}
    (hG : ∀ g ∈ acc, ∀ d, d ∈ g.1 ∨ d ∈ g.2 → d.Finite ∧ d.Below G) (hs : scale.Finite) (hε : scale.Below ε)
    (h1 : ε ≤ 1) (hp : ∀ l ∈ n.layers, l.AllParams fun p =>
      4 * (36 * (G * ε) + 25 * 2 ^ (B.kmin - 1)) < p.x.fp.lastPlace
        ∧ 4 * (36 * (G * ε) + 25 * 2 ^ (B.kmin - 1)) < p.y.fp.lastPlace) :
    List.Forall₂ (Layer.Paired Cf.Keeps) n.layers n'.layers := by
  unfold Net.gradientOpt at h
  rw [if_neg (fun e => by rw [if_pos e] at h; cases h)] at h
  obtain ⟨acc', e1, h⟩ := Option.bind_eq_some_iff.mp h
  obtain rfl := Option.some.inj (hacc.symm.trans e1)
  obtain ⟨scale', e2, h⟩ := Option.bind_eq_some_iff.mp h
  obtain rfl := Option.some.inj (hsc.symm.trans e2)
  obtain ⟨layers, h2, h⟩ := Option.bind_eq_some_iff.mp h
  cases h
  obtain ⟨f1, -⟩ := Cf.nulls.fold (I := fun _ => False) (J := fun _ => False) (k := 0) data.points
    (acc := n.layers.map Net.initAcc) (by
      rw [List.forall₂_map_left_iff]
      exact List.forall₂_same.mpr fun l _ => Net.initAcc_fits l) hacc
    (fun a _ => ⟨fun _ h => h.elim, fun _ h => h.elim⟩)
    (fun p _ gs _ g _ => ⟨fun _ h => h.elim, fun _ h => h.elim⟩)
  rw [List.forall₂_iff_get]
  have hl : acc.length = n.layers.length := f1.length_eq
  have hl2 : layers.length = n.layers.length := by rw [mapM_length h2, List.length_zip, hl, min_self]
  refine ⟨hl2.symm, fun i hi hi' => ?_⟩
  have h3 := mapM_getElem? h2 i
  rw [show (acc.zip n.layers)[i]? = some (acc[i]'(by omega), n.layers[i]'hi) from by
    rw [List.getElem?_zip_eq_some]
    exact ⟨List.getElem?_eq_getElem _, List.getElem?_eq_getElem _⟩] at h3
  have hfit : LayerVec.Fits (acc[i]'(by omega)) (n.layers[i]'hi) := by
    have := (List.forall₂_iff_get.mp f1).2 i (by omega) hi
    simpa using this
  have hm : n.layers[i]'hi ∈ n.layers := List.getElem_mem hi
  change _ = Net.updateLayer scale (acc[i]'(by omega)) (n.layers[i]'hi) at h3
  rw [Net.updateLayer_eq scale _ _ (hw _ hm) hfit, List.getElem?_eq_getElem hi'] at h3
  have h4 := Option.some.inj h3
  show Layer.Paired _ (n.layers[i]'hi) (layers[i]'hi')
  rw [h4]
  refine Layer.paired_of (hw _ hm) hfit (hp _ hm) fun p hp e he => ?_
  obtain ⟨g1, g2⟩ := hG _ (List.getElem_mem _) e he
  exact C109_swallowed g1 hs g2 hε h1 hp.1 hp.2

/-- In `f32`, subtracting `2^-40 · 2^-40` from `2^23` changes nothing. -/
example {L : Libm binary32} (hd : binary32.Stored (2 ^ 23) (-63)) (hp : binary32.Stored (2 ^ 23) 0) :
    (⟨⟨.num false _ _ hp⟩, ⟨.num true _ _ hp⟩⟩ : Cf w (Fl L)).Keeps
      (BasicOps.subAssign ⟨⟨.num false _ _ hp⟩, ⟨.num true _ _ hp⟩⟩
        (CplxOps.conj (BasicOps.mulAssign ⟨⟨.num false _ _ hd⟩, ⟨.num false _ _ hd⟩⟩
          ⟨⟨.num false _ _ hd⟩, ⟨.num true _ _ hd⟩⟩))) := by
  have h1 : ∀ s, |(Fp.num s (2 ^ 23) (-63) hd : Fp binary32).val| ≤ 2 ^ (-40 : ℤ) := by
    intro s
    rw [Fp.abs_val_num]
    norm_num
  refine C109_swallowed (G := 2 ^ (-40 : ℤ)) (ε := 2 ^ (-40 : ℤ)) ⟨trivial, trivial⟩ ⟨trivial, trivial⟩ ⟨h1 _, h1 _⟩ ⟨h1 _, h1 _⟩
    (zpow_le_one_of_nonpos₀ (by norm_num) (by norm_num)) ?_ ?_
  · simp only [Fp.lastPlace, binary32]
    norm_num
  · simp only [Fp.lastPlace, binary32]
    norm_num

example : binary32.Stored (2 ^ 23) (-63) ∧ binary32.Stored (2 ^ 23) 0 := by decide

/-- A first layer that sees zeros: the input itself. -/
example (x : Cf w (Fl L)) : ZeroAt ([] : List (Layer (Cf w (Fl L)))) 1 (.scalar [x, Cf.default]) := by
  intro ys hc v hv e he
  cases hc
  cases hv
  cases he
  exact ⟨Fl.null_zero, Fl.null_zero⟩

/-- Trained on a point with value 0, the weight of the first layer stays, or it is NaN. -/
example (f : LossFunc) (lr t : Cf w (Fl L)) :
    ∃ (n' : Net (Cf w (Fl L))) (l' : Dense (Cf w (Fl L))) (W' : Nat → Nat → Cf w (Fl L)) (b' : Nat → Cf w (Fl L)),
      (exNanNet : Net (Cf w (Fl L))).gradientOpt ⟨[.scalar [Cf.default]], [.scalar [t]]⟩ f lr = some (.ok (), n')
      ∧ n'.layers[0]? = some (.dense l') ∧ l'.Is 1 1 W' b' .ritTanh ∧ Cf.unit.Keeps (W' 0 0) := by
  have hs : (⟨[.scalar [Cf.default]], [.scalar [t]]⟩ : Dataset (Cf w (Fl L))).HasSize (.vec 1) (.vec 1) := by
    intro p hp
    simp only [Dataset.points, List.zip_cons_cons, List.zip_nil_right, List.mem_cons, List.not_mem_nil, or_false] at hp
    subst hp
    exact ⟨rfl, rfl⟩
  obtain ⟨scale, hsc⟩ : ∃ scale, BasicOps.div lr (CplxOps.ofUsize
      (⟨[.scalar [Cf.default]], [.scalar [t]]⟩ : Dataset (Cf w (Fl L))).inputs.length) = some scale := by
    rw [← Option.ne_none_iff_exists']
    change Cf.div lr (Cf.ofUsize _) ≠ none
    rw [Ne, (C85_panics_iff lr _).1, Fl.ofUsize_tiny]
    simp
  obtain ⟨n', h1, -⟩ := C66_step exNanNet exNanNet_ready _ hs f lr scale hsc
  obtain ⟨l', W', b', h2, h3, h4⟩ := C109_inputs exNanNet_ready.wf (pre := []) (I := fun i => i = 0) (u := 1) (m := 1)
    (W := fun _ _ => Cf.unit) (b := fun _ => Cf.default) (f := .ritTanh) rfl ⟨⟨rfl, rfl⟩, rfl, rfl⟩ h1 (by
      intro p hp i hi
      simp only [Dataset.points, List.zip_cons_cons, List.zip_nil_right, List.mem_cons, List.not_mem_nil, or_false] at hp
      subst hp hi
      intro ys hc v hv e he
      cases hc
      cases hv
      cases he
      exact ⟨Fl.null_zero, Fl.null_zero⟩)
  exact ⟨n', l', W', b', h1, h2, h3, h4 0 (by omega) 0 (by omega) rfl⟩

end ieee

end Renplex
