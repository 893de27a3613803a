import Verif.Props.Signs
import Verif.Props.Nan
/-!
# Real numbers in `f32` and `f64`, and the activations that tell the two zeros apart
-/

namespace Renplex
variable {w : Width} {B : Binary} {L : Libm B}

theorem Fp.Null.div {a : Fp B} (ha : a.Null) (b : Fp B) : (a.div b).Null := by
  rcases ha with rfl | ⟨h1, h2⟩
  · exact .inl (Fp.nan_div b)
  cases a with
  | nan => exact h1.elim
  | inf s => exact h1.elim
  | num s m k h =>
    obtain rfl : m = 0 := (Fp.val_eq_zero s h).mp h2
    cases b with
    | nan => exact .inl rfl
    | inf t => exact .zero _
    | num t m' k' h' =>
      show (if m' = 0 then if (0 : Nat) = 0 then Fp.nan else Fp.inf (s ^^ t)
        else Fp.ofAbs (s ^^ t) |(Fp.num s 0 k h : Fp B).val / (Fp.num t m' k' h' : Fp B).val|).Null
      rw [h2, zero_div, abs_zero, Fp.ofAbs_zero, if_pos rfl]
      split
      · exact .inl rfl
      · exact .zero _

theorem Cf.Flat.div {a b q : Cf w (Fl L)} (ha : a.Flat) (hb : b.Flat) (h : Cf.div a b = some q) : q.Flat := by
  unfold Cf.div at h
  split at h
  · cases h
  · cases h
    exact ((ha.mul_left _).sub (hb.mul_right _)).div _

theorem Cf.Flat.conj {a : Cf w (Fl L)} (h : a.Flat) : a.conj.Flat := h.neg

theorem flat_real (r : Fl L) : (⟨r, Scalar.zero⟩ : Cf w (Fl L)).Flat := Fl.null_zero

/-! ### The relation as an equation -/

theorem flat_list {u v : List (Cf w (Fl L))} :
    List.Forall₂ Cf.SameFlat u v ↔ u = v ∧ ∀ z ∈ v, z.Flat := by
  constructor
  · intro h
    induction h with
    | nil => simp
    | cons h _ ih => obtain ⟨rfl, h⟩ := h; obtain ⟨rfl, h'⟩ := ih; simp_all
  · rintro ⟨rfl, h⟩
    exact List.forall₂_same.mpr fun z hz => ⟨rfl, h z hz⟩

theorem flat_mat {m m' : Mat (Cf w (Fl L))} : m.Rel Cf.SameFlat m' ↔ m = m' ∧ m'.IsFlat := by
  constructor
  · rintro ⟨h1, h2, h3⟩
    obtain ⟨b, s, c⟩ := m
    obtain ⟨rfl, h⟩ := flat_list.mp h1
    cases h2
    cases h3
    exact ⟨rfl, h⟩
  · rintro ⟨rfl, h⟩
    exact ⟨flat_list.mpr ⟨rfl, h⟩, rfl, rfl⟩

theorem flat_mats {u v : List (Mat (Cf w (Fl L)))} :
    List.Forall₂ (Mat.Rel Cf.SameFlat) u v ↔ u = v ∧ ∀ m ∈ v, m.IsFlat := by
  constructor
  · intro h
    induction h with
    | nil => simp
    | cons h _ ih => obtain ⟨rfl, h⟩ := flat_mat.mp h; obtain ⟨rfl, h'⟩ := ih; simp_all
  · rintro ⟨rfl, h⟩
    exact List.forall₂_same.mpr fun z hz => flat_mat.mpr ⟨rfl, h z hz⟩

theorem flat_io {x x' : IOType (Cf w (Fl L))} : x.Rel Cf.SameFlat x' ↔ x = x' ∧ x'.IsFlat := by
  cases x <;> cases x' <;> simp [IOType.Rel, IOType.IsFlat, flat_list, flat_mats]

theorem flat_data {D : Dataset (Cf w (Fl L))} (h : D.IsFlat) : D.Rel Cf.SameFlat D :=
  ⟨List.forall₂_same.mpr fun x hx => flat_io.mpr ⟨rfl, h.1 x hx⟩,
    List.forall₂_same.mpr fun x hx => flat_io.mpr ⟨rfl, h.2 x hx⟩⟩

theorem flat_net {n : Net (Cf w (Fl L))} (h : n.IsFlat) : n.Rel Cf.SameFlat n := by
  refine List.forall₂_same.mpr fun d hd => ?_
  have h := h d hd
  cases d with
  | dense d => exact ⟨flat_mat.mpr ⟨rfl, h.1⟩, flat_list.mpr ⟨rfl, h.2⟩, rfl⟩
  | conv d => exact ⟨⟨flat_mats.mpr ⟨rfl, h.1⟩, rfl, rfl⟩, flat_list.mpr ⟨rfl, h.2⟩, rfl, rfl⟩
  | reduce d =>
    refine ⟨flat_mat.mpr ⟨rfl, h.1⟩, rfl, rfl, fun u v y hu hy => ?_⟩
    obtain ⟨rfl, hv⟩ := flat_list.mp hu
    exact ⟨y, hy, rfl, h.2 _ hv y hy⟩
  | flatten d => exact rfl

theorem net_flat {n n' : Net (Cf w (Fl L))} (h : n.Rel Cf.SameFlat n') (hn : n = n') : n'.IsFlat := by
  subst hn
  intro d hd
  have h := List.forall₂_same.mp h d hd
  cases d with
  | dense d => exact ⟨(flat_mat.mp h.1).2, (flat_list.mp h.2.1).2⟩
  | conv d => exact ⟨(flat_mats.mp h.1.1).2, (flat_list.mp h.2.1).2⟩
  | reduce d =>
    refine ⟨(flat_mat.mp h.1).2, fun v hv y hy => ?_⟩
    obtain ⟨x, h1, h2⟩ := h.2.2.2 v v y (flat_list.mpr ⟨rfl, hv⟩) hy
    exact h2.2
  | flatten d => trivial

theorem flat_follows {o : Run (Cf w (Fl L))} (h : ∀ y, o = some y → y.Flat) : Follows Cf.SameFlat o o :=
  fun y hy => ⟨y, hy, rfl, h y hy⟩

theorem flat_dFunc (f : LossFunc) {t p : List (Cf w (Fl L))} (ht : ∀ z ∈ t, z.Flat) (hp : ∀ z ∈ p, z.Flat) :
    ∀ z ∈ Loss.dFunc f t p, z.Flat := by
  have key : ∀ z ∈ Loss.dMeanSq t p, z.Flat := by
    intro z hz
    obtain ⟨q, hq, rfl⟩ := List.mem_map.mp hz
    have := List.of_mem_zip hq
    exact ((hp _ this.2).sub (ht _ this.1)).neg
  cases f <;> exact key

theorem flat_respects : Respects (Cf.SameFlat : Cf w (Fl L) → Cf w (Fl L) → Prop) where
  zero := ⟨rfl, flat_real _⟩
  add := by
    rintro a b a' b' ⟨rfl, h⟩ ⟨rfl, h'⟩
    exact ⟨rfl, h.add h'⟩
  mul := by
    rintro a b a' b' ⟨rfl, h⟩ ⟨rfl, h'⟩
    exact ⟨rfl, (h'.mul_right _).add (h.mul_left _)⟩
  addAssign := by
    rintro a b a' b' ⟨rfl, h⟩ ⟨rfl, h'⟩
    exact ⟨rfl, h.add h'⟩
  subAssign := by
    rintro a b a' b' ⟨rfl, h⟩ ⟨rfl, h'⟩
    exact ⟨rfl, h.sub h'⟩
  mulAssign := by
    rintro a b a' b' ⟨rfl, h⟩ ⟨rfl, h'⟩
    exact ⟨rfl, (h'.mul_right _).add (h.mul_left _)⟩
  conj := by
    rintro a b ⟨rfl, h⟩
    exact ⟨rfl, h.neg⟩
  divNat := by
    rintro a b n ⟨rfl, h⟩
    exact flat_follows fun y hy => h.div (flat_real _) hy
  dLoss {f t t' p p'} ht hp := by
    obtain ⟨rfl, h1⟩ := flat_io.mp ht
    obtain ⟨rfl, h2⟩ := flat_io.mp hp
    cases t with
    | scalar t => cases p with
      | scalar p => exact flat_list.mpr ⟨rfl, flat_dFunc f h1 h2⟩
      | matrix p => exact rfl
    | matrix t => cases p with
      | scalar p => exact rfl
      | matrix p =>
        refine flat_list.mpr ⟨rfl, flat_dFunc f ?_ ?_⟩
        · intro z hz
          obtain ⟨m, hm, hz⟩ := List.mem_flatMap.mp hz
          exact h1 m hm z hz
        · intro z hz
          obtain ⟨m, hm, hz⟩ := List.mem_flatMap.mp hz
          exact h2 m hm z hz

/-- C112. All options but `ritSigmoid` and `cardioid` map numbers whose imaginary part is zero (or NaN) to
such numbers, and so do their derivatives. -/
theorem C112_real_activation (hL : L.Regular) {f : ActFunc} (hf : f.KeepsFlat) {z : Cf w (Fl L)} (hz : z.Flat) :
    (∀ y, Act.activate f z = some y → y.Flat)
      ∧ (∀ y, Act.dActivate f z = some y → y.Flat)
      ∧ ∀ y, Act.dConjActivate f z = some y → y.Flat := by
  have h0 := Fl.null_zero (L := L)
  cases f with
  | none =>
    refine ⟨fun y hy => ?_, fun y hy => ?_, fun y hy => ?_⟩ <;> cases hy
    · exact hz
    · exact h0
    · exact h0
  | modZ =>
    refine ⟨fun y hy => hz.div (flat_real _) hy, fun y hy => ?_, fun y hy => ?_⟩
    · cases hy; exact h0
    · obtain ⟨q, h1, h2⟩ := Option.bind_eq_some_iff.mp hy
      exact (hz.div hz.conj h1).div (flat_real _) h2
  | ritSigmoid => exact absurd rfl hf.1
  | cardioid => exact absurd rfl hf.2
  | ritTanh =>
    refine ⟨fun y hy => ?_, fun y hy => ?_, fun y hy => ?_⟩ <;> cases hy
    · show (L.tanh z.y.fp).Null
      rcases hz with h | ⟨h1, h2⟩
      · rw [h]; exact .inl hL.tanh_nan
      · have : z.y.fp.isZero = true := by
          generalize z.y.fp = a at h1 h2
          cases a with
          | nan => exact h1.elim
          | inf s => exact h1.elim
          | num s m k h =>
            obtain rfl : m = 0 := (Fp.val_eq_zero s h).mp h2
            rfl
        obtain ⟨s, e⟩ := Fp.isZero_iff.mp this
        rw [e]
        obtain ⟨t, e⟩ := Fp.isZero_iff.mp (hL.tanh_zero s)
        rw [e]
        exact .zero t
    · exact h0
    · exact h0
  | ritReLU =>
    refine ⟨fun y hy => ?_, fun y hy => ?_, fun y hy => ?_⟩ <;> cases hy
    · show (Act.relu z.y).fp.Null
      unfold Act.relu
      split
      · exact hz
      · exact h0
    · exact h0
    · exact h0
  | zReLU =>
    refine ⟨fun y hy => ?_, fun y hy => ?_, fun y hy => ?_⟩ <;> cases hy
    · unfold Act.zRelu
      split
      · exact h0
      · exact hz
    · unfold Act.dZRelu
      split <;> exact h0
    · exact h0

/-- C112. A real network returns real outputs for real inputs, in `f32` and `f64` as well: every imaginary
part is zero, or NaN. -/
theorem C112_real_forward (hL : L.Regular) {n : Net (Cf w (Fl L))} (hn : n.IsFlat)
    (ha : ∀ d ∈ n.layers, d.act.KeepsFlat) {x y : IOType (Cf w (Fl L))} (hx : x.IsFlat)
    (h : n.forward x = some (.ok y)) : y.IsFlat := by
  obtain ⟨r, h1, h2⟩ := C79_forward flat_respects (flat_net hn)
    (fun d hd a z haz => by
      obtain ⟨rfl, hz⟩ := haz
      exact flat_follows (C112_real_activation hL (ha d hd) hz).1) (flat_io.mpr ⟨rfl, hx⟩) _ h
  cases r with
  | ok r => exact (flat_io.mp h2).2
  | error e => exact h2.elim

/-- C112. Training a real network on real data with real rates leaves it real. -/
theorem C112_real_run (hL : L.Regular) {n m : Net (Cf w (Fl L))} (hn : n.IsFlat)
    (ha : ∀ d ∈ n.layers, d.act.KeepsFlat) {s : List (TrainStep (Cf w (Fl L)))}
    (hs : ∀ t ∈ s, t.1.IsFlat ∧ t.2.2.Flat) (h : n.train s = some m) : m.IsFlat := by
  obtain ⟨r, h1, h2⟩ := C79_run flat_respects (flat_net hn)
    (fun d hd => ⟨fun a z haz => by
      obtain ⟨rfl, hz⟩ := haz
      exact flat_follows (C112_real_activation hL (ha d hd) hz).1, fun a z haz => by
      obtain ⟨rfl, hz⟩ := haz
      exact ⟨flat_follows (C112_real_activation hL (ha d hd) hz).2.1,
        flat_follows (C112_real_activation hL (ha d hd) hz).2.2⟩⟩)
    (s := s) (List.forall₂_same.mpr fun t ht => ⟨flat_data (hs t ht).1, rfl, rfl, (hs t ht).2⟩) m h
  exact net_flat h2 (Option.some.inj (h1.symm.trans h))

/-! ### The two zeros -/

theorem half_spec : (Act.half : Fl L).fp.Finite ∧ (Act.half : Fl L).fp.val = 1 / 2 := by
  have hb := B.small; have hp := B.digits; have hl := B.large
  have e : ((1 : Int) : ℝ) / ((2 : Nat) : ℝ) = 2 ^ (-1 : ℤ) := by norm_num
  have h2 : B.near (2 ^ (-1 : ℤ)) = 2 ^ (-1 : ℤ) := B.near_two_pow (by omega) (by omega)
  have h3 : B.near |((1 : Int) : ℝ) / ((2 : Nat) : ℝ)| < B.top := by
    rw [e, abs_of_pos (by positivity)]
    exact B.near_lt_top (by positivity) (zpow_le_zpow_right₀ one_le_two (by omega))
  obtain ⟨h4, h5⟩ := Fp.ofReal_spec h3
  refine ⟨h4, ?_⟩
  show (Fp.ofReal (((1 : Int) : ℝ) / ((2 : Nat) : ℝ)) : Fp B).val = 1 / 2
  rw [h5, e, B.round_of_nonneg (by positivity), h2]
  norm_num

/-- C112. The derivative of `ritReLU` and the value of `zReLU` tell the two zeros apart: at `-0 - 0i` the
derivative is zero and at `+0 + 0i` it is 1, and a positive imaginary part is passed on only beside `+0`. -/
theorem C112_tells_apart (r : Fl L) (hr : Scalar.signNeg r = false) :
    (Act.dRitRelu (⟨⟨.zero true⟩, ⟨.zero true⟩⟩ : Cf w (Fl L))).Null
      ∧ (Act.dRitRelu (⟨⟨.zero false⟩, ⟨.zero false⟩⟩ : Cf w (Fl L))).x.fp.val = 1
      ∧ Act.zRelu (⟨⟨.zero true⟩, r⟩ : Cf w (Fl L)) = Cf.default
      ∧ Act.zRelu (⟨⟨.zero false⟩, r⟩ : Cf w (Fl L)) = ⟨⟨.zero false⟩, r⟩ := by
  have hs : ∀ s, Scalar.signNeg (⟨.zero s⟩ : Fl L) = s := fun s => rfl
  refine ⟨((C109_flat _).1 (hs true) (hs true)).1, ?_, ?_, ?_⟩
  · have h1 : Act.dRelu (⟨.zero false⟩ : Fl L) = Scalar.one := by simp [Act.dRelu, hs]
    unfold Act.dRitRelu
    rw [h1]
    show ((Fp.add (Scalar.one : Fl L).fp (Scalar.one : Fl L).fp).mul (Act.half : Fl L).fp).val = 1
    obtain ⟨ho, hv⟩ := Fl.one_spec (L := L)
    obtain ⟨hh, hhv⟩ := half_spec (L := L)
    have hp := B.digits
    have h2p : (2 : ℝ) ≤ 2 ^ (B.p : ℤ) := by
      calc (2 : ℝ) = 2 ^ (1 : ℤ) := by norm_num
        _ ≤ _ := zpow_le_zpow_right₀ one_le_two (by omega)
    have e2 : (1 : ℝ) + 1 = 2 := by norm_num
    obtain ⟨h3, h4⟩ := Fp.add_spec ho ho (by
      rw [hv, e2, abs_of_pos two_pos]; exact B.near_lt_top two_pos.le h2p)
    rw [hv, e2] at h4
    have hr2 : B.round 2 = 2 := by
      rw [B.round_of_nonneg two_pos.le]
      have := B.near_two_pow (k := 1) (by have := B.small; omega) (by have := B.large; omega)
      simpa using this
    rw [hr2] at h4
    have e1 : (2 : ℝ) * (1 / 2) = 1 := by norm_num
    obtain ⟨h5, h6⟩ := Fp.mul_spec h3 hh (by
      rw [h4, hhv, e1, abs_of_pos one_pos]; exact B.near_lt_top one_pos.le (by linarith))
    rw [h6, h4, hhv, e1, Fl.round_one]
  · unfold Act.zRelu
    rw [if_pos (by simp [Cf.re, hs])]
    rfl
  · unfold Act.zRelu
    rw [if_neg (by simp [Cf.re, Cf.im, hs, hr])]

/-! ## Non-vacuity -/

theorem Fp.ofReal_neg_like (x : ℝ) : (Fp.ofReal (-x) : Fp B).Like (Fp.ofReal x).neg := by
  by_cases hx : x = 0
  · subst hx
    have e : (Fp.ofReal (0 : ℝ) : Fp B) = .zero false := by simp [Fp.ofReal, Fp.ofAbs_zero]
    rw [neg_zero, e]
    exact .inr ⟨rfl, rfl⟩
  · rw [Fp.ofReal_neg hx]; exact .refl _

/-- The library of correctly rounded functions is regular. -/
theorem Libm.rounded_regular (B : Binary) : (Libm.rounded B).Regular where
  exp_zero := by
    show Fp.ofReal (Real.exp (Fp.zero true : Fp B).val) = Fp.ofReal (Real.exp (Fp.zero false : Fp B).val)
    rw [Fp.zero_val, Fp.zero_val]
  tanh_neg a := by
    cases a with
    | nan => exact .refl _
    | inf s => cases s
               · exact .refl _
               · rw [show (Fp.inf true : Fp B).neg = .inf false from rfl]
                 show Fp.one.Like (Fp.one.neg.neg)
                 rw [Fp.neg_neg']
                 exact .refl _
    | num s m k h =>
      show (Fp.ofReal (Real.tanh (Fp.num s m k h : Fp B).neg.val)).Like
        (Fp.ofReal (Real.tanh (Fp.num s m k h : Fp B).val)).neg
      rw [Fp.neg_val', Real.tanh_neg]
      exact Fp.ofReal_neg_like _
  tanh_zero s := by
    show (Fp.ofReal (Real.tanh (Fp.zero s : Fp B).val)).isZero = true
    rw [Fp.zero_val, Real.tanh_zero]
    simp [Fp.ofReal, Fp.ofAbs_zero, Fp.isZero_zero]
  tanh_nan := rfl
  cosh_neg a := by
    cases a with
    | nan => rfl
    | inf s => cases s <;> rfl
    | num s m k h =>
      show Fp.ofReal (Real.cosh (Fp.num s m k h : Fp B).neg.val) = Fp.ofReal (Real.cosh (Fp.num s m k h : Fp B).val)
      rw [Fp.neg_val', Real.cosh_neg]

theorem exNanNet_sim (c : Bool) : (exNanNet : Net (Cf w (Fl L))).Rel (Cf.Sim c) exNanNet := by
  have h : ∀ r : Fl L, List.Forall₂ (Cf.Sim c) [(⟨r, Scalar.zero⟩ : Cf w (Fl L))] [⟨r, Scalar.zero⟩] :=
    fun r => .cons (.real r) .nil
  exact .cons ⟨⟨h _, rfl, rfl⟩, h _, rfl⟩ (.cons ⟨⟨h _, rfl, rfl⟩, h _, rfl⟩ .nil)

/-- A network of two layers that is its own conjugate: the outputs for `z` and its conjugate are
conjugates. -/
example (z : Cf w (Fl (Libm.rounded B))) : ∃ u v, exNanNet.forward (.scalar [z.conj]) = some (.ok (.scalar u))
    ∧ exNanNet.forward (.scalar [z]) = some (.ok (.scalar v)) ∧ List.Forall₂ Cf.ConjAlike u v := by
  obtain ⟨v, hv⟩ : ∃ v, exNanNet.forward (.scalar [z]) = some (.ok (.scalar v)) := ⟨_, rfl⟩
  have ha : ∀ d ∈ (exNanNet : Net (Cf w (Fl (Libm.rounded B)))).layers, d.act.EvenIeee := by
    intro d hd
    simp only [exNanNet, List.mem_cons, List.not_mem_nil, or_false] at hd
    rcases hd with rfl | rfl
    · exact .inr (.inr rfl)
    · exact .inl rfl
  obtain ⟨r, h1, h2⟩ := C112_conj_forward (Libm.rounded_regular B) (n := exNanNet) (exNanNet_sim true) ha
    (x := .scalar [z.conj]) (x' := .scalar [z]) (.cons ⟨.refl _, .refl _⟩ .nil) _ hv
  cases r with
  | error e => exact h2.elim
  | ok r => cases r with
    | matrix r => exact h2.elim
    | scalar u => exact ⟨u, v, h1, hv, h2⟩

/-- It is real, and so is its output for a real number. -/
example (r : Fl (Libm.rounded B)) : ∃ v, exNanNet.forward (.scalar [(⟨r, Scalar.zero⟩ : Cf w (Fl (Libm.rounded B)))])
    = some (.ok (.scalar v)) ∧ ∀ z ∈ v, z.Flat := by
  obtain ⟨v, hv⟩ : ∃ v, exNanNet.forward (.scalar [(⟨r, Scalar.zero⟩ : Cf w (Fl (Libm.rounded B)))])
    = some (.ok (.scalar v)) := ⟨_, rfl⟩
  refine ⟨v, hv, C112_real_forward (Libm.rounded_regular B) ?_ ?_ (x := .scalar [⟨r, Scalar.zero⟩]) ?_ hv⟩
  · intro d hd
    simp only [exNanNet, List.mem_cons, List.not_mem_nil, or_false] at hd
    rcases hd with rfl | rfl <;> constructor <;> intro z hz <;> rw [List.mem_singleton.mp hz] <;> exact flat_real _
  · intro d hd
    simp only [exNanNet, List.mem_cons, List.not_mem_nil, or_false] at hd
    rcases hd with rfl | rfl <;> constructor <;> intro h <;> cases h
  · intro z hz
    rw [List.mem_singleton.mp hz]
    exact flat_real _

end Renplex
