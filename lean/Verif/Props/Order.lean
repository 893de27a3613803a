import Verif.Model.Network
import Verif.Props.IeeeRandom
/-!
# C51: in `f32` and `f64` the order of the points in a batch matters

In exact arithmetic a training call does not depend on the order of the points (`C51_permutation`). With IEEE numbers
it does: three points with derivatives `2 ^ p`, 1 and `-2 ^ p` leave the bias at 0 in this order, and change it to the
exact result -1 in the reverse order.
-/

namespace Renplex
noncomputable section
variable {w : Width} {B : Binary} {L : Libm B}

/-! ## Whole numbers -/

/-- The number is the whole number `n`. -/
def Fl.IsInt (a : Fl L) (n : Int) : Prop := a.fp.Finite ∧ a.fp.val = n

theorem Binary.near_int {n : Int} (h : |n| ≤ 2 ^ B.p) : B.near |(n : ℝ)| < B.top ∧ B.round (n : ℝ) = n := by
  have e : |(n : ℝ)| = ((n.natAbs : Nat) : ℝ) := by rw [Nat.cast_natAbs]; push_cast; rfl
  have h1 : n.natAbs ≤ 2 ^ B.p := by
    have : ((n.natAbs : Nat) : ℤ) ≤ ((2 ^ B.p : Nat) : ℤ) := by push_cast; exact h
    exact_mod_cast this
  have h2 : B.near |(n : ℝ)| < B.top := by
    rw [e]
    exact B.near_lt_top (by positivity) (by exact_mod_cast h1)
  exact ⟨h2, (Fp.ofReal_spec h2).2.symm.trans (C84_integers h).2⟩

namespace Fl.IsInt
variable {a b : Fl L} {m n : Int}

theorem add (ha : a.IsInt m) (hb : b.IsInt n) {k : Int} (e : m + n = k) (h : |k| ≤ 2 ^ B.p) :
    (Scalar.add a b).IsInt k := by
  have e' : a.fp.val + b.fp.val = (k : ℝ) := by rw [ha.2, hb.2, ← e]; push_cast; ring
  obtain ⟨h1, h2⟩ := Binary.near_int h
  have := Fp.add_spec ha.1 hb.1 (by rw [e']; exact h1)
  rw [e', h2] at this
  exact this

theorem sub (ha : a.IsInt m) (hb : b.IsInt n) {k : Int} (e : m - n = k) (h : |k| ≤ 2 ^ B.p) :
    (Scalar.sub a b).IsInt k := by
  have e' : a.fp.val - b.fp.val = (k : ℝ) := by rw [ha.2, hb.2, ← e]; push_cast; ring
  obtain ⟨h1, h2⟩ := Binary.near_int h
  have := Fp.sub_spec ha.1 hb.1 (by rw [e']; exact h1)
  rw [e', h2] at this
  exact this

theorem mul (ha : a.IsInt m) (hb : b.IsInt n) {k : Int} (e : m * n = k) (h : |k| ≤ 2 ^ B.p) :
    (Scalar.mul a b).IsInt k := by
  have e' : a.fp.val * b.fp.val = (k : ℝ) := by rw [ha.2, hb.2, ← e]; push_cast; ring
  obtain ⟨h1, h2⟩ := Binary.near_int h
  have := Fp.mul_spec ha.1 hb.1 (by rw [e']; exact h1)
  rw [e', h2] at this
  exact this

theorem div (ha : a.IsInt m) (hb : b.IsInt n) (h0 : n ≠ 0) {k : Int} (e : m = k * n) (h : |k| ≤ 2 ^ B.p) :
    (Scalar.div a b).IsInt k := by
  have h0' : (n : ℝ) ≠ 0 := by exact_mod_cast h0
  have e' : a.fp.val / b.fp.val = (k : ℝ) := by
    rw [ha.2, hb.2, e]
    push_cast
    field_simp
  obtain ⟨h1, h2⟩ := Binary.near_int h
  have := Fp.div_spec ha.1 hb.1 (by rw [hb.2]; exact h0') (by rw [e']; exact h1)
  rw [e', h2] at this
  exact this

theorem neg (ha : a.IsInt m) {k : Int} (e : -m = k) : (Scalar.neg a).IsInt k := by
  obtain ⟨h1, h2⟩ := Fp.neg_spec ha.1
  refine ⟨h1, h2.trans ?_⟩
  rw [ha.2, ← e]
  push_cast
  rfl

/-- One is lost next to `2 ^ p`. -/
theorem lose (ha : a.IsInt (2 ^ B.p)) (hb : b.IsInt 1) : (Scalar.add a b).IsInt (2 ^ B.p) := by
  have hd := B.digits
  have e' : a.fp.val + b.fp.val = ((2 ^ B.p + 1 : Nat) : ℝ) := by rw [ha.2, hb.2]; push_cast; ring
  have h2 : B.near ((2 ^ B.p + 1 : Nat) : ℝ) = 2 ^ B.p := by
    have hl : Nat.log2 (2 ^ B.p + 1) = B.p := by
      have h1 : 2 ≤ 2 ^ B.p := (Nat.pow_le_pow_right two_pos (show 1 ≤ B.p by omega)).trans' (by norm_num)
      rw [Nat.log2_eq_iff (by positivity), pow_succ]
      omega
    have e1 : B.p - (B.p - 1) = 1 := by omega
    have e2 : (2 : Nat) ^ B.p = 2 * 2 ^ (B.p - 1) := by rw [← pow_succ']; congr 1; omega
    have e3 : (2 : Nat) ^ (B.p - 1) = 2 * 2 ^ (B.p - 2) := by rw [← pow_succ']; congr 1; omega
    have e4 : (2 ^ B.p + 1) / 2 = 2 ^ (B.p - 1) := by omega
    have e5 : (2 ^ B.p + 1) % 2 = 1 := by omega
    rw [B.near_nat (Nat.le_succ _), hl, e1, pow_one, e4, e5, if_pos (.inr ⟨rfl, by omega⟩), mul_comm, ← e2]
    push_cast
    rfl
  have h1 : B.near |a.fp.val + b.fp.val| < B.top := by
    rw [e', abs_of_nonneg (by positivity), h2, Binary.top, ← zpow_natCast]
    have := B.large
    exact zpow_lt_zpow_right₀ one_lt_two (by omega)
  have := Fp.add_spec ha.1 hb.1 h1
  rw [e', B.round_of_nonneg (by positivity), h2] at this
  exact ⟨this.1, this.2.trans (by push_cast; rfl)⟩

theorem lit (n : Int) (h : |n| ≤ 2 ^ B.p) : (⟨.ofReal (n : ℝ)⟩ : Fl L).IsInt n := C84_integers h

end Fl.IsInt

/-- The complex number is the whole number `n`. -/
def Cf.IsInt (z : Cf w (Fl L)) (n : Int) : Prop := z.x.IsInt n ∧ z.y.IsInt 0

theorem abs_zero_le_pow : |(0 : Int)| ≤ 2 ^ B.p := by rw [abs_zero]; positivity

namespace Cf.IsInt
variable {a b : Cf w (Fl L)} {m n : Int}

theorem add (ha : a.IsInt m) (hb : b.IsInt n) {k : Int} (e : m + n = k) (h : |k| ≤ 2 ^ B.p) : (a.add b).IsInt k :=
  ⟨ha.1.add hb.1 e h, ha.2.add hb.2 rfl abs_zero_le_pow⟩

theorem addAssign (ha : a.IsInt m) (hb : b.IsInt n) {k : Int} (e : m + n = k) (h : |k| ≤ 2 ^ B.p) :
    (a.addAssign b).IsInt k :=
  ⟨ha.1.add hb.1 e h, ha.2.add hb.2 rfl abs_zero_le_pow⟩

theorem sub (ha : a.IsInt m) (hb : b.IsInt n) {k : Int} (e : m - n = k) (h : |k| ≤ 2 ^ B.p) : (a.sub b).IsInt k :=
  ⟨ha.1.sub hb.1 e h, ha.2.sub hb.2 rfl abs_zero_le_pow⟩

theorem subAssign (ha : a.IsInt m) (hb : b.IsInt n) {k : Int} (e : m - n = k) (h : |k| ≤ 2 ^ B.p) :
    (a.subAssign b).IsInt k :=
  ⟨ha.1.sub hb.1 e h, ha.2.sub hb.2 rfl abs_zero_le_pow⟩

theorem conj (ha : a.IsInt m) : a.conj.IsInt m := ⟨ha.1, ha.2.neg rfl⟩

theorem mul (ha : a.IsInt m) (hb : b.IsInt n) {k : Int} (e : m * n = k) (h : |k| ≤ 2 ^ B.p) : (a.mul b).IsInt k :=
  ⟨(ha.1.mul hb.1 e h).sub (ha.2.mul hb.2 rfl abs_zero_le_pow) (by simp) h,
    (ha.1.mul hb.2 (mul_zero _) abs_zero_le_pow).add (ha.2.mul hb.1 (zero_mul _) abs_zero_le_pow) rfl abs_zero_le_pow⟩

theorem mulAssign (ha : a.IsInt m) (hb : b.IsInt n) {k : Int} (e : m * n = k) (h : |k| ≤ 2 ^ B.p) :
    (a.mulAssign b).IsInt k := by
  have h1 := (ha.1.mul hb.1 e h).sub (ha.2.mul hb.2 rfl abs_zero_le_pow) (k := k) (by simp) h
  exact ⟨h1, (h1.mul hb.2 (mul_zero _) abs_zero_le_pow).add (ha.2.mul hb.1 (zero_mul _) abs_zero_le_pow) rfl
    abs_zero_le_pow⟩

theorem lose (ha : a.IsInt (2 ^ B.p)) (hb : b.IsInt 1) : (a.addAssign b).IsInt (2 ^ B.p) :=
  ⟨ha.1.lose hb.1, ha.2.add hb.2 rfl abs_zero_le_pow⟩

end Cf.IsInt

/-! ## A batch of three points -/

/-- The whole number `n` in the format. -/
def intFl (n : Int) : Fl L := ⟨.ofReal (n : ℝ)⟩

/-- A flattening layer and a dense layer with one weight and one bias. -/
def tinyNet {R : Type} (W β : Cf w R) : Net (Cf w R) :=
  ⟨[.flatten ⟨((1, 1), 1)⟩, .dense ⟨Mat.fromBody [W] (1, 1), [β], .none⟩]⟩

/-- Three points whose inputs are 0. -/
def threePoints {R : Type} (z a b c : R) : Dataset (Cf w R) :=
  ⟨List.replicate 3 (.matrix [Mat.fromBody [⟨z, z⟩] (1, 1)]), [.scalar [⟨a, z⟩], .scalar [⟨b, z⟩], .scalar [⟨c, z⟩]]⟩

/-- The derivative of the loss of a point. -/
def pointDeriv {R : Type} [Scalar R] (z t : R) : Cf w R :=
  let e := (((Cf.default.add ((⟨z, z⟩ : Cf w R).mul ⟨z, z⟩)).addAssign ⟨z, z⟩).sub ⟨t, z⟩).conj
  (Cf.unit.mul e).add (Cf.default.conj.mul e.conj)

theorem threePoints_step {R : Type} [Scalar R] (z a b c l : R) (f : LossFunc) (v : Cf w R)
    (hv : (⟨l, z⟩ : Cf w R).div (Cf.ofUsize 3) = some v) :
    ∃ W, (tinyNet ⟨z, z⟩ ⟨z, z⟩ : Net (Cf w R)).gradientOpt (threePoints z a b c) f ⟨l, z⟩
      = some (.ok (), tinyNet W ((⟨z, z⟩ : Cf w R).subAssign
          ((((Cf.default.addAssign (pointDeriv z a)).addAssign (pointDeriv z b)).addAssign
            (pointDeriv z c)).mulAssign v).conj)) := by
  cases f
  all_goals
    simp only [threePoints, Net.gradientOpt, Dataset.points, tinyNet, Mat.fromBody, List.replicate_succ,
      List.replicate_zero, List.zip_cons_cons, List.zip_nil_left, List.foldlM_cons, List.foldlM_nil, Net.sampleStep,
      Net.collectActs, List.length_cons, List.length_nil]
    simp [Net.collectLoop, Net.fwd, Layer.forward, Flatten.forward, Dense.forward, Option.bind_eq_bind, unwrap,
      Dense.computeQ, Mat.mulSlice, Mat.getBody, activateMut, Mat.rowsAsIter, addSliceMut, zipUpd, Net.initAcc,
      Layer.propagates, Dense.propagates, Flatten.propagates, Layer.paramsLen, Dense.paramsLen, BasicOps.zero,
      BasicOps.add, BasicOps.mul, BasicOps.addAssign, CplxOps.activate, Act.activate, CplxOps.dLoss, CplxOps.conj,
      Net.backLoop, Layer.computeDerivatives, Dense.computeDerivatives, Dense.derivLoop, CplxOps.dActivate,
      CplxOps.dConjActivate, Net.updateLayer, Layer.negConjAdjustment, Dense.negConjAdjustment, mulMutScalar,
      BasicOps.subAssign, BasicOps.div, BasicOps.mulAssign, CplxOps.ofUsize, chunks, chunksPos, chunksAux,
      Loss.computeD, Loss.dFunc, Loss.dMeanSq, Loss.dNormCe, Loss.dSqError, Act.dActivate, Act.dConjActivate,
      BasicOps.sub, List.mapM_cons, hv, pointDeriv]

theorem pow_ge_nine (hp : 4 ≤ B.p) : (9 : Int) ≤ 2 ^ B.p := by
  calc (9 : Int) ≤ 2 ^ 4 := by norm_num
    _ ≤ 2 ^ B.p := pow_le_pow_right₀ (by norm_num) hp

theorem intFl_is {n : Int} (h : |n| ≤ 2 ^ B.p) : (intFl n : Fl L).IsInt n := C84_integers h

theorem default_isInt : (Cf.default : Cf w (Fl L)).IsInt 0 := by
  have h : (Scalar.zero : Fl L).IsInt 0 := by
    have := intFl_is (B := B) (L := L) (n := 0) abs_zero_le_pow
    simpa [intFl, Scalar.zero, Scalar.lit] using this
  exact ⟨h, h⟩

theorem unit_isInt : (Cf.unit : Cf w (Fl L)).IsInt 1 := by
  refine ⟨?_, (default_isInt (w := w)).2⟩
  have := intFl_is (B := B) (L := L) (n := 1) (by rw [abs_one]; exact one_le_pow₀ (by norm_num))
  simpa [intFl, Cf.unit, Scalar.one, Scalar.lit] using this

theorem pointDeriv_isInt {z t : Fl L} {n : Int} (hz : z.IsInt 0) (ht : t.IsInt n) (h : |n| ≤ 2 ^ B.p) :
    (pointDeriv z t : Cf w (Fl L)).IsInt (-n) := by
  have h' : |-n| ≤ 2 ^ B.p := by rwa [abs_neg]
  have zz : (⟨z, z⟩ : Cf w (Fl L)).IsInt 0 := ⟨hz, hz⟩
  have tz : (⟨t, z⟩ : Cf w (Fl L)).IsInt n := ⟨ht, hz⟩
  have h1 := (((default_isInt.add (zz.mul zz rfl abs_zero_le_pow) rfl abs_zero_le_pow).addAssign zz rfl
    abs_zero_le_pow).sub tz (zero_sub n) h').conj
  exact (unit_isInt.mul h1 (one_mul _) h').add (default_isInt.conj.mul h1.conj (zero_mul _) abs_zero_le_pow)
    (add_zero _) h'

/-- The learning rate 3 for three points. -/
theorem rate_isInt (hp : 4 ≤ B.p) : ∃ v : Cf w (Fl L),
    (⟨intFl 3, intFl 0⟩ : Cf w (Fl L)).div (Cf.ofUsize 3) = some v ∧ v.IsInt 1 := by
  have h9 := pow_ge_nine hp
  have c3 : |(3 : Int)| ≤ 2 ^ B.p := by rw [abs_of_pos (by norm_num)]; omega
  have c9 : |(9 : Int)| ≤ 2 ^ B.p := by rwa [abs_of_pos (by norm_num)]
  have c1 : |(1 : Int)| ≤ 2 ^ B.p := by rw [abs_one]; omega
  have h3 : (intFl 3 : Fl L).IsInt 3 := intFl_is c3
  have h0 : (intFl 0 : Fl L).IsInt 0 := intFl_is abs_zero_le_pow
  have u3 : (Cf.ofUsize 3 : Cf w (Fl L)).IsInt 3 := by
    refine ⟨?_, (default_isInt (w := w)).2⟩
    simpa [intFl, Cf.ofUsize, Scalar.ofNat] using h3
  have hd : (Cf.ofUsize 3 : Cf w (Fl L)).den.IsInt 9 :=
    (u3.1.mul u3.1 (k := 9) rfl c9).add (u3.2.mul u3.2 (k := 0) rfl abs_zero_le_pow) rfl c9
  refine ⟨_, if_neg ?_, ?_, ?_⟩
  · intro h
    have := (Fp.beq_spec hd.1 (default_isInt (w := w)).1.1).mp h
    rw [hd.2, (default_isInt (w := w)).1.2] at this
    norm_num at this
  · exact ((h3.mul u3.1 (k := 9) rfl c9).add (h0.mul u3.2 (k := 0) rfl abs_zero_le_pow) (k := 9) rfl c9).div hd
      (by norm_num) (by norm_num) c1
  · exact ((h0.mul u3.1 (k := 0) rfl abs_zero_le_pow).sub (h3.mul u3.2 (k := 0) rfl abs_zero_le_pow) (k := 0) rfl
      abs_zero_le_pow).div hd (by norm_num) (by norm_num) abs_zero_le_pow

/-- C51, in IEEE arithmetic the order of the points matters. Three points with the input 0 and the targets `-2 ^ p`, -1
and `2 ^ p` are processed first to last: the bias stays 0, because the second derivative is lost next to the first. The
same points last to first change it to -1, the result of exact arithmetic. -/
theorem C51_ieee_order (hp : 4 ≤ B.p) (f : LossFunc) :
    let n : Net (Cf w (Fl L)) := tinyNet ⟨intFl 0, intFl 0⟩ ⟨intFl 0, intFl 0⟩
    (∃ W β, n.gradientOpt (threePoints (intFl 0) (intFl (-2 ^ B.p)) (intFl (-1)) (intFl (2 ^ B.p))) f
        ⟨intFl 3, intFl 0⟩ = some (.ok (), tinyNet W β) ∧ β.IsInt 0)
      ∧ ∃ W β, n.gradientOpt (threePoints (intFl 0) (intFl (2 ^ B.p)) (intFl (-1)) (intFl (-2 ^ B.p))) f
        ⟨intFl 3, intFl 0⟩ = some (.ok (), tinyNet W β) ∧ β.IsInt (-1) := by
  have h9 := pow_ge_nine hp
  have cN : |(2 ^ B.p : Int)| ≤ 2 ^ B.p := by rw [abs_of_nonneg (by positivity)]
  have cN' : |(-2 ^ B.p : Int)| ≤ 2 ^ B.p := by rwa [abs_neg]
  have c1 : |(1 : Int)| ≤ 2 ^ B.p := by rw [abs_one]; omega
  have c1' : |(-1 : Int)| ≤ 2 ^ B.p := by rw [abs_neg]; exact c1
  have h0 : (intFl 0 : Fl L).IsInt 0 := intFl_is abs_zero_le_pow
  have zz : (⟨intFl 0, intFl 0⟩ : Cf w (Fl L)).IsInt 0 := ⟨h0, h0⟩
  have d1 : (pointDeriv (intFl 0) (intFl (-2 ^ B.p)) : Cf w (Fl L)).IsInt (2 ^ B.p) := by
    have := pointDeriv_isInt (w := w) h0 (intFl_is (L := L) cN') cN'
    rwa [neg_neg] at this
  have d2 : (pointDeriv (intFl 0) (intFl (-1)) : Cf w (Fl L)).IsInt 1 := by
    have := pointDeriv_isInt (w := w) h0 (intFl_is (L := L) c1') c1'
    rwa [neg_neg] at this
  have d3 : (pointDeriv (intFl 0) (intFl (2 ^ B.p)) : Cf w (Fl L)).IsInt (-2 ^ B.p) :=
    pointDeriv_isInt h0 (intFl_is cN) cN
  obtain ⟨v, hv, v1⟩ := rate_isInt (w := w) (L := L) hp
  refine ⟨?_, ?_⟩
  · obtain ⟨W, hW⟩ := threePoints_step (intFl 0) (intFl (-2 ^ B.p)) (intFl (-1)) (intFl (2 ^ B.p)) (intFl 3) f v hv
    refine ⟨W, _, hW, ?_⟩
    have s := ((default_isInt.addAssign d1 (zero_add _) cN).lose d2).addAssign d3 (add_neg_cancel _) abs_zero_le_pow
    exact zz.subAssign (s.mulAssign v1 (zero_mul _) abs_zero_le_pow).conj (sub_zero _) abs_zero_le_pow
  · obtain ⟨W, hW⟩ := threePoints_step (intFl 0) (intFl (2 ^ B.p)) (intFl (-1)) (intFl (-2 ^ B.p)) (intFl 3) f v hv
    refine ⟨W, _, hW, ?_⟩
    have s := ((default_isInt.addAssign d3 (zero_add _) cN').addAssign d2 rfl (by
      rw [abs_le]; constructor <;> omega)).addAssign d1 (show -2 ^ B.p + 1 + 2 ^ B.p = (1 : Int) by ring) c1
    exact zz.subAssign (s.mulAssign v1 (one_mul _) c1).conj (zero_sub _) c1'

/-- `f32` and `f64` have enough digits. -/
example : 4 ≤ binary32.p ∧ 4 ≤ binary64.p := by decide

end
end Renplex
