import Verif.Spec.Signs
import Verif.Lemmas.Ieee
import Verif.Props.Symmetry
import Verif.Props.Still
/-!
# Signs of zeros, conjugates and real numbers in `f32` and `f64`
-/

namespace Renplex

namespace Fp
variable {B : Binary}

theorem isZero_iff {a : Fp B} : a.isZero = true ↔ ∃ s, a = zero s := by
  constructor
  · intro h
    cases a with
    | nan => cases h
    | inf s => cases h
    | num s m k hk =>
      obtain rfl : m = 0 := by simpa [isZero] using h
      have hk' : k = B.kmin := by
        rcases hk.2.2.2 with h' | h'
        · have : 0 < 2 ^ (B.p - 1) := by positivity
          omega
        · exact h'
      subst hk'
      exact ⟨s, rfl⟩
  · rintro ⟨s, rfl⟩
    rfl

theorem isZero_zero (s : Bool) : (zero s : Fp B).isZero = true := rfl

theorem neg_ofAbs (s : Bool) (x : ℝ) : (ofAbs s x : Fp B).neg = ofAbs (!s) x := by
  unfold ofAbs
  simp only
  split
  · rfl
  · split <;> rfl

theorem neg_val' (a : Fp B) : a.neg.val = -a.val := by
  cases a with
  | nan => simp [neg, val]
  | inf s => simp [neg, val]
  | num s m k h => cases s <;> simp [neg, val]

theorem neg_neg' (a : Fp B) : a.neg.neg = a := by
  cases a <;> simp [neg]

theorem isZero_neg {a : Fp B} (h : a.isZero = true) : a.neg.isZero = true := by
  obtain ⟨s, rfl⟩ := isZero_iff.mp h
  rfl

theorem ofReal_neg {x : ℝ} (hx : x ≠ 0) : (ofReal (-x) : Fp B) = (ofReal x).neg := by
  unfold ofReal
  rw [neg_ofAbs, abs_neg]
  congr 1
  rcases lt_or_gt_of_ne hx with h | h
  · have : ¬ (-x < 0) := by linarith
    simp [h, this]
  · have : ¬ (x < 0) := by linarith
    simp [h, this]

namespace Like

theorem refl (a : Fp B) : a.Like a := .inl rfl

theorem zero (s t : Bool) : (Fp.zero s : Fp B).Like (Fp.zero t) := .inr ⟨rfl, rfl⟩

theorem symm {a b : Fp B} (h : a.Like b) : b.Like a := by
  rcases h with rfl | ⟨h1, h2⟩
  · exact .refl _
  · exact .inr ⟨h2, h1⟩

theorem trans {a b c : Fp B} (h : a.Like b) (h' : b.Like c) : a.Like c := by
  rcases h with rfl | ⟨h1, h2⟩
  · exact h'
  · rcases h' with rfl | ⟨h3, h4⟩
    · exact .inr ⟨h1, h2⟩
    · exact .inr ⟨h1, h4⟩

theorem neg {a b : Fp B} (h : a.Like b) : a.neg.Like b.neg := by
  rcases h with rfl | ⟨h1, h2⟩
  · exact .refl _
  · exact .inr ⟨isZero_neg h1, isZero_neg h2⟩

theorem add_left (s t : Bool) (b : Fp B) : ((Fp.zero s).add b).Like ((Fp.zero t).add b) := by
  cases b with
  | nan => exact .refl _
  | inf s => exact .refl _
  | num u m k h =>
    have hs : ∀ s : Bool, ((Fp.zero s : Fp B).add (num u m k h))
        = if (num u m k h : Fp B).val = 0 then Fp.zero (s && u) else ofReal (num u m k h : Fp B).val := by
      intro s
      have e : ∀ r : Bool, (Fp.zero r : Fp B).val + (num u m k h : Fp B).val = (num u m k h : Fp B).val := by
        intro r; rw [zero_val, zero_add]
      rw [← e s]
      rfl
    rw [hs, hs]
    split
    · exact .zero _ _
    · exact .refl _

theorem add_right (s t : Bool) (b : Fp B) : (b.add (Fp.zero s)).Like (b.add (Fp.zero t)) := by
  cases b with
  | nan => exact .refl _
  | inf s => exact .refl _
  | num u m k h =>
    have hs : ∀ s : Bool, ((num u m k h : Fp B).add (Fp.zero s))
        = if (num u m k h : Fp B).val = 0 then Fp.zero (u && s) else ofReal (num u m k h : Fp B).val := by
      intro s
      have e : ∀ r : Bool, (num u m k h : Fp B).val + (Fp.zero r : Fp B).val = (num u m k h : Fp B).val := by
        intro r; rw [zero_val, add_zero]
      rw [← e s]
      rfl
    rw [hs, hs]
    split
    · exact .zero _ _
    · exact .refl _

theorem add {a b a' b' : Fp B} (h : a.Like a') (h' : b.Like b') : (a.add b).Like (a'.add b') := by
  have h1 : (a.add b).Like (a'.add b) := by
    rcases h with rfl | ⟨h1, h2⟩
    · exact .refl _
    · obtain ⟨s, rfl⟩ := isZero_iff.mp h1
      obtain ⟨t, rfl⟩ := isZero_iff.mp h2
      exact add_left s t b
  refine h1.trans ?_
  rcases h' with rfl | ⟨h1, h2⟩
  · exact .refl _
  · obtain ⟨s, rfl⟩ := isZero_iff.mp h1
    obtain ⟨t, rfl⟩ := isZero_iff.mp h2
    exact add_right s t a'

theorem sub {a b a' b' : Fp B} (h : a.Like a') (h' : b.Like b') : (a.sub b).Like (a'.sub b') :=
  h.add h'.neg

/-- Changing both signs changes the sign of a sum (a sum that is zero is positive). -/
theorem add_neg (a b : Fp B) : (a.neg.add b.neg).Like (a.add b).neg := by
  cases a with
  | nan => exact .refl _
  | inf s => cases b with
    | nan => exact .refl _
    | inf t => cases s <;> cases t <;> exact .refl _
    | num => exact .refl _
  | num s m k h => cases b with
    | nan => exact .refl _
    | inf t => exact .refl _
    | num t m' k' h' =>
      have e : (num s m k h : Fp B).neg.val + (num t m' k' h' : Fp B).neg.val
          = -((num s m k h : Fp B).val + (num t m' k' h' : Fp B).val) := by
        rw [neg_val', neg_val']; ring
      have e1 : (num s m k h : Fp B).neg.add (num t m' k' h').neg
          = if (num s m k h : Fp B).neg.val + (num t m' k' h' : Fp B).neg.val = 0
            then Fp.zero (!s && !t) else ofReal ((num s m k h : Fp B).neg.val + (num t m' k' h' : Fp B).neg.val) := rfl
      have e2 : (num s m k h : Fp B).add (num t m' k' h')
          = if (num s m k h : Fp B).val + (num t m' k' h' : Fp B).val = 0
            then Fp.zero (s && t) else ofReal ((num s m k h : Fp B).val + (num t m' k' h' : Fp B).val) := rfl
      rw [e1, e2, e]
      by_cases h0 : (num s m k h : Fp B).val + (num t m' k' h' : Fp B).val = 0
      · rw [h0, neg_zero, if_pos rfl, if_pos rfl]
        exact .zero _ _
      · rw [if_neg (neg_ne_zero.mpr h0), if_neg h0, ofReal_neg h0]
        exact .refl _

theorem sub_neg (a b : Fp B) : (a.neg.sub b.neg).Like (a.sub b).neg := add_neg a b.neg

end Like

theorem mul_neg_left (a b : Fp B) : a.neg.mul b = (a.mul b).neg := by
  cases a with
  | nan => rfl
  | inf s => cases b with
    | nan => rfl
    | inf t => cases s <;> cases t <;> rfl
    | num t m k h =>
      show (if m = 0 then nan else inf (!s ^^ t)) = (if m = 0 then nan else inf (s ^^ t)).neg
      split
      · rfl
      · cases s <;> cases t <;> rfl
  | num s m k h => cases b with
    | nan => rfl
    | inf t =>
      show (if m = 0 then nan else inf (!s ^^ t)) = (if m = 0 then nan else inf (s ^^ t)).neg
      split
      · rfl
      · cases s <;> cases t <;> rfl
    | num t m' k' h' =>
      show ofAbs (!s ^^ t) |(num s m k h : Fp B).neg.val * (num t m' k' h' : Fp B).val|
        = (ofAbs (s ^^ t) |(num s m k h : Fp B).val * (num t m' k' h' : Fp B).val|).neg
      rw [neg_ofAbs, neg_val', neg_mul, abs_neg]
      cases s <;> cases t <;> rfl

theorem mul_comm' (a b : Fp B) : a.mul b = b.mul a := by
  cases a with
  | nan => cases b <;> rfl
  | inf s => cases b with
    | nan => rfl
    | inf t => cases s <;> cases t <;> rfl
    | num t m k h =>
      show (if m = 0 then nan else inf (s ^^ t)) = (if m = 0 then nan else inf (t ^^ s))
      rw [Bool.xor_comm]
  | num s m k h => cases b with
    | nan => rfl
    | inf t =>
      show (if m = 0 then nan else inf (s ^^ t)) = (if m = 0 then nan else inf (t ^^ s))
      rw [Bool.xor_comm]
    | num t m' k' h' =>
      show ofAbs (s ^^ t) |(num s m k h : Fp B).val * (num t m' k' h' : Fp B).val|
        = ofAbs (t ^^ s) |(num t m' k' h' : Fp B).val * (num s m k h : Fp B).val|
      rw [Bool.xor_comm, mul_comm]

theorem mul_neg_right (a b : Fp B) : a.mul b.neg = (a.mul b).neg := by
  rw [mul_comm', mul_neg_left, mul_comm']

theorem div_neg_left (a b : Fp B) : a.neg.div b = (a.div b).neg := by
  cases a with
  | nan => rfl
  | inf s => cases b with
    | nan => rfl
    | inf t => rfl
    | num t m k h => cases s <;> cases t <;> rfl
  | num s m k h => cases b with
    | nan => rfl
    | inf t => cases s <;> cases t <;> rfl
    | num t m' k' h' =>
      show (if m' = 0 then if m = 0 then nan else inf (!s ^^ t)
          else ofAbs (!s ^^ t) |(num s m k h : Fp B).neg.val / (num t m' k' h' : Fp B).val|)
        = (if m' = 0 then if m = 0 then nan else inf (s ^^ t)
          else ofAbs (s ^^ t) |(num s m k h : Fp B).val / (num t m' k' h' : Fp B).val|).neg
      split
      · split
        · rfl
        · cases s <;> cases t <;> rfl
      · rw [neg_ofAbs, neg_val', neg_div, abs_neg]
        cases s <;> cases t <;> rfl

theorem zero_mul_like (s t : Bool) (b : Fp B) : ((zero s).mul b).Like ((zero t).mul b) := by
  cases b with
  | nan => exact .refl _
  | inf u => exact .refl _
  | num u m k h =>
    have hs : ∀ s : Bool, (zero s : Fp B).mul (num u m k h) = zero (s ^^ u) := by
      intro s
      show ofAbs (s ^^ u) |(zero s : Fp B).val * (num u m k h : Fp B).val| = _
      rw [zero_val, zero_mul, abs_zero, ofAbs_zero]
    rw [hs, hs]
    exact .zero _ _

namespace Like

theorem mul {a b a' b' : Fp B} (h : a.Like a') (h' : b.Like b') : (a.mul b).Like (a'.mul b') := by
  have key : ∀ {a a' : Fp B} (_ : a.Like a') (b : Fp B), (a.mul b).Like (a'.mul b) := by
    intro a a' h b
    rcases h with rfl | ⟨h1, h2⟩
    · exact .refl _
    · obtain ⟨s, rfl⟩ := isZero_iff.mp h1
      obtain ⟨t, rfl⟩ := isZero_iff.mp h2
      exact zero_mul_like s t b
  refine (key h b).trans ?_
  rw [mul_comm' a' b, mul_comm' a' b']
  exact key h' a'

theorem div {a a' : Fp B} (h : a.Like a') (b : Fp B) : (a.div b).Like (a'.div b) := by
  rcases h with rfl | ⟨h1, h2⟩
  · exact .refl _
  · obtain ⟨s, rfl⟩ := isZero_iff.mp h1
    obtain ⟨t, rfl⟩ := isZero_iff.mp h2
    cases b with
    | nan => exact .refl _
    | inf u => exact .zero _ _
    | num u m k hk =>
      have hs : ∀ s : Bool, (Fp.zero s : Fp B).div (num u m k hk) = if m = 0 then nan else Fp.zero (s ^^ u) := by
        intro s
        show (if m = 0 then if (0 : Nat) = 0 then nan else inf (s ^^ u)
          else ofAbs (s ^^ u) |(Fp.zero s : Fp B).val / (num u m k hk : Fp B).val|) = _
        rw [zero_val, zero_div, abs_zero, ofAbs_zero, if_pos rfl]
      rw [hs, hs]
      split
      · exact .refl _
      · exact .zero _ _

/-- The squares are the same. -/
theorem sq {a a' : Fp B} (h : a.Like a') : a.mul a = a'.mul a' := by
  rcases h with rfl | ⟨h1, h2⟩
  · rfl
  · obtain ⟨s, rfl⟩ := isZero_iff.mp h1
    obtain ⟨t, rfl⟩ := isZero_iff.mp h2
    have hs : ∀ s : Bool, (Fp.zero s : Fp B).mul (Fp.zero s) = Fp.zero false := by
      intro s
      show ofAbs (s ^^ s) |(Fp.zero s : Fp B).val * (Fp.zero s : Fp B).val| = _
      rw [zero_val, zero_mul, abs_zero, ofAbs_zero, Bool.xor_self]
    rw [hs, hs]

end Like

theorem sq_neg (a : Fp B) : a.neg.mul a.neg = a.mul a := by
  rw [mul_neg_left, mul_neg_right, neg_neg']

/-- Change of sign, if `c`. -/
def flip (c : Bool) (a : Fp B) : Fp B := match c with
  | true => a.neg
  | false => a

theorem flip_add (c : Bool) (a b : Fp B) : ((flip c a).add (flip c b)).Like (flip c (a.add b)) := by
  cases c
  · exact .refl _
  · exact .add_neg a b

theorem flip_sub (c : Bool) (a b : Fp B) : ((flip c a).sub (flip c b)).Like (flip c (a.sub b)) := by
  cases c
  · exact .refl _
  · exact .sub_neg a b

theorem flip_mul_left (c : Bool) (a b : Fp B) : (flip c a).mul b = flip c (a.mul b) := by
  cases c
  · rfl
  · exact mul_neg_left a b

theorem flip_mul_right (c : Bool) (a b : Fp B) : a.mul (flip c b) = flip c (a.mul b) := by
  cases c
  · rfl
  · exact mul_neg_right a b

theorem flip_flip (c : Bool) (a : Fp B) : flip c (flip c a) = a := by
  cases c
  · rfl
  · exact neg_neg' a

theorem flip_div (c : Bool) (a b : Fp B) : (flip c a).div b = flip c (a.div b) := by
  cases c
  · rfl
  · exact div_neg_left a b

theorem flip_neg (c : Bool) (a : Fp B) : (flip c a).neg = flip c a.neg := by
  cases c <;> rfl

theorem flip_like (c : Bool) {a b : Fp B} (h : a.Like b) : (flip c a).Like (flip c b) := by
  cases c
  · exact h
  · exact h.neg

theorem zero_flip (c s : Bool) : (zero s : Fp B).Like (flip c (zero s)) := by
  cases c
  · exact .refl _
  · exact .inr ⟨rfl, rfl⟩

end Fp

/-! ## The operations of complex numbers -/

section ops
variable {w : Width} {B : Binary} {L : Libm B}

/-- The same number, or its conjugate, up to the signs of zeros. -/
def Cf.Sim (c : Bool) (a b : Cf w (Fl L)) : Prop := a.x.fp.Like b.x.fp ∧ a.y.fp.Like (Fp.flip c b.y.fp)

theorem zero_fp : (Scalar.zero : Fl L).fp = .zero false := by
  show Fp.ofReal ((0 : Int) / (1 : Nat) : ℝ) = _
  simp [Fp.ofReal, Fp.ofAbs_zero]

theorem Cf.Sim.den {c : Bool} {a b : Cf w (Fl L)} (h : a.Sim c b) : a.den = b.den := by
  have e : a.den.fp = b.den.fp := by
    show (a.x.fp.mul a.x.fp).add (a.y.fp.mul a.y.fp) = (b.x.fp.mul b.x.fp).add (b.y.fp.mul b.y.fp)
    rw [h.1.sq, h.2.sq, Fp.flip_mul_left, Fp.flip_mul_right, Fp.flip_flip]
  exact congrArg Fl.mk e

theorem Cf.Sim.normSq {c : Bool} {a b : Cf w (Fl L)} (h : a.Sim c b) : a.normSq = b.normSq := h.den

theorem Cf.Sim.norm {c : Bool} {a b : Cf w (Fl L)} (h : a.Sim c b) : a.norm = b.norm := by
  show Scalar.sqrt a.den = Scalar.sqrt b.den
  rw [h.den]

theorem Cf.Sim.neg_y {c : Bool} {a b : Cf w (Fl L)} (h : a.Sim c b) : a.conj.Sim c b.conj := by
  refine ⟨h.1, ?_⟩
  show a.y.fp.neg.Like (Fp.flip c b.y.fp.neg)
  rw [← Fp.flip_neg]
  exact h.2.neg

theorem Cf.Sim.add {c : Bool} {a b a' b' : Cf w (Fl L)} (h : a.Sim c b) (h' : a'.Sim c b') :
    (Cf.add a a').Sim c (Cf.add b b') :=
  ⟨h.1.add h'.1, (h.2.add h'.2).trans (Fp.flip_add ..)⟩

theorem Cf.Sim.sub {c : Bool} {a b a' b' : Cf w (Fl L)} (h : a.Sim c b) (h' : a'.Sim c b') :
    (Cf.sub a a').Sim c (Cf.sub b b') :=
  ⟨h.1.sub h'.1, (h.2.sub h'.2).trans (Fp.flip_sub ..)⟩

theorem Fp.Like.flip_mul {B : Binary} {c : Bool} {a b a' b' : Fp B} (h : a.Like b) (h' : a'.Like (Fp.flip c b')) :
    (a.mul a').Like (Fp.flip c (b.mul b')) := by
  rw [← Fp.flip_mul_right]; exact h.mul h'

theorem Fp.Like.mul_flip {B : Binary} {c : Bool} {a b a' b' : Fp B} (h : a.Like (Fp.flip c b)) (h' : a'.Like b') :
    (a.mul a').Like (Fp.flip c (b.mul b')) := by
  rw [← Fp.flip_mul_left]; exact h.mul h'

theorem Fp.Like.flip_mul_flip {B : Binary} {c : Bool} {a b a' b' : Fp B} (h : a.Like (Fp.flip c b))
    (h' : a'.Like (Fp.flip c b')) : (a.mul a').Like (b.mul b') := by
  have := h.mul h'
  rwa [Fp.flip_mul_left, Fp.flip_mul_right, Fp.flip_flip] at this

theorem Cf.Sim.mul {c : Bool} {a b a' b' : Cf w (Fl L)} (h : a.Sim c b) (h' : a'.Sim c b') :
    (Cf.mul a a').Sim c (Cf.mul b b') :=
  ⟨(h.1.mul h'.1).sub (h.2.flip_mul_flip h'.2),
    ((h.1.flip_mul h'.2).add (h.2.mul_flip h'.1)).trans (Fp.flip_add ..)⟩

theorem Cf.Sim.mulAssign {c : Bool} {a b a' b' : Cf w (Fl L)} (h : a.Sim c b) (h' : a'.Sim c b') :
    (Cf.mulAssign a a').Sim c (Cf.mulAssign b b') :=
  have hx := (h.1.mul h'.1).sub (h.2.flip_mul_flip h'.2)
  ⟨hx, ((hx.flip_mul h'.2).add (h.2.mul_flip h'.1)).trans (Fp.flip_add ..)⟩

theorem Cf.Sim.div {c : Bool} {a b a' b' : Cf w (Fl L)} (h : a.Sim c b) (h' : a'.Sim c b') :
    Follows (Cf.Sim c) (Cf.div a a') (Cf.div b b') := by
  intro y hy
  unfold Cf.div at hy ⊢
  rw [h'.den]
  split at hy
  · cases hy
  · rename_i hd
    rw [if_neg hd]
    cases hy
    refine ⟨_, rfl, ((h.1.mul h'.1).add (h.2.flip_mul_flip h'.2)).div _, ?_⟩
    have := (((h.2.mul_flip h'.1).sub (h.1.flip_mul h'.2)).trans (Fp.flip_sub ..)).div b'.den.fp
    rwa [Fp.flip_div] at this

theorem Cf.Sim.real {c : Bool} (r : Fl L) : (⟨r, Scalar.zero⟩ : Cf w (Fl L)).Sim c ⟨r, Scalar.zero⟩ := by
  refine ⟨.refl _, ?_⟩
  show (Scalar.zero : Fl L).fp.Like (Fp.flip c (Scalar.zero : Fl L).fp)
  rw [zero_fp]
  exact Fp.zero_flip c false

theorem Cf.Sim.real_of {c : Bool} {r r' : Fl L} (h : r.fp.Like r'.fp) :
    (⟨r, Scalar.zero⟩ : Cf w (Fl L)).Sim c ⟨r', Scalar.zero⟩ := ⟨h, (Cf.Sim.real (w := w) r).2⟩

theorem sim_dFunc {c : Bool} (f : LossFunc) {t t' p p' : List (Cf w (Fl L))} (ht : List.Forall₂ (Cf.Sim c) t t')
    (hp : List.Forall₂ (Cf.Sim c) p p') :
    List.Forall₂ (Cf.Sim c) (Loss.dFunc f t p) (Loss.dFunc f t' p') := by
  have key : List.Forall₂ (Cf.Sim c) (Loss.dMeanSq t p) (Loss.dMeanSq t' p') := by
    unfold Loss.dMeanSq
    induction ht generalizing p p' with
    | nil => exact .nil
    | cons h _ ih => cases hp with
      | nil => exact .nil
      | cons h' hp => exact .cons (h'.sub h).neg_y (ih hp)
  cases f <;> exact key

theorem sim_respects (c : Bool) : Respects (Cf.Sim c : Cf w (Fl L) → Cf w (Fl L) → Prop) where
  zero := .real _
  add h h' := h.add h'
  mul h h' := h.mul h'
  addAssign h h' := h.add h'
  subAssign h h' := h.sub h'
  mulAssign h h' := h.mulAssign h'
  conj h := h.neg_y
  divNat n h := h.div (.real _)
  dLoss {f t t' p p'} ht hp := by
    cases t <;> cases t' <;> first | exact ht.elim | skip
    · cases p <;> cases p' <;> first | exact hp.elim | skip
      · exact sim_dFunc f ht hp
      · exact rfl
    · cases p <;> cases p' <;> first | exact hp.elim | skip
      · exact rfl
      · exact sim_dFunc f (forall₂_flatMap ht) (forall₂_flatMap hp)

/-! ### Losses -/

theorem sim_meanSq {c : Bool} {t t' p p' : List (Cf w (Fl L))} (ht : List.Forall₂ (Cf.Sim c) t t')
    (hp : List.Forall₂ (Cf.Sim c) p p') : Loss.meanSq t p = Loss.meanSq t' p' := by
  have key : ∀ (i : Nat) (acc : Nat × Fl L) {t t' p p' : List (Cf w (Fl L))}, List.Forall₂ (Cf.Sim c) t t' →
      List.Forall₂ (Cf.Sim c) p p' →
      ((t.zip p).zipIdx i).foldl (fun (acc : Nat × Fl L) (p : (Cf w (Fl L) × Cf w (Fl L)) × Nat) =>
        (p.2, Scalar.add acc.2 (Loss.sqError p.1.1 p.1.2))) acc
      = ((t'.zip p').zipIdx i).foldl (fun (acc : Nat × Fl L) (p : (Cf w (Fl L) × Cf w (Fl L)) × Nat) =>
        (p.2, Scalar.add acc.2 (Loss.sqError p.1.1 p.1.2))) acc := by
    intro i acc t t' p p' ht hp
    induction ht generalizing i acc p p' with
    | nil => rfl
    | cons h _ ih => cases hp with
      | nil => rfl
      | cons h' hp =>
        simp only [List.zip_cons_cons, List.zipIdx_cons, List.foldl_cons]
        rw [show Loss.sqError _ _ = Loss.sqError _ _ from (h.sub h').normSq]
        exact ih _ _ hp
  unfold Loss.meanSq
  rw [key 0 _ ht hp]

theorem sim_normCe {c : Bool} {t t' p p' : List (Cf w (Fl L))} (ht : List.Forall₂ (Cf.Sim c) t t')
    (hp : List.Forall₂ (Cf.Sim c) p p') : (Loss.normCe t p).fp.Like (Loss.normCe t' p').fp := by
  have e : (p.map fun z => Scalar.exp z.normSq) = p'.map fun z => Scalar.exp z.normSq := by
    induction hp with
    | nil => rfl
    | cons h _ ih => rw [List.map_cons, List.map_cons, h.normSq, ih]
  have key : ∀ (d : Fl L) (es : List (Fl L)) {t t' : List (Cf w (Fl L))} (_ : List.Forall₂ (Cf.Sim c) t t')
      (a a' : Fl L), a.fp.Like a'.fp →
      (((t.map Cf.re).zip es).foldl (fun acc p =>
        Scalar.sub acc (Scalar.mul p.1 (Scalar.ln (Scalar.div p.2 d)))) a).fp.Like
      (((t'.map Cf.re).zip es).foldl (fun acc p =>
        Scalar.sub acc (Scalar.mul p.1 (Scalar.ln (Scalar.div p.2 d)))) a').fp := by
    intro d es t t' ht
    induction ht generalizing es with
    | nil => exact fun a a' h => h
    | cons h _ ih => cases es with
      | nil => exact fun a a' h => h
      | cons e es =>
        intro a a' ha
        simp only [List.map_cons, List.zip_cons_cons, List.foldl_cons]
        exact ih es _ _ (ha.sub (h.1.mul (.refl _)))
  unfold Loss.normCe
  simp only [e]
  exact key _ _ ht _ _ (.refl _)

theorem sim_func {c : Bool} (f : LossFunc) {t t' p p' : List (Cf w (Fl L))} (ht : List.Forall₂ (Cf.Sim c) t t')
    (hp : List.Forall₂ (Cf.Sim c) p p') : (Loss.func f t p).fp.Like (Loss.func f t' p').fp := by
  cases f with
  | meanSquare => exact .inl (congrArg Fl.fp (sim_meanSq ht hp))
  | normCrossEntropy => exact sim_normCe ht hp

theorem sim_respectsLoss (c : Bool) :
    RespectsLoss (Cf.Sim c : Cf w (Fl L) → Cf w (Fl L) → Prop) (fun a b : Fl L => a.fp.Like b.fp) where
  loss {f t t' p p'} ht hp := by
    cases t <;> cases t' <;> first | exact ht.elim | skip
    · cases p <;> cases p' <;> first | exact hp.elim | skip
      · exact sim_func f ht hp
      · exact rfl
    · cases p <;> cases p' <;> first | exact hp.elim | skip
      · exact rfl
      · exact sim_func f (forall₂_flatMap ht) (forall₂_flatMap hp)
  add h h' := h.add h'
  divNat {a b} n h := by
    intro y hy
    cases hy
    exact ⟨_, rfl, h.div _⟩

/-! ### Activations -/

theorem Libm.Regular.cosh_like (hL : L.Regular) {c : Bool} {a b : Fp B} (h : a.Like (Fp.flip c b)) :
    L.cosh a = L.cosh b := by
  have e : L.cosh (Fp.flip c b) = L.cosh b := by
    cases c
    · rfl
    · exact hL.cosh_neg b
  rw [← e]
  rcases h with h | ⟨h1, h2⟩
  · rw [h]
  · obtain ⟨s, e1⟩ := Fp.isZero_iff.mp h1
    obtain ⟨t, e2⟩ := Fp.isZero_iff.mp h2
    rw [e1, e2]
    have h0 : L.cosh (.zero true) = L.cosh (.zero false) := hL.cosh_neg (.zero false)
    cases s <;> cases t <;> simp [h0]

theorem Libm.Regular.tanh_like (hL : L.Regular) {c : Bool} {a b : Fp B} (h : a.Like (Fp.flip c b)) :
    (L.tanh a).Like (Fp.flip c (L.tanh b)) := by
  have e : (L.tanh (Fp.flip c b)).Like (Fp.flip c (L.tanh b)) := by
    cases c
    · exact .refl _
    · exact hL.tanh_neg b
  refine Fp.Like.trans ?_ e
  rcases h with h | ⟨h1, h2⟩
  · rw [h]; exact .refl _
  · obtain ⟨s, e1⟩ := Fp.isZero_iff.mp h1
    obtain ⟨t, e2⟩ := Fp.isZero_iff.mp h2
    rw [e1, e2]
    exact .inr ⟨hL.tanh_zero s, hL.tanh_zero t⟩

theorem follows_some {X Y : Type} {S : X → Y → Prop} {x : X} {y : Y} (h : S x y) :
    Follows S (some x) (some y) := by
  intro z hz
  cases hz
  exact ⟨x, rfl, h⟩

theorem sim_modZ {c : Bool} {a z : Cf w (Fl L)} (h : a.Sim c z) :
    Follows (Cf.Sim c) (Act.modZ a) (Act.modZ z) := by
  refine h.div ?_
  rw [h.norm]
  exact .real _

theorem sim_dModZ {c : Bool} {a z : Cf w (Fl L)} (h : a.Sim c z) :
    (Act.dModZ a).Sim c (Act.dModZ z) := by
  unfold Act.dModZ
  rw [h.norm]
  exact .real _

theorem sim_dConjModZ {c : Bool} {a z : Cf w (Fl L)} (h : a.Sim c z) :
    Follows (Cf.Sim c) (Act.dConjModZ a) (Act.dConjModZ z) := by
  intro y hy
  obtain ⟨q, h1, h2⟩ := Option.bind_eq_some_iff.mp hy
  obtain ⟨q', h3, h4⟩ := h.div h.neg_y q h1
  obtain ⟨y', h5, h6⟩ := h4.div (.real _) y h2
  refine ⟨y', ?_, h6⟩
  unfold Act.dConjModZ
  rw [h3, h.norm]
  exact h5

theorem sech2_like (hL : L.Regular) {c : Bool} {a b : Fl L} (h : a.fp.Like (Fp.flip c b.fp)) :
    Act.sech2 a = Act.sech2 b := by
  have : (Scalar.cosh a : Fl L) = Scalar.cosh b := congrArg Fl.mk (hL.cosh_like h)
  unfold Act.sech2
  rw [this]

theorem sim_ritTanh (hL : L.Regular) {c : Bool} {a z : Cf w (Fl L)} (h : a.Sim c z) :
    (Act.ritTanh a).Sim c (Act.ritTanh z) :=
  ⟨hL.tanh_like (c := false) h.1, hL.tanh_like h.2⟩

theorem sim_dRitTanh (hL : L.Regular) {c : Bool} {a z : Cf w (Fl L)} (h : a.Sim c z) :
    (Act.dRitTanh a).Sim c (Act.dRitTanh z) ∧ (Act.dConjRitTanh a).Sim c (Act.dConjRitTanh z) := by
  unfold Act.dRitTanh Act.dConjRitTanh
  rw [sech2_like hL (c := false) (a := a.x) (b := z.x) h.1, sech2_like hL h.2]
  exact ⟨.real _, .real _⟩

theorem Fp.le_zero_right (a : Fp B) (s t : Bool) : a.le (.zero s) = a.le (.zero t) := by
  cases a with
  | nan => rfl
  | inf u => rfl
  | num u m k h =>
    show (decide ((Fp.num u m k h).val < (Fp.zero s : Fp B).val) || decide ((Fp.num u m k h).val = (Fp.zero s : Fp B).val))
      = (decide ((Fp.num u m k h).val < (Fp.zero t : Fp B).val) || decide ((Fp.num u m k h).val = (Fp.zero t : Fp B).val))
    rw [Fp.zero_val, Fp.zero_val]

theorem Fp.le_zero_left (a : Fp B) (s t : Bool) : (Fp.zero s).le a = (Fp.zero t).le a := by
  cases a with
  | nan => rfl
  | inf u => rfl
  | num u m k h =>
    show (decide ((Fp.zero s : Fp B).val < (Fp.num u m k h).val) || decide ((Fp.zero s : Fp B).val = (Fp.num u m k h).val))
      = (decide ((Fp.zero t : Fp B).val < (Fp.num u m k h).val) || decide ((Fp.zero t : Fp B).val = (Fp.num u m k h).val))
    rw [Fp.zero_val, Fp.zero_val]

theorem sigmoid_like (hL : L.Regular) {a b : Fl L} (h : a.fp.Like b.fp) :
    Act.sigmoid w a = Act.sigmoid w b := by
  obtain ⟨a⟩ := a
  obtain ⟨b⟩ := b
  rcases h with h | ⟨h1, h2⟩
  · obtain rfl : a = b := h
    rfl
  · obtain ⟨s, e1⟩ := Fp.isZero_iff.mp h1
    obtain ⟨t, e2⟩ := Fp.isZero_iff.mp h2
    obtain rfl : a = _ := e1
    obtain rfl : b = _ := e2
    have h3 : (Scalar.le (Act.sigThreshold w) (⟨.zero s⟩ : Fl L)) = Scalar.le (Act.sigThreshold w) (⟨.zero t⟩ : Fl L) :=
      Fp.le_zero_right _ s t
    have h4 : (Scalar.le (⟨.zero s⟩ : Fl L) (Scalar.neg (Act.sigThreshold w)))
        = Scalar.le (⟨.zero t⟩ : Fl L) (Scalar.neg (Act.sigThreshold w)) :=
      Fp.le_zero_left _ s t
    have h5 : (Scalar.exp (⟨.zero s⟩ : Fl L)) = Scalar.exp (⟨.zero t⟩ : Fl L) := by
      refine congrArg Fl.mk ?_
      cases s <;> cases t <;> first | rfl | exact hL.exp_zero | exact hL.exp_zero.symm
    unfold Act.sigmoid
    rw [h3, h4, h5]

theorem relu_like {a b : Fl L} (h : a.fp.Like b.fp) : (Act.relu a).fp.Like (Act.relu b).fp := by
  obtain ⟨a⟩ := a
  obtain ⟨b⟩ := b
  rcases h with h | ⟨h1, h2⟩
  · obtain rfl : a = b := h
    exact .refl _
  · have key : ∀ a : Fp B, a.isZero = true → (Act.relu (⟨a⟩ : Fl L)).fp.isZero = true := by
      intro a ha
      unfold Act.relu
      split
      · exact ha
      · rw [zero_fp]; rfl
    exact .inr ⟨key a h1, key b h2⟩

/-- C112. The values of these options do not depend on the signs of zeros, and neither do the
derivatives of all of them but `ritReLU`. -/
theorem C112_zeros_activation (hL : L.Regular) {f : ActFunc} :
    (f.Blind → RespectsAct (Cf.Alike : Cf w (Fl L) → Cf w (Fl L) → Prop) f)
    ∧ (f.BlindDer → RespectsDer (Cf.Alike : Cf w (Fl L) → Cf w (Fl L) → Prop) f) := by
  constructor
  · intro hf a z h
    have h : a.Sim false z := h
    rcases hf with rfl | rfl | rfl | rfl | rfl
    · exact follows_some h
    · exact sim_modZ h
    · exact follows_some (sim_ritTanh hL h)
    · refine follows_some ?_
      show (Act.ritSigmoid a).Sim false (Act.ritSigmoid z)
      unfold Act.ritSigmoid
      rw [sigmoid_like hL h.1, sigmoid_like hL (a := a.y) (b := z.y) h.2]
      exact ⟨.refl _, .refl _⟩
    · exact follows_some ⟨relu_like h.1, relu_like h.2⟩
  · intro hf a z h
    have h : a.Sim false z := h
    rcases hf with rfl | rfl | rfl | rfl
    · exact ⟨follows_some (Cf.Sim.real (c := false) _), follows_some (Cf.Sim.real (c := false) _)⟩
    · exact ⟨follows_some (sim_dModZ h), sim_dConjModZ h⟩
    · exact ⟨follows_some (sim_dRitTanh hL h).1, follows_some (sim_dRitTanh hL h).2⟩
    · have e : ∀ {a b : Fl L}, a.fp.Like b.fp → Act.dSigmoid w a = Act.dSigmoid w b := by
        intro a b hab
        unfold Act.dSigmoid
        rw [sigmoid_like hL hab]
      have e1 := e h.1
      have e2 := e (a := a.y) (b := z.y) h.2
      refine ⟨follows_some ?_, follows_some ?_⟩
      · show (Act.dRitSigmoid a).Sim false (Act.dRitSigmoid z)
        unfold Act.dRitSigmoid
        rw [e1, e2]
        exact .real _
      · show (Act.dConjRitSigmoid a).Sim false (Act.dConjRitSigmoid z)
        unfold Act.dConjRitSigmoid
        rw [e1, e2]
        exact .real _

/-- C112. These options commute with conjugation up to the signs of zeros, and so do their
derivatives. -/
theorem C112_conj_activation (hL : L.Regular) {f : ActFunc} (hf : f.EvenIeee) :
    RespectsAct (Cf.ConjAlike : Cf w (Fl L) → Cf w (Fl L) → Prop) f
    ∧ RespectsDer (Cf.ConjAlike : Cf w (Fl L) → Cf w (Fl L) → Prop) f := by
  refine ⟨fun a z h => ?_, fun a z h => ?_⟩
  · have h : a.Sim true z := h
    rcases hf with rfl | rfl | rfl
    · exact follows_some h
    · exact sim_modZ h
    · exact follows_some (sim_ritTanh hL h)
  · have h : a.Sim true z := h
    rcases hf with rfl | rfl | rfl
    · exact ⟨follows_some (Cf.Sim.real (c := true) _), follows_some (Cf.Sim.real (c := true) _)⟩
    · exact ⟨follows_some (sim_dModZ h), sim_dConjModZ h⟩
    · exact ⟨follows_some (sim_dRitTanh hL h).1, follows_some (sim_dRitTanh hL h).2⟩

/-! ### Networks -/

/-- C112. Networks that differ in the signs of zeros return, from inputs that differ so, outputs that
differ so, or the same error. -/
theorem C112_zeros_forward (hL : L.Regular) {n n' : Net (Cf w (Fl L))} (hn : n.Rel Cf.Alike n')
    (ha : ∀ d ∈ n'.layers, d.act.Blind) {x x' : IOType (Cf w (Fl L))} (hx : x.Rel Cf.Alike x') :
    Follows (Except.Agrees (IOType.Rel Cf.Alike)) (n.forward x) (n'.forward x') :=
  C79_forward (sim_respects false) hn (fun d hd => (C112_zeros_activation hL).1 (ha d hd)) hx

/-- C112. Their losses are the same up to the sign of a zero. -/
theorem C112_zeros_loss (hL : L.Regular) {n n' : Net (Cf w (Fl L))} (hn : n.Rel Cf.Alike n')
    (ha : ∀ d ∈ n'.layers, d.act.Blind) {D D' : Dataset (Cf w (Fl L))} (hD : D.Rel Cf.Alike D')
    (f : LossFunc) : Follows (fun a b : Fl L => a.fp.Like b.fp) (n.loss D f) (n'.loss D' f) :=
  C79_loss (sim_respects false) (sim_respectsLoss false) hn
    (fun d hd => (C112_zeros_activation hL).1 (ha d hd)) hD f

/-- C112. Training, too, does not depend on the signs of zeros. -/
theorem C112_zeros_run (hL : L.Regular) {n n' : Net (Cf w (Fl L))} (hn : n.Rel Cf.Alike n')
    (ha : ∀ d ∈ n'.layers, d.act.BlindDer) {s s' : List (TrainStep (Cf w (Fl L)))}
    (hs : StepsRel Cf.Alike s s') : Follows (Net.Rel Cf.Alike) (n.train s) (n'.train s') := by
  refine C79_run (sim_respects false) hn (fun d hd => ?_) hs
  have h := ha d hd
  refine ⟨(C112_zeros_activation hL).1 ?_, (C112_zeros_activation hL).2 h⟩
  rcases h with h | h | h | h
  · exact .inl h
  · exact .inr (.inl h)
  · exact .inr (.inr (.inl h))
  · exact .inr (.inr (.inr (.inl h)))

/-- C112. The conjugated network returns the conjugated output for the conjugated input, in every digit
and up to the signs of zeros, or the same error. -/
theorem C112_conj_forward (hL : L.Regular) {n n' : Net (Cf w (Fl L))} (hn : n.Rel Cf.ConjAlike n')
    (ha : ∀ d ∈ n'.layers, d.act.EvenIeee) {x x' : IOType (Cf w (Fl L))} (hx : x.Rel Cf.ConjAlike x') :
    Follows (Except.Agrees (IOType.Rel Cf.ConjAlike)) (n.forward x) (n'.forward x') :=
  C79_forward (sim_respects true) hn (fun d hd => (C112_conj_activation hL (ha d hd)).1) hx

/-- C112. It has the same loss on conjugated data, up to the sign of a zero. -/
theorem C112_conj_loss (hL : L.Regular) {n n' : Net (Cf w (Fl L))} (hn : n.Rel Cf.ConjAlike n')
    (ha : ∀ d ∈ n'.layers, d.act.EvenIeee) {D D' : Dataset (Cf w (Fl L))} (hD : D.Rel Cf.ConjAlike D')
    (f : LossFunc) : Follows (fun a b : Fl L => a.fp.Like b.fp) (n.loss D f) (n'.loss D' f) :=
  C79_loss (sim_respects true) (sim_respectsLoss true) hn
    (fun d hd => (C112_conj_activation hL (ha d hd)).1) hD f

/-- C112. Trained on conjugated data with conjugated rates it stays the conjugated network. -/
theorem C112_conj_run (hL : L.Regular) {n n' : Net (Cf w (Fl L))} (hn : n.Rel Cf.ConjAlike n')
    (ha : ∀ d ∈ n'.layers, d.act.EvenIeee) {s s' : List (TrainStep (Cf w (Fl L)))}
    (hs : StepsRel Cf.ConjAlike s s') : Follows (Net.Rel Cf.ConjAlike) (n.train s) (n'.train s') :=
  C79_run (sim_respects true) hn (fun d hd => C112_conj_activation hL (ha d hd)) hs

end ops
end Renplex
