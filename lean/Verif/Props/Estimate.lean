import Verif.Lemmas.Estimate
import Verif.Props.Ieee
/-!
# C93: certified error bounds for training
-/

namespace Renplex
open Classical

/-! ## Losses -/

section loss
variable {w : Width} {R R' : Type} [Scalar R] [Scalar R'] {T : R → R' → Prop}

/-- The relation is preserved by the operations the losses use. -/
structure LossOps (T : R → R' → Prop) : Prop where
  zero : T Scalar.zero Scalar.zero
  add {a b a' b'} : T a b → T a' b' → T (Scalar.add a a') (Scalar.add b b')
  sub {a b a' b'} : T a b → T a' b' → T (Scalar.sub a a') (Scalar.sub b b')
  mul {a b a' b'} : T a b → T a' b' → T (Scalar.mul a a') (Scalar.mul b b')
  div {a b a' b'} : T a b → T a' b' → T (Scalar.div a a') (Scalar.div b b')
  sq {a b} : T a b → T (Scalar.sq a) (Scalar.sq b)
  neg {a b} : T a b → T (Scalar.neg a) (Scalar.neg b)
  exp {a b} : T a b → T (Scalar.exp a) (Scalar.exp b)
  ln {a b} : T a b → T (Scalar.ln a) (Scalar.ln b)
  ofNat (n : Nat) : T (Scalar.ofNat n) (Scalar.ofNat n)

/-- Both parts. -/
def Cf.Lift (T : R → R' → Prop) (a : Cf w R) (b : Cf w R') : Prop := T a.x b.x ∧ T a.y b.y

theorem forall₂_zip {α β α' β' : Type} {S : α → β → Prop} {S' : α' → β' → Prop} {u : List α} {v : List β} {u' : List α'}
    {v' : List β'} (h : List.Forall₂ S u v) (h' : List.Forall₂ S' u' v') :
    List.Forall₂ (fun p q => S p.1 q.1 ∧ S' p.2 q.2) (u.zip u') (v.zip v') := by
  induction h generalizing u' v' with
  | nil => exact .nil
  | cons h _ ih =>
    cases h' with
    | nil => exact .nil
    | cons h' t' => exact .cons ⟨h, h'⟩ (ih t')

theorem forall₂_foldl {α β γ δ : Type} {S : α → β → Prop} {P : γ → δ → Prop} {f : γ → α → γ} {g : δ → β → δ}
    (hf : ∀ a b c d, P c d → S a b → P (f c a) (g d b)) {u : List α} {v : List β} (h : List.Forall₂ S u v) {c : γ} {d : δ}
    (hc : P c d) : P (u.foldl f c) (v.foldl g d) := by
  induction h generalizing c d with
  | nil => exact hc
  | cons h _ ih => exact ih (hf _ _ _ _ hc h)

theorem forall₂_mapBoth {α β γ δ : Type} {S : α → β → Prop} {P : γ → δ → Prop} {f : α → γ} {g : β → δ}
    (hf : ∀ a b, S a b → P (f a) (g b)) {u : List α} {v : List β} (h : List.Forall₂ S u v) :
    List.Forall₂ P (u.map f) (v.map g) := by
  induction h with
  | nil => exact .nil
  | cons h _ ih => exact .cons (hf _ _ h) ih

theorem LossOps.normSq (h : LossOps T) {a : Cf w R} {b : Cf w R'} (hab : a.Lift T b) : T a.normSq b.normSq :=
  h.add (h.sq hab.1) (h.sq hab.2)

theorem LossOps.cfSub (h : LossOps T) {a a' : Cf w R} {b b' : Cf w R'} (h1 : a.Lift T b) (h2 : a'.Lift T b') :
    (a.sub a').Lift T (b.sub b') := ⟨h.sub h1.1 h2.1, h.sub h1.2 h2.2⟩

theorem LossOps.dFunc (h : LossOps T) (f : LossFunc) {t p : List (Cf w R)} {t' p' : List (Cf w R')}
    (ht : List.Forall₂ (Cf.Lift T) t t') (hp : List.Forall₂ (Cf.Lift T) p p') :
    List.Forall₂ (Cf.Lift T) (Loss.dFunc f t p) (Loss.dFunc f t' p') := by
  have key : List.Forall₂ (Cf.Lift T) (Loss.dMeanSq t p) (Loss.dMeanSq t' p') :=
    forall₂_mapBoth (fun a b k => ⟨h.sub k.2.1 k.1.1, h.neg (h.sub k.2.2 k.1.2)⟩) (forall₂_zip ht hp)
  cases f <;> exact key

theorem LossOps.func (h : LossOps T) (f : LossFunc) {t p : List (Cf w R)} {t' p' : List (Cf w R')}
    (ht : List.Forall₂ (Cf.Lift T) t t') (hp : List.Forall₂ (Cf.Lift T) p p') :
    T (Loss.func f t p) (Loss.func f t' p') := by
  cases f with
  | meanSquare =>
    change T (Loss.meanSq t p) (Loss.meanSq t' p')
    rw [meanSq_eq, meanSq_eq]
    have hz := forall₂_zip ht hp
    rw [hz.length_eq]
    exact h.div (forall₂_foldl (P := T) (fun a b c d k1 k2 => h.add k1 (h.normSq (h.cfSub k2.1 k2.2))) hz h.zero) (h.ofNat _)
  | normCrossEntropy =>
    change T (Loss.normCe t p) (Loss.normCe t' p')
    unfold Loss.normCe
    have h1 : List.Forall₂ T (t.map Cf.re) (t'.map Cf.re) := forall₂_mapBoth (fun a b k => k.1) ht
    have h2 : List.Forall₂ T (p.map fun z => Scalar.exp z.normSq) (p'.map fun z => Scalar.exp z.normSq) :=
      forall₂_mapBoth (fun a b k => h.exp (h.normSq k)) hp
    have h3 := forall₂_foldl (P := T) (f := Scalar.add) (g := Scalar.add) (fun a b c d k1 k2 => h.add k1 k2) h2 h.zero
    exact forall₂_foldl (P := T) (fun a b c d k1 k2 => h.sub k1 (h.mul k2.1 (h.ln (h.div k2.2 h3)))) (forall₂_zip h1 h2) h.zero

theorem LossOps.dLoss {u : ℝ} {T : R → Est u → Prop} (h : LossOps T) {f : LossFunc} {t p : IOType (Cf w R)}
    {t' p' : IOType (Mon w u)} (ht : t.Rel (fun a b => a.Lift T b.z) t') (hp : p.Rel (fun a b => a.Lift T b.z) p') :
    Except.Agrees (List.Forall₂ fun a (b : Mon w u) => a.Lift T b.z) (Loss.computeD f t p) (CplxOps.dLoss f t' p') := by
  have hm : ∀ {u : List (Mat (Cf w R))} {v : List (Mat (Mon w _))}, List.Forall₂ (Mat.Rel fun a b => a.Lift T b.z) u v →
      List.Forall₂ (Cf.Lift T) (u.flatMap Mat.getBody)
        ((v.map fun m => (⟨m.body.map Mon.z, m.shape, m.capacity⟩ : Mat (Cf w (Est _)))).flatMap Mat.getBody) := by
    intro u v h
    induction h with
    | nil => exact .nil
    | cons h _ ih =>
      rw [List.map_cons, List.flatMap_cons, List.flatMap_cons]
      exact List.rel_append (List.forall₂_map_right_iff.mpr h.1) ih
  cases t <;> cases t' <;> first | exact ht.elim | skip
  · cases p <;> cases p' <;> first | exact hp.elim | skip
    · exact List.forall₂_map_right_iff.mpr
        (h.dFunc f (List.forall₂_map_right_iff.mpr ht) (List.forall₂_map_right_iff.mpr hp))
    · exact rfl
  · cases p <;> cases p' <;> first | exact hp.elim | skip
    · exact rfl
    · exact List.forall₂_map_right_iff.mpr (h.dFunc f (hm ht) (hm hp))

theorem LossOps.loss {u : ℝ} {T : R → Est u → Prop} (h : LossOps T) {f : LossFunc} {t p : IOType (Cf w R)}
    {t' p' : IOType (Mon w u)} (ht : t.Rel (fun a b => a.Lift T b.z) t') (hp : p.Rel (fun a b => a.Lift T b.z) p') :
    Except.Agrees T (Loss.compute f t p) (CplxOps.loss f t' p') := by
  have hm : ∀ {u : List (Mat (Cf w R))} {v : List (Mat (Mon w _))}, List.Forall₂ (Mat.Rel fun a b => a.Lift T b.z) u v →
      List.Forall₂ (Cf.Lift T) (u.flatMap Mat.getBody)
        ((v.map fun m => (⟨m.body.map Mon.z, m.shape, m.capacity⟩ : Mat (Cf w (Est _)))).flatMap Mat.getBody) := by
    intro u v h
    induction h with
    | nil => exact .nil
    | cons h _ ih =>
      rw [List.map_cons, List.flatMap_cons, List.flatMap_cons]
      exact List.rel_append (List.forall₂_map_right_iff.mpr h.1) ih
  cases t <;> cases t' <;> first | exact ht.elim | skip
  · cases p <;> cases p' <;> first | exact hp.elim | skip
    · exact h.func f (List.forall₂_map_right_iff.mpr ht) (List.forall₂_map_right_iff.mpr hp)
    · exact rfl
  · cases p <;> cases p' <;> first | exact hp.elim | skip
    · exact rfl
    · exact h.func f (hm ht) (hm hp)

end loss

/-! ## The computed numbers -/

section computed
variable {w : Width} {F : Format}

theorem covers_lossOps (hF : F.Sound) : LossOps (Est.Covers (F := F)) where
  zero := Est.covers_zero hF
  add h h' := h.add hF h'
  sub h h' := h.sub hF h'
  mul h h' := h.mul hF h'
  div h h' := h.div hF h'
  sq h := h.sq hF
  neg h := h.neg hF
  exp h := h.exp hF
  ln h := h.ln hF
  ofNat n := Est.covers_ofNat hF n

theorem follows_mk {u : ℝ} {X : Type} {S : X → Cf w (Est u) → Prop} {o : Run X} {o' : Run (Cf w (Est u))} (h : Follows S o o') :
    Follows (fun x (m : Mon w u) => S x m.z) o (o'.map Mon.mk) := by
  intro y hy
  obtain ⟨z, hz, rfl⟩ := Option.map_eq_some_iff.mp hy
  exact h z hz

theorem mon_respects (hF : F.Sound) : Respects (Mon.Covers (F := F) (w := w)) where
  zero := Cf.covers_default hF
  add ha hb := Cf.Covers.add hF ha hb
  mul ha hb := Cf.Covers.mul hF ha hb
  addAssign ha hb := Cf.Covers.add hF ha hb
  subAssign ha hb := Cf.Covers.sub hF ha hb
  mulAssign ha hb := Cf.Covers.mulAssign hF ha hb
  conj ha := Cf.Covers.conj hF ha
  divNat {a b} n ha := follows_mk (S := Cf.Covers)
    (Cf.Covers.div (s := b.z) hF ha (Cf.covers_real hF (Est.covers_ofNat hF n)))
  dLoss ht hp := (covers_lossOps hF).dLoss ht hp

theorem mon_act (hF : F.Sound) (f : ActFunc) : RespectsAct (Mon.Covers (F := F) (w := w)) f := by
  intro a m h
  have key : ∀ {o : Run (Mon w F.u)}, o = (if Mon.Sure f m.z then (Act.activate f m.z).map Mon.mk else none) →
      Follows Mon.Covers (CplxOps.activate f a) o := by
    rintro o rfl
    split
    · rename_i hs
      exact follows_mk (S := Cf.Covers) (Cf.Covers.activate hF h hs)
    · rintro y ⟨⟩
  cases f with
  | ritReLU => rintro y ⟨⟩; exact ⟨_, rfl, h.1.relu hF, h.2.relu hF⟩
  | _ => exact key rfl

theorem mon_der (hF : F.Sound) (f : ActFunc) : RespectsDer (Mon.Covers (F := F) (w := w)) f := by
  intro a m h
  constructor
  · show Follows Mon.Covers _ (if Mon.Sure f m.z then (Act.dActivate f m.z).map Mon.mk else none)
    split
    · rename_i hs
      exact follows_mk (S := Cf.Covers) (Cf.Covers.dActivate hF h hs)
    · rintro y ⟨⟩
  · show Follows Mon.Covers _ (if Mon.Sure f m.z then (Act.dConjActivate f m.z).map Mon.mk else none)
    split
    · rename_i hs
      exact follows_mk (S := Cf.Covers) (Cf.Covers.dConjActivate hF h hs)
    · rintro y ⟨⟩

theorem mon_respectsLoss (hF : F.Sound) : RespectsLoss (Mon.Covers (F := F) (w := w)) Est.Covers where
  loss ht hp := (covers_lossOps hF).loss ht hp
  add ha hb := ha.add hF hb
  divNat {a b} n ha := by
    rintro y ⟨⟩
    exact ⟨_, rfl, ha.div hF (Est.covers_ofNat hF n)⟩

end computed

/-! ## The exact numbers -/

section exact
variable {w : Width} {u : ℝ}

/-- The exact value of a number with an error bound. -/
def Est.Stands (x : ℝ) (e : Est u) : Prop := x = e.val

theorem stands_iff {a : Cf w ℝ} {b : Mon w u} : Mon.Stands a b ↔ a.Lift Est.Stands b.z := by
  constructor
  · rintro rfl; exact ⟨rfl, rfl⟩
  · intro h; exact Cf.ext h.1 h.2

/-- The exact parts. -/
def Cf.vals (z : Cf w (Est u)) : Cf w ℝ := ⟨z.x.val, z.y.val⟩

theorem stands_lossOps : LossOps (Est.Stands (u := u)) where
  zero := rfl
  add := by rintro _ _ _ _ rfl rfl; rfl
  sub := by rintro _ _ _ _ rfl rfl; rfl
  mul := by rintro _ _ _ _ rfl rfl; rfl
  div := by rintro _ _ _ _ rfl rfl; rfl
  sq := by rintro _ _ rfl; rfl
  neg := by rintro _ _ rfl; rfl
  exp := by rintro _ _ rfl; rfl
  ln := by rintro _ _ rfl; rfl
  ofNat _ := rfl

theorem apart_ne {a b : Est u} (h : Scalar.beq a b = false) : Scalar.beq a.val b.val = false := by
  have h : a.Apart b := by simpa [Scalar.beq] using h
  show decide _ = false
  exact decide_eq_false h.1

theorem follows_vals {o : Run (Cf w ℝ)} {o' : Run (Cf w (Est u))} (h : ∀ z, o' = some z → o = some z.vals) :
    Follows Mon.Stands o (o'.map Mon.mk) := by
  intro y hy
  obtain ⟨z, hz, rfl⟩ := Option.map_eq_some_iff.mp hy
  exact ⟨_, h z hz, rfl⟩

theorem div_vals (a b : Cf w (Est u)) (z : Cf w (Est u)) (h : Cf.div a b = some z) :
    Cf.div a.vals b.vals = some z.vals := by
  unfold Cf.div at h ⊢
  split at h
  · cases h
  · rename_i h0
    rw [Bool.not_eq_true] at h0
    rw [if_neg (by rw [show Scalar.beq b.vals.den (Scalar.zero : ℝ) = false from apart_ne h0]; exact Bool.false_ne_true)]
    cases h
    rfl

theorem sigmoid_val (w : Width) (e : Est u) : (Act.sigmoid w e).val = Act.sigmoid w e.val := by
  have h1 : (Scalar.le (Act.sigThreshold w) e : Bool) = Scalar.le (Act.sigThreshold w) e.val := by cases w <;> rfl
  have h2 : (Scalar.le e (Scalar.neg (Act.sigThreshold w)) : Bool) = Scalar.le e.val (Scalar.neg (Act.sigThreshold w)) := by
    cases w <;> rfl
  unfold Act.sigmoid
  rw [h1, h2]
  split
  · cases w <;> rfl
  · split
    · cases w <;> rfl
    · rfl

theorem dSigmoid_val (w : Width) (e : Est u) : (Act.dSigmoid w e).val = Act.dSigmoid w e.val := by
  show (Act.sigmoid w e).val * (_ - (Act.sigmoid w e).val) = _
  rw [sigmoid_val]
  rfl

theorem relu_val (e : Est u) : (Act.relu e).val = Act.relu e.val ∧ (Act.dRelu e).val = Act.dRelu e.val := by
  have h : (Scalar.signNeg e : Bool) = Scalar.signNeg e.val := rfl
  unfold Act.relu Act.dRelu
  rw [h]
  constructor <;> (split <;> rfl)

theorem phase_val (z : Cf w (Est u)) : z.phase.val = z.vals.phase := by cases w <;> rfl

theorem cardDfdx_val (z : Cf w (Est u)) : (Act.cardDfdx z).vals = Act.cardDfdx z.vals := by cases w <;> rfl
theorem cardDfdy_val (z : Cf w (Est u)) : (Act.cardDfdy z).vals = Act.cardDfdy z.vals := by cases w <;> rfl

theorem activate_vals (f : ActFunc) (a z : Cf w (Est u)) (h : Act.activate f a = some z) :
    Act.activate f a.vals = some z.vals := by
  cases f with
  | modZ => exact div_vals _ _ _ h
  | none => cases h; rfl
  | ritSigmoid => cases h; exact congrArg some (Cf.ext (sigmoid_val w _).symm (sigmoid_val w _).symm)
  | ritTanh => cases h; rfl
  | ritReLU => cases h; exact congrArg some (Cf.ext (relu_val _).1.symm (relu_val _).1.symm)
  | zReLU =>
    cases h
    have hx : (Scalar.signNeg a.re : Bool) = Scalar.signNeg a.vals.re := rfl
    have hy : (Scalar.signNeg a.im : Bool) = Scalar.signNeg a.vals.im := rfl
    refine congrArg some ?_
    unfold Act.zRelu
    rw [hx, hy]
    split <;> rfl
  | cardioid => cases h; cases w <;> rfl

theorem dActivate_vals (f : ActFunc) (a z : Cf w (Est u)) (h : Act.dActivate f a = some z) :
    Act.dActivate f a.vals = some z.vals := by
  cases f with
  | modZ => cases h; rfl
  | none => cases h; rfl
  | ritSigmoid =>
    cases h
    refine congrArg some (Cf.ext ?_ rfl)
    show _ = ((Act.dSigmoid w a.x).val + (Act.dSigmoid w a.y).val) * _
    rw [dSigmoid_val, dSigmoid_val]
    rfl
  | ritTanh => cases h; rfl
  | ritReLU =>
    cases h
    refine congrArg some (Cf.ext ?_ rfl)
    show _ = ((Act.dRelu a.x).val + (Act.dRelu a.y).val) * _
    rw [(relu_val _).2, (relu_val _).2]
    rfl
  | zReLU =>
    cases h
    have hx : (Scalar.signNeg a.re : Bool) = Scalar.signNeg a.vals.re := rfl
    have hy : (Scalar.signNeg a.im : Bool) = Scalar.signNeg a.vals.im := rfl
    refine congrArg some ?_
    unfold Act.dZRelu
    rw [hx, hy]
    split <;> rfl
  | cardioid => cases h; cases w <;> rfl

theorem dConjActivate_vals (f : ActFunc) (a z : Cf w (Est u)) (h : Act.dConjActivate f a = some z) :
    Act.dConjActivate f a.vals = some z.vals := by
  cases f with
  | modZ =>
    obtain ⟨q, h1, h2⟩ := Option.bind_eq_some_iff.mp h
    have h3 := div_vals _ _ _ h1
    have h4 := div_vals _ _ _ h2
    change (Cf.div a.vals a.vals.conj).bind _ = _
    rw [show Cf.div a.vals a.vals.conj = some q.vals from h3]
    exact h4
  | none => cases h; rfl
  | ritSigmoid =>
    cases h
    refine congrArg some (Cf.ext ?_ rfl)
    show _ = ((Act.dSigmoid w a.x).val - (Act.dSigmoid w a.y).val) * _
    rw [dSigmoid_val, dSigmoid_val]
    rfl
  | ritTanh => cases h; rfl
  | ritReLU =>
    cases h
    refine congrArg some (Cf.ext ?_ rfl)
    show _ = ((Act.dRelu a.x).val - (Act.dRelu a.y).val) * _
    rw [(relu_val _).2, (relu_val _).2]
    rfl
  | zReLU => cases h; rfl
  | cardioid => cases h; cases w <;> rfl

theorem rel_stands {x : IOType (Cf w ℝ)} {y : IOType (Mon w u)} :
    x.Rel Mon.Stands y ↔ x.Rel (fun a b => a.Lift Est.Stands b.z) y := by
  have : (Mon.Stands : Cf w ℝ → Mon w u → Prop) = fun a b => a.Lift Est.Stands b.z :=
    funext fun a => funext fun b => propext stands_iff
  rw [this]

theorem exact_respects : Respects (fun a (b : Mon w u) => Mon.Stands a b) where
  zero := rfl
  add := by rintro _ _ _ _ rfl rfl; rfl
  mul := by rintro _ _ _ _ rfl rfl; rfl
  addAssign := by rintro _ _ _ _ rfl rfl; rfl
  subAssign := by rintro _ _ _ _ rfl rfl; rfl
  mulAssign := by rintro _ _ _ _ rfl rfl; rfl
  conj := by rintro _ _ rfl; rfl
  divNat {a b} n ha := by
    obtain rfl : a = _ := ha
    exact follows_vals fun z hz => div_vals _ _ _ hz
  dLoss ht hp := by
    have e : (Mon.Stands : Cf w ℝ → Mon w u → Prop) = fun a b => a.Lift Est.Stands b.z :=
      funext fun a => funext fun b => propext stands_iff
    rw [e]
    exact stands_lossOps.dLoss (rel_stands.mp ht) (rel_stands.mp hp)

theorem exact_act (f : ActFunc) : RespectsAct (fun a (b : Mon w u) => Mon.Stands a b) f := by
  rintro a m rfl
  have key : ∀ {o : Run (Mon w u)}, o = (if Mon.Sure f m.z then (Act.activate f m.z).map Mon.mk else none) →
      Follows Mon.Stands (CplxOps.activate f m.exact) o := by
    rintro o rfl
    split
    · exact follows_vals fun z hz => activate_vals f _ _ hz
    · rintro y ⟨⟩
  cases f with
  | ritReLU =>
    rintro y ⟨⟩
    refine ⟨_, rfl, Cf.ext ?_ ?_⟩
    · exact Rounding.relu_real _
    · exact Rounding.relu_real _
  | _ => exact key rfl

theorem exact_der (f : ActFunc) : RespectsDer (fun a (b : Mon w u) => Mon.Stands a b) f := by
  rintro a m rfl
  constructor
  · show Follows Mon.Stands _ (if Mon.Sure f m.z then (Act.dActivate f m.z).map Mon.mk else none)
    split
    · exact follows_vals fun z hz => dActivate_vals f _ _ hz
    · rintro y ⟨⟩
  · show Follows Mon.Stands _ (if Mon.Sure f m.z then (Act.dConjActivate f m.z).map Mon.mk else none)
    split
    · exact follows_vals fun z hz => dConjActivate_vals f _ _ hz
    · rintro y ⟨⟩

theorem exact_respectsLoss : RespectsLoss (fun a (b : Mon w u) => Mon.Stands a b) (fun x (e : Est u) => Est.Stands x e) where
  loss ht hp := stands_lossOps.loss (rel_stands.mp ht) (rel_stands.mp hp)
  add := stands_lossOps.add
  divNat {a b} n ha := by
    rintro y ⟨⟩
    exact ⟨_, rfl, stands_lossOps.div ha (stands_lossOps.ofNat n)⟩

end exact

/-! ## C93 -/

section both
variable {w : Width} {F : Format}

/-- C93. If the forward pass on numbers with error bounds returns, the exact one and the floating-point one
return as well (the same error or outputs): the exact one the exact values, the floating-point one numbers that
are within the bounds of them. -/
theorem C93_forward (hF : F.Sound) {n : Net (Cf w F.T)} {n' : Net (Cf w ℝ)} {m : Net (Mon w F.u)}
    (hn : n.Rel Mon.Covers m) (hn' : n'.Rel Mon.Stands m) {x : IOType (Cf w F.T)} {x' : IOType (Cf w ℝ)}
    {z : IOType (Mon w F.u)} (hx : x.Rel Mon.Covers z) (hx' : x'.Rel Mon.Stands z)
    {r : Except ForwardErr (IOType (Mon w F.u))} (h : m.forward z = some r) :
    (∃ y, n.forward x = some y ∧ Except.Agrees (IOType.Rel Mon.Covers) y r)
      ∧ ∃ y', n'.forward x' = some y' ∧ Except.Agrees (IOType.Rel Mon.Stands) y' r :=
  ⟨C79_forward (mon_respects hF) hn (fun d _ => mon_act hF d.act) hx r h,
    C79_forward exact_respects hn' (fun d _ => exact_act d.act) hx' r h⟩

/-- C93. The same for a whole history of training calls. -/
theorem C93_run (hF : F.Sound) {n : Net (Cf w F.T)} {n' : Net (Cf w ℝ)} {m : Net (Mon w F.u)}
    (hn : n.Rel Mon.Covers m) (hn' : n'.Rel Mon.Stands m) {s : List (TrainStep (Cf w F.T))}
    {s' : List (TrainStep (Cf w ℝ))} {t : List (TrainStep (Mon w F.u))} (hs : StepsRel Mon.Covers s t)
    (hs' : StepsRel Mon.Stands s' t) {r : Net (Mon w F.u)} (h : m.train t = some r) :
    (∃ p, n.train s = some p ∧ p.Rel Mon.Covers r) ∧ ∃ p', n'.train s' = some p' ∧ p'.Rel Mon.Stands r :=
  ⟨C79_run (mon_respects hF) hn (fun d _ => ⟨mon_act hF d.act, mon_der hF d.act⟩) hs r h,
    C79_run exact_respects hn' (fun d _ => ⟨exact_act d.act, exact_der d.act⟩) hs' r h⟩

/-- C93. The same for the loss over a data set. -/
theorem C93_loss (hF : F.Sound) {n : Net (Cf w F.T)} {n' : Net (Cf w ℝ)} {m : Net (Mon w F.u)}
    (hn : n.Rel Mon.Covers m) (hn' : n'.Rel Mon.Stands m) {D : Dataset (Cf w F.T)} {D' : Dataset (Cf w ℝ)}
    {E : Dataset (Mon w F.u)} (hD : D.Rel Mon.Covers E) (hD' : D'.Rel Mon.Stands E) (f : LossFunc)
    {r : Est F.u} (h : m.loss E f = some r) :
    (∃ a, n.loss D f = some a ∧ r.Covers a) ∧ n'.loss D' f = some r.val := by
  refine ⟨C79_loss (mon_respects hF) (mon_respectsLoss hF) hn (fun d _ => mon_act hF d.act) hD f r h, ?_⟩
  obtain ⟨v, h1, h2⟩ := C79_loss exact_respects exact_respectsLoss hn' (fun d _ => exact_act d.act) hD' f r h
  rw [h1]
  exact congrArg some h2

end both

/-! ## Starting values -/

section start
variable {w : Width} {F : Format} {δ ε : ℝ}

theorem covers_of {a : Cf w F.T} {z : Cf w ℝ} (h : Cf.Within δ a z) : Mon.Covers a (Mon.of F.u δ z) :=
  ⟨fun e he => by cases he; exact h.1, fun e he => by cases he; exact h.2⟩

theorem stands_of {u : ℝ} (z : Cf w ℝ) : Mon.Stands z (Mon.of u δ z) := rfl

theorem within_of {a : Cf w F.T} {z : Cf w ℝ} {m : Mon w F.u} (h : Mon.Covers a m) (h' : Mon.Stands z m)
    (hm : m.Within ε) : Cf.Within ε a z := by
  obtain rfl : z = m.exact := h'
  obtain ⟨⟨e, h1, h2⟩, f, h3, h4⟩ := hm
  exact ⟨⟨(h.1 e h1).1, (h.1 e h1).2.trans h2⟩, (h.2 f h3).1, (h.2 f h3).2.trans h4⟩

theorem forall₂_three {X Y Z : Type} {A : X → Z → Prop} {B : Y → Z → Prop} {P : Z → Prop} {C : X → Y → Prop}
    (hC : ∀ x y z, A x z → B y z → P z → C x y) {l : List X} {k : List Y} {m : List Z} (h : List.Forall₂ A l m)
    (h' : List.Forall₂ B k m) (hP : ∀ z ∈ m, P z) : List.Forall₂ C l k := by
  induction h generalizing k with
  | nil => cases h'; exact .nil
  | cons h _ ih =>
    cases h' with
    | cons h2 h' => exact .cons (hC _ _ _ h h2 (hP _ (by simp))) (ih h' fun z hz => hP z (by simp [hz]))

theorem list_three {l : List (Cf w F.T)} {k : List (Cf w ℝ)} {m : List (Mon w F.u)} (h : List.Forall₂ Mon.Covers l m)
    (h' : List.Forall₂ Mon.Stands k m) (hm : ∀ e ∈ m, e.Within ε) : List.Forall₂ (Cf.Within ε) l k :=
  forall₂_three (A := Mon.Covers) (B := Mon.Stands) (P := Mon.Within ε) (C := Cf.Within ε)
    (fun _ _ _ h h' hm => within_of h h' hm) h h' hm

theorem mat_three {a : Mat (Cf w F.T)} {z : Mat (Cf w ℝ)} {m : Mat (Mon w F.u)} (h : Mat.Rel Mon.Covers a m)
    (h' : Mat.Rel Mon.Stands z m) (hm : ∀ e ∈ m.body, e.Within ε) : Mat.Rel (Cf.Within ε) a z :=
  ⟨list_three h.1 h'.1 hm, h.2.1.trans h'.2.1.symm, h.2.2.trans h'.2.2.symm⟩

theorem maps_three {l : List (Mat (Cf w F.T))} {k : List (Mat (Cf w ℝ))} {m : List (Mat (Mon w F.u))}
    (h : List.Forall₂ (Mat.Rel Mon.Covers) l m) (h' : List.Forall₂ (Mat.Rel Mon.Stands) k m)
    (hm : ∀ e ∈ m, ∀ a ∈ e.body, a.Within ε) : List.Forall₂ (Mat.Rel (Cf.Within ε)) l k :=
  forall₂_three (A := Mat.Rel Mon.Covers) (B := Mat.Rel Mon.Stands) (P := fun m => ∀ e ∈ m.body, e.Within ε)
    (C := Mat.Rel (Cf.Within ε)) (fun _ _ _ h h' hm => mat_three h h' hm) h h' hm

theorem io_three {a : IOType (Cf w F.T)} {z : IOType (Cf w ℝ)} {m : IOType (Mon w F.u)} (h : IOType.Rel Mon.Covers a m)
    (h' : IOType.Rel Mon.Stands z m) (hm : m.Bounded ε) : a.Within ε z := by
  cases m <;> cases a <;> first | exact h.elim | (cases z <;> first | exact h'.elim | skip)
  · exact list_three h h' hm
  · exact maps_three h h' hm

theorem net_three {a : Net (Cf w F.T)} {z : Net (Cf w ℝ)} {m : Net (Mon w F.u)} (h : Net.Rel Mon.Covers a m)
    (h' : Net.Rel Mon.Stands z m) (hm : m.Bounded ε) : a.Within ε z := by
  refine forall₂_three (P := Layer.Bounded ε) (fun d e f h h' hf => ?_) h h' hm
  cases f <;> cases d <;> first | exact h.elim | (cases e <;> first | exact h'.elim | skip)
  · exact ⟨mat_three h.1 h'.1 hf.1, list_three h.2.1 h'.2.1 hf.2,
      h.2.2.trans h'.2.2.symm⟩
  · exact ⟨⟨maps_three h.1.1 h'.1.1 hf.1, h.1.2.1.trans h'.1.2.1.symm,
      h.1.2.2.trans h'.1.2.2.symm⟩, list_three h.2.1 h'.2.1 hf.2,
      h.2.2.1.trans h'.2.2.1.symm, h.2.2.2.trans h'.2.2.2.symm⟩
  · exact ⟨mat_three h.1 h'.1 hf, h.2.1.trans h'.2.1.symm, h.2.2.1.trans h'.2.2.1.symm⟩
  · exact Eq.trans (show _ = _ from h) (show _ = _ from h').symm

/-! A relation between numbers of the format (or exact numbers) and the monitored exact ones. -/

section lift
variable {X : Type} {A : X → Mon w F.u → Prop} {B : X → Cf w ℝ → Prop}

theorem list_monitor (hA : ∀ a z, B a z → A a (Mon.of F.u δ z)) {l : List X} {k : List (Cf w ℝ)}
    (h : List.Forall₂ B l k) : List.Forall₂ A l (k.map (Mon.of F.u δ)) :=
  List.forall₂_map_right_iff.mpr (h.imp hA)

theorem mat_monitor (hA : ∀ a z, B a z → A a (Mon.of F.u δ z)) {a : Mat X} {z : Mat (Cf w ℝ)} (h : Mat.Rel B a z) :
    Mat.Rel A a (z.monitor F.u δ) := ⟨list_monitor hA h.1, h.2⟩

theorem io_monitor (hA : ∀ a z, B a z → A a (Mon.of F.u δ z)) {a : IOType X} {z : IOType (Cf w ℝ)}
    (h : IOType.Rel B a z) : IOType.Rel A a (z.monitor F.u δ) := by
  cases a <;> cases z <;> first | exact h.elim | skip
  · exact list_monitor hA h
  · exact List.forall₂_map_right_iff.mpr (List.Forall₂.imp (fun _ _ => mat_monitor hA) h)

theorem data_monitor (hA : ∀ a z, B a z → A a (Mon.of F.u δ z)) {a : Dataset X} {z : Dataset (Cf w ℝ)}
    (h : Dataset.Rel B a z) : Dataset.Rel A a (z.monitor F.u δ) :=
  ⟨List.forall₂_map_right_iff.mpr (h.1.imp fun _ _ => io_monitor hA),
    List.forall₂_map_right_iff.mpr (h.2.imp fun _ _ => io_monitor hA)⟩

end lift

theorem mean_covers (hF : F.Sound) {l : List (Cf w F.T)} {k : List (Mon w F.u)} (h : List.Forall₂ Mon.Covers l k) :
    Follows Mon.Covers (meanBlock l) (Mon.mean k) := by
  have h1 : List.Forall₂ (fun a b => Cf.Covers a b) l (k.map Mon.z) := List.forall₂_map_right_iff.mpr h
  refine follows_mk (S := Cf.Covers) ?_
  unfold meanBlock
  rw [h1.length_eq]
  refine Cf.Covers.div hF ?_ (Cf.covers_real hF (Est.covers_ofNat hF _))
  exact forall₂_foldl (S := fun a b => Cf.Covers a b) (P := fun a b => Cf.Covers a b) (f := Cf.add) (g := Cf.add) (fun _ _ _ _ ha hb => Cf.Covers.add hF ha hb) h1 (Cf.covers_default hF)

theorem mean_stands {u : ℝ} {l : List (Cf w ℝ)} {k : List (Mon w u)} (h : List.Forall₂ Mon.Stands l k) :
    Follows Mon.Stands (meanBlock l) (Mon.mean k) := by
  obtain rfl : l = k.map Mon.exact := by
    induction h with
    | nil => rfl
    | cons h _ ih => rw [List.map_cons, ← ih, show _ = _ from h]
  refine follows_vals fun z hz => ?_
  have h1 : ∀ (a : Cf w (Est u)), (k.map Mon.exact).foldl Cf.add a.vals = Cf.vals ((k.map Mon.z).foldl Cf.add a) := by
    clear hz h
    induction k with
    | nil => intro a; rfl
    | cons b k ih => intro a; exact ih (Cf.add a b.z)
  have h2 := div_vals _ _ _ hz
  unfold meanBlock
  rw [List.length_map] at h2 ⊢
  rw [show ((k.map Mon.exact).foldl Cf.add Cf.default) = _ from h1 Cf.default]
  exact h2

theorem net_covers (hF : F.Sound) {n : Net (Cf w F.T)} {n' : Net (Cf w ℝ)} (h : n.Within δ n') (hp : n.MeanPools) :
    n.Rel Mon.Covers (n'.monitor F.u δ) := by
  have key : ∀ (l : List (Layer (Cf w F.T))) (l' : List (Layer (Cf w ℝ))),
      (∀ d, Layer.reduce d ∈ l → d.blockFunc = meanBlock) → List.Forall₂ (Layer.Within δ) l l' →
      List.Forall₂ (Layer.Rel Mon.Covers) l (l'.map (Layer.monitor F.u δ)) := by
    intro l l' hp h
    induction h with
    | nil => exact .nil
    | @cons d e l l' h _ ih =>
      refine .cons ?_ (ih fun d hd => hp d (by simp [hd]))
      cases d <;> cases e <;> first | exact h.elim | skip
      · exact ⟨mat_monitor (fun _ _ => covers_of) h.1, list_monitor (fun _ _ => covers_of) h.2.1, h.2.2⟩
      · exact ⟨⟨List.forall₂_map_right_iff.mpr (h.1.1.imp fun _ _ => mat_monitor fun _ _ => covers_of), h.1.2⟩,
          list_monitor (fun _ _ => covers_of) h.2.1, h.2.2⟩
      · refine ⟨mat_monitor (fun _ _ => covers_of) h.1, h.2.1, h.2.2, fun u v y huv hy => ?_⟩
        rw [hp _ (by simp)]
        exact mean_covers hF huv y hy
      · exact h
  exact key _ _ hp h

theorem net_stands {n : Net (Cf w ℝ)} (hp : n.MeanPools) : n.Rel Mon.Stands (n.monitor F.u δ) := by
  have hl : ∀ l : List (Cf w ℝ), List.Forall₂ Mon.Stands l (l.map (Mon.of F.u δ)) := fun l =>
    list_monitor (B := Eq) (by rintro a _ rfl; rfl) (List.forall₂_eq_eq_eq ▸ rfl)
  refine List.forall₂_map_right_iff.mpr (List.forall₂_same.mpr fun d hd => ?_)
  cases d with
  | dense d => exact ⟨⟨hl _, rfl, rfl⟩, hl _, rfl⟩
  | conv d =>
    exact ⟨⟨List.forall₂_map_right_iff.mpr (List.forall₂_same.mpr fun m _ => ⟨hl _, rfl, rfl⟩), rfl, rfl⟩, hl _, rfl, rfl⟩
  | reduce d =>
    refine ⟨⟨hl _, rfl, rfl⟩, rfl, rfl, fun u v y huv hy => ?_⟩
    rw [hp _ hd]
    exact mean_stands huv y hy
  | flatten d => rfl

theorem io_stands (x : IOType (Cf w ℝ)) : x.Rel Mon.Stands (x.monitor F.u δ) := by
  have hl : ∀ l : List (Cf w ℝ), List.Forall₂ Mon.Stands l (l.map (Mon.of F.u δ)) := fun l =>
    list_monitor (B := Eq) (by rintro a _ rfl; rfl) (List.forall₂_eq_eq_eq ▸ rfl)
  cases x with
  | scalar v => exact hl v
  | matrix v => exact List.forall₂_map_right_iff.mpr (List.forall₂_same.mpr fun m _ => ⟨hl _, rfl, rfl⟩)

theorem data_stands (D : Dataset (Cf w ℝ)) : D.Rel Mon.Stands (D.monitor F.u δ) :=
  ⟨List.forall₂_map_right_iff.mpr (List.forall₂_same.mpr fun x _ => io_stands x),
    List.forall₂_map_right_iff.mpr (List.forall₂_same.mpr fun x _ => io_stands x)⟩

/-- C93. A certificate for predictions: with inputs and parameters at most `δ` away from the exact ones, if
all bounds that the monitored pass returns are at most `ε`, the floating-point output is at most `ε` away from
the exact one. -/
theorem C93_forward_cert (hF : F.Sound) {n : Net (Cf w F.T)} {n' : Net (Cf w ℝ)} (hn : n.Within δ n')
    (hp : n.MeanPools) (hp' : n'.MeanPools) {x : IOType (Cf w F.T)} {x' : IOType (Cf w ℝ)} (hx : x.Within δ x')
    {r : IOType (Mon w F.u)} (h : (n'.monitor F.u δ).forward (x'.monitor F.u δ) = some (.ok r)) (hr : r.Bounded ε) :
    ∃ y y', n.forward x = some (.ok y) ∧ n'.forward x' = some (.ok y') ∧ y.Within ε y' := by
  obtain ⟨⟨y, h1, h2⟩, y', h3, h4⟩ := C93_forward hF (net_covers hF hn hp) (net_stands hp')
    (io_monitor (fun _ _ => covers_of) hx) (io_stands x') h
  cases y with
  | error e => exact h2.elim
  | ok y =>
    cases y' with
    | error e => exact h4.elim
    | ok y' => exact ⟨y, y', h1, h3, io_three h2 h4 hr⟩

/-- C93. A certificate for training: if all bounds of the network the monitored history leaves behind are at
most `ε`, the floating-point network is at most `ε` away from the exact one. -/
theorem C93_run_cert (hF : F.Sound) {n : Net (Cf w F.T)} {n' : Net (Cf w ℝ)} (hn : n.Within δ n')
    (hp : n.MeanPools) (hp' : n'.MeanPools) {s : List (TrainStep (Cf w F.T))} {s' : List (TrainStep (Cf w ℝ))}
    (hs : stepsWithin δ s s') {r : Net (Mon w F.u)}
    (h : (n'.monitor F.u δ).train (monitorSteps F.u δ s') = some r) (hr : r.Bounded ε) :
    ∃ m m', n.train s = some m ∧ n'.train s' = some m' ∧ m.Within ε m' := by
  obtain ⟨⟨m, h1, h2⟩, m', h3, h4⟩ := C93_run hF (net_covers hF hn hp) (net_stands hp')
    (List.forall₂_map_right_iff.mpr (List.Forall₂.imp (fun a b h =>
      ⟨data_monitor (fun _ _ => covers_of) h.1, h.2.1, covers_of h.2.2⟩) hs))
    (List.forall₂_map_right_iff.mpr (List.forall₂_same.mpr fun t _ => ⟨data_stands t.1, rfl, stands_of _⟩)) h
  exact ⟨m, m', h1, h3, net_three h2 h4 hr⟩

/-- C93. A certificate for the loss over a data set. -/
theorem C93_loss_cert (hF : F.Sound) {n : Net (Cf w F.T)} {n' : Net (Cf w ℝ)} (hn : n.Within δ n')
    (hp : n.MeanPools) (hp' : n'.MeanPools) {D : Dataset (Cf w F.T)} {D' : Dataset (Cf w ℝ)}
    (hD : D.Within δ D') (f : LossFunc) {v : ℝ}
    (h : (n'.monitor F.u δ).loss (D'.monitor F.u δ) f = some ⟨v, some ε⟩) :
    n'.loss D' f = some v ∧ ∃ a, n.loss D f = some a ∧ F.fin a ∧ |F.val a - v| ≤ ε := by
  obtain ⟨⟨a, h1, h2⟩, h3⟩ := C93_loss hF (net_covers hF hn hp) (net_stands hp')
    (data_monitor (fun _ _ => covers_of) hD) (data_stands D') f h
  exact ⟨h3, a, h1, h2 ε rfl⟩

end start
end Renplex
