import Verif.Lemmas.RelateTwo
import Verif.Lemmas.Rounding
import Verif.Spec.Symmetry
import Verif.Spec.Network
import Verif.Props.NetGradRefuted
/-!
# C79-C81: related arithmetics, conjugation, real networks
-/

namespace Renplex

open Filter Relate

/-! ## C79 -/

section parametric
variable {α β P Q : Type} [CplxOps α P] [CplxOps β Q] {S : α → β → Prop}

theorem RO_one {X Y : Type} {S : X → Y → Prop} {o : Run X} {o' : Run Y} :
    RO one (fam S) (fun _ => o) o' ↔ Follows S o o' :=
  ⟨fun h y hy => by obtain ⟨a, h1, h2⟩ := h y hy; exact ⟨a (), h2, h1⟩,
    fun h y hy => by obtain ⟨a, h1, h2⟩ := h y hy; exact ⟨fun _ => a, h2, h1⟩⟩

theorem RE_one {ε X Y : Type} {S : X → Y → Prop} {T : (Unit → X) → Y → Prop}
    (hT : ∀ a b, T a b ↔ S (a ()) b) {o : Unit → Except ε X} {o' : Except ε Y} :
    RE one T o o' ↔ Except.Agrees S (o ()) o' := by
  constructor
  · rintro ⟨h1, h2⟩
    cases o' with
    | ok y =>
      obtain ⟨a, h3, h4⟩ := h1 y rfl
      have e : o () = .ok (a ()) := h4
      rw [e]
      exact (hT _ _).mp h3
    | error e =>
      have e : o () = .error e := h2 e rfl
      rw [e]
      exact rfl
  · intro h
    constructor
    · rintro b rfl
      cases e : o () with
      | ok x => rw [e] at h; exact ⟨fun _ => x, (hT _ _).mpr h, e⟩
      | error x => rw [e] at h; exact h.elim
    · rintro b rfl
      cases e : o () with
      | ok x => rw [e] at h; exact h.elim
      | error x => rw [e] at h; exact e.trans (congrArg _ h)

theorem Respects.rel (h : Respects S) : CplxRel one (fam S) where
  zero := h.zero
  add ha hb := h.add ha hb
  mul ha hb := h.mul ha hb
  addAssign ha hb := h.addAssign ha hb
  subAssign ha hb := h.subAssign ha hb
  mulAssign ha hb := h.mulAssign ha hb
  conj ha := h.conj ha
  divNat n ha := RO_one.mpr (h.divNat n ha)
  dLoss ht hp := (RE_one (S := List.Forall₂ S) fun _ _ => RL_one).mpr
    (h.dLoss (RIO_one.mp ht) (RIO_one.mp hp))

theorem RespectsAct.rel {f : ActFunc} (h : RespectsAct S f) (z : β) : ActRel one (fam S) f z :=
  fun a ha => RO_one.mpr (h (a ()) z ha)

theorem RespectsDer.rel {f : ActFunc} (h : RespectsDer S f) (z : β) : DerRel one (fam S) f z :=
  fun a ha => ⟨RO_one.mpr (h (a ()) z ha).1, RO_one.mpr (h (a ()) z ha).2⟩

/-- C79. If the operations of two number types and the activations in use preserve a relation, a
forward pass on related networks and inputs returns related outputs, or the same error. -/
theorem C79_forward (h : Respects S) {n : Net α} {n' : Net β} (hn : n.Rel S n')
    (ha : ∀ d ∈ n'.layers, RespectsAct S d.act) {x : IOType α} {x' : IOType β} (hx : x.Rel S x') :
    Follows (Except.Agrees (IOType.Rel S)) (n.forward x) (n'.forward x') := by
  intro y hy
  obtain ⟨r, h1, h2⟩ := net_forward (A := fun _ : Unit => α) (n := fun _ => n) (x := fun _ => x) h.rel fam_ev
    (RNet_one.mpr hn) (RIO_one.mpr hx) (chain_of_acts (fun d hd z => (ha d hd).rel z) x') y hy
  exact ⟨r (), h2, (RE_one fun _ _ => RIO_one).mp h1⟩

/-- C79. A training call on related networks, data sets and rates gives the same result and leaves
related networks behind. -/
theorem C79_train (h : Respects S) {n : Net α} {n' : Net β} (hn : n.Rel S n')
    (ha : ∀ d ∈ n'.layers, RespectsAct S d.act ∧ RespectsDer S d.act) {D : Dataset α} {D' : Dataset β}
    (hD : D.Rel S D') (f : LossFunc) {a : α} {b : β} (hr : S a b) :
    Follows (fun r r' => r.1 = r'.1 ∧ r.2.Rel S r'.2) (n.gradientOpt D f a) (n'.gradientOpt D' f b) := by
  intro y hy
  obtain ⟨q, h1, h2⟩ := gradientOpt_rel (A := fun _ : Unit => α) (n := fun _ => n) (D := fun _ => D)
    (a := fun _ => a) h.rel fam_ev (RNet_one.mpr hn) (RData_one.mpr hD) f hr
    (fun p _ => chain_of_acts (fun d hd z => (ha d hd).1.rel z) p.1)
    (fun p _ => chain_of_acts (fun d hd z => (ha d hd).2.rel z) p.1) y hy
  refine ⟨q (), h2, ?_, RNet_one.mp h1.2⟩
  have h3 := (RE_one (S := fun a b : Unit => a = b) (T := RD one) fun _ _ => Iff.rfl).mp h1.1
  revert h3
  cases (q ()).1 <;> cases y.1
  · exact fun h => congrArg _ h
  · exact fun h => h.elim
  · exact fun h => h.elim
  · exact fun h => congrArg _ h

/-- C79. The same for a whole history of training calls. -/
theorem C79_run (h : Respects S) {n : Net α} {n' : Net β} (hn : n.Rel S n')
    (ha : ∀ d ∈ n'.layers, RespectsAct S d.act ∧ RespectsDer S d.act) {s : List (TrainStep α)}
    {s' : List (TrainStep β)} (hs : StepsRel S s s') :
    Follows (Net.Rel S) (n.train s) (n'.train s') := by
  induction hs generalizing n n' with
  | nil => intro y hy; cases hy; exact ⟨n, rfl, hn⟩
  | @cons a b s s' h1 _ ih =>
    intro y hy
    obtain ⟨m', h2, h3⟩ := Option.bind_eq_some_iff.mp hy
    obtain ⟨r', h4, rfl⟩ := Option.map_eq_some_iff.mp h2
    obtain ⟨r, h5, -, h6⟩ := C79_train h hn ha h1.1 b.2.1 h1.2.2 r' h4
    obtain ⟨m, h7, h8⟩ := ih h6 (acts_kept (p := fun f => RespectsAct S f ∧ RespectsDer S f) ha h4) y h3
    refine ⟨m, ?_, h8⟩
    rw [Net.train, List.foldlM_cons, h1.2.1, h5]
    exact h7

/-- C79. The loss over related data sets. -/
theorem C79_loss [RealOps P] [RealOps Q] (h : Respects S) {T : P → Q → Prop} (hT : RespectsLoss S T)
    {n : Net α} {n' : Net β} (hn : n.Rel S n') (ha : ∀ d ∈ n'.layers, RespectsAct S d.act)
    {D : Dataset α} {D' : Dataset β} (hD : D.Rel S D') (f : LossFunc) :
    Follows T (n.loss D f) (n'.loss D' f) := by
  intro y hy
  have hL : LossRel one (fam S) (fam T) fun _ _ _ => True :=
    { loss := fun ht hp _ => (RE_one (S := T) fun _ _ => Iff.rfl).mpr
        (hT.loss (RIO_one.mp ht) (RIO_one.mp hp))
      add := fun ha hb => hT.add ha hb
      divNat := fun n _ ha => RO_one.mpr (hT.divNat n ha) }
  obtain ⟨q, h1, h2⟩ := loss_rel (A := fun _ : Unit => α) (n := fun _ => n) (D := fun _ => D)
    h.rel fam_ev hL (RNet_one.mpr hn) (RData_one.mpr hD) f
    (fun p _ => chain_of_acts (fun d hd z => (ha d hd).rel z) p.1) (fun _ _ _ _ => trivial) y hy
  exact ⟨q (), h2, h1⟩

end parametric

/-! ## C80 -/

section conj
variable {w : Width}

theorem conj_mk (x y : ℝ) : (Cf.mk x y : Cf w ℝ).conj = ⟨x, -y⟩ := rfl

theorem conj_conj' (z : Cf w ℝ) : z.conj.conj = z := by
  cases z; simp [conj_mk]

theorem div_conj (a b : Cf w ℝ) : Cf.div a.conj b.conj = (Cf.div a b).map Cf.conj := by
  obtain ⟨x, y⟩ := a
  obtain ⟨u, v⟩ := b
  unfold Cf.div
  simp only [conj_mk, Cf.den, ssq, sadd, sbeq, szero, neg_sq, smul', sdiv, ssub]
  split
  · rfl
  · simp only [Option.map_some, conj_mk, Option.some.injEq, Cf.mk.injEq]
    constructor <;> ring

theorem phase_conj (z : Cf w ℝ) : Real.cos z.conj.phase = Real.cos z.phase
    ∧ Real.sin z.conj.phase = -Real.sin z.phase := by
  obtain ⟨x, y⟩ := z
  cases w with
  | w32 =>
    have e : Complex.arg ⟨x, -y⟩ = if Complex.arg ⟨x, y⟩ = Real.pi then Real.pi
        else -Complex.arg ⟨x, y⟩ := Complex.arg_conj ⟨x, y⟩
    simp only [conj_mk, Cf.phase, satan2]
    rw [e]
    split
    · rename_i h; simp [h]
    · simp
  | w64 => simp [conj_mk, Cf.phase, neg_div, Real.arctan_neg]

theorem norm_conj' (z : Cf w ℝ) : z.conj.norm = z.norm := by
  obtain ⟨x, y⟩ := z
  simp [conj_mk, Cf.norm]

theorem phase2_conj (z : Cf w ℝ) : Real.sin (2 * z.conj.phase) = -Real.sin (2 * z.phase) := by
  rw [Real.sin_two_mul, Real.sin_two_mul, (phase_conj z).1, (phase_conj z).2]
  ring

theorem cardDfdx_conj (z : Cf w ℝ) : Act.cardDfdx z.conj = (Act.cardDfdx z).conj := by
  unfold Act.cardDfdx
  simp only [ssin, scos, ssq, smul', sadd, ssub, sdiv, stwo, sone, slit, norm_conj', phase2_conj,
    (phase_conj z).1, (phase_conj z).2, conj_mk, Cf.mk.injEq]
  constructor <;> ring

theorem cardDfdy_conj (z : Cf w ℝ) :
    Act.cardDfdy z.conj = ⟨-(Act.cardDfdy z).x, (Act.cardDfdy z).y⟩ := by
  unfold Act.cardDfdy
  simp only [ssin, scos, ssq, smul', sadd, ssub, sdiv, stwo, sone, slit, norm_conj', phase2_conj,
    (phase_conj z).1, (phase_conj z).2, Cf.mk.injEq]
  constructor <;> first | trivial | ring

theorem modZ_conj (z : Cf w ℝ) : Act.modZ z.conj = (Act.modZ z).map Cf.conj := by
  unfold Act.modZ
  rw [← div_conj, norm_conj']
  simp [Cf.new, conj_mk]

/-- C80. Without activation, with `modZ`, `ritTanh` and `cardioid`, the activation of the conjugate is
the conjugate of the activation, and so are both derivatives. -/
theorem C80_activation {f : ActFunc} (hf : f.Even) (z : Cf w ℝ) :
    Act.activate f z.conj = (Act.activate f z).map Cf.conj
    ∧ Act.dActivate f z.conj = (Act.dActivate f z).map Cf.conj
    ∧ Act.dConjActivate f z.conj = (Act.dConjActivate f z).map Cf.conj := by
  rcases hf with rfl | rfl | rfl | rfl
  · refine ⟨rfl, ?_, ?_⟩ <;> simp [Act.dActivate, Act.dConjActivate, Cf.unit, Cf.default, conj_mk]
  · refine ⟨modZ_conj z, ?_, ?_⟩
    · simp [Act.dActivate, Act.dModZ, norm_conj', Cf.new, conj_mk]
    · show Act.dConjModZ z.conj = (Act.dConjModZ z).map Cf.conj
      unfold Act.dConjModZ
      rw [div_conj, norm_conj']
      cases h : Cf.div z z.conj with
      | none => rfl
      | some q =>
        have e : (Cf.new (Scalar.neg (Scalar.mul Scalar.two z.norm)) Scalar.zero : Cf w ℝ)
            = (Cf.new (Scalar.neg (Scalar.mul Scalar.two z.norm)) Scalar.zero : Cf w ℝ).conj := by
          simp [Cf.new, conj_mk]
        show Cf.div q.conj _ = (Cf.div q _).map Cf.conj
        rw [← div_conj, ← e]
  · obtain ⟨x, y⟩ := z
    refine ⟨?_, ?_, ?_⟩
    · simp [Act.activate, Act.ritTanh, conj_mk, Real.tanh_neg]
    · simp [Act.dActivate, Act.dRitTanh, Act.sech2, conj_mk, Real.cosh_neg]
    · simp [Act.dConjActivate, Act.dConjRitTanh, Act.sech2, conj_mk, Real.cosh_neg]
  · refine ⟨?_, ?_, ?_⟩
    · simp only [Act.activate, Act.card, scos, ssin, smul', sadd, stwo, sone, Option.map_some, conj_mk,
        (phase_conj z).1, (phase_conj z).2, Option.some.injEq, Cf.mk.injEq]
      constructor <;> first | trivial | ring
    · simp only [Act.dActivate, Act.dCard, Option.map_some, cardDfdx_conj, cardDfdy_conj, Option.some.injEq]
      apply Cf.toC_inj.mp
      apply Complex.ext <;> simp
    · simp only [Act.dConjActivate, Act.dConjCard, Option.map_some, cardDfdx_conj, cardDfdy_conj,
        Option.some.injEq]
      apply Cf.toC_inj.mp
      apply Complex.ext <;> simp

theorem follows_map {o o' : Run (Cf w ℝ)} (e : o = o'.map Cf.conj) : Follows Conj o o' := by
  rintro y rfl
  exact ⟨y.conj, e, rfl⟩

theorem conj_act {f : ActFunc} (hf : f.Even) : RespectsAct (Conj (w := w)) f := by
  rintro a z rfl
  exact follows_map (C80_activation hf z).1

theorem conj_der {f : ActFunc} (hf : f.Even) : RespectsDer (Conj (w := w)) f := by
  rintro a z rfl
  exact ⟨follows_map (C80_activation hf z).2.1,
    follows_map (C80_activation hf z).2.2⟩

theorem forall₂_flatMap {X Y : Type} {S : X → Y → Prop} {u : List (Mat X)} {v : List (Mat Y)}
    (h : List.Forall₂ (Mat.Rel S) u v) :
    List.Forall₂ S (u.flatMap Mat.getBody) (v.flatMap Mat.getBody) := by
  induction h with
  | nil => exact .nil
  | cons h _ ih =>
    rw [List.flatMap_cons, List.flatMap_cons]
    exact List.rel_append h.1 ih

theorem conj_list {u v : List (Cf w ℝ)} : List.Forall₂ Conj u v ↔ u = v.map Cf.conj := by
  constructor
  · intro h
    induction h with
    | nil => rfl
    | cons h _ ih => rw [List.map_cons, ih, h]
  · rintro rfl
    induction v with
    | nil => exact .nil
    | cons b v ih => exact .cons rfl ih

theorem dFunc_conj (f : LossFunc) (t p : List (Cf w ℝ)) :
    Loss.dFunc f (t.map Cf.conj) (p.map Cf.conj) = (Loss.dFunc f t p).map Cf.conj := by
  have key : Loss.dMeanSq (t.map Cf.conj) (p.map Cf.conj) = (Loss.dMeanSq t p).map Cf.conj := by
    unfold Loss.dMeanSq
    rw [List.zip_map, List.map_map, List.map_map]
    refine List.map_congr_left fun q _ => ?_
    obtain ⟨⟨a, b⟩, c, d⟩ := q
    simp only [Function.comp, Prod.map, Loss.dSqError, Cf.sub, conj_mk, ssub, Cf.mk.injEq]
    constructor <;> first | trivial | ring
  cases f <;> exact key

theorem func_conj (f : LossFunc) (t p : List (Cf w ℝ)) :
    Loss.func f (t.map Cf.conj) (p.map Cf.conj) = Loss.func f t p := by
  cases f with
  | meanSquare =>
    show Loss.meanSq _ _ = Loss.meanSq _ _
    rw [meanSq_real, meanSq_real, List.length_zip, List.length_zip, List.length_map, List.length_map]
    congr 1
    unfold sqSum
    rw [List.zip_map, List.map_map]
    refine congrArg _ (List.map_congr_left fun q _ => ?_)
    simp only [Function.comp, Prod.map, Cf.toC_conj, ← map_sub, RCLike.norm_conj]
  | normCrossEntropy =>
    show Loss.normCe _ _ = Loss.normCe _ _
    unfold Loss.normCe
    have e1 : (t.map Cf.conj).map Cf.re = t.map Cf.re := by
      rw [List.map_map]; rfl
    have e2 : ((p.map Cf.conj).map fun z => Scalar.exp z.normSq)
        = p.map fun z => Scalar.exp z.normSq := by
      rw [List.map_map]
      refine List.map_congr_left fun z _ => ?_
      obtain ⟨x, y⟩ := z
      simp [Function.comp, conj_mk, Cf.normSq]
    rw [e1, e2]

theorem conj_respects : Respects (Conj (w := w)) where
  zero := by simp [Conj, BasicOps.zero, Cf.default, conj_mk]
  add {a b a' b'} ha hb := by
    obtain rfl : a = _ := ha
    obtain rfl : a' = _ := hb
    apply Cf.toC_inj.mp
    apply Complex.ext <;> simp [BasicOps.add]
  mul {a b a' b'} ha hb := by
    obtain rfl : a = _ := ha
    obtain rfl : a' = _ := hb
    apply Cf.toC_inj.mp
    simp [BasicOps.mul]
  addAssign {a b a' b'} ha hb := by
    obtain rfl : a = _ := ha
    obtain rfl : a' = _ := hb
    apply Cf.toC_inj.mp
    simp [BasicOps.addAssign]
  subAssign {a b a' b'} ha hb := by
    obtain rfl : a = _ := ha
    obtain rfl : a' = _ := hb
    apply Cf.toC_inj.mp
    simp [BasicOps.subAssign]
  mulAssign {a b a' b'} ha hb := by
    obtain rfl : a = _ := ha
    obtain rfl : a' = _ := hb
    obtain ⟨x, y⟩ := b
    obtain ⟨u, v⟩ := b'
    simp only [Conj, BasicOps.mulAssign, Cf.mulAssign, conj_mk, smul', ssub, sadd, Cf.mk.injEq]
    constructor <;> ring
  conj {a b} ha := by
    obtain rfl : a = _ := ha
    rfl
  divNat {a b} n ha := by
    obtain rfl : a = _ := ha
    refine follows_map ?_
    have e : (CplxOps.ofUsize n : Cf w ℝ) = (CplxOps.ofUsize n : Cf w ℝ).conj := by
      simp [CplxOps.ofUsize, Cf.ofUsize, conj_mk]
    show Cf.div b.conj _ = (Cf.div b _).map Cf.conj
    rw [← div_conj, ← e]
  dLoss {f t t' p p'} ht hp := by
    cases t <;> cases t' <;> first | exact ht.elim | skip
    · cases p <;> cases p' <;> first | exact hp.elim | skip
      · obtain rfl := conj_list.mp ht
        obtain rfl := conj_list.mp hp
        exact conj_list.mpr (dFunc_conj f _ _)
      · exact rfl
    · cases p <;> cases p' <;> first | exact hp.elim | skip
      · exact rfl
      · refine conj_list.mpr ?_
        have h1 := conj_list.mp (forall₂_flatMap ht)
        have h2 := conj_list.mp (forall₂_flatMap hp)
        show Loss.dFunc f _ _ = (Loss.dFunc f _ _).map _
        rw [h1, h2, dFunc_conj]

theorem conj_respectsLoss : RespectsLoss (Conj (w := w)) (fun a b : ℝ => a = b) where
  loss {f t t' p p'} ht hp := by
    cases t <;> cases t' <;> first | exact ht.elim | skip
    · cases p <;> cases p' <;> first | exact hp.elim | skip
      · obtain rfl := conj_list.mp ht
        obtain rfl := conj_list.mp hp
        exact func_conj f _ _
      · exact rfl
    · cases p <;> cases p' <;> first | exact hp.elim | skip
      · exact rfl
      · have h1 := conj_list.mp (forall₂_flatMap ht)
        have h2 := conj_list.mp (forall₂_flatMap hp)
        show Loss.func f _ _ = Loss.func f _ _
        rw [h1, h2, func_conj]
  add := by rintro a b a' b' rfl rfl; rfl
  divNat := by rintro a b n rfl y hy; exact ⟨y, hy, rfl⟩

/-! The relation as an equation. -/

theorem conj_mat {m m' : Mat (Cf w ℝ)} :
    m.Rel Conj m' ↔ m = { m' with body := m'.body.map Cf.conj } := by
  constructor
  · rintro ⟨h1, h2, h3⟩
    obtain ⟨b, s, c⟩ := m
    obtain rfl := conj_list.mp h1
    cases h2
    cases h3
    rfl
  · rintro rfl
    exact ⟨conj_list.mpr rfl, rfl, rfl⟩

theorem conj_mats {u v : List (Mat (Cf w ℝ))} : List.Forall₂ (Mat.Rel Conj) u v
    ↔ u = v.map fun m => { m with body := m.body.map Cf.conj } := by
  constructor
  · intro h
    induction h with
    | nil => rfl
    | cons h _ ih => rw [List.map_cons, ih, conj_mat.mp h]
  · rintro rfl
    induction v with
    | nil => exact .nil
    | cons b v ih => exact .cons (conj_mat.mpr rfl) ih

theorem conj_io {x x' : IOType (Cf w ℝ)} : x.Rel Conj x' ↔ x = x'.conj := by
  cases x <;> cases x' <;> simp [IOType.Rel, IOType.conj, conj_list, conj_mats]

theorem conj_ios {u v : List (IOType (Cf w ℝ))} :
    List.Forall₂ (IOType.Rel Conj) u v ↔ u = v.map IOType.conj := by
  constructor
  · intro h
    induction h with
    | nil => rfl
    | cons h _ ih => rw [List.map_cons, ih, conj_io.mp h]
  · rintro rfl
    induction v with
    | nil => exact .nil
    | cons b v ih => exact .cons (conj_io.mpr rfl) ih

theorem conj_data (D : Dataset (Cf w ℝ)) : D.conj.Rel Conj D :=
  ⟨conj_ios.mpr rfl, conj_ios.mpr rfl⟩

theorem conj_layer (d : Layer (Cf w ℝ)) : d.conj.Rel Conj d := by
  cases d with
  | dense d => exact ⟨conj_mat.mpr rfl, conj_list.mpr rfl, rfl⟩
  | conv d => exact ⟨⟨conj_mats.mpr rfl, rfl, rfl⟩, conj_list.mpr rfl, rfl, rfl⟩
  | reduce d =>
    refine ⟨conj_mat.mpr rfl, rfl, rfl, fun u v y h hy => ⟨y.conj, ?_, rfl⟩⟩
    obtain rfl := conj_list.mp h
    show (d.blockFunc ((v.map Cf.conj).map Cf.conj)).map Cf.conj = _
    rw [List.map_map, show Cf.conj ∘ Cf.conj = (id : Cf w ℝ → Cf w ℝ) from funext conj_conj', List.map_id,
      hy]
    rfl
  | flatten d => exact rfl

theorem conj_net (n : Net (Cf w ℝ)) : n.conj.Rel Conj n := by
  unfold Net.Rel Net.conj
  simp only
  induction n.layers with
  | nil => exact .nil
  | cons d ls ih => exact .cons (conj_layer d) ih

theorem map_conj_conj (v : List (Cf w ℝ)) : (v.map Cf.conj).map Cf.conj = v := by
  rw [List.map_map, show Cf.conj ∘ Cf.conj = (id : Cf w ℝ → Cf w ℝ) from funext conj_conj', List.map_id]

theorem io_conj_conj (x : IOType (Cf w ℝ)) : x.conj.conj = x := by
  cases x with
  | scalar v => exact congrArg _ (map_conj_conj v)
  | matrix v =>
    refine congrArg IOType.matrix ?_
    rw [List.map_map]
    conv_rhs => rw [← List.map_id v]
    refine List.map_congr_left fun m _ => ?_
    simp only [Function.comp, map_conj_conj, id]

theorem ios_conj_conj (v : List (IOType (Cf w ℝ))) : (v.map IOType.conj).map IOType.conj = v := by
  rw [List.map_map, show IOType.conj ∘ IOType.conj = (id : IOType (Cf w ℝ) → _) from funext io_conj_conj,
    List.map_id]

theorem data_conj_conj (D : Dataset (Cf w ℝ)) : D.conj.conj = D := by
  obtain ⟨i, t⟩ := D
  simp only [Dataset.conj, ios_conj_conj]

theorem layer_conj_conj (d : Layer (Cf w ℝ)) : d.conj.conj = d := by
  cases d with
  | dense d => simp only [Layer.conj, map_conj_conj]
  | conv d =>
    have e : ∀ v : List (Mat (Cf w ℝ)), (v.map fun m => { m with body := m.body.map Cf.conj }).map
        (fun m => { m with body := m.body.map Cf.conj }) = v := fun v => by
      rw [List.map_map]
      conv_rhs => rw [← List.map_id v]
      refine List.map_congr_left fun m _ => ?_
      simp only [Function.comp, map_conj_conj, id]
    simp only [Layer.conj, map_conj_conj, e]
  | reduce d =>
    have e : ∀ o : Run (Cf w ℝ), (o.map Cf.conj).map Cf.conj = o := fun o => by
      cases o with
      | none => rfl
      | some z => exact congrArg some (conj_conj' z)
    simp only [Layer.conj, map_conj_conj, e]
  | flatten d => rfl

theorem net_conj_conj (n : Net (Cf w ℝ)) : n.conj.conj = n := by
  obtain ⟨ls⟩ := n
  simp only [Net.conj, List.map_map]
  rw [show Layer.conj ∘ Layer.conj = (id : Layer (Cf w ℝ) → _) from funext layer_conj_conj, List.map_id]

theorem conj_even {n : Net (Cf w ℝ)} (h : ∀ d ∈ n.layers, d.act.Even) :
    ∀ d ∈ n.conj.layers, d.act.Even := by
  intro d hd
  obtain ⟨e, he, rfl⟩ := List.mem_map.mp hd
  have := h e he
  cases e <;> exact this

/-- C80. The network with conjugated parameters maps the conjugated input to the conjugated output: it
returns an error or panics exactly where the network does. -/
theorem C80_forward {n : Net (Cf w ℝ)} (ha : ∀ d ∈ n.layers, d.act.Even) (x : IOType (Cf w ℝ)) :
    n.conj.forward x.conj = (n.forward x).map (Except.map IOType.conj) := by
  have key : ∀ {n : Net (Cf w ℝ)} (_ : ∀ d ∈ n.layers, d.act.Even) (x : IOType (Cf w ℝ)) y,
      n.forward x = some y → n.conj.forward x.conj = some (y.map IOType.conj) := by
    intro n ha x y hy
    obtain ⟨r, h1, h2⟩ := C79_forward conj_respects (conj_net n) (fun d hd => conj_act (ha d hd))
      (conj_io.mpr rfl) y hy
    rw [h1]
    congr 1
    cases r <;> cases y
    · exact congrArg _ h2
    · exact h2.elim
    · exact h2.elim
    · exact congrArg _ (conj_io.mp h2)
  cases h : n.forward x with
  | some y => exact key ha x y h
  | none =>
    cases h' : n.conj.forward x.conj with
    | none => rfl
    | some y =>
      have := key (conj_even ha) _ _ h'
      rw [net_conj_conj, io_conj_conj, h] at this
      cases this

/-- C80. It has the same loss on the conjugated data. -/
theorem C80_loss {n : Net (Cf w ℝ)} (ha : ∀ d ∈ n.layers, d.act.Even) (D : Dataset (Cf w ℝ))
    (f : LossFunc) : n.conj.loss D.conj f = n.loss D f := by
  have key : ∀ {n : Net (Cf w ℝ)} (_ : ∀ d ∈ n.layers, d.act.Even) (D : Dataset (Cf w ℝ)) v,
      n.loss D f = some v → n.conj.loss D.conj f = some v := by
    intro n ha D v h
    obtain ⟨a, h1, rfl⟩ := C79_loss conj_respects conj_respectsLoss (conj_net n)
      (fun d hd => conj_act (ha d hd)) (conj_data D) f v h
    exact h1
  cases h : n.loss D f with
  | some v => exact key ha D v h
  | none =>
    cases h' : n.conj.loss D.conj f with
    | none => rfl
    | some v =>
      have := key (conj_even ha) _ _ h'
      rw [net_conj_conj, data_conj_conj, h] at this
      cases this

/-- C80. Training it on the conjugated data with conjugated rates leaves the conjugated network behind,
after any number of calls. -/
theorem C80_run {n n' : Net (Cf w ℝ)} (hn : n.Rel Conj n') (ha : ∀ d ∈ n'.layers, d.act.Even)
    {s s' : List (TrainStep (Cf w ℝ))} (hs : StepsRel Conj s s') :
    Follows (Net.Rel Conj) (n.train s) (n'.train s') :=
  C79_run conj_respects hn (fun d hd => ⟨conj_act (ha d hd), conj_der (ha d hd)⟩) hs

/-- C80. The other three options do not commute with conjugation. -/
theorem C80_split {f : ActFunc} (hf : ¬ f.Even) :
    ∃ z : Cf w ℝ, Act.activate f z.conj ≠ (Act.activate f z).map Cf.conj := by
  have h1 : ¬ ((1 : ℝ) < 0) := by norm_num
  have h2 : (-1 : ℝ) < 0 := by norm_num
  refine ⟨⟨0, 1⟩, fun h => ?_⟩
  cases f with
  | none => exact hf (.inl rfl)
  | modZ => exact hf (.inr (.inl rfl))
  | ritTanh => exact hf (.inr (.inr (.inl rfl)))
  | cardioid => exact hf (.inr (.inr (.inr rfl)))
  | ritSigmoid =>
    have := congrArg Cf.y (Option.some.inj h)
    simp only [Act.ritSigmoid, conj_mk] at this
    linarith [(sigmoid_bounds (w := w) (1 : ℝ)).1, (sigmoid_bounds (w := w) (-1 : ℝ)).1]
  | ritReLU =>
    have := congrArg Cf.y (Option.some.inj h)
    simp [Act.ritRelu, Act.relu, conj_mk, Scalar.signNeg, h1, h2, Scalar.zero, Scalar.lit] at this
  | zReLU =>
    have := congrArg Cf.y (Option.some.inj h)
    simp [Act.zRelu, conj_mk, Scalar.signNeg, h1, h2, Scalar.zero, Scalar.lit, Cf.re, Cf.im] at this

end conj

/-! ## C81 -/

section real
variable {w : Width}

/-- The same real number. -/
def SameReal (a b : Cf w ℝ) : Prop := a = b ∧ b.y = 0

theorem real_list {u v : List (Cf w ℝ)} : List.Forall₂ SameReal u v ↔ u = v ∧ ∀ z ∈ v, z.y = 0 := by
  constructor
  · intro h
    induction h with
    | nil => simp
    | cons h _ ih => obtain ⟨rfl, h⟩ := h; obtain ⟨rfl, h'⟩ := ih; simp_all
  · rintro ⟨rfl, h⟩
    exact List.forall₂_same.mpr fun z hz => ⟨rfl, h z hz⟩

theorem real_mat {m m' : Mat (Cf w ℝ)} : m.Rel SameReal m' ↔ m = m' ∧ m'.IsReal := by
  constructor
  · rintro ⟨h1, h2, h3⟩
    obtain ⟨b, s, c⟩ := m
    obtain ⟨rfl, h⟩ := real_list.mp h1
    cases h2
    cases h3
    exact ⟨rfl, h⟩
  · rintro ⟨rfl, h⟩
    exact ⟨real_list.mpr ⟨rfl, h⟩, rfl, rfl⟩

theorem real_mats {u v : List (Mat (Cf w ℝ))} :
    List.Forall₂ (Mat.Rel SameReal) u v ↔ u = v ∧ ∀ m ∈ v, m.IsReal := by
  constructor
  · intro h
    induction h with
    | nil => simp
    | cons h _ ih => obtain ⟨rfl, h⟩ := real_mat.mp h; obtain ⟨rfl, h'⟩ := ih; simp_all
  · rintro ⟨rfl, h⟩
    exact List.forall₂_same.mpr fun z hz => real_mat.mpr ⟨rfl, h z hz⟩

theorem real_io {x x' : IOType (Cf w ℝ)} : x.Rel SameReal x' ↔ x = x' ∧ x'.IsReal := by
  cases x <;> cases x' <;> simp [IOType.Rel, IOType.IsReal, real_list, real_mats]

theorem real_data {D : Dataset (Cf w ℝ)} (h : D.IsReal) : D.Rel SameReal D :=
  ⟨List.forall₂_same.mpr fun x hx => real_io.mpr ⟨rfl, h.1 x hx⟩,
    List.forall₂_same.mpr fun x hx => real_io.mpr ⟨rfl, h.2 x hx⟩⟩

theorem real_net {n : Net (Cf w ℝ)} (h : n.IsReal) : n.Rel SameReal n := by
  refine List.forall₂_same.mpr fun d hd => ?_
  have h := h d hd
  cases d with
  | dense d => exact ⟨real_mat.mpr ⟨rfl, h.1⟩, real_list.mpr ⟨rfl, h.2⟩, rfl⟩
  | conv d => exact ⟨⟨real_mats.mpr ⟨rfl, h.1⟩, rfl, rfl⟩, real_list.mpr ⟨rfl, h.2⟩, rfl, rfl⟩
  | reduce d =>
    refine ⟨real_mat.mpr ⟨rfl, h.1⟩, rfl, rfl, fun u v y hu hy => ?_⟩
    obtain ⟨rfl, hv⟩ := real_list.mp hu
    exact ⟨y, hy, rfl, h.2 _ hv y hy⟩
  | flatten d => exact rfl

theorem net_real {n n' : Net (Cf w ℝ)} (h : n.Rel SameReal n') (hn : n = n') : n'.IsReal := by
  subst hn
  intro d hd
  have h := List.forall₂_same.mp h d hd
  cases d with
  | dense d => exact ⟨(real_mat.mp h.1).2, (real_list.mp h.2.1).2⟩
  | conv d => exact ⟨(real_mats.mp h.1.1).2, (real_list.mp h.2.1).2⟩
  | reduce d =>
    refine ⟨(real_mat.mp h.1).2, fun v hv y hy => ?_⟩
    obtain ⟨x, h1, h2⟩ := h.2.2.2 v v y (real_list.mpr ⟨rfl, hv⟩) hy
    exact h2.2
  | flatten d => trivial

theorem real_follows {o : Run (Cf w ℝ)} (h : ∀ y, o = some y → y.y = 0) : Follows SameReal o o :=
  fun y hy => ⟨y, hy, rfl, h y hy⟩

theorem real_iff {z : Cf w ℝ} : z.y = 0 ↔ z.conj = z := by
  obtain ⟨x, y⟩ := z
  rw [conj_mk, Cf.mk.injEq]
  constructor
  · rintro rfl
    exact ⟨rfl, neg_zero⟩
  · rintro ⟨-, h⟩
    have : -y = y := h
    show y = 0
    linarith

theorem real_of_map {o o' : Run (Cf w ℝ)} (h : o' = o.map Cf.conj) (e : o' = o) : ∀ y, o = some y → y.y = 0 := by
  rintro y rfl
  rw [e] at h
  exact real_iff.mpr (Option.some.inj h).symm

theorem div_real {a b q : Cf w ℝ} (ha : a.y = 0) (hb : b.y = 0) (h : Cf.div a b = some q) : q.y = 0 :=
  real_of_map (div_conj a b) (by rw [real_iff.mp ha, real_iff.mp hb]) q h

/-- C81. All options but `ritSigmoid` map real numbers to real numbers, and so do the derivatives of
all of them. -/
theorem C81_activation (f : ActFunc) {z : Cf w ℝ} (hz : z.y = 0) :
    (f ≠ .ritSigmoid → ∀ y, Act.activate f z = some y → y.y = 0)
      ∧ (∀ y, Act.dActivate f z = some y → y.y = 0)
      ∧ ∀ y, Act.dConjActivate f z = some y → y.y = 0 := by
  have hc := real_iff.mp hz
  by_cases hf : f.Even
  · obtain ⟨h1, h2, h3⟩ := C80_activation hf z
    exact ⟨fun _ => real_of_map h1 (by rw [hc]), real_of_map h2 (by rw [hc]), real_of_map h3 (by rw [hc])⟩
  · obtain ⟨x, y⟩ := z
    obtain rfl : y = 0 := hz
    cases f with
    | none => exact (hf (.inl rfl)).elim
    | modZ => exact (hf (.inr (.inl rfl))).elim
    | ritTanh => exact (hf (.inr (.inr (.inl rfl)))).elim
    | cardioid => exact (hf (.inr (.inr (.inr rfl)))).elim
    | ritSigmoid =>
      exact ⟨fun h => (h rfl).elim, by rintro y ⟨⟩; simp [Act.dRitSigmoid, szero],
        by rintro y ⟨⟩; simp [Act.dConjRitSigmoid, szero]⟩
    | ritReLU =>
      exact ⟨by rintro - y ⟨⟩; simp [Act.ritRelu, Act.relu, szero], by rintro y ⟨⟩; simp [Act.dRitRelu, szero],
        by rintro y ⟨⟩; simp [Act.dConjRitRelu, szero]⟩
    | zReLU =>
      refine ⟨?_, ?_, by rintro y ⟨⟩; simp [Act.dConjZRelu, szero]⟩
      · rintro - y ⟨⟩
        unfold Act.zRelu
        split
        · exact szero
        · rfl
      · rintro y ⟨⟩
        unfold Act.dZRelu
        split
        · exact szero
        · exact szero

theorem dFunc_real (f : LossFunc) {t p : List (Cf w ℝ)} (ht : ∀ z ∈ t, z.y = 0) (hp : ∀ z ∈ p, z.y = 0) :
    ∀ z ∈ Loss.dFunc f t p, z.y = 0 := by
  have key : ∀ z ∈ Loss.dMeanSq t p, z.y = 0 := by
    intro z hz
    obtain ⟨q, hq, rfl⟩ := List.mem_map.mp hz
    obtain ⟨⟨a, b⟩, c, d⟩ := q
    obtain rfl : b = 0 := ht _ (List.of_mem_zip hq).1
    obtain rfl : d = 0 := hp _ (List.of_mem_zip hq).2
    simp [Loss.dSqError, Cf.sub, conj_mk]
  cases f <;> exact key

theorem real_respects : Respects (SameReal (w := w)) where
  zero := ⟨rfl, by simp [BasicOps.zero, Cf.default]⟩
  add {a b a' b'} ha hb := by
    obtain ⟨rfl, h⟩ := ha
    obtain ⟨rfl, h'⟩ := hb
    exact ⟨rfl, by simp [BasicOps.add, Cf.add, h, h']⟩
  mul {a b a' b'} ha hb := by
    obtain ⟨rfl, h⟩ := ha
    obtain ⟨rfl, h'⟩ := hb
    exact ⟨rfl, by simp [BasicOps.mul, Cf.mul, h, h']⟩
  addAssign {a b a' b'} ha hb := by
    obtain ⟨rfl, h⟩ := ha
    obtain ⟨rfl, h'⟩ := hb
    exact ⟨rfl, by simp [BasicOps.addAssign, Cf.addAssign, h, h']⟩
  subAssign {a b a' b'} ha hb := by
    obtain ⟨rfl, h⟩ := ha
    obtain ⟨rfl, h'⟩ := hb
    exact ⟨rfl, by simp [BasicOps.subAssign, Cf.subAssign, h, h']⟩
  mulAssign {a b a' b'} ha hb := by
    obtain ⟨rfl, h⟩ := ha
    obtain ⟨rfl, h'⟩ := hb
    exact ⟨rfl, by simp [BasicOps.mulAssign, Cf.mulAssign, h, h']⟩
  conj {a b} ha := by
    obtain ⟨rfl, h⟩ := ha
    exact ⟨rfl, by simp [CplxOps.conj, Cf.conj, h]⟩
  divNat {a b} n ha := by
    obtain ⟨rfl, h⟩ := ha
    refine real_follows fun y hy => div_real h ?_ hy
    simp [CplxOps.ofUsize, Cf.ofUsize]
  dLoss {f t t' p p'} ht hp := by
    obtain ⟨rfl, ht⟩ := real_io.mp ht
    obtain ⟨rfl, hp⟩ := real_io.mp hp
    cases t <;> cases p
    · exact real_list.mpr ⟨rfl, dFunc_real f ht hp⟩
    · exact rfl
    · exact rfl
    · refine real_list.mpr ⟨rfl, dFunc_real f ?_ ?_⟩
      · intro z hz
        obtain ⟨m, hm, hz⟩ := List.mem_flatMap.mp hz
        exact ht m hm z hz
      · intro z hz
        obtain ⟨m, hm, hz⟩ := List.mem_flatMap.mp hz
        exact hp m hm z hz

/-- C81. A network with real parameters maps real inputs to real outputs. -/
theorem C81_forward {n : Net (Cf w ℝ)} (hn : n.IsReal) (ha : ∀ d ∈ n.layers, d.act ≠ .ritSigmoid)
    {x y : IOType (Cf w ℝ)} (hx : x.IsReal) (h : n.forward x = some (.ok y)) : y.IsReal := by
  obtain ⟨r, h1, h2⟩ := C79_forward real_respects (real_net hn)
    (fun d hd a z haz => by
      obtain ⟨rfl, hz⟩ := haz
      exact real_follows fun y hy => (C81_activation d.act hz).1 (ha d hd) y hy) (real_io.mpr ⟨rfl, hx⟩) _ h
  cases r with
  | ok r => exact (real_io.mp h2).2
  | error e => exact h2.elim

/-- C81. Training on real data with real rates keeps all parameters real. -/
theorem C81_run {n m : Net (Cf w ℝ)} (hn : n.IsReal) (ha : ∀ d ∈ n.layers, d.act ≠ .ritSigmoid)
    {s : List (TrainStep (Cf w ℝ))} (hs : ∀ t ∈ s, t.1.IsReal ∧ t.2.2.y = 0) (h : n.train s = some m) :
    m.IsReal := by
  obtain ⟨r, h1, h2⟩ := C79_run real_respects (real_net hn)
    (fun d hd => ⟨fun a z haz => by
      obtain ⟨rfl, hz⟩ := haz
      exact real_follows fun y hy => (C81_activation d.act hz).1 (ha d hd) y hy, fun a z haz => by
      obtain ⟨rfl, hz⟩ := haz
      exact ⟨real_follows (C81_activation d.act hz).2.1, real_follows (C81_activation d.act hz).2.2⟩⟩)
    (s := s) (List.forall₂_same.mpr fun t ht => ⟨real_data (hs t ht).1, rfl, rfl, (hs t ht).2⟩) m h
  exact net_real h2 (Option.some.inj (h1.symm.trans h))

/-- C81. `ritSigmoid` never returns a real number. -/
theorem C81_sigmoid (z : Cf w ℝ) : ∃ y, Act.activate .ritSigmoid z = some y ∧ 0 < y.y :=
  ⟨_, rfl, (sigmoid_bounds z.y).1⟩

/-! ## Non-vacuity -/

theorem exActNet_real (f : ActFunc) : (exActNet f : Net (Cf w ℝ)).IsReal := by
  intro d hd
  simp only [exActNet, List.mem_cons, List.not_mem_nil, or_false] at hd
  rcases hd with rfl | rfl
  · exact ⟨fun z hz => by
      simp only [Mat.fromBody, List.mem_cons, List.not_mem_nil, or_false] at hz; rw [hz]; rfl,
      fun z hz => by simp only [List.mem_cons, List.not_mem_nil, or_false] at hz; rw [hz]; rfl⟩
  · exact ⟨fun z hz => by
      simp only [Mat.fromBody, List.mem_cons, List.not_mem_nil, or_false] at hz; rw [hz]; rfl,
      fun z hz => by simp only [List.mem_cons, List.not_mem_nil, or_false] at hz; rw [hz]; rfl⟩

example : ∀ d ∈ (exActNet .ritTanh : Net (Cf w ℝ)).layers, d.act.Even ∧ d.act ≠ .ritSigmoid := by
  intro d hd
  simp only [exActNet, List.mem_cons, List.not_mem_nil, or_false] at hd
  rcases hd with rfl | rfl
  · exact ⟨.inr (.inr (.inl rfl)), fun h => by cases h⟩
  · exact ⟨.inl rfl, fun h => by cases h⟩

end real
end Renplex
