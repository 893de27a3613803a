import Verif.Lemmas.RelateMat
/-!
# Layers and networks preserve every relation that the arithmetic preserves
-/

namespace Renplex
namespace Relate

open Filter

variable {ι : Type} {l : Filter ι}
variable {A : ι → Type} {B : Type} {P : ι → Type} {Q : Type}
variable {S : (∀ k, A k) → B → Prop}
variable [∀ k, CplxOps (A k) (P k)] [CplxOps B Q]

/-- Four related lists, as returned by back-propagation. -/
abbrev RDer (l : Filter ι) (S : (∀ k, A k) → B → Prop) (f : ∀ k, Derivs (A k)) (d : Derivs B) : Prop :=
  RP (RL l S) (RP (RL l S) (RP (RL l S) (RL l S))) f d

theorem activateMut_rel {f : ∀ k, List (A k)} {v : List B} (h : RL l S f v) (φ : ActFunc)
    (hφ : ∀ z ∈ v, ActRel l S φ z) :
    RO l (RL l S) (fun k => activateMut φ (f k)) (activateMut φ v) :=
  h.mapM (g := fun _ x => CplxOps.activate φ x) fun _ b hb h => hφ b hb _ h

theorem dAct_rel (hS : CplxRel l S) {f g : ∀ k, List (A k)} {v w : List B} (h : RL l S f v)
    (h' : RL l S g w) (φ : ActFunc) (hφ : ∀ z ∈ v, DerRel l S φ z) :
    RO l (RL l S) (fun k => ((f k).zip (g k)).mapM fun p =>
        (CplxOps.dActivate φ p.1) >>= fun d => some (BasicOps.mul d p.2))
      ((v.zip w).mapM fun p => CplxOps.dActivate φ p.1 >>= fun d => some (BasicOps.mul d p.2)) :=
  (h.zip h').mapM (g := fun _ p => CplxOps.dActivate φ p.1 >>= fun d => some (BasicOps.mul d p.2))
    fun a b hb hab => (hφ b.1 (List.of_mem_zip hb).1 _ hab.1).1.bind fun _ _ _ h =>
      RO.pure (hS.mul h hab.2)

theorem dConjAct_rel (hS : CplxRel l S) {f g : ∀ k, List (A k)} {v w : List B} (h : RL l S f v)
    (h' : RL l S g w) (φ : ActFunc) (hφ : ∀ z ∈ v, DerRel l S φ z) :
    RO l (RL l S) (fun k => ((f k).zip (g k)).mapM fun p =>
        (CplxOps.dConjActivate φ p.1) >>= fun d => some (BasicOps.mul (CplxOps.conj d) p.2))
      ((v.zip w).mapM fun p =>
        CplxOps.dConjActivate φ p.1 >>= fun d => some (BasicOps.mul (CplxOps.conj d) p.2)) :=
  (h.zip h').mapM (g := fun _ p =>
      CplxOps.dConjActivate φ p.1 >>= fun d => some (BasicOps.mul (CplxOps.conj d) p.2))
    fun a b hb hab => (hφ b.1 (List.of_mem_zip hb).1 _ hab.1).2.bind fun _ _ _ h =>
      RO.pure (hS.mul (hS.conj h) hab.2)

theorem conjs_rel (hS : CplxRel l S) {f : ∀ k, List (A k)} {v : List B} (h : RL l S f v) :
    RL l S (fun k => (f k).map CplxOps.conj) (v.map CplxOps.conj) :=
  h.map (g := fun _ x => CplxOps.conj x) fun _ _ _ h => hS.conj h

/-! ## Dense layers -/

section dense
variable {W : ∀ k, Mat (A k)} {b : ∀ k, List (A k)} {d : Dense B}

theorem dense_q (hS : CplxRel l S) (he : Ev l S) (hW : RM l S W d.weights) (hb : RL l S b d.biases)
    {x : ∀ k, List (A k)} {v : List B} (hx : RL l S x v) :
    RO l (RL l S) (fun k => Dense.computeQ ⟨W k, b k, d.func⟩ (x k)) (d.computeQ v) := by
  unfold Dense.computeQ
  refine (hW.mulSlice hS.toOpsRel he hx).bind fun _ _ _ h1 => ?_
  refine (RO.unwrap h1).bind fun _ _ _ h2 => ?_
  exact RO.unwrap (addSliceMut_rel hS.toOpsRel h2 hb)

theorem dense_derivLoop (hS : OpsRel S) {x : ∀ k, List (A k)} {v : List B} (hx : RL l S x v)
    {f : ∀ k, List ((A k × A k) × List (A k))} {w : List ((B × B) × List B)}
    (hf : RL l (RP (RP S S) (RL l S)) f w) {g : ∀ k, List (A k) × List (A k) × List (A k)}
    {u : List B × List B × List B} (hg : RP (RL l S) (RP (RL l S) (RL l S)) g u) :
    RO l (RP (RL l S) (RP (RL l S) (RL l S))) (fun k => Dense.derivLoop (x k) (f k) (g k))
      (Dense.derivLoop v w u) := by
  refine hf.elim (F := fun k f => Dense.derivLoop (x k) f (g k)) fun as h => ?_
  clear hf
  induction h generalizing g u with
  | nil => exact RO.pure hg
  | cons h _ ih =>
    obtain ⟨⟨h1, h2⟩, h3⟩ := h
    simp only [List.map_cons, Dense.derivLoop]
    have hm : ∀ {y : ∀ k, List (A k)} {z : List B}, RL l S y z → _ := fun {y z} hy =>
      hy.map (T := S) (g := fun k e => BasicOps.mul e (BasicOps.add _ _)) fun _ _ _ h =>
        hS.mul h (hS.add h1 h2)
    refine (RO.unwrap (addSliceMut_rel hS hg.2.2 (hm h3))).bind fun _ _ _ h4 => ?_
    exact ih ⟨hg.1.append (hm hx), hg.2.1.append (RL.single (hS.add h1 h2)), h4⟩

theorem dense_derivs (hS : CplxRel l S) (he : Ev l S) (hW : RM l S W d.weights) (hb : RL l S b d.biases)
    {x : ∀ k, IOType (A k)} {v : IOType B} (hx : RIO l S x v) {f g : ∀ k, List (A k)} {u w : List B}
    (hf : RL l S f u) (hg : RL l S g w)
    (hφ : ∀ i q, v = .scalar i → d.computeQ i = some q → ∀ z ∈ q, DerRel l S d.func z) :
    RO l (RE l (RDer l S)) (fun k => Dense.computeDerivatives ⟨W k, b k, d.func⟩ (x k) (f k) (g k))
      (d.computeDerivatives v u w) := by
  refine hW.elim (F := fun k W => Dense.computeDerivatives ⟨W, b k, d.func⟩ (x k) (f k) (g k))
    fun W' hW' => ?_
  have hW := RM.mk hW' d.weights.shape d.weights.capacity
  unfold Dense.computeDerivatives
  refine RO.ite (hf.len.mono fun k e => by simp only [e]) (fun _ => RO.pure (RE.error _)) fun _ => ?_
  refine RO.ite (hg.len.mono fun k e => by simp only [e]) (fun _ => RO.pure (RE.error _)) fun _ => ?_
  cases v with
  | matrix v => exact RO.none
  | scalar v =>
    obtain ⟨y, hy, e⟩ := hx
    refine RO.congr (e.mono fun k e => by simp only [e]; rfl) ?_
    refine (dense_q hS he hW hb hy).bind fun q q' hq h1 => ?_
    refine (dAct_rel hS h1 hf d.func (hφ v q' rfl hq)).bind fun _ _ _ h2 => ?_
    refine (dConjAct_rel hS h1 hg d.func (hφ v q' rfl hq)).bind fun _ _ _ h3 => ?_
    refine hW.rowsAsIter.bind fun _ _ _ h4 => ?_
    refine (dense_derivLoop hS.toOpsRel hy ((h2.zip h3).zip h4)
      ⟨RL.nil, RL.nil, RL.replicate hS.zero _⟩).bind fun a b _ h5 => ?_
    exact RO.pure (RE.ok ⟨h5.1, h5.2.1, h5.2.2, conjs_rel hS h5.2.2⟩)

theorem dense_forward (hS : CplxRel l S) (he : Ev l S) (hW : RM l S W d.weights) (hb : RL l S b d.biases)
    {x : ∀ k, IOType (A k)} {v : IOType B} (hx : RIO l S x v)
    (hφ : ∀ i q, v = .scalar i → d.computeQ i = some q → ∀ z ∈ q, ActRel l S d.func z) :
    RO l (RE l (RIO l S)) (fun k => Dense.forward ⟨W k, b k, d.func⟩ (x k)) (d.forward v) := by
  cases v with
  | matrix v =>
    obtain ⟨y, hy, e⟩ := hx
    refine RO.congr (e.mono fun k e => by simp only [e]; rfl) ?_
    exact RO.pure (RE.error _)
  | scalar v =>
    obtain ⟨y, hy, e⟩ := hx
    refine RO.congr (e.mono fun k e => by simp only [e]; rfl) ?_
    refine (dense_q hS he hW hb hy).bind fun q q' hq h1 => ?_
    refine (activateMut_rel h1 d.func (hφ v q' rfl hq)).bind fun _ _ _ h2 => ?_
    exact RO.pure (RE.ok ⟨_, h2, .of_forall fun _ => rfl⟩)

theorem dense_update (hS : CplxRel l S) (hW : RM l S W d.weights) (hb : RL l S b d.biases)
    {f g : ∀ k, List (A k)} {u w : List B} (hf : RL l S f u) (hg : RL l S g w) :
    RP (RE l (RD l)) (fun f d' => RLayer l S (fun k => .dense (f k)) (.dense d'))
      (fun k => Dense.negConjAdjustment ⟨W k, b k, d.func⟩ (f k) (g k)) (d.negConjAdjustment u w) := by
  have hu : ∀ a b a' b', S a b → S a' b' → S (fun k => BasicOps.subAssign (a k) (CplxOps.conj (a' k)))
      (BasicOps.subAssign b (CplxOps.conj b')) := fun _ _ _ _ h h' => hS.subAssign h (hS.conj h')
  unfold Dense.negConjAdjustment
  refine Ev.ite (Ev.prod Ev.result Ev.denseLayer)
    (by filter_upwards [hb.len, hg.len] with k a b; simp only [a, b])
    (fun _ => ⟨RE.error _, W, b, hW, hb, .of_forall fun _ => rfl⟩) fun _ => ?_
  refine Ev.ite (Ev.prod Ev.result Ev.denseLayer)
    (by filter_upwards [hf.len, hW.body.len] with k a b; simp only [a, b])
    (fun _ => ⟨RE.error _, W, b, hW, hb, .of_forall fun _ => rfl⟩) fun _ => ?_
  exact ⟨RE.ok (a := fun _ => ()) (.of_forall fun _ => rfl),
    _, _, hW.withBody (hW.body.zipUpd hf hu), hb.zipUpd hg hu, .of_forall fun _ => rfl⟩

end dense

/-! ## Convolutional layers -/

section conv
variable {K : ∀ k, Mat (Mat (A k))} {b : ∀ k, List (A k)} {d : Conv B}

omit [∀ k, CplxOps (A k) (P k)] [CplxOps B Q] in
/-- Only the shapes of the first kernel and the first map matter. -/
theorem elm_shape {n : Nat} {φ : ActFunc} (hK : RM l (RM l S) K d.kernels) :
    RO l (RM l S) (fun k => (⟨n, K k, b k, φ⟩ : Conv (A k)).kernels.elm 0 0 >>= unwrap)
      (d.kernels.elm 0 0 >>= unwrap) :=
  (hK.elm 0 0).bind fun _ _ _ h => RO.unwrap h

omit [∀ k, CplxOps (A k) (P k)] [CplxOps B Q] in
theorem conv_outShape {n : Nat} {φ : ActFunc} (hK : RM l (RM l S) K d.kernels)
    {x : ∀ k, List (Mat (A k))} {v : List (Mat B)} (hx : RL l (RM l S) x v) :
    RO l (RD l) (fun k => Conv.outShape ⟨n, K k, b k, φ⟩ (x k)) (d.outShape v) := by
  unfold Conv.outShape
  refine (elm_shape hK).bind fun a c _ h1 => ?_
  refine (hx.getElem? 0).bind fun a' c' _ h2 => ?_
  refine RO.congr (g := fun k => usub c.shape.1 1 >>= fun a => usub c'.shape.1 a >>= fun o0 =>
    usub c.shape.2 1 >>= fun b => usub c'.shape.2 b >>= fun o1 => some (o0, o1)) ?_ (RO.disc _)
  filter_upwards [h1.shape, h2.shape] with k e e'
  rw [e, e']

theorem conv_feature (hS : OpsRel S) (he : Ev l S) (out : Nat × Nat) {x : ∀ k, List (Mat (A k))}
    {v : List (Mat B)} (hx : RL l (RM l S) x v) {f : ∀ k, List (Mat (A k))} {w : List (Mat B)}
    (hf : RL l (RM l S) f w) {a : ∀ k, A k} {c : B} (ha : S a c) :
    RO l (RM l S) (fun k => Conv.feature out (x k) (f k) (a k)) (Conv.feature out v w c) := by
  unfold Conv.feature
  refine ((hx.zip hf).foldlM (T := RM l S) (RM.fromBody (RL.replicate hS.zero _) _)
    fun _ _ _ _ _ h1 h2 => ?_).bind fun _ _ _ h => RO.pure (h.addMutScalar hS ha)
  exact (h2.1.conv hS he h2.2).bind fun _ _ _ h4 => RO.unwrap (h1.addMut hS h4)

theorem conv_q (hS : OpsRel S) (he : Ev l S) {n : Nat} {φ : ActFunc} (hK : RM l (RM l S) K d.kernels)
    (hb : RL l S b d.biases) {x : ∀ k, List (Mat (A k))} {v : List (Mat B)} (hx : RL l (RM l S) x v) :
    RO l (RL l S) (fun k => Conv.computeQ ⟨n, K k, b k, φ⟩ (x k)) (d.computeQ v) := by
  unfold Conv.computeQ
  refine (conv_outShape hK hx).bind fun o out _ h1 => ?_
  refine RO.congr (h1.mono fun k e => by rw [e]) ?_
  refine hK.rowsAsIter.bind fun _ _ _ h2 => ?_
  refine ((h2.zip hb).mapM (T := RM l S) (g := fun k p => Conv.feature out (x k) p.1 p.2)
    fun _ _ _ h3 => conv_feature hS he out hx h3.1 h3.2).bind fun _ _ _ h4 => RO.pure ?_
  exact h4.flatMap (g := fun _ m => m.getBody) fun _ _ _ h => h.getBody

theorem conv_forward (hS : CplxRel l S) (he : Ev l S) {n : Nat} (hK : RM l (RM l S) K d.kernels)
    (hb : RL l S b d.biases) {x : ∀ k, IOType (A k)} {v : IOType B} (hx : RIO l S x v)
    (hφ : ∀ i q, v = .matrix i → d.computeQ i = some q → ∀ z ∈ q, ActRel l S d.func z) :
    RO l (RE l (RIO l S)) (fun k => Conv.forward ⟨n, K k, b k, d.func⟩ (x k)) (d.forward v) := by
  cases v with
  | scalar v =>
    obtain ⟨y, hy, e⟩ := hx
    refine RO.congr (e.mono fun k e => by simp only [e]; rfl) ?_
    exact RO.pure (RE.error _)
  | matrix v =>
    obtain ⟨y, hy, e⟩ := hx
    refine RO.congr (e.mono fun k e => by simp only [e]; rfl) ?_
    have hq : ∀ q, d.computeQ v = some q → ∀ z ∈ q, ActRel l S d.func z := fun q => hφ v q rfl
    refine (conv_outShape hK hy).bind fun o out ho h1 => ?_
    refine RO.congr (h1.mono fun k e => by rw [e]) ?_
    refine RO.ite (by filter_upwards [hK.shape, hy.len] with k a b; simp only [a, b])
      (fun _ => RO.pure (RE.error _)) fun _ => ?_
    refine hK.rowsAsIter.bind fun R rows hr h2 => ?_
    refine RO.bind (RO.of_some fun hs => (h2.zip hb).mapM (T := RM l S)
      (g := fun k p => Conv.feature out (y k) p.1 p.2 >>= fun f => activateMut d.func f.body >>=
        fun body => some ⟨body, f.shape, f.capacity⟩)
      fun a c hc h3 => ?_) fun _ _ _ h4 => RO.pure (RE.ok ⟨_, h4, .of_forall fun _ => rfl⟩)
    refine (conv_feature hS.toOpsRel he out hy h3.1 h3.2).bind fun f f' hf' h5 => ?_
    refine (activateMut_rel h5.body d.func ?_).bind fun _ _ _ h6 => RO.pure (h5.withBody h6)
    have hs' := (mapM_some_iff _ _).mp hs
    obtain ⟨fs, hfs⟩ := (mapM_some_iff (fun p => Conv.feature out v p.1 p.2) (rows.zip d.biases)).mpr
      fun p hp => by
        obtain ⟨z, hz⟩ := hs' p hp
        obtain ⟨w, hw, -⟩ := Option.bind_eq_some_iff.mp hz
        exact ⟨w, hw⟩
    have hcq : d.computeQ v = some (fs.flatMap Mat.getBody) := by
      unfold Conv.computeQ
      rw [ho, hr]
      simp only [Option.bind_eq_bind, Option.bind_some, hfs]
    intro z hz
    refine hq _ hcq z (List.mem_flatMap.mpr ⟨f', ?_, hz⟩)
    obtain ⟨i, hi, rfl⟩ := List.getElem_of_mem hc
    have hm := mapM_getElem? hfs i
    rw [List.getElem?_eq_getElem hi, Option.bind_eq_bind, Option.bind_some, hf'] at hm
    exact List.mem_of_getElem? hm

theorem conv_operA (hS : OpsRel S) (he : Ev l S) {x : ∀ k, List (Mat (A k))} {v : List (Mat B)}
    (hx : RL l (RM l S) x v) {f g : ∀ k, Mat (A k)} {u w : Mat B} (hf : RM l S f u) (hg : RM l S g w) :
    RO l (RP (RL l S) (RL l S)) (fun k => Conv.operA (x k) (f k) (g k)) (Conv.operA v u w) := by
  unfold Conv.operA
  refine (hx.mapM (T := RL l S) fun _ _ _ h => ?_).bind fun _ _ _ h1 =>
    (RO.unwrap (addSlice_rel hS hf.body hg.body)).bind fun _ _ _ h2 => RO.pure ⟨h1.flatten, h2⟩
  refine (h.conv hS he hf).bind fun _ _ _ h1 => (h.conv hS he hg).bind fun _ _ _ h2 => ?_
  exact (RO.unwrap (h1.addMut hS h2)).bind fun _ _ _ h3 => RO.pure h3.body

theorem conv_operB (hS : OpsRel S) (he : Ev l S) {x : ∀ k, List (Mat (A k))} {v : List (Mat B)}
    (hx : RL l (RM l S) x v) {f : ∀ k, Mat (A k)} {u : Mat B} (hf : RM l S f u) :
    RO l (RL l S) (fun k => Conv.operB (x k) (f k)) (Conv.operB v u) := by
  unfold Conv.operB
  refine (hx.mapM (T := RL l S) fun _ _ _ h => ?_).bind fun _ _ _ h1 => RO.pure h1.flatten
  exact (hf.conv hS he h).bind fun _ _ _ h1 => RO.pure h1.body

/-- Related states of the filter loop. -/
def RState (l : Filter ι) (S : (∀ k, A k) → B → Prop) (s : ∀ k, Conv.DState (A k))
    (t : Conv.DState B) : Prop :=
  RL l S (fun k => (s k).val) t.val ∧ RL l S (fun k => (s k).conjVal) t.conjVal
    ∧ RL l S (fun k => (s k).dldk) t.dldk ∧ RL l S (fun k => (s k).dldb) t.dldb
    ∧ RL l S (fun k => (s k).newDlda) t.newDlda ∧ RL l S (fun k => (s k).newDldaConj) t.newDldaConj

theorem conv_derivStep (hS : OpsRel S) (he : Ev l S) {x : ∀ k, List (Mat (A k))} {v : List (Mat B)}
    (hx : RL l (RM l S) x v) (out : Nat × Nat) (padx pady size : Nat) {s : ∀ k, Conv.DState (A k)}
    {t : Conv.DState B} (hs : RState l S s t) {f : ∀ k, List (Mat (A k))} {w : List (Mat B)}
    (hf : RL l (RM l S) f w) :
    RO l (RState l S) (fun k => Conv.derivStep (x k) out padx pady size (s k) (f k))
      (Conv.derivStep v out padx pady size t w) := by
  unfold Conv.derivStep
  refine (hs.1.drainFront _).bind fun _ _ _ h1 => ?_
  refine (hs.2.1.drainFront _).bind fun _ _ _ h2 => ?_
  refine (hf.mapM (T := RM l S) fun _ _ _ h => h.flip.bind fun _ _ _ h => RO.unwrap h).bind
    fun _ _ _ h3 => ?_
  refine ((RM.fromBody h1.1 out).pad hS _).bind fun _ _ _ h4 => ?_
  refine ((RM.fromBody h2.1 out).pad hS _).bind fun _ _ _ h5 => ?_
  refine (conv_operA hS he hx (RM.fromBody h1.1 out) (RM.fromBody h2.1 out)).bind fun _ _ _ h6 => ?_
  refine (conv_operB hS he h3 h4).bind fun _ _ _ h7 => ?_
  refine (conv_operB hS he h3 h5).bind fun _ _ _ h8 => ?_
  refine (h6.2.reduce fun _ _ _ _ h h' => hS.add h h').bind fun _ _ _ h9 => ?_
  refine (RO.unwrap (addSliceMut_rel hS hs.2.2.2.2.1 h7)).bind fun _ _ _ h10 => ?_
  refine (RO.unwrap (addSliceMut_rel hS hs.2.2.2.2.2 h8)).bind fun _ _ _ h11 => RO.pure ?_
  exact ⟨h1.2, h2.2, hs.2.2.1.append h6.1, hs.2.2.2.1.append (RL.single h9), h10, h11⟩

theorem conv_derivs (hS : CplxRel l S) (he : Ev l S) {n : Nat} (hK : RM l (RM l S) K d.kernels)
    (hb : RL l S b d.biases) {x : ∀ k, IOType (A k)} {v : IOType B} (hx : RIO l S x v)
    {f g : ∀ k, List (A k)} {u w : List B} (hf : RL l S f u) (hg : RL l S g w)
    (hφ : ∀ i q, v = .matrix i → d.computeQ i = some q → ∀ z ∈ q, DerRel l S d.func z) :
    RO l (RE l (RDer l S)) (fun k => Conv.computeDerivatives ⟨n, K k, b k, d.func⟩ (x k) (f k) (g k))
      (d.computeDerivatives v u w) := by
  cases v with
  | scalar v => exact RO.none
  | matrix v =>
    obtain ⟨y, hy, e⟩ := hx
    refine RO.congr (e.mono fun k e => by simp only [e]; rfl) ?_
    refine (hy.getElem? 0).bind fun F F' _ h1 => ?_
    refine (elm_shape hK).bind fun G G' _ h2 => ?_
    refine RO.congr (g := fun k => usub G'.shape.1 1 >>= fun padx => usub G'.shape.2 1 >>= fun pady =>
      usub F'.shape.1 padx >>= fun o0 => usub F'.shape.2 pady >>= fun o1 => _) (by
        filter_upwards [h1.shape, h2.shape] with k e e'; rw [e, e']) ?_
    refine RO.discBind fun padx _ => RO.discBind fun pady _ => RO.discBind fun o0 _ =>
      RO.discBind fun o1 _ => ?_
    refine (conv_q hS.toOpsRel he hK hb hy).bind fun q q' hq h3 => ?_
    refine (dAct_rel hS h3 hf d.func (hφ v q' rfl hq)).bind fun D D' _ h4 => ?_
    refine (dConjAct_rel hS h3 hg d.func (hφ v q' rfl hq)).bind fun _ _ _ h5 => ?_
    refine RO.ite (hK.shape.mono fun k e => by rw [e]) (fun _ => RO.none) fun _ => ?_
    refine hK.rowsAsIter.bind fun R R' _ h6 => ?_
    refine (h6.foldlM (T := RState l S) (a := fun k => ⟨_, _, [], [], List.replicate _ BasicOps.zero,
      List.replicate _ BasicOps.zero⟩) ⟨h4, h5, RL.nil, RL.nil, ?_, ?_⟩ fun _ _ _ _ _ h7 h8 => ?_).bind
      fun _ _ _ h9 => RO.pure (RE.ok ⟨h9.2.2.1, h9.2.2.2.1, h9.2.2.2.2.1, h9.2.2.2.2.2⟩)
    · refine RL.congr ?_ (RL.replicate hS.zero _)
      filter_upwards [hy.len] with k e; rw [e]
    · refine RL.congr ?_ (RL.replicate hS.zero _)
      filter_upwards [hy.len] with k e; rw [e]
    · refine RO.congr ?_ (conv_derivStep hS.toOpsRel he hy _ _ _ _ h7 h8)
      filter_upwards [h4.len, hK.shape] with k e e'; rw [e, e']

omit [∀ k, CplxOps (A k) (P k)] [CplxOps B Q] in
theorem conv_paramsLen (n : Nat) (φ : ActFunc) (hK : RM l (RM l S) K d.kernels)
    (hb : RL l S b d.biases) : ∀ᶠ k in l, (⟨n, K k, b k, φ⟩ : Conv (A k)).paramsLen = d.paramsLen := by
  have h : RD l (fun k => (K k).body.foldl (fun acc k => acc + k.shape.1 * k.shape.2) 0)
      (d.kernels.body.foldl (fun acc k => acc + k.shape.1 * k.shape.2) 0) :=
    hK.body.foldl (T := RD l) (A' := fun _ => Nat) (a := fun _ => 0)
      (g := fun k acc m => acc + m.shape.1 * m.shape.2)
      (.of_forall fun _ => rfl)
      (fun a b c d h1 h2 => by
        filter_upwards [h1, h2.shape] with k e e'; rw [e, e'])
      fun _ _ _ h hg => by filter_upwards [h, hg] with k h h2 using h.trans h2
  filter_upwards [h, hb.len] with k e e'
  simp only [Conv.paramsLen, e, e']

omit [∀ k, CplxOps (A k) (P k)] [CplxOps B Q] in
theorem updKernels_rel {u : ∀ k, A k → A k → A k} {u' : B → B → B}
    (hu : ∀ a b a' b', S a b → S a' b' → S (fun k => u k (a k) (a' k)) (u' b b'))
    {f : ∀ k, List (Mat (A k))} {v : List (Mat B)} (hf : RL l (RM l S) f v) {g : ∀ k, List (A k)}
    {w : List B} (hg : RL l S g w) :
    RL l (RM l S) (fun k => Conv.updKernels (u k) (f k) (g k)) (Conv.updKernels u' v w) := by
  obtain ⟨as, h1, h2⟩ := hf
  refine RL.congr (h2.mono fun k e => by rw [e]) ?_
  clear h2
  induction h1 generalizing g w with
  | nil => exact RL.nil
  | cons h _ ih =>
    simp only [List.map_cons, Conv.updKernels]
    refine RL.cons (h.withBody (h.body.zipUpd hg hu)) (RL.congr ?_ (ih (hg.drop _)))
    filter_upwards [h.body.len] with k e
    rw [e]

theorem conv_update (hS : CplxRel l S) (hK : RM l (RM l S) K d.kernels) (hb : RL l S b d.biases)
    {f g : ∀ k, List (A k)} {u w : List B} (hf : RL l S f u) (hg : RL l S g w) :
    RP (RE l (RD l)) (fun f d' => RLayer l S (fun k => .conv (f k)) (.conv d'))
      (fun k => Conv.negConjAdjustment ⟨d.inputFeaturesLen, K k, b k, d.func⟩ (f k) (g k))
      (d.negConjAdjustment u w) := by
  have hu : ∀ a b a' b', S a b → S a' b' → S (fun k => BasicOps.subAssign (a k) (CplxOps.conj (a' k)))
      (BasicOps.subAssign b (CplxOps.conj b')) := fun _ _ _ _ h h' => hS.subAssign h (hS.conj h')
  have hp := conv_paramsLen d.inputFeaturesLen d.func hK hb
  unfold Conv.negConjAdjustment
  refine Ev.ite (Ev.prod Ev.result Ev.convLayer)
    (by filter_upwards [hp, hg.len] with k a b; simp only [a, b])
    (fun _ => ⟨RE.error _, K, b, hK, hb, .of_forall fun _ => rfl⟩) fun _ => ?_
  refine Ev.ite (Ev.prod Ev.result Ev.convLayer)
    (by filter_upwards [hf.len, hp] with k a b; simp only [a, b])
    (fun _ => ⟨RE.error _, K, b, hK, hb, .of_forall fun _ => rfl⟩) fun _ => ?_
  exact ⟨RE.ok (a := fun _ => ()) (.of_forall fun _ => rfl),
    _, _, hK.withBody (updKernels_rel hu hK.body hf), hb.zipUpd hg hu, .of_forall fun _ => rfl⟩

end conv

/-! ## Pooling layers -/

section pool
variable {F : ∀ k, List (A k) → Run (A k)} {K : ∀ k, Mat (A k)} {d : Reduce B}

theorem pool_forward (hF : RBlock l S F d.blockFunc) {x : ∀ k, IOType (A k)} {v : IOType B}
    (hx : RIO l S x v) :
    RO l (RE l (RIO l S)) (fun k => Reduce.forward ⟨d.inputFeaturesLen, d.blockSize, F k, K k⟩ (x k))
      (d.forward v) := by
  cases v with
  | scalar v =>
    obtain ⟨y, hy, e⟩ := hx
    refine RO.congr (e.mono fun k e => by simp only [e]; rfl) ?_
    exact RO.pure (RE.error _)
  | matrix v =>
    obtain ⟨y, hy, e⟩ := hx
    refine RO.congr (e.mono fun k e => by simp only [e]; rfl) ?_
    refine (hy.mapM (T := RM l S) fun _ _ _ h => ?_).bind fun _ _ _ h => RO.pure
      (RE.ok ⟨_, h, .of_forall fun _ => rfl⟩)
    exact (h.blockReduce d.blockSize hF).bind fun _ _ _ h => RO.unwrap h

theorem pool_derivLoop (hS : OpsRel S) (he : Ev l S) (hK : RM l S K d.interpKernel)
    {x : ∀ k, List (Mat (A k))} {v : List (Mat B)} (hx : RL l (RM l S) x v)
    {f g : ∀ k, List (List (A k))} {u w : List (List B)} (hf : RL l (RL l S) f u)
    (hg : RL l (RL l S) g w) :
    RO l (RP (RL l S) (RL l S))
      (fun k => Reduce.derivLoop ⟨d.inputFeaturesLen, d.blockSize, F k, K k⟩ (x k) (f k) (g k))
      (d.derivLoop v u w) := by
  refine hx.elim (F := fun k x => Reduce.derivLoop ⟨d.inputFeaturesLen, d.blockSize, F k, K k⟩ x (f k)
    (g k)) fun as h => ?_
  clear hx
  induction h generalizing f g u w with
  | nil => exact RO.pure ⟨RL.nil, RL.nil⟩
  | @cons a b as bs h _ ih =>
    simp only [List.map_cons, Reduce.derivLoop]
    refine RO.congr (g := fun k => Reduce.udiv b.shape.1 d.blockSize.1 >>= fun s0 =>
      Reduce.udiv b.shape.2 d.blockSize.2 >>= fun s1 => _) (by
        filter_upwards [h.shape] with k e; rw [e]) ?_
    refine RO.discBind fun s0 _ => RO.discBind fun s1 _ => ?_
    refine hf.head?.bind fun _ _ _ h1 => ?_
    refine (RO.unwrap (toMatrix_rel h1 _)).bind fun _ _ _ h2 => ?_
    refine ((h2.fractionalUpsampling hS he hK _).bind fun _ _ _ h => RO.unwrap h).bind fun _ _ _ h3 => ?_
    refine hg.head?.bind fun _ _ _ h4 => ?_
    refine (RO.unwrap (toMatrix_rel h4 _)).bind fun _ _ _ h5 => ?_
    refine ((h5.fractionalUpsampling hS he hK _).bind fun _ _ _ h => RO.unwrap h).bind fun _ _ _ h6 => ?_
    exact (ih hf.tail hg.tail).bind fun _ _ _ h7 => RO.pure
      ⟨h3.body.append h7.1, h6.body.append h7.2⟩

theorem pool_derivs (hS : OpsRel S) (he : Ev l S) (hK : RM l S K d.interpKernel)
    {x : ∀ k, IOType (A k)} {v : IOType B} (hx : RIO l S x v)
    {f g : ∀ k, List (A k)} {u w : List B} (hf : RL l S f u) (hg : RL l S g w) :
    RO l (RE l (RDer l S))
      (fun k => Reduce.computeDerivatives ⟨d.inputFeaturesLen, d.blockSize, F k, K k⟩ (x k) (f k) (g k))
      (d.computeDerivatives v u w) := by
  cases v with
  | scalar v =>
    obtain ⟨y, hy, e⟩ := hx
    refine RO.congr (e.mono fun k e => by simp only [e]; rfl) ?_
    exact RO.pure (RE.error _)
  | matrix v =>
    obtain ⟨y, hy, e⟩ := hx
    refine RO.congr (e.mono fun k e => by simp only [e]; rfl) ?_
    simp only [Reduce.computeDerivatives]
    refine RO.congr (g := fun k => Reduce.udiv u.length v.length >>= fun n => _) (by
        filter_upwards [hf.len, hy.len] with k e e'; rw [e, e']) ?_
    refine RO.discBind fun n _ => ?_
    refine (hf.chunks n).bind fun _ _ _ h1 => (hg.chunks n).bind fun _ _ _ h2 => ?_
    exact (pool_derivLoop hS he hK hy h1 h2).bind fun _ _ _ h3 => RO.pure
      (RE.ok ⟨RL.nil, RL.nil, h3.1, h3.2⟩)

end pool

/-! ## Layers -/

section layer
variable {L : ∀ k, Layer (A k)} {d : Layer B}

theorem flatten_forward (d : Flatten) {x : ∀ k, IOType (A k)} {v : IOType B} (hx : RIO l S x v) :
    RO l (RE l (RIO l S)) (fun k => d.forward (x k)) (d.forward v) := by
  cases v with
  | scalar v =>
    obtain ⟨y, hy, e⟩ := hx
    refine RO.congr (e.mono fun k e => by simp only [e]; rfl) ?_
    exact RO.pure (RE.error _)
  | matrix v =>
    obtain ⟨y, hy, e⟩ := hx
    refine RO.congr (e.mono fun k e => by simp only [e]; rfl) ?_
    exact RO.pure (RE.ok ⟨_, hy.flatMap (g := fun _ m => m.getBody) fun _ _ _ h => h.getBody,
      .of_forall fun _ => rfl⟩)

theorem layer_fwd (hS : CplxRel l S) (he : Ev l S) (hL : RLayer l S L d) {x : ∀ k, IOType (A k)}
    {v : IOType B} (hx : RIO l S x v) (hφ : d.Pre (ActRel l S) v) :
    RO l (RIO l S) (fun k => Net.fwd (L k) (x k)) (Net.fwd d v) := by
  refine RO.bind ?_ fun _ _ _ h => RO.unwrap h
  cases d with
  | dense d =>
    obtain ⟨m, b, h1, h2, e⟩ := hL
    refine RO.congr (e.mono fun k e => by simp only [e]; rfl) ?_
    exact dense_forward hS he h1 h2 hx fun i q hi => by subst hi; exact hφ q
  | conv d =>
    obtain ⟨m, b, h1, h2, e⟩ := hL
    refine RO.congr (e.mono fun k e => by simp only [e]; rfl) ?_
    exact conv_forward hS he h1 h2 hx fun i q hi => by subst hi; exact hφ q
  | reduce d =>
    obtain ⟨m, b, h1, h2, e⟩ := hL
    refine RO.congr (e.mono fun k e => by simp only [e]; rfl) ?_
    exact pool_forward h2 hx
  | flatten d =>
    refine RO.congr (hL.mono fun k e => by simp only [e]; rfl) ?_
    exact flatten_forward d hx

theorem layer_derivs (hS : CplxRel l S) (he : Ev l S) (hL : RLayer l S L d) {x : ∀ k, IOType (A k)}
    {v : IOType B} (hx : RIO l S x v) {f g : ∀ k, List (A k)} {u w : List B} (hf : RL l S f u)
    (hg : RL l S g w) (hφ : d.Pre (DerRel l S) v) :
    RO l (RE l (RDer l S)) (fun k => (L k).computeDerivatives (x k) (f k) (g k))
      (d.computeDerivatives v u w) := by
  cases d with
  | dense d =>
    obtain ⟨m, b, h1, h2, e⟩ := hL
    refine RO.congr (e.mono fun k e => by simp only [e]; rfl) ?_
    exact dense_derivs hS he h1 h2 hx hf hg fun i q hi => by subst hi; exact hφ q
  | conv d =>
    obtain ⟨m, b, h1, h2, e⟩ := hL
    refine RO.congr (e.mono fun k e => by simp only [e]; rfl) ?_
    exact conv_derivs hS he h1 h2 hx hf hg fun i q hi => by subst hi; exact hφ q
  | reduce d =>
    obtain ⟨m, b, h1, h2, e⟩ := hL
    refine RO.congr (e.mono fun k e => by simp only [e]; rfl) ?_
    exact pool_derivs hS.toOpsRel he h1 hx hf hg
  | flatten d => exact RO.none

theorem layer_update (hS : CplxRel l S) (hL : RLayer l S L d) {f g : ∀ k, List (A k)} {u w : List B}
    (hf : RL l S f u) (hg : RL l S g w) :
    RO l (RP (RE l (RD l)) (RLayer l S)) (fun k => (L k).negConjAdjustment (f k) (g k))
      (d.negConjAdjustment u w) := by
  cases d with
  | dense d =>
    obtain ⟨m, b, h1, h2, e⟩ := hL
    refine RO.congr (e.mono fun k e => by simp only [e]; rfl) ?_
    have := dense_update hS h1 h2 hf hg
    exact RO.pure ⟨this.1, this.2⟩
  | conv d =>
    obtain ⟨m, b, h1, h2, e⟩ := hL
    refine RO.congr (e.mono fun k e => by simp only [e]; rfl) ?_
    have := conv_update hS h1 h2 hf hg
    exact RO.pure ⟨this.1, this.2⟩
  | reduce d =>
    obtain ⟨m, b, h1, h2, e⟩ := hL
    refine RO.congr (e.mono fun k e => by simp only [e]; rfl) ?_
    exact RO.pure ⟨RE.ok (a := fun _ => ()) (.of_forall fun _ => rfl), m, b, h1, h2, .of_forall fun _ => rfl⟩
  | flatten d => exact RO.none

omit [∀ k, CplxOps (A k) (P k)] [CplxOps B Q] in
theorem layer_shape (hL : RLayer l S L d) :
    ∀ᶠ k in l, (L k).propagates = d.propagates ∧ (L k).paramsLen = d.paramsLen := by
  cases d with
  | dense d =>
    obtain ⟨m, b, h1, h2, e⟩ := hL
    filter_upwards [e, h1.shape, h2.len] with k e e1 e2
    simp only [e, Layer.propagates, Dense.propagates, Layer.paramsLen, Dense.paramsLen, e1, e2, and_self]
  | conv d =>
    obtain ⟨m, b, h1, h2, e⟩ := hL
    filter_upwards [e, conv_paramsLen d.inputFeaturesLen d.func h1 h2] with k e e1
    simp only [e, Layer.propagates, Conv.propagates, Layer.paramsLen, e1, and_self]
  | reduce d =>
    obtain ⟨m, b, h1, h2, e⟩ := hL
    filter_upwards [e] with k e
    simp only [e, Layer.propagates, Reduce.propagates, Layer.paramsLen, Reduce.paramsLen, and_self]
  | flatten d =>
    filter_upwards [hL] with k e
    simp only [e, Layer.propagates, Layer.paramsLen, and_self]

end layer

/-! ## Networks -/

omit [∀ k, CplxOps (A k) (P k)] [CplxOps B Q] in
theorem collect_len {B Q : Type} [CplxOps B Q] {ls : List (Layer B)} {x : IOType B}
    {ys : List (IOType B)} (h : Net.collectLoop ls x = some ys) : ys.length = ls.length := by
  induction ls generalizing x ys with
  | nil => cases h; rfl
  | cons d ls ih =>
    obtain ⟨y, -, h⟩ := Option.bind_eq_some_iff.mp h
    obtain ⟨ys', h1, h⟩ := Option.bind_eq_some_iff.mp h
    cases h
    rw [List.length_cons, List.length_cons, ih h1]

omit [∀ k, CplxOps (A k) (P k)] in
theorem collect_pre {R : ActFunc → B → Prop} {ls : List (Layer B)} {x : IOType B}
    {ys : List (IOType B)} (h : Net.collectLoop ls x = some ys) (hR : PreChain R ls x) :
    ∀ p ∈ (x :: ys).reverse.tail.zip ls.reverse, p.2.Pre R p.1 := by
  have key : ∀ p ∈ (x :: ys).dropLast.zip ls, p.2.Pre R p.1 := by
    induction ls generalizing x ys with
    | nil => simp
    | cons d ls ih =>
      obtain ⟨y, h0, h⟩ := Option.bind_eq_some_iff.mp h
      obtain ⟨ys', h1, h⟩ := Option.bind_eq_some_iff.mp h
      cases h
      rw [List.dropLast_cons₂, List.zip_cons_cons]
      intro p hp
      rcases List.mem_cons.mp hp with rfl | hp
      · exact hR.1
      · exact ih h1 (hR.2 y h0) p hp
  have e : (x :: ys).reverse.tail = (x :: ys).dropLast.reverse := by
    rw [List.tail_reverse]
  intro p hp
  refine key p ?_
  have hl : (x :: ys).dropLast.length = ls.length := by
    rw [List.length_dropLast, List.length_cons, collect_len h, Nat.add_sub_cancel]
  rw [e, List.zip, ← List.reverse_zipWith hl] at hp
  exact List.mem_reverse.mp hp

theorem collectLoop_rel (hS : CplxRel l S) (he : Ev l S) {L : ∀ k, List (Layer (A k))} {ls : List (Layer B)}
    (hL : RL l (RLayer l S) L ls) {x : ∀ k, IOType (A k)} {v : IOType B} (hx : RIO l S x v)
    (hφ : PreChain (ActRel l S) ls v) :
    RO l (RL l (RIO l S)) (fun k => Net.collectLoop (L k) (x k)) (Net.collectLoop ls v) := by
  refine hL.elim (F := fun k L => Net.collectLoop L (x k)) fun as h => ?_
  clear hL
  induction h generalizing x v with
  | nil => exact RO.pure RL.nil
  | cons h _ ih =>
    simp only [List.map_cons, Net.collectLoop]
    refine (layer_fwd hS he h hx hφ.1).bind fun _ _ hy h1 => ?_
    exact (ih h1 (hφ.2 _ hy)).bind fun _ _ _ h2 => RO.pure (RL.cons h1 h2)

theorem net_forward (hS : CplxRel l S) (he : Ev l S) {n : ∀ k, Net (A k)} {n' : Net B}
    (hn : RNet l S n n') {x : ∀ k, IOType (A k)} {v : IOType B} (hx : RIO l S x v)
    (hφ : PreChain (ActRel l S) n'.layers v) :
    RO l (RE l (RIO l S)) (fun k => (n k).forward (x k)) (n'.forward v) := by
  obtain ⟨ls⟩ := n'
  refine RO.congr (g := fun k => Net.forward ⟨(n k).layers⟩ (x k)) (.of_forall fun k => rfl) ?_
  refine hn.elim (F := fun k L => Net.forward ⟨L⟩ (x k)) fun as h => ?_
  clear hn
  simp only at h hφ
  cases h with
  | nil => exact RO.pure (RE.error _)
  | @cons a b as bs h h' =>
    simp only [List.map_cons, Net.forward]
    refine (layer_fwd hS he h hx hφ.1).bind fun y y' hy h1 => ?_
    have hlen : (∀ k, (as.map fun a => a k).length = bs.length) := fun k => by
      rw [List.length_map]; exact h'.length_eq
    refine RO.ite (.of_forall fun k => by rw [List.length_cons, List.length_cons, hlen k])
      (fun hgt => ?_) fun _ => RO.pure (RE.ok h1)
    clear hgt
    refine RO.bind ?_ fun _ _ _ h => RO.pure (RE.ok h)
    have hφ' := hφ.2 _ hy
    clear hφ h hx hlen hy
    induction h' generalizing y y' with
    | nil => exact RO.pure h1
    | cons h _ ih =>
      simp only [List.map_cons, List.foldlM_cons]
      exact (layer_fwd hS he h h1 hφ'.1).bind fun _ _ hy h2 => ih _ _ h2 (hφ'.2 _ hy)

theorem collectActs_rel (hS : CplxRel l S) (he : Ev l S) {n : ∀ k, Net (A k)} {n' : Net B}
    (hn : RNet l S n n') {x : ∀ k, IOType (A k)} {v : IOType B} (hx : RIO l S x v)
    (hφ : PreChain (ActRel l S) n'.layers v) :
    RO l (RE l (RL l (RIO l S))) (fun k => (n k).collectActs (x k)) (n'.collectActs v) := by
  unfold Net.collectActs
  refine RO.ite (hn.len.mono fun k e => by rw [e]) (fun _ => RO.pure (RE.error _)) fun _ => ?_
  exact (collectLoop_rel hS he hn hx hφ).bind fun _ _ _ h => RO.pure (RE.ok (RL.cons hx h))

/-- Related accumulators. -/
abbrev RAcc (l : Filter ι) (S : (∀ k, A k) → B → Prop) (f : ∀ k, List (List (A k) × List (A k)))
    (v : List (List B × List B)) : Prop := RL l (RP (RL l S) (RL l S)) f v

theorem backLoop_rel (hS : CplxRel l S) (he : Ev l S) {L : ∀ k, List (IOType (A k) × Layer (A k))}
    {ls : List (IOType B × Layer B)} (hL : RL l (RP (RIO l S) (RLayer l S)) L ls) (j : Nat)
    {f g : ∀ k, List (A k)} {u w : List B} (hf : RL l S f u) (hg : RL l S g w)
    {c : ∀ k, List (List (A k) × List (A k))} {v : List (List B × List B)} (hc : RAcc l S c v)
    (hφ : ∀ p ∈ ls, p.2.Pre (DerRel l S) p.1) :
    RO l (RAcc l S) (fun k => Net.backLoop (L k) j (f k) (g k) (c k)) (Net.backLoop ls j u w v) := by
  refine hL.elim (F := fun k L => Net.backLoop L j (f k) (g k) (c k)) fun as h => ?_
  clear hL
  induction h generalizing j f g u w c v with
  | nil => exact RO.pure hc
  | @cons a b as bs h _ ih =>
    simp only [List.map_cons]
    refine RO.congr (g := fun k => Net.backLoop (((a k).1, (a k).2) :: as.map fun a => a k) j (f k) (g k)
      (c k)) (.of_forall fun k => rfl) ?_
    obtain ⟨b1, b2⟩ := b
    simp only [Net.backLoop]
    have hφ' : ∀ p ∈ bs, p.2.Pre (DerRel l S) p.1 := fun p hp => hφ p (by simp [hp])
    refine RO.ite ((layer_shape h.2).mono fun k e => by rw [e.1]) (fun _ => ?_) fun _ =>
      ih _ hf hg hc hφ'
    refine (layer_derivs hS he h.2 h.1 hf hg (hφ _ (by simp))).bind fun _ _ _ h1 => ?_
    refine (RO.unwrap h1).bind fun _ _ _ h2 => ?_
    refine (hc.getElem? j).bind fun _ _ _ h3 => ?_
    refine (RO.unwrap (addSliceMut_rel hS.toOpsRel h3.1 h2.1)).bind fun _ _ _ h4 => ?_
    refine (RO.unwrap (addSliceMut_rel hS.toOpsRel h3.2 h2.2.1)).bind fun _ _ _ h5 => ?_
    exact ih _ h2.2.2.1 h2.2.2.2 (hc.set j ⟨h4, h5⟩) hφ'

theorem sampleStep_rel (hS : CplxRel l S) (he : Ev l S) {n : ∀ k, Net (A k)} {n' : Net B}
    (hn : RNet l S n n') (f : LossFunc) {c : ∀ k, List (List (A k) × List (A k))}
    {v : List (List B × List B)} (hc : RAcc l S c v) {p : ∀ k, IOType (A k) × IOType (A k)}
    {p' : IOType B × IOType B} (hp : RP (RIO l S) (RIO l S) p p')
    (hφ : PreChain (ActRel l S) n'.layers p'.1) (hψ : PreChain (DerRel l S) n'.layers p'.1) :
    RO l (RAcc l S) (fun k => (n k).sampleStep f (c k) (p k)) (n'.sampleStep f v p') := by
  unfold Net.sampleStep
  refine ((collectActs_rel hS he hn hp.1 hφ).bind fun _ _ _ h => RO.unwrap h).bind fun a b hb h1 => ?_
  refine h1.reverse.head?.bind fun _ _ _ h2 => ?_
  refine (RO.unwrap (hS.dLoss hp.2 h2)).bind fun _ _ _ h3 => ?_
  refine RO.congr (hn.len.mono fun k e => by rw [e]) ?_
  refine backLoop_rel hS he (h1.reverse.tail.zip hn.reverse) _ h3 (conjs_rel hS h3) hc ?_
  obtain ⟨r, h4, h5⟩ := Option.bind_eq_some_iff.mp hb
  unfold Net.collectActs at h4
  split at h4
  · cases h4; cases h5
  · obtain ⟨o, h6, h7⟩ := Option.bind_eq_some_iff.mp h4
    cases h7; cases h5
    exact collect_pre h6 hψ

theorem updateLayer_rel (hS : CplxRel l S) {a : ∀ k, A k} {b : B} (ha : S a b)
    {g : ∀ k, List (A k) × List (A k)} {v : List B × List B} (hg : RP (RL l S) (RL l S) g v)
    {L : ∀ k, Layer (A k)} {d : Layer B} (hL : RLayer l S L d) :
    RO l (RLayer l S) (fun k => Net.updateLayer (a k) (g k) (L k)) (Net.updateLayer b v d) := by
  unfold Net.updateLayer
  refine RO.ite ((layer_shape hL).mono fun k e => by rw [e.1]) (fun _ => ?_) fun _ => RO.pure hL
  refine (layer_update hS hL (mulMutScalar_rel hS.toOpsRel hg.1 ha)
    (mulMutScalar_rel hS.toOpsRel hg.2 ha)).bind fun _ _ _ h1 => ?_
  exact (RO.unwrap h1.1).bind fun _ _ _ _ => RO.pure h1.2

theorem initAcc_rel (hS : OpsRel S) {L : ∀ k, Layer (A k)} {d : Layer B} (hL : RLayer l S L d) :
    RP (RL l S) (RL l S) (fun k => Net.initAcc (L k)) (Net.initAcc d) := by
  have e := layer_shape hL
  have hev : Ev l (RL l S) := fun _ _ _ h hg => RL.congr h hg
  unfold Net.initAcc
  refine Ev.ite (Ev.prod hev hev) (e.mono fun k e => by rw [e.1]) (fun _ => ⟨?_, ?_⟩)
    fun _ => ⟨RL.nil, RL.nil⟩
  · exact RL.congr (e.mono fun k e => by simp only [e.2]) (RL.replicate hS.zero _)
  · exact RL.congr (e.mono fun k e => by simp only [e.2]) (RL.replicate hS.zero _)

/-- One training call in related arithmetics. -/
theorem gradientOpt_rel (hS : CplxRel l S) (he : Ev l S) {n : ∀ k, Net (A k)} {n' : Net B}
    (hn : RNet l S n n') {D : ∀ k, Dataset (A k)} {D' : Dataset B} (hD : RData l S D D') (f : LossFunc)
    {a : ∀ k, A k} {b : B} (ha : S a b)
    (hφ : ∀ p ∈ D'.points, PreChain (ActRel l S) n'.layers p.1)
    (hψ : ∀ p ∈ D'.points, PreChain (DerRel l S) n'.layers p.1) :
    RO l (RP (RE l (RD l)) (RNet l S)) (fun k => (n k).gradientOpt (D k) f (a k))
      (n'.gradientOpt D' f b) := by
  unfold Net.gradientOpt
  refine RO.ite (hn.len.mono fun k e => by rw [e]) (fun _ => RO.pure ⟨RE.error _, hn⟩) fun _ => ?_
  refine ((hD.1.zip hD.2).foldlM (T := RAcc l S) (g := fun k c p => (n k).sampleStep f c p)
    (a := fun k => (n k).layers.map Net.initAcc) (hn.map (g := fun _ d => Net.initAcc d)
    fun _ _ _ h => initAcc_rel hS.toOpsRel h) fun _ _ _ p hp h1 h2 =>
      sampleStep_rel hS he hn f h1 h2 (hφ p hp) (hψ p hp)).bind fun _ _ _ h1 => ?_
  refine RO.congr (hD.1.len.mono fun k e => by rw [e]) ?_
  refine (hS.divNat _ ha).bind fun s _ _ h2 => ?_
  refine ((h1.zip hn).mapM (T := RLayer l S) (g := fun k p => Net.updateLayer (s k) p.1 p.2)
    fun _ _ _ h => updateLayer_rel hS h2 h.1 h.2).bind fun _ _ _ h3 => RO.pure ?_
  exact ⟨RE.ok (a := fun _ => ()) (.of_forall fun _ => rfl), h3⟩

/-- The loss over a data set in related arithmetics. -/
theorem loss_rel [∀ k, RealOps (P k)] [RealOps Q] {σ : (∀ k, P k) → Q → Prop}
    {G : LossFunc → IOType B → IOType B → Prop} (hS : CplxRel l S)
    (he : Ev l S) (hσ : LossRel l S σ G) {n : ∀ k, Net (A k)} {n' : Net B} (hn : RNet l S n n')
    {D : ∀ k, Dataset (A k)} {D' : Dataset B} (hD : RData l S D D') (f : LossFunc)
    (hφ : ∀ p ∈ D'.points, PreChain (ActRel l S) n'.layers p.1)
    (hG : ∀ p ∈ D'.points, ∀ y, n'.forward p.1 = some (.ok y) → G f p.2 y) :
    RO l σ (fun k => (n k).loss (D k) f) (n'.loss D' f) := by
  unfold Net.loss
  refine ((hD.1.zip hD.2).mapM (T := σ) fun _ p hp h => ?_).bind fun _ bs hbs h1 => ?_
  · refine ((net_forward hS he hn h.1 (hφ p hp)).bind fun _ _ _ h => RO.unwrap h).bind
      fun _ y hy h2 => ?_
    refine RO.unwrap (hσ.loss h.2 h2 (hG p hp y ?_))
    obtain ⟨r, h3, h4⟩ := Option.bind_eq_some_iff.mp hy
    rw [h3]
    cases r with
    | ok v => cases h4; rfl
    | error e => cases h4
  · refine (h1.reduce fun _ _ _ _ h h' => hσ.add h h').bind fun _ _ hr h2 => ?_
    refine RO.congr (h1.len.mono fun k e => by rw [e]) ?_
    refine hσ.divNat _ (fun h0 => ?_) h2
    rw [List.eq_nil_of_length_eq_zero h0] at hr
    cases hr

end Relate
end Renplex
