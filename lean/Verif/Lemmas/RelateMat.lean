import Verif.Lemmas.Relate
/-!
# Matrix operations preserve every relation that the arithmetic preserves
-/

namespace Renplex
namespace Relate

open Filter

variable {ι : Type} {l : Filter ι}
variable {A A' : ι → Type} {B B' : Type}
variable {S : (∀ k, A k) → B → Prop} {T : (∀ k, A' k) → B' → Prop}

/-- A relation that only depends on what happens eventually. -/
def Ev (l : Filter ι) (S : (∀ k, A k) → B → Prop) : Prop :=
  ∀ f g b, (∀ᶠ k in l, f k = g k) → S g b → S f b

theorem Ev.ite (hS : Ev l S) {p : ι → Prop} {q : Prop} [∀ k, Decidable (p k)] [Decidable q]
    {f g : ∀ k, A k} {o o' : B} (h : ∀ᶠ k in l, (p k ↔ q)) (h1 : q → S f o) (h2 : ¬ q → S g o') :
    S (fun k => if p k then f k else g k) (if q then o else o') := by
  by_cases hq : q
  · rw [if_pos hq]
    exact hS _ _ _ (h.mono fun k e => if_pos (e.mpr hq)) (h1 hq)
  · rw [if_neg hq]
    exact hS _ _ _ (h.mono fun k e => if_neg (fun x => hq (e.mp x))) (h2 hq)

theorem Ev.prod (hS : Ev l S) (hT : Ev l T) : Ev l (RP S T) := fun f g b h hg =>
  ⟨hS _ _ _ (h.mono fun k e => by rw [e]) hg.1, hT _ _ _ (h.mono fun k e => by rw [e]) hg.2⟩

theorem Ev.result {ε : Type} : Ev l (RE (ε := ε) l S) := fun _ _ _ h hg => RE.congr h hg

theorem Ev.layer : Ev l (RLayer l S) := by
  intro f g b h hg
  cases b with
  | dense d =>
    obtain ⟨m, b, h1, h2, h3⟩ := hg
    exact ⟨m, b, h1, h2, by filter_upwards [h, h3] with k h h3 using h.trans h3⟩
  | conv d =>
    obtain ⟨m, b, h1, h2, h3⟩ := hg
    exact ⟨m, b, h1, h2, by filter_upwards [h, h3] with k h h3 using h.trans h3⟩
  | reduce d =>
    obtain ⟨m, b, h1, h2, h3⟩ := hg
    exact ⟨m, b, h1, h2, by filter_upwards [h, h3] with k h h3 using h.trans h3⟩
  | flatten d => exact by filter_upwards [h, hg] with k h h3 using h.trans h3

theorem Ev.denseLayer : Ev l fun (f : ∀ k, Dense (A k)) (d : Dense B) =>
    RLayer l S (fun k => .dense (f k)) (.dense d) := fun _ _ _ h hg =>
  Ev.layer _ _ _ (h.mono fun k e => congrArg Layer.dense e) hg

theorem Ev.convLayer : Ev l fun (f : ∀ k, Conv (A k)) (d : Conv B) =>
    RLayer l S (fun k => .conv (f k)) (.conv d) := fun _ _ _ h hg =>
  Ev.layer _ _ _ (h.mono fun k e => congrArg Layer.conv e) hg

/-! ## Matrices without arithmetic -/

theorem RM.mk {f : ∀ k, List (A k)} {v : List B} (h : RL l S f v) (sh cap : Nat × Nat) :
    RM l S (fun k => ⟨f k, sh, cap⟩) ⟨v, sh, cap⟩ := ⟨f, h, .of_forall fun _ => rfl⟩

theorem RM.fromBody {f : ∀ k, List (A k)} {v : List B} (h : RL l S f v) (sh : Nat × Nat) :
    RM l S (fun k => Mat.fromBody (f k) sh) (Mat.fromBody v sh) := RM.mk h sh sh

theorem RM.body {m : ∀ k, Mat (A k)} {m' : Mat B} (h : RM l S m m') :
    RL l S (fun k => (m k).body) m'.body := by
  obtain ⟨f, h1, h2⟩ := h
  exact RL.congr (h2.mono fun k e => by rw [e]) h1

theorem RM.getBody {m : ∀ k, Mat (A k)} {m' : Mat B} (h : RM l S m m') :
    RL l S (fun k => (m k).getBody) m'.getBody := h.body

theorem RM.shape {m : ∀ k, Mat (A k)} {m' : Mat B} (h : RM l S m m') :
    ∀ᶠ k in l, (m k).shape = m'.shape := by
  obtain ⟨f, h1, h2⟩ := h
  exact h2.mono fun k e => by rw [e]

theorem RM.congr {m n : ∀ k, Mat (A k)} {m' : Mat B} (h : ∀ᶠ k in l, m k = n k) (hn : RM l S n m') :
    RM l S m m' := by
  obtain ⟨f, h1, h2⟩ := hn
  exact ⟨f, h1, by filter_upwards [h, h2] with k h h2 using h.trans h2⟩

theorem RM.withBody {m : ∀ k, Mat (A k)} {m' : Mat B} (h : RM l S m m') {f : ∀ k, List (A' k)}
    {v : List B'} (hf : RL l T f v) :
    RM l T (fun k => ⟨f k, (m k).shape, (m k).capacity⟩) ⟨v, m'.shape, m'.capacity⟩ := by
  obtain ⟨g, h1, h2⟩ := h
  exact ⟨f, hf, h2.mono fun k e => by simp only [e]⟩

/-- To treat a matrix it is enough to treat it with the shape and capacity of its partner. -/
theorem RM.elim {m : ∀ k, Mat (A k)} {m' : Mat B} (h : RM l S m m') {F : ∀ k, Mat (A k) → Run (A' k)}
    {o : Run B'} (hF : ∀ f : ∀ k, List (A k), RL l S f m'.body →
      RO l T (fun k => F k ⟨f k, m'.shape, m'.capacity⟩) o) : RO l T (fun k => F k (m k)) o := by
  obtain ⟨f, h1, h2⟩ := h
  exact (hF f h1).congr (h2.mono fun k e => by simp only [e])

theorem RM.elimE {ε : Type} {m : ∀ k, Mat (A k)} {m' : Mat B} (h : RM l S m m')
    {F : ∀ k, Mat (A k) → Except ε (A' k)}
    {o : Except ε B'} (hF : ∀ f : ∀ k, List (A k), RL l S f m'.body →
      RE l T (fun k => F k ⟨f k, m'.shape, m'.capacity⟩) o) : RE l T (fun k => F k (m k)) o := by
  obtain ⟨f, h1, h2⟩ := h
  exact (hF f h1).congr (h2.mono fun k e => by simp only [e])

theorem RM.rowsAsIter {m : ∀ k, Mat (A k)} {m' : Mat B} (h : RM l S m m') :
    RO l (RL l (RL l S)) (fun k => (m k).rowsAsIter) m'.rowsAsIter :=
  h.elim (F := fun _ m => m.rowsAsIter) fun _ hf => hf.chunks _

theorem RM.getSlider {m : ∀ k, Mat (A k)} {m' : Mat B} (h : RM l S m m') (i r : Nat) :
    RO l (RL l (RL l S)) (fun k => (m k).getSlider i r) (m'.getSlider i r) :=
  h.elim (F := fun _ m => m.getSlider i r) fun _ hf =>
    (hf.slice _ _).bind fun _ _ _ hs => hs.chunks _

theorem RM.elm {m : ∀ k, Mat (A k)} {m' : Mat B} (h : RM l S m m') (i j : Nat) :
    RO l (RE l S) (fun k => (m k).elm i j) (m'.elm i j) :=
  h.elim (F := fun _ m => m.elm i j) fun _ hf => by
    unfold Mat.elm
    exact RO.ite (.of_forall fun _ => Iff.rfl) (fun _ => RO.pure (RE.error _)) fun _ =>
      (hf.getElem? _).bind fun _ _ _ ha => RO.pure (RE.ok ha)

theorem RM.flip {m : ∀ k, Mat (A k)} {m' : Mat B} (h : RM l S m m') :
    RO l (RE l (RM l S)) (fun k => (m k).flip) m'.flip :=
  h.elim (F := fun _ m => m.flip) fun f hf => by
    unfold Mat.flip
    refine (RL.mapMDisc (S := RL l S) _ fun i _ => RL.mapMDisc (S := S) _ fun j _ => ?_).bind
      fun a b _ hab => RO.pure (RE.ok (RM.fromBody hab.flatten _))
    exact ((RM.mk hf _ _).elm i j).bind fun _ _ _ h => RO.unwrap h

theorem toMatrix_rel {f : ∀ k, List (A k)} {v : List B} (h : RL l S f v) (sh : Nat × Nat) :
    RE l (RM l S) (fun k => Mat.toMatrix (f k) sh) (Mat.toMatrix v sh) := by
  unfold Mat.toMatrix
  exact RE.ite (h.len.mono fun k e => by rw [e]) (fun _ => RE.error _) fun _ =>
    RE.ok (RM.fromBody h _)

/-! ## With arithmetic -/

variable [∀ k, BasicOps (A k)] [BasicOps B]

theorem addSliceMut_rel (hS : OpsRel S) {f g : ∀ k, List (A k)} {v w : List B} (hf : RL l S f v)
    (hg : RL l S g w) :
    RE l (RL l S) (fun k => addSliceMut (f k) (g k)) (addSliceMut v w) := by
  unfold addSliceMut
  refine RE.ite (by filter_upwards [hf.len, hg.len] with k e e'; rw [e, e']) (fun _ => RE.error _)
    fun _ => RE.ok (hf.zipUpd hg fun _ _ _ _ h h' => hS.addAssign h h')

theorem addSlice_rel (hS : OpsRel S) {f g : ∀ k, List (A k)} {v w : List B} (hf : RL l S f v)
    (hg : RL l S g w) :
    RE l (RL l S) (fun k => addSlice (f k) (g k)) (addSlice v w) := by
  unfold addSlice
  refine RE.ite (hf.len.mono fun k e => by rw [e]) (fun _ => RE.ok hg) fun _ => ?_
  refine RE.ite (by filter_upwards [hf.len, hg.len] with k e e'; rw [e, e']) (fun _ => RE.error _)
    fun _ => RE.ok ?_
  simp only [← List.map_uncurry_zip_eq_zipWith]
  exact (hf.zip hg).map (g := fun _ p => Function.uncurry BasicOps.add p) fun a b _ h =>
    hS.add h.1 h.2

theorem mulMutScalar_rel (hS : OpsRel S) {f : ∀ k, List (A k)} {v : List B} (hf : RL l S f v)
    {a : ∀ k, A k} {b : B} (ha : S a b) :
    RL l S (fun k => mulMutScalar (f k) (a k)) (mulMutScalar v b) :=
  hf.map (g := fun k x => BasicOps.mulAssign x (a k)) fun _ _ _ h => hS.mulAssign h ha

theorem scalarProd_rel (hS : OpsRel S) (he : Ev l S) {f g : ∀ k, List (A k)} {v w : List B}
    (hf : RL l S f v) (hg : RL l S g w) :
    S (fun k => scalarProd (f k) (g k)) (scalarProd v w) :=
  (hf.zip hg).foldl (T := S) (g := fun k acc p => BasicOps.add acc (BasicOps.mul p.1 p.2)) hS.zero
    (fun _ _ _ _ h h' => hS.add h (hS.mul h'.1 h'.2)) he

theorem padLoop_rel (hS : OpsRel S) (sh p : Nat × Nat) (n r : Nat) {f : ∀ k, List (A k)} {v : List B}
    (hf : RL l S f v) :
    RO l (RL l S) (fun k => Mat.padLoop sh p n r (f k)) (Mat.padLoop sh p n r v) := by
  induction n generalizing r f v with
  | zero => exact RO.pure RL.nil
  | succ n ih =>
    simp only [Mat.padLoop]
    refine RO.ite (.of_forall fun _ => Iff.rfl) (fun _ => ?_) fun _ =>
      RO.ite (.of_forall fun _ => Iff.rfl) (fun _ => ?_) fun _ => ?_
    · exact (ih _ hf).bind fun _ _ _ h => RO.pure ((RL.replicate hS.zero _).append h)
    · exact (ih _ hf).bind fun _ _ _ h => RO.pure ((RL.replicate hS.zero _).append h)
    · refine (hf.drainFront _).bind fun a b _ h => ?_
      exact (ih _ h.2).bind fun _ _ _ h' => RO.pure
        ((((RL.replicate hS.zero _).append h.1).append (RL.replicate hS.zero _)).append h')

theorem RM.pad (hS : OpsRel S) {m : ∀ k, Mat (A k)} {m' : Mat B} (h : RM l S m m') (p : Nat × Nat) :
    RO l (RM l S) (fun k => (m k).pad p) (m'.pad p) :=
  h.elim (F := fun _ m => m.pad p) fun _ hf =>
    (padLoop_rel hS _ _ _ _ hf).bind fun _ _ _ h => RO.pure (RM.fromBody h _)

theorem RM.addMut (hS : OpsRel S) {m n : ∀ k, Mat (A k)} {m' n' : Mat B} (hm : RM l S m m')
    (hn : RM l S n n') : RE l (RM l S) (fun k => (m k).addMut (n k)) (m'.addMut n') := by
  refine hm.elimE (F := fun k m => m.addMut (n k)) fun f hf => ?_
  refine hn.elimE (F := fun k n => Mat.addMut ⟨f k, m'.shape, m'.capacity⟩ n) fun g hg => ?_
  unfold Mat.addMut Mat.isEmpty
  refine RE.ite (by filter_upwards [hf.len, hg.len] with k e e'; simp only [e, e'])
    (fun _ => RE.error _) fun _ => ?_
  refine RE.ite (by filter_upwards [hf.len] with k e; simp only [e])
    (fun _ => RE.ok (RM.mk hg _ _)) fun _ => ?_
  refine RE.ite (by filter_upwards [hg.len] with k e; simp only [e])
    (fun _ => RE.ok (RM.mk hf _ _)) fun _ => ?_
  exact RE.ok (RM.mk (hf.zipUpd hg fun _ _ _ _ h h' => hS.addAssign h h') _ _)

theorem RM.addMutScalar (hS : OpsRel S) {m : ∀ k, Mat (A k)} {m' : Mat B} (hm : RM l S m m')
    {a : ∀ k, A k} {b : B} (ha : S a b) :
    RM l S (fun k => (m k).addMutScalar (a k)) (m'.addMutScalar b) :=
  hm.withBody (hm.body.map (g := fun k x => BasicOps.addAssign x (a k)) fun _ _ _ h => hS.addAssign h ha)

theorem RM.mulSlice (hS : OpsRel S) (he : Ev l S) {m : ∀ k, Mat (A k)} {m' : Mat B} (hm : RM l S m m')
    {f : ∀ k, List (A k)} {v : List B} (hf : RL l S f v) :
    RO l (RE l (RL l S)) (fun k => (m k).mulSlice (f k)) (m'.mulSlice v) := by
  refine hm.elim (F := fun k m => m.mulSlice (f k)) fun g hg => ?_
  unfold Mat.mulSlice
  refine RO.ite (hf.len.mono fun k e => by simp only [e]) (fun _ => RO.pure (RE.error _)) fun _ => ?_
  refine (RM.mk hg _ _).rowsAsIter.bind fun a b _ h => RO.pure (RE.ok ?_)
  refine h.map (g := fun k r => (r.zip (f k)).foldl
    (fun acc p => BasicOps.add acc (BasicOps.mul p.1 p.2)) BasicOps.zero) fun a b _ h => ?_
  exact scalarProd_rel hS he h hf

theorem RM.convRow (hS : OpsRel S) (he : Ev l S) {m n : ∀ k, Mat (A k)} {m' n' : Mat B}
    (hm : RM l S m m') (hn : RM l S n n') (c i : Nat) :
    RO l (RL l S) (fun k => (m k).convRow (n k) c i) (m'.convRow n' c i) := by
  refine hn.elim (F := fun k n => (m k).convRow n c i) fun g hg => ?_
  unfold Mat.convRow
  refine (hm.getSlider _ _).bind fun a b _ h1 => ?_
  refine (RM.mk hg _ _).rowsAsIter.bind fun a' b' _ h2 => ?_
  refine (h1.zip h2).foldlM (T := RL l S) (RL.replicate hS.zero _) fun _ _ c d _ h3 h4 => ?_
  refine (h4.1.windows _).bind fun _ _ _ h5 => RO.unwrap (addSliceMut_rel hS h3 ?_)
  exact h5.map (g := fun k s => scalarProd s (c k).2) fun _ _ _ h => scalarProd_rel hS he h h4.2

theorem RM.convolution (hS : OpsRel S) (he : Ev l S) {m n : ∀ k, Mat (A k)} {m' n' : Mat B}
    (hm : RM l S m m') (hn : RM l S n n') :
    RO l (RE l (RM l S)) (fun k => (m k).convolution (n k)) (m'.convolution n') := by
  refine hm.elim (F := fun k m => m.convolution (n k)) fun f hf => ?_
  refine hn.elim (F := fun k n => Mat.convolution ⟨f k, m'.shape, m'.capacity⟩ n) fun g hg => ?_
  unfold Mat.convolution
  refine RO.ite (.of_forall fun _ => Iff.rfl) (fun _ => RO.pure (RE.error _)) fun _ => ?_
  refine RO.discBind fun k0 _ => RO.discBind fun f0 _ => RO.discBind fun k1 _ => RO.discBind fun f1 _ => ?_
  refine (RL.mapMDisc (S := RL l S) _ fun i _ =>
    (RM.mk hf _ _).convRow hS he (RM.mk hg n'.shape n'.capacity) f1 i).bind fun a b _ h => ?_
  exact (RO.unwrap (toMatrix_rel h.flatten _)).bind fun _ _ _ h => RO.pure (RE.ok h)

theorem RM.conv (hS : OpsRel S) (he : Ev l S) {m n : ∀ k, Mat (A k)} {m' n' : Mat B}
    (hm : RM l S m m') (hn : RM l S n n') :
    RO l (RM l S) (fun k => (m k).convolution (n k) >>= unwrap) (m'.convolution n' >>= unwrap) :=
  (hm.convolution hS he hn).bind fun _ _ _ h => RO.unwrap h

/-- Related functions of a block. -/
def RBlock (l : Filter ι) (S : (∀ k, A k) → B → Prop) (F : ∀ k, List (A k) → Run (A k))
    (F' : List B → Run B) : Prop := ∀ f v, RL l S f v → RO l S (fun k => F k (f k)) (F' v)

omit [∀ k, BasicOps (A k)] [BasicOps B] in
theorem blockCols_rel {F : ∀ k, List (A k) → Run (A k)} {F' : List B → Run B} (hF : RBlock l S F F')
    (n : Nat) {f : ∀ k, List (List (List (A k)))} {v : List (List (List B))}
    (h : RL l (RL l (RL l S)) f v) :
    RO l (RL l S) (fun k => Mat.blockCols (F k) n (f k)) (Mat.blockCols F' n v) := by
  induction n generalizing f v with
  | zero => exact RO.pure RL.nil
  | succ n ih =>
    simp only [Mat.blockCols]
    refine (h.mapM (g := fun _ x => x.head?) fun _ _ _ h => h.head?).bind fun _ _ _ h1 => ?_
    refine (hF _ _ h1.flatten).bind fun _ _ _ h2 => ?_
    exact (ih (h.map (g := fun _ x => x.tail) fun _ _ _ h => h.tail)).bind fun _ _ _ h3 =>
      RO.pure (RL.cons h2 h3)

omit [∀ k, BasicOps (A k)] [BasicOps B] in
theorem blockRows_rel {F : ∀ k, List (A k) → Run (A k)} {F' : List B → Run B} (hF : RBlock l S F F')
    (block : Nat × Nat) (nc n : Nat) {f : ∀ k, List (List (A k))} {v : List (List B)}
    (h : RL l (RL l S) f v) :
    RO l (RL l S) (fun k => Mat.blockRows (F k) block nc n (f k)) (Mat.blockRows F' block nc n v) := by
  induction n generalizing f v with
  | zero => exact RO.pure RL.nil
  | succ n ih =>
    simp only [Mat.blockRows]
    refine (h.drainFront _).bind fun _ _ _ h1 => ?_
    refine (h1.1.mapM (g := fun _ x => chunks block.2 x) fun _ _ _ h => h.chunks _).bind
      fun _ _ _ h2 => ?_
    refine (blockCols_rel hF nc h2).bind fun _ _ _ h3 => ?_
    exact (ih h1.2).bind fun _ _ _ h4 => RO.pure (h3.append h4)

omit [∀ k, BasicOps (A k)] [BasicOps B] in
theorem RM.blockReduce {m : ∀ k, Mat (A k)} {m' : Mat B} (hm : RM l S m m') (block : Nat × Nat)
    {F : ∀ k, List (A k) → Run (A k)} {F' : List B → Run B} (hF : RBlock l S F F') :
    RO l (RE l (RM l S)) (fun k => (m k).blockReduce block (F k)) (m'.blockReduce block F') := by
  refine hm.elim (F := fun k m => m.blockReduce block (F k)) fun f hf => ?_
  unfold Mat.blockReduce
  refine RO.ite (.of_forall fun _ => Iff.rfl) (fun _ => RO.none) fun _ => ?_
  refine RO.ite (.of_forall fun _ => Iff.rfl) (fun _ => RO.pure (RE.error _)) fun _ => ?_
  refine RO.ite (.of_forall fun _ => Iff.rfl) (fun _ => RO.none) fun _ => ?_
  refine RO.ite (.of_forall fun _ => Iff.rfl) (fun _ => RO.pure (RE.error _)) fun _ => ?_
  refine RO.ite (.of_forall fun _ => Iff.rfl) (fun _ => RO.pure (RE.error _)) fun _ => ?_
  refine (RM.mk hf _ _).rowsAsIter.bind fun _ _ _ h1 => ?_
  exact (blockRows_rel hF _ _ _ h1).bind fun _ _ _ h2 => RO.pure (RE.ok (RM.fromBody h2 _))

theorem stuffLoop_rel (hS : OpsRel S) (c u b lf r n : Nat) {f : ∀ k, List (List (A k))}
    {v : List (List B)} (h : RL l (RL l S) f v) :
    RO l (RL l S) (fun k => Mat.stuffLoop c u b lf r n (f k)) (Mat.stuffLoop c u b lf r n v) := by
  induction n generalizing f v with
  | zero => exact RO.pure RL.nil
  | succ n ih =>
    simp only [Mat.stuffLoop]
    refine h.head?.bind fun x y _ h1 => ?_
    refine (ih h.tail).bind fun _ _ _ h2 => RO.pure ?_
    have hz : ∀ n, RL l S (fun k => List.replicate n (BasicOps.zero : A k))
        (List.replicate n (BasicOps.zero : B)) := fun n => RL.replicate hS.zero n
    have hzz : ∀ n m, RL l S (fun k => (List.replicate n (List.replicate m (BasicOps.zero : A k))).flatten)
        (List.replicate n (List.replicate m (BasicOps.zero : B))).flatten := fun n m =>
      RL.flatten (RL.replicate (S := RL l S) (hz m) n)
    refine (((hzz _ _).append ?_).append (hzz _ _)).append h2
    exact h1.flatMap (g := fun k e => List.replicate lf BasicOps.zero ++ [e]
      ++ List.replicate r BasicOps.zero) fun _ _ _ h => ((hz _).append (RL.single h)).append (hz _)

theorem RM.fractionalUpsampling (hS : OpsRel S) (he : Ev l S) {m n : ∀ k, Mat (A k)} {m' n' : Mat B}
    (hm : RM l S m m') (hn : RM l S n n') (block : Nat × Nat) :
    RO l (RE l (RM l S)) (fun k => (m k).fractionalUpsampling block (n k))
      (m'.fractionalUpsampling block n') := by
  refine hm.elim (F := fun k m => m.fractionalUpsampling block (n k)) fun f hf => ?_
  refine hn.elim (F := fun k n => Mat.fractionalUpsampling ⟨f k, m'.shape, m'.capacity⟩ block n)
    fun g hg => ?_
  unfold Mat.fractionalUpsampling
  refine (RM.mk hf _ _).rowsAsIter.bind fun _ _ _ h1 => ?_
  refine RO.discBind fun u _ => RO.discBind fun b _ => RO.discBind fun lf _ => RO.discBind fun r _ => ?_
  refine (stuffLoop_rel hS _ _ _ _ _ _ h1).bind fun a c _ h2 => ?_
  refine RO.ite (h2.len.mono fun k e => by simp only [e]) (fun _ => RO.none) fun _ => ?_
  refine RO.ite (.of_forall fun _ => Iff.rfl) (fun _ => RO.pure (RE.error _)) fun _ => ?_
  refine RO.discBind fun p _ => ?_
  refine ((RM.fromBody h2 _).pad hS _).bind fun _ _ _ h3 => ?_
  refine (h3.convolution hS he (RM.mk hg _ _)).bind fun _ _ _ h4 => ?_
  exact (RO.unwrap h4).bind fun _ _ _ h5 => RO.pure (RE.ok h5)

end Relate
end Renplex
