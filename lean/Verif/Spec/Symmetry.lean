import Verif.Spec.Relate
import Verif.Spec.Training
import Verif.Spec.Network
/-!
# Two arithmetics whose operations agree up to a relation, conjugation, real values
-/

namespace Renplex

section respects
variable {α β P Q : Type} [CplxOps α P] [CplxOps β Q]

/-- Whenever the second run returns, the first returns something related. -/
def Follows {X Y : Type} (S : X → Y → Prop) (o : Run X) (o' : Run Y) : Prop :=
  ∀ y, o' = some y → ∃ x, o = some x ∧ S x y

/-- Results related, or the same error. -/
def Except.Agrees {ε X Y : Type} (S : X → Y → Prop) : Except ε X → Except ε Y → Prop
  | .ok x, .ok y => S x y
  | .error e, .error e' => e = e'
  | _, _ => False

/-- The operations of the two number types preserve the relation. -/
structure Respects (S : α → β → Prop) : Prop where
  zero : S BasicOps.zero BasicOps.zero
  add {a b a' b'} : S a b → S a' b' → S (BasicOps.add a a') (BasicOps.add b b')
  mul {a b a' b'} : S a b → S a' b' → S (BasicOps.mul a a') (BasicOps.mul b b')
  addAssign {a b a' b'} : S a b → S a' b' → S (BasicOps.addAssign a a') (BasicOps.addAssign b b')
  subAssign {a b a' b'} : S a b → S a' b' → S (BasicOps.subAssign a a') (BasicOps.subAssign b b')
  mulAssign {a b a' b'} : S a b → S a' b' → S (BasicOps.mulAssign a a') (BasicOps.mulAssign b b')
  conj {a b} : S a b → S (CplxOps.conj a) (CplxOps.conj b)
  divNat {a b} (n : Nat) : S a b →
    Follows S (BasicOps.div a (CplxOps.ofUsize n)) (BasicOps.div b (CplxOps.ofUsize n))
  dLoss {f t t' p p'} : IOType.Rel S t t' → IOType.Rel S p p' →
    Except.Agrees (List.Forall₂ S) (CplxOps.dLoss f t p) (CplxOps.dLoss f t' p')

/-- The losses preserve the relation, with relation `T` of their values, and so do the operations on
these. -/
structure RespectsLoss [RealOps P] [RealOps Q] (S : α → β → Prop) (T : P → Q → Prop) : Prop where
  loss {f t t' p p'} : IOType.Rel S t t' → IOType.Rel S p p' →
    Except.Agrees T (CplxOps.loss f t p) (CplxOps.loss f t' p')
  add {a b a' b'} : T a b → T a' b' → T (BasicOps.add a a') (BasicOps.add b b')
  divNat {a b} (n : Nat) : T a b →
    Follows T (BasicOps.div a (RealOps.ofUsize n)) (BasicOps.div b (RealOps.ofUsize n))

/-- Training calls with related data sets and rates and the same losses. -/
def StepsRel (S : α → β → Prop) (s : List (TrainStep α)) (s' : List (TrainStep β)) : Prop :=
  List.Forall₂ (fun a b => a.1.Rel S b.1 ∧ a.2.1 = b.2.1 ∧ S a.2.2 b.2.2) s s'

/-- The activation option preserves the relation. -/
def RespectsAct (S : α → β → Prop) (f : ActFunc) : Prop :=
  ∀ a z, S a z → Follows S (CplxOps.activate f a) (CplxOps.activate f z)

/-- Its two derivatives do. -/
def RespectsDer (S : α → β → Prop) (f : ActFunc) : Prop :=
  ∀ a z, S a z → Follows S (CplxOps.dActivate f a) (CplxOps.dActivate f z)
    ∧ Follows S (CplxOps.dConjActivate f a) (CplxOps.dConjActivate f z)

end respects

/-! ## Conjugation -/

section conj
variable {w : Width}

/-- The conjugated value. -/
noncomputable def IOType.conj : IOType (Cf w ℝ) → IOType (Cf w ℝ)
  | .scalar v => .scalar (v.map Cf.conj)
  | .matrix v => .matrix (v.map fun m => { m with body := m.body.map Cf.conj })

/-- The layer with conjugated parameters (and a pooling function that conjugates what it takes and
returns). -/
noncomputable def Layer.conj : Layer (Cf w ℝ) → Layer (Cf w ℝ)
  | .dense d => .dense { d with
      weights := { d.weights with body := d.weights.body.map Cf.conj }
      biases := d.biases.map Cf.conj }
  | .conv d => .conv { d with
      kernels := { d.kernels with body := d.kernels.body.map fun m => { m with body := m.body.map Cf.conj } }
      biases := d.biases.map Cf.conj }
  | .reduce d => .reduce { d with
      blockFunc := fun v => (d.blockFunc (v.map Cf.conj)).map Cf.conj
      interpKernel := { d.interpKernel with body := d.interpKernel.body.map Cf.conj } }
  | .flatten d => .flatten d

/-- The network with conjugated parameters. -/
noncomputable def Net.conj (n : Net (Cf w ℝ)) : Net (Cf w ℝ) := ⟨n.layers.map Layer.conj⟩

/-- The data set with conjugated entries. -/
noncomputable def Dataset.conj (d : Dataset (Cf w ℝ)) : Dataset (Cf w ℝ) :=
  ⟨d.inputs.map IOType.conj, d.target.map IOType.conj⟩

/-- One number is the conjugate of the other. -/
def Conj (a b : Cf w ℝ) : Prop := a = b.conj

/-- The activation options that commute with conjugation. -/
def ActFunc.Even (f : ActFunc) : Prop := f = .none ∨ f = .modZ ∨ f = .ritTanh ∨ f = .cardioid

end conj

/-! ## Real values -/

section real
variable {w : Width}

/-- All entries are real. -/
def Mat.IsReal (m : Mat (Cf w ℝ)) : Prop := ∀ z ∈ m.body, z.y = 0

/-- All entries are real. -/
def IOType.IsReal : IOType (Cf w ℝ) → Prop
  | .scalar v => ∀ z ∈ v, z.y = 0
  | .matrix v => ∀ m ∈ v, m.IsReal

/-- All parameters are real, and the pooling function returns real values for real ones. -/
def Layer.IsReal : Layer (Cf w ℝ) → Prop
  | .dense d => d.weights.IsReal ∧ ∀ z ∈ d.biases, z.y = 0
  | .conv d => (∀ m ∈ d.kernels.body, m.IsReal) ∧ ∀ z ∈ d.biases, z.y = 0
  | .reduce d => d.interpKernel.IsReal
      ∧ ∀ v, (∀ z ∈ v, z.y = 0) → ∀ y, d.blockFunc v = some y → y.y = 0
  | .flatten _ => True

/-- All layers are real. -/
def Net.IsReal (n : Net (Cf w ℝ)) : Prop := ∀ d ∈ n.layers, d.IsReal

/-- All entries are real. -/
def Dataset.IsReal (d : Dataset (Cf w ℝ)) : Prop := (∀ x ∈ d.inputs, x.IsReal) ∧ ∀ x ∈ d.target, x.IsReal

end real
end Renplex
