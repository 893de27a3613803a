import Verif.Model.Network
import Mathlib.Order.Filter.Basic
import Mathlib.Data.List.Forall2
/-!
# Relating runs of the same code in different arithmetics

`α k` is a family of number types, one for each index `k` of a filter `l`, and `β` one more. A
relation `ρ` between families of numbers and numbers of `β` is extended to options (panics), results,
lists, matrices, layers and networks. With the filter of one point this compares two arithmetics; with
`k` a floating-point format and the filter of increasing precision it expresses convergence.
-/

namespace Renplex
namespace Relate

open Filter

variable {ι : Type} (l : Filter ι)
variable {A : ι → Type} {B : Type}

/-- A run that returns `b` is followed by runs that eventually return values related to `b`. -/
def RO (S : (∀ k, A k) → B → Prop) (f : ∀ k, Run (A k)) (o : Run B) : Prop :=
  ∀ b, o = some b → ∃ a, S a b ∧ ∀ᶠ k in l, f k = some (a k)

/-- The same values of `Result`, errors being equal. -/
def RE {ε : Type} (S : (∀ k, A k) → B → Prop) (f : ∀ k, Except ε (A k)) (o : Except ε B) : Prop :=
  (∀ b, o = .ok b → ∃ a, S a b ∧ ∀ᶠ k in l, f k = .ok (a k))
    ∧ ∀ e, o = .error e → ∀ᶠ k in l, f k = .error e

/-- Lists of the same length with related elements. -/
def RL (S : (∀ k, A k) → B → Prop) (f : ∀ k, List (A k)) (bs : List B) : Prop :=
  ∃ as : List (∀ k, A k), List.Forall₂ S as bs ∧ ∀ᶠ k in l, f k = as.map (· k)

/-- Pairs. -/
def RP {A' : ι → Type} {B' : Type} (S : (∀ k, A k) → B → Prop) (T : (∀ k, A' k) → B' → Prop)
    (f : ∀ k, A k × A' k) (b : B × B') : Prop := S (fun k => (f k).1) b.1 ∧ T (fun k => (f k).2) b.2

/-- Equal values of a type without numbers. -/
def RD {D : Type} (f : ι → D) (d : D) : Prop := ∀ᶠ k in l, f k = d

/-- Matrices of the same shape and capacity. -/
def RM (S : (∀ k, A k) → B → Prop) (m : ∀ k, Mat (A k)) (m' : Mat B) : Prop :=
  ∃ f : ∀ k, List (A k), RL l S f m'.body ∧ ∀ᶠ k in l, m k = ⟨f k, m'.shape, m'.capacity⟩

/-- Inputs and outputs of layers. -/
def RIO (S : (∀ k, A k) → B → Prop) (x : ∀ k, IOType (A k)) : IOType B → Prop
  | .scalar v => ∃ f, RL l S f v ∧ ∀ᶠ k in l, x k = .scalar (f k)
  | .matrix v => ∃ f, RL l (RM l S) f v ∧ ∀ᶠ k in l, x k = .matrix (f k)

/-- Layers of the same kind with related parameters; the function of a pooling layer maps related
blocks to related numbers. -/
def RLayer (S : (∀ k, A k) → B → Prop) (x : ∀ k, Layer (A k)) : Layer B → Prop
  | .dense d => ∃ m b, RM l S m d.weights ∧ RL l S b d.biases
      ∧ ∀ᶠ k in l, x k = .dense ⟨m k, b k, d.func⟩
  | .conv d => ∃ m b, RM l (RM l S) m d.kernels ∧ RL l S b d.biases
      ∧ ∀ᶠ k in l, x k = .conv ⟨d.inputFeaturesLen, m k, b k, d.func⟩
  | .reduce d => ∃ (g : ∀ k, List (A k) → Run (A k)) (m : ∀ k, Mat (A k)), RM l S m d.interpKernel
      ∧ (∀ f v, RL l S f v → RO l S (fun k => g k (f k)) (d.blockFunc v))
      ∧ ∀ᶠ k in l, x k = .reduce ⟨d.inputFeaturesLen, d.blockSize, g k, m k⟩
  | .flatten d => ∀ᶠ k in l, x k = .flatten d

/-- Networks with related layers. -/
def RNet (S : (∀ k, A k) → B → Prop) (n : ∀ k, Net (A k)) (n' : Net B) : Prop :=
  RL l (RLayer l S) (fun k => (n k).layers) n'.layers

/-- Data sets with related points. -/
def RData (S : (∀ k, A k) → B → Prop) (d : ∀ k, Dataset (A k)) (d' : Dataset B) : Prop :=
  RL l (RIO l S) (fun k => (d k).inputs) d'.inputs ∧ RL l (RIO l S) (fun k => (d k).target) d'.target

/-- The operations of two arithmetics preserve the relation. -/
structure OpsRel [∀ k, BasicOps (A k)] [BasicOps B] (ρ : (∀ k, A k) → B → Prop) : Prop where
  zero : ρ (fun _ => BasicOps.zero) BasicOps.zero
  add {a b a' b'} : ρ a b → ρ a' b' → ρ (fun k => BasicOps.add (a k) (a' k)) (BasicOps.add b b')
  mul {a b a' b'} : ρ a b → ρ a' b' → ρ (fun k => BasicOps.mul (a k) (a' k)) (BasicOps.mul b b')
  addAssign {a b a' b'} : ρ a b → ρ a' b' →
    ρ (fun k => BasicOps.addAssign (a k) (a' k)) (BasicOps.addAssign b b')
  subAssign {a b a' b'} : ρ a b → ρ a' b' →
    ρ (fun k => BasicOps.subAssign (a k) (a' k)) (BasicOps.subAssign b b')
  mulAssign {a b a' b'} : ρ a b → ρ a' b' →
    ρ (fun k => BasicOps.mulAssign (a k) (a' k)) (BasicOps.mulAssign b b')

/-- The activation `f` at `z` preserves the relation. -/
def ActRel {P : ι → Type} {Q : Type} [∀ k, CplxOps (A k) (P k)] [CplxOps B Q]
    (ρ : (∀ k, A k) → B → Prop) (f : ActFunc) (z : B) : Prop :=
  ∀ a, ρ a z → RO l ρ (fun k => CplxOps.activate f (a k)) (CplxOps.activate f z)

/-- The two derivatives of the activation `f` at `z` preserve the relation. -/
def DerRel {P : ι → Type} {Q : Type} [∀ k, CplxOps (A k) (P k)] [CplxOps B Q]
    (ρ : (∀ k, A k) → B → Prop) (f : ActFunc) (z : B) : Prop :=
  ∀ a, ρ a z → RO l ρ (fun k => CplxOps.dActivate f (a k)) (CplxOps.dActivate f z)
    ∧ RO l ρ (fun k => CplxOps.dConjActivate f (a k)) (CplxOps.dConjActivate f z)

/-- Conjugation, integers and the derivatives of the losses preserve the relation. -/
structure CplxRel {P : ι → Type} {Q : Type} [∀ k, CplxOps (A k) (P k)] [CplxOps B Q]
    (ρ : (∀ k, A k) → B → Prop) : Prop extends OpsRel ρ where
  conj {a b} : ρ a b → ρ (fun k => CplxOps.conj (a k)) (CplxOps.conj b)
  divNat {a b} (n : Nat) : ρ a b →
    RO l ρ (fun k => BasicOps.div (a k) (CplxOps.ofUsize n)) (BasicOps.div b (CplxOps.ofUsize n))
  dLoss {f t t' p p'} : RIO l ρ t t' → RIO l ρ p p' →
    RE l (RL l ρ) (fun k => CplxOps.dLoss f (t k) (p k)) (CplxOps.dLoss f t' p')

/-- The losses, where `G` holds, and the operations on their values preserve the relation `σ` of real
numbers. -/
structure LossRel {P : ι → Type} {Q : Type} [∀ k, CplxOps (A k) (P k)] [CplxOps B Q]
    [∀ k, RealOps (P k)] [RealOps Q] (ρ : (∀ k, A k) → B → Prop) (σ : (∀ k, P k) → Q → Prop)
    (G : LossFunc → IOType B → IOType B → Prop) : Prop where
  loss {f t t' p p'} : RIO l ρ t t' → RIO l ρ p p' → G f t' p' →
    RE l σ (fun k => CplxOps.loss f (t k) (p k)) (CplxOps.loss f t' p')
  add {a b a' b'} : σ a b → σ a' b' → σ (fun k => BasicOps.add (a k) (a' k)) (BasicOps.add b b')
  divNat {a b} (n : Nat) : n ≠ 0 → σ a b →
    RO l σ (fun k => BasicOps.div (a k) (RealOps.ofUsize n)) (BasicOps.div b (RealOps.ofUsize n))

end Relate

/-- The activation function of the layer and all numbers it is applied to on the input satisfy `R`. -/
def Layer.Pre {B : Type} [BasicOps B] (R : ActFunc → B → Prop) : Layer B → IOType B → Prop
  | .dense d, .scalar x => ∀ q, d.computeQ x = some q → ∀ z ∈ q, R d.func z
  | .conv d, .matrix x => ∀ q, d.computeQ x = some q → ∀ z ∈ q, R d.func z
  | _, _ => True

/-- The same for all layers as the input passes through them. -/
def PreChain {B Q : Type} [CplxOps B Q] (R : ActFunc → B → Prop) : List (Layer B) → IOType B → Prop
  | [], _ => True
  | l :: ls, x => l.Pre R x ∧ ∀ y, Net.fwd l x = some y → PreChain R ls y

/-! ## Two arithmetics -/

section two
variable {α β : Type} (S : α → β → Prop)

/-- Matrices of the same shape and capacity with related entries. -/
def Mat.Rel (m : Mat α) (m' : Mat β) : Prop :=
  List.Forall₂ S m.body m'.body ∧ m.shape = m'.shape ∧ m.capacity = m'.capacity

/-- Inputs and outputs of the same kind with related entries. -/
def IOType.Rel : IOType α → IOType β → Prop
  | .scalar f, .scalar v => List.Forall₂ S f v
  | .matrix f, .matrix v => List.Forall₂ (Mat.Rel S) f v
  | _, _ => False

/-- Data sets with related entries. -/
def Dataset.Rel (d : Dataset α) (d' : Dataset β) : Prop :=
  List.Forall₂ (IOType.Rel S) d.inputs d'.inputs ∧ List.Forall₂ (IOType.Rel S) d.target d'.target

/-- Layers of the same kind with related parameters; the first pooling layer follows the second. -/
def Layer.Rel : Layer α → Layer β → Prop
  | .dense d, .dense e => d.weights.Rel S e.weights ∧ List.Forall₂ S d.biases e.biases
      ∧ d.func = e.func
  | .conv d, .conv e => d.kernels.Rel (Mat.Rel S) e.kernels ∧ List.Forall₂ S d.biases e.biases
      ∧ d.func = e.func ∧ d.inputFeaturesLen = e.inputFeaturesLen
  | .reduce d, .reduce e => d.interpKernel.Rel S e.interpKernel ∧ d.blockSize = e.blockSize
      ∧ d.inputFeaturesLen = e.inputFeaturesLen
      ∧ ∀ u v y, List.Forall₂ S u v → e.blockFunc v = some y → ∃ x, d.blockFunc u = some x ∧ S x y
  | .flatten d, .flatten e => d = e
  | _, _ => False

/-- Networks with related layers. -/
def Net.Rel (n : Net α) (n' : Net β) : Prop := List.Forall₂ (Layer.Rel S) n.layers n'.layers

end two
end Renplex
