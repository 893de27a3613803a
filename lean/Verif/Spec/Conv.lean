import Verif.Spec.Lawful
/-!
# Specification of the convolution-like operations
-/

namespace Renplex
variable {α : Type} [BasicOps α]

/-- Sum of products `Σ_b x b * w b`, `b < n`, added left to right starting from zero. -/
def dotN (n : Nat) (x w : Nat → α) : α :=
  (List.range n).foldl (fun acc b => BasicOps.add acc (BasicOps.mul (x b) (w b))) BasicOps.zero

/-- Entry `(i,j)` of the valid cross-correlation of `x` with a `kr × kc` kernel `k`:
`Σ_{a<kr} Σ_{b<kc} x(i+a, j+b) · k(a,b)`, in the order of the code (rows first). -/
def corr (kr kc : Nat) (x k : Nat → Nat → α) (i j : Nat) : α :=
  (List.range kr).foldl
    (fun acc a => BasicOps.addAssign acc (dotN kc (fun b => x (i + a) (j + b)) (k a)))
    BasicOps.zero

/-- `f` surrounded by `p` rows and `q` columns of zeros on each side. -/
def padded (r c p q : Nat) (f : Nat → Nat → α) (i j : Nat) : α :=
  if p ≤ i ∧ i < p + r ∧ q ≤ j ∧ j < q + c then f (i - p) (j - q) else BasicOps.zero

/-- Where up-sampling puts an entry in its block of `p` rows: the middle row, the upper one of two
(`upOff p = (p - 1) / 2` in both cases). -/
def upOff (p : Nat) : Nat := if p % 2 = 0 then p / 2 - 1 else (p - 1) / 2

/-- The column in a block of `p` rows and `q` columns: the left middle one for even `q`, but half
the *height* for odd `q`. -/
def leftOff (p q : Nat) : Nat := if q % 2 = 0 then q / 2 - 1 else (p - 1) / 2

/-- `f` spread out with one original entry per `p × q` block, at offset `(u, v)` of its block. -/
def spread (p q u v : Nat) (f : Nat → Nat → α) (i j : Nat) : α :=
  if i % p = u ∧ j % q = v then f (i / p) (j / q) else BasicOps.zero

end Renplex
