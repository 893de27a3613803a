/-!
# Basic vocabulary of the model

Rust panics, checked subtraction and the iterator adaptors the crate uses.
Everything here models the Rust standard library as used by `/repo/src`; the citations name one
place of use.
-/

namespace Renplex

/-- Outcome of a Rust computation that may panic: `none` is a panic.
Models `unwrap`, indexing, `chunks(0)`, integer underflow, ... throughout `/repo/src`. -/
abbrev Run (α : Type) := Option α

/-- `Result::unwrap` (e.g. `/repo/src/cvnn/layer/dense.rs:109-116`): an error becomes a panic. -/
def unwrap {ε α : Type} : Except ε α → Run α
  | .ok a => some a
  | .error _ => none

/-- `usize` subtraction with overflow checks (debug profile), e.g.
`/repo/src/math/matrix/mod.rs:504-505`: underflow panics. -/
def usub (a b : Nat) : Run Nat := if b ≤ a then some (a - b) else none

/-- `&body[a..b]`, e.g. `/repo/src/math/matrix/mod.rs:153`: panics unless `a ≤ b ≤ len`. -/
def slice {α : Type} (l : List α) (a b : Nat) : Run (List α) :=
  if a ≤ b ∧ b ≤ l.length then some ((l.drop a).take (b - a)) else none

/-- The chunks of a slice for a positive chunk size; the last one may be shorter
(`slice::chunks`, `/repo/src/math/matrix/mod.rs:287`). `fuel` bounds the recursion (the length of
the slice is enough). -/
def chunksAux {α : Type} (n : Nat) : (fuel : Nat) → List α → List (List α)
  | 0, _ => []
  | _ + 1, [] => []
  | fuel + 1, a :: as => (a :: as).take n :: chunksAux n fuel ((a :: as).drop n)

/-- All chunks of `l` of a positive size `n`; for size 0 see `chunks`. -/
def chunksPos {α : Type} (n : Nat) (l : List α) : List (List α) := chunksAux n l.length l

/-- `slice::chunks(n)` (`/repo/src/math/matrix/mod.rs:287`): panics for `n = 0`. -/
def chunks {α : Type} (n : Nat) (l : List α) : Run (List (List α)) :=
  if n = 0 then none else some (chunksPos n l)

/-- `slice::windows(k)` (`/repo/src/math/matrix/mod.rs:520`): panics for `k = 0`, empty if the
slice is shorter than `k`. -/
def windows {α : Type} (k : Nat) (l : List α) : Run (List (List α)) :=
  if k = 0 then none
  else some ((List.range (l.length + 1 - k)).map fun i => (l.drop i).take k)

/-- `lhs.iter_mut().zip(rhs).for_each(|(l, r)| *l = f(*l, r))`
(`/repo/src/math/matrix/mod.rs:429-432`): elements of `lhs` without a partner stay. -/
def zipUpd {α β : Type} (f : α → β → α) : List α → List β → List α
  | a :: as, b :: bs => f a b :: zipUpd f as bs
  | as, [] => as
  | [], _ :: _ => []

/-- `vec.drain(0..n)` (`/repo/src/math/matrix/mod.rs:402`): the first `n` elements and the rest;
panics when there are fewer. -/
def drainFront {α : Type} (n : Nat) (l : List α) : Run (List α × List α) :=
  if n ≤ l.length then some (l.take n, l.drop n) else none

/-- `Iterator::reduce` (`/repo/src/cvnn/network/mod.rs:186-189`): `None` on an empty iterator. -/
def reduce {α : Type} (f : α → α → α) : List α → Option α
  | [] => none
  | a :: as => some (as.foldl f a)

end Renplex
