import Verif.Model.Cfloat
/-!
# Activation functions: `/repo/src/act/mod.rs`
-/

namespace Renplex
namespace Act
variable {w : Width} {R : Type} [Scalar R]
open Scalar (zero one two lit)

/-- `SIGMOID_THRESHOLD_F32/F64`, act/mod.rs:8-9. -/
def sigThreshold (w : Width) : R :=
  match w with
  | .w32 => lit 15 1
  | .w64 => lit 30 1
/-- The upper plateau, act/mod.rs:13, 19. -/
def sigHi (w : Width) : R :=
  match w with
  | .w32 => lit 999999 1000000
  | .w64 => lit 99999999999999 100000000000000
/-- The lower plateau, act/mod.rs:14, 20. -/
def sigLo (w : Width) : R :=
  match w with
  | .w32 => lit 1 1000000
  | .w64 => lit 1 100000000000000

/-- `sigmoid_f32`, `sigmoid_f64`, act/mod.rs:12-22. -/
def sigmoid (w : Width) (v : R) : R :=
  if Scalar.le (sigThreshold w) v then sigHi w
  else if Scalar.le v (Scalar.neg (sigThreshold w)) then sigLo w
  else Scalar.div (Scalar.exp v) (Scalar.add one (Scalar.exp v))

/-- `d_sigmoid_f32`, `d_sigmoid_f64`, act/mod.rs:24-30. -/
def dSigmoid (w : Width) (v : R) : R :=
  Scalar.mul (sigmoid w v) (Scalar.sub one (sigmoid w v))

/-- `relu_f32`, `relu_f64`, act/mod.rs:32-45. -/
def relu (v : R) : R := if !Scalar.signNeg v then v else zero
/-- `d_relu_f32`, `d_relu_f64`, act/mod.rs:47-61. -/
def dRelu (v : R) : R := if !Scalar.signNeg v then one else zero

/-- literal `0.5` -/
def half : R := lit 1 2

/-- `ritsigmoid_cf*`, act/mod.rs:64-76. -/
def ritSigmoid (z : Cf w R) : Cf w R := ⟨sigmoid w z.x, sigmoid w z.y⟩
/-- `d_ritsigmoid_cf*`, act/mod.rs:78-90. -/
def dRitSigmoid (z : Cf w R) : Cf w R :=
  ⟨Scalar.mul (Scalar.add (dSigmoid w z.x) (dSigmoid w z.y)) half, zero⟩
/-- `d_conj_ritsigmoid_cf*`, act/mod.rs:92-104. -/
def dConjRitSigmoid (z : Cf w R) : Cf w R :=
  ⟨Scalar.mul (Scalar.sub (dSigmoid w z.x) (dSigmoid w z.y)) half, zero⟩

/-- `rittanh_cf*`, act/mod.rs:107-113. -/
def ritTanh (z : Cf w R) : Cf w R := ⟨Scalar.tanh z.x, Scalar.tanh z.y⟩
/-- `1.0 / v.cosh().powi(2)`, act/mod.rs:117. -/
def sech2 (v : R) : R := Scalar.div one (Scalar.sq (Scalar.cosh v))
/-- `d_rittanh_cf*`, act/mod.rs:115-127. -/
def dRitTanh (z : Cf w R) : Cf w R :=
  ⟨Scalar.mul (Scalar.add (sech2 z.x) (sech2 z.y)) half, zero⟩
/-- `d_conj_rittanh_cf*`, act/mod.rs:129-141. -/
def dConjRitTanh (z : Cf w R) : Cf w R :=
  ⟨Scalar.mul (Scalar.sub (sech2 z.x) (sech2 z.y)) half, zero⟩

/-- `ritrelu_cf*`, act/mod.rs:144-156. -/
def ritRelu (z : Cf w R) : Cf w R := ⟨relu z.x, relu z.y⟩
/-- `d_ritrelu_cf*`, act/mod.rs:158-170. -/
def dRitRelu (z : Cf w R) : Cf w R :=
  ⟨Scalar.mul (Scalar.add (dRelu z.x) (dRelu z.y)) half, zero⟩
/-- `d_conj_ritrelu_cf*`, act/mod.rs:172-184. -/
def dConjRitRelu (z : Cf w R) : Cf w R :=
  ⟨Scalar.mul (Scalar.sub (dRelu z.x) (dRelu z.y)) half, zero⟩

/-- `zrelu_cf*`, act/mod.rs:187-201. -/
def zRelu (z : Cf w R) : Cf w R :=
  if Scalar.signNeg z.re || Scalar.signNeg z.im then ⟨zero, zero⟩ else z
/-- `d_zrelu_cf*`, act/mod.rs:203-217. -/
def dZRelu (z : Cf w R) : Cf w R :=
  if Scalar.signNeg z.re || Scalar.signNeg z.im then ⟨zero, zero⟩ else ⟨one, zero⟩
/-- `d_conj_zrelu_cf*`, act/mod.rs:219-225. -/
def dConjZRelu (_z : Cf w R) : Cf w R := ⟨zero, zero⟩

/-- `card_cf*`, act/mod.rs:228-244. -/
def card (z : Cf w R) : Cf w R :=
  let phase := z.phase
  let cos := Scalar.cos phase
  let sin := Scalar.sin phase
  ⟨Scalar.mul (Scalar.mul two (Scalar.add one cos)) cos,
   Scalar.mul (Scalar.mul two (Scalar.add one cos)) sin⟩
/-- `dfdx` of `d_card_cf*`/`d_conj_card_cf*`, act/mod.rs:261-264 (and copies). -/
def cardDfdx (z : Cf w R) : Cf w R :=
  let norm := z.norm
  let phase := z.phase
  let cos := Scalar.cos phase
  let sin := Scalar.sin phase
  let cos2 := Scalar.sq cos
  let sin2x := Scalar.sin (Scalar.mul two phase)
  let unfactorRe := Scalar.add sin sin2x
  let unfactorIm := Scalar.sub (Scalar.add (Scalar.mul two cos2) cos) one
  let xFactor := Scalar.div sin norm
  ⟨Scalar.mul (Scalar.mul two xFactor) unfactorRe,
   Scalar.mul (Scalar.mul (lit (-2) 1) xFactor) unfactorIm⟩
/-- `dfdy` of `d_card_cf*`/`d_conj_card_cf*`, act/mod.rs:266-269 (and copies). -/
def cardDfdy (z : Cf w R) : Cf w R :=
  let norm := z.norm
  let phase := z.phase
  let cos := Scalar.cos phase
  let sin := Scalar.sin phase
  let cos2 := Scalar.sq cos
  let sin2x := Scalar.sin (Scalar.mul two phase)
  let unfactorRe := Scalar.add sin sin2x
  let unfactorIm := Scalar.sub (Scalar.add (Scalar.mul two cos2) cos) one
  let yFactor := Scalar.div cos norm
  ⟨Scalar.mul (Scalar.mul two yFactor) unfactorRe,
   Scalar.mul (Scalar.mul (lit (-2) 1) yFactor) unfactorIm⟩
/-- `d_card_cf*`, act/mod.rs:246-300. -/
def dCard (z : Cf w R) : Cf w R := Cf.sub (cardDfdx z) (Cf.mul Cf.iunit (cardDfdy z))
/-- `d_conj_card_cf*`, act/mod.rs:302-356. -/
def dConjCard (z : Cf w R) : Cf w R := Cf.add (cardDfdx z) (Cf.mul Cf.iunit (cardDfdy z))

/-- `mod_z_cf*`, act/mod.rs:359-363, 377-381. -/
def modZ (z : Cf w R) : Run (Cf w R) := Cf.div z (Cf.new z.norm zero)
/-- `d_mod_z_cf*`, act/mod.rs:365-369, 383-387 (a float division, no panic). -/
def dModZ (z : Cf w R) : Cf w R := Cf.new (Scalar.div one (Scalar.mul two z.norm)) zero
/-- `d_conj_mod_z_cf*`, act/mod.rs:371-375, 389-393. -/
def dConjModZ (z : Cf w R) : Run (Cf w R) := do
  let q ← Cf.div z z.conj
  Cf.div q (Cf.new (Scalar.neg (Scalar.mul two z.norm)) zero)

/-- `release_func_cf*` / `compute_val_cf*`, act/mod.rs:434-458, 596-610; `none_cf*`, 395-401. -/
def activate : ActFunc → Cf w R → Run (Cf w R)
  | .none, z => some z
  | .modZ, z => modZ z
  | .ritSigmoid, z => some (ritSigmoid z)
  | .ritTanh, z => some (ritTanh z)
  | .ritReLU, z => some (ritRelu z)
  | .zReLU, z => some (zRelu z)
  | .cardioid, z => some (card z)
/-- `release_dfunc_cf*` / `compute_d_val_cf*`, act/mod.rs:463-488, 618-632; `d_none_cf*`,
403-409. -/
def dActivate : ActFunc → Cf w R → Run (Cf w R)
  | .none, _ => some Cf.unit
  | .modZ, z => some (dModZ z)
  | .ritSigmoid, z => some (dRitSigmoid z)
  | .ritTanh, z => some (dRitTanh z)
  | .ritReLU, z => some (dRitRelu z)
  | .zReLU, z => some (dZRelu z)
  | .cardioid, z => some (dCard z)
/-- `release_dfunc_conj_cf*` / `compute_d_conj_val_cf*`, act/mod.rs:493-518, 640-654;
`d_conj_none_cf*`, 411-417. -/
def dConjActivate : ActFunc → Cf w R → Run (Cf w R)
  | .none, _ => some Cf.default
  | .modZ, z => dConjModZ z
  | .ritSigmoid, z => some (dConjRitSigmoid z)
  | .ritTanh, z => some (dConjRitTanh z)
  | .ritReLU, z => some (dConjRitRelu z)
  | .zReLU, z => some (dConjZRelu z)
  | .cardioid, z => some (dConjCard z)

end Act
end Renplex
