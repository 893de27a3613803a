import Verif.Spec.Lawful
import Verif.Model.Network
/-!
# An executable number type for examples

The integers with the operations of the `Complex` trait: conjugation is the identity, the
activations are the identity, a panicking one and rectifiers, the loss is the squared distance.
Only used to show that hypotheses are met by concrete values.
-/

namespace Renplex

instance : RealOps Int where
  runit := 1
  ofUsize n := n

instance : CplxOps Int Int where
  unit := 1
  conj z := z
  ofUsize n := n
  activate
    | .none, z => some z
    | .modZ, z => if z = 0 then Option.none else some z.sign
    | _, z => some (max z 0)
  dActivate
    | .none, _ => some 1
    | .modZ, z => if z = 0 then Option.none else some 0
    | _, z => some (if z > 0 then 1 else 0)
  dConjActivate _ _ := some 0
  loss
    | _, .scalar t, .scalar p => .ok ((List.zipWith (fun a b => (b - a) * (b - a)) t p).sum)
    | _, _, _ => .error .inconsistentIO
  dLoss
    | _, .scalar t, .scalar p => .ok (List.zipWith (fun a b => b - a) t p)
    | _, _, _ => .error .inconsistentIO

instance : GenOps Int where
  gen _ seed := some ((seed : Int), seed + 1)

end Renplex
