import Verif.Spec.Layout
import Verif.Spec.Memory
import Verif.Spec.Value
/-
Changing a part of a value.
-/
namespace GV.Spec

/-- The type of the part of a structure that a path of member numbers leads to. -/
def typeAt : Ty → List Nat → Option Ty
  | t, [] => some t
  | t, k :: p => (members t)[k]?.bind fun u => typeAt u p

/-- The value with the part at the path replaced. -/
def replaceAt : Val → List Nat → Val → Val
  | _, [], w => w
  | .tup vs, k :: p, w => .tup (vs.modify k fun v => replaceAt v p w)
  | v, _ :: _, _ => v

/-- Where the part at the path begins. -/
def startAt : Ty → List Nat → Nat
  | _, [] => 0
  | t, k :: p => (startsFrom 0 (members t)).getD k 0 + startAt ((members t).getD k .Y) p

/-- `b` with the bytes from `off` on replaced by `x`. -/
def overlay (b : Bytes) (off : Nat) (x : Bytes) : Bytes :=
  b.take off ++ x ++ b.drop (off + x.length)

end GV.Spec
