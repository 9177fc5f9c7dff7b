import Verif.Spec.Value
import Verif.Model.TypeParser
/-
Parts of values, and the paths that lead to them.
-/
namespace GV.Spec

/-- One step into a value. -/
inductive Step
  /-- to element `i` of an array, counted from 0 -/
  | elem (i : Nat)
  /-- to what a maybe holds -/
  | content
  /-- to member `i` of a structure (of a dictionary entry: key 0, value 1) -/
  | member (i : Nat)
  /-- to what a variant of type `u` holds -/
  | inside (u : Ty)
deriving DecidableEq

/-- The type and the value of the part of `v : t` that a path leads to; `none` if it leads nowhere.
    Variants hold bytes: `rd u d` is the value of type `u` that the bytes `d` stand for, if any. -/
def follow (rd : Ty → Bytes → Option Val) : Ty → Val → List Step → Option (Ty × Val)
  | t, v, [] => some (t, v)
  | .A e, .arr vs, .elem i :: p => vs[i]?.bind fun w => follow rd e w p
  | .M e, .just w, .content :: p => follow rd e w p
  | .tuple ts, .tup vs, .member i :: p =>
    ts[i]?.bind fun t => vs[i]?.bind fun w => follow rd t w p
  | .dict k x, .tup vs, .member i :: p =>
    [k, x][i]?.bind fun t => vs[i]?.bind fun w => follow rd t w p
  | .V, .variant ty d, .inside u :: p =>
    if ty = u.show then (rd u d).bind fun w => follow rd u w p else none
  | _, _, _ :: _ => none

end GV.Spec
