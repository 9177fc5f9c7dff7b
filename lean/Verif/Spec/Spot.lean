import Verif.Spec.Encode
import Verif.Spec.Path
/-
Where the parts of a value lie in its encoding.
-/
namespace GV.Spec

/-- Where each of the byte sequences begins that `laid` puts one after the other from `pos` on. -/
def laidAt : Nat → List (Ty × Bytes) → List Nat
  | _, [] => []
  | pos, (t, b) :: ms =>
    let start := roundUp pos (align t)
    start :: laidAt (start + b.length) ms

/-- How many bytes after the beginning of the encoding of `v : t` the encoding of the part begins that a
    path leads to: elements and members are laid out in order, each aligned; what a maybe or a variant
    holds is at the beginning.  `rd` as in `follow`. -/
def spot (E : Enc) (rd : Ty → Bytes → Option Val) : Ty → Val → List Step → Option Nat
  | _, _, [] => some 0
  | .A e, .arr vs, .elem i :: p =>
    vs[i]?.bind fun w => (laidAt 0 (vs.map fun v => (e, enc E e v)))[i]?.bind fun o =>
      (spot E rd e w p).map (o + ·)
  | .M e, .just w, .content :: p => spot E rd e w p
  | .tuple ts, .tup vs, .member i :: p =>
    ts[i]?.bind fun t => vs[i]?.bind fun w => (laidAt 0 (encAll E ts vs))[i]?.bind fun o =>
      (spot E rd t w p).map (o + ·)
  | .dict k x, .tup vs, .member i :: p =>
    [k, x][i]?.bind fun t => vs[i]?.bind fun w => (laidAt 0 (encAll E [k, x] vs))[i]?.bind fun o =>
      (spot E rd t w p).map (o + ·)
  | .V, .variant ty d, .inside u :: p =>
    if ty = u.show then (rd u d).bind fun w => spot E rd u w p else none
  | _, _, _ :: _ => none

/-- `rd` takes the bytes in a variant for a value only if they are the normal form of that value. -/
def ReadsNormal (be : Bool) (rd : Ty → Bytes → Option Val) : Prop :=
  ∀ u d w, rd u d = some w → Fits u w ∧ enc (.pdf be) u w = d

/-- Two paths part somewhere: neither is the beginning of the other. -/
def Parting (p q : List Step) : Prop := ∃ r x y p' q', p = r ++ x :: p' ∧ q = r ++ y :: q' ∧ x ≠ y

end GV.Spec
