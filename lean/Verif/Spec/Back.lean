import Verif.Spec.Encode
/-
What comes back when a value is written with padding after the last element of arrays, and then read.
The padding is taken for framing offsets: each `w` zero bytes, where `w` is the framing offset width, read
as an element of no bytes in front of the others; if the padding is not a multiple of `w` bytes, no framing
offset makes sense and the array reads as empty.
-/
namespace GV.Spec

/-- Zero bytes after the last element of an array with elements of the given bytes. -/
def endPad (E : Enc) (e : Ty) (bs : List Bytes) : Nat :=
  let n := (laid 0 (bs.map fun b => (e, b))).length
  if E.padLast then roundUp n (align e) - n else 0

/-- Width of the framing offsets of such an array. -/
def endWidth (E : Enc) (e : Ty) (bs : List Bytes) : Nat :=
  frameWidth ((laid 0 (bs.map fun b => (e, b))).length + endPad E e bs) bs.length

mutual
/-- The value that comes back for a value written. -/
def back (E : Enc) : Ty → Val → Val
  | .A e, .arr vs =>
    let vs' := vs.map (back E e)
    if (size e).isSome then .arr vs'
    else
      let p := endPad E e (vs.map (enc E e))
      let w := endWidth E e (vs.map (enc E e))
      if p % w ≠ 0 then .arr []
      else .arr (List.replicate (p / w) (dflt e) ++ vs')
  | .M e, v =>
    match v with
    | .just x => .just (back E e x)
    | v => v
  | .tuple ts, .tup vs => .tup (backAll E ts vs)
  | .dict k v, .tup vs =>
    match vs with
    | [x, y] => .tup [back E k x, back E v y]
    | vs => .tup vs
  | _, v => v
/-- The same for the members of a structure. -/
def backAll (E : Enc) : List Ty → List Val → List Val
  | t :: ts, v :: vs => back E t v :: backAll E ts vs
  | _, vs => vs
end

end GV.Spec

namespace GV.Spec

/-- The value that comes back after `n` rounds of writing and reading. -/
def backN (E : Enc) (t : Ty) : Nat → Val → Val
  | 0, v => v
  | n + 1, v => backN E t n (back E t v)

end GV.Spec
