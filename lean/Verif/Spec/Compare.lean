import Verif.Spec.Value
import Verif.Spec.Layout
import Mathlib.Data.List.Forall2
/-
Independent specification of when values are equal: structurally, except that doubles are compared as
IEEE 754 numbers.
-/
namespace GV.Spec

/-- The number that a bit pattern of an IEEE 754 double denotes, times `2 ^ 1074`; none for NaN.
    (Infinity takes the place of the next power of two after all finite numbers.) -/
def double (n : Nat) : Option Int :=
  let e := n / 2 ^ 52 % 2 ^ 11
  let m := n % 2 ^ 52
  if e = 2047 ∧ m ≠ 0 then none
  else
    let k : Nat := if e = 0 then m else (2 ^ 52 + m) * 2 ^ (e - 1)
    some (if n / 2 ^ 63 = 0 then k else -(k : Int))

mutual
/-- Two values of a type are equal. -/
def Same : Ty → Val → Val → Prop
  | .D, v, w => match v, w with
    | .num a, .num b => ∃ x, double a = some x ∧ double b = some x
    | _, _ => False
  | .A e, v, w => match v, w with
    | .arr vs, .arr ws => List.Forall₂ (Same e) vs ws
    | _, _ => False
  | .M e, v, w => match v, w with
    | .nothing, .nothing => True
    | .just x, .just y => Same e x y
    | _, _ => False
  | .tuple ts, v, w => match v, w with
    | .tup vs, .tup ws => SameAll ts vs ws
    | _, _ => False
  | .dict k l, v, w => match v, w with
    | .tup [x, y], .tup [x', y'] => Same k x x' ∧ Same l y y'
    | _, _ => False
  | _, v, w => v = w
/-- Two lists of values of the given types are equal. -/
def SameAll : List Ty → List Val → List Val → Prop
  | t :: ts, v :: vs, w :: ws => Same t v w ∧ SameAll ts vs ws
  | [], [], [] => True
  | _, _, _ => False
end

/-- The number a bit pattern of a number type denotes (a double times `2 ^ 1074`); none for NaN. -/
def numVal : Ty → Nat → Option Int
  | .Y, n | .Q, n | .U, n | .T, n => some n
  | .N, n => some (if n < 2 ^ 15 then n else n - 2 ^ 16)
  | .I, n => some (if n < 2 ^ 31 then n else n - 2 ^ 32)
  | .X, n => some (if n < 2 ^ 63 then n else n - 2 ^ 64)
  | .D, n => double n
  | _, _ => none

/-- The order of options of numbers: nothing first; NaN is not comparable. -/
def optCmp (e : Ty) : Option Nat → Option Nat → Option Ordering
  | none, none => some .eq
  | none, some _ => some .lt
  | some _, none => some .gt
  | some a, some b =>
    match numVal e a, numVal e b with
    | some x, some y => some (compare x y)
    | _, _ => none

end GV.Spec
