import Verif.Spec.Settle
import Verif.Spec.Value
/-
How many values a value consists of, and how many types a type.
-/
namespace GV.Spec

mutual
/-- The number of values in a value: itself, its elements, its content or its members, and so on.  What
    is inside a variant is not counted. -/
def parts : Val → Nat
  | .arr vs => 1 + partsAll vs
  | .just v => 1 + parts v
  | .tup vs => 1 + partsAll vs
  | _ => 1
/-- The sum over a list of values. -/
def partsAll : List Val → Nat
  | [] => 0
  | v :: vs => parts v + partsAll vs
end

mutual
/-- The number of types in a type: itself, those of elements, contents and members. -/
def types : Ty → Nat
  | .A e => 1 + types e
  | .M e => 1 + types e
  | .tuple ts => 1 + typesAll ts
  | .dict k v => 1 + (types k + types v)
  | _ => 1
/-- The sum over a list of types. -/
def typesAll : List Ty → Nat
  | [] => 0
  | t :: ts => types t + typesAll ts
end

/-- Arrays of arrays … of strings, `d` deep. -/
def nest : Nat → Ty
  | 0 => .S
  | d + 1 => .A (nest d)

end GV.Spec
