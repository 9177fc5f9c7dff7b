import Verif.Spec.Layout
/-
How large the encoding of what is read from `n` bytes can be: at most `coeff t * (n + 1) ^ degree t`.
-/
namespace GV.Spec

mutual
/-- Depth of nesting of what can have any number of bytes. -/
def degree : Ty → Nat
  | .S | .O | .G | .V => 1
  | .A e => degree e + 1
  | .M e => degree e
  | .tuple ts => degrees ts
  | .dict k v => max (degree k) (degree v)
  | _ => 0
/-- The largest among the members of a structure. -/
def degrees : List Ty → Nat
  | [] => 0
  | t :: ts => max (degree t) (degrees ts)
end

mutual
/-- The factor. -/
def coeff : Ty → Nat
  | .S | .O | .G => 1
  | .V => 3
  | .A e => coeff e + 22
  | .M e => coeff e + 1
  | .tuple ts => coeffs ts + (size (.tuple ts)).getD 0
  | .dict k v => (coeff k + 15) + (coeff v + 15) + (size (.dict k v)).getD 0
  | _ => 8
/-- The sum over the members of a structure. -/
def coeffs : List Ty → Nat
  | [] => 0
  | t :: ts => (coeff t + 15) + coeffs ts
end

end GV.Spec
