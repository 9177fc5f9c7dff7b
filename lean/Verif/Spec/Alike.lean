import Verif.Model.TypeParser
/-
Types whose values look the same in bytes.
-/
namespace GV.Spec

mutual
/-- One representative of all types that differ only in signedness of numbers, integer or floating point,
    which kind of string, and dictionary entry or structure of two. -/
def canon : Ty → Ty
  | .N | .Q => .Q
  | .I | .U => .U
  | .X | .T | .D => .T
  | .S | .O | .G => .S
  | .A e => .A (canon e)
  | .M e => .M (canon e)
  | .tuple ts => .tuple (canons ts)
  | .dict k v => .tuple [canon k, canon v]
  | .B => .B
  | .Y => .Y
  | .V => .V
/-- The same for a list of types. -/
def canons : List Ty → List Ty
  | [] => []
  | t :: ts => canon t :: canons ts
end

end GV.Spec
