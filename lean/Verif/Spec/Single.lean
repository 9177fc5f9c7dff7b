import Verif.Spec.Value
import Verif.Model.TypeParser
/-
Types and values without structures of one member.
-/
namespace GV.Spec

mutual
/-- The type with every structure of one member replaced by that member, to any depth. -/
def peel : Ty → Ty
  | .tuple ts => match peels ts with
    | [t] => t
    | us => .tuple us
  | .dict k v => .dict (peel k) (peel v)
  | .A e => .A (peel e)
  | .M e => .M (peel e)
  | t => t
/-- The same for a list of types. -/
def peels : List Ty → List Ty
  | [] => []
  | t :: ts => peel t :: peels ts
end

mutual
/-- A value of a type as one of the type without structures of one member. -/
def peelVal : Ty → Val → Val
  | .tuple ts, .tup vs => match peelVals ts vs with
    | [v] => v
    | us => .tup us
  | .dict k w, .tup vs => match vs with
    | [x, y] => .tup [peelVal k x, peelVal w y]
    | _ => .tup vs
  | .A e, .arr vs => .arr (vs.map (peelVal e))
  | .M e, .just v => .just (peelVal e v)
  | _, v => v
/-- The same for the members of a structure. -/
def peelVals : List Ty → List Val → List Val
  | t :: ts, v :: vs => peelVal t v :: peelVals ts vs
  | _, _ => []
end

end GV.Spec
