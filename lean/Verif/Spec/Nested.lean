import Verif.Spec.Layout
/-
A syntactic condition on types: nowhere is an array of fixed-size items directly inside an array or a
maybe.
-/
namespace GV.Spec

/-- An array of fixed-size items. -/
def fixedArr : Ty → Bool
  | .A e => (size e).isSome
  | _ => false

mutual
/-- Somewhere in the type an array of fixed-size items is directly the element type of an array or
    maybe. -/
def nestedFixed : Ty → Bool
  | .A e | .M e => fixedArr e || nestedFixed e
  | .tuple ts => nestedFixedAny ts
  | .dict k v => nestedFixed k || nestedFixed v
  | _ => false
/-- The same for a list of types. -/
def nestedFixedAny : List Ty → Bool
  | [] => false
  | t :: ts => nestedFixed t || nestedFixedAny ts
end

end GV.Spec
