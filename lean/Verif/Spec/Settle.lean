import Verif.Spec.Back
/-
Rounds of writing and reading.
-/
namespace GV.Spec

mutual
/-- How deep arrays are nested in a type. -/
def arrayDepth : Ty → Nat
  | .A e => arrayDepth e + 1
  | .M e => arrayDepth e
  | .tuple ts => arrayDepths ts
  | .dict k v => max (arrayDepth k) (arrayDepth v)
  | _ => 0
/-- The most for a list of types. -/
def arrayDepths : List Ty → Nat
  | [] => 0
  | t :: ts => max (arrayDepth t) (arrayDepths ts)
end

end GV.Spec
