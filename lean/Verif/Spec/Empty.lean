import Verif.Spec.Layout
/-
A syntactic condition on types: whether empty data at a given address can be cast and read.
-/
namespace GV.Spec

mutual
/-- Nowhere in the type, other than inside arrays, maybes and fixed-size structures, is there an array
    of fixed-size items whose alignment does not divide the address. -/
def emptySafe (a : Nat) : Ty → Bool
  | .A e => (size e).isNone || a % align e == 0
  | .tuple ts => (size (.tuple ts)).isSome || emptySafeAll a ts
  | .dict k v => (size (.dict k v)).isSome || (emptySafe a k && emptySafe a v)
  | _ => true
/-- The same for a list of types. -/
def emptySafeAll (a : Nat) : List Ty → Bool
  | [] => true
  | t :: ts => emptySafe a t && emptySafeAll a ts
end

end GV.Spec
