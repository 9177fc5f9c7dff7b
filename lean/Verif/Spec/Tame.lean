import Verif.Spec.Decode
/-
Data whose framing offsets are not absurdly large.  Only containers of 4 GiB and more can have others,
because framing offsets of smaller containers are at most four bytes wide.
-/
namespace GV.Spec

mutual
/-- The framing offsets used in reading the bytes as a value of the type are below 2^63. -/
def Tame (R : Rules) : Ty → Bytes → Prop
  | .A e, b => (size e = none → ∀ o ∈ (arrFrame b).2, o < 2 ^ 63) ∧
      ∀ x, some x ∈ arrChildren R e b → Tame R e x
  | .M e, b => ∀ x, maybeChild e b = some x → Tame R e x
  | .tuple ts, b => (∀ i o, i < frameCount ts → frame b i = some o → o < 2 ^ 63) ∧
      TameAll R ts (memberChildren R ts b)
  | .dict k v, b => (∀ i o, i < frameCount [k, v] → frame b i = some o → o < 2 ^ 63) ∧
      match memberChildren R [k, v] b with
      | [x, y] => (∀ z, x = some z → Tame R k z) ∧ (∀ z, y = some z → Tame R v z)
      | _ => True
  | _, _ => True
/-- The same for the members of a structure. -/
def TameAll (R : Rules) : List Ty → List (Option Bytes) → Prop
  | t :: ts, o :: os => (∀ x, o = some x → Tame R t x) ∧ TameAll R ts os
  | _, _ => True
end

end GV.Spec
