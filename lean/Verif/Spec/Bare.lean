import Verif.Spec.Source
/-
Sources made of values of Rust's own types and `VariantWrap` only.
-/
namespace GV.Spec

mutual
/-- The source is made of numbers, `bool`, `str`, `Option`, tuples, things to iterate over, and `VariantWrap`; nothing
    in it is a reference to GVariant data that exists already. -/
def Bare : Src → Prop
  | .num _ | .bool _ | .str _ | .nothing => True
  | .boolRef _ | .strRef _ | .variantRef _ _ | .iter _ => False
  | .wrap _ x | .just x => Bare x
  | .seq xs | .tup xs => BareAll xs
/-- The same for several. -/
def BareAll : List Src → Prop
  | [] => True
  | x :: xs => Bare x ∧ BareAll xs
end

end GV.Spec
