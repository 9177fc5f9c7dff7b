import Verif.Spec.Encode
/-
Normal form (docs/gvariant-serialisation.pdf, 2.7.1): the byte sequences that the rules of 2.5 produce.
-/
namespace GV.Spec

/-- The bytes are in normal form: they are the encoding of some value of the type.  (Object paths and
    signatures count as strings, variants are not looked into.) -/
def Normal (be : Bool) (t : Ty) (b : Bytes) : Prop := ∃ v, Fits t v ∧ enc (.pdf be) t v = b

end GV.Spec
