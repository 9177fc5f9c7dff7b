import Verif.Model.TypeParser
/-
Independent specification of type strings: the grammar of the GVariant specification
(docs/gvariant-serialisation.pdf, section 2.2), as an inductive relation between a byte
string and the type it denotes.  As in the code, a dictionary key may be any type.
-/
namespace GV.Spec

/-- ASCII code of a character. -/
def ch (c : Char) : UInt8 := c.val.toUInt8

mutual
/-- `Derives s t`: the string `s` is a derivation of type `t`. -/
inductive Derives : Bytes → Ty → Prop
  | bool : Derives [ch 'b'] .B
  | byte : Derives [ch 'y'] .Y
  | int16 : Derives [ch 'n'] .N
  | uint16 : Derives [ch 'q'] .Q
  | int32 : Derives [ch 'i'] .I
  | uint32 : Derives [ch 'u'] .U
  | int64 : Derives [ch 'x'] .X
  | uint64 : Derives [ch 't'] .T
  | double : Derives [ch 'd'] .D
  | string : Derives [ch 's'] .S
  | objectPath : Derives [ch 'o'] .O
  | signature : Derives [ch 'g'] .G
  | variant : Derives [ch 'v'] .V
  | array {s t} : Derives s t → Derives (ch 'a' :: s) (.A t)
  | maybe {s t} : Derives s t → Derives (ch 'm' :: s) (.M t)
  | struct {s ts} : DerivesAll s ts → Derives (ch '(' :: s ++ [ch ')']) (.tuple ts)
  | dictEntry {s k s' v} : Derives s k → Derives s' v →
      Derives (ch '{' :: s ++ s' ++ [ch '}']) (.dict k v)
/-- `DerivesAll s ts`: `s` is a sequence of derivations of the types `ts`. -/
inductive DerivesAll : Bytes → List Ty → Prop
  | nil : DerivesAll [] []
  | cons {s t s' ts} : Derives s t → DerivesAll s' ts → DerivesAll (s ++ s') (t :: ts)
end

end GV.Spec
