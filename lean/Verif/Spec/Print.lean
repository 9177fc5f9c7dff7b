import Verif.Spec.Layout
import Verif.Spec.Value
import Verif.Model.Str
import Verif.Spec.Encode
import Verif.Spec.Source
/-
How values look when printed with `{:?}`, independently of the bytes they were read from.
-/
namespace GV

/-- What the standard library prints, as far as it does not matter here. -/
structure CoreFmt where
  /-- a number of the given GVariant type, by its bit pattern: `{:?}` of `u8`, …, `f64` -/
  num : Ty → Nat → Bytes
  /-- `{:?}` of a `str`: quoted and escaped -/
  str : Bytes → Bytes
  /-- `String::from_utf8_lossy` -/
  lossy : Bytes → Bytes
  /-- the feature `alloc` of the crate -/
  alloc : Bool

namespace Spec

/-- What the standard library's texts are like: numbers are written without `,`, `)`, `]` and determined
    by their text (except doubles, where all NaNs look alike); a quoted string begins with `"` and ends
    where it says; UTF-8 is kept by `from_utf8_lossy`. -/
structure Lawful (P : CoreFmt) : Prop where
  num_ne : ∀ t n, P.num t n ≠ []
  num_clean : ∀ t n, ∀ x ∈ P.num t n, x ≠ 44 ∧ x ≠ 41 ∧ x ≠ 93
  num_inj : ∀ t w a b, t ≠ .D → numWidth t = some w → a < 256 ^ w → b < 256 ^ w → P.num t a = P.num t b → a = b
  str_quote : ∀ b, ∃ r, P.str b = 34 :: r
  str_delim : ∀ a b x y, Utf8 a → Utf8 b → P.str a ++ x = P.str b ++ y → a = b ∧ x = y
  lossy : ∀ b, Utf8 b → P.lossy b = b

/-- Texts with `, ` between them. -/
def commas : List Bytes → Bytes
  | [] => []
  | [x] => x
  | x :: xs => x ++ [44, 32] ++ commas xs

/-- `[a, b]`. -/
def brackets (xs : List Bytes) : Bytes := [91] ++ commas xs ++ [93]

/-- `[a, b, ]`. -/
def looseBrackets (xs : List Bytes) : Bytes := [91] ++ (xs.map (· ++ [44, 32])).flatten ++ [93]

/-- `()`, `(a,)`, `(a, b)`. -/
def parens : List Bytes → Bytes
  | [x] => [40] ++ x ++ [44, 41]
  | xs => [40] ++ commas xs ++ [41]

/-- A type string: quoted if it is UTF-8.  `utf8Valid` is characterised by `utf8Valid_iff`. -/
def printType (P : CoreFmt) (b : Bytes) : Bytes :=
  if P.alloc then P.str (P.lossy b)
  else if utf8Valid b then P.str b
  else [60, 69, 114, 114, 111, 114, 58, 32, 73, 110, 118, 97, 108, 105, 100, 32, 85, 116, 102, 45, 56, 62]

mutual
/-- A value of a type, printed: arrays of non-fixed-size elements have a comma after each element, other
    arrays between elements; structures and dictionary entries are tuples; maybes are `None` and
    `Some(…)`; a variant shows its type string and the bytes of its content. -/
def print (P : CoreFmt) : Ty → Val → Bytes
  | .B, .bool b => if b then [116, 114, 117, 101] else [102, 97, 108, 115, 101]
  | .V, .variant ty data =>
    [86, 97, 114, 105, 97, 110, 116, 32, 123, 32, 116, 121, 112, 101, 58, 32] ++ printType P ty ++
    [44, 32, 100, 97, 116, 97, 58, 32] ++ brackets (data.map fun x => P.num .Y x.toNat) ++ [32, 125]
  | .A e, .arr vs =>
    match size e with
    | some _ => brackets (vs.map (print P e))
    | none => looseBrackets (vs.map (print P e))
  | .M e, v =>
    match v with
    | .just x => [83, 111, 109, 101, 40] ++ print P e x ++ [41]
    | _ => [78, 111, 110, 101]
  | .tuple ts, .tup vs => parens (printAll P ts vs)
  | .dict k l, .tup vs =>
    match vs with
    | [x, y] => parens [print P k x, print P l y]
    | _ => []
  | _, .str b => P.str b
  | t, .num n => P.num t n
  | _, _ => []
/-- Each member, printed. -/
def printAll (P : CoreFmt) : List Ty → List Val → List Bytes
  | t :: ts, v :: vs => print P t v :: printAll P ts vs
  | _, _ => []
end

mutual
/-- All type strings of variants in the value are UTF-8. -/
def Legible : Ty → Val → Prop
  | .V, .variant ty _ => Utf8 ty
  | .A e, .arr vs => ∀ v ∈ vs, Legible e v
  | .M e, v =>
    match v with
    | .just x => Legible e x
    | _ => True
  | .tuple ts, .tup vs => LegibleAll ts vs
  | .dict k l, .tup vs =>
    match vs with
    | [x, y] => Legible k x ∧ Legible l y
    | _ => True
  | _, _ => True
/-- The same for each member. -/
def LegibleAll : List Ty → List Val → Prop
  | t :: ts, v :: vs => Legible t v ∧ LegibleAll ts vs
  | _, _ => True
end

end Spec
end GV
