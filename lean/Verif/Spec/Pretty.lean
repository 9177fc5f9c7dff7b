import Verif.Spec.Print
/-
How values look when printed with `{:#?}` or with other flags.
-/
namespace GV

/-- What the standard library prints for given flags of a format placeholder, such as `{:#?}`, `{:5?}`,
    `{:02x?}`. -/
structure FlagFmt where
  /-- whether `#` is among the flags -/
  alt : Bool
  /-- numbers, by type and bit pattern -/
  num : Ty → Nat → Bytes
  /-- a `str` -/
  str : Bytes → Bytes
  /-- a `bool` -/
  bool : Bool → Bytes
  /-- the empty tuple -/
  unit : Bytes

namespace Spec

/-- `n` spaces. -/
def blanks (n : Nat) : Bytes := List.replicate n 32

/-- Entries on lines of their own, each followed by a comma and indented by four more spaces than the closing
    bracket; just the brackets if there are no entries. -/
def block (d : Nat) (l r : UInt8) (xs : List Bytes) : Bytes :=
  if xs = [] then [l, r]
  else [l, 10] ++ (xs.map fun x => blanks (4 * (d + 1)) ++ x ++ [44, 10]).flatten ++ blanks (4 * d) ++ [r]

mutual
/-- A value printed with flags, in a line that is indented by `4 * d` spaces.  The flags concern the value
    itself and what is inside structures, maybes and arrays of fixed-size elements; what is inside variants
    and arrays of non-fixed-size elements is printed as with `{:?}`. -/
def pretty (F : FlagFmt) (P : CoreFmt) (d : Nat) : Ty → Val → Bytes
  | .B, .bool b => F.bool b
  | .V, v => print P .V v
  | .A e, .arr vs =>
    match size e with
    | some _ =>
      if F.alt then block d 91 93 (vs.map (pretty F P (d + 1) e)) else brackets (vs.map (pretty F P d e))
    | none => print P (.A e) (.arr vs)
  | .M e, v =>
    match v with
    | .just x =>
      [83, 111, 109, 101] ++
        if F.alt then block d 40 41 [pretty F P (d + 1) e x] else [40] ++ pretty F P d e x ++ [41]
    | _ => [78, 111, 110, 101]
  | .tuple ts, .tup vs =>
    match ts with
    | [] => F.unit
    | t :: ts =>
      if F.alt then block d 40 41 (prettyAll F P (d + 1) (t :: ts) vs) else parens (prettyAll F P d (t :: ts) vs)
  | .dict k l, .tup vs =>
    match vs with
    | [x, y] =>
      if F.alt then block d 40 41 [pretty F P (d + 1) k x, pretty F P (d + 1) l y]
      else parens [pretty F P d k x, pretty F P d l y]
    | _ => []
  | _, .str b => F.str b
  | t, .num n => F.num t n
  | _, _ => []
/-- Each member, printed with flags. -/
def prettyAll (F : FlagFmt) (P : CoreFmt) (d : Nat) : List Ty → List Val → List Bytes
  | t :: ts, v :: vs => pretty F P d t v :: prettyAll F P d ts vs
  | _, _ => []
end

/-- No line breaks in what the standard library prints: it escapes them in strings. -/
structure OneLine (F : FlagFmt) (P : CoreFmt) : Prop where
  num : ∀ t n, 10 ∉ F.num t n
  str : ∀ b, 10 ∉ F.str b
  bool : ∀ b, 10 ∉ F.bool b
  unit : 10 ∉ F.unit
  num' : ∀ t n, 10 ∉ P.num t n
  str' : ∀ b, 10 ∉ P.str b

/-- The laws of `Lawful` for texts with flags. -/
structure LawfulFlags (F : FlagFmt) : Prop where
  num_ne : ∀ t n, F.num t n ≠ []
  num_clean : ∀ t n, ∀ x ∈ F.num t n, x ≠ 44 ∧ x ≠ 41 ∧ x ≠ 93
  num_inj : ∀ t w a b, t ≠ .D → numWidth t = some w → a < 256 ^ w → b < 256 ^ w → F.num t a = F.num t b → a = b
  str_quote : ∀ b, ∃ r, F.str b = 34 :: r
  str_delim : ∀ a b x y, Utf8 a → Utf8 b → F.str a ++ x = F.str b ++ y → a = b ∧ x = y
  bool_ne : ∀ b, F.bool b ≠ []
  bool_clean : ∀ b, ∀ x ∈ F.bool b, x ≠ 44 ∧ x ≠ 41 ∧ x ≠ 93
  bool_inj : F.bool true ≠ F.bool false
  unit_start : ∃ h r, F.unit = h :: r ∧ h ≠ 93

end Spec
end GV
