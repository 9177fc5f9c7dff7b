import Verif.Model.Base
/-
Specification vocabulary for strings.
-/
namespace GV.Spec

/-- A Unicode scalar value. -/
def Scalar (x : Nat) : Prop := x < 0xd800 ∨ (0xe000 ≤ x ∧ x < 0x110000)

/-- UTF-8 encoding of a scalar value (RFC 3629, section 3). -/
def utf8Encode (x : Nat) : Bytes :=
  if x < 0x80 then [UInt8.ofNat x]
  else if x < 0x800 then [UInt8.ofNat (0xc0 + x / 64), UInt8.ofNat (0x80 + x % 64)]
  else if x < 0x10000 then
    [UInt8.ofNat (0xe0 + x / 4096), UInt8.ofNat (0x80 + x / 64 % 64), UInt8.ofNat (0x80 + x % 64)]
  else
    [UInt8.ofNat (0xf0 + x / 262144), UInt8.ofNat (0x80 + x / 4096 % 64),
     UInt8.ofNat (0x80 + x / 64 % 64), UInt8.ofNat (0x80 + x % 64)]

/-- The bytes are the UTF-8 encoding of some text. -/
def Utf8 (b : Bytes) : Prop := ∃ cs : List Nat, (∀ x ∈ cs, Scalar x) ∧ b = cs.flatMap utf8Encode

/-- Text a GVariant string can hold: UTF-8 without NUL. -/
def Text (b : Bytes) : Prop := Utf8 b ∧ (0 : UInt8) ∉ b

/-- Alphabetic order of texts by the numbers of their characters. -/
def codeOrder : List Nat → List Nat → Ordering
  | [], [] => .eq
  | [], _ :: _ => .lt
  | _ :: _, [] => .gt
  | x :: xs, y :: ys => if x < y then .lt else if y < x then .gt else codeOrder xs ys

/-- Something done to a string. -/
inductive StrOp
  /-- `try_push_str(s)` or `write_str(s)` -/
  | push (s : Bytes)
  | clear
  | reserve (n : Nat)
  | clone
  /-- into `String` and back with `try_from` -/
  | viaString
  /-- borrow as `Str` and `to_owned` -/
  | viaStr

/-- The same on a plain `String` that refuses NULs. -/
def StrOp.onText (t : Bytes) : StrOp → Bytes
  | .push s => if (0 : UInt8) ∈ s then t else t ++ s
  | .clear => []
  | .reserve _ | .clone | .viaString | .viaStr => t

end GV.Spec
