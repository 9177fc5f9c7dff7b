import Verif.Spec.Encode
/-
What can be given to the serializer, and which value it stands for.
-/
namespace GV

/-- A value handed to `serialize`: the Rust types that implement `SerializeTo` for some GVariant type
    (gvariant/src/lib.rs:686-697, 790-829, 1141-1151, 1274-1283, 1315-1326, 1624-1640, 1811-1831,
    1946-1960, 2026-2035; generate_impl.rs:232-240, 507-512).  References, `Copy` values and owners
    that only delegate (`&T`, `&String`, `&Box<Str>`, `&MaybeFixedSize`) are what they delegate to. -/
inductive Src
  /-- a number, by its bit pattern -/
  | num (n : Nat)
  /-- `&bool` -/
  | bool (b : Bool)
  /-- `&Bool`, by its byte -/
  | boolRef (x : UInt8)
  /-- `&str`, `&String`, `&Box<Str>` -/
  | str (b : Bytes)
  /-- `&Str`, by its bytes -/
  | strRef (b : Bytes)
  /-- `&Variant`, by address and bytes -/
  | variantRef (addr : Nat) (b : Bytes)
  /-- `VariantWrap(gv!(t), x)` -/
  | wrap (t : Ty) (x : Src)
  /-- anything iterable as an array, yielding these items -/
  | seq (xs : List Src)
  /-- `&Option` as a maybe, or nothing to iterate -/
  | nothing
  | just (x : Src)
  /-- anything iterable as a maybe of a non-fixed-size type, yielding these items -/
  | iter (xs : List Src)
  /-- `&(x0, x1, …)` -/
  | tup (xs : List Src)

namespace Spec

/-- Width of a number type. -/
def numWidth : Ty → Option Nat
  | .Y => some 1
  | .N | .Q => some 2
  | .I | .U => some 4
  | .X | .T | .D => some 8
  | _ => none

/-- A string type. -/
def isStr : Ty → Bool
  | .S | .O | .G => true
  | _ => false

mutual
/-- The source has a `SerializeTo` impl for the GVariant type, and is a possible value of its Rust
    type (a `str` is UTF-8, a `Variant` is 8-aligned). -/
def Accepts : Ty → Src → Prop
  | t, .num n => ∃ w, numWidth t = some w ∧ n < 256 ^ w
  | t, .bool _ => t = .B
  | t, .boolRef _ => t = .B
  | t, .str b => isStr t = true ∧ Utf8 b
  | t, .strRef _ => isStr t = true
  | t, .variantRef addr _ => t = .V ∧ 8 ∣ addr
  | t, .wrap u x => t = .V ∧ Accepts u x
  | t, .seq xs => match t with
    | .A e => AcceptsEach e xs
    | _ => False
  | t, .nothing => match t with
    | .M _ => True
    | _ => False
  | t, .just x => match t with
    | .M e => Accepts e x
    | _ => False
  | t, .iter xs => match t with
    | .M e => size e = none ∧ AcceptsEach e xs
    | _ => False
  | t, .tup xs => match t with
    | .tuple ts => AcceptsAll ts xs
    | .dict k v => AcceptsAll [k, v] xs
    | _ => False
/-- The same for all items. -/
def AcceptsEach : Ty → List Src → Prop
  | _, [] => True
  | e, x :: xs => Accepts e x ∧ AcceptsEach e xs
/-- The same for the members of a structure. -/
def AcceptsAll : List Ty → List Src → Prop
  | t :: ts, x :: xs => Accepts t x ∧ AcceptsAll ts xs
  | [], [] => True
  | _, _ => False
end

mutual
/-- Types of the `gv!` markers inside a source. -/
def wraps : Src → List Ty
  | .wrap u x => u :: wraps x
  | .seq xs | .iter xs | .tup xs => wrapsAll xs
  | .just x => wraps x
  | _ => []
/-- The same for several. -/
def wrapsAll : List Src → List Ty
  | [] => []
  | x :: xs => wraps x ++ wrapsAll xs
end

mutual
/-- The value a source stands for, as a value of a type.  The data of a wrapped variant is the
    encoding of what was wrapped. -/
def meaning (E : Enc) : Ty → Src → Val
  | _, .num n => .num n
  | _, .bool b => .bool b
  | _, .boolRef x => .bool (x ≠ 0)
  | _, .str b => .str b
  | _, .strRef b => .str (text (Rules.crate false) b)
  | _, .variantRef _ b => .variant (variantParts b).1 (variantParts b).2
  | _, .wrap u x => .variant u.show (enc E u (meaning E u x))
  | t, .seq xs => match t with
    | .A e => .arr (meaningEach E e xs)
    | _ => .nothing
  | _, .nothing => .nothing
  | t, .just x => match t with
    | .M e => .just (meaning E e x)
    | _ => .nothing
  | t, .iter xs => match t with
    | .M e => match xs with
      | [] => .nothing
      | x :: _ => .just (meaning E e x)
    | _ => .nothing
  | t, .tup xs => match t with
    | .tuple ts => .tup (meaningAll E ts xs)
    | .dict k v => .tup (meaningAll E [k, v] xs)
    | _ => .nothing
/-- The values of all items. -/
def meaningEach (E : Enc) : Ty → List Src → List Val
  | _, [] => []
  | e, x :: xs => meaning E e x :: meaningEach E e xs
/-- The values of the members of a structure. -/
def meaningAll (E : Enc) : List Ty → List Src → List Val
  | t :: ts, x :: xs => meaning E t x :: meaningAll E ts xs
  | _, _ => []
end

mutual
/-- Some `str` that would be serialized contains a NUL.  (Of an iterator for a maybe only the first
    item counts.) -/
def HasNul : Src → Prop
  | .str b => (0 : UInt8) ∈ b
  | .wrap _ x => HasNul x
  | .seq xs => HasNulAny xs
  | .just x => HasNul x
  | .iter xs => match xs with
    | [] => False
    | x :: _ => HasNul x
  | .tup xs => HasNulAny xs
  | _ => False
/-- The same for one of several. -/
def HasNulAny : List Src → Prop
  | [] => False
  | x :: xs => HasNul x ∨ HasNulAny xs
end

mutual
/-- Replace each `str` that contains a NUL. -/
def mend (f : Bytes → Bytes) : Src → Src
  | .str b => .str (if (0 : UInt8) ∈ b then f b else b)
  | .wrap u x => .wrap u (mend f x)
  | .seq xs => .seq (mendAll f xs)
  | .just x => .just (mend f x)
  | .iter xs => .iter (mendAll f xs)
  | .tup xs => .tup (mendAll f xs)
  | x => x
/-- The same for several. -/
def mendAll (f : Bytes → Bytes) : List Src → List Src
  | [] => []
  | x :: xs => mend f x :: mendAll f xs
end

end Spec
end GV
