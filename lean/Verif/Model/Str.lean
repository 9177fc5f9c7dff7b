import Verif.Model.Slice
/-
Model of `Str` and `GString` (gvariant/src/lib.rs:700-1092).
A Rust `str`/`String` is its bytes; that they are UTF-8 is a property (`utf8Valid`), not a type.
-/
namespace GV

/-! ### UTF-8, as checked by `core::str::from_utf8` -/

/-- continuation byte -/
def isCont (b : UInt8) : Bool := 0x80 ≤ b && b ≤ 0xbf
/-- well-formed two-byte sequence -/
def utf8Two (a b : UInt8) : Bool := 0xc2 ≤ a && a ≤ 0xdf && isCont b
/-- well-formed three-byte sequence (no overlong forms, no surrogates) -/
def utf8Three (a b c : UInt8) : Bool :=
  ((a == 0xe0 && 0xa0 ≤ b && b ≤ 0xbf) ||
   (0xe1 ≤ a && a ≤ 0xec && isCont b) ||
   (a == 0xed && 0x80 ≤ b && b ≤ 0x9f) ||
   (0xee ≤ a && a ≤ 0xef && isCont b)) && isCont c
/-- well-formed four-byte sequence (up to U+10FFFF) -/
def utf8Four (a b c d : UInt8) : Bool :=
  ((a == 0xf0 && 0x90 ≤ b && b ≤ 0xbf) ||
   (0xf1 ≤ a && a ≤ 0xf3 && isCont b) ||
   (a == 0xf4 && 0x80 ≤ b && b ≤ 0x8f)) && isCont c && isCont d

/-- `core::str::from_utf8(b).is_ok()` (Rust standard library; Unicode standard table 3-7). -/
def utf8Valid : Bytes → Bool
  | [] => true
  | a :: r =>
    if a < 0x80 then utf8Valid r
    else match r with
      | [] => false
      | b :: r2 =>
        if utf8Two a b then utf8Valid r2
        else match r2 with
          | [] => false
          | c :: r3 =>
            if utf8Three a b c then utf8Valid r3
            else match r3 with
              | [] => false
              | d :: r4 => utf8Four a b c d && utf8Valid r4

/-! ### `Str` -/

/-- `Str::as_bytes_non_conformant` (gvariant/src/lib.rs:739-745). -/
def asBytesNC (data : Bytes) : Bytes :=
  match data.getLast? with
  | some 0 => data.take (data.length - 1)
  | _ => []

/-- `Str::to_str` (lib.rs:758-768). `memchr::memchr(0, b).is_some()` is membership. -/
def toStr (data : Bytes) : Bytes :=
  let b := asBytesNC data
  if b.contains 0 then []
  else if utf8Valid (asBytesNC data) then asBytesNC data else []

/-- `PartialEq for Str` (lib.rs:830-835). -/
def strEq (a b : Bytes) : Bool := asBytesNC a == asBytesNC b || toStr a == toStr b

/-- `PartialEq<str> for Str` and the other way round (lib.rs:836-845). -/
def strEqStr (a : Bytes) (s : Bytes) : Bool := toStr a == s

/-! ### `GString` -/

/-- `GString` (lib.rs:939-944): the `String`'s bytes and its capacity. -/
structure GString where
  data : Bytes
  cap : Nat
deriving DecidableEq, Repr

/-- `String::pop` (Rust standard library): drop the last character, that is trailing continuation
    bytes and one more byte. -/
def popChar (b : Bytes) : Bytes := ((b.reverse.dropWhile isCont).drop 1).reverse

/-- `String::reserve` (Rust standard library); `extra` says how much more than requested the
    allocator gives. -/
def capReserve (extra : Nat → Nat) (len cap n : Nat) : Nat :=
  if cap - len ≥ n then cap else len + n + extra (len + n)

namespace GString

/-- `"\0".to_owned()`, i.e. `GString::new` (lib.rs:985-989). -/
def new : GString := ⟨[0], 1⟩

/-- `GString::with_capacity` (lib.rs:993-999). The `String` with the requested capacity is dropped.
    `String::with_capacity` panics (capacity overflow) if asked for more than `isize::MAX` bytes. -/
def withCapacity (c : Cfg) (n : Nat) : Res GString := do
  let m ← uadd c n 1
  if m < 2 ^ 63 then pure ⟨[0], 1⟩ else .fail .explicit

/-- `capacity` (lib.rs:957-959). -/
def capacity (c : Cfg) (g : GString) : Res Nat := usub c g.cap 1

/-- `len` (lib.rs:978-980). -/
def len (c : Cfg) (g : GString) : Res Nat := usub c g.data.length 1

/-- `String::reserve` for bytes that exist already. -/
def room (extra : Nat → Nat) (g : GString) (n : Nat) : GString :=
  { g with cap := capReserve extra g.data.length g.cap n }

/-- `reserve` (lib.rs:964-966).  `String::reserve` panics (capacity overflow) if it would need more than
    `isize::MAX` bytes.  (Strings that could be pushed to get there do not exist; running out of memory is
    not modelled.) -/
def reserve (extra : Nat → Nat) (g : GString) (n : Nat) : Res GString :=
  if n ≤ g.cap - g.data.length ∨ g.data.length + n < 2 ^ 63 then .ok (g.room extra n) else .fail .explicit

/-- `String::push_str`: make room, append. -/
def append (extra : Nat → Nat) (g : GString) (s : Bytes) : GString :=
  ⟨g.data ++ s, capReserve extra g.data.length g.cap s.length⟩

/-- `clear` (lib.rs:970-973). -/
def clear (extra : Nat → Nat) (g : GString) : GString := append extra ⟨[], g.cap⟩ [0]

/-- `try_push_str` (lib.rs:1003-1014), also `fmt::Write::write_str` (lib.rs:1045-1049): the new state
    and whether it returned `Ok`. -/
def tryPushStr (extra : Nat → Nat) (g : GString) (s : Bytes) : GString × Bool :=
  if s.contains 0 then (g, false)
  else
    let g := g.room extra s.length
    let g : GString := ⟨popChar g.data, g.cap⟩
    let g := g.append extra s
    (g.append extra [0], true)

/-- `from_str_unchecked` (lib.rs:1015-1020). -/
def fromStrUnchecked (extra : Nat → Nat) (s : Bytes) : GString :=
  ((⟨[], s.length + 1 + extra (s.length + 1)⟩ : GString).append extra s).append extra [0]

/-- `TryFrom<String>` (lib.rs:1053-1064). -/
def tryFrom (extra : Nat → Nat) (value : Bytes) (cap : Nat) : Option GString :=
  if value.contains 0 then none else some (append extra ⟨value, cap⟩ [0])

/-- `From<GString> for String` (lib.rs:1065-1071). -/
def intoString (g : GString) : Bytes := popChar g.data

/-- `CString::from_vec_with_nul` / `CStr::from_bytes_with_nul` (Rust standard library): the first NUL
    must be the last byte. -/
def withNul (b : Bytes) : Option Bytes :=
  match b.findIdx? (· == 0) with
  | some i => if i + 1 = b.length then some b else none
  | none => none

/-- `From<GString> for CString` (lib.rs:1073-1078) and `AsRef<CStr>` (lib.rs:1080-1084). -/
def intoCString (g : GString) : Res Bytes := Res.unwrap (withNul g.data)

/-- `&s[..n]` on a `str` (Rust standard library): panics if `n` is past the end or inside a
    character. -/
def strTo (b : Bytes) (n : Nat) : Res Bytes :=
  if n ≤ b.length ∧ ((b.drop n).head?.map isCont ≠ some true) then .ok (b.take n) else .fail .bounds

/-- `AsRef<str>` and `as_str` (lib.rs:953-955, 1085-1089). -/
def asStr (c : Cfg) (g : GString) : Res Bytes := do
  let n ← usub c g.data.length 1
  strTo g.data n

/-- `Deref<Target = Str>` and `Borrow<Str>` (lib.rs:1033-1044): the `Str` over all the bytes. -/
def deref (g : GString) : Bytes := g.data

/-- derived `PartialEq` (lib.rs:939). -/
def eq (a b : GString) : Bool := a.data == b.data

/-- Byte-wise lexicographic comparison, the `Ord` of `String` and `str` (Rust standard library). -/
def cmpBytes : Bytes → Bytes → Ordering
  | [], [] => .eq
  | [], _ :: _ => .lt
  | _ :: _, [] => .gt
  | a :: as, b :: bs => if a < b then .lt else if b < a then .gt else cmpBytes as bs

/-- derived `Ord`/`PartialOrd` (lib.rs:939). -/
def cmp (a b : GString) : Ordering := cmpBytes a.data b.data

end GString

/-- `Str::to_owned` (lib.rs:868-873). -/
def strToOwned (extra : Nat → Nat) (data : Bytes) : GString := GString.fromStrUnchecked extra (toStr data)

end GV
