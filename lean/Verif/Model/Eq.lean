import Verif.Model.Deser
/-
Model of comparing values that were read: the `PartialEq`, `PartialOrd` and `Hash` impls of
gvariant/src/lib.rs and the `PartialEq` impls generated by gvariant-macro.
-/
namespace GV

/-- `PartialEq for Variant` (gvariant/src/lib.rs:1221-1227): tuples of type string and `AlignedSlice`,
    the latter compared by contents (aligned_bytes.rs:220-224). -/
def variantEq (c : Cfg) (a b : Slice) : Res Bool := do
  let p ← split c a
  let q ← split c b
  pure (p.1 == q.1 && p.2.bytes == q.2.bytes)

/-! ### Numbers (core) -/

/-- `f64::is_nan` on the bit pattern: exponent all ones, mantissa not zero. -/
def f64Nan (n : Nat) : Bool := n % 2 ^ 63 > 0x7ff0000000000000

/-- `f64 == f64` on bit patterns: NaN is equal to nothing, the two zeros are equal. -/
def f64Eq (a b : Nat) : Bool :=
  !f64Nan a && !f64Nan b && (a == b || (a % 2 ^ 63 == 0 && b % 2 ^ 63 == 0))

/-- Position of a double that is not NaN on the number line: bit patterns of one sign are ordered like
    the values. -/
def f64Rank (n : Nat) : Int := if n < 2 ^ 63 then n else -((n % 2 ^ 63 : Nat) : Int)

/-- Value of a two's complement number of `w` bytes. -/
def signed (w n : Nat) : Int := if n < 256 ^ w / 2 then n else (n : Int) - (256 ^ w : Nat)

/-- `Ord::cmp` of two integers. -/
def icmp (a b : Int) : Ordering := if a < b then .lt else if a = b then .eq else .gt

/-- `PartialOrd::partial_cmp` of two numbers of a type, by bit patterns; `none` is incomparable.  Other
    types that can be in a `MaybeFixedSize` implement no `PartialOrd` (`Bool`: gvariant/src/lib.rs:1970;
    structures: generate_impl.rs:402), for them the call does not compile. -/
def numCmp : Ty → Nat → Nat → Option Ordering
  | .Y, a, b | .Q, a, b | .U, a, b | .T, a, b => some (icmp a b)
  | .N, a, b => some (icmp (signed 2 a) (signed 2 b))
  | .I, a, b => some (icmp (signed 4 a) (signed 4 b))
  | .X, a, b => some (icmp (signed 8 a) (signed 8 b))
  | .D, a, b => if f64Nan a || f64Nan b then none else some (icmp (f64Rank a) (f64Rank b))
  | _, _, _ => none

/-- A call to a `Hasher`: `write_isize`, or the write of an integer type. -/
inductive HashCall
  | isize (n : Nat)
  | int (t : Ty) (n : Nat)
deriving DecidableEq

/-! ### Equality -/

/-- `Iterator::zip` of two array iterators in a `for` loop that returns `false` at the first pair that
    differs (lib.rs:1511-1516).  The fuel bounds the number of rounds. -/
def zipLoop (c : Cfg) (e : Ty) (eq : Slice → Slice → Res Bool) : Nat → ArrIter → ArrIter → Res Bool
  | 0, _, _ => .fail .explicit
  | fuel + 1, it, it' => do
    match ← iterNext c e it with
    | (none, _) => pure true
    | (some r, it1) => do
      match ← iterNext c e it' with
      | (none, _) => pure true
      | (some r', it1') => do
        let b ← eq r r'
        if b then zipLoop c e eq fuel it1 it1' else pure false

/-- Comparing element by element, `false` at the first pair that differs: `[T] == [T]` after the
    comparison of lengths (core). -/
def zipEq (eq : Slice → Slice → Res Bool) : List Slice → List Slice → Res Bool
  | r :: rs, r' :: rs' => do
    let b ← eq r r'
    if b then zipEq eq rs rs' else pure false
  | _, _ => .ok true

/-- The loop of `PartialEq<[&T]> for NonFixedWidthArray` (lib.rs:1540-1544). -/
def refLoop (c : Cfg) (e : Ty) (eq : Slice → Slice → Res Bool) : Nat → ArrIter → List Slice → Res Bool
  | 0, _, _ => .fail .explicit
  | fuel + 1, it, ys => do
    match ← iterNext c e it with
    | (none, _) => pure true
    | (some r, it1) => do
      match ys with
      | [] => pure true
      | y :: ys => do
        let b ← eq r y
        if b then refLoop c e eq fuel it1 ys else pure false

mutual
/-- `==` of two references to values of GVariant type `t`: `Bool` (lib.rs:2008-2012), integers and `f64`
    (core), `Str` (lib.rs:830-835), `Variant` (lib.rs:1221-1227), `[T]` (core), `NonFixedWidthArray`
    (lib.rs:1506-1518), maybes (lib.rs:1755-1759, 1928-1932), structures (generate_impl.rs:227-231,
    496-500). -/
def veq (c : Cfg) : Ty → Slice → Slice → Res Bool
  | .B, a, b => .ok (toBool a.bytes == toBool b.bytes)
  | .D, a, b => .ok (f64Eq (fromNe c a.bytes) (fromNe c b.bytes))
  | .Y, a, b | .N, a, b | .Q, a, b | .I, a, b | .U, a, b | .X, a, b | .T, a, b =>
    .ok (fromNe c a.bytes == fromNe c b.bytes)
  | .S, a, b | .O, a, b | .G, a, b => .ok (strEq a.bytes b.bytes)
  | .V, a, b => variantEq c a b
  | .A e, a, b =>
    match sizeOf e with
    | some _ => do
      let (n, _) ← rustLayout e
      if (sliceElems n a).length = (sliceElems n b).length then
        zipEq (veq c e) (sliceElems n a) (sliceElems n b)
      else pure false
    | none => do
      let m ← arrLen c a
      let n ← arrLen c b
      if m ≠ n then pure false
      else
        let it ← intoIter c e a
        let it' ← intoIter c e b
        zipLoop c e (veq c e) (it.offsets.length + 1) it it'
  | .M e, a, b => do
    let o ← toOption c e a
    let o' ← toOption c e b
    match o, o' with
    | none, none => pure true
    | some r, some r' => veq c e r r'
    | _, _ => pure false
  | .tuple ts, a, b => do
    let rs ← tupRefs c (.tuple ts) ts a
    let rs' ← tupRefs c (.tuple ts) ts b
    veqAll c ts rs rs'
  | .dict k v, a, b => do
    let rs ← tupRefs c (.dict k v) [k, v] a
    let rs' ← tupRefs c (.dict k v) [k, v] b
    match rs, rs' with
    | [rk, rv], [rk', rv'] => do
      let x ← veq c k rk rk'
      if x then veq c v rv rv' else pure false
    | _, _ => .fail .explicit
/-- `==` of tuples (core), and `true && self.field_0 == other.field_0 && …` (generate_impl.rs:498). -/
def veqAll (c : Cfg) : List Ty → List Slice → List Slice → Res Bool
  | t :: ts, r :: rs, r' :: rs' => do
    let b ← veq c t r r'
    if b then veqAll c ts rs rs' else pure false
  | [], [], [] => .ok true
  | _, _, _ => .fail .explicit
end

/-- Cast two byte strings to type `t` and compare the results. -/
def eqAs (c : Cfg) (t : Ty) (a b : Slice) : Res Bool := do
  let r ← fromAligned c t a
  let r' ← fromAligned c t b
  veq c t r r'

/-- `PartialEq<[&T]> for NonFixedWidthArray` and its mirror image (lib.rs:1535-1553). -/
def arrEqRefs (c : Cfg) (e : Ty) (a : Slice) (ys : List Slice) : Res Bool := do
  let m ← arrLen c a
  if m ≠ ys.length then pure false
  else
    let it ← intoIter c e a
    refLoop c e (veq c e) (it.offsets.length + 1) it ys

/-! ### Maybes: comparison with `Option`, ordering, hashing -/

/-- `PartialEq<Option<&T>>` of both kinds of maybes and its mirror images (lib.rs:1761-1770, 1934-1943). -/
def maybeEqOption (c : Cfg) (e : Ty) (a : Slice) (o : Option Slice) : Res Bool := do
  let p ← toOption c e a
  match p, o with
  | none, none => pure true
  | some r, some r' => veq c e r r'
  | _, _ => pure false

/-- `PartialOrd for MaybeFixedSize` (lib.rs:1771-1775); `Option`'s ordering puts `None` first (core). -/
def maybeCmp (c : Cfg) (e : Ty) (a b : Slice) : Res (Option Ordering) := do
  let o ← toOption c e a
  let o' ← toOption c e b
  pure (match o, o' with
    | none, none => some .eq
    | none, some _ => some .lt
    | some _, none => some .gt
    | some r, some r' => numCmp e (fromNe c r.bytes) (fromNe c r'.bytes))

/-- `Hash for MaybeFixedSize` (lib.rs:1776-1780): what is fed to the hasher.  `Option` derives `Hash`:
    the discriminant as an `isize`, then the content (core).  Only integer contents implement `Hash`. -/
def maybeHash (c : Cfg) (e : Ty) (a : Slice) : Res (List HashCall) := do
  let o ← toOption c e a
  pure (match o with
    | none => [.isize 0]
    | some r => [.isize 1, .int e (fromNe c r.bytes)])

end GV
