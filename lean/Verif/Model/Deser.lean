import Verif.Model.Layout
import Verif.Model.Slice
import Verif.Model.Str
import Verif.Spec.Value
/-
Model of the reading side: gvariant/src/casting.rs, the `Cast` impls, arrays, maybes, structures and
variants of gvariant/src/lib.rs, and the readers generated by gvariant-macro.

A reference `&T` to a value of GVariant type `t` is the `Slice` it points to.  Types are used through
their type string, so Rust's generic parameter `T` is a `Ty` argument here, `T::AlignOf` is
`alignOf t`, and `size_of::<T>()`, `align_of::<T>()` of fixed-size types are `rustLayout t`.
-/
namespace GV

/-! ### Framing offsets -/

/-- `offset_size` (gvariant/src/lib.rs:1372-1381); `OffsetSize as usize` is the number. -/
def offsetSize (len : Nat) : Nat :=
  if len = 0 then 0
  else if len ≤ 0xff then 1
  else if len ≤ 0xffff then 2
  else if len ≤ 0xffffffff then 4
  else 8

/-- `uN::from_le_bytes` (core). -/
def fromLe : Bytes → Nat
  | [] => 0
  | b :: bs => b.toNat + 256 * fromLe bs

/-- `read_uint` (lib.rs:1384-1393).  `size` is one of 0, 1, 2, 4, 8. -/
def readUint (c : Cfg) (data : Bytes) (size n : Nat) : Res Nat := do
  let s ← umul c n size
  if size = 0 then pure 0
  else if size = 1 then
    match data[s]? with
    | some b => pure b.toNat
    | none => .fail .bounds
  else
    let e ← uadd c s size
    if s ≤ e ∧ e ≤ data.length then pure (fromLe ((data.take e).drop s)) else .fail .bounds

/-- `read_last_frame_offset` (lib.rs:1395-1415): offset size and the last framing offset. -/
def readLastFrameOffset (c : Cfg) (data : Bytes) : Res (Nat × Nat) :=
  let osz := offsetSize data.length
  if osz = 0 then .ok (1, 0)
  else do
    let p ← usub c data.length osz
    if p ≤ data.length then
      let last ← readUint c (data.drop p) osz 0
      if last > data.length then pure (osz, data.length)
      else if (data.length - last) % osz = 0 then pure (osz, last)
      else pure (osz, data.length)
    else .fail .bounds

/-! ### Casting bytes to Rust values (gvariant/src/casting.rs) -/

/-- The `unsafe` creation of a reference of alignment `ra`, guarded by `debug_assert!(is_aligned(..))`
    (casting.rs:106-108, 121-123). -/
def mkRef (c : Cfg) (ra : Nat) (s : Slice) : Res Slice :=
  if s.isAligned ra then .ok s
  else if c.debugAssertions then .fail .debugAssert
  else .fail .ub

/-- `try_cast_slice_to` and `try_cast_slice_to_mut` (casting.rs:103-128). `none` is
    `Err(WrongSize)`. -/
def tryCastSliceTo (c : Cfg) (t : Ty) (s : Slice) : Res (Option Slice) := do
  let (n, ra) ← rustLayout t
  if n = s.len then
    let r ← mkRef c ra s
    pure (some r)
  else pure none

/-- `cast_slice` (casting.rs:74-97) from a slice tagged `al` to `[T]`.  The `debug_assert!` comes
    before the length test; `% size_of::<T>()` panics on 0. -/
def castSlice (c : Cfg) (al : Nat) (e : Ty) (s : Slice) : Res (Option Slice) := do
  let (n, ra) ← rustLayout e
  if al < ra then .fail .explicit
  else if c.debugAssertions && !s.isAligned ra then .fail .debugAssert
  else if n = 0 then .fail .explicit
  else if s.len % n = 0 then
    if s.isAligned ra then pure (some s) else .fail .ub
  else pure none

/-- `Cast::try_from_aligned_slice` of the Rust type of `t`: numbers, `Bool` and packed structs
    (lib.rs:666-670, 1983-1987; generate_impl.rs:489-491) go through `try_cast_slice_to`, `[T]`
    (lib.rs:1303-1307) through `cast_slice`; all others just wrap the slice (lib.rs:779-783,
    1130-1134, 1455-1459, 1791-1795, 1902-1906; generate_impl.rs:109-113). -/
def tryFromAligned (c : Cfg) (t : Ty) (s : Slice) : Res (Option Slice) :=
  match sizeOf t with
  | some _ => tryCastSliceTo c t s
  | none =>
    match t with
    | .A e =>
      match sizeOf e with
      | some _ => castSlice c (alignOf t) e s
      | none => .ok (some s)
    | _ => .ok (some s)

/-- `Cast::default_ref`: a static zero value (lib.rs:663-665, 1980-1982, generate_impl.rs:485-488),
    `&[]` (lib.rs:1300-1302), `b""` (lib.rs:776-778), otherwise `empty_aligned()` (lib.rs:1127-1129,
    1452-1454, 1788-1790, 1899-1901; generate_impl.rs:103-108).  The compiler may put statics at any
    suitably aligned address: address `staticIdx * align`. -/
def defaultRef (c : Cfg) (t : Ty) : Res Slice :=
  match sizeOf t with
  | some _ => do
    let (n, ra) ← rustLayout t
    pure ⟨c.staticIdx * ra, List.replicate n 0⟩
  | none =>
    match t with
    | .S | .O | .G => .ok ⟨c.staticIdx, []⟩
    | .A e =>
      match sizeOf e with
      | some _ => do
        let (_, ra) ← rustLayout e
        pure ⟨c.staticIdx * ra, []⟩
      | none => emptyAligned c (alignOf t)
    | _ => emptyAligned c (alignOf t)

/-- `Cast::from_aligned_slice` (lib.rs:638-643), which is also `Marker::cast` (lib.rs:351-353). -/
def fromAligned (c : Cfg) (t : Ty) (s : Slice) : Res Slice := do
  match ← tryFromAligned c t s with
  | some r => pure r
  | none => defaultRef c t

/-- `Cast::try_from_aligned_slice_mut` of the Rust type of `t`, i.e. `Marker::try_cast_mut`
    (lib.rs:357-362): as `try_from_aligned_slice`, but `todo!()` for `[T]` (lib.rs:1308-1312). -/
def tryFromAlignedMut (c : Cfg) (t : Ty) (s : Slice) : Res (Option Slice) :=
  match sizeOf t with
  | some _ => tryCastSliceTo c t s
  | none =>
    match t with
    | .A e =>
      match sizeOf e with
      | some _ => .fail .todo
      | none => .ok (some s)
    | _ => .ok (some s)

/-! ### Arrays of non-fixed-size elements -/

/-- `NonFixedWidthArray::len` (lib.rs:1469-1479). -/
def arrLen (c : Cfg) (s : Slice) : Res Nat := do
  let (osz, lfo) ← readLastFrameOffset c s.bytes
  let d ← usub c s.len lfo
  if osz = 0 then .fail .explicit else pure (d / osz)

/-- `NonFixedWidthArrayIterator` (lib.rs:1527-1534). -/
structure ArrIter where
  data : Slice
  offsets : Bytes
  nextStart : Nat
  offsetIdx : Nat
  offsetSize : Nat
deriving DecidableEq, Repr

/-- `into_iter` (lib.rs:1588-1598), also `iter` (lib.rs:1485-1487). -/
def intoIter (c : Cfg) (e : Ty) (s : Slice) : Res ArrIter := do
  let (osz, lfo) ← readLastFrameOffset c s.bytes
  let (data, offsets) ← splitAt c (alignOf e) s lfo
  pure ⟨data, offsets.bytes, 0, 0, osz⟩

/-- `&data[..end][start..]` with `start: AlignedOffset` (lib.rs:1570, 1611, 2126). -/
def window (c : Cfg) (al : Nat) (data : Slice) (start stop : Nat) : Res Slice := do
  let d ← idxTo c al data stop
  idxAFrom c al d start

/-- `NonFixedWidthArrayIterator::next` (lib.rs:1555-1573): the item and the new iterator state. -/
def iterNext (c : Cfg) (e : Ty) (it : ArrIter) : Res (Option Slice × ArrIter) :=
  if it.offsetIdx ≥ it.offsets.length then .ok (none, it)
  else do
    let start ← alignOffset c (alignOf e) it.nextStart
    let stop ← readUint c (it.offsets.drop it.offsetIdx) it.offsetSize 0
    let idx ← uadd c it.offsetIdx it.offsetSize
    let it' := { it with offsetIdx := idx, nextStart := stop }
    if stop < start ∨ stop > it.data.len then
      let d ← emptyAligned c (alignOf e)
      let o ← tryFromAligned c e d
      let r ← Res.unwrap o
      pure (some r, it')
    else
      let d ← window c (alignOf e) it.data start stop
      let o ← tryFromAligned c e d
      let r ← Res.unwrap o
      pure (some r, it')

/-- `size_hint` (lib.rs:1574-1580), both components. -/
def sizeHint (c : Cfg) (it : ArrIter) : Res Nat :=
  if it.offsetSize = 0 then .ok 0
  else do
    let d ← usub c it.offsets.length it.offsetIdx
    pure (d / it.offsetSize)

/-- Run `next` until it returns `None`, collecting the items.  The fuel bounds the number of calls;
    running out of it is the fault `explicit` (shown not to happen). -/
def collectIter (c : Cfg) (e : Ty) : Nat → ArrIter → Res (List Slice)
  | 0, _ => .fail .explicit
  | fuel + 1, it => do
    match ← iterNext c e it with
    | (none, _) => pure []
    | (some r, it') => do
      let rs ← collectIter c e fuel it'
      pure (r :: rs)

/-- `Index<usize>` (lib.rs:1600-1622).  `&self.data.as_ref()[lfo..]` is a bounds-checked slice. -/
def arrIndex (c : Cfg) (e : Ty) (s : Slice) (index : Nat) : Res Slice := do
  let (osz, lfo) ← readLastFrameOffset c s.bytes
  if lfo ≤ s.len then
    let frameOffsets := s.bytes.drop lfo
    let stop ← readUint c frameOffsets osz index
    let prev ← (if index = 0 then pure 0 else readUint c frameOffsets osz (index - 1))
    let start ← alignOffset c (alignOf e) prev
    if start < s.len ∧ stop ≤ lfo ∧ start ≤ stop then
      let d ← window c (alignOf e) s start stop
      let o ← tryFromAligned c e d
      Res.unwrap o
    else
      let d ← emptyAligned c (alignOf e)
      let o ← tryFromAligned c e d
      Res.unwrap o
  else .fail .bounds

/-- `first` (lib.rs:1489-1495). -/
def arrFirst (c : Cfg) (e : Ty) (s : Slice) : Res (Option Slice) := do
  let n ← arrLen c s
  if n = 0 then pure none
  else do
    let r ← arrIndex c e s 0
    pure (some r)

/-- `last` (lib.rs:1497-1503). -/
def arrLast (c : Cfg) (e : Ty) (s : Slice) : Res (Option Slice) := do
  let n ← arrLen c s
  if n = 0 then pure none
  else do
    let i ← usub c n 1
    let r ← arrIndex c e s i
    pure (some r)

/-- The elements of a Rust slice `&[T]` with `size_of::<T>() = n`. -/
def sliceElems (n : Nat) (s : Slice) : List Slice :=
  (List.range (s.len / n)).map fun i => ⟨s.addr + i * n, (s.bytes.drop (i * n)).take n⟩

/-- References to all elements of an array: those of the Rust slice `[T]`, or what iterating a
    `NonFixedWidthArray` yields. -/
def arrRefs (c : Cfg) (e : Ty) (s : Slice) : Res (List Slice) :=
  match sizeOf e with
  | some _ => do
    let (n, _) ← rustLayout e
    pure (sliceElems n s)
  | none => do
    let it ← intoIter c e s
    collectIter c e (it.offsets.length + 1) it

/-! ### Maybes -/

/-- `MaybeFixedSize::to_option` (lib.rs:1731-1748) and `MaybeNonFixedSize::to_option`
    (lib.rs:1875-1891). -/
def toOption (c : Cfg) (e : Ty) (s : Slice) : Res (Option Slice) :=
  match sizeOf e with
  | some _ => tryFromAligned c e s
  | none =>
    if s.bytes.isEmpty then .ok none
    else do
      let n ← usub c s.len 1
      let d ← idxTo c (alignOf e) s n
      let o ← tryFromAligned c e d
      let r ← Res.unwrap o
      pure (some r)

/-! ### Structures -/

/-- `nth_last_frame_offset` (lib.rs:2053-2061). -/
def nthLastFrameOffset (c : Cfg) (data : Bytes) (osz n : Nat) : Res (Option Nat) :=
  if n = 0 then .ok (some 0)
  else do
    let m ← umul c n osz
    match checkedSub data.length m with
    | some off => do
      let v ← readUint c (data.drop off) osz 0
      pure (some v)
    | none => pure none

/-- `calc_offsets::<ChildAlign, B>` (lib.rs:2064-2094).  `childAl` is `ChildAlign`; the row gives
    `i`, `a`, `B`, `c`.  `(i + 1) as usize` never wraps since `i ≥ -1`. -/
def calcOffsets (c : Cfg) (childAl : Nat) (data : Bytes) (row : Row) (size : Option Nat)
    (lastChild : Bool) (nfo : Nat) : Res (Option (Nat × Nat)) := do
  let osz := offsetSize data.length
  match ← nthLastFrameOffset c data osz (row.i + 1).toNat with
  | none => pure none
  | some fo => do
    let m ← umul c osz nfo
    match checkedSub data.length m with
    | none => pure none
    | some dataEnd => do
      let x ← uadd c fo row.a
      let y ← alignOffset c row.b x
      let z ← Res.unwrap (tryNew childAl row.c)
      let start ← uadd c y z
      let stop ← (match size with
        | some n => do
          let e ← uadd c start n
          pure (some e)
        | none =>
          if lastChild then pure (some dataEnd)
          else nthLastFrameOffset c data osz (row.i + 2).toNat)
      match stop with
      | none => pure none
      | some stop => if start ≤ stop ∧ stop ≤ dataEnd then pure (some (start, stop)) else pure none

/-- `get_child_elem` (lib.rs:2105-2129). -/
def getChildElem (c : Cfg) (t : Ty) (data : Slice) (row : Row) (lastChild : Bool) (nfo : Nat) :
    Res Slice := do
  match ← calcOffsets c (alignOf t) data.bytes row (sizeOf t) lastChild nfo with
  | some (start, stop) => do
    let d ← window c (alignOf t) data start stop
    fromAligned c t d
  | none => defaultRef c t

/-- The generated `to_tuple` of a non-fixed-size structure (generate_impl.rs:126, 148-170): one
    `get_child_elem` call per member, with `self.data.as_aligned()` changing only the tag. -/
def memberRefs (c : Cfg) (data : Slice) (nfo : Nat) : List Ty → List Row → Res (List Slice)
  | t :: ts, row :: rows => do
    let r ← getChildElem c t data row ts.isEmpty nfo
    let rs ← memberRefs c data nfo ts rows
    pure (r :: rs)
  | _, _ => .ok []

/-- References to the fields of a packed struct at the given offsets. -/
def fieldRefs (s : Slice) : List Nat → List Nat → List Slice
  | o :: os, n :: ns => ⟨s.addr + o, (s.bytes.drop o).take n⟩ :: fieldRefs s os ns
  | _, _ => []

/-- The generated `to_tuple`: field references for packed structs (generate_impl.rs:480-482), else
    `memberRefs`. `gv` is the structure type and `ts` its members. -/
def tupRefs (c : Cfg) (gv : Ty) (ts : List Ty) (s : Slice) : Res (List Slice) :=
  match sizeOf gv with
  | some _ => do
    let offs ← fieldOffsets gv ts
    let ls ← rustLayouts ts
    pure (fieldRefs s offs (ls.map (·.1)))
  | none => do
    let p ← writeNonFixedSizeStructure ts
    memberRefs c s p.nFrameOffsets ts p.rows

/-! ### Variants -/

/-- `memchr::memrchr(b'\0', b)`: index of the last NUL. -/
def memrchr0 : Bytes → Option Nat
  | [] => none
  | b :: bs =>
    match memrchr0 bs with
    | some i => some (i + 1)
    | none => if b = 0 then some 0 else none

/-- `Variant::split` (lib.rs:1208-1219): type string and data. -/
def split (c : Cfg) (s : Slice) : Res (Bytes × Slice) :=
  match memrchr0 s.bytes with
  | some mid => do
    let (data, ty) ← splitAt c 8 s mid
    let t ← ty.from_ 1
    pure (t.bytes, data)
  | none => do
    let d ← emptyAligned c 8
    pure ([40, 41], d)

/-- `Variant::get` (lib.rs:1180-1191). -/
def variantGet (c : Cfg) (t : Ty) (s : Slice) : Res (Option Slice) := do
  let (ty, data) ← split c s
  if ty = t.show then
    let r ← fromAligned c t data
    pure (some r)
  else pure none

/-! ### Reading everything -/

/-- `uN::from_ne_bytes`: how a number is read in place. -/
def fromNe (c : Cfg) (b : Bytes) : Nat := if c.bigEndian then fromLe b.reverse else fromLe b

/-- `Bool::to_bool` (lib.rs:1975-1977) of the byte the reference points to. -/
def toBool (b : Bytes) : Bool :=
  match b with
  | x :: _ => x > 0
  | [] => false

mutual
/-- Read everything reachable from a reference to a value of type `t`: `to_bool`, the number itself,
    `to_str`, `split`, iteration, `to_option`, `to_tuple`. -/
def view (c : Cfg) : Ty → Slice → Res Val
  | .B, s => .ok (.bool (toBool s.bytes))
  | .Y, s | .N, s | .Q, s | .I, s | .U, s | .X, s | .T, s | .D, s => .ok (.num (fromNe c s.bytes))
  | .S, s | .O, s | .G, s => .ok (.str (toStr s.bytes))
  | .V, s => do
    let (ty, data) ← split c s
    pure (.variant ty data.bytes)
  | .A e, s => do
    let rs ← arrRefs c e s
    let vs ← Res.traverse (view c e) rs
    pure (.arr vs)
  | .M e, s => do
    match ← toOption c e s with
    | none => pure .nothing
    | some r => do
      let v ← view c e r
      pure (.just v)
  | .tuple ts, s => do
    let rs ← tupRefs c (.tuple ts) ts s
    let vs ← viewAll c ts rs
    pure (.tup vs)
  | .dict k v, s => do
    match ← tupRefs c (.dict k v) [k, v] s with
    | [rk, rv] => do
      let x ← view c k rk
      let y ← view c v rv
      pure (.tup [x, y])
    | _ => .fail .explicit
/-- Read each member of a structure. -/
def viewAll (c : Cfg) : List Ty → List Slice → Res (List Val)
  | t :: ts, r :: rs => do
    let v ← view c t r
    let vs ← viewAll c ts rs
    pure (v :: vs)
  | [], [] => .ok []
  | _, _ => .fail .explicit
end

/-- Cast bytes to type `t` and read everything. -/
def readAs (c : Cfg) (t : Ty) (s : Slice) : Res Val := do
  let r ← fromAligned c t s
  view c t r

end GV
