import Verif.Model.Slice
/-
Model of gvariant/src/buf.rs (`AlignedBuf`) and of `copy_to_align`.
A `Vec<u8>` is its address, capacity and contents; the allocator's answers are arguments.
-/
namespace GV

/-- A `Vec<u8>`. -/
structure RVec where
  addr : Nat
  cap : Nat
  bytes : Bytes
deriving DecidableEq, Repr

/-- What the allocator answers to a request for a capacity: an address and how much more it gave. -/
structure Alloc where
  addr : Nat → Nat
  extra : Nat → Nat

namespace RVec

/-- The contents as a slice. -/
def slice (v : RVec) : Slice := ⟨v.addr, v.bytes⟩

/-- `vec![]`: capacity 0 and a dangling address, which is the alignment of `u8`
    (`NonNull::dangling`, Rust standard library). -/
def empty : RVec := ⟨1, 0, []⟩

/-- `Vec::reserve` (Rust standard library): reallocates if the capacity does not suffice. -/
def reserve (a : Alloc) (v : RVec) (n : Nat) : RVec :=
  if v.cap - v.bytes.length ≥ n then v
  else ⟨a.addr (v.bytes.length + n), v.bytes.length + n + a.extra (v.bytes.length + n), v.bytes⟩

/-- `Vec::resize(n, x)` (Rust standard library). -/
def resize (a : Alloc) (v : RVec) (n : Nat) (x : UInt8) : RVec :=
  if n ≤ v.bytes.length then { v with bytes := v.bytes.take n }
  else
    let w := v.reserve a (n - v.bytes.length)
    { w with bytes := w.bytes ++ List.replicate (n - v.bytes.length) x }

/-- `slice::rotate_right(k)` (Rust standard library): panics if `k > len`. -/
def rotateRight (v : RVec) (k : Nat) : Res RVec :=
  if k ≤ v.bytes.length then
    .ok { v with bytes := v.bytes.drop (v.bytes.length - k) ++ v.bytes.take (v.bytes.length - k) }
  else .fail .explicit

/-- `slice::rotate_left(k)` (Rust standard library): panics if `k > len`. -/
def rotateLeft (v : RVec) (k : Nat) : Res RVec :=
  if k ≤ v.bytes.length then .ok { v with bytes := v.bytes.drop k ++ v.bytes.take k }
  else .fail .explicit

/-- `Vec::truncate(n)` (Rust standard library). -/
def truncate (v : RVec) (n : Nat) : RVec := { v with bytes := v.bytes.take n }

/-- `<[u8]>::to_owned` (Rust standard library): a fresh exactly-sized vec; no allocation for an empty
    slice. -/
def ofSlice (a : Alloc) (b : Bytes) : RVec :=
  if b.isEmpty then .empty else ⟨a.addr b.length, b.length, b⟩

end RVec

/-- `offset_to_align` (gvariant/src/buf.rs:76-85). -/
def offsetToAlign (c : Cfg) (v : RVec) : Res Nat :=
  if v.bytes.isEmpty then .ok 0
  else
    let p := v.addr
    let out := uneg p &&& 7
    if c.debugAssertions then do
      let s ← uadd c p out
      if s &&& 7 = 0 then pure out else .fail .debugAssert
    else .ok out

/-- `is_aligned` (buf.rs:87-89). -/
def bufIsAligned (v : RVec) : Bool := v.bytes.isEmpty || v.addr &&& 7 == 0

/-- `align_cold` (buf.rs:99-104). -/
def alignCold (c : Cfg) (a : Alloc) (data : RVec) : Res RVec := do
  let data := data.reserve a 7
  let off ← offsetToAlign c data
  let n ← uadd c data.bytes.length off
  let data := data.resize a n 0
  data.rotateRight off

/-- `align` (buf.rs:92-96). -/
def alignVec (c : Cfg) (a : Alloc) (data : RVec) : Res RVec :=
  if bufIsAligned data then .ok data else alignCold c a data

/-- `unalign_cold` (buf.rs:113-117). -/
def unalignCold (c : Cfg) (data : RVec) : Res RVec := do
  let off ← offsetToAlign c data
  let data ← data.rotateLeft off
  let n ← usub c data.bytes.length off
  pure (data.truncate n)

/-- `unalign` (buf.rs:106-110). -/
def unalignVec (c : Cfg) (data : RVec) : Res RVec :=
  if bufIsAligned data then .ok data else unalignCold c data

/-- `AlignedBuf` (buf.rs:22-24). -/
structure AlignedBuf where
  data : RVec
deriving DecidableEq, Repr

namespace AlignedBuf

/-- `AlignedBuf::new` (buf.rs:35-37). -/
def new : AlignedBuf := ⟨.empty⟩

/-- `From<Vec<u8>>` (buf.rs:118-123). -/
def fromVec (c : Cfg) (a : Alloc) (v : RVec) : Res AlignedBuf := do
  let data ← alignVec c a v
  pure ⟨data⟩

/-- `From<AlignedBuf> for Vec<u8>` (buf.rs:124-129). -/
def intoVec (c : Cfg) (b : AlignedBuf) : Res RVec := unalignVec c b.data

/-- `Deref` and `DerefMut` (buf.rs:131-153). -/
def deref (c : Cfg) (b : AlignedBuf) : Res Slice := do
  let off ← offsetToAlign c b.data
  let s ← b.data.slice.from_ off
  unchecked c 8 s

/-- `with_vec` (buf.rs:54-70): unalign, run the callback, realign in the guard's `drop`, whether the
    callback returns or unwinds.  The callback is any function on the vec: new contents `f bytes`, at
    any address and capacity `place`. -/
def withVec (c : Cfg) (a : Alloc) (b : AlignedBuf) (f : RVec → RVec) : Res AlignedBuf := do
  let v ← unalignVec c b.data
  let v' ← alignVec c a (f v)
  pure ⟨v'⟩

/-- Write one byte through `DerefMut` (buf.rs:143-153): `buf[i] = x`. -/
def setAt (c : Cfg) (b : AlignedBuf) (i : Nat) (x : UInt8) : Res AlignedBuf := do
  let off ← offsetToAlign c b.data
  let s ← b.data.slice.from_ off
  let _ ← unchecked c 8 s
  if i < s.len then pure ⟨{ b.data with bytes := b.data.bytes.set (off + i) x }⟩
  else .fail .bounds

end AlignedBuf

/-- `Cow<AlignedSlice<A>>`. -/
inductive CowSlice
  | borrowed (s : Slice)
  | owned (b : AlignedBuf)

/-- `copy_to_align` (gvariant/src/aligned_bytes.rs:240-246). -/
def copyToAlign (c : Cfg) (a : Alloc) (al : Nat) (data : Slice) : Res CowSlice :=
  if data.isAligned al then do
    let s ← Res.unwrap (tryAsAligned 1 al data)
    pure (.borrowed s)
  else do
    let b ← AlignedBuf.fromVec c a (RVec.ofSlice a data.bytes)
    pure (.owned b)

/-- `Cow::as_ref` through `Borrow<AlignedSlice<A>> for AlignedBuf` (buf.rs:155-159). -/
def CowSlice.asRef (c : Cfg) : CowSlice → Res Slice
  | .borrowed s => .ok s
  | .owned b => b.deref c

/-- `AlignedSlice::to_owned` (aligned_bytes.rs:225-230). -/
def sliceToOwned (c : Cfg) (a : Alloc) (s : Slice) : Res AlignedBuf :=
  AlignedBuf.fromVec c a (RVec.ofSlice a s.bytes)

end GV
