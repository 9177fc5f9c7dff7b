import Verif.Model.Deser
/-
Model of the comparison and conversion impls of `AlignedOffset` (gvariant/src/offset.rs) and
`AlignedSlice` (gvariant/src/aligned_bytes.rs), and of the conversions of aligned slices to slices of
numbers (gvariant/src/casting.rs).

An `AlignedOffset<A>` is the number it holds; that it is a multiple of `A::ALIGNMENT` is C10.
-/
namespace GV

/-! ### Offsets -/

/-- `to_usize`, `Borrow<usize>` and `From<AlignedOffset<A>> for usize` (offset.rs:19-21, 82-91). -/
def offToUsize (a : Nat) : Nat := a

/-- `TryFrom<usize> for AlignedOffset<A>` (offset.rs:76-81). `none` is `Err(Misaligned)`. -/
def offTryFrom (al n : Nat) : Option Nat := tryNew al n

/-- `PartialEq<usize> for AlignedOffset<A>` (offset.rs:56-60). -/
def offEqUsize (a n : Nat) : Bool := n == a

/-- `PartialEq<AlignedOffset<A>> for usize` (offset.rs:66-70). -/
def usizeEqOff (n a : Nat) : Bool := n == a

/-- `usize::partial_cmp` (core). -/
def usizeCmp (a b : Nat) : Option Ordering :=
  some (if a < b then .lt else if a = b then .eq else .gt)

/-- `PartialOrd<usize> for AlignedOffset<A>` (offset.rs:61-65). -/
def offCmpUsize (a n : Nat) : Option Ordering := usizeCmp a n

/-- `PartialOrd<AlignedOffset<A>> for usize` (offset.rs:71-75). -/
def usizeCmpOff (n a : Nat) : Option Ordering := usizeCmp n a

/-- The traits the marker types `A1`, `A2`, `A4`, `A8` derive (aligned_bytes.rs:131-160). -/
def markerDerives : List String := ["Debug", "Copy", "Clone"]

/-- Does `AlignedOffset<A>` have the trait that is derived for it (offset.rs:12)?  `#[derive]` puts the
    bound `A: Trait` on the type parameter, so only if the marker type has it. -/
def offDerived (tr : String) : Bool :=
  ["Debug", "Copy", "Clone", "PartialEq", "Eq", "PartialOrd", "Ord"].contains tr && markerDerives.contains tr

/-- `a == b` for two `AlignedOffset<A>`s (offset.rs:12); `none` if rustc finds no impl. -/
def offEqOff (a b : Nat) : Option Bool := if offDerived "PartialEq" then some (a == b) else none

/-! ### Slices -/

/-- `PartialEq for AlignedSlice<A>` (aligned_bytes.rs:220-224). -/
def alignedEq (a b : Slice) : Bool := a.bytes == b.bytes

/-- `Index<usize> for AlignedSlice<A>` (aligned_bytes.rs:381-386). -/
def idxByte (s : Slice) (i : Nat) : Res UInt8 :=
  match s.bytes[i]? with
  | some x => .ok x
  | none => .fail .bounds

/-- `as_aligned_mut` (aligned_bytes.rs:324-335): as `as_aligned`, the `assert!` compares
    `align_of_val` of two `AlignedSlice`s, which is 1 for both; also `AsRef` and `AsMut`
    (aligned_bytes.rs:363-379), `AsRef<[u8]>`, `AsMut<[u8]>` and `Deref` (257-267, 584-593). -/
def asAlignedMut (_fromA _toA : Nat) (s : Slice) : Res Slice := .ok s

/-- `as_aligned`, `as_aligned_mut` and `From` from plain bytes to `AlignedSlice<A1>`
    (aligned_bytes.rs:268-300, 572-583). -/
def bytesAsAligned (c : Cfg) (s : Slice) : Res Slice := unchecked c 1 s

/-! ### Slices of numbers -/

/-- The alignment marker in the table of number types (casting.rs:147-154): the type of slice from which
    `TryInto<&[T]>` is implemented.  `none` for types not in the table. -/
def castAlign : Ty → Option Nat
  | .Y => some 1
  | .N | .Q => some 2
  | .I | .U => some 4
  | .X | .T | .D => some 8
  | _ => none

/-- `TryInto<&[T]> for &AlignedSlice<A>` (casting.rs:138-143), as the numbers (bit patterns) in the
    slice.  `none` is `Err(WrongSize)`; the `explicit` fault stands for the missing impl. -/
def tryIntoNums (c : Cfg) (t : Ty) (s : Slice) : Res (Option (List Nat)) :=
  match castAlign t with
  | none => .fail .explicit
  | some al => do
    match ← castSlice c al t s with
    | none => pure none
    | some r => do
      let (n, _) ← rustLayout t
      pure (some ((sliceElems n r).map fun x => fromNe c x.bytes))

end GV
