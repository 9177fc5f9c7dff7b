import Verif.Model.Offset
/-
Model of gvariant/src/aligned_bytes.rs: slices tagged with an alignment.
A `Slice` is where the bytes are and what they are; the alignment tag `A` is only promised by the
type, so it is a separate argument of the operations that depend on it.
-/
namespace GV

/-- A `&[u8]` or `&AlignedSlice<A>`: address and contents. -/
structure Slice where
  addr : Nat
  bytes : Bytes
deriving DecidableEq, Repr

namespace Slice

/-- `.len()` -/
def len (s : Slice) : Nat := s.bytes.length

/-- `&s[a..]` of a byte slice (core). -/
def from_ (s : Slice) (a : Nat) : Res Slice :=
  if a ≤ s.len then .ok ⟨s.addr + a, s.bytes.drop a⟩ else .fail .bounds

/-- `&s[..b]` of a byte slice (core). -/
def to (s : Slice) (b : Nat) : Res Slice :=
  if b ≤ s.len then .ok ⟨s.addr, s.bytes.take b⟩ else .fail .bounds

/-- `&s[a..b]` of a byte slice (core). -/
def range (s : Slice) (a b : Nat) : Res Slice :=
  if a ≤ b ∧ b ≤ s.len then .ok ⟨s.addr + a, (s.bytes.take b).drop a⟩ else .fail .bounds

/-- `&s[a..=b]` of a byte slice (core): panics if `b` is `usize::MAX`, else is `a..b+1`. -/
def rangeIncl (s : Slice) (a b : Nat) : Res Slice :=
  if b + 1 < usizeMod then s.range a (b + 1) else .fail .bounds

/-- `is_aligned` (gvariant/src/aligned_bytes.rs:555-557). -/
def isAligned (s : Slice) (al : Nat) : Bool := s.addr % al == 0

end Slice

/-- `to_alignedslice_unchecked` and its `_mut` twin (aligned_bytes.rs:534-550): the result is the
    same slice, tagged with alignment `al`. -/
def unchecked (c : Cfg) (al : Nat) (s : Slice) : Res Slice :=
  if c.debugAssertions && !(s.bytes.isEmpty || s.isAligned al) then .fail .debugAssert else .ok s

/-- `core::mem::align_of::<A>()` of the unit structs `A1`..`A8` (aligned_bytes.rs:131-160): as unit
    structs they all have alignment 1. -/
def markerAlign (_al : Nat) : Nat := 1

/-- `try_as_aligned` and `try_as_aligned_mut` (aligned_bytes.rs:336-361). `none` is
    `Err(Misaligned)`. -/
def tryAsAligned (fromA toA : Nat) (s : Slice) : Option Slice :=
  if markerAlign fromA ≥ markerAlign toA || s.isAligned toA then some s else none

/-- `as_aligned` (aligned_bytes.rs:312-323): the `assert!` compares `align_of_val` of two
    `AlignedSlice`s, which is 1 for both. -/
def asAligned (_fromA _toA : Nat) (s : Slice) : Res Slice := .ok s

/-- `split_at` (aligned_bytes.rs:249-254). -/
def splitAt (c : Cfg) (al : Nat) (s : Slice) (mid : Nat) : Res (Slice × Slice) :=
  if mid ≤ s.len then do
    let before ← unchecked c al ⟨s.addr, s.bytes.take mid⟩
    pure (before, ⟨s.addr + mid, s.bytes.drop mid⟩)
  else .fail .bounds

/-- `Index<RangeTo<usize>>` (aligned_bytes.rs:387-393), keeps the tag `al`. -/
def idxTo (c : Cfg) (al : Nat) (s : Slice) (b : Nat) : Res Slice := do
  let r ← s.to b
  unchecked c al r

/-- `Index<RangeToInclusive<usize>>` (aligned_bytes.rs:394-400), keeps the tag. -/
def idxToIncl (c : Cfg) (al : Nat) (s : Slice) (b : Nat) : Res Slice := do
  let r ← s.rangeIncl 0 b
  unchecked c al r

/-- `Index<Range<usize>>` (aligned_bytes.rs:401-408): the result is tagged 1. -/
def idxRange (c : Cfg) (s : Slice) (a b : Nat) : Res Slice := do
  let r ← s.range a b
  unchecked c 1 r

/-- `Index<RangeInclusive<usize>>` (aligned_bytes.rs:409-416): the result is tagged 1. -/
def idxRangeIncl (c : Cfg) (s : Slice) (a b : Nat) : Res Slice := do
  let r ← s.rangeIncl a b
  unchecked c 1 r

/-- `Index<RangeFrom<usize>>` (aligned_bytes.rs:417-424): the result is tagged 1. -/
def idxFrom (c : Cfg) (s : Slice) (a : Nat) : Res Slice := do
  let r ← s.from_ a
  unchecked c 1 r

/-- `Index<Range<AlignedOffset<A>>>` (aligned_bytes.rs:432-441), keeps the tag. -/
def idxARange (c : Cfg) (al : Nat) (s : Slice) (a b : Nat) : Res Slice := do
  let r ← s.range a b
  unchecked c al r

/-- `Index<RangeInclusive<AlignedOffset<A>>>` (aligned_bytes.rs:442-451), keeps the tag. -/
def idxARangeIncl (c : Cfg) (al : Nat) (s : Slice) (a b : Nat) : Res Slice := do
  let r ← s.rangeIncl a b
  unchecked c al r

/-- `Index<RangeFrom<AlignedOffset<A>>>` (aligned_bytes.rs:452-459), keeps the tag. -/
def idxAFrom (c : Cfg) (al : Nat) (s : Slice) (a : Nat) : Res Slice := do
  let r ← s.from_ a
  unchecked c al r

/-- `align_bytes` (aligned_bytes.rs:595-599). -/
def alignBytes (al : Nat) (value : Slice) : Res Slice := do
  let offset := uneg value.addr &&& (al - 1)
  let r ← value.from_ offset
  Res.unwrap (tryAsAligned 1 al r)

/-- `empty_aligned` (aligned_bytes.rs:605-607).  The literal is eight spaces, at whatever address the
    linker gives it. -/
def emptyAligned (c : Cfg) (al : Nat) : Res Slice := do
  let s ← alignBytes al ⟨c.spacesAddr, List.replicate 8 32⟩
  idxTo c al s 0

/-! ### Slicing programs -/

/-- One slicing step available to safe code on an `AlignedSlice`. `IndexMut` (aligned_bytes.rs:460-532)
    is the same computation. -/
inductive SliceOp
  | to (b : Nat) | toIncl (b : Nat)
  | range (a b : Nat) | rangeIncl (a b : Nat) | from_ (a : Nat)
  | full
  | aRange (a b : OffExpr) | aRangeIncl (a b : OffExpr) | aFrom (a : OffExpr)
  | splitFst (mid : Nat) | splitSnd (mid : Nat)
  /-- `as_aligned` to a smaller or equal alignment -/
  | narrow (al : Nat)

/-- Evaluate an offset argument and unwrap it (callers cannot index with an `Err`). -/
def offArg (c : Cfg) (e : OffExpr) : Res Nat := do
  let v ← e.eval c
  Res.unwrap v

/-- Run one step on a slice tagged `al`; gives the new tag and slice.  `SliceOp.typed` says when the
    step type-checks. -/
def SliceOp.run (c : Cfg) (al : Nat) (s : Slice) : SliceOp → Res (Nat × Slice)
  | .to b => do let r ← idxTo c al s b; pure (al, r)
  | .toIncl b => do let r ← idxToIncl c al s b; pure (al, r)
  | .range a b => do let r ← idxRange c s a b; pure (1, r)
  | .rangeIncl a b => do let r ← idxRangeIncl c s a b; pure (1, r)
  | .from_ a => do let r ← idxFrom c s a; pure (1, r)
  | .full => .ok (al, s)
  | .aRange a b => do
    let x ← offArg c a
    let y ← offArg c b
    let r ← idxARange c al s x y
    pure (al, r)
  | .aRangeIncl a b => do
    let x ← offArg c a
    let y ← offArg c b
    let r ← idxARangeIncl c al s x y
    pure (al, r)
  | .aFrom a => do
    let x ← offArg c a
    let r ← idxAFrom c al s x
    pure (al, r)
  | .splitFst mid => do let p ← splitAt c al s mid; pure (al, p.1)
  | .splitSnd mid => do let p ← splitAt c al s mid; pure (1, p.2)
  | .narrow n => do let r ← asAligned al n s; pure (n, r)

/-- Does the step type-check on a slice tagged `al`? -/
def SliceOp.typed (al : Nat) : SliceOp → Prop
  | .aRange a b | .aRangeIncl a b => a.ty = some al ∧ b.ty = some al ∧ a.inRange ∧ b.inRange
  | .aFrom a => a.ty = some al ∧ a.inRange
  | .narrow n => n ≤ al ∧ (n = 1 ∨ n = 2 ∨ n = 4 ∨ n = 8)
  | _ => True

/-- The tag after a step, given the tag before. -/
def SliceOp.tag (al : Nat) : SliceOp → Nat
  | .range _ _ | .rangeIncl _ _ | .from_ _ | .splitSnd _ => 1
  | .narrow n => n
  | _ => al

/-- Run a slicing program. -/
def runSlices (c : Cfg) : Nat → Slice → List SliceOp → Res (Nat × Slice)
  | al, s, [] => .ok (al, s)
  | al, s, op :: ops => do
    let (al', s') ← op.run c al s
    runSlices c al' s' ops

/-- A slicing program type-checks. -/
def typedSlices : Nat → List SliceOp → Prop
  | _, [] => True
  | al, op :: ops => op.typed al ∧ typedSlices (op.tag al) ops

end GV
