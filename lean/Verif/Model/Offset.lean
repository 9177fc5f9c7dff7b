import Verif.Model.Base
/-
Model of gvariant/src/offset.rs: `AlignedOffset` and `align_offset`.
The type parameter `A: Alignment` is a number 1, 2, 4 or 8 (gvariant/src/aligned_bytes.rs:131-165).
-/
namespace GV

/-- `align_offset` (gvariant/src/offset.rs:43-48): `(idx + A::ALIGNMENT - 1) & !(A::ALIGNMENT - 1)`,
    evaluated left to right. -/
def alignOffset (c : Cfg) (al idx : Nat) : Res Nat := do
  let x ← uadd c idx al
  let y ← usub c x 1
  pure (andNot y (al - 1))

/-- `AlignedOffset::try_new` (offset.rs:28-34). `none` is `Err(Misaligned)`. -/
def tryNew (al v : Nat) : Option Nat := if v % al = 0 then some v else none

/-- Expressions building `AlignedOffset`s out of each other, as safe code can. -/
inductive OffExpr
  /-- `AlignedOffset::<A>::try_new(v)` / `TryFrom<usize>` -/
  | tryNew (al v : Nat)
  /-- `align_offset::<A>(i)` -/
  | alignOffset (al i : Nat)
  /-- `x | y` -/
  | bor (x y : OffExpr)
  /-- `x + y` -/
  | add (x y : OffExpr)
  /-- `AlignedOffset::<small>::from(x)` -/
  | narrow (al : Nat) (x : OffExpr)

/-- The alignment parameter of the type of an expression; `none` if it does not type-check.
    `|` has impls for all pairs, with the smaller alignment as output (offset.rs:95-144), `+` only
    for equal alignments (offset.rs:106-113), `From` from larger to smaller alignments
    (offset.rs:133-137) and, as for every type, reflexively. -/
def OffExpr.ty : OffExpr → Option Nat
  | .tryNew al _ | .alignOffset al _ => if al = 1 ∨ al = 2 ∨ al = 4 ∨ al = 8 then some al else none
  | .bor x y => do
    let a ← x.ty
    let b ← y.ty
    pure (min a b)
  | .add x y => do
    let a ← x.ty
    let b ← y.ty
    if a = b then pure a else none
  | .narrow al x => do
    let a ← x.ty
    if al ≤ a ∧ (al = 1 ∨ al = 2 ∨ al = 4 ∨ al = 8) then pure al else none

/-- `usize` constants in an expression are `usize`s. -/
def OffExpr.inRange : OffExpr → Prop
  | .tryNew _ v | .alignOffset _ v => v < usizeMod
  | .bor x y | .add x y => x.inRange ∧ y.inRange
  | .narrow _ x => x.inRange

/-- Value of an expression (`to_usize`); `ok none` if some `try_new` returned `Err(Misaligned)`
    (offset.rs:28-34, 43-48, 95-113, 117-137). -/
def OffExpr.eval (c : Cfg) : OffExpr → Res (Option Nat)
  | .tryNew al v => .ok (GV.tryNew al v)
  | .alignOffset al i => do
    let r ← GV.alignOffset c al i
    pure (some r)
  | .bor x y => do
    match ← x.eval c with
    | none => pure none
    | some a => match ← y.eval c with
      | none => pure none
      | some b => pure (some (a ||| b))
  | .add x y => do
    match ← x.eval c with
    | none => pure none
    | some a => match ← y.eval c with
      | none => pure none
      | some b => do
        let r ← uadd c a b
        pure (some r)
  | .narrow _ x => x.eval c

end GV
