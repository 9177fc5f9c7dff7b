import Verif.Model.Layout
/-
The Rust types `gv!` names, resolved against the library's trait implementations and the struct
definitions emitted by the same expansion.
-/
namespace GV

/-- The definition a generated struct name refers to, in the module of one `gv!` expansion
    (gvariant/src/lib.rs:575-595). -/
def findDef (defs : List StructDef) (n : Bytes) : Option StructDef := defs.find? (·.name == n)

/-- `<T as AlignOf>::AlignOf::ALIGNMENT`: casting.rs:53-55 (`[T]`), 147-154 (numbers); lib.rs:771-773
    (`Str`), 1122-1124 (`Variant`), 1447-1449 (`NonFixedWidthArray`), 1782-1784 (`MaybeFixedSize`),
    1893-1895 (`MaybeNonFixedSize`), 2000-2002 (`Bool`); generate_impl.rs:121-123, 470-472
    (generated structs, `A{align_of(spec)}`). -/
def RTy.alignOf (defs : List StructDef) : RTy → Option Nat
  | .bool | .u8 | .str => some 1
  | .i16 | .u16 => some 2
  | .i32 | .u32 => some 4
  | .i64 | .u64 | .f64 | .variant => some 8
  | .slice e | .nonFixedWidthArray e | .maybeFixedSize e | .maybeNonFixedSize e => e.alignOf defs
  | .struct n => (findDef defs n).map fun d => GV.alignOf d.ty

/-- `T: Sized`.  `Str`, `Variant`, `NonFixedWidthArray` and the two maybes wrap slices (lib.rs:712-714,
    1121, 1427-1430, 1704-1707, 1854-1857); a generated struct is `Sized` when it is packed
    (generate_impl.rs:406-466) and otherwise wraps an `AlignedSlice` (generate_impl.rs:85-88). -/
def RTy.sized (defs : List StructDef) : RTy → Bool
  | .bool | .u8 | .i16 | .u16 | .i32 | .u32 | .i64 | .u64 | .f64 => true
  | .str | .variant | .slice _ | .nonFixedWidthArray _ | .maybeFixedSize _ | .maybeNonFixedSize _ =>
    false
  | .struct n => match findDef defs n with
    | some ⟨_, _, _, .packed _⟩ => true
    | _ => false

/-- The type exists and the bounds of the library's generic types hold: `[T]` and
    `MaybeFixedSize<T: Cast>` need `T: Sized` (lib.rs:1299, 1704), `NonFixedWidthArray` and
    `MaybeNonFixedSize` take `?Sized` (lib.rs:1427, 1854). -/
def RTy.wellFormed (defs : List StructDef) : RTy → Bool
  | .slice e | .maybeFixedSize e => e.wellFormed defs && e.sized defs
  | .nonFixedWidthArray e | .maybeNonFixedSize e => e.wellFormed defs
  | .struct n => (findDef defs n).isSome
  | _ => true

/-- `core::mem::size_of::<T>()` and `core::mem::align_of::<T>()` for a `Sized` type. -/
def RTy.layout (defs : List StructDef) : RTy → Res (Nat × Nat)
  | .bool | .u8 => .ok (1, 1)
  | .i16 | .u16 => .ok (2, 2)
  | .i32 | .u32 => .ok (4, 4)
  | .i64 | .u64 | .f64 => .ok (8, 8)
  | .struct n => do
    let d ← Res.unwrap (findDef defs n)
    rustLayout d.ty
  | _ => .fail .explicit

/-- Sizes and alignments of all fields of the struct emitted for a fixed-size structure, padding
    included, in order. -/
def structFields (gv : Ty) (children : List Ty) : Res (List (Nat × Nat)) := do
  let p ← writePackedStruct gv children
  let ls ← rustLayouts children
  fieldLayouts ls p.fields

end GV
