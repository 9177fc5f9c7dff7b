import Verif.Model.TypeParser
/-
Model of gvariant-macro/src/generate_impl.rs and gvariant-macro/src/lib.rs: alignment, size and
addressing table of types, and the code `gv!` emits for structures.  The emitted text is modelled by
what it means: structure definitions with their fields, addressing rows and serialize commands.
-/
namespace GV

/-- `align` (gvariant-macro/src/generate_impl.rs:529-531).  Macro-time sizes are far below 2^64, so
    `usize` overflow is not modelled here. -/
def align (off alignment : Nat) : Nat := andNot (off + alignment - 1) (alignment - 1)

mutual
/-- `align_of` (generate_impl.rs:271-297). -/
def alignOf : Ty → Nat
  | .B | .Y => 1
  | .N | .Q => 2
  | .I | .U => 4
  | .X | .T => 8
  | .D => 8
  | .S | .O | .G => 1
  | .M e => alignOf e
  | .A e => alignOf e
  | .tuple ts => ((alignOfs ts).max?).getD 1  -- `.max().unwrap_or(1)`
  | .dict k v => max (alignOf k) (alignOf v)
  | .V => 8
/-- `subtypes.iter().map(align_of)` (generate_impl.rs:290). -/
def alignOfs : List Ty → List Nat
  | [] => []
  | t :: ts => alignOf t :: alignOfs ts
end

mutual
/-- `size_of` (generate_impl.rs:299-351). -/
def sizeOf : Ty → Option Nat
  | .B => some 1
  | .Y => some 1
  | .N => some 2
  | .Q => some 2
  | .I => some 4
  | .U => some 4
  | .X => some 8
  | .T => some 8
  | .D => some 8
  | .S | .O | .G | .V | .A _ | .M _ => none
  | .tuple ts =>
    if ts.isEmpty then some 1
    else match sizeLoop 0 ts with
      | none => none
      | some pos => some (align pos (alignOf (.tuple ts)))
  | .dict k v =>
    match sizeOf k, sizeOf v with
    | some a, some b => some (align (align a (alignOf v) + b) (alignOf (.dict k v)))
    | _, _ => none
/-- The `for` loop of the tuple case (generate_impl.rs:326-332). -/
def sizeLoop : Nat → List Ty → Option Nat
  | pos, [] => some pos
  | pos, t :: ts =>
    match sizeOf t with
    | some s => sizeLoop (align pos (alignOf t) + s) ts
    | none => none
end

/-- A row `(i, a, b, c)` of the addressing table. -/
structure Row where
  i : Int
  a : Nat
  b : Nat
  c : Nat
deriving DecidableEq, Repr

/-- The loop of `generate_table` (generate_impl.rs:371-393); the state is `(i, a, b, c)`.
    `b as u8` is the identity as `b ≤ 8`. -/
def tableLoop : Row → List Ty → List Row
  | _, [] => []
  | ⟨i, a, b, c⟩, child :: rest =>
    let al := alignOf child
    let st : Row := if al ≤ b then ⟨i, a, b, align c al⟩ else ⟨i, a + align c b, al, 0⟩
    st :: tableLoop
      (match sizeOf child with
        | some size => ⟨st.i, st.a, st.b, st.c + size⟩
        | none => ⟨st.i + 1, 0, 1, 0⟩) rest

/-- `generate_table` (generate_impl.rs:368-395). -/
def generateTable (children : List Ty) : List Row := tableLoop ⟨-1, 0, 1, 0⟩ children

/-- A field of a generated `repr(C)` struct: `_padding_k : [u8; n]` or `field_k`. -/
inductive Field
  | pad (n : Nat)
  | mem (k : Nat)
deriving DecidableEq, Repr

/-- A statement of a generated `serialize` function. -/
inductive Cmd
  /-- `f.write_all(b"\0..\0")?;` with `n` zeros -/
  | zeros (n : Nat)
  /-- `off += n;` -/
  | addOff (n : Nat)
  /-- `off += write_padding::<A{al}, _>(off, f)?;` -/
  | writePadding (al : Nat)
  /-- `self.k.serialize(f)?;` -/
  | child (k : Nat)
  /-- `off += self.k.serialize(f)?;` -/
  | childOff (k : Nat)
  /-- `framing_offsets[k] = off;` -/
  | setFrame (k : Nat)
deriving DecidableEq, Repr

/-- What `write_packed_struct` emits: the struct's fields and the serialize commands. -/
structure Packed where
  fields : List Field
  cmds : List Cmd
deriving DecidableEq, Repr

/-- The loop of `write_packed_struct` (generate_impl.rs:422-456), from member `n` on, with
    `last_end`.  `start - last_end` underflows when `start < last_end`: that panics with overflow
    checks, and without them the huge `padding` panics in `"\\0".repeat(padding)` (line 436), so both
    build modes are the fault `overflow`.  Returns what is emitted and the final `last_end`. -/
def packedLoop : Nat → Nat → List (Ty × Row) → Res (Packed × Nat)
  | _, lastEnd, [] => .ok (⟨[], []⟩, lastEnd)
  | n, lastEnd, (child, row) :: rest => do
    let start := align row.a row.b ||| row.c
    let size ← Res.unwrap (sizeOf child)
    let stop := start + size
    if start < lastEnd then .fail .overflow
    else
      let padding := start - lastEnd
      let (out, e) ← packedLoop (n + 1) stop rest
      if padding > 0 then
        pure (⟨.pad padding :: .mem n :: out.fields, .zeros padding :: .child n :: out.cmds⟩, e)
      else
        pure (⟨.mem n :: out.fields, .child n :: out.cmds⟩, e)

/-- `write_packed_struct` (generate_impl.rs:397-527). -/
def writePackedStruct (gv : Ty) (children : List Ty) : Res Packed := do
  let (out, lastEnd) ← packedLoop 0 0 (children.zip (generateTable children))
  let size ← Res.unwrap (sizeOf gv)
  if size < lastEnd then .fail .overflow
  else
    let padding := size - lastEnd
    if padding > 0 then
      pure ⟨out.fields ++ [.pad padding], out.cmds ++ [.zeros padding]⟩
    else pure out

/-- What `write_non_fixed_size_structure` emits: one addressing row per member, the number of
    framing offsets, and the serialize commands. -/
structure NonFixed where
  rows : List Row
  nFrameOffsets : Nat
  cmds : List Cmd
deriving DecidableEq, Repr

/-- `n_frame_offsets` (generate_impl.rs:60-72). -/
def nFrameOffsets (children : List Ty) : Nat :=
  let nFrames := (children.filter fun x => (sizeOf x).isNone).length
  match children.getLast? with
  | some last => if (sizeOf last).isNone then nFrames - 1 else nFrames
  | none => nFrames

/-- The loop of `write_non_fixed_size_structure` emitting serialize commands
    (generate_impl.rs:148-216), from member `n` on.  `nfo` is `n_frame_offsets`; the state is
    `base`, `offset`, `nth_frame_offset`.  The index `n_frame_offsets - nth_frame_offset - 1`
    (line 204) is a checked subtraction. -/
def serLoop (nfo : Nat) : Nat → Nat → Nat → Nat → List Ty → Res (List Cmd)
  | _, _, _, _, [] => .ok []
  | n, base, offset, nth, child :: rest => do
    let lastChild := rest.isEmpty
    let al := alignOf child
    let (pre, base, offset) :=
      if al ≤ base then
        let offset' := align offset al
        let nPadding := offset' - offset
        (if nPadding > 0 then [Cmd.zeros nPadding, Cmd.addOff nPadding] else [], base, offset')
      else ([Cmd.writePadding al], al, 0)
    match sizeOf child with
    | some x =>
      let tl ← serLoop nfo (n + 1) base (offset + x) nth rest
      pure (pre ++ [.child n, .addOff x] ++ tl)
    | none =>
      if lastChild then
        let tl ← serLoop nfo (n + 1) 1 0 nth rest
        pure (pre ++ [.childOff n] ++ tl)
      else if nth + 1 ≤ nfo then
        let tl ← serLoop nfo (n + 1) 1 0 (nth + 1) rest
        pure (pre ++ [.childOff n, .setFrame (nfo - nth - 1)] ++ tl)
      else .fail .overflow

/-- `write_non_fixed_size_structure` (generate_impl.rs:54-255). -/
def writeNonFixedSizeStructure (children : List Ty) : Res NonFixed := do
  let nfo := nFrameOffsets children
  let cmds ← serLoop nfo 0 8 0 0 children
  pure ⟨generateTable children, nfo, cmds⟩

/-- `escape` (generate_impl.rs:257-269). -/
def escape (x : Bytes) : Bytes :=
  x.map fun c =>
    if c = 40 then 67        -- '(' => 'C'
    else if c = 123 then 70  -- '{' => 'F'
    else if c = 41 then 55   -- ')' => '7'
    else if c = 125 then 51  -- '}' => '3'
    else c

/-- Name of the Rust struct generated for a structure type: `Structure{escaped}`
    (generate_impl.rs:73, 404; gvariant-macro/src/lib.rs:58). The bytes are those of `Structure`
    followed by the escaped type string. -/
def structName (t : Ty) : Bytes :=
  [83, 116, 114, 117, 99, 116, 117, 114, 101] ++ escape t.show

/-- Body of an emitted struct definition. -/
inductive Body
  | packed (p : Packed)
  | nonFixed (p : NonFixed)
deriving DecidableEq, Repr

/-- An emitted struct definition: which type it is for, its name, its member types, and body. -/
structure StructDef where
  ty : Ty
  name : Bytes
  children : List Ty
  body : Body
deriving DecidableEq

/-- `generate_tuple` (generate_impl.rs:31-52). -/
def generateTuple (spec : Ty) (children : List Ty) : Res StructDef := do
  if (sizeOf spec).isSome then
    let p ← writePackedStruct spec children
    pure ⟨spec, structName spec, children, .packed p⟩
  else
    let p ← writeNonFixedSizeStructure children
    pure ⟨spec, structName spec, children, .nonFixed p⟩

mutual
/-- `generate_types` (generate_impl.rs:6-29): the struct definitions `gv!` emits for a type. -/
def generateTypes : Ty → Res (List StructDef)
  | .tuple ts => do
    let out ← generateTypesAll ts
    let d ← generateTuple (.tuple ts) ts
    pure (out ++ [d])
  | .dict k v => do
    let out1 ← generateTypes k
    let out2 ← generateTypes v
    let d ← generateTuple (.dict k v) [k, v]
    pure (out1 ++ out2 ++ [d])
  | .A e => generateTypes e
  | .M e => generateTypes e
  | _ => .ok []
/-- The loop over members (generate_impl.rs:10-12). -/
def generateTypesAll : List Ty → Res (List StructDef)
  | [] => .ok []
  | t :: ts => do
    let out1 ← generateTypes t
    let out2 ← generateTypesAll ts
    pure (out1 ++ out2)
end

/-- `gv!` expands (the macro does not panic) for `t`. -/
def Expands (t : Ty) : Prop := ∃ defs, generateTypes t = .ok defs

/-- Rust types as named by `marker_type`. -/
inductive RTy
  /-- `Bool`, `u8`, ..., `f64` -/
  | bool | u8 | i16 | u16 | i32 | u32 | i64 | u64 | f64
  | str | variant
  /-- `[T]` -/
  | slice (e : RTy)
  | nonFixedWidthArray (e : RTy)
  | maybeNonFixedSize (e : RTy)
  | maybeFixedSize (e : RTy)
  /-- a generated struct, by name -/
  | struct (name : Bytes)
deriving DecidableEq, Repr

/-- `marker_type` (gvariant-macro/src/lib.rs:34-61). -/
def markerType : Ty → RTy
  | .B => .bool | .Y => .u8 | .N => .i16 | .Q => .u16 | .I => .i32 | .U => .u32 | .X => .i64
  | .T => .u64 | .D => .f64 | .S => .str | .O => .str | .G => .str | .V => .variant
  | .A t => match sizeOf t with
    | none => .nonFixedWidthArray (markerType t)
    | some _ => .slice (markerType t)
  | .M t => match sizeOf t with
    | none => .maybeNonFixedSize (markerType t)
    | some _ => .maybeFixedSize (markerType t)
  | .tuple ts => .struct (structName (.tuple ts))
  | .dict k v => .struct (structName (.dict k v))

/-! ### Rust's layout of the emitted `repr(C)` structs -/

/-- `repr(C)` field placement from position `pos`: each field goes to the next multiple of its
    alignment (Rust reference, "The C representation").  Returns field offsets and the end. -/
def reprCLoop : Nat → List (Nat × Nat) → List Nat × Nat
  | pos, [] => ([], pos)
  | pos, (size, al) :: rest =>
    let off := (pos + al - 1) / al * al
    let (offs, e) := reprCLoop (off + size) rest
    (off :: offs, e)

/-- `repr(C)` struct alignment: the largest field alignment, at least 1. -/
def reprCAlign (fs : List (Nat × Nat)) : Nat := fs.foldr (fun f m => max f.2 m) 1

/-- `repr(C)` struct size: the end of the last field rounded up to the struct alignment. -/
def reprCSize (fs : List (Nat × Nat)) : Nat :=
  ((reprCLoop 0 fs).2 + reprCAlign fs - 1) / reprCAlign fs * reprCAlign fs

/-- Size and alignment of each field, given those of the members. -/
def fieldLayouts (members : List (Nat × Nat)) : List Field → Res (List (Nat × Nat))
  | [] => .ok []
  | .pad n :: rest => do
    let tl ← fieldLayouts members rest
    pure ((n, 1) :: tl)
  | .mem k :: rest => do
    let l ← Res.unwrap members[k]?
    let tl ← fieldLayouts members rest
    pure (l :: tl)

/-- Offsets of the members (not the padding) within the struct, in field order. -/
def memberOffsets : List Field → List Nat → List Nat
  | .pad _ :: fs, _ :: os => memberOffsets fs os
  | .mem _ :: fs, o :: os => o :: memberOffsets fs os
  | _, _ => []

mutual
/-- `core::mem::size_of::<T>()` and `core::mem::align_of::<T>()` of the Rust type of a fixed-size
    GVariant type, on 64-bit targets.  Fails for types `gv!` cannot expand; it is not meant for
    non-fixed-size types (`explicit` fault). -/
def rustLayout : Ty → Res (Nat × Nat)
  | .B | .Y => .ok (1, 1)
  | .N | .Q => .ok (2, 2)
  | .I | .U => .ok (4, 4)
  | .X | .T | .D => .ok (8, 8)
  | .tuple ts => do
    let p ← writePackedStruct (.tuple ts) ts
    let ls ← rustLayouts ts
    let fs ← fieldLayouts ls p.fields
    pure (reprCSize fs, reprCAlign fs)
  | .dict k v => do
    let p ← writePackedStruct (.dict k v) [k, v]
    let lk ← rustLayout k
    let lv ← rustLayout v
    let fs ← fieldLayouts [lk, lv] p.fields
    pure (reprCSize fs, reprCAlign fs)
  | _ => .fail .explicit
/-- Layouts of all members. -/
def rustLayouts : List Ty → Res (List (Nat × Nat))
  | [] => .ok []
  | t :: ts => do
    let l ← rustLayout t
    let ls ← rustLayouts ts
    pure (l :: ls)
end

/-- Byte offset of each `field_n` in the struct generated for a fixed-size structure type. -/
def fieldOffsets (gv : Ty) (children : List Ty) : Res (List Nat) := do
  let p ← writePackedStruct gv children
  let ls ← rustLayouts children
  let fs ← fieldLayouts ls p.fields
  pure (memberOffsets p.fields (reprCLoop 0 fs).1)

/-! ### Does the emitted code compile? -/

/-- The literal `0` (generate_impl.rs:453) has type `t`. -/
def zeroLiteralHasType : RTy → Bool
  | .u8 | .i16 | .u16 | .i32 | .u32 | .i64 | .u64 => true
  | _ => false

/-- `t: Default`, needed by `#[derive(Default)]` (generate_impl.rs:402).  `Bool` derives no
    `Default` (gvariant/src/lib.rs:1971-1973); generated packed structs do. -/
def implsDefault : RTy → Bool
  | .u8 | .i16 | .u16 | .i32 | .u32 | .i64 | .u64 | .f64 => true
  | .struct _ => true
  | _ => false

/-- The definition of one struct type-checks: the constructor call in `default_ref` passes the
    literal `0` for each member (generate_impl.rs:453, 486) and `derive(Default)` needs every member
    to be `Default`; and the `Debug` (and, for non-fixed-size, `PartialEq`) impls need the member
    tuple to implement it, which the standard library does up to 12 members
    (generate_impl.rs:44-48, 227-231). -/
def StructDef.typechecks (d : StructDef) : Bool :=
  d.children.length ≤ 12 &&
  match d.body with
  | .packed _ => d.children.all fun c =>
      zeroLiteralHasType (markerType c) && implsDefault (markerType c)
  | .nonFixed _ => true

/-- `gv!(t)` compiles: the macro does not panic, each emitted definition type-checks, and no name is
    defined twice. -/
def compiles (t : Ty) : Prop :=
  ∃ defs, generateTypes t = .ok defs ∧ (∀ d ∈ defs, d.typechecks = true) ∧
    (defs.map (·.name)).Nodup

end GV
