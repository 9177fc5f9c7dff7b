import Lean.Elab.Term
import Lean.ToExpr
import Verif.Model.Layout
/-
Model of the source text `gv!` hands to the compiler (gvariant-macro/src/generate_impl.rs and
gvariant-macro/src/lib.rs).  `Model/Layout.lean` goes straight to what the text means; here is the text itself,
byte for byte.  The format strings are copied from the code.
-/
namespace GV

/-- Placeholders of the format strings below.  Each stands for one byte of at least 128 (the text itself is
    ASCII): from 128 those that continue or make up one word, from 160 those only used in comments, from 192
    those that stand for any stretch of code. -/
def placeholders : List (String × UInt8) :=
  [("spec", 128), ("escaped", 129), ("alignment", 130), ("b", 131), ("n", 132), ("padding_count", 133),
   ("base", 134), ("align", 135), ("a", 136), ("c", 137), ("last_child", 138), ("n_frame_offsets", 139),
   ("padding", 140), ("x", 141),
   ("ty", 160), ("child", 161), ("start", 162), ("end", 163),
   ("tuple", 192), ("marker_type", 193), ("i", 194), ("child_size", 195), ("serialize_types", 196),
   ("serialize_types2", 197), ("serialize_cmds", 198), ("tuple2", 199), ("rows", 200), ("fields", 201),
   ("field_arglist", 202), ("set_fields", 203), ("get_fields", 204), ("defaults", 205), ("eq", 206)]

open Lean Elab Term in
/-- A Rust format string as bytes: `{{` and `}}` are braces, `{name}` and `{name:?}` placeholders.  This is
    notation only: what it stands for is a literal list of bytes. -/
elab:max "fmt!" s:str : term => do
  let rec go (fuel : Nat) (cs : List Char) : TermElabM (List UInt8) := match fuel, cs with
    | fuel + 1, '{' :: '{' :: cs => return 123 :: (← go fuel cs)
    | fuel + 1, '}' :: '}' :: cs => return 125 :: (← go fuel cs)
    | fuel + 1, '{' :: cs => do
      let name := String.ofList (cs.takeWhile fun c => c != '}' && c != ':')
      match placeholders.lookup name with
      | some b => return b :: (← go fuel ((cs.dropWhile (· != '}')).drop 1))
      | none => throwError "no placeholder {name}"
    | fuel + 1, c :: cs => return (UInt8.ofNat c.toNat) :: (← go fuel cs)
    | _, _ => return []
  return toExpr (← go (s.getString.length + 1) s.getString.toList)

/-- The byte of a placeholder. -/
macro:max "ph!" s:str : term => do
  match placeholders.lookup s.getString with
  | some b => return ⟨Lean.Syntax.mkNumLit (toString b.toNat)⟩
  | none => Lean.Macro.throwError "no such placeholder"

/-- `write!`, `format!`: each placeholder is replaced by its argument. -/
def fill (arg : UInt8 → Bytes) (tpl : Bytes) : Bytes := tpl.flatMap arg

/-- Arguments of a format string; a byte that is no placeholder stands for itself. -/
def args (xs : List (UInt8 × Bytes)) (c : UInt8) : Bytes := (xs.lookup c).getD [c]

/-- Decimal digits of `n` (core's `Display for usize`), at most `fuel` of them. -/
def decLoop : Nat → Nat → Bytes
  | 0, _ => []
  | fuel + 1, n =>
    if n < 10 then [UInt8.ofNat (48 + n)] else decLoop fuel (n / 10) ++ [UInt8.ofNat (48 + n % 10)]

/-- `{}` of a `usize` or `u8` (core). -/
def decText (n : Nat) : Bytes := decLoop (n + 1) n

/-- `{}` of an `isize` (core). -/
def intText (i : Int) : Bytes := if i < 0 then 45 :: decText i.natAbs else decText i.natAbs

/-- `{:?}` of an `Option<usize>` (core). -/
def optText : Option Nat → Bytes
  | none => fmt!"None"
  | some n => fmt!"Some(" ++ decText n ++ fmt!")"

/-- `{}` of a `bool` (core). -/
def boolText (b : Bool) : Bytes := if b then fmt!"true" else fmt!"false"

/-- `join` of `Vec<String>` (std). -/
def join (sep : Bytes) : List Bytes → Bytes
  | [] => []
  | x :: xs => x ++ xs.flatMap (sep ++ ·)

/-- `marker_type` (gvariant-macro/src/lib.rs:34-61), as the text it returns. -/
def markerText : Ty → Bytes
  | .B => fmt!"Bool" | .Y => fmt!"u8" | .N => fmt!"i16" | .Q => fmt!"u16" | .I => fmt!"i32" | .U => fmt!"u32"
  | .X => fmt!"i64" | .T => fmt!"u64" | .D => fmt!"f64" | .S => fmt!"Str" | .O => fmt!"Str" | .G => fmt!"Str"
  | .V => fmt!"Variant"
  | .A t => match sizeOf t with
    | none => fmt!"NonFixedWidthArray::<" ++ markerText t ++ fmt!">"
    | some _ => fmt!"[" ++ markerText t ++ fmt!"]"
  | .M t => match sizeOf t with
    | none => fmt!"MaybeNonFixedSize::<" ++ markerText t ++ fmt!">"
    | some _ => fmt!"MaybeFixedSize::<" ++ markerText t ++ fmt!">"
  | .tuple ts => fmt!"Structure" ++ escape (Ty.show (.tuple ts))
  | .dict k v => fmt!"Structure" ++ escape (Ty.show (.dict k v))

/-- A statement of a generated `serialize` function, as text (generate_impl.rs:182-206, 436, 450, 464);
    `"\\0".repeat(n)` is `n` times backslash and `0`. -/
def cmdText : Cmd → Bytes
  | .zeros n => fmt!"f.write_all(b\"" ++ (List.replicate n fmt!"\\0").flatten ++ fmt!"\")?;"
  | .addOff n => fill (args [(ph! "x", decText n)]) fmt!"off += {x};"
  | .writePadding al => fill (args [(ph! "base", decText al)]) fmt!"off += write_padding::<A{base}, _>(off, f)?;"
  | .child n => fill (args [(ph! "n", decText n)]) fmt!"self.{n}.serialize(f)?;"
  | .childOff n => fill (args [(ph! "n", decText n)]) fmt!"off += self.{n}.serialize(f)?;"
  | .setFrame k => fill (args [(ph! "x", decText k)]) fmt!"framing_offsets[{x}] = off;"

/-- `serialize_cmds.join("\n")` (generate_impl.rs:251, 519). -/
def cmdsText (cs : List Cmd) : Bytes := join fmt!"\n" (cs.map cmdText)

/-- An entry of `serialize_types` (generate_impl.rs:210-214, 445-448). -/
def serTypeText (n : Nat) (child : Ty) : Bytes :=
  fill (args [(ph! "n", decText n), (ph! "marker_type", markerText child)])
    fmt!"T{n}: ::gvariant::SerializeTo<{marker_type}> + Copy"

/-- `serialize_types.join(", ")` (generate_impl.rs:249, 517). -/
def serTypesText (children : List Ty) : Bytes :=
  join fmt!", " (children.mapIdx serTypeText)

/-- `serialize_types2.join(" ")` (generate_impl.rs:215, 250, 449, 518). -/
def serTypes2Text (children : List Ty) : Bytes :=
  join fmt!" " (children.mapIdx fun n _ => fill (args [(ph! "n", decText n)]) fmt!"T{n},")

/-- `impl Debug` (generate_impl.rs:42-50). -/
def debugTpl : Bytes := fmt!"impl std::fmt::Debug for Structure{escaped} {{
        fn fmt(&self, f: &mut std::fmt::Formatter<'_>) -> std::fmt::Result {{
            std::fmt::Debug::fmt(&self.to_tuple(), f)
        }}
    }}"

/-! ### Structures of variable size -/

/-- `tuple` (generate_impl.rs:75-80). -/
def nfTuple (children : List Ty) : Bytes :=
  fmt!"(" ++ (children.map fun c =>
    fill (args [(ph! "marker_type", markerText c)]) fmt!"                &'a {marker_type},").flatten
    ++ fmt!"            )\n"

/-- First part (generate_impl.rs:82-130). -/
def nfHead : Bytes := fmt!"
    #[repr(transparent)]
    pub(crate) struct Structure{spec} {{
        data: AlignedSlice<aligned_bytes::A{alignment}>,
    }}
    impl Structure{spec} {{
        fn from_aligned_slice_mut(slice: &mut AlignedSlice<<Self as AlignOf>::AlignOf>) -> &mut Self {{
            // This is safe because Structure{spec} is repr(transparent) around
            // this same type:
            unsafe {{&mut *(slice as *mut AlignedSlice<aligned_bytes::A{alignment}> as *mut Structure{spec})}}
        }}
    }}
    impl ToOwned for Structure{spec} {{
        type Owned = Owned<Self>;
        fn to_owned(&self) -> Self::Owned {{
            Owned::from_bytes(&*self.data)
        }}
    }}
    impl ::gvariant::Cast for Structure{spec} {{
        fn default_ref() -> &'static Self {{
            let d = empty_aligned();
            // This is safe because Structure{spec} is repr(transparent) around
            // this same type:
            unsafe {{&*(d as *const AlignedSlice<aligned_bytes::A{alignment}> as *const Structure{spec})}}
        }}
        fn try_from_aligned_slice(slice:&AlignedSlice<Self::AlignOf>) -> Result<&Self, ::gvariant::casting::WrongSize> {{
            // This is safe because Structure{spec} is repr(transparent) around
            // this same type:
            Ok(unsafe {{&*(slice as *const AlignedSlice<aligned_bytes::A{alignment}> as *const Structure{spec})}})
        }}
        fn try_from_aligned_slice_mut(slice:&mut AlignedSlice<Self::AlignOf>) -> Result<&mut Self, ::gvariant::casting::WrongSize> {{
            // This is safe because Structure{spec} is repr(transparent) around
            // this same type:
            Ok(Self::from_aligned_slice_mut(slice))
        }}
    }}
    unsafe impl ::gvariant::casting::AllBitPatternsValid for Structure{spec} {{}}
    unsafe impl ::gvariant::casting::AlignOf for Structure{spec} {{
        type AlignOf = aligned_bytes::A{alignment};
    }}
    impl<'a> Structure<'a> for Structure{spec} {{
        type RefTuple = {tuple};
        fn to_tuple(&'a self) -> {tuple} {{ ("

/-- The `get_child_elem` call of one member (generate_impl.rs:154-175). -/
def nfRow : Bytes := fmt!"
            // {ty}
            get_child_elem::<{marker_type}, aligned_bytes::A{b}>(
                self.data.as_aligned(),
                {i},
                {a},
                {c},
                {child_size:?},
                {last_child},
                {n_frame_offsets}),
"

/-- The calls of all members (generate_impl.rs:152-175), from member `n` on; `len` is `children.len()`. -/
def rowsText (len nfo : Nat) : Nat → List (Ty × Row) → Bytes
  | _, [] => []
  | n, (child, row) :: rest =>
    fill (args [(ph! "ty", child.show), (ph! "marker_type", markerText child), (ph! "i", intText row.i),
      (ph! "a", decText row.a), (ph! "b", decText row.b), (ph! "c", decText row.c),
      (ph! "child_size", optText (sizeOf child)), (ph! "last_child", boolText (n == len - 1)),
      (ph! "n_frame_offsets", decText nfo)]) nfRow ++ rowsText len nfo (n + 1) rest

/-- Last part (generate_impl.rs:217-252).  The placeholder `tuple2` is called `tuple` there. -/
def nfTail : Bytes := fmt!"            )
        }}
    }}
    impl<'a> From<&'a Structure{escaped}> for ({tuple2}) {{
        fn from(value : &'a Structure{escaped}) -> Self {{
            value.to_tuple()
        }}
    }}
    impl PartialEq for Structure{escaped} {{
        fn eq(&self, other: &Self) -> bool {{
            self.to_tuple() == other.to_tuple()
        }}
    }}
    impl<{serialize_types}> ::gvariant::SerializeTo<Structure{escaped}> for &({serialize_types2}) {{
        fn serialize(self, f: &mut impl std::io::Write) -> std::io::Result<usize> {{
            let mut off: usize = 0;
            let mut framing_offsets : [usize; {n_frame_offsets}] = [0; {n_frame_offsets}];
            {serialize_cmds}
            off = write_offsets(off, &framing_offsets, f)?;
            Ok(off)
        }}
    }}
    
"

/-- The text `write_non_fixed_size_structure` emits (generate_impl.rs:54-255), followed by the `Debug`
    implementation (generate_impl.rs:42-50). -/
def nonFixedText (spec : Ty) (children : List Ty) (p : NonFixed) : Bytes :=
  let escaped := escape spec.show
  fill (args [(ph! "spec", escaped), (ph! "alignment", decText (alignOf spec)),
    (ph! "tuple", nfTuple children)]) nfHead ++
  rowsText children.length p.nFrameOffsets 0 (children.zip p.rows) ++
  fill (args [(ph! "escaped", escaped),
    (ph! "tuple2", (children.map fun c =>
      fill (args [(ph! "marker_type", markerText c)]) fmt!"&'a {marker_type}, ").flatten),
    (ph! "n_frame_offsets", decText p.nFrameOffsets),
    (ph! "serialize_types", serTypesText children), (ph! "serialize_types2", serTypes2Text children),
    (ph! "serialize_cmds", cmdsText p.cmds)]) nfTail ++
  fill (args [(ph! "escaped", escaped)]) debugTpl

/-! ### Structures of fixed size -/

/-- Opening lines (generate_impl.rs:402-407). -/
def packedHead : Bytes := fmt!"#[derive(Default,Copy,Clone)]
#[repr(C)]
pub(crate) struct Structure{escaped} {{
"

/-- The lines of the fields (generate_impl.rs:431, 440-441, 459), `k` being `padding_count`. -/
def fieldsText : Nat → List Field → List (Ty × Row) → Bytes
  | k, .pad n :: fs, ms =>
    fill (args [(ph! "padding_count", decText k), (ph! "padding", decText n)])
      fmt!"    _padding_{padding_count} : [u8;{padding}],\n" ++ fieldsText (k + 1) fs ms
  | k, .mem n :: fs, (child, row) :: ms =>
    let start := align row.a row.b ||| row.c
    fill (args [(ph! "child", child.show), (ph! "start", decText start),
      (ph! "end", decText (start + (sizeOf child).getD 0))]) fmt!"    // {child} bytes {start}..{end}\n" ++
    fill (args [(ph! "n", decText n), (ph! "marker_type", markerText child)])
      fmt!"    pub field_{n} : {marker_type},\n" ++ fieldsText k fs ms
  | _, _, _ => []

/-- `set_fields` (generate_impl.rs:432-435, 452, 460-463), `k` being `padding_count`. -/
def setFieldsText : Nat → List Field → Bytes
  | _, [] => []
  | k, .pad n :: fs =>
    fill (args [(ph! "padding_count", decText k), (ph! "padding", decText n)])
      fmt!"_padding_{padding_count} : [0u8;{padding}],\n" ++ setFieldsText (k + 1) fs
  | k, .mem n :: fs =>
    fill (args [(ph! "n", decText n)]) fmt!"field_{n} : field_{n},\n" ++ setFieldsText k fs

/-- What follows the fields (generate_impl.rs:466-524). -/
def packedTail : Bytes := fmt!"}}
        unsafe impl ::gvariant::casting::AllBitPatternsValid for Structure{escaped} {{}}
        unsafe impl ::gvariant::casting::AlignOf for Structure{escaped} {{
            type AlignOf = ::gvariant::aligned_bytes::A{align};
        }}
        impl Structure{escaped} {{
            pub const fn new({field_arglist}) -> Structure{escaped} {{
                Structure{escaped} {{ {set_fields} }}
            }}
        }}
        impl<'a> ::gvariant::Structure<'a> for Structure{escaped} {{
            type RefTuple = ({tuple});
            fn to_tuple(&'a self) -> ({tuple}) {{
                ({get_fields})
            }}
        }}
        impl ::gvariant::Cast for Structure{escaped} {{
            fn default_ref() -> &'static Self {{
                static s : Structure{escaped} = Structure{escaped}::new({defaults});
                &s
            }}
            fn try_from_aligned_slice(slice:&::gvariant::aligned_bytes::AlignedSlice<Self::AlignOf>) -> Result<&Self, ::gvariant::casting::WrongSize> {{
                ::gvariant::casting::try_cast_slice_to::<Self>(slice)
            }}
            fn try_from_aligned_slice_mut(slice:&mut ::gvariant::aligned_bytes::AlignedSlice<Self::AlignOf>) -> Result<&mut Self, ::gvariant::casting::WrongSize> {{
                ::gvariant::casting::try_cast_slice_to_mut::<Self>(slice)
            }}
        }}
        impl PartialEq for Structure{escaped} {{
            fn eq(&self, other: &Self) -> bool {{
                {eq}
            }}
        }}
        impl<'a> From<&'a Structure{escaped}> for ({tuple}) {{
            fn from(value : &'a Structure{escaped}) -> Self {{
                value.to_tuple()
            }}
        }}
        impl<{serialize_types}> ::gvariant::SerializeTo<Structure{escaped}> for &({serialize_types2}) {{
            fn serialize(self, f: &mut impl std::io::Write) -> std::io::Result<usize> {{
                {serialize_cmds}
                Ok(core::mem::size_of::<Structure{escaped}>())
            }}
        }}
        
"

/-- The text `write_packed_struct` emits (generate_impl.rs:397-527), followed by the `Debug` implementation
    (generate_impl.rs:42-50). -/
def packedText (gv : Ty) (children : List Ty) (p : Packed) : Bytes :=
  let escaped := escape gv.show
  fill (args [(ph! "escaped", escaped)]) packedHead ++
  fieldsText 0 p.fields (children.zip (generateTable children)) ++
  fill (args [(ph! "escaped", escaped), (ph! "align", decText (alignOf gv)),
    (ph! "get_fields", join fmt!" " (children.mapIdx fun n _ =>
      fill (args [(ph! "n", decText n)]) fmt!"&self.field_{n},")),
    (ph! "field_arglist", join fmt!", " (children.mapIdx fun n c =>
      fill (args [(ph! "n", decText n), (ph! "marker_type", markerText c)]) fmt!"field_{n} : {marker_type}")),
    (ph! "serialize_types", serTypesText children), (ph! "serialize_types2", serTypes2Text children),
    (ph! "serialize_cmds", cmdsText p.cmds), (ph! "set_fields", setFieldsText 0 p.fields),
    (ph! "defaults", join fmt!", " (children.map fun _ => fmt!"0")),
    (ph! "eq", join fmt!" && " (fmt!"true" :: children.mapIdx fun n _ =>
      fill (args [(ph! "n", decText n)]) fmt!"self.field_{n} == other.field_{n}")),
    (ph! "tuple", join fmt!" " (children.map fun c =>
      fill (args [(ph! "marker_type", markerText c)]) fmt!"&'a {marker_type},"))]) packedTail ++
  fill (args [(ph! "escaped", escaped)]) debugTpl

/-- The text of one definition: `generate_tuple` (generate_impl.rs:31-52). -/
def StructDef.text (d : StructDef) : Bytes :=
  match d.body with
  | .packed p => packedText d.ty d.children p
  | .nonFixed p => nonFixedText d.ty d.children p

/-- The text `define_gv!` hands to the compiler (gvariant-macro/src/lib.rs:21-28; generate_impl.rs:6-29). -/
def emitted (t : Ty) : Res Bytes := do
  let defs ← generateTypes t
  pure (defs.flatMap StructDef.text)

end GV
