import Verif.Spec.RustText
/-
Names in Rust source text: which a text uses, which it binds, and what they can stand for.  Written from the Rust
reference and from what the crate makes public, not from the macro.
-/
namespace GV.Spec

/-- Words that stand for nothing. -/
def keywords : List Bytes :=
  [fmt!"impl", fmt!"for", fmt!"mut", fmt!"as", fmt!"fn", fmt!"pub", fmt!"struct", fmt!"type", fmt!"unsafe",
   fmt!"let", fmt!"static", fmt!"const", fmt!"crate", fmt!"_"]

/-- Words after which a name is given to something. -/
def binders : List Bytes := [fmt!"fn", fmt!"struct", fmt!"type", fmt!"let", fmt!"static"]

/-- A word that starts with a digit is a number. -/
def isNumber : Bytes → Bool
  | c :: _ => 48 ≤ c && c ≤ 57
  | [] => false

/-- Where a path starts. -/
inductive Root
  /-- `a::b`: where it is written -/
  | here
  /-- `::a::b`: with the name of a crate -/
  | top
  /-- `…>::a`: a name belonging to a type, or, as in `impl<T> ::a::b`, with the name of a crate -/
  | after
deriving DecidableEq, Repr

/-- A use of a name. -/
inductive Use
  | path (root : Root) (ws : List Bytes)
  | life (w : Bytes)
deriving DecidableEq, Repr

/-- What precedes, as far as it may be the beginning of a path. -/
inductive Cur
  | none
  /-- a closing bracket of some kind -/
  | closed
  | path (root : Root) (ws : List Bytes)
deriving DecidableEq, Repr

/-- What precedes a token. -/
inductive Before
  /-- so many colons after … -/
  | at (cur : Cur) (colons : Nat)
  | dot
  | quote
  | dash
  /-- a word after which a name is given -/
  | bind
deriving DecidableEq, Repr

/-- The path a word ends. -/
def pathOf : Before → Bytes → Cur
  | .dot, _ => .closed
  | .quote, _ => .none
  | .dash, w => .path .here [w]
  | .bind, _ => .none
  | .at cur k, w =>
    if k < 2 then .path .here [w]
    else if k = 2 then
      match cur with
      | .none => .path .top [w]
      | .closed => .path .after [w]
      | .path r ws => .path r (ws ++ [w])
    else .path .top [w]

/-- What precedes after a token. -/
def next (s : Before) : Tok → Before
  | .word w =>
    if s = .quote then .at .none 0
    else if binders.contains w then .bind
    else if keywords.contains w then (if s = .bind then .bind else .at .none 0)
    else if isNumber w then .at .none 0
    else .at (pathOf s w) 0
  | .op c =>
    if c = 58 then
      match s with
      | .at cur k => .at cur (k + 1)
      | _ => .at .none 1
    else if c = 46 then .dot
    else if c = 39 then .quote
    else if c = 45 then .dash
    else if c = 62 then (if s = .dash then .at .none 0 else .at .closed 0)
    else .at .none 0
  | .lit _ => .at .none 0

/-- What follows is `:` and a type or value. -/
def ascribed : Forest → Bool
  | .leaf (.op a) (.leaf (.op b) (.leaf t _)) => a = 58 && (b ≠ 58 || t = .op 58)
  | .leaf (.op a) (.leaf (.op b) _) => a = 58 && b ≠ 58
  | .leaf (.op a) (.leaf _ _) => a = 58
  | .leaf (.op a) (.grp _ _ _) => a = 58
  | _ => false

/-- A literal follows. -/
def litNext : Forest → Bool
  | .leaf (.lit _) _ => true
  | _ => false

/-- No path is continued. -/
def starts : Before → Bool
  | .at _ k => k < 2
  | .dash => true
  | _ => false

/-- The use a word makes; `br` tells whether it is between braces, where a name before a colon is that of a field. -/
def useOf (br : Bool) (s : Before) (w : Bytes) (r : Forest) : List Use :=
  if s = .quote then [.life w]
  else if keywords.contains w || isNumber w || litNext r || (br && starts s && ascribed r) then []
  else match pathOf s w with
    | .path root ws => [.path root ws]
    | _ => []

/-- The names used; what follows `.` belongs to a value and is not listed. -/
def uses (br : Bool) : Before → Forest → List Use
  | _, .nil => []
  | s, .leaf t r =>
    (match t with
      | .word w => useOf br s w r
      | _ => []) ++ uses br (next s t) r
  | _, .grp d i r => uses (d == 123) (.at .none 0) i ++ uses br (.at (if d = 123 then .none else .closed) 0) r

/-- Parameters and generic parameters in what precedes the braces: `name: type` and `self`. -/
def params : Forest → List Bytes
  | .nil => []
  | .leaf (.word w) r => if ascribed r || w = fmt!"self" then w :: params r else params r
  | .leaf _ r => params r
  | .grp _ i r => params i ++ params r

/-- The name after a word such as `let`; `mut` may come first. -/
def boundName : Forest → List Bytes
  | .leaf (.word w) r => if w = fmt!"mut" then boundName r else [w]
  | _ => []

/-- The names given after the words `ks`. -/
def bound (ks : List Bytes) : Forest → List Bytes
  | .nil => []
  | .leaf (.word w) r => if ks.contains w then boundName r ++ bound ks r else bound ks r
  | .leaf _ r => bound ks r
  | .grp _ i r => bound ks i ++ bound ks r

/-- The lifetimes of `impl<'a>`. -/
def lifetimes : Forest → List Bytes
  | .leaf (.word w) r => if w = fmt!"impl" then
      match r with
      | .leaf (.op a) (.leaf (.op q) (.leaf (.word l) _)) => if a = 60 ∧ q = 39 then [l] else []
      | _ => []
    else lifetimes r
  | _ => []

/-- Paths below the root of the crate that can be reached from outside: gvariant/src/lib.rs:302-316 (modules), 327,
    457, 470-495, 614, 631, 712, 1121, 1427, 1644, 1704, 1854, 1973, 2042, 2105; aligned_bytes.rs:78, 132-159, 191, 215,
    605; casting.rs:39-61, 103, 118.  With the features `std` and `alloc`.  Only what the macro might want. -/
def crateRoot : List (List Bytes) :=
  [[fmt!"Marker"], [fmt!"SerializeTo"], [fmt!"Owned"], [fmt!"Owned", fmt!"from_bytes"], [fmt!"write_padding"],
   [fmt!"Cast"], [fmt!"Str"], [fmt!"Variant"], [fmt!"NonFixedWidthArray"], [fmt!"write_offsets"],
   [fmt!"MaybeFixedSize"], [fmt!"MaybeNonFixedSize"], [fmt!"Bool"], [fmt!"Structure"], [fmt!"get_child_elem"],
   [fmt!"aligned_bytes"], [fmt!"aligned_bytes", fmt!"A1"], [fmt!"aligned_bytes", fmt!"A2"],
   [fmt!"aligned_bytes", fmt!"A4"], [fmt!"aligned_bytes", fmt!"A8"], [fmt!"aligned_bytes", fmt!"AlignedSlice"],
   [fmt!"aligned_bytes", fmt!"AlignedOffset"], [fmt!"aligned_bytes", fmt!"align_offset"],
   [fmt!"aligned_bytes", fmt!"AsAligned"], [fmt!"aligned_bytes", fmt!"empty_aligned"],
   [fmt!"casting"], [fmt!"casting", fmt!"AlignOf"], [fmt!"casting", fmt!"AllBitPatternsValid"],
   [fmt!"casting", fmt!"WrongSize"], [fmt!"casting", fmt!"try_cast_slice_to"],
   [fmt!"casting", fmt!"try_cast_slice_to_mut"]]

/-- What the module that `gv!` wraps around the text imports by name, with where from (gvariant/src/lib.rs:578-581);
    it also imports all there is at the root of the crate (gvariant/src/lib.rs:582). -/
def imports : List (Bytes × Bytes) :=
  [(fmt!"aligned_bytes", fmt!"align_offset"), (fmt!"aligned_bytes", fmt!"empty_aligned"),
   (fmt!"aligned_bytes", fmt!"AlignedOffset"), (fmt!"aligned_bytes", fmt!"AlignedSlice"),
   (fmt!"aligned_bytes", fmt!"AsAligned"), (fmt!"aligned_bytes", fmt!"A1"), (fmt!"aligned_bytes", fmt!"A2"),
   (fmt!"aligned_bytes", fmt!"A4"), (fmt!"aligned_bytes", fmt!"A8"), (fmt!"casting", fmt!"AlignOf"),
   (fmt!"casting", fmt!"AllBitPatternsValid")]

/-- What Rust itself has to offer everywhere: types, the prelude of `core`, attributes and their arguments. -/
def everywhere : List Bytes :=
  [fmt!"bool", fmt!"u8", fmt!"i16", fmt!"u16", fmt!"i32", fmt!"u32", fmt!"i64", fmt!"u64", fmt!"f64", fmt!"usize",
   fmt!"true", fmt!"false", fmt!"Self", fmt!"Some", fmt!"None", fmt!"Ok", fmt!"Result", fmt!"Copy", fmt!"Clone",
   fmt!"Default", fmt!"From", fmt!"PartialEq",
   fmt!"derive", fmt!"repr", fmt!"transparent", fmt!"C"]

/-- Paths into `core`, as far as wanted. -/
def corePaths : List (List Bytes) :=
  [[fmt!"core"], [fmt!"core", fmt!"mem"], [fmt!"core", fmt!"mem", fmt!"size_of"]]

/-- Paths into `std`, as far as wanted. -/
def stdPaths : List (List Bytes) :=
  [[fmt!"std"], [fmt!"std", fmt!"fmt"], [fmt!"std", fmt!"fmt", fmt!"Debug"],
   [fmt!"std", fmt!"fmt", fmt!"Debug", fmt!"fmt"], [fmt!"std", fmt!"fmt", fmt!"Formatter"],
   [fmt!"std", fmt!"fmt", fmt!"Result"], [fmt!"std", fmt!"io"], [fmt!"std", fmt!"io", fmt!"Write"],
   [fmt!"std", fmt!"io", fmt!"Result"]]

/-- What is known where a name is used. -/
structure Scope where
  /-- the program has `std` -/
  std : Bool
  /-- the name under which the program has the crate -/
  crate : Bytes
  /-- structures defined beside -/
  structs : List Bytes
  /-- names that belong to the structure at hand -/
  assocs : List Bytes
  /-- parameters and variables -/
  locals : List Bytes
  lives : List Bytes

/-- A path that starts with the name of a crate. -/
def Scope.extern (S : Scope) : List Bytes → Bool
  | [] => false
  | c :: p => (c == S.crate && (p.isEmpty || crateRoot.contains p)) || (S.std && stdPaths.contains (c :: p)) ||
      corePaths.contains (c :: p)

/-- A path that starts where it is written. -/
def Scope.here (S : Scope) (p : List Bytes) : Bool :=
  crateRoot.contains p || S.extern p || match p with
    | [w] => S.locals.contains w || S.structs.contains w || (imports.map (·.2)).contains w || everywhere.contains w ||
        (S.std && w == fmt!"ToOwned")
    | [w, x] => (w == fmt!"Self" || S.structs.contains w) && S.assocs.contains x
    | _ => false

/-- The name stands for something. -/
def Scope.resolves (S : Scope) : Use → Bool
  | .life w => w == fmt!"static" || w == fmt!"_" || S.lives.contains w
  | .path .here p => S.here p
  | .path .top p => S.extern p
  | .path .after p => S.extern p || match p with
    | [x] => S.assocs.contains x
    | _ => false

/-- All names in a row of trees stand for something. -/
def Scope.all (S : Scope) (br : Bool) (f : Forest) : Prop := ∀ u ∈ uses br (.at .none 0) f, S.resolves u = true

/-- All names in an item stand for something: in an implementation its parameters and lifetimes are known throughout,
    those of a function and its variables in that function. -/
def Scope.item (S : Scope) (it : Item) : Prop :=
  let S₁ := { S with locals := params it.hdr, lives := lifetimes it.hdr }
  S₁.all false it.hdr ∧
  match it.stop with
  | .body b =>
    if isImpl it.hdr then
      ∀ jt ∈ items b,
        let S₂ := { S₁ with locals := params it.hdr ++ (params jt.hdr ++ match jt.stop with
          | .body c => bound [fmt!"let", fmt!"static"] c
          | _ => []) }
        S₂.all false jt.hdr ∧ match jt.stop with
          | .body c => S₂.all true c
          | _ => True
    else S₁.all true b
  | _ => True

end GV.Spec
