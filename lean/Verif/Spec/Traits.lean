import Verif.Spec.RustRead
import Mathlib.Data.List.Forall2
/-
Which traits Rust types implement, and what a text that defines structures asks of types.

What is implemented for the types of the crate and of the standard library is listed; what is implemented for
structures is read off the text that defines them.  Written from the Rust reference, the documentation of `core`
and `alloc` and the heads of the implementations in the crate, not from the macro.
-/
namespace GV.Spec

/-- Traits. -/
inductive Trt
  | sized | copy | clone | default | partialEq | eq | partialOrd | hash | debug | toOwned
  /-- `AlignOf`, `AllBitPatternsValid`, `Cast`, `Structure` of the crate -/
  | alignOf | valid | cast | structure
deriving DecidableEq, Repr

/-- Traits by their names. -/
def traitNamed (w : Bytes) : Option Trt :=
  [(fmt!"Sized", Trt.sized), (fmt!"Copy", .copy), (fmt!"Clone", .clone), (fmt!"Default", .default),
   (fmt!"PartialEq", .partialEq), (fmt!"Eq", .eq), (fmt!"PartialOrd", .partialOrd), (fmt!"Hash", .hash),
   (fmt!"Debug", .debug), (fmt!"ToOwned", .toOwned), (fmt!"AlignOf", .alignOf), (fmt!"AllBitPatternsValid", .valid),
   (fmt!"Cast", .cast), (fmt!"Structure", .structure)].lookup w

/-- What else must be implemented: `Cast` (gvariant/src/lib.rs:631-633), `Structure` (gvariant/src/lib.rs:2042);
    `Copy`, `Eq` and `PartialOrd` of `core`. -/
def superTraits : Trt → List Trt
  | .cast => [.alignOf, .valid, .partialEq, .debug, .toOwned]
  | .structure => [.cast, .debug, .alignOf, .valid]
  | .copy => [.clone]
  | .eq | .partialOrd => [.partialEq]
  | _ => []

/-- What precedes the word `for`, and what follows. -/
def atFor : Forest → Option (Forest × Forest)
  | .nil => none
  | .leaf t r => if t = .word fmt!"for" then some (.nil, r) else (atFor r).map fun p => (.leaf t p.1, p.2)
  | .grp d i r => (atFor r).map fun p => (.grp d i p.1, p.2)

/-- The last word that is not between angle brackets. -/
def lastWord : Nat → Option Bytes → Forest → Option Bytes
  | _, w, .nil => w
  | k, w, .leaf t r =>
    if t = .op 60 then lastWord (k + 1) w r
    else if t = .op 62 then lastWord (k - 1) w r
    else match t with
      | .word x => lastWord k (if k = 0 then some x else w) r
      | _ => lastWord k w r
  | k, w, .grp _ _ r => lastWord k w r

/-- The name of a trait that is implemented for a structure, and the name of that structure. -/
def implFor (h : Forest) : Option (Bytes × Bytes) :=
  match atFor h with
  | some (p, .leaf (.word n) .nil) => (lastWord 0 none p).map (·, n)
  | _ => none

/-- The trait is among those derived. -/
def DerivesTrait (as : List Forest) (tr : Trt) : Prop :=
  ∃ i w, .leaf (.word fmt!"derive") (.grp 40 i .nil) ∈ as ∧ .leaf (.word w) .nil ∈ atCommas i ∧ traitNamed w = some tr

/-- The types of the members among the declared fields. -/
def fieldTypes (fs : List RField) : List Forest := fs.filterMap fun | .mem _ ty => some ty | .pad _ _ => none

/-- `u8` to `u64`. -/
def isInteger : RTy → Bool
  | .u8 | .i16 | .u16 | .i32 | .u32 | .i64 | .u64 => true
  | _ => false

/-- `u8` to `u64` and `f64`. -/
def isNumberTy (r : RTy) : Bool := isInteger r || r == .f64

/-- The trait is implemented for the type, in a program with the text `F`. -/
inductive Impls (F : Forest) : Trt → RTy → Prop
  /-- `core` -/
  | number {tr r} : isNumberTy r = true → tr ∈ [Trt.sized, .copy, .clone, .default, .partialEq, .partialOrd, .debug] →
      Impls F tr r
  /-- `core` -/
  | integer {tr r} : isInteger r = true → tr ∈ [Trt.eq, .hash] → Impls F tr r
  /-- casting.rs:134-137, 147-154; gvariant/src/lib.rs:662, 696-703 -/
  | number' {tr r} : isNumberTy r = true → tr ∈ [Trt.alignOf, .valid, .cast] → Impls F tr r
  /-- `impl<T: Clone> ToOwned for T` of `alloc` -/
  | toOwned {r} : Impls F .sized r → Impls F .clone r → Impls F .toOwned r
  /-- `core` -/
  | slice {tr e} : tr ∈ [Trt.partialEq, .eq, .partialOrd, .hash, .debug] → Impls F .sized e → Impls F tr e →
      Impls F tr (.slice e)
  /-- `impl<T: Clone> ToOwned for [T]` of `alloc` -/
  | sliceOwned {e} : Impls F .sized e → Impls F .clone e → Impls F .toOwned (.slice e)
  /-- casting.rs:54-57, 155 -/
  | slice' {tr e} : tr ∈ [Trt.alignOf, .valid] → Impls F .sized e → Impls F tr e → Impls F tr (.slice e)
  /-- gvariant/src/lib.rs:1299 -/
  | sliceCast {e} : Impls F .sized e → Impls F .cast e → Impls F .copy e → Impls F .cast (.slice e)
  /-- gvariant/src/lib.rs:1971-2012 -/
  | bool {tr} : tr ∈ [Trt.sized, .copy, .clone, .eq, .partialEq, .debug, .alignOf, .valid, .cast] → Impls F tr .bool
  /-- gvariant/src/lib.rs:710, 770-775, 830, 851, 868 -/
  | str {tr} : tr ∈ [Trt.eq, .partialEq, .debug, .toOwned, .alignOf, .valid, .cast] → Impls F tr .str
  /-- gvariant/src/lib.rs:1122-1126, 1152, 1164, 1221 -/
  | variant {tr} : tr ∈ [Trt.partialEq, .debug, .toOwned, .alignOf, .valid, .cast] → Impls F tr .variant
  /-- gvariant/src/lib.rs:1441-1451 -/
  | array {tr e} : tr ∈ [Trt.toOwned, .alignOf, .valid, .cast] → Impls F .cast e → Impls F tr (.nonFixedWidthArray e)
  /-- gvariant/src/lib.rs:1431, 1506, 1519 -/
  | array' {tr e} : tr ∈ [Trt.debug, .partialEq, .eq] → Impls F .cast e → Impls F tr e → Impls F tr (.nonFixedWidthArray e)
  /-- gvariant/src/lib.rs:1710, 1782-1787 -/
  | maybe {tr e} : tr ∈ [Trt.toOwned, .alignOf, .valid, .cast] → Impls F .sized e → Impls F .cast e →
      Impls F tr (.maybeFixedSize e)
  /-- gvariant/src/lib.rs:1721, 1755, 1760, 1771, 1776 -/
  | maybe' {tr e} : tr ∈ [Trt.debug, .partialEq, .eq, .partialOrd, .hash] → Impls F .sized e → Impls F .cast e →
      Impls F tr e → Impls F tr (.maybeFixedSize e)
  /-- gvariant/src/lib.rs:1864, 1893-1898 -/
  | maybeVar {tr e} : tr ∈ [Trt.toOwned, .alignOf, .valid, .cast] → Impls F .cast e → Impls F tr (.maybeNonFixedSize e)
  /-- gvariant/src/lib.rs:1858, 1928, 1933 -/
  | maybeVar' {tr e} : tr ∈ [Trt.debug, .partialEq, .eq] → Impls F .cast e → Impls F tr e →
      Impls F tr (.maybeNonFixedSize e)
  /-- a structure all of whose fields are `Sized` -/
  | fields {as n B fs} (rs : List RTy) : (as, n, B) ∈ structs F → allSome readField (atCommas B) = some fs →
      fieldTypes fs = rs.map RTy.trees → (∀ r ∈ rs, Impls F .sized r) → Impls F .sized (.struct n)
  /-- `#[derive(…)]` -/
  | derived {as n B tr} : (as, n, B) ∈ structs F → DerivesTrait as tr → Impls F tr (.struct n)
  /-- `impl … for …` -/
  | written {p w n tr} : p ∈ impls F → implFor p.1 = some (w, n) → traitNamed w = some tr → Impls F tr (.struct n)

/-- `An`, as written in the text. -/
def alignPath (f : Forest) : Option Nat :=
  match alignName f with
  | some n => some n
  | none => ((code fmt!"::gvariant::").strip f).bind alignName

/-- `T::AlignOf` is `An`: casting.rs:54-57, 147-154; gvariant/src/lib.rs:771-773, 1122-1124, 1447-1449, 1782-1784,
    1893-1895, 2000-2002; for structures as the text says. -/
inductive AlignIs (F : Forest) : RTy → Nat → Prop
  | one {r} : r ∈ [RTy.bool, .u8, .str] → AlignIs F r 1
  | two {r} : r ∈ [RTy.i16, .u16] → AlignIs F r 2
  | four {r} : r ∈ [RTy.i32, .u32] → AlignIs F r 4
  | eight {r} : r ∈ [RTy.i64, .u64, .f64, .variant] → AlignIs F r 8
  | slice {e n} : AlignIs F e n → AlignIs F (.slice e) n
  | array {e n} : AlignIs F e n → AlignIs F (.nonFixedWidthArray e) n
  | maybe {e n} : AlignIs F e n → AlignIs F (.maybeFixedSize e) n
  | maybeVar {e n} : AlignIs F e n → AlignIs F (.maybeNonFixedSize e) n
  | written {p name n} : p ∈ typeDefs fmt!"AlignOf" F → implFor p.1 = some (fmt!"AlignOf", name) →
      alignPath p.2 = some n → AlignIs F (.struct name) n

/-- `Aa: AlignedTo<Ab>` (aligned_bytes.rs:136-165). -/
def alignedTo (a b : Nat) : Bool :=
  [(1, 1), (2, 1), (2, 2), (4, 1), (4, 2), (4, 4), (8, 1), (8, 2), (8, 4), (8, 8)].contains (a, b)

/-- `AlignedOffset<Aa>: Into<AlignedOffset<Ab>>` (offset.rs:126-144, and `impl<T> From<T> for T` of `core`). -/
def offsetInto (a b : Nat) : Bool :=
  [(2, 1), (4, 1), (8, 1), (4, 2), (8, 2), (8, 4), (1, 1), (2, 2), (4, 4), (8, 8)].contains (a, b)

/-- The type may be named: `[T]` and `MaybeFixedSize<T: Cast>` (gvariant/src/lib.rs:1704) want `T: Sized`,
    `NonFixedWidthArray` (1427) and `MaybeNonFixedSize` (1854) want `T: Cast`. -/
def Named (F : Forest) : RTy → Prop
  | .slice e => Named F e ∧ Impls F .sized e
  | .nonFixedWidthArray e | .maybeNonFixedSize e => Named F e ∧ Impls F .cast e
  | .maybeFixedSize e => Named F e ∧ Impls F .sized e ∧ Impls F .cast e
  | .struct n => n ∈ (structs F).map (·.2.1)
  | _ => True

/-- `(&'a T, …)` implements what its parts do; `core` has implementations for tuples of up to twelve. -/
def TupleImpls (F : Forest) (tr : Trt) (rs : List RTy) : Prop := rs.length ≤ 12 ∧ ∀ r ∈ rs, Impls F tr r

/-- `data: AlignedSlice<aligned_bytes::An>,`: a structure around a slice. -/
def dataAlign (B : Forest) : Option Nat :=
  [1, 2, 4, 8].find? fun k => decide (B = code (fmt!"data: AlignedSlice<aligned_bytes::A" ++ (decText k ++ fmt!">,")))

/-- The fields of a structure. -/
def declared (B : Forest) : Option (List RField) := allSome readField (atCommas B)

/-- What the text `G` asks of types is the case in a program with the text `F`. -/
structure Bounds (F G : Forest) : Prop where
  /-- implementations need what their traits need -/
  supers : ∀ p ∈ impls G, ∀ w n tr, implFor p.1 = some (w, n) → traitNamed w = some tr →
    ∀ s ∈ superTraits tr, Impls F s (.struct n)
  /-- so do derived ones, and they need the same of all fields; arrays implement `Default` up to a length of 32 -/
  derives : ∀ s ∈ structs G, ∀ tr, DerivesTrait s.1 tr → (∀ u ∈ superTraits tr, Impls F u (.struct s.2.1)) ∧
    ∃ (fs : List RField) (rs : List RTy), declared s.2.2 = some fs ∧ fieldTypes fs = rs.map RTy.trees ∧
      (∀ r ∈ rs, Impls F tr r) ∧ ∀ k n, .pad k n ∈ fs → n ≤ 32
  /-- fields are `Sized`, but for the last one, which here may be an aligned slice -/
  fields : ∀ s ∈ structs G, (dataAlign s.2.2).isSome ∨
    ∃ (fs : List RField) (rs : List RTy), declared s.2.2 = some fs ∧ fieldTypes fs = rs.map RTy.trees ∧
      ∀ r ∈ rs, Named F r ∧ Impls F .sized r
  /-- `SerializeTo<T>` needs `T: Cast` (gvariant/src/lib.rs:457) -/
  writes : ∀ f ∈ fns fmt!"serialize" G, ∃ (n : Bytes) (ps ts : Forest), f.1 = serHead n ps ts ∧
    Impls F .cast (.struct n) ∧ ∀ q ∈ atCommas ps, ∃ (w : Tok) (r : RTy),
      q = .leaf w ((code fmt!": ::gvariant::SerializeTo<").append (r.trees.append (code fmt!"> + Copy"))) ∧
      Named F r ∧ Impls F .cast r
  /-- `to_tuple` returns references to types that there are.  What is called with it must take it: `Debug::fmt`
      and `==`.  What it returns is references to the fields or what calls of `get_child_elem::<T, B>(self.data.as_aligned(),
      …)` return (gvariant/src/lib.rs:2105-2116, aligned_bytes.rs:312-315) -/
  tuples : ∀ f ∈ fns fmt!"to_tuple" G, ∀ s ∈ structs G, ∃ (tup : Forest) (rs : List RTy),
    f.2.1 = (code fmt!"fn to_tuple(&'a self) ->").append (.grp 40 tup .nil) ∧
    tupleParts tup = some (rs.map fun r => (code fmt!"&'a").append r.trees) ∧ (∀ r ∈ rs, Named F r) ∧
    (∀ g ∈ fns fmt!"fmt" G, g.2.2 = code fmt!"std::fmt::Debug::fmt(&self.to_tuple(), f)" → TupleImpls F .debug rs) ∧
    (∀ g ∈ fns fmt!"eq" G, g.2.2 = code fmt!"self.to_tuple() == other.to_tuple()" → TupleImpls F .partialEq rs) ∧
    ((∃ ns fs, readRefs f.2.2 = some ns ∧ declared s.2.2 = some fs ∧
        List.Forall₂ (fun n r => .mem n (RTy.trees r) ∈ fs) ns rs) ∨
      ∃ ks a, readCalls f.2.2 = some ks ∧ dataAlign s.2.2 = some a ∧
        List.Forall₂ (fun (k : Call) r => k.elem = RTy.trees r ∧ Impls F .cast r ∧
          ∃ n, AlignIs F r n ∧ offsetInto k.b n = true ∧ alignedTo a n = true) ks rs)
  /-- `self.field_n == other.field_m` needs fields of one type that can be compared -/
  compares : ∀ f ∈ fns fmt!"eq" G, ∀ s ∈ structs G, f.2.2 = code fmt!"self.to_tuple() == other.to_tuple()" ∨
    ∃ ps fs, readEq f.2.2 = some ps ∧ declared s.2.2 = some fs ∧
      ∀ p ∈ ps, ∃ r : RTy, .mem p.1 r.trees ∈ fs ∧ .mem p.2 r.trees ∈ fs ∧ Impls F .partialEq r
  /-- a slice is what the structure is around; or `new` is given as many as there are parameters of the literal `0`,
      which is an integer -/
  zeros : ∀ f ∈ fns fmt!"default_ref" G, ∀ s ∈ structs G,
    (∃ a, dataAlign s.2.2 = some a ∧ f.2.2 = code (fmt!"let d = empty_aligned(); unsafe {{&*(d as *const AlignedSlice<aligned_bytes::A" ++
      (decText a ++ (fmt!"> as *const " ++ (s.2.1 ++ fmt!")}}"))))) ∨
    ∃ (g : Forest × Forest × Forest) (k : Nat) (ps : List (Nat × Forest)) (is : List RInit) (rs : List RTy),
      fns fmt!"new" G = [g] ∧ readDefault s.2.1 f.2.2 = some k ∧ readNew s.2.1 g.2.1 g.2.2 = some (ps, is) ∧
      ps.map (·.2) = rs.map RTy.trees ∧ rs.length = k ∧ ∀ r ∈ rs, isInteger r = true
  /-- a slice is what the structure is around; or the casts of the library do for it: `try_cast_slice_to::<Self>` and
      `try_cast_slice_to_mut::<Self>` (casting.rs:103-105, 118-120) -/
  casts : ∀ f ∈ fns fmt!"try_from_aligned_slice" G ++ fns fmt!"try_from_aligned_slice_mut" G, ∀ s ∈ structs G,
    (∃ a, dataAlign s.2.2 = some a ∧ (f.2.2 = code fmt!"Ok(Self::from_aligned_slice_mut(slice))" ∨
      f.2.2 = code (fmt!"Ok(unsafe {{&*(slice as *const AlignedSlice<aligned_bytes::A" ++
        (decText a ++ (fmt!"> as *const " ++ (s.2.1 ++ fmt!")}})")))))) ∨
    (f.2.2 = code fmt!"::gvariant::casting::try_cast_slice_to::<Self>(slice)" ∨
      f.2.2 = code fmt!"::gvariant::casting::try_cast_slice_to_mut::<Self>(slice)") ∧
    Impls F .sized (.struct s.2.1) ∧ Impls F .alignOf (.struct s.2.1) ∧ Impls F .valid (.struct s.2.1)
  /-- `Owned<Self>` (gvariant/src/lib.rs:470-503) -/
  owns : ∀ p ∈ typeDefs fmt!"Owned" G, p.2 = code fmt!"Owned<Self>" →
    ∃ w n, implFor p.1 = some (w, n) ∧ Impls F .cast (.struct n)

end GV.Spec
