import Verif.Spec.Traits
/-
What implementations of traits consist of.  Written from the declarations of the traits in the crate and in the
standard library, not from the macro.
-/
namespace GV.Spec

/-- The name in `type name = …`. -/
def typeName : Forest → Option Bytes
  | .leaf (.word w) (.leaf (.word n) (.leaf (.op e) _)) => if w = fmt!"type" ∧ e = 61 then some n else none
  | _ => none

/-- A function with a body (`true`) or a type, and its name. -/
def itemKind (it : Item) : Option (Bool × Bytes) :=
  match it.stop with
  | .body _ => (fnName it.hdr).map fun n => (true, n)
  | .semi => (typeName it.hdr).map fun n => (false, n)
  | .eof => none

/-- What an implementation must have: `Cast` (gvariant/src/lib.rs:631-658), `Structure` (2042-2050),
    `SerializeTo` (457-459), `AlignOf` (casting.rs:51-53), `AllBitPatternsValid` (casting.rs:39), and traits of the
    standard library. -/
def requiredItems (w : Bytes) : Option (List (Bool × Bytes)) :=
  [(fmt!"Cast", [(true, fmt!"default_ref"), (true, fmt!"try_from_aligned_slice"), (true, fmt!"try_from_aligned_slice_mut")]),
   (fmt!"Structure", [(false, fmt!"RefTuple"), (true, fmt!"to_tuple")]),
   (fmt!"SerializeTo", [(true, fmt!"serialize")]),
   (fmt!"AlignOf", [(false, fmt!"AlignOf")]),
   (fmt!"AllBitPatternsValid", []),
   (fmt!"ToOwned", [(false, fmt!"Owned"), (true, fmt!"to_owned")]),
   (fmt!"PartialEq", [(true, fmt!"eq")]),
   (fmt!"Debug", [(true, fmt!"fmt")]),
   (fmt!"From", [(true, fmt!"from")])].lookup w

/-- What it may have besides. -/
def optionalItems (w : Bytes) : List (Bool × Bytes) :=
  ([(fmt!"Cast", [(true, fmt!"from_aligned_slice")]),
    (fmt!"ToOwned", [(true, fmt!"clone_into")]),
    (fmt!"PartialEq", [(true, fmt!"ne")])].lookup w).getD []

/-- The implementation is of the trait `w`. -/
inductive ImplOf : Forest → Bytes → Prop
  | plain {h w n} : implFor h = some (w, n) → ImplOf h w
  | from (n tup) : ImplOf (fromHead n tup) fmt!"From"
  | ser (n ps ts) : ImplOf (serHead n ps ts) fmt!"SerializeTo"

/-- Nothing is missing, nothing is there that the trait does not have, and nothing twice. -/
def CompleteImpl (w : Bytes) (its : List Item) : Prop :=
  ∃ ns rs, its.map itemKind = ns.map some ∧ requiredItems w = some rs ∧ ns.Nodup ∧ rs ⊆ ns ∧ ns ⊆ rs ++ optionalItems w

/-- An implementation of methods only, or a complete implementation of a trait. -/
def GoodImpl (p : Forest × List Item) : Prop :=
  (∃ n, p.1 = code (fmt!"impl " ++ n) ∧ ∃ ns : List Bytes, p.2.map itemKind = ns.map (fun n => some (true, n)) ∧ ns.Nodup) ∨
  ∃ w, ImplOf p.1 w ∧ CompleteImpl w p.2

/-- The traits written and for which structures. -/
def writtenFor (F : Forest) : List (Bytes × Bytes) := (impls F).filterMap fun p => implFor p.1

/-- Without what leads to a name: `a::b::C` is `C`. -/
def noPaths : Forest → Forest
  | .nil => .nil
  | .leaf (.word w) (.leaf (.op 58) (.leaf (.op 58) r)) => if w = fmt!"mut" then .leaf (.word w) (noPaths r) else noPaths r
  | .leaf (.op 58) (.leaf (.op 58) r) => noPaths r
  | .leaf t r => .leaf t (noPaths r)
  | .grp d i r => .grp d (noPaths i) (noPaths r)

/-- How the functions are declared: `Cast` (lib.rs:635, 644-657), `SerializeTo` (lib.rs:458), `ToOwned`, `PartialEq` and
    `Debug` of the standard library.  Those of `Structure` and `From` depend on parameters. -/
def signatures : List (Bytes × Forest) :=
  [(fmt!"default_ref", code fmt!"fn default_ref() -> &'static Self"),
   (fmt!"try_from_aligned_slice",
    code fmt!"fn try_from_aligned_slice(slice: &AlignedSlice<Self::AlignOf>) -> Result<&Self, casting::WrongSize>"),
   (fmt!"try_from_aligned_slice_mut",
    code fmt!"fn try_from_aligned_slice_mut(slice: &mut AlignedSlice<Self::AlignOf>) -> Result<&mut Self, casting::WrongSize>"),
   (fmt!"to_owned", code fmt!"fn to_owned(&self) -> Self::Owned"),
   (fmt!"eq", code fmt!"fn eq(&self, other: &Self) -> bool"),
   (fmt!"fmt", code fmt!"fn fmt(&self, f: &mut Formatter<'_>) -> Result"),
   (fmt!"serialize", code fmt!"fn serialize(self, f: &mut impl Write) -> std::io::Result<usize>")]

end GV.Spec
