import Verif.Model.Buf
import Verif.Model.Reser
import Verif.Model.Eq
/-
Model of fuzz/fuzz_targets/fuzz_target_1.rs.  Comparisons of values with what GLib reads are left out
(`assert_eq!(*v, gv)`, `assert_eq!(t, gv)`) except for the checks of the crate's own consistency in them;
of GLib only `g_variant_is_normal_form` is used, which is a parameter.
-/
namespace GV

/-- `assert!` and `assert_eq!`. -/
def check (b : Bool) : Res Unit := if b then .ok () else .fail .explicit

/-- What `m.serialize(v, &mut vec)` of a freshly cast `v` leaves in a vec, as a slice, after
    `copy_to_align` and `as_ref` (fuzz_target_1.rs:304-306, 313). -/
def realign (c : Cfg) (a : Alloc) (al : Nat) (b : Bytes) : Res Slice := do
  let cow ← copyToAlign c a al (RVec.ofSlice a b).slice
  cow.asRef c

/-- The loop over the elements in `PartialEq<GLibVariant> for NonFixedWidthArray`
    (fuzz_target_1.rs:193-195). -/
def sameElems (c : Cfg) (e : Ty) (s : Slice) : Nat → List Slice → Res Unit
  | _, [] => .ok ()
  | n, r :: rs => do
    let r' ← arrIndex c e s n
    let x ← veq c e r r'
    check x
    sameElems c e s (n + 1) rs

/-- The checks of the crate's own consistency that comparing with a GLib value makes: strings in normal
    form are shown unchanged (fuzz_target_1.rs:155-160), and iterating over an array gives what indexing
    gives (fuzz_target_1.rs:189-195).  The same for the elements is left out. -/
def selfCheck (c : Cfg) (normal : Bool) (t : Ty) (r : Slice) : Res Unit :=
  match t with
  | .S | .O | .G => check (!normal || toStr r.bytes == asBytesNC r.bytes)
  | .A e =>
    match sizeOf e with
    | some _ => .ok ()
    | none => do
      let rs ← arrRefs c e r
      let n ← arrLen c r
      check (n == rs.length)
      sameElems c e r 0 rs
  | _ => .ok ()

/-- `test_cmp` (fuzz_target_1.rs:293-332). -/
def testCmp (c : Cfg) (a : Alloc) (normal : Ty → Bytes → Bool) (t : Ty) (data : Slice) : Res Unit := do
  let v ← fromAligned c t data
  let x ← source c t v
  let b ← serializeToVec c t x
  let rs ← realign c a (alignOf t) b
  if t.show ≠ [100] then
    let w ← fromAligned c t rs
    let e ← veq c t w v
    check e
  selfCheck c (normal t data.bytes) t v
  if normal t data.bytes then
    if data.len ≥ 256 && data.len < 512 && t.show == [97, 97, 121] then check (normal t b)
    else check (b == data.bytes)

/-- `(sututysis)` -/
def fuzzTuple : Ty := .tuple [.S, .U, .T, .U, .T, .Y, .S, .I, .S]

/-- `fuzz_struct` (fuzz_target_1.rs:334-356). -/
def fuzzStruct (c : Cfg) (a : Alloc) (normal : Ty → Bytes → Bool) (data : Slice) : Res Unit := do
  let t ← fromAligned c fuzzTuple data
  let x ← source c fuzzTuple t
  let b ← serializeToVec c fuzzTuple x
  let rs ← realign c a 8 b
  check (normal fuzzTuple b)
  let again ← fromAligned c fuzzTuple rs
  let e ← veq c fuzzTuple again t
  check e

/-- The types given to `test_cmp` (fuzz_target_1.rs:361-381). -/
def fuzzTypes : List Ty :=
  [.B, .Y, .N, .Q, .I, .U, .X, .T, .D, .S, .O, .G, .V, .A .Y, .A .I, .A .S, .A (.A .Y), .M .Y, .M .I,
   .M .S, .M (.A .Y)]

/-- The calls of `test_cmp` one after the other. -/
def testAll (c : Cfg) (a : Alloc) (normal : Ty → Bytes → Bool) (data : Slice) : List Ty → Res Unit
  | [] => .ok ()
  | t :: ts => do
    let d ← asAligned 8 (alignOf t) data
    testCmp c a normal t d
    testAll c a normal data ts

/-- The fuzz target (fuzz_target_1.rs:358-383). -/
def fuzzTarget (c : Cfg) (a : Alloc) (normal : Ty → Bytes → Bool) (data : Slice) : Res Unit := do
  let cow ← copyToAlign c a 8 data
  let d ← cow.asRef c
  testAll c a normal d fuzzTypes
  fuzzStruct c a normal d

end GV
