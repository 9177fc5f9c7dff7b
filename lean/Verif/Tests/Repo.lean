import Verif.Model.Reser
import Verif.Model.Eq
import Verif.Model.Fuzz
/-
The assertions of the repository's own tests, evaluated in the model.

These are not proofs of anything general.  They compare the model with the code: the tests pass with
the real code, so a model that disagreed with one of them would be wrong.  Reading is checked by the
whole value, which includes every assertion on parts of it.
-/
namespace GV
namespace Tests

/-- A 64-bit little-endian build with the checks of a debug build. -/
def dbg : Cfg := ⟨true, true, false, 4097, 3⟩

/-- `gv!("a…").cast(data)`, then the given use of the array. -/
def arr {α : Type} (e : Ty) (b : Bytes) (f : Slice → Res α) : Res α := do
  let s ← fromAligned dbg (.A e) ⟨4096, b⟩
  f s

/-- The value of an optional reference. -/
def viewOpt (e : Ty) (o : Option Slice) : Res (Option Val) :=
  match o with
  | none => .ok none
  | some x => do
    let v ← view dbg e x
    pure (some v)

/-- `a[i]`. -/
def ix (e : Ty) (b : Bytes) (i : Nat) : Res Val := arr e b fun s => do
  let x ← arrIndex dbg e s i
  view dbg e x

/-- `a.len()`. -/
def len (e : Ty) (b : Bytes) : Res Nat := arr e b fun s => arrLen dbg s

/-- `a.first()`. -/
def first (e : Ty) (b : Bytes) : Res (Option Val) := arr e b fun s => do
  let o ← arrFirst dbg e s
  viewOpt e o

/-- `a.last()`. -/
def last (e : Ty) (b : Bytes) : Res (Option Val) := arr e b fun s => do
  let o ← arrLast dbg e s
  viewOpt e o

/-- `size_hint` of `a.iter()` after so many calls of `next`. -/
def hintAfter (e : Ty) (b : Bytes) (n : Nat) : Res Nat := arr e b fun s => do
  let it ← intoIter dbg e s
  go n it
where
  go : Nat → ArrIter → Res Nat
    | 0, it => sizeHint dbg it
    | n + 1, it => do
      let r ← iterNext dbg e it
      go n r.2

/-- `v.get(t).unwrap().get(u).unwrap()`. -/
def getTwice (t u : Ty) (b : Bytes) : Res Val := do
  let o ← variantGet dbg t ⟨4096, b⟩
  let v ← Res.unwrap o
  let o ← variantGet dbg u v
  let a ← Res.unwrap o
  view dbg u a


/-! ### gvariant/tests/test.rs:7-32 (basic types, structures into tuples) -/

example : readAs dbg .I ⟨4096, [0, 0, 0, 0]⟩ = .ok (.num 0) := rfl
example : readAs dbg (.tuple []) ⟨4096, []⟩ = .ok (.tup []) := rfl
example : readAs dbg (.tuple [.I]) ⟨4096, []⟩ = .ok (.tup [.num 0]) := rfl
example : readAs dbg (.tuple [.S]) ⟨4096, []⟩ = .ok (.tup [.str []]) := rfl
example : readAs dbg (.tuple [.I, .I]) ⟨4096, [6, 0, 0, 0, 3, 0, 0, 0]⟩ = .ok (.tup [.num 6, .num 3]) :=
    rfl
example : readAs dbg (.tuple [.I, .S]) ⟨4096, [6, 0, 0, 0, 115, 117, 112, 101, 114, 0]⟩ = .ok (.tup
    [.num 6, .str [115, 117, 112, 101, 114]]) := rfl

/-! ### gvariant/tests/test.rs:34-122 (structure serialization) -/

example : serializeToVec dbg (.tuple []) (.tup []) = .ok [0] := by decide +kernel
example : serializeToVec dbg (.tuple [.I]) (.tup [.num 87654321]) = .ok [177, 127, 57, 5] :=
    by decide +kernel
example : serializeToVec dbg (.tuple [.I, .Y]) (.tup [.num 87654321, .num 6]) = .ok [177, 127, 57, 5, 6,
    0, 0, 0] := by decide +kernel
example : serializeToVec dbg (.tuple [.Y, .I]) (.tup [.num 6, .num 87654321]) = .ok [6, 0, 0, 0, 177,
    127, 57, 5] := by decide +kernel
example : serializeToVec dbg (.tuple [.Y, .Y, .Y, .Y, .I]) (.tup [.num 6, .num 5, .num 4, .num 3, .num
    87654321]) = .ok [6, 5, 4, 3, 177, 127, 57, 5] := by decide +kernel
example : serializeToVec dbg (.tuple [.S]) (.tup [.str [72, 101, 108, 108, 111, 33]]) = .ok [72, 101,
    108, 108, 111, 33, 0] := by decide +kernel
example : serializeToVec dbg (.tuple [.S, .I]) (.tup [.str [72, 101, 108, 108, 111, 33, 33], .num
    87654321]) = .ok [72, 101, 108, 108, 111, 33, 33, 0, 177, 127, 57, 5, 8] := by decide +kernel
example : serializeToVec dbg (.tuple [.S, .I]) (.tup [.str [72, 101, 108, 108, 111, 33], .num 87654321])
    = .ok [72, 101, 108, 108, 111, 33, 0, 0, 177, 127, 57, 5, 7] := by decide +kernel
example : serializeToVec dbg (.tuple [.S, .I]) (.tup [.str [72, 101, 108, 108, 111], .num 87654321]) =
    .ok [72, 101, 108, 108, 111, 0, 0, 0, 177, 127, 57, 5, 6] := by decide +kernel
example : serializeToVec dbg (.tuple [.S, .I]) (.tup [.str [72, 101, 108, 108], .num 87654321]) = .ok
    [72, 101, 108, 108, 0, 0, 0, 0, 177, 127, 57, 5, 5] := by decide +kernel
example : serializeToVec dbg (.tuple [.I, .S]) (.tup [.num 87654321, .str [72, 101, 108, 108, 111]]) =
    .ok [177, 127, 57, 5, 72, 101, 108, 108, 111, 0] := by decide +kernel
example : serializeToVec dbg (.tuple [.I, .S, .I, .S]) (.tup [.num 87654321, .str [72, 101, 108, 108,
    111], .num 305419896, .str [66, 121, 101, 101]]) = .ok [177, 127, 57, 5, 72, 101, 108, 108, 111, 0,
    0, 0, 120, 86, 52, 18, 66, 121, 101, 101, 0, 10] := by decide +kernel
example : serializeToVec dbg (.tuple [.S, .I, .S, .I]) (.tup [.str [72, 101, 108, 108, 111], .num
    87654321, .str [66, 121, 101, 101], .num 305419896]) = .ok [72, 101, 108, 108, 111, 0, 0, 0, 177,
    127, 57, 5, 66, 121, 101, 101, 0, 0, 0, 0, 120, 86, 52, 18, 17, 6] := by decide +kernel
example : serializeToVec dbg (.tuple [.S, .U, .T, .U, .T, .Y]) (.tup [.str [72, 101, 108, 108, 111],
    .num 286331153, .num 2459565876494606882, .num 858993459, .num 4919131752989213764, .num 85]) = .ok
    [72, 101, 108, 108, 111, 0, 0, 0, 17, 17, 17, 17, 0, 0, 0, 0, 34, 34, 34, 34, 34, 34, 34, 34, 51,
    51, 51, 51, 0, 0, 0, 0, 68, 68, 68, 68, 68, 68, 68, 68, 85, 6] := by decide +kernel
example : serializeToVec dbg (.tuple [.S, .U, .T, .U, .T, .Y]) (.tup [.str [72, 101], .num 286331153,
    .num 2459565876494606882, .num 858993459, .num 4919131752989213764, .num 85]) = .ok [72, 101, 0, 0,
    17, 17, 17, 17, 34, 34, 34, 34, 34, 34, 34, 34, 51, 51, 51, 51, 0, 0, 0, 0, 68, 68, 68, 68, 68, 68,
    68, 68, 85, 3] := by decide +kernel
example : serializeToVec dbg (.tuple [.S, .U, .T, .U, .T, .Y, .S, .I, .S]) (.tup [.strRef [0], .num
    286331153, .num 2459565876494606882, .num 858993459, .num 4919131752989213764, .num 85, .strRef [0],
    .num 1717986918, .strRef [0]]) = .ok [0, 0, 0, 0, 17, 17, 17, 17, 34, 34, 34, 34, 34, 34, 34, 34,
    51, 51, 51, 51, 0, 0, 0, 0, 68, 68, 68, 68, 68, 68, 68, 68, 85, 0, 0, 0, 102, 102, 102, 102, 0, 34,
    1] := by decide +kernel

/-! ### gvariant/tests/test.rs:124-197 (complex types) -/

example : readAs dbg (.tuple [(.A (.tuple [.S, (.A .Y)])), (.A (.tuple [.S, (.A .Y), (.A .Y)]))]) ⟨4096,
    [104, 101, 108, 108, 111, 0, 1, 2, 3, 4, 6, 119, 111, 114, 108, 100, 0, 4, 3, 2, 1, 6, 11, 22, 109,
    121, 45, 100, 105, 114, 0, 3, 20, 21, 146, 101, 53, 11, 7, 15, 24]⟩ = .ok (.tup [.arr [.tup [.str
    [104, 101, 108, 108, 111], .arr [.num 1, .num 2, .num 3, .num 4]], .tup [.str [119, 111, 114, 108,
    100], .arr [.num 4, .num 3, .num 2, .num 1]]], .arr [.tup [.str [109, 121, 45, 100, 105, 114], .arr
    [.num 3, .num 20, .num 21, .num 146], .arr [.num 101, .num 53]]]]) := rfl
example : serializeToVec dbg (.tuple [(.A (.tuple [.S, (.A .Y)])), (.A (.tuple [.S, (.A .Y), (.A
    .Y)]))]) (.tup [.seq [.tup [.str [104, 101, 108, 108, 111], .seq [.num 1, .num 2, .num 3, .num 4]],
    .tup [.str [119, 111, 114, 108, 100], .seq [.num 4, .num 3, .num 2, .num 1]]], .seq [.tup [.str
    [109, 121, 45, 100, 105, 114], .seq [.num 3, .num 20, .num 21, .num 146], .seq [.num 101, .num
    53]]]]) = .ok [104, 101, 108, 108, 111, 0, 1, 2, 3, 4, 6, 119, 111, 114, 108, 100, 0, 4, 3, 2, 1, 6,
    11, 22, 109, 121, 45, 100, 105, 114, 0, 3, 20, 21, 146, 101, 53, 11, 7, 15, 24] := by decide +kernel
example : readAs dbg (.tuple [.S, .U, .T, .U, .T, .Y, .S, .I, .S]) ⟨4096, [0, 0, 0, 0, 17, 17, 17, 17,
    34, 34, 34, 34, 34, 34, 34, 34, 51, 51, 51, 51, 0, 0, 0, 0, 68, 68, 68, 68, 68, 68, 68, 68, 85, 0,
    0, 0, 102, 102, 102, 102, 0, 34, 1]⟩ = .ok (.tup [.str [], .num 286331153, .num 2459565876494606882,
    .num 858993459, .num 4919131752989213764, .num 85, .str [], .num 1717986918, .str []]) := rfl
/-- The file `gvariant/tests/0bf62002….commit`. -/
def commit : Bytes := [114, 112, 109, 111, 115, 116, 114, 101, 101, 46, 105, 110, 112, 117, 116, 104,
    97, 115, 104, 0, 0, 0, 0, 0, 54, 97, 54, 55, 57, 55, 48, 50, 101, 50, 51, 102, 99, 101, 53, 99, 100,
    51, 49, 98, 101, 57, 48, 48, 102, 97, 50, 98, 51, 52, 48, 99, 56, 55, 57, 50, 53, 53, 48, 101, 98,
    48, 51, 56, 56, 49, 100, 54, 98, 49, 56, 56, 54, 99, 51, 97, 98, 54, 55, 100, 56, 50, 53, 101, 0, 0,
    115, 20, 0, 0, 0, 0, 118, 101, 114, 115, 105, 111, 110, 0, 55, 46, 49, 55, 48, 55, 0, 0, 115, 8, 92,
    114, 70, 32, 229, 145, 167, 106, 68, 182, 36, 246, 82, 107, 198, 232, 34, 45, 109, 184, 222, 17, 30,
    80, 78, 165, 11, 187, 84, 76, 217, 4, 160, 64, 0, 0, 0, 0, 0, 0, 0, 0, 89, 127, 86, 214, 54, 202,
    85, 152, 211, 39, 67, 186, 169, 61, 199, 183, 76, 173, 73, 50, 248, 117, 110, 5, 1, 119, 13, 93,
    139, 239, 230, 14, 10, 3, 45, 79, 80, 119, 56, 23, 228, 81, 150, 41, 251, 6, 28, 179, 207, 228, 221,
    174, 10, 153, 108, 18, 51, 109, 8, 112, 66, 72, 31, 190, 171, 26, 56, 12, 192, 150, 149, 148, 148,
    116]

/-- `metadata[key].get(gv!("s")).unwrap().to_str()` and `*timestamp` of a commit. -/
def versionAndTime (key : Bytes) : Res Val → Option (Bytes × Nat)
  | .ok (.tup [.arr md, _, _, _, _, .num t, _, _]) =>
    md.findSome? fun kv => match kv with
      | .tup [.str k, .variant ty d] =>
        if k = key then
          match variantGet dbg .S ⟨4096, d ++ [0] ++ ty⟩ with
          | .ok (some s) => match view dbg .S s with
            | .ok (.str b) => some (b, t)
            | _ => none
          | _ => none
        else none
      | _ => none
  | _ => none

example : versionAndTime [118, 101, 114, 115, 105, 111, 110] (readAs dbg (.tuple [(.A (.dict .S .V)),
    (.A .Y), (.A (.tuple [.S, (.A .Y)])), .S, .S, .T, (.A .Y), (.A .Y)]) ⟨4096, commit⟩) = some ([55,
    46, 49, 55, 48, 55], 15444671992342511616) := by decide +kernel

/-! ### gvariant/tests/test.rs:199-286 (examples of the specification) -/

example : readAs dbg (.tuple [.S, .I]) ⟨4096, [102, 111, 111, 0, 255, 255, 255, 255, 4]⟩ = .ok (.tup
    [.str [102, 111, 111], .num 4294967295]) := rfl
example : serializeToVec dbg (.tuple [.S, .I]) (.tup [.str [102, 111, 111], .num 4294967295]) = .ok
    [102, 111, 111, 0, 255, 255, 255, 255, 4] := by decide +kernel
example : readAs dbg (.A (.tuple [.S, .I])) ⟨4096, [104, 105, 0, 0, 254, 255, 255, 255, 3, 0, 0, 0, 98,
    121, 101, 0, 255, 255, 255, 255, 4, 9, 21]⟩ = .ok (.arr [.tup [.str [104, 105], .num 4294967294],
    .tup [.str [98, 121, 101], .num 4294967295]]) := rfl
example : readAs dbg (.tuple [(.tuple [.Y, .S]), (.A .S)]) ⟨4096, [105, 99, 97, 110, 0, 104, 97, 115, 0,
    115, 116, 114, 105, 110, 103, 115, 63, 0, 4, 13, 5]⟩ = .ok (.tup [.tup [.num 105, .str [99, 97,
    110]], .arr [.str [104, 97, 115], .str [115, 116, 114, 105, 110, 103, 115, 63]]]) := rfl
example : readAs dbg (.tuple [.Y, .Y]) ⟨4096, [112, 128]⟩ = .ok (.tup [.num 112, .num 128]) := rfl
example : readAs dbg (.tuple [.I, .Y]) ⟨4096, [96, 0, 0, 0, 112, 0, 0, 0]⟩ = .ok (.tup [.num 96, .num
    112]) := rfl
example : readAs dbg (.tuple [.Y, .I]) ⟨4096, [112, 0, 0, 0, 96, 0, 0, 0]⟩ = .ok (.tup [.num 112, .num
    96]) := rfl
example : readAs dbg (.A (.tuple [.I, .Y])) ⟨4096, [96, 0, 0, 0, 112, 0, 0, 0, 136, 2, 0, 0, 247, 0, 0,
    0]⟩ = .ok (.arr [.tup [.num 96, .num 112], .tup [.num 648, .num 247]]) := rfl

/-! ### gvariant/tests/test.rs:288-372 (non-normal values) -/

example : readAs dbg .I ⟨4096, [7, 51, 144]⟩ = .ok (.num 0) := rfl
example : readAs dbg (.tuple [.Y, .I]) ⟨4096, [85, 102, 119, 136, 2, 1, 0, 0]⟩ = .ok (.tup [.num 85,
    .num 258]) := rfl
example : readAs dbg (.A .B) ⟨4096, [1, 0, 3, 4, 0, 1, 255, 128, 0]⟩ = .ok (.arr [.bool true, .bool
    false, .bool true, .bool true, .bool false, .bool true, .bool true, .bool true, .bool false]) := rfl
example : readAs dbg (.A .S) ⟨4096, [104, 101, 108, 108, 111, 32, 119, 111, 114, 108, 100, 0, 11, 12]⟩ =
    .ok (.arr [.str [], .str []]) := rfl
example : readAs dbg .S ⟨4096, [102, 111, 111, 0, 98, 97, 114, 0]⟩ = .ok (.str []) := rfl
example : readAs dbg .S ⟨4096, [102, 111, 111, 0, 98, 97, 114]⟩ = .ok (.str []) := rfl
example : readAs dbg (.M .I) ⟨4096, [51, 68, 85, 102, 119, 136]⟩ = .ok (.nothing) := rfl
example : readAs dbg (.A (.tuple [.Y, .Y])) ⟨4096, [3, 4, 5, 6, 7]⟩ = .ok (.arr []) := rfl
example : readAs dbg (.A .S) ⟨4096, [102, 111, 111, 0, 98, 97, 114, 0, 98, 97, 122, 0, 4, 16, 12]⟩ = .ok
    (.arr [.str [102, 111, 111], .str [], .str []]) := rfl
example : ix .S [102, 111, 111, 0, 98, 97, 114, 0, 98, 97, 122, 0, 4, 16, 12] 0 = .ok (.str [102, 111,
    111]) := rfl
example : ix .S [102, 111, 111, 0, 98, 97, 114, 0, 98, 97, 122, 0, 4, 16, 12] 1 = .ok (.str []) := rfl
example : ix .S [102, 111, 111, 0, 98, 97, 114, 0, 98, 97, 122, 0, 4, 16, 12] 2 = .ok (.str []) := rfl
example : len .S [102, 111, 111, 0, 98, 97, 114, 0, 98, 97, 122, 0, 4, 16, 12] = .ok 3 :=
    by decide +kernel
example : readAs dbg (.A .S) ⟨4096, [102, 111, 111, 0, 98, 97, 114, 0, 98, 97, 122, 0, 4, 0, 4, 12]⟩ =
    .ok (.arr [.str [102, 111, 111], .str [], .str [102, 111, 111], .str []]) := rfl
example : ix .S [102, 111, 111, 0, 98, 97, 114, 0, 98, 97, 122, 0, 4, 0, 4, 12] 0 = .ok (.str [102, 111,
    111]) := rfl
example : ix .S [102, 111, 111, 0, 98, 97, 114, 0, 98, 97, 122, 0, 4, 0, 4, 12] 1 = .ok (.str []) := rfl
example : ix .S [102, 111, 111, 0, 98, 97, 114, 0, 98, 97, 122, 0, 4, 0, 4, 12] 2 = .ok (.str [102, 111,
    111]) := rfl
example : ix .S [102, 111, 111, 0, 98, 97, 114, 0, 98, 97, 122, 0, 4, 0, 4, 12] 3 = .ok (.str []) := rfl
example : len .S [102, 111, 111, 0, 98, 97, 114, 0, 98, 97, 122, 0, 4, 0, 4, 12] = .ok 4 :=
    by decide +kernel
example : readAs dbg (.tuple [(.A .Y), (.A .Y), (.A .Y), (.A .Y), (.A .Y)]) ⟨4096, [3, 2, 1]⟩ = .ok
    (.tup [.arr [], .arr [], .arr [], .arr [], .arr []]) := rfl

/-! ### gvariant/src/lib.rs:2150-2196 (numbers) -/

example : readAs dbg .Y ⟨4096, [1]⟩ = .ok (.num 1) := rfl
example : readAs dbg .N ⟨4096, [1, 2]⟩ = .ok (.num 513) := rfl
example : readAs dbg .Q ⟨4096, [1, 2]⟩ = .ok (.num 513) := rfl
example : readAs dbg .I ⟨4096, [1, 2, 3, 4]⟩ = .ok (.num 67305985) := rfl
example : readAs dbg .U ⟨4096, [1, 2, 3, 4]⟩ = .ok (.num 67305985) := rfl
example : readAs dbg .X ⟨4096, [1, 2, 3, 4, 5, 6, 7, 8]⟩ = .ok (.num 578437695752307201) := rfl
example : readAs dbg .T ⟨4096, [1, 2, 3, 4, 5, 6, 7, 8]⟩ = .ok (.num 578437695752307201) := rfl
example : readAs dbg .D ⟨4096, [1, 2, 3, 4, 5, 6, 7, 8]⟩ = .ok (.num 578437695752307201) := rfl

/-! ### gvariant/src/lib.rs:2197-2229 (maybes) -/

example : readAs dbg (.M .S) ⟨4096, []⟩ = .ok (.nothing) := rfl
example : readAs dbg (.M .S) ⟨4096, [0]⟩ = .ok (.just (.str [])) := rfl
example : readAs dbg (.M .S) ⟨4096, [104, 101, 108, 108, 111, 32, 119, 111, 114, 108, 100, 0, 0]⟩ = .ok
    (.just (.str [104, 101, 108, 108, 111, 32, 119, 111, 114, 108, 100])) := rfl
example : readAs dbg (.M .Y) ⟨4096, []⟩ = .ok (.nothing) := rfl
example : readAs dbg (.M .Y) ⟨4096, [67]⟩ = .ok (.just (.num 67)) := rfl
example : readAs dbg (.M .Y) ⟨4096, [67, 0]⟩ = .ok (.nothing) := rfl

/-! ### gvariant/src/lib.rs:2231-2297 (arrays of non-fixed-size elements) -/

example : readAs dbg (.A .S) ⟨4096, []⟩ = .ok (.arr []) := rfl
example : len .S [] = .ok 0 := by decide +kernel
example : first .S [] = .ok none := rfl
example : last .S [] = .ok none := rfl
example : hintAfter .S [] 0 = .ok 0 := by decide +kernel
example : readAs dbg (.A .S) ⟨4096, [104, 101, 108, 108, 111, 0, 119, 111, 114, 108, 100, 0, 6, 12]⟩ =
    .ok (.arr [.str [104, 101, 108, 108, 111], .str [119, 111, 114, 108, 100]]) := rfl
example : ix .S [104, 101, 108, 108, 111, 0, 119, 111, 114, 108, 100, 0, 6, 12] 0 = .ok (.str [104, 101,
    108, 108, 111]) := rfl
example : ix .S [104, 101, 108, 108, 111, 0, 119, 111, 114, 108, 100, 0, 6, 12] 1 = .ok (.str [119, 111,
    114, 108, 100]) := rfl
example : len .S [104, 101, 108, 108, 111, 0, 119, 111, 114, 108, 100, 0, 6, 12] = .ok 2 :=
    by decide +kernel
example : first .S [104, 101, 108, 108, 111, 0, 119, 111, 114, 108, 100, 0, 6, 12] = .ok (some (.str
    [104, 101, 108, 108, 111])) := rfl
example : last .S [104, 101, 108, 108, 111, 0, 119, 111, 114, 108, 100, 0, 6, 12] = .ok (some (.str
    [119, 111, 114, 108, 100])) := rfl
example : hintAfter .S [104, 101, 108, 108, 111, 0, 119, 111, 114, 108, 100, 0, 6, 12] 0 = .ok 2 :=
    by decide +kernel
example : hintAfter .S [104, 101, 108, 108, 111, 0, 119, 111, 114, 108, 100, 0, 6, 12] 1 = .ok 1 :=
    by decide +kernel
example : hintAfter .S [104, 101, 108, 108, 111, 0, 119, 111, 114, 108, 100, 0, 6, 12] 2 = .ok 0 :=
    by decide +kernel
example : readAs dbg (.A (.A .Y)) ⟨4096, [8]⟩ = .ok (.arr []) := rfl
example : len (.A .Y) [8] = .ok 0 := by decide +kernel
example : first (.A .Y) [8] = .ok none := rfl
example : last (.A .Y) [8] = .ok none := rfl
example : hintAfter (.A .Y) [8] 0 = .ok 0 := by decide +kernel
example : readAs dbg (.A (.A .Y)) ⟨4096, [1, 0]⟩ = .ok (.arr [.arr [], .arr []]) := rfl
example : ix (.A .Y) [1, 0] 0 = .ok (.arr []) := rfl
example : ix (.A .Y) [1, 0] 1 = .ok (.arr []) := rfl
example : len (.A .Y) [1, 0] = .ok 2 := by decide +kernel
example : first (.A .Y) [1, 0] = .ok (some (.arr [])) := rfl
example : last (.A .Y) [1, 0] = .ok (some (.arr [])) := rfl
example : hintAfter (.A .Y) [1, 0] 0 = .ok 2 := by decide +kernel
example : hintAfter (.A .Y) [1, 0] 1 = .ok 1 := by decide +kernel
example : hintAfter (.A .Y) [1, 0] 2 = .ok 0 := by decide +kernel
set_option maxRecDepth 8000 in
example : readAs dbg (.A (.A .Y)) ⟨4096, [0, 0, 0, 0, 0, 0, 0, 0, 0, 0, 0, 0, 0, 0, 0, 0, 0, 0, 0, 0, 0,
    0, 0, 0, 0, 0, 0, 0, 0, 0, 0, 0, 0, 0, 0, 0, 0, 0, 0, 0, 0, 0, 0, 0, 0, 0, 0, 0, 0, 0, 0, 0, 0, 0,
    0, 0, 0, 0, 0, 0, 0, 0, 0, 0, 0, 0, 0, 0, 0, 0, 0, 0, 0, 0, 0, 0, 0, 0, 0, 0, 0, 0, 0, 0, 0, 0, 0,
    0, 0, 0, 0, 0, 0, 0, 0, 0, 0, 0, 0, 0, 0, 0, 0, 0, 0, 0, 0, 0, 0, 0, 0, 0, 0, 0, 0, 0, 0, 0, 0, 0,
    0, 0, 0, 0, 0, 0, 0, 0, 0, 0, 0, 0, 0, 0, 0, 0, 0, 0, 0, 0, 0, 0, 0, 0, 0, 0, 0, 0, 0, 0, 0, 0, 0,
    0, 0, 0, 0, 0, 0, 0, 0, 0, 0, 0, 0, 0, 0, 0, 0, 0, 0, 0, 0, 0, 0, 0, 0, 0, 0, 0, 0, 0, 0, 0, 0, 0,
    0, 0, 0, 0, 0, 0, 0, 0, 0, 0, 0, 0, 0, 0, 0, 0, 0, 0, 0, 0, 0, 0, 0, 0, 0, 0, 0, 0, 0, 0, 0, 0, 0,
    0, 0, 0, 0, 0, 0, 0, 0, 0, 0, 0, 0, 0, 0, 0, 0, 0, 0, 0, 0, 0, 0, 0, 0, 0, 0, 0, 0, 0, 0, 0, 0, 0,
    0, 0, 0, 0, 255, 0]⟩ = .ok (.arr []) := rfl
/-- `should_panic` -/
example : ∃ f, arr (.A .Y) [8] (fun s => arrIndex dbg (.A .Y) s 0) = .fail f := ⟨_, rfl⟩

/-! ### gvariant/src/lib.rs:2299-2367 (examples of the specification) -/

example : readAs dbg .S ⟨4096, [104, 101, 108, 108, 111, 32, 119, 111, 114, 108, 100, 0]⟩ = .ok (.str
    [104, 101, 108, 108, 111, 32, 119, 111, 114, 108, 100]) := rfl
example : serializeToVec dbg .S (.str [104, 101, 108, 108, 111, 32, 119, 111, 114, 108, 100]) = .ok
    [104, 101, 108, 108, 111, 32, 119, 111, 114, 108, 100, 0] := by decide +kernel
example : readAs dbg (.M .S) ⟨4096, [104, 101, 108, 108, 111, 32, 119, 111, 114, 108, 100, 0, 0]⟩ = .ok
    (.just (.str [104, 101, 108, 108, 111, 32, 119, 111, 114, 108, 100])) := rfl
example : serializeToVec dbg (.M .S) (.just (.str [104, 101, 108, 108, 111, 32, 119, 111, 114, 108,
    100])) = .ok [104, 101, 108, 108, 111, 32, 119, 111, 114, 108, 100, 0, 0] := by decide +kernel
example : readAs dbg (.A .B) ⟨4096, [1, 0, 0, 1, 1]⟩ = .ok (.arr [.bool true, .bool false, .bool false,
    .bool true, .bool true]) := rfl
example : serializeToVec dbg (.A .B) (.seq [.bool true, .bool false, .bool false, .bool true, .bool
    true]) = .ok [1, 0, 0, 1, 1] := by decide +kernel
example : readAs dbg (.A .S) ⟨4096, [105, 0, 99, 97, 110, 0, 104, 97, 115, 0, 115, 116, 114, 105, 110,
    103, 115, 63, 0, 2, 6, 10, 19]⟩ = .ok (.arr [.str [105], .str [99, 97, 110], .str [104, 97, 115],
    .str [115, 116, 114, 105, 110, 103, 115, 63]]) := rfl
example : ix .S [105, 0, 99, 97, 110, 0, 104, 97, 115, 0, 115, 116, 114, 105, 110, 103, 115, 63, 0, 2,
    6, 10, 19] 0 = .ok (.str [105]) := rfl
example : ix .S [105, 0, 99, 97, 110, 0, 104, 97, 115, 0, 115, 116, 114, 105, 110, 103, 115, 63, 0, 2,
    6, 10, 19] 1 = .ok (.str [99, 97, 110]) := rfl
example : ix .S [105, 0, 99, 97, 110, 0, 104, 97, 115, 0, 115, 116, 114, 105, 110, 103, 115, 63, 0, 2,
    6, 10, 19] 2 = .ok (.str [104, 97, 115]) := rfl
example : ix .S [105, 0, 99, 97, 110, 0, 104, 97, 115, 0, 115, 116, 114, 105, 110, 103, 115, 63, 0, 2,
    6, 10, 19] 3 = .ok (.str [115, 116, 114, 105, 110, 103, 115, 63]) := rfl
example : len .S [105, 0, 99, 97, 110, 0, 104, 97, 115, 0, 115, 116, 114, 105, 110, 103, 115, 63, 0, 2,
    6, 10, 19] = .ok 4 := by decide +kernel
example : first .S [105, 0, 99, 97, 110, 0, 104, 97, 115, 0, 115, 116, 114, 105, 110, 103, 115, 63, 0,
    2, 6, 10, 19] = .ok (some (.str [105])) := rfl
example : last .S [105, 0, 99, 97, 110, 0, 104, 97, 115, 0, 115, 116, 114, 105, 110, 103, 115, 63, 0, 2,
    6, 10, 19] = .ok (some (.str [115, 116, 114, 105, 110, 103, 115, 63])) := rfl
example : hintAfter .S [105, 0, 99, 97, 110, 0, 104, 97, 115, 0, 115, 116, 114, 105, 110, 103, 115, 63,
    0, 2, 6, 10, 19] 0 = .ok 4 := by decide +kernel
example : hintAfter .S [105, 0, 99, 97, 110, 0, 104, 97, 115, 0, 115, 116, 114, 105, 110, 103, 115, 63,
    0, 2, 6, 10, 19] 1 = .ok 3 := by decide +kernel
example : hintAfter .S [105, 0, 99, 97, 110, 0, 104, 97, 115, 0, 115, 116, 114, 105, 110, 103, 115, 63,
    0, 2, 6, 10, 19] 2 = .ok 2 := by decide +kernel
example : hintAfter .S [105, 0, 99, 97, 110, 0, 104, 97, 115, 0, 115, 116, 114, 105, 110, 103, 115, 63,
    0, 2, 6, 10, 19] 3 = .ok 1 := by decide +kernel
example : hintAfter .S [105, 0, 99, 97, 110, 0, 104, 97, 115, 0, 115, 116, 114, 105, 110, 103, 115, 63,
    0, 2, 6, 10, 19] 4 = .ok 0 := by decide +kernel
example : serializeToVec dbg (.A .S) (.seq [.str [105], .str [99, 97, 110], .str [104, 97, 115], .str
    [115, 116, 114, 105, 110, 103, 115, 63]]) = .ok [105, 0, 99, 97, 110, 0, 104, 97, 115, 0, 115, 116,
    114, 105, 110, 103, 115, 63, 0, 2, 6, 10, 19] := by decide +kernel
example : readAs dbg (.A .Y) ⟨4096, [4, 5, 6, 7]⟩ = .ok (.arr [.num 4, .num 5, .num 6, .num 7]) := rfl
example : serializeToVec dbg (.A .Y) (.seq [.num 4, .num 5, .num 6, .num 7]) = .ok [4, 5, 6, 7] :=
    by decide +kernel
example : readAs dbg (.A .I) ⟨4096, [4, 0, 0, 0, 2, 1, 0, 0]⟩ = .ok (.arr [.num 4, .num 258]) := rfl
example : serializeToVec dbg (.A .I) (.seq [.num 4, .num 258]) = .ok [4, 0, 0, 0, 2, 1, 0, 0] :=
    by decide +kernel

/-! ### gvariant/src/lib.rs:2369-2380 (strings) -/

example : readAs dbg .S ⟨4096, []⟩ = .ok (.str []) := rfl
example : readAs dbg .S ⟨4096, [0]⟩ = .ok (.str []) := rfl
example : strEqStr [104, 101, 108, 108, 111, 32, 119, 111, 114, 108, 100, 0]
    [104, 101, 108, 108, 111, 32, 119, 111, 114, 108, 100] = true := by decide +kernel

/-! ### gvariant/src/lib.rs:2382-2417 (variants) -/

example : (do let (t, d) ← split dbg ⟨4096, [4, 0, 0, 110]⟩; let v ← readAs dbg .N d; pure (t, v)) =
    .ok ([110], .num 4) := rfl
example : variantEq dbg ⟨4096, [4, 0, 0, 110]⟩ ⟨4096, [4, 0, 0, 110]⟩ = .ok true := by decide +kernel
example : variantEq dbg ⟨4096, [0, 40, 41]⟩ ⟨8192, []⟩ = .ok true := by decide +kernel
example : variantEq dbg ⟨4096, [0, 40, 41]⟩ ⟨8192, [4, 0, 0, 110]⟩ = .ok false := by decide +kernel
example : serializeToVec dbg .V (.wrap (.A .S) (.seq [.str [104, 101, 108, 108, 111], .str [103, 111,
    111, 100, 98, 121, 101]])) = .ok [104, 101, 108, 108, 111, 0, 103, 111, 111, 100, 98, 121, 101, 0,
    6, 14, 0, 97, 115] := by decide +kernel
example : serializeToVec dbg .V (.wrap .V (.wrap (.A .S) (.seq [.str [104, 101, 108, 108, 111], .str
    [103, 111, 111, 100, 98, 121, 101]]))) = .ok [104, 101, 108, 108, 111, 0, 103, 111, 111, 100, 98,
    121, 101, 0, 6, 14, 0, 97, 115, 0, 118] := by decide +kernel
example : getTwice .V (.A .S) [104, 101, 108, 108, 111, 0, 103, 111, 111, 100, 98, 121, 101, 0, 6, 14,
    0, 97, 115, 0, 118] = .ok (.arr [.str [104, 101, 108, 108, 111], .str [103, 111, 111, 100, 98, 121,
    101]]) := rfl

/-! ### gvariant-macro/src/type_parser.rs:167-194 -/

example : one [40, 98, 121, 110, 113, 105, 117, 120, 116, 100, 115, 111, 103, 118, 97, 97, 109, 98, 40,
    97, 98, 105, 41, 109, 40, 121, 121, 41, 97, 123, 115, 105, 125, 41] = some (.tuple [.B, .Y, .N, .Q,
    .I, .U, .X, .T, .D, .S, .O, .G, .V, (.A (.A (.M .B))), (.tuple [(.A .B), .I]), (.M (.tuple [.Y,
    .Y])), (.A (.dict .S .I))]) := by decide +kernel
example : one [105] = some .I := by decide +kernel

/-! ### gvariant-macro/src/generate_impl.rs:533-566 -/

example : (one [115]).map alignOf = some 1 := by decide +kernel
example : (one [115]).map GV.sizeOf = some none := by decide +kernel
example : (one [105]).map alignOf = some 4 := by decide +kernel
example : (one [105]).map GV.sizeOf = some (some 4) := by decide +kernel
example : (one [40, 117, 121, 41]).map alignOf = some 4 := by decide +kernel
example : (one [40, 117, 121, 41]).map GV.sizeOf = some (some 8) := by decide +kernel
example : (one [40, 116, 105, 41]).map alignOf = some 8 := by decide +kernel
example : (one [40, 116, 105, 41]).map GV.sizeOf = some (some 16) := by decide +kernel
example : (one [97, 40, 117, 117, 41]).map GV.sizeOf = some none := by decide +kernel
example : (one [40, 117, 117, 41]).map GV.sizeOf = some (some 8) := by decide +kernel
example : align 0 1 = 0 := by decide +kernel
example : align 1 1 = 1 := by decide +kernel
example : align 0 4 = 0 := by decide +kernel
example : align 3 4 = 4 := by decide +kernel
example : align 4 4 = 4 := by decide +kernel
example : align 6 4 = 8 := by decide +kernel
example : align 17 4 = 20 := by decide +kernel

/-! ### gvariant/src/offset.rs:148-172 -/

example : tryNew 2 3 = none := by decide
example : tryNew 2 0 = some 0 := by decide
example : tryNew 4 8 = some 8 := by decide
example : alignOffset dbg 4 0 = .ok 0 := by decide +kernel
example : alignOffset dbg 4 1 = .ok 4 := by decide +kernel
example : alignOffset dbg 4 4 = .ok 4 := by decide +kernel
example : alignOffset dbg 4 6 = .ok 8 := by decide +kernel
example : alignOffset dbg 4 7 = .ok 8 := by decide +kernel
example : alignOffset dbg 4 8 = .ok 8 := by decide +kernel
example : alignOffset dbg 4 9 = .ok 12 := by decide +kernel

/-- An allocator that keeps to the alignment of bytes only. -/
def heap : Alloc := ⟨fun _ => 1000003, fun _ => 0⟩

/-! ### gvariant/src/lib.rs:4-11 (the example of the crate; the format string is left out) -/

example : (do let x ← copyToAlign dbg heap 8 ⟨1001, [34, 0, 0, 0, 87, 105, 108, 108, 105, 97,
    109, 0]⟩; let s ← x.asRef dbg; readAs dbg (.tuple [.I, .S]) s) = .ok (.tup [.num 34, .str [87, 105,
    108, 108, 105, 97, 109]]) := rfl

/-! ### gvariant/src/lib.rs:927-936 (`write!` to a `GString` makes one call for each piece) -/

example : (((GString.new.tryPushStr (fun _ => 0) [73, 32, 108, 111, 118, 101, 32, 116, 104, 101, 32,
    110, 117, 109, 98, 101, 114, 32]).1.tryPushStr (fun _ => 0) [53]).1.tryPushStr (fun _ => 0) [44, 32,
    105, 116, 39, 115, 32, 116, 104, 101, 32, 98, 101, 115, 116]).1.asStr dbg = .ok [73, 32, 108, 111,
    118, 101, 32, 116, 104, 101, 32, 110, 117, 109, 98, 101, 114, 32, 53, 44, 32, 105, 116, 39, 115, 32,
    116, 104, 101, 32, 98, 101, 115, 116] := by decide +kernel
example : (do let r ← fromAligned dbg .S ⟨1001, [66, 108, 111, 111, 32, 98, 108, 97, 104, 0]⟩
              (strToOwned (fun _ => 0) r.bytes).asStr dbg) = .ok [66, 108, 111, 111, 32, 98, 108, 97, 104] := by
    decide +kernel

/-! ### gvariant/src/lib.rs:251-261 and buf.rs:43-53 -/

example : (do let x ← AlignedBuf.fromVec dbg heap .empty; let s ← x.deref dbg; pure s.bytes) =
    .ok [] := by decide +kernel
example : (do let x ← AlignedBuf.new.withVec dbg heap (fun v => { v.reserve heap 11 with
      bytes := v.bytes ++ [72, 101, 108, 108, 111, 32, 116, 104, 101, 114, 101] }); let s ← x.deref dbg; pure s.bytes) = .ok [72, 101, 108, 108, 111, 32, 116, 104, 101, 114,
    101] := by decide +kernel

end Tests
end GV
