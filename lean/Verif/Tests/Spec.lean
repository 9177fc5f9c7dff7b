import Verif.Spec.Clean
import Verif.Model.Convert
/-
The examples of docs/gvariant-serialisation.pdf, on the specification (`enc`, `dec`, `clean`) and on the model.
The document prints two of them wrongly: the structure array lacks its last framing offset (21) and the nested
structure the last framing offset of its array (13).  Here they have those, as in gvariant/tests/test.rs:199-286.
-/
namespace GV.Tests
open GV Spec

/-- A normal form, as in section 2.6. -/
def Normally (t : Ty) (b : Bytes) (v : Val) : Prop :=
  enc (.pdf false) t v = b ∧ dec (.pdf false) t b = v ∧ clean t b = true ∧
    readAs ⟨true, true, false, 4097, 3⟩ t ⟨4096, b⟩ = .ok v

/-- Data not in normal form, as in section 2.7.4: what the specification reads and what the crate reads. -/
def Abnormally (t : Ty) (b : Bytes) (v w : Val) : Prop :=
  dec (.pdf false) t b = v ∧ clean t b = false ∧ dec (.crate false) t b = w ∧
    readAs ⟨true, true, false, 4097, 3⟩ t ⟨4096, b⟩ = .ok w

/-! ### Section 2.6 -/

/-- String Example -/
example : Normally .S [104, 101, 108, 108, 111, 32, 119, 111, 114, 108, 100, 0] (.str [104, 101, 108, 108,
      111, 32, 119, 111, 114, 108, 100]) :=
  ⟨rfl, rfl, by decide, rfl⟩

/-- Maybe String -/
example : Normally (.M .S) [104, 101, 108, 108, 111, 32, 119, 111, 114, 108, 100, 0, 0] (.just (.str [104,
      101, 108, 108, 111, 32, 119, 111, 114, 108, 100])) :=
  ⟨rfl, rfl, by decide, rfl⟩

/-- Array of Booleans Example -/
example : Normally (.A .B) [1, 0, 0, 1, 1] (.arr [.bool true, .bool false, .bool false, .bool true, .bool
      true]) :=
  ⟨rfl, rfl, by decide, rfl⟩

/-- Structure Example -/
example : Normally (.tuple [.S, .I]) [102, 111, 111, 0, 255, 255, 255, 255, 4] (.tup [.str [102, 111, 111],
      .num 4294967295]) :=
  ⟨rfl, rfl, by decide, rfl⟩

/-- Structure Array Example -/
example : Normally (.A (.tuple [.S, .I])) [104, 105, 0, 0, 254, 255, 255, 255, 3, 0, 0, 0, 98, 121, 101, 0,
      255, 255, 255, 255, 4, 9, 21] (.arr [.tup [.str [104, 105], .num 4294967294], .tup [.str [98, 121,
      101], .num 4294967295]]) :=
  ⟨rfl, rfl, by decide, rfl⟩

/-- String Array Example -/
example : Normally (.A .S) [105, 0, 99, 97, 110, 0, 104, 97, 115, 0, 115, 116, 114, 105, 110, 103, 115, 63,
      0, 2, 6, 10, 19] (.arr [.str [105], .str [99, 97, 110], .str [104, 97, 115], .str [115, 116, 114, 105,
      110, 103, 115, 63]]) :=
  ⟨rfl, rfl, by decide, rfl⟩

/-- Nested Structure Example -/
example : Normally (.tuple [.tuple [.Y, .S], .A .S]) [105, 99, 97, 110, 0, 104, 97, 115, 0, 115, 116, 114,
      105, 110, 103, 115, 63, 0, 4, 13, 5] (.tup [.tup [.num 105, .str [99, 97, 110]], .arr [.str [104, 97,
      115], .str [115, 116, 114, 105, 110, 103, 115, 63]]]) :=
  ⟨rfl, rfl, by decide, rfl⟩

/-- Simple Structure Example -/
example : Normally (.tuple [.Y, .Y]) [112, 128] (.tup [.num 0x70, .num 0x80]) :=
  ⟨rfl, rfl, by decide, rfl⟩

/-- Padded Structure Example 1 -/
example : Normally (.tuple [.I, .Y]) [96, 0, 0, 0, 112, 0, 0, 0] (.tup [.num 96, .num 0x70]) :=
  ⟨rfl, rfl, by decide, rfl⟩

/-- Padded Structure Example 2 -/
example : Normally (.tuple [.Y, .I]) [112, 0, 0, 0, 96, 0, 0, 0] (.tup [.num 0x70, .num 96]) :=
  ⟨rfl, rfl, by decide, rfl⟩

/-- Array of Structures Example -/
example : Normally (.A (.tuple [.I, .Y])) [96, 0, 0, 0, 112, 0, 0, 0, 136, 2, 0, 0, 247, 0, 0, 0] (.arr
      [.tup [.num 96, .num 0x70], .tup [.num 648, .num 0xf7]]) :=
  ⟨rfl, rfl, by decide, rfl⟩

/-- Array of Bytes Example -/
example : Normally (.A .Y) [4, 5, 6, 7] (.arr [.num 4, .num 5, .num 6, .num 7]) :=
  ⟨rfl, rfl, by decide, rfl⟩

/-- Array of Integers Example -/
example : Normally (.A .I) [4, 0, 0, 0, 2, 1, 0, 0] (.arr [.num 4, .num 258]) :=
  ⟨rfl, rfl, by decide, rfl⟩

/-- Dictionary Entry Example -/
example : Normally (.dict .S .I) [97, 32, 107, 101, 121, 0, 0, 0, 2, 2, 0, 0, 6] (.tup [.str [97, 32, 107,
      101, 121], .num 514]) :=
  ⟨rfl, rfl, by decide, rfl⟩

/-! ### Sections 2.7.4 and 3.1 -/

/-- Wrong Size for Fixed Size Value -/
example : Abnormally .I [7, 51, 144] (.num 0) (.num 0) :=
  ⟨rfl, by decide, rfl, rfl⟩

/-- Non-zero Padding Bytes -/
example : Abnormally (.tuple [.Y, .I]) [85, 102, 119, 136, 2, 1, 0, 0] (.tup [.num 0x55, .num 258]) (.tup
      [.num 0x55, .num 258]) :=
  ⟨rfl, by decide, rfl, rfl⟩

/-- Boolean Out of Range -/
example : Abnormally (.A .B) [1, 0, 3, 4, 0, 1, 255, 128, 0] (.arr [.bool true, .bool false, .bool true,
      .bool true, .bool false, .bool true, .bool true, .bool true, .bool false]) (.arr [.bool true, .bool
      false, .bool true, .bool true, .bool false, .bool true, .bool true, .bool true, .bool false]) :=
  ⟨rfl, by decide, rfl, rfl⟩

/-- Unterminated String -/
example : Abnormally (.A .S) [104, 101, 108, 108, 111, 32, 119, 111, 114, 108, 100, 0, 11, 12] (.arr [.str
      [], .str []]) (.arr [.str [], .str []]) :=
  ⟨rfl, by decide, rfl, rfl⟩

/-- String with Embedded Nul -/
example : Abnormally .S [102, 111, 111, 0, 98, 97, 114, 0] (.str [102, 111, 111]) (.str []) :=
  ⟨rfl, by decide, rfl, rfl⟩

/-- String with embedded nul but none at end -/
example : Abnormally .S [102, 111, 111, 0, 98, 97, 114] (.str []) (.str []) :=
  ⟨rfl, by decide, rfl, rfl⟩

/-- Wrong size for fixed-size maybe -/
example : Abnormally (.M .I) [51, 68, 85, 102, 119, 136] (.nothing) (.nothing) :=
  ⟨rfl, by decide, rfl, rfl⟩

/-- Wrong size for fixed-width array -/
example : Abnormally (.A (.tuple [.Y, .Y])) [3, 4, 5, 6, 7] (.arr []) (.arr []) :=
  ⟨rfl, by decide, rfl, rfl⟩

/-- Start or end boundary of child falls outside the container -/
example : Abnormally (.A .S) [102, 111, 111, 0, 98, 97, 114, 0, 98, 97, 122, 0, 4, 16, 12] (.arr [.str [102,
      111, 111], .str [], .str []]) (.arr [.str [102, 111, 111], .str [], .str []]) :=
  ⟨rfl, by decide, rfl, rfl⟩

/-- End boundary precedes start boundary -/
example : Abnormally (.A .S) [102, 111, 111, 0, 98, 97, 114, 0, 98, 97, 122, 0, 4, 0, 12] (.arr [.str [102,
      111, 111], .str [], .str [102, 111, 111]]) (.arr [.str [102, 111, 111], .str [], .str []]) :=
  ⟨rfl, by decide, rfl, rfl⟩

/-- Insufficient space for structure framing offsets -/
example : Abnormally (.tuple [.A .Y, .A .Y, .A .Y, .A .Y, .A .Y]) [3, 2, 1] (.tup [.arr [.num 3], .arr [.num
      2], .arr [.num 1], .arr [], .arr []]) (.tup [.arr [], .arr [], .arr [], .arr [], .arr []]) :=
  ⟨rfl, by decide, rfl, rfl⟩

/-- 3.1, (ssn) -/
example : Abnormally (.tuple [.S, .S, .N]) [120, 0, 0, 2] (.tup [.str [120], .str [], .num 120]) (.tup [.str
      [120], .str [], .num 120]) :=
  ⟨rfl, by decide, rfl, rfl⟩

end GV.Tests
