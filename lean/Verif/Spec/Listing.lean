import Verif.Spec.Value
/-
What a listing of an OSTree directory should look like.
-/
namespace GV.Spec

/-- A directory: files with name and checksum, directories with name and the checksums of content and
    metadata. -/
structure Dirtree where
  files : List (Bytes × Bytes)
  dirs : List (Bytes × Bytes × Bytes)

/-- Bytes as a GVariant array. -/
def byteVal (b : Bytes) : Val := .arr (b.map fun x => .num x.toNat)

/-- The directory as a value of type `(a(say)a(sayay))`. -/
def Dirtree.val (d : Dirtree) : Val :=
  .tup [.arr (d.files.map fun f => .tup [.str f.1, byteVal f.2]),
    .arr (d.dirs.map fun f => .tup [.str f.1, byteVal f.2.1, byteVal f.2.2])]

/-- Lowercase hexadecimal digit of a number below 16. -/
def hexDigit (n : Nat) : UInt8 := UInt8.ofNat (if n < 10 then 48 + n else 87 + n)

/-- Two digits for each byte. -/
def hex (b : Bytes) : Bytes := b.flatMap fun x => [hexDigit (x.toNat / 16), hexDigit (x.toNat % 16)]

/-- The line of a directory: `<checksum> <checksum> <name>/`. -/
def dirLine (d : Bytes × Bytes × Bytes) : Bytes := hex d.2.1 ++ [32] ++ hex d.2.2 ++ [32] ++ d.1 ++ [47]

/-- The line of a file: `<checksum> <name>`. -/
def fileLine (f : Bytes × Bytes) : Bytes := hex f.2 ++ [32] ++ f.1

/-- Directories, then files, one on each line. -/
def Dirtree.listing (d : Dirtree) : Bytes :=
  (d.dirs.map dirLine ++ d.files.map fileLine).flatMap (· ++ [10])

end GV.Spec
