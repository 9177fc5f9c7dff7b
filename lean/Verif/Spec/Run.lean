import Verif.Model.Ser
/-
What statements about serializing talk about: when a call compiles, the bytes a source stands for, and
writers that keep a log.
-/
namespace GV
open Spec

variable {σ : Type}

/-- `gv!(t)` and the `gv!`s inside `x` expand, `x` has a `SerializeTo` impl for `t`, and `x` is
    a possible value of its Rust type. -/
structure Serializable (t : Ty) (x : Src) : Prop where
  acc : Accepts t x
  ex : Expands t
  inner : ∀ u ∈ wraps x, Expands u

/-- The bytes of the value that a source stands for, laid out as the crate does. -/
def bytesOf (c : Cfg) (t : Ty) (x : Src) : Bytes :=
  enc (.crate c.bigEndian) t (meaning (.crate c.bigEndian) t x)

/-- The encoding has less than `2 ^ 63` bytes, not counting strings with NUL. -/
def Bounded (c : Cfg) (t : Ty) (x : Src) : Prop := (bytesOf c t (mend (fun _ => []) x)).length < 2 ^ 63

/-- The same writer, keeping a log of all calls and their results. -/
def logged (w : Writer σ) : Writer (σ × List (Bytes × Option (Nat × Nat))) :=
  ⟨fun s b => (((w.writeAll s.1 b).1, s.2 ++ [(b, (w.writeAll s.1 b).2)]), (w.writeAll s.1 b).2)⟩

end GV
