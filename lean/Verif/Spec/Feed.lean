import Verif.Spec.Print
import Verif.Spec.Str
/-
What becomes of a printed text in a sink that may refuse.
-/
namespace GV

/-- Something that takes text, `core::fmt::Write`: any state machine.  `false` is `Err(fmt::Error)`. -/
abbrev TextSink (σ : Type) := σ → Bytes → σ × Bool

/-- What the standard library prints, call by call. -/
structure CoreCalls where
  /-- `{:?}` of a number of the given GVariant type, by its bit pattern -/
  num : Ty → Nat → List Bytes
  /-- `{:?}` of a `str` -/
  str : Bytes → List Bytes
  /-- `String::from_utf8_lossy` -/
  lossy : Bytes → Bytes
  /-- the feature `alloc` of the crate -/
  alloc : Bool

/-- The text of the calls. -/
def CoreCalls.text (C : CoreCalls) : CoreFmt where
  num t n := (C.num t n).flatten
  str b := (C.str b).flatten
  lossy := C.lossy
  alloc := C.alloc

namespace Spec

/-- Give pieces of text to a sink one after the other until it refuses one; at the end there may be a panic.
    The result says whether all were taken. -/
def feed {σ : Type} (w : TextSink σ) : List Bytes → Option Fault → σ → σ × Res Bool
  | [], none, st => (st, .ok true)
  | [], some f, st => (st, .fail f)
  | x :: xs, e, st =>
    match w st x with
    | (st', true) => feed w xs e st'
    | (st', false) => (st', .ok false)

/-- What the standard library's calls are like: they pass UTF-8, and `{:?}` escapes NULs. -/
structure Printable (C : CoreCalls) : Prop where
  num : ∀ t n, ∀ x ∈ C.num t n, Text x
  str : ∀ b, Utf8 b → ∀ x ∈ C.str b, Text x
  lossy : ∀ b, Utf8 (C.lossy b)

/-- A sink with room for `n` bytes that takes a piece if there is room for all of it. -/
def roomFor (n : Nat) : TextSink Bytes := fun st x => if st.length + x.length ≤ n then (st ++ x, true) else (st, false)

end Spec
end GV
