import Verif.Model.Ser
import Verif.Model.Owned
/-
`io::Write` and `io::Read` one call at a time: the loops `write_all` and `read_to_end` of the Rust standard
library through which `Marker::serialize` (gvariant/src/lib.rs:423-430) and `Marker::deserialize`
(lib.rs:376-385) use them.
-/
namespace GV

/-! ### Writing -/

/-- What `Write::write(buf)` returns. -/
inductive Took
  /-- `Ok(n)` -/
  | took (n : Nat)
  /-- `Err` of kind `Interrupted` -/
  | interrupted
  /-- any other `Err` -/
  | error (e : Nat)
deriving DecidableEq, Repr

/-- An `io::Write` with states `σ`.  It may take as little as it likes, fail, and be interrupted, but not
    forever (`patience`), for then `write_all` does not return. -/
structure Dev (σ : Type) where
  write : σ → Bytes → σ × Took
  patience : σ → Bytes → Nat
  calms : ∀ s b s', write s b = (s', .interrupted) → patience s' b < patience s b
  /-- required of implementations of `Write` -/
  within : ∀ s b s' n, write s b = (s', .took n) → n ≤ b.length

/-- The error of kind `WriteZero` that `write_all` returns when nothing is taken. -/
def writeZero : Nat := 0

namespace Dev
variable {σ : Type}

/-- `Write::write_all` (Rust standard library): the new state, and on failure how much was taken and the
    error. -/
def writeAll (d : Dev σ) (s : σ) (b : Bytes) : σ × Option (Nat × Nat) :=
  if hb : b = [] then (s, none)
  else
    match h : d.write s b with
    | (s', .interrupted) => d.writeAll s' b
    | (s', .error e) => (s', some (0, e))
    | (s', .took 0) => (s', some (0, writeZero))
    | (s', .took (n + 1)) =>
      match d.writeAll s' (b.drop (n + 1)) with
      | (t, none) => (t, none)
      | (t, some (k, e)) => (t, some (n + 1 + k, e))
termination_by (b.length, d.patience s b)
decreasing_by
  · exact Prod.Lex.right _ (d.calms _ _ _ h)
  · exact Prod.Lex.left _ _ (by have := List.length_pos_iff.2 hb; simp only [List.length_drop]; omega)

/-- The writer as `serialize` sees it, which calls `write_all` only (lib.rs:619-2031). -/
def writer (d : Dev σ) : Writer σ := ⟨d.writeAll⟩

/-- The same, keeping a log of all calls and what they returned. -/
def recording (d : Dev σ) : Dev (σ × List (Bytes × Took)) where
  write s b := (((d.write s.1 b).1, s.2 ++ [(b, (d.write s.1 b).2)]), (d.write s.1 b).2)
  patience s b := d.patience s.1 b
  calms s b s' h := by
    simp only [Prod.mk.injEq] at h
    exact d.calms s.1 b s'.1 (by rw [← h.1, ← h.2])
  within s b s' n h := by
    simp only [Prod.mk.injEq] at h
    exact d.within s.1 b s'.1 n (by rw [← h.1, ← h.2])

/-- `impl Write for &mut [u8]` (Rust standard library): takes what fits; the state is the room left. -/
def slice : Dev Nat where
  write room b := (room - min room b.length, .took (min room b.length))
  patience _ _ := 0
  calms _ _ _ h := by simp at h
  within s b s' n h := by simp only [Prod.mk.injEq, Took.took.injEq] at h; omega

end Dev

/-! ### Reading -/

/-- What `Read::read(buf)` does to the buffer, or returns. -/
inductive Gave
  /-- `Ok(b.len())`, having filled the start of the buffer with `b`; no bytes means end of file -/
  | data (b : Bytes)
  /-- `Err` of kind `Interrupted` -/
  | interrupted
  /-- any other `Err` -/
  | error (e : Nat)
deriving DecidableEq, Repr

/-- An `io::Read` with states `σ`, called with the length of the buffer.  It may give as little as it likes,
    fail, and be interrupted; but it does not go on forever (`patience`), for then `read_to_end` does not
    return. -/
structure Feed (σ : Type) where
  read : σ → Nat → σ × Gave
  patience : σ → Nat
  calms : ∀ s n s', read s n = (s', .interrupted) → patience s' < patience s
  ends : ∀ s n s' b, read s n = (s', .data b) → b ≠ [] → patience s' < patience s

namespace Feed
variable {σ : Type}

/-- `Read::read_to_end` (Rust standard library), appending to `acc`.  `room` is the size of the buffer
    offered when so much has been read, which the library decides. -/
def readToEnd (d : Feed σ) (room : Bytes → Nat) (s : σ) (acc : Bytes) : σ × Except Nat Bytes :=
  match h : d.read s (room acc) with
  | (s', .interrupted) => d.readToEnd room s' acc
  | (s', .error e) => (s', .error e)
  | (s', .data []) => (s', .ok acc)
  | (s', .data (x :: xs)) => d.readToEnd room s' (acc ++ x :: xs)
termination_by d.patience s
decreasing_by
  · exact d.calms _ _ _ h
  · exact d.ends _ _ _ _ h (by simp)

end Feed

/-- What the standard library and the allocator decide while a vec is filled: the buffers offered, and where
    the vec ends up and how large it is. -/
structure Filling where
  room : Bytes → Nat
  place : Bytes → Nat × Nat

/-- `Marker::deserialize` (lib.rs:376-385), then reading everything: the error of the reader, or what reading
    gives. -/
def deserialize {σ : Type} (c : Cfg) (p : Places) (t : Ty) (d : Feed σ) (f : Filling) (s : σ) :
    Except Nat (Res Val) :=
  match (d.readToEnd f.room s []).2 with
  | .error e => .error e
  | .ok b => .ok (readDeserialize c p t ⟨(f.place b).1, (f.place b).2, b⟩)

end GV
