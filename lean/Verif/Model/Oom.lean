import Verif.Model.Str
import Verif.Model.Buf
import Verif.Spec.Oom
/-
Code that changes a `GString` or an `AlignedBuf` in place, where any allocation may fail by unwinding: a request
for more than `isize::MAX` bytes always does ("capacity overflow"), one that the allocator refuses does if the
allocation error hook panics (by default it aborts).  What was done before the panic remains.
-/
namespace GV

/-- What the allocator answers to the requests, in turn: an address and how much more than asked, or a refusal. -/
abbrev Answers := List (Option (Nat × Nat))

/-- Code that works in place on a `σ`: the result (`none`: it panicked), what is left in place, and the answers
    that are left. -/
def InPlace (σ α : Type) := σ → Answers → Option α × σ × Answers

namespace InPlace

instance : Monad (InPlace σ) where
  pure a := fun s m => (some a, s, m)
  bind x f := fun s m =>
    match x s m with
    | (some a, s, m) => f a s m
    | (none, s, m) => (none, s, m)

/-- A step that cannot panic. -/
def change (f : σ → σ) : InPlace σ Unit := fun s m => (some (), f s, m)

/-- A step that looks at the state and may panic. -/
def look (f : σ → Res α) : InPlace σ α := fun s m =>
  match f s with
  | .ok a => (some a, s, m)
  | .fail _ => (none, s, m)

/-- A step that changes the state, or panics before it does. -/
def changeOr (f : σ → Res σ) : InPlace σ Unit := fun s m =>
  match f s with
  | .ok s => (some (), s, m)
  | .fail _ => (none, s, m)

end InPlace
open InPlace

/-- Ask for a block of `n` bytes. -/
def request (n : Nat) : InPlace σ (Nat × Nat) := fun s m =>
  if n < 2 ^ 63 then
    match m with
    | some a :: m => (some a, s, m)
    | none :: m => (none, s, m)
    | [] => (none, s, [])
  else (none, s, m)

namespace GString

/-- `String::reserve` (Rust standard library). -/
def reserveIn (n : Nat) : InPlace GString Unit := fun g m =>
  if g.cap - g.data.length ≥ n then (some (), g, m)
  else (do
    let a ← request (g.data.length + n)
    change fun g => { g with cap := g.data.length + n + a.2 } : InPlace GString Unit) g m

/-- `String::push_str` (Rust standard library): make room, append. -/
def pushStrIn (s : Bytes) : InPlace GString Unit := do
  reserveIn s.length
  change fun g => { g with data := g.data ++ s }

/-- `try_push_str` (lib.rs:1003-1013), also `fmt::Write::write_str` (lib.rs:1045-1049). -/
def tryPushStrIn (s : Bytes) : InPlace GString Bool :=
  if s.contains 0 then pure false
  else do
    reserveIn s.length
    change fun g => { g with data := popChar g.data }
    pushStrIn s
    pushStrIn [0]
    pure true

/-- `clear` (lib.rs:970-973). -/
def clearIn : InPlace GString Unit := do
  change fun g => { g with data := [] }
  pushStrIn [0]

/-- One edit; the result says whether it was refused (`Err`).  `reserve` (lib.rs:964-966). -/
def editIn : Spec.Edit → InPlace GString Bool
  | .push s => tryPushStrIn s
  | .clear => do clearIn; pure true
  | .reserve n => do reserveIn n; pure true

/-- Several edits, by a program that goes on after each panic (`catch_unwind`). -/
def editAll : List Spec.Edit → GString → Answers → List (Option Bool) × GString × Answers
  | [], g, m => ([], g, m)
  | e :: es, g, m =>
    match editIn e g m with
    | (r, g, m) =>
      match editAll es g m with
      | (rs, g, m) => (r :: rs, g, m)

end GString

namespace RVec

/-- `Vec::reserve` (Rust standard library). -/
def reserveIn (n : Nat) : InPlace RVec Unit := fun v m =>
  if v.cap - v.bytes.length ≥ n then (some (), v, m)
  else (do
    let a ← request (v.bytes.length + n)
    change fun v => ⟨a.1, v.bytes.length + n + a.2, v.bytes⟩ : InPlace RVec Unit) v m

/-- `Vec::resize(n, x)` (Rust standard library). -/
def resizeIn (n : Nat) (x : UInt8) : InPlace RVec Unit := fun v m =>
  if n ≤ v.bytes.length then (some (), v.truncate n, m)
  else (do
    reserveIn (n - v.bytes.length)
    change fun w => { w with bytes := w.bytes ++ List.replicate (n - v.bytes.length) x } : InPlace RVec Unit) v m

end RVec

/-- `align_cold` (buf.rs:99-104). -/
def alignColdIn (c : Cfg) : InPlace RVec Unit := do
  RVec.reserveIn 7
  let off ← look (offsetToAlign c)
  let n ← look fun v => uadd c v.bytes.length off
  RVec.resizeIn n 0
  changeOr fun v => v.rotateRight off

/-- `align` (buf.rs:92-96). -/
def alignIn (c : Cfg) : InPlace RVec Unit := fun v m =>
  if bufIsAligned v then (some (), v, m) else alignColdIn c v m

/-- `unalign_cold` (buf.rs:113-117). -/
def unalignColdIn (c : Cfg) : InPlace RVec Unit := do
  let off ← look (offsetToAlign c)
  changeOr fun v => v.rotateLeft off
  let n ← look fun v => usub c v.bytes.length off
  change fun v => v.truncate n

/-- `unalign` (buf.rs:106-110). -/
def unalignIn (c : Cfg) : InPlace RVec Unit := fun v m =>
  if bufIsAligned v then (some (), v, m) else unalignColdIn c v m

/-- How a call ends: a second panic while unwinding aborts the process. -/
inductive Exit
  | returned
  | panicked
  | aborted
deriving DecidableEq, Repr

/-- What a `with_vec` callback does: it changes the vec in any way and returns or unwinds. -/
abbrev Callback := RVec → Answers → Bool × RVec × Answers

/-- `with_vec` (buf.rs:54-70): the guard's `drop` realigns, whether the callback returns or unwinds. -/
def AlignedBuf.withVecIn (c : Cfg) (f : Callback) (b : AlignedBuf) (m : Answers) : Exit × AlignedBuf × Answers :=
  match unalignIn c b.data m with
  | (none, v, m) => (.panicked, ⟨v⟩, m)
  | (some (), v, m) =>
    match f v m with
    | (unwinds, v, m) =>
      match alignIn c v m with
      | (some (), v, m) => (if unwinds then .panicked else .returned, ⟨v⟩, m)
      | (none, v, m) => (if unwinds then .aborted else .panicked, ⟨v⟩, m)

end GV
