import Verif.Model.Debug
import Verif.Spec.Feed
/-
Model of printing into a sink that may fail: the `Debug` and `Display` implementations of gvariant/src/lib.rs
as the sequence of `write_str` calls they make.  Only `{:?}` and `{}` without flags.
-/
namespace GV

/-- Something that prints: `fmt::Result`, unless there is a panic. -/
abbrev Printer (σ : Type) := σ → σ × Res Bool

namespace Printer
variable {σ : Type}

/-- `f.write_str(x)`. -/
def say (w : TextSink σ) (x : Bytes) : Printer σ := fun st => ((w st x).1, .ok (w st x).2)

/-- `p?; q`. -/
def andThen (p q : Printer σ) : Printer σ := fun st =>
  match p st with
  | (st', .ok true) => q st'
  | (st', .ok false) => (st', .ok false)
  | (st', .fail f) => (st', .fail f)

/-- `Ok(())`. -/
def done : Printer σ := fun st => (st, .ok true)

/-- Compute something that may panic, then print. -/
def after {α : Type} (r : Res α) (k : α → Printer σ) : Printer σ := fun st =>
  match r with
  | .ok a => k a st
  | .fail f => (st, .fail f)

/-- One call after the other. -/
def sayAll (w : TextSink σ) : List Bytes → Printer σ
  | [] => done
  | x :: xs => (say w x).andThen (sayAll w xs)

end Printer
open Printer

/-- `Debug for DisplayUtf8Lossy` (lib.rs:893-906). -/
def lossyTo {σ : Type} (C : CoreCalls) (w : TextSink σ) (b : Bytes) : Printer σ :=
  match C.alloc with
  | true => sayAll w (C.str (C.lossy b))
  | false => match utf8Valid b with
    | true => sayAll w (C.str b)
    | false => say w
        [60, 69, 114, 114, 111, 114, 58, 32, 73, 110, 118, 97, 108, 105, 100, 32, 85, 116, 102, 45, 56, 62]

/-- The entries of `debug_list` and `debug_tuple` (core) after the first one. -/
def moreTo {σ : Type} (w : TextSink σ) : List (Printer σ) → Printer σ
  | [] => done
  | p :: ps => (say w [44, 32]).andThen (p.andThen (moreTo w ps))

/-- `Debug for [T]` (core) from what prints the elements. -/
def listTo {σ : Type} (w : TextSink σ) : List (Printer σ) → Printer σ
  | [] => (say w [91]).andThen (say w [93])
  | p :: ps => (say w [91]).andThen (p.andThen ((moreTo w ps).andThen (say w [93])))

/-- `Debug` for tuples (core) from what prints the members: `DebugTuple` with an empty name; `()` in one call. -/
def tupleTo {σ : Type} (w : TextSink σ) : List (Printer σ) → Printer σ
  | [] => say w [40, 41]
  | p :: ps => (say w []).andThen ((say w [40]).andThen (p.andThen ((moreTo w ps).andThen
      ((if ps.isEmpty then say w [44] else done).andThen (say w [41])))))

/-- The loop of `Debug for NonFixedWidthArray` (lib.rs:1434-1436).  The fuel bounds the number of rounds. -/
def loopTo {σ : Type} (c : Cfg) (e : Ty) (w : TextSink σ) (f : Slice → Printer σ) : Nat → ArrIter → Printer σ
  | 0, _ => fun st => (st, .fail .explicit)
  | fuel + 1, it => after (iterNext c e it) fun
    | (none, _) => done
    | (some r, it') => ((f r).andThen (say w [44, 32])).andThen (loopTo c e w f fuel it')

mutual
/-- `Debug::fmt` of a reference to a value of GVariant type `t`: `Bool` (lib.rs:1994-1998), numbers (core),
    `Str` (lib.rs:851-855), `Variant` (lib.rs:1152-1162), `[T]` (core), `NonFixedWidthArray` (lib.rs:1431-1439),
    maybes (lib.rs:1721-1725, 1858-1862), structures (generate_impl.rs:42-49). -/
def debugTo {σ : Type} (C : CoreCalls) (c : Cfg) (w : TextSink σ) : Ty → Slice → Printer σ
  | .B, s => say w (if toBool s.bytes then [116, 114, 117, 101] else [102, 97, 108, 115, 101])
  | .Y, s => sayAll w (C.num .Y (fromNe c s.bytes))
  | .N, s => sayAll w (C.num .N (fromNe c s.bytes))
  | .Q, s => sayAll w (C.num .Q (fromNe c s.bytes))
  | .I, s => sayAll w (C.num .I (fromNe c s.bytes))
  | .U, s => sayAll w (C.num .U (fromNe c s.bytes))
  | .X, s => sayAll w (C.num .X (fromNe c s.bytes))
  | .T, s => sayAll w (C.num .T (fromNe c s.bytes))
  | .D, s => sayAll w (C.num .D (fromNe c s.bytes))
  | .S, s | .O, s | .G, s => sayAll w (C.str (toStr s.bytes))
  | .V, s => after (split c s) fun (ty, data) =>
    (say w [86, 97, 114, 105, 97, 110, 116, 32, 123, 32, 116, 121, 112, 101, 58, 32]).andThen
      ((lossyTo C w ty).andThen ((say w [44, 32, 100, 97, 116, 97, 58, 32]).andThen
        ((listTo w (data.bytes.map fun x => sayAll w (C.num .Y x.toNat))).andThen (say w [32, 125]))))
  | .A e, s =>
    match sizeOf e with
    | some _ => after (rustLayout e) fun (n, _) => listTo w ((sliceElems n s).map (debugTo C c w e))
    | none => (say w [91]).andThen ((after (intoIter c e s) fun it =>
        loopTo c e w (debugTo C c w e) (it.offsets.length + 1) it).andThen (say w [93]))
  | .M e, s => after (toOption c e s) fun
    | none => say w [78, 111, 110, 101]
    | some r => (say w [83, 111, 109, 101]).andThen ((say w [40]).andThen
        ((debugTo C c w e r).andThen (say w [41])))
  | .tuple ts, s => after (tupRefs c (.tuple ts) ts s) fun rs => tupleTo w (debugAllTo C c w ts rs)
  | .dict k v, s => after (tupRefs c (.dict k v) [k, v] s) fun
    | [rk, rv] => tupleTo w [debugTo C c w k rk, debugTo C c w v rv]
    | _ => fun st => (st, .fail .explicit)
/-- What prints each member of a structure. -/
def debugAllTo {σ : Type} (C : CoreCalls) (c : Cfg) (w : TextSink σ) : List Ty → List Slice → List (Printer σ)
  | t :: ts, r :: rs => debugTo C c w t r :: debugAllTo C c w ts rs
  | [], [] => []
  | _, _ => [fun st => (st, .fail .explicit)]
end

/-- Cast bytes to type `t` and `write!(w, "{:?}", …)`. -/
def debugAsTo {σ : Type} (C : CoreCalls) (c : Cfg) (w : TextSink σ) (t : Ty) (s : Slice) : Printer σ :=
  after (fromAligned c t s) fun r => debugTo C c w t r

/-- `Display for Str` (lib.rs:846-850): without flags `Display for str` (core) is one call. -/
def displayStrTo {σ : Type} (w : TextSink σ) (s : Slice) : Printer σ := say w (toStr s.bytes)

/-- `GString` as a sink (lib.rs:1045-1049). -/
def GString.sink (extra : Nat → Nat) : TextSink GString := fun g x => g.tryPushStr extra x

end GV
