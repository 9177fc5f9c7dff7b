import Verif.Spec.Compare
import Verif.Spec.Encode
import Verif.Spec.Print
import Verif.Spec.Source
import Verif.Model.TypeParser
/-
Programs that read values through the interface of the crate, and what they get to see if all there is
to see is the values: no bytes, no addresses, no framing offsets.
-/
namespace GV.Spec

/-- One call of a program.  `h` and `k` number the references and iterators the program holds, in the order
    in which it got them. -/
inductive Op
  /-- `to_bool`, the number itself, `to_str`, `split` -/
  | look (h : Nat)
  /-- `len` of an array, `size_hint` of an iterator -/
  | len (h : Nat)
  /-- `a[i]` -/
  | index (h i : Nat)
  /-- `first` -/
  | first (h : Nat)
  /-- `last` -/
  | last (h : Nat)
  /-- `iter` -/
  | iter (h : Nat)
  /-- `next` of an iterator -/
  | next (h : Nat)
  /-- `to_option` -/
  | option (h : Nat)
  /-- `to_tuple` -/
  | members (h : Nat)
  /-- `get` of a variant with the marker of type `u` -/
  | get (h : Nat) (u : Ty)
  /-- `==` -/
  | eq (h k : Nat)
  /-- `partial_cmp` of maybes of numbers -/
  | order (h k : Nat)
  /-- `{:?}` -/
  | print (h : Nat)
  /-- serializing -/
  | write (h : Nat)
  /-- `to_owned`; then a reference to the copy is held -/
  | copy (h : Nat)

/-- What a program gets to see from one call. -/
inductive Obs
  | bool (b : Bool)
  | num (n : Nat)
  /-- bytes of a text, a printed or a serialized value -/
  | bytes (b : Bytes)
  /-- type string and data of a variant -/
  | variant (ty data : Bytes)
  | count (n : Nat)
  /-- the call returned `None` -/
  | none
  /-- the call returned references or an iterator, which are held from now on -/
  | got
  | order (o : Option Ordering)
  | panic
  /-- such a call does not compile for what is held under that number -/
  | wrong
deriving DecidableEq

/-- A program: given all it has seen so far it decides on the next call, or ends. -/
abbrev Client := List Obs → Option Op

/-- What a program holds, seen as values: a value of a type, or the values an iterator has yet to yield. -/
inductive Seen
  | val (t : Ty) (v : Val)
  | rest (e : Ty) (vs : List Val)

/-- How a call ends: with an observation, in a panic, or in something that the value does not determine. -/
inductive Outcome
  | went (o : Obs) (hs : List Seen)
  | panicked
  | unknown

/-- Types whose copies are made without `AlignedBuf`: fixed-size types, strings, arrays of fixed-size
    elements. -/
def plainCopy : Ty → Bool
  | .A e => (size e).isSome
  | t => (size t).isSome || isStr t

/-- The number in a maybe of a number. -/
def inMaybe : Val → Option (Option Nat)
  | .nothing => some none
  | .just (.num n) => some (some n)
  | _ => none

open scoped Classical in
/-- One call, in terms of values.  `rd u d` is the value of type `u` that the bytes `d` in a variant stand
    for, if any; `E` is the form of encoding; `P` prints.  Unknown are: variants with data that cannot be read
    as a whole, serializations that do not fit in memory, copies of default values that are not plain, indices
    beyond any array that fits in memory. -/
noncomputable def call (rd : Ty → Bytes → Option Val) (E : Enc) (P : CoreFmt) (hs : List Seen) : Op → Outcome
  | .look h =>
    match hs[h]? with
    | some (.val _ (.bool b)) => .went (.bool b) hs
    | some (.val _ (.num n)) => .went (.num n) hs
    | some (.val _ (.str b)) => .went (.bytes b) hs
    | some (.val _ (.variant ty d)) => .went (.variant ty d) hs
    | _ => .went .wrong hs
  | .len h =>
    match hs[h]? with
    | some (.val (.A _) (.arr vs)) => .went (.count vs.length) hs
    | some (.rest _ vs) => .went (.count vs.length) hs
    | _ => .went .wrong hs
  | .index h i =>
    match hs[h]? with
    | some (.val (.A e) (.arr vs)) =>
      if 2 ^ 61 - 1 ≤ i then .unknown
      else match vs[i]? with
        | some w => .went .got (hs ++ [.val e w])
        | none => .panicked
    | _ => .went .wrong hs
  | .first h =>
    match hs[h]? with
    | some (.val (.A e) (.arr vs)) =>
      match vs.head? with
      | some w => .went .got (hs ++ [.val e w])
      | none => .went .none hs
    | _ => .went .wrong hs
  | .last h =>
    match hs[h]? with
    | some (.val (.A e) (.arr vs)) =>
      match vs.getLast? with
      | some w => .went .got (hs ++ [.val e w])
      | none => .went .none hs
    | _ => .went .wrong hs
  | .iter h =>
    match hs[h]? with
    | some (.val (.A e) (.arr vs)) => .went .got (hs ++ [.rest e vs])
    | _ => .went .wrong hs
  | .next h =>
    match hs[h]? with
    | some (.rest e (w :: ws)) => .went .got (hs.set h (.rest e ws) ++ [.val e w])
    | some (.rest _ []) => .went .none hs
    | _ => .went .wrong hs
  | .option h =>
    match hs[h]? with
    | some (.val (.M e) (.just w)) => .went .got (hs ++ [.val e w])
    | some (.val (.M _) .nothing) => .went .none hs
    | _ => .went .wrong hs
  | .members h =>
    match hs[h]? with
    | some (.val (.tuple ts) (.tup vs)) => .went .got (hs ++ ts.zipWith .val vs)
    | some (.val (.dict k x) (.tup vs)) => .went .got (hs ++ [k, x].zipWith .val vs)
    | _ => .went .wrong hs
  | .get h u =>
    match hs[h]? with
    | some (.val .V (.variant ty d)) =>
      if ty = u.show then
        match rd u d with
        | some w => .went .got (hs ++ [.val u w])
        | none => .unknown
      else .went .none hs
    | _ => .went .wrong hs
  | .eq h k =>
    match hs[h]?, hs[k]? with
    | some (.val t v), some (.val t' w) =>
      if t = t' then .went (.bool (decide (Same t v w))) hs else .went .wrong hs
    | _, _ => .went .wrong hs
  | .order h k =>
    match hs[h]?, hs[k]? with
    | some (.val (.M e) v), some (.val (.M e') w) =>
      if e = e' ∧ (numWidth e).isSome then
        match inMaybe v, inMaybe w with
        | some a, some b => .went (.order (optCmp e a b)) hs
        | _, _ => .went .wrong hs
      else .went .wrong hs
    | _, _ => .went .wrong hs
  | .print h =>
    match hs[h]? with
    | some (.val t v) => .went (.bytes (print P t v)) hs
    | _ => .went .wrong hs
  | .write h =>
    match hs[h]? with
    | some (.val t v) =>
      if (enc E t v).length < 2 ^ 63 then .went (.bytes (enc E t v)) hs else .unknown
    | _ => .went .wrong hs
  | .copy h =>
    match hs[h]? with
    | some (.val t v) =>
      if plainCopy t ∨ v ≠ dflt t then .went .got (hs ++ [.val t v]) else .unknown
    | _ => .went .wrong hs

/-- What a program sees in at most `n` calls; `none` if values do not determine it. -/
noncomputable def session (rd : Ty → Bytes → Option Val) (E : Enc) (P : CoreFmt) (client : Client) :
    Nat → List Seen → List Obs → Option (List Obs)
  | 0, _, tr => some tr
  | n + 1, hs, tr =>
    match client tr with
    | none => some tr
    | some op =>
      match call rd E P hs op with
      | .went o hs' => session rd E P client n hs' (tr ++ [o])
      | .panicked => some (tr ++ [.panic])
      | .unknown => none

end GV.Spec
