import Verif.Model.Emit
/-
Reading Rust source text, as far as the text emitted by `gv!` needs it: words, punctuation, byte strings,
comments; matching brackets; items, statements, arguments.  Written from the Rust reference, not from the
macro.  Numbers count as words.  Lifetimes are a quote and a word; there are no character literals.
-/
namespace GV.Spec

/-- A token. -/
inductive Tok
  /-- identifier, keyword or number -/
  | word (w : Bytes)
  /-- punctuation -/
  | op (c : UInt8)
  /-- contents of a string literal -/
  | lit (b : Bytes)
deriving DecidableEq, Repr

/-- Letters, digits, `_` and non-ASCII characters make up words. -/
def wordChar (c : UInt8) : Bool :=
  (97 ≤ c && c ≤ 122) || (65 ≤ c && c ≤ 90) || (48 ≤ c && c ≤ 57) || c == 95 || 128 ≤ c

/-- Blanks and line ends separate tokens. -/
def spaceChar (c : UInt8) : Bool := c == 32 || c == 10

/-- `! # $ % & ' ( ) * + , - . : ; < = > ? @ [ ] ^ { | } ~` -/
def punct (c : UInt8) : Bool :=
  c == 33 || (35 ≤ c && c ≤ 46) || (58 ≤ c && c ≤ 64) || c == 91 || c == 93 || c == 94 || (123 ≤ c && c ≤ 126)

/-- Where the reader is. -/
inductive LexSt
  | idle
  /-- within a word -/
  | word (w : Bytes)
  /-- after a slash -/
  | slash
  /-- within a line comment -/
  | comment
  /-- within a string literal -/
  | str (b : Bytes)
  /-- after a backslash in a string literal -/
  | esc (b : Bytes)
deriving DecidableEq, Repr

/-- A character that starts something new. -/
def lexIdle (c : UInt8) : Option (List Tok × LexSt) :=
  if spaceChar c then some ([], .idle)
  else if wordChar c then some ([], .word [c])
  else if c = 34 then some ([], .str [])
  else if c = 47 then some ([], .slash)
  else if punct c then some ([.op c], .idle)
  else none

/-- One character. -/
def lexStep : LexSt → UInt8 → Option (List Tok × LexSt)
  | .idle, c => lexIdle c
  | .word w, c =>
    if wordChar c then some ([], .word (w ++ [c]))
    else (lexIdle c).map fun r => (.word w :: r.1, r.2)
  | .slash, c => if c = 47 then some ([], .comment) else (lexIdle c).map fun r => (.op 47 :: r.1, r.2)
  | .comment, c => some ([], if c = 10 then .idle else .comment)
  | .str b, c =>
    if c = 34 then some ([.lit b], .idle)
    else if c = 92 then some ([], .esc b)
    else some ([], .str (b ++ [c]))
  | .esc b, c => if c = 48 then some ([], .str (b ++ [0])) else none

/-- Tokens of a text, and where the reader is afterwards. -/
def lexRun : LexSt → Bytes → Option (List Tok × LexSt)
  | s, [] => some ([], s)
  | s, c :: cs =>
    match lexStep s c with
    | none => none
    | some (ts, s') => (lexRun s' cs).map fun r => (ts ++ r.1, r.2)

/-- What the end of the text adds. -/
def lexEnd : LexSt → Option (List Tok)
  | .idle | .comment => some []
  | .word w => some [.word w]
  | .slash => some [.op 47]
  | .str _ | .esc _ => none

/-- Tokens of a text. -/
def lex (s : Bytes) : Option (List Tok) :=
  (lexRun .idle s).bind fun r => (lexEnd r.2).map (r.1 ++ ·)

/-- Token trees in a row: brackets with what is between them. -/
inductive Forest
  | nil
  | leaf (t : Tok) (rest : Forest)
  /-- `d` is the opening bracket -/
  | grp (d : UInt8) (inner rest : Forest)
deriving DecidableEq, Repr

/-- One row after the other. -/
def Forest.append : Forest → Forest → Forest
  | .nil, g => g
  | .leaf t r, g => .leaf t (r.append g)
  | .grp d i r, g => .grp d i (r.append g)

/-- The closing bracket of an opening one. -/
def closing (c : UInt8) : Option UInt8 :=
  if c = 40 then some 41 else if c = 91 then some 93 else if c = 123 then some 125 else none

/-- Put a token before what has been read so far, from the end of the text backwards: the brackets still to
    be opened, with what follows each, and the row at hand. -/
def pushTok (t : Tok) (s : List (UInt8 × Forest) × Forest) : Option (List (UInt8 × Forest) × Forest) :=
  match t with
  | .op c =>
    if c = 41 || c = 93 || c = 125 then some ((c, s.2) :: s.1, .nil)
    else match closing c with
      | none => some (s.1, .leaf (.op c) s.2)
      | some d => match s.1 with
        | (d', up) :: st => if d = d' then some (st, .grp c s.2 up) else none
        | [] => none
  | t => some (s.1, .leaf t s.2)

/-- Put tokens before what has been read so far. -/
def pushToks : List Tok → List (UInt8 × Forest) × Forest → Option (List (UInt8 × Forest) × Forest)
  | [], s => some s
  | t :: ts, s => (pushToks ts s).bind (pushTok t)

/-- The token trees of tokens; `none` if brackets do not match. -/
def forest (ts : List Tok) : Option Forest :=
  match pushToks ts ([], .nil) with
  | some ([], f) => some f
  | _ => none

/-- What `TokenStream::from_str` makes of a text. -/
def parseText (s : Bytes) : Option Forest := (lex s).bind forest

/-- The token trees of a constant text. -/
def code (s : Bytes) : Forest := (parseText s).getD .nil

/-- How an item or statement ends. -/
inductive Stop
  | body (f : Forest)
  | semi
  | eof
deriving DecidableEq, Repr

/-- An item or statement: what precedes the braces or the semicolon, and those. -/
structure Item where
  hdr : Forest
  stop : Stop
deriving DecidableEq, Repr

/-- Put trees before the first of the items. -/
def preItem (g : Forest) : List Item → List Item
  | [] => if g = .nil then [] else [⟨g, .eof⟩]
  | it :: its => ⟨g.append it.hdr, it.stop⟩ :: its

/-- Items or statements in a row. -/
def items : Forest → List Item
  | .nil => []
  | .leaf t r => if t = .op 59 then ⟨.nil, .semi⟩ :: items r else preItem (.leaf t .nil) (items r)
  | .grp d i r => if d = 123 then ⟨.nil, .body i⟩ :: items r else preItem (.grp d i .nil) (items r)

/-- Put trees before the first of the parts. -/
def prePart (g : Forest) : List Forest → List Forest
  | [] => [g]
  | f :: fs => g.append f :: fs

/-- Parts separated by commas; a comma may follow the last. -/
def atCommas : Forest → List Forest
  | .nil => []
  | .leaf t r => if t = .op 44 then .nil :: atCommas r else prePart (.leaf t .nil) (atCommas r)
  | .grp d i r => prePart (.grp d i .nil) (atCommas r)

/-- The item is an implementation: `impl …` or `unsafe impl …`. -/
def isImpl : Forest → Bool
  | .leaf (.word w) r => w = fmt!"impl" || (w = fmt!"unsafe" && isImpl r)
  | _ => false

/-- The name of a function from the words before its parameters. -/
def fnName : Forest → Option Bytes
  | .leaf (.word w) r =>
    if w = fmt!"fn" then
      match r with
      | .leaf (.word n) _ => some n
      | _ => none
    else if w = fmt!"pub" || w = fmt!"const" || w = fmt!"unsafe" then fnName r
    else none
  | _ => none

/-- Name and attributes of a structure definition: `#[…] … pub(crate) struct name`. -/
def structHead : Forest → Option (List Forest × Bytes)
  | .leaf (.op c) (.grp d i r) =>
    if c = 35 ∧ d = 91 then (structHead r).map fun p => (i :: p.1, p.2) else none
  | .leaf (.word w) (.grp d _ r) => if w = fmt!"pub" ∧ d = 40 then structHead r else none
  | .leaf (.word w) (.leaf (.word n) .nil) => if w = fmt!"struct" then some ([], n) else none
  | _ => none

/-- The structures a text defines: attributes, name, what is between the braces. -/
def structs (f : Forest) : List (List Forest × Bytes × Forest) :=
  (items f).filterMap fun it =>
    match structHead it.hdr, it.stop with
    | some (as, n), .body b => some (as, n, b)
    | _, _ => none

/-- The implementations of a text: what is before the braces, and the items between them. -/
def impls (f : Forest) : List (Forest × List Item) :=
  (items f).filterMap fun it =>
    match isImpl it.hdr, it.stop with
    | true, .body b => some (it.hdr, items b)
    | _, _ => none

/-- The functions called `name` in implementations: head of the implementation, head of the function, body. -/
def fns (name : Bytes) (f : Forest) : List (Forest × Forest × Forest) :=
  (impls f).flatMap fun p => p.2.filterMap fun it =>
    match it.stop with
    | .body b => if fnName it.hdr = some name then some (p.1, it.hdr, b) else none
    | _ => none

/-- What stands for the type `name`: `type name = …`. -/
def typeDef (name : Bytes) : Forest → Option Forest
  | .leaf (.word w) (.leaf (.word n) (.leaf (.op e) r)) =>
    if w = fmt!"type" ∧ n = name ∧ e = 61 then some r else none
  | _ => none

/-- What stands for the type `name` in implementations: `type name = …;`. -/
def typeDefs (name : Bytes) (f : Forest) : List (Forest × Forest) :=
  (impls f).flatMap fun p => p.2.filterMap fun it =>
    match it.stop with
    | .semi => (typeDef name it.hdr).map fun r => (p.1, r)
    | _ => none

/-- How a Rust type is written. -/
def _root_.GV.RTy.trees : RTy → Forest
  | .bool => code fmt!"Bool" | .u8 => code fmt!"u8" | .i16 => code fmt!"i16" | .u16 => code fmt!"u16"
  | .i32 => code fmt!"i32" | .u32 => code fmt!"u32" | .i64 => code fmt!"i64" | .u64 => code fmt!"u64"
  | .f64 => code fmt!"f64" | .str => code fmt!"Str" | .variant => code fmt!"Variant"
  | .slice e => .grp 91 e.trees .nil
  | .nonFixedWidthArray e => (code fmt!"NonFixedWidthArray::<").append (e.trees.append (code fmt!">"))
  | .maybeNonFixedSize e => (code fmt!"MaybeNonFixedSize::<").append (e.trees.append (code fmt!">"))
  | .maybeFixedSize e => (code fmt!"MaybeFixedSize::<").append (e.trees.append (code fmt!">"))
  | .struct name => .leaf (.word name) .nil

/-- Value of decimal digits after `acc`. -/
def digitsFrom (acc : Nat) : Bytes → Option Nat
  | [] => some acc
  | c :: cs => if 48 ≤ c ∧ c ≤ 57 then digitsFrom (10 * acc + (c.toNat - 48)) cs else none

/-- A number. -/
def numeral : Forest → Option Nat
  | .leaf (.word (c :: cs)) .nil => digitsFrom 0 (c :: cs)
  | _ => none

/-- A number, perhaps with a minus sign. -/
def integer : Forest → Option Int
  | .leaf (.op c) r => if c = 45 then (numeral r).map fun n => -(n : Int) else none
  | f => (numeral f).map Int.ofNat

/-- `Some(n)` or `None`. -/
def optNumber : Forest → Option (Option Nat)
  | .leaf (.word w) .nil => if w = fmt!"None" then some none else none
  | .leaf (.word w) (.grp d i .nil) => if w = fmt!"Some" ∧ d = 40 then (numeral i).map some else none
  | _ => none

/-- `true` or `false`. -/
def truth : Forest → Option Bool
  | .leaf (.word w) .nil =>
    if w = fmt!"true" then some true else if w = fmt!"false" then some false else none
  | _ => none

/-- A word made of a known beginning and a number. -/
def numbered (pre : Bytes) (w : Bytes) : Option Nat :=
  if pre.isPrefixOf w ∧ pre.length < w.length then digitsFrom 0 (w.drop pre.length) else none

end GV.Spec
