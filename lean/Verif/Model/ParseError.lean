import Verif.Model.TypeParser
/-
The parser of type strings with its error messages (gvariant-macro/src/type_parser.rs).
`Model/TypeParser.lean` has the same parser with all errors alike; C79 shows that they agree.
-/
namespace GV

/-- The `message`s that `ParseError` (type_parser.rs:4-7) is made with. -/
inductive ParseErr
  | empty | more | arrayItem | maybeItem | inTuple | dictTypes | dictEnd | notBrace | unexpected
  deriving DecidableEq, Repr

/-- The texts (type_parser.rs:73, 79, 108, 114, 123, 135, 141, 146, 150, 157), misspelling
    included. -/
def ParseErr.message : ParseErr → String
  | .empty => "Type string is empty"
  | .more => "More than one type in type string"
  | .arrayItem => "Array item type required"
  | .maybeItem => "Maybe item type required"
  | .inTuple => "EOF when inside tuple definition"
  | .dictTypes => "EOF: Dict entry requires two types"
  | .dictEnd => "EOF when expecting }"
  | .notBrace => "Expected }, got something else"
  | .unexpected => "Unexpected charactor"

/-- `impl Display for ParseError` (type_parser.rs:8-12). -/
def ParseErr.show (e : ParseErr) : String := "Parse Error: " ++ e.message

mutual
/-- `parse_one_type_spec` (type_parser.rs:86-161) with the error it returns.  The
    first argument bounds recursion depth, two for every byte (one here, one in `membersMsg`); it is
    never used up, as C79 shows by saying exactly when `unexpected` is returned. -/
def parseMsg : Nat → UInt8 → Bytes → Except ParseErr (Ty × Bytes)
  | 0, _, _ => .error .unexpected
  | f + 1, c, it =>
    match c with
    | 98 => .ok (.B, it)
    | 121 => .ok (.Y, it)
    | 110 => .ok (.N, it)
    | 113 => .ok (.Q, it)
    | 105 => .ok (.I, it)
    | 117 => .ok (.U, it)
    | 120 => .ok (.X, it)
    | 116 => .ok (.T, it)
    | 100 => .ok (.D, it)
    | 115 => .ok (.S, it)
    | 111 => .ok (.O, it)
    | 103 => .ok (.G, it)
    | 118 => .ok (.V, it)
    | 97 => match it with
      | [] => .error .arrayItem
      | c :: it => match parseMsg f c it with
        | .ok (e, it) => .ok (.A e, it)
        | .error m => .error m
    | 109 => match it with
      | [] => .error .maybeItem
      | c :: it => match parseMsg f c it with
        | .ok (e, it) => .ok (.M e, it)
        | .error m => .error m
    | 40 => match membersMsg f it with
      | .ok (ts, it) => .ok (.tuple ts, it)
      | .error m => .error m
    | 123 => match it with
      | [] => .error .dictTypes
      | c :: it => match parseMsg f c it with
        | .error m => .error m
        | .ok (k, it) => match it with
          | [] => .error .dictTypes
          | c :: it => match parseMsg f c it with
            | .error m => .error m
            | .ok (v, it) => match it with
              | [] => .error .dictEnd
              | c :: it => if c ≠ 125 then .error .notBrace else .ok (.dict k v, it)
    | _ => .error .unexpected
/-- The `loop` of the tuple case (type_parser.rs:121-129). -/
def membersMsg : Nat → Bytes → Except ParseErr (List Ty × Bytes)
  | 0, _ => .error .unexpected
  | _ + 1, [] => .error .inTuple
  | f + 1, c :: it =>
    if c = 41 then .ok ([], it)
    else match parseMsg f c it with
      | .error m => .error m
      | .ok (t, it) => match membersMsg f it with
        | .error m => .error m
        | .ok (ts, it) => .ok (t :: ts, it)
end

/-- `one` (type_parser.rs:69-84) with the error it returns. -/
def oneMsg (spec : Bytes) : Except ParseErr Ty :=
  match spec with
  | [] => .error .empty
  | c :: it => match parseMsg (2 * spec.length) c it with
    | .error m => .error m
    | .ok (_, _ :: _) => .error .more
    | .ok (t, []) => .ok t

end GV
