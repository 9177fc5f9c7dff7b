import Verif.Model.Base
/-
Model of gvariant-macro/src/type_parser.rs: type strings.
-/
namespace GV

/-- `enum GVariantType` (gvariant-macro/src/type_parser.rs:16-34).
    `DictItem(Box<[_; 2]>)` is `dict k v`. -/
inductive Ty
  | B | Y | N | Q | I | U | X | T | D | S | O | G | V
  | A (e : Ty)
  | M (e : Ty)
  | tuple (ts : List Ty)
  | dict (k v : Ty)
deriving Repr, Inhabited

/-- Induction over types with an induction hypothesis for every structure member. -/
theorem Ty.ind {P : Ty → Prop}
    (b : P .B) (y : P .Y) (n : P .N) (q : P .Q) (i : P .I) (u : P .U) (x : P .X) (t : P .T)
    (d : P .D) (s : P .S) (o : P .O) (g : P .G) (v : P .V)
    (a : ∀ e, P e → P (.A e)) (m : ∀ e, P e → P (.M e))
    (tuple : ∀ ts, (∀ e ∈ ts, P e) → P (.tuple ts))
    (dict : ∀ k w, P k → P w → P (.dict k w)) (ty : Ty) : P ty :=
  Ty.rec (motive_1 := P) (motive_2 := fun ts => ∀ e ∈ ts, P e)
    b y n q i u x t d s o g v a m tuple dict
    (by simp) (by intro h tl ph ptl e he; simp at he; rcases he with rfl | he
                  · exact ph
                  · exact ptl e he) ty

mutual
/-- Decidable equality (`derive(PartialEq)`, type_parser.rs:15). -/
def Ty.beq : Ty → Ty → Bool
  | .B, .B | .Y, .Y | .N, .N | .Q, .Q | .I, .I | .U, .U | .X, .X | .T, .T | .D, .D
  | .S, .S | .O, .O | .G, .G | .V, .V => true
  | .A e, .A e' => Ty.beq e e'
  | .M e, .M e' => Ty.beq e e'
  | .tuple ts, .tuple ts' => Ty.beqs ts ts'
  | .dict k v, .dict k' v' => Ty.beq k k' && Ty.beq v v'
  | _, _ => false
/-- Member-wise equality. -/
def Ty.beqs : List Ty → List Ty → Bool
  | [], [] => true
  | t :: ts, t' :: ts' => Ty.beq t t' && Ty.beqs ts ts'
  | _, _ => false
end

theorem Ty.beqs_iff {ts : List Ty} (h : ∀ t ∈ ts, ∀ t', Ty.beq t t' = true ↔ t = t') :
    ∀ ts', Ty.beqs ts ts' = true ↔ ts = ts' := by
  induction ts with
  | nil => intro ts'; cases ts' <;> simp [Ty.beqs]
  | cons t ts ih =>
    intro ts'
    cases ts' with
    | nil => simp [Ty.beqs]
    | cons t' ts' =>
      simp only [Ty.beqs, Bool.and_eq_true, List.cons.injEq]
      rw [h t (by simp) t', ih (fun e he => h e (by simp [he]))]

theorem Ty.beq_iff (t : Ty) : ∀ t', Ty.beq t t' = true ↔ t = t' := by
  induction t using Ty.ind with
  | tuple ts ih => intro t'; cases t' <;> simp [Ty.beq, Ty.beqs_iff ih]
  | dict k v ihk ihv => intro t'; cases t' <;> simp [Ty.beq, ihk, ihv]
  | a e ih => intro t'; cases t' <;> simp [Ty.beq, ih]
  | m e ih => intro t'; cases t' <;> simp [Ty.beq, ih]
  | _ => intro t'; cases t' <;> simp [Ty.beq]

instance : DecidableEq Ty := fun t t' =>
  if h : Ty.beq t t' = true then .isTrue ((Ty.beq_iff t t').1 h)
  else .isFalse (fun e => h ((Ty.beq_iff t t').2 e))

mutual
/-- `impl Display for GVariantType` (type_parser.rs:36-67), as bytes. -/
def Ty.show : Ty → Bytes
  | .B => [98] | .Y => [121] | .N => [110] | .Q => [113] | .I => [105] | .U => [117]
  | .X => [120] | .T => [116] | .D => [100] | .S => [115] | .O => [111] | .G => [103]
  | .V => [118]
  | .A e => 97 :: Ty.show e
  | .M e => 109 :: Ty.show e
  | .tuple ts => 40 :: (Ty.shows ts ++ [41])
  | .dict k v => 123 :: (Ty.show k ++ Ty.show v ++ [125])
/-- The members of a structure, printed in order (type_parser.rs:56-58). -/
def Ty.shows : List Ty → Bytes
  | [] => []
  | t :: ts => Ty.show t ++ Ty.shows ts
end

mutual
/-- `parse_one_type_spec` (type_parser.rs:86-161): `c` is the byte already taken from the
    iterator, `it` the bytes left in it; returns the type and what is left afterwards, `none` for
    any `ParseError` (the messages are in `Model/ParseError.lean`).  The first argument bounds recursion depth;
    `one` supplies enough of it (C01, C02 show nothing derivable is rejected). -/
def parseOneTypeSpec : Nat → UInt8 → Bytes → Option (Ty × Bytes)
  | 0, _, _ => none
  | f + 1, c, it =>
    match c with
    | 98 => some (.B, it)
    | 121 => some (.Y, it)
    | 110 => some (.N, it)
    | 113 => some (.Q, it)
    | 105 => some (.I, it)
    | 117 => some (.U, it)
    | 120 => some (.X, it)
    | 116 => some (.T, it)
    | 100 => some (.D, it)
    | 115 => some (.S, it)
    | 111 => some (.O, it)
    | 103 => some (.G, it)
    | 118 => some (.V, it)
    | 97 => match it with
      | [] => none
      | c :: it => match parseOneTypeSpec f c it with
        | some (e, it) => some (.A e, it)
        | none => none
    | 109 => match it with
      | [] => none
      | c :: it => match parseOneTypeSpec f c it with
        | some (e, it) => some (.M e, it)
        | none => none
    | 40 => match parseMembers f it with
      | some (ts, it) => some (.tuple ts, it)
      | none => none
    | 123 => match it with
      | [] => none
      | c :: it => match parseOneTypeSpec f c it with
        | none => none
        | some (k, it) => match it with
          | [] => none
          | c :: it => match parseOneTypeSpec f c it with
            | none => none
            | some (v, it) => match it with
              | 125 :: it => some (.dict k v, it)
              | _ => none
    | _ => none
/-- The `loop` of the tuple case (type_parser.rs:121-129). -/
def parseMembers : Nat → Bytes → Option (List Ty × Bytes)
  | 0, _ => none
  | _ + 1, [] => none
  | f + 1, c :: it =>
    if c = 41 then some ([], it)
    else match parseOneTypeSpec f c it with
      | none => none
      | some (t, it) => match parseMembers f it with
        | none => none
        | some (ts, it) => some (t :: ts, it)
end

/-- `one` (type_parser.rs:69-84): parse a whole type string. -/
def one (spec : Bytes) : Option Ty :=
  match spec with
  | [] => none
  | c :: it => match parseOneTypeSpec (spec.length + 1) c it with
    | some (t, []) => some t
    | _ => none

end GV
