import Verif.Proofs.PrettyApart
import Verif.Props.C57_C58
/-
C88: printing with `{:#?}` and with other flags.
-/
namespace GV.Props
open GV Spec

/-- `{:…?}` of any data cast to any type prints the value that reading the data gives, laid out as `pretty` says,
    and prints something exactly if reading succeeds. -/
theorem c88_value (F : FlagFmt) (P : CoreFmt) (h1 : OneLine F P) (c : Cfg) (t : Ty) (s : Slice) (x : Bytes) :
    debugFlagsAs F P c t s = .ok x ↔ ∃ v, readAs c t s = .ok v ∧ x = pretty F P 0 t v := by
  simp only [debugFlagsAs, readAs, Res.bind_eq_ok]
  constructor
  · rintro ⟨r, h2, h3⟩
    obtain ⟨v, hv, rfl⟩ := (flags_iff h1 c t r x).1 h3
    exact ⟨v, ⟨r, h2, hv⟩, rfl⟩
  · rintro ⟨v, ⟨r, h2, hv⟩, rfl⟩
    exact ⟨r, h2, (flags_iff h1 c t r _).2 ⟨v, hv, rfl⟩⟩

/-- Printing panics exactly if reading does. -/
theorem c88_faults (F : FlagFmt) (P : CoreFmt) (h1 : OneLine F P) (c : Cfg) (t : Ty) (s : Slice) :
    (∃ f, debugFlagsAs F P c t s = .fail f) ↔ ∃ f, readAs c t s = .fail f := by
  cases h : debugFlagsAs F P c t s with
  | ok x =>
    obtain ⟨v, hv, _⟩ := (c88_value F P h1 c t s x).1 h
    simp [hv]
  | fail f =>
    cases h' : readAs c t s with
    | fail g => simp
    | ok v =>
      rw [(c88_value F P h1 c t s _).2 ⟨v, h', rfl⟩] at h
      cases h

/-- `Debug` of an `Owned` with flags prints what is read from its buffer. -/
theorem c88_owned (F : FlagFmt) (P : CoreFmt) (h1 : OneLine F P) (c : Cfg) (t : Ty) (b : AlignedBuf) (x : Bytes) :
    debugFlagsOwned F P c t b = .ok x ↔ ∃ v, readBuf c t b = .ok v ∧ x = pretty F P 0 t v := by
  simp only [debugFlagsOwned, readBuf, Res.bind_eq_ok, c88_value F P h1, readAs]
  constructor
  · rintro ⟨s, h0, v, ⟨r, h2, hv⟩, rfl⟩
    exact ⟨v, ⟨s, h0, r, h2, hv⟩, rfl⟩
  · rintro ⟨v, ⟨s, h0, r, h2, hv⟩, rfl⟩
    exact ⟨s, h0, v, ⟨r, h2, hv⟩, rfl⟩

/-- Different values print differently, for the types and values of C57. -/
theorem c88_tell_apart (F : FlagFmt) (P : CoreFmt) (h1 : OneLine F P) (hF : LawfulFlags F) (hP : Lawful P) (c c' : Cfg)
    (t : Ty) (s s' : Slice) (v w : Val) (x : Bytes) (hx : Expands t) (hsm : Small t) (ha : Spec.align t ∣ s.addr)
    (ha' : Spec.align t ∣ s'.addr) (hl : s.len < 2 ^ 63) (hl' : s'.len < 2 ^ 63) (hd : ¬ Component .D t)
    (hv : readAs c t s = .ok v) (hw : readAs c' t s' = .ok w) (hlv : Legible t v) (hlw : Legible t w)
    (h : debugFlagsAs F P c t s = .ok x) (h' : debugFlagsAs F P c' t s' = .ok x) : v = w := by
  obtain ⟨v', h2, h3⟩ := (c88_value F P h1 c t s x).1 h
  obtain ⟨w', h4, h5⟩ := (c88_value F P h1 c' t s' x).1 h'
  rw [hv] at h2; cases h2
  rw [hw] at h4; cases h4
  exact (apart hF hP t hd 0 v w [] [] ⟨readAs_fits hx hsm ha hl hv, hlv⟩ ⟨readAs_fits hx hsm ha' hl' hw, hlw⟩
    (.inl rfl) (.inl rfl) (by rw [← h3, ← h5])).1

/-- The flags of `{:?}`: none. -/
def noFlags (P : CoreFmt) : FlagFmt where
  alt := false
  num := P.num
  str := P.str
  bool b := if b then [116, 114, 117, 101] else [102, 97, 108, 115, 101]
  unit := [40, 41]

mutual
theorem pretty_noFlags (P : CoreFmt) (d : Nat) : ∀ (t : Ty) (v : Val), pretty (noFlags P) P d t v = print P t v
  | .B, v => by cases v <;> simp [pretty, print, noFlags]
  | .Y, v => by cases v <;> simp [pretty, print, noFlags]
  | .N, v => by cases v <;> simp [pretty, print, noFlags]
  | .Q, v => by cases v <;> simp [pretty, print, noFlags]
  | .I, v => by cases v <;> simp [pretty, print, noFlags]
  | .U, v => by cases v <;> simp [pretty, print, noFlags]
  | .X, v => by cases v <;> simp [pretty, print, noFlags]
  | .T, v => by cases v <;> simp [pretty, print, noFlags]
  | .D, v => by cases v <;> simp [pretty, print, noFlags]
  | .S, v => by cases v <;> simp [pretty, print, noFlags]
  | .O, v => by cases v <;> simp [pretty, print, noFlags]
  | .G, v => by cases v <;> simp [pretty, print, noFlags]
  | .V, v => by simp [pretty]
  | .A e, v => by
    have ih : pretty (noFlags P) P d e = print P e := funext fun w => pretty_noFlags P d e w
    cases v <;> try (simp [pretty, print, noFlags]; done)
    rename_i vs
    cases h : size e with
    | none => simp [pretty, h]
    | some n => simp only [pretty, print, h, ih]; rfl
  | .M e, v => by
    have ih := pretty_noFlags P d e
    cases v <;> simp only [pretty, print]
    rw [ih]; rfl
  | .tuple ts, v => by
    cases v <;> try (simp [pretty, print, noFlags]; done)
    rename_i vs
    have ih := prettyAll_noFlags P d ts vs
    cases ts with
    | nil => simp [pretty, print, printAll, noFlags, parens, commas]
    | cons t ts => simp only [pretty, print, ih]; rfl
  | .dict k l, v => by
    cases v <;> try (simp [pretty, print, noFlags]; done)
    rename_i vs
    have ihk := pretty_noFlags P d k
    have ihl := pretty_noFlags P d l
    match vs with
    | [x, y] => simp only [pretty, print, ihk, ihl]; rfl
    | [] | [_] | _ :: _ :: _ :: _ => simp [pretty, print]
theorem prettyAll_noFlags (P : CoreFmt) (d : Nat) : ∀ (ts : List Ty) (vs : List Val),
    prettyAll (noFlags P) P d ts vs = printAll P ts vs
  | [], _ => by simp [prettyAll, printAll]
  | _ :: _, [] => by simp [prettyAll, printAll]
  | t :: ts, v :: vs => by simp only [prettyAll, printAll, pretty_noFlags P d t v, prettyAll_noFlags P d ts vs]
end

/-- Without flags the text is that of C57. -/
theorem c88_no_flags (P : CoreFmt) (hn : ∀ t n, 10 ∉ P.num t n) (hs : ∀ b, 10 ∉ P.str b) (c : Cfg) (t : Ty) (s : Slice)
    (x : Bytes) : debugFlagsAs (noFlags P) P c t s = .ok x ↔ debugAs P c t s = .ok x := by
  have h1 : OneLine (noFlags P) P := ⟨hn, hs, fun b => by cases b <;> simp [noFlags], by simp [noFlags], hn, hs⟩
  rw [c88_value _ _ h1, c57_value]
  simp only [pretty_noFlags]

/-- Flags do not get into variants and arrays of non-fixed-size elements: `{:#?}` prints these in one line, as
    `{:?}` does. -/
theorem c88_flags_stop (F : FlagFmt) (P : CoreFmt) (h1 : OneLine F P) (c : Cfg) (t : Ty) (s : Slice) (x : Bytes)
    (ht : t = .V ∨ ∃ e, t = .A e ∧ Spec.size e = none) (h : debugFlagsAs F P c t s = .ok x) :
    debugAs P c t s = .ok x ∧ 10 ∉ x := by
  obtain ⟨v, hv, rfl⟩ := (c88_value F P h1 c t s x).1 h
  have : pretty F P 0 t v = print P t v := by
    rcases ht with rfl | ⟨e, rfl, he⟩
    · simp only [pretty]
    · obtain ⟨r, _, hr⟩ := Res.bind_eq_ok.1 hv
      simp only [view, Res.bind_eq_ok] at hr
      obtain ⟨_, _, vs, _, h⟩ := hr
      cases h
      simp only [pretty, he]
  rw [this]
  exact ⟨(c57_value P c t s _).2 ⟨v, hv, rfl⟩, print_line h1.num' h1.str' t v⟩

/-! ### Examples -/

/-- Like `toyFmt`, but strings as hexadecimal digits too. -/
def lineFmt : CoreFmt where
  num := (toyFmt true).num
  str b := 34 :: (b.flatMap fun x => [97 + x / 16, 97 + x % 16]) ++ [34]
  lossy b := b
  alloc := true

/-- `{:#10?}`, say: numbers with two spaces in front. -/
def wideFmt (alt : Bool) : FlagFmt where
  alt := alt
  num t n := 32 :: 32 :: lineFmt.num t n
  str := lineFmt.str
  bool b := if b then [32, 116, 114, 117, 101] else [102, 97, 108, 115, 101]
  unit := [32, 40, 41]

theorem hex_quote (x : UInt8) : 97 + x / 16 ≠ 34 ∧ 97 + x % 16 ≠ 34 ∧ 97 + x / 16 ≠ 10 ∧ 97 + x % 16 ≠ 10 := by
  have h : ∀ n < 256, (97 + UInt8.ofNat n / 16 ≠ 34 ∧ 97 + UInt8.ofNat n % 16 ≠ 34 ∧
      97 + UInt8.ofNat n / 16 ≠ 10 ∧ 97 + UInt8.ofNat n % 16 ≠ 10) := by decide +kernel
  have := h x.toNat x.toNat_lt
  rwa [UInt8.ofNat_toNat] at this

theorem hex_delim : ∀ a b x y : Bytes, (a.flatMap fun x => [97 + x / 16, 97 + x % 16]) ++ 34 :: x =
    (b.flatMap fun x => [97 + x / 16, 97 + x % 16]) ++ 34 :: y → a = b ∧ x = y := by
  intro a
  induction a with
  | nil =>
    intro b x y h
    cases b with
    | nil => simpa using h
    | cons z b =>
      simp only [List.flatMap_nil, List.nil_append, List.flatMap_cons, List.cons_append, List.cons.injEq] at h
      exact absurd h.1.symm (hex_quote z).1
  | cons k a ih =>
    intro b x y h
    cases b with
    | nil =>
      simp only [List.flatMap_nil, List.nil_append, List.flatMap_cons, List.cons_append, List.cons.injEq] at h
      exact absurd h.1 (hex_quote k).1
    | cons z b =>
      simp only [List.flatMap_cons, List.cons_append, List.nil_append, List.cons.injEq] at h
      obtain ⟨h1, h2⟩ := ih b x y h.2.2
      refine ⟨?_, h2⟩
      rw [← (toy_digits k).1, h.1, h.2.1, (toy_digits z).1, h1]

theorem lineFmt_lawful : Lawful lineFmt where
  num_ne := (toyFmt_lawful true).num_ne
  num_clean := (toyFmt_lawful true).num_clean
  num_inj := (toyFmt_lawful true).num_inj
  str_quote b := ⟨_, rfl⟩
  str_delim a b x y _ _ h := by
    simp only [lineFmt, List.append_assoc, List.cons_append, List.nil_append, List.cons.injEq, true_and] at h
    exact hex_delim a b x y h
  lossy _ _ := rfl

theorem hex_line (b : Bytes) : 10 ∉ b.flatMap fun x : UInt8 => [97 + x / 16, 97 + x % 16] := by
  intro h
  simp only [List.mem_flatMap, List.mem_cons, List.not_mem_nil, or_false] at h
  obtain ⟨k, _, h | h⟩ := h
  · exact (hex_quote k).2.2.1 h.symm
  · exact (hex_quote k).2.2.2 h.symm

theorem wideFmt_oneLine (alt : Bool) : OneLine (wideFmt alt) lineFmt := by
  have hn : ∀ t n, 10 ∉ lineFmt.num t n := by
    intro t n
    simp only [lineFmt, toyFmt, List.mem_cons, not_or]
    exact ⟨by decide, hex_line _⟩
  have hs : ∀ b, 10 ∉ lineFmt.str b := by
    intro b
    simp only [lineFmt, List.mem_append, List.mem_cons, not_or]
    exact ⟨⟨by decide, hex_line _⟩, by decide⟩
  refine ⟨fun t n => ?_, hs, fun b => by cases b <;> simp [wideFmt], by simp [wideFmt], hn, hs⟩
  simp only [wideFmt, List.mem_cons, not_or]
  exact ⟨by decide, by decide, hn t n⟩

theorem wideFmt_lawful (alt : Bool) : LawfulFlags (wideFmt alt) where
  num_ne _ _ := by simp [wideFmt]
  num_clean t n x hx := by
    simp only [wideFmt, List.mem_cons] at hx
    rcases hx with rfl | rfl | hx
    · decide
    · decide
    · exact lineFmt_lawful.num_clean t n x hx
  num_inj t w a b ht hw ha hb h := by
    simp only [wideFmt, List.cons.injEq, true_and] at h
    exact lineFmt_lawful.num_inj t w a b ht hw ha hb h
  str_quote := lineFmt_lawful.str_quote
  str_delim := lineFmt_lawful.str_delim
  bool_ne b := by cases b <;> simp [wideFmt]
  bool_clean b x hx := by
    have h : ∀ b, ∀ x ∈ (wideFmt true).bool b, x ≠ 44 ∧ x ≠ 41 ∧ x ≠ 93 := by decide +kernel
    exact h b x hx
  bool_inj := by simp [wideFmt]
  unit_start := ⟨_, _, rfl, by decide⟩

/-- `{:#?}` of `(7, [true])` of type `(mq(ab))` nests; of `["h"]` of type `as` it does not. -/
example : debugFlagsAs (wideFmt true) lineFmt dbg (.tuple [.M .Q, .tuple [.A .B]]) ⟨64, [7, 0, 1, 2]⟩ =
    .ok ([40, 10] ++ blanks 4 ++ [83, 111, 109, 101, 40, 10] ++ blanks 8 ++ (wideFmt true).num .Q 7 ++ [44, 10] ++
      blanks 4 ++ [41, 44, 10] ++ blanks 4 ++ [40, 10] ++ blanks 8 ++ [91, 10] ++ blanks 12 ++
      [32, 116, 114, 117, 101, 44, 10] ++ blanks 8 ++ [93, 44, 10] ++ blanks 4 ++ [41, 44, 10, 41]) := by decide +kernel
example : debugFlagsAs (wideFmt true) lineFmt dbg (.A .S) ⟨64, [104, 0, 2]⟩ =
    .ok [91, 34, 103, 105, 34, 44, 32, 93] := by decide +kernel
example : debugFlagsAs (wideFmt true) lineFmt dbg (.tuple []) ⟨64, [0]⟩ = .ok [32, 40, 41] ∧
    debugFlagsAs (wideFmt false) lineFmt dbg (.A .B) ⟨64, [0]⟩ = .ok [91, 102, 97, 108, 115, 101, 93] := by decide +kernel
example : debugFlagsOwned (wideFmt false) lineFmt dbg .B ⟨⟨4096, 1, [1]⟩⟩ = .ok [32, 116, 114, 117, 101] := by
  decide +kernel
example : debugFlagsAs (wideFmt true) lineFmt dbg (.A (.A .I)) ⟨64, [1, 2, 3, 3]⟩ = .fail .unwrap := by decide +kernel

end GV.Props
