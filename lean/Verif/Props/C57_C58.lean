import Verif.Proofs.Print
import Verif.Proofs.Reser
import Verif.Props.C10_C19
/-
C57, C58: printing.
-/
namespace GV.Props
open GV Spec

/-- Some way of writing numbers and strings that has the properties assumed of the standard library's:
    numbers as hexadecimal digits `a` to `p`, strings with a backslash before every byte. -/
def toyFmt (alloc : Bool) : CoreFmt where
  num _ n := 48 :: (leBytes 8 n).flatMap fun x => [97 + x / 16, 97 + x % 16]
  str b := 34 :: (b.flatMap fun x => [92, x]) ++ [34]
  lossy b := b
  alloc := alloc

theorem toy_str : ∀ a b x y : Bytes, (a.flatMap fun x => [92, x]) ++ 34 :: x = (b.flatMap fun x => [92, x]) ++ 34 :: y →
    a = b ∧ x = y := by
  intro a
  induction a with
  | nil =>
    intro b x y h
    cases b with
    | nil => simpa using h
    | cons z b => simp at h
  | cons k a ih =>
    intro b x y h
    cases b with
    | nil => simp at h
    | cons z b =>
      simp only [List.flatMap_cons, List.cons_append, List.nil_append, List.cons.injEq, true_and] at h
      obtain ⟨h1, h2⟩ := ih b x y h.2
      exact ⟨by rw [h.1, h1], h2⟩

theorem toy_digits (x : UInt8) : (97 + x / 16 - 97) * 16 + (97 + x % 16 - 97) = x ∧
    97 + x / 16 ≠ 44 ∧ 97 + x / 16 ≠ 41 ∧ 97 + x / 16 ≠ 93 ∧ 97 + x % 16 ≠ 44 ∧ 97 + x % 16 ≠ 41 ∧ 97 + x % 16 ≠ 93 := by
  have h : ∀ n < 256, ((97 + UInt8.ofNat n / 16 - 97) * 16 + (97 + UInt8.ofNat n % 16 - 97) = UInt8.ofNat n ∧
      97 + UInt8.ofNat n / 16 ≠ 44 ∧ 97 + UInt8.ofNat n / 16 ≠ 41 ∧ 97 + UInt8.ofNat n / 16 ≠ 93 ∧
      97 + UInt8.ofNat n % 16 ≠ 44 ∧ 97 + UInt8.ofNat n % 16 ≠ 41 ∧ 97 + UInt8.ofNat n % 16 ≠ 93) := by
    decide +kernel
  have := h x.toNat x.toNat_lt
  rwa [UInt8.ofNat_toNat] at this

theorem toy_nums : ∀ a b : Bytes, (a.flatMap fun x => [97 + x / 16, 97 + x % 16]) =
    (b.flatMap fun x => [97 + x / 16, 97 + x % 16]) → a = b := by
  intro a
  induction a with
  | nil =>
    intro b h
    cases b with
    | nil => rfl
    | cons z b => simp at h
  | cons k a ih =>
    intro b h
    cases b with
    | nil => simp at h
    | cons z b =>
      simp only [List.flatMap_cons, List.cons_append, List.nil_append, List.cons.injEq] at h
      rw [← (toy_digits k).1, h.1, h.2.1, (toy_digits z).1, ih b h.2.2]

theorem toyFmt_lawful (alloc : Bool) : Lawful (toyFmt alloc) where
  num_ne _ _ := by simp [toyFmt]
  num_clean _ n x hx := by
    simp only [toyFmt, List.mem_cons, List.mem_flatMap, List.not_mem_nil, or_false] at hx
    rcases hx with rfl | ⟨k, _, rfl | rfl⟩
    · decide
    · have := toy_digits k; exact ⟨this.2.1, this.2.2.1, this.2.2.2.1⟩
    · have := toy_digits k; exact ⟨this.2.2.2.2.1, this.2.2.2.2.2.1, this.2.2.2.2.2.2⟩
  num_inj t w a b _ hw ha hb h := by
    have h1 := toy_nums _ _ (List.cons.inj h).2
    have hw8 : 256 ^ w ≤ 256 ^ 8 := Nat.pow_le_pow_right (by decide) (by
      cases t <;> simp [numWidth] at hw <;> omega)
    have := congrArg Spec.le h1
    rwa [le_leBytes (by omega), le_leBytes (by omega)] at this
  str_quote b := ⟨_, rfl⟩
  str_delim a b x y _ _ h := by
    simp only [toyFmt, List.append_assoc, List.cons_append, List.nil_append, List.cons.injEq, true_and] at h
    exact toy_str a b x y h
  lossy _ _ := rfl

/-! ### C57 -/

/-- `{:?}` of any data cast to any type prints the value that reading the data gives, and prints
    something exactly if reading succeeds. -/
theorem c57_value (P : CoreFmt) (c : Cfg) (t : Ty) (s : Slice) (x : Bytes) :
    debugAs P c t s = .ok x ↔ ∃ v, readAs c t s = .ok v ∧ x = print P t v := by
  simp only [debugAs, readAs, Res.bind_eq_ok]
  constructor
  · rintro ⟨r, h1, h2⟩
    obtain ⟨v, hv, rfl⟩ := (debug_iff P c t r x).1 h2
    exact ⟨v, ⟨r, h1, hv⟩, rfl⟩
  · rintro ⟨v, ⟨r, h1, hv⟩, rfl⟩
    exact ⟨r, h1, (debug_iff P c t r _).2 ⟨v, hv, rfl⟩⟩

/-- Printing panics exactly if reading does. -/
theorem c57_faults (P : CoreFmt) (c : Cfg) (t : Ty) (s : Slice) :
    (∃ f, debugAs P c t s = .fail f) ↔ ∃ f, readAs c t s = .fail f := by
  cases h : debugAs P c t s with
  | ok x =>
    obtain ⟨v, hv, _⟩ := (c57_value P c t s x).1 h
    simp [hv]
  | fail f =>
    cases h' : readAs c t s with
    | fail g => simp
    | ok v =>
      rw [(c57_value P c t s _).2 ⟨v, h', rfl⟩] at h
      cases h

/-- Equal values print equally, whatever the data, its address and the build. -/
theorem c57_same (P : CoreFmt) (c c' : Cfg) (t : Ty) (s s' : Slice) (v : Val) (h : readAs c t s = .ok v)
    (h' : readAs c' t s' = .ok v) : debugAs P c t s = .ok (print P t v) ∧ debugAs P c' t s' = .ok (print P t v) :=
  ⟨(c57_value P c t s _).2 ⟨v, h, rfl⟩, (c57_value P c' t s' _).2 ⟨v, h', rfl⟩⟩

/-- Different values print differently, for types without doubles (all NaNs look alike) and values in
    which the type strings of variants are UTF-8. -/
theorem c57_tell_apart (P : CoreFmt) (hP : Lawful P) (c c' : Cfg) (t : Ty) (s s' : Slice) (v w : Val) (x : Bytes)
    (hx : Expands t) (hsm : Small t) (ha : Spec.align t ∣ s.addr) (ha' : Spec.align t ∣ s'.addr)
    (hl : s.len < 2 ^ 63) (hl' : s'.len < 2 ^ 63) (hd : ¬ Component .D t)
    (hv : readAs c t s = .ok v) (hw : readAs c' t s' = .ok w) (hlv : Legible t v) (hlw : Legible t w)
    (h : debugAs P c t s = .ok x) (h' : debugAs P c' t s' = .ok x) : v = w := by
  obtain ⟨v', h1, h2⟩ := (c57_value P c t s x).1 h
  obtain ⟨w', h3, h4⟩ := (c57_value P c' t s' x).1 h'
  rw [hv] at h1; cases h1
  rw [hw] at h3; cases h3
  exact (unamb hP t hd v w [] [] ⟨readAs_fits hx hsm ha hl hv, hlv⟩ ⟨readAs_fits hx hsm ha' hl' hw, hlw⟩
    (.inl rfl) (.inl rfl) (by rw [← h2, ← h4])).1

/-- `Debug` of an `Owned` prints what is read from its buffer. -/
theorem c57_owned (P : CoreFmt) (c : Cfg) (t : Ty) (b : AlignedBuf) (x : Bytes) :
    debugOwned P c t b = .ok x ↔ ∃ v, readBuf c t b = .ok v ∧ x = print P t v := by
  simp only [debugOwned, readBuf, Res.bind_eq_ok]
  constructor
  · rintro ⟨s, h0, r, h1, h2⟩
    obtain ⟨v, hv, rfl⟩ := (debug_iff P c t r x).1 h2
    exact ⟨v, ⟨s, h0, r, h1, hv⟩, rfl⟩
  · rintro ⟨v, ⟨s, h0, r, h1, hv⟩, rfl⟩
    exact ⟨s, h0, r, h1, (debug_iff P c t r _).2 ⟨v, hv, rfl⟩⟩

/-- `(say)` of `("hi", [1, 2])` prints as such; the comma after each element tells `as` from `ay`. -/
example : debugAs (toyFmt true) dbg (.tuple [.S, .A .Y]) ⟨64, [104, 105, 0, 1, 2, 3]⟩ =
    .ok ([40, 34, 92, 104, 92, 105, 34, 44, 32, 91] ++ (toyFmt true).num .Y 1 ++ [44, 32] ++
      (toyFmt true).num .Y 2 ++ [93, 41]) := by decide +kernel
example : debugAs (toyFmt true) dbg (.A .S) ⟨64, [104, 0, 105, 0, 2, 4]⟩ =
    .ok [91, 34, 92, 104, 34, 44, 32, 34, 92, 105, 34, 44, 32, 93] := by decide +kernel
example : Lawful (toyFmt true) ∧ Lawful (toyFmt false) := ⟨toyFmt_lawful true, toyFmt_lawful false⟩
example : ¬ Component .D (.tuple [.S, .A .Y]) := by
  intro h
  cases h with
  | member h1 h2 =>
    simp only [List.mem_cons, List.not_mem_nil, or_false] at h2
    rcases h2 with rfl | rfl
    · cases h1
    · cases h1 with
      | array h => cases h
example : debugAs (toyFmt true) dbg (.A (.A .I)) ⟨64, [1, 2, 3, 3]⟩ = .fail .unwrap := by decide +kernel

/-! ### C58 -/

/-- `Display` of an `Owned` string shows what `Display` of the string it holds shows.  False. -/
def C58_full : Prop := ∀ (P : CoreFmt) (c : Cfg) (b : AlignedBuf) (s : Slice), Lawful P → b.deref c = .ok s →
  displayOwned P c .S b = .ok (displayStr s)

/-- `Owned` displays its content like `Debug`, so a string is shown in quotes. -/
theorem c58_full_false : ¬ C58_full := by
  intro h
  have := h (toyFmt true) dbg ⟨⟨4096, 2, [104, 0]⟩⟩ ⟨4096, [104, 0]⟩ (toyFmt_lawful true) (by decide +kernel)
  revert this
  decide +kernel

/-- What `Display` of an `Owned` shows for any type: what `Debug` shows.  Missing: `Display` of the content. -/
theorem c58_owned_partial (P : CoreFmt) (c : Cfg) (t : Ty) (b : AlignedBuf) :
    displayOwned P c t b = debugOwned P c t b ∧
      ∀ x, displayOwned P c t b = .ok x ↔ ∃ v, readBuf c t b = .ok v ∧ x = print P t v :=
  ⟨rfl, fun x => c57_owned P c t b x⟩

/-- `Display` of a string read in place is its text, and so is `Display` of the `GString` that owning it
    gives; `Debug` of both is the quoted text. -/
theorem c58_strings (P : CoreFmt) (c : Cfg) (extra : Nat → Nat) (s : Slice) :
    (strToOwned extra s.bytes).display c = .ok (displayStr s) ∧
      view c .S s = .ok (.str (displayStr s)) ∧
      (strToOwned extra s.bytes).debug P c = debug P c .S s := by
  have hd : (strToOwned extra s.bytes).data = toStr s.bytes ++ [0] := by
    simp [strToOwned, GString.fromStrUnchecked, GString.append]
  have h1 : (strToOwned extra s.bytes).asStr c = .ok (toStr s.bytes) := by
    simp only [GString.asStr, hd, List.length_append, List.length_singleton]
    rw [usub_ok (by omega)]
    simp only [Res.bind_ok, Nat.add_sub_cancel, GString.strTo]
    rw [if_pos]
    · simp
    · exact ⟨by simp, by simp [isCont]⟩
  refine ⟨h1, rfl, ?_⟩
  simp only [GString.debug, h1, Res.bind_ok]
  rfl

example : (strToOwned (fun _ => 0) [104, 105, 0]).display dbg = .ok [104, 105] := by decide +kernel
example : displayOwned (toyFmt true) dbg .S ⟨⟨4096, 3, [104, 105, 0]⟩⟩ =
    .ok [34, 92, 104, 92, 105, 34] := by decide +kernel

end GV.Props
