import Verif.Proofs.Str
/-
C20–C25: `Str` and `GString`.
-/
namespace GV.Props
open GV

/-- "hé" in UTF-8. -/
def heText : Bytes := [0x68, 0xc3, 0xa9]

theorem heText_text : Spec.Text heText :=
  ⟨⟨[0x68, 0xe9], by simp [Spec.Scalar], by decide⟩, by decide⟩

/-! ### C20 -/

/-- The modelled validity check is being the UTF-8 encoding of a sequence of scalar values. -/
theorem c20_utf8_iff (b : Bytes) : utf8Valid b = true ↔ Spec.Utf8 b := utf8Valid_iff b

example : utf8Valid heText = true ∧ utf8Valid [0xed, 0xa0, 0x80] = false ∧ utf8Valid [0xc0, 0x80] = false ∧
    utf8Valid [0xf4, 0x90, 0x80, 0x80] = false := by decide

/-- `to_str` always is UTF-8 without NUL. -/
theorem c20_to_str_text (d : Bytes) : Spec.Text (toStr d) := toStr_is_text d

example : toStr [0xff, 0] = [] ∧ toStr (heText ++ [0]) = heText := by decide

/-- `to_str` is the text before the terminator when the data is a NUL-terminated text … -/
theorem c20_to_str_normal (s : Bytes) (h : Spec.Text s) : toStr (s ++ [0]) = s := toStr_text h

/-- … and empty otherwise. -/
theorem c20_to_str_otherwise (d : Bytes) (h : ¬ ∃ s, Spec.Text s ∧ d = s ++ [0]) : toStr d = [] :=
  toStr_of_not fun s hs hd => h ⟨s, hs, hd⟩

example : ¬ ∃ s, Spec.Text s ∧ ([0x61, 0, 0x62, 0] : Bytes) = s ++ [0] := by
  rintro ⟨s, hs, h⟩
  have : s = [0x61, 0, 0x62] := by
    have := congrArg List.dropLast h
    simpa using this.symm
  subst this
  exact hs.2 (by decide)

/-- `as_bytes_non_conformant` agrees with `to_str` exactly on NUL-terminated text and on
    unterminated data (where both are empty). -/
theorem c20_as_bytes_iff (d : Bytes) :
    asBytesNC d = toStr d ↔ (∃ s, Spec.Text s ∧ d = s ++ [0]) ∨ ¬ ∃ s, d = s ++ [0] := by
  constructor
  · intro h
    by_cases he : ∃ s, d = s ++ [0]
    · obtain ⟨s, rfl⟩ := he
      left
      refine ⟨s, ?_, rfl⟩
      rw [asBytesNC_append] at h
      rw [h]; exact toStr_is_text _
    · exact Or.inr he
  · rintro (⟨s, hs, rfl⟩ | h)
    · rw [asBytesNC_append, toStr_text hs]
    · rw [asBytesNC_of_not fun s hs => h ⟨s, hs⟩, toStr_of_not fun s _ hs => h ⟨s, hs⟩]

example : asBytesNC [0x61, 0, 0x62, 0] = [0x61, 0, 0x62] ∧ toStr [0x61, 0, 0x62, 0] = [] := by decide

/-! ### C21 -/

/-- `Str` equality is equality of `to_str`. -/
theorem c21_eq_iff (a b : Bytes) : strEq a b = true ↔ toStr a = toStr b := strEq_iff a b

/-- It is an equivalence relation, as `Eq` promises. -/
theorem c21_equivalence :
    (∀ a, strEq a a = true) ∧ (∀ a b, strEq a b = strEq b a) ∧
    (∀ a b c, strEq a b = true → strEq b c = true → strEq a c = true) := by
  refine ⟨fun a => (strEq_iff _ _).2 rfl, fun a b => ?_, fun a b c h1 h2 => ?_⟩
  · rw [Bool.eq_iff_iff, strEq_iff, strEq_iff]; exact eq_comm
  · rw [strEq_iff] at *; exact h1.trans h2

/-- Comparison with a `str` agrees: it holds exactly for the text shown, and a `Str` holding that
    text with its terminator is equal to the original. -/
theorem c21_eq_str (a s : Bytes) :
    (strEqStr a s = true ↔ s = toStr a) ∧ (strEqStr a s = true → strEq a (s ++ [0]) = true) := by
  have h1 : strEqStr a s = true ↔ s = toStr a := by
    simp only [strEqStr, beq_iff_eq]; exact eq_comm
  refine ⟨h1, fun h => ?_⟩
  rw [h1] at h
  subst h
  rw [strEq_iff, toStr_text (toStr_is_text a)]

example : strEq [0xff, 0] [0x61] = true ∧ strEq [0x61, 0] [0x62, 0] = false ∧
    strEqStr [0x61, 0] [0x61] = true := by decide

/-! ### C22 -/

/-- How a `GString` comes into being. -/
inductive GStart
  | new
  | withCapacity (n : Nat)
  | fromString (s : Bytes) (cap : Nat)
  | fromStr (data : Bytes)

/-- The text it then holds, if any (`try_from` of a `String` with NUL is an error). -/
def GStart.text : GStart → Option Bytes
  | .new | .withCapacity _ => some []
  | .fromString s _ => if (0 : UInt8) ∈ s then none else some s
  | .fromStr d => some (toStr d)

/-- Creating the `GString` in the model. -/
def GStart.run (c : Cfg) (extra : Nat → Nat) : GStart → Res (Option GString)
  | .new => .ok (some .new)
  | .withCapacity n => do
    let g ← GString.withCapacity c n
    pure (some g)
  | .fromString s cap => .ok (GString.tryFrom extra s cap)
  | .fromStr d => .ok (some (strToOwned extra d))

/-- Arguments are Rust strings: UTF-8, and a `String`'s capacity is at least its length.  More than
    `isize::MAX` bytes cannot be asked for. -/
def GStart.Ok : GStart → Prop
  | .fromString s cap => Spec.Utf8 s ∧ s.length ≤ cap
  | .withCapacity n => n + 1 < 2 ^ 63
  | _ => True

/-- One operation in the model: the new state and, for `push`, whether it returned `Ok`. -/
def gstep (extra : Nat → Nat) (g : GString) : Spec.StrOp → Res (GString × Bool)
  | .push s => .ok (g.tryPushStr extra s)
  | .clear => .ok (g.clear extra, true)
  | .reserve n => do
    let g ← g.reserve extra n
    pure (g, true)
  | .clone => .ok (⟨g.data, g.data.length⟩, true)
  | .viaString => do
    let g ← Res.unwrap (GString.tryFrom extra g.intoString g.cap)
    pure (g, true)
  | .viaStr => .ok (strToOwned extra g.deref, true)

/-- A history; each step with its own allocator behaviour. -/
def grun : GString → List ((Nat → Nat) × Spec.StrOp) → Res GString
  | g, [] => .ok g
  | g, (extra, op) :: ops => do
    let p ← gstep extra g op
    grun p.1 ops

/-- The text after a history. -/
def textAfter (t : Bytes) (ops : List ((Nat → Nat) × Spec.StrOp)) : Bytes :=
  ops.foldl (fun t p => p.2.onText t) t

/-- Pushed strings are Rust strings. -/
def StrArg : Spec.StrOp → Prop
  | .push s => Spec.Utf8 s
  | _ => True

/-- The invariant: text followed by the only NUL, within the capacity. -/
def GInv (g : GString) (t : Bytes) : Prop :=
  Spec.Text t ∧ g.data = t ++ [0] ∧ g.data.length ≤ g.cap

theorem fromStrUnchecked_inv (extra : Nat → Nat) {s : Bytes} (h : Spec.Text s) :
    GInv (GString.fromStrUnchecked extra s) s := by
  refine ⟨h, by simp [GString.fromStrUnchecked, GString.append], ?_⟩
  simp only [GString.fromStrUnchecked, GString.append, List.nil_append, List.length_append, List.length_nil,
    List.length_cons]
  apply capReserve_ge
  have := capReserve_ge extra 0 (s.length + 1 + extra (s.length + 1)) s.length (Nat.zero_le _)
  omega

theorem tryFrom_inv (extra : Nat → Nat) {s : Bytes} {cap : Nat} (h : Spec.Text s) (hc : s.length ≤ cap) :
    ∃ g, GString.tryFrom extra s cap = some g ∧ GInv g s := by
  have h1 : s.contains 0 = false := by
    rw [Bool.eq_false_iff]; intro h'; exact h.2 (contains_zero.1 h')
  refine ⟨GString.append extra ⟨s, cap⟩ [0], ?_, h, rfl, ?_⟩
  · simp only [GString.tryFrom, h1, Bool.false_eq_true, if_false]
  · simp only [GString.append, List.length_append]
    exact capReserve_ge _ _ _ _ hc

theorem gstep_inv {extra : Nat → Nat} {g : GString} {t : Bytes} {op : Spec.StrOp} (hi : GInv g t)
    (ha : StrArg op) (hr : ∀ n, op = .reserve n → t.length + 1 + n < 2 ^ 63) :
    ∃ g' ok, gstep extra g op = .ok (g', ok) ∧ GInv g' (op.onText t) ∧
      (ok = false ↔ ∃ s, op = .push s ∧ (0 : UInt8) ∈ s) := by
  obtain ⟨ht, hd, hc⟩ := hi
  cases op with
  | push s =>
    simp only [gstep, GString.tryPushStr, Spec.StrOp.onText]
    by_cases h0 : (0 : UInt8) ∈ s
    · rw [if_pos (contains_zero.2 h0), if_pos h0]
      exact ⟨g, false, rfl, ⟨ht, hd, hc⟩, by simp [h0]⟩
    · rw [if_neg (fun h => h0 (contains_zero.1 h)), if_neg h0]
      refine ⟨_, true, rfl, ⟨text_append ht ⟨ha, h0⟩, ?_, ?_⟩, by simp [h0]⟩
      · simp [GString.append, GString.room, hd, popChar_zero]
      · simp only [GString.append, List.length_append, GString.room, hd, popChar_zero]
        have e1 := capReserve_ge extra (t ++ [0]).length g.cap s.length (by rw [← hd]; exact hc)
        simp only [List.length_append] at e1
        have e2 := capReserve_ge extra t.length (capReserve extra (t.length + [(0:UInt8)].length) g.cap s.length) s.length
          (by simp at e1 ⊢; omega)
        exact capReserve_ge _ _ _ _ e2
  | clear =>
    refine ⟨_, true, rfl, ⟨⟨⟨[], by simp, rfl⟩, by simp [Spec.StrOp.onText]⟩, rfl, ?_⟩, by simp⟩
    simp only [GString.clear, GString.append, List.nil_append, List.length_nil]
    have := capReserve_ge extra 0 g.cap [(0:UInt8)].length (Nat.zero_le _)
    omega
  | reserve n =>
    have hr := hr n rfl
    have e : g.reserve extra n = .ok (g.room extra n) := by
      unfold GString.reserve
      rw [if_pos (Or.inr (by rw [hd]; simp; omega))]
    refine ⟨g.room extra n, true, by simp [gstep, e], ⟨ht, hd, ?_⟩, by simp⟩
    have := capReserve_ge extra g.data.length g.cap n hc
    simp only [GString.room]; omega
  | clone => exact ⟨_, true, rfl, ⟨ht, hd, Nat.le_refl _⟩, by simp⟩
  | viaString =>
    have hs : g.intoString = t := by simp only [GString.intoString, hd, popChar_zero]
    obtain ⟨g', h1, h2⟩ := tryFrom_inv extra (s := t) (cap := g.cap) ht (by rw [hd] at hc; simp at hc; omega)
    exact ⟨g', true, by simp [gstep, hs, h1], h2, by simp⟩
  | viaStr =>
    refine ⟨_, true, rfl, ?_, by simp⟩
    have : toStr g.deref = t := by simp only [GString.deref, hd, toStr_text ht]
    simp only [strToOwned, this]
    exact fromStrUnchecked_inv extra ht

theorem gstart_inv (c : Cfg) (extra : Nat → Nat) (st : GStart) (hs : st.Ok) :
    ∃ o, st.run c extra = .ok o ∧
      match st.text with
      | some t => ∃ g, o = some g ∧ GInv g t
      | none => o = none := by
  have h0 : Spec.Text [] := ⟨⟨[], by simp, rfl⟩, by simp⟩
  cases st with
  | new => exact ⟨_, rfl, _, rfl, h0, rfl, by decide⟩
  | withCapacity n =>
    exact ⟨some ⟨[0], 1⟩, by
      simp only [GStart.Ok] at hs
      have hu : n + 1 < usizeMod := by simp only [usizeMod]; omega
      simp [GStart.run, GString.withCapacity, uadd_ok hu, hs], _, rfl, h0, rfl, by decide⟩
  | fromString s cap =>
    by_cases hz : (0 : UInt8) ∈ s
    · refine ⟨none, ?_, ?_⟩
      · simp only [GStart.run, GString.tryFrom, if_pos (contains_zero.2 hz)]
      · simp only [GStart.text, if_pos hz]
    · obtain ⟨g, h1, h2⟩ := tryFrom_inv extra (s := s) (cap := cap) ⟨hs.1, hz⟩ hs.2
      refine ⟨some g, by simp only [GStart.run, h1], ?_⟩
      simp only [GStart.text, if_neg hz]
      exact ⟨g, rfl, h2⟩
  | fromStr d => exact ⟨_, rfl, _, rfl, fromStrUnchecked_inv extra (toStr_is_text d)⟩

theorem grun_inv (ops : List ((Nat → Nat) × Spec.StrOp)) : ∀ (g : GString) (t : Bytes), GInv g t →
    (∀ p ∈ ops, StrArg p.2) →
    (∀ pre x n post, ops = pre ++ (x, .reserve n) :: post → (textAfter t pre).length + 1 + n < 2 ^ 63) →
    ∃ g', grun g ops = .ok g' ∧ GInv g' (textAfter t ops) := by
  induction ops with
  | nil => intro g t h _ _; exact ⟨g, rfl, h⟩
  | cons p ops ih =>
    obtain ⟨extra, op⟩ := p
    intro g t h ha hr
    obtain ⟨g1, ok, h1, h2, _⟩ := gstep_inv (extra := extra) h (ha (extra, op) (by simp))
      (by rintro n rfl; exact hr [] extra n ops rfl)
    obtain ⟨g2, h3, h4⟩ := ih g1 _ h2 (fun p hp => ha p (by simp [hp]))
      (by rintro pre x n post rfl; exact hr ((extra, op) :: pre) x n post rfl)
    exact ⟨g2, by simp [grun, h1, h3], h4⟩

/-- However a `GString` is made and whatever is then done to it, it holds text followed by its only
    NUL, and the text is what the same operations on a plain string that refuses NULs give.  (A request
    to reserve more than `isize::MAX` bytes in total panics, as with `String`, see `c25_reserve_partial`.) -/
theorem c22_history (c : Cfg) (extra : Nat → Nat) (st : GStart) (t : Bytes)
    (ops : List ((Nat → Nat) × Spec.StrOp)) (hs : st.Ok) (ht : st.text = some t)
    (ha : ∀ p ∈ ops, StrArg p.2)
    (hr : ∀ pre x n post, ops = pre ++ (x, .reserve n) :: post → (textAfter t pre).length + 1 + n < 2 ^ 63) :
    ∃ g0 g, st.run c extra = .ok (some g0) ∧ grun g0 ops = .ok g ∧
      Spec.Text (textAfter t ops) ∧ g.data = textAfter t ops ++ [0] := by
  obtain ⟨o, h1, h2⟩ := gstart_inv c extra st hs
  rw [ht] at h2
  obtain ⟨g0, rfl, hi⟩ := h2
  obtain ⟨g, h3, h4⟩ := grun_inv ops g0 t hi ha hr
  exact ⟨g0, g, h1, h3, h4.1, h4.2.1⟩

/-- A push is refused exactly when the string contains NUL, and then changes nothing. -/
theorem c22_push_refused (extra : Nat → Nat) (g : GString) (s : Bytes) :
    ((g.tryPushStr extra s).2 = false ↔ (0 : UInt8) ∈ s) ∧
    ((0 : UInt8) ∈ s → (g.tryPushStr extra s).1 = g) := by
  unfold GString.tryPushStr
  by_cases h : (0 : UInt8) ∈ s
  · rw [if_pos (contains_zero.2 h)]; simp [h]
  · rw [if_neg (fun h' => h (contains_zero.1 h'))]; simp [h]

/-- A `String` with a NUL is refused at creation. -/
theorem c22_start_refused (c : Cfg) (extra : Nat → Nat) (st : GStart) (hs : st.Ok) (ht : st.text = none) :
    st.run c extra = .ok none := by
  obtain ⟨o, h1, h2⟩ := gstart_inv c extra st hs
  rw [ht] at h2
  rw [h1]
  exact congrArg _ h2

/-- A history with two pushes and one refused. -/
def sampleOps : List ((Nat → Nat) × Spec.StrOp) :=
  [(fun _ => 0, .push heText), (fun _ => 3, .push [0x61, 0]), (fun _ => 0, .viaString),
   (fun _ => 1, .reserve 10), (fun n => n, .push [0x21])]

example : (GStart.new).Ok ∧ (∀ p ∈ sampleOps, StrArg p.2) ∧
    (∀ pre x n post, sampleOps = pre ++ (x, .reserve n) :: post →
      (textAfter [] pre).length + 1 + n < 2 ^ 63) ∧
    textAfter [] sampleOps = heText ++ [0x21] := by
  refine ⟨trivial, ?_, ?_, by decide⟩
  rotate_left
  · intro pre x n post h
    rcases pre with _ | ⟨a, _ | ⟨b, _ | ⟨c, _ | ⟨d, _ | ⟨e, pre⟩⟩⟩⟩⟩ <;> simp [sampleOps] at h
    obtain ⟨rfl, rfl, rfl, ⟨rfl, rfl⟩, rfl⟩ := h
    simp [textAfter, Spec.StrOp.onText, heText]
  have h1 : Spec.Utf8 [0x61, 0] := (utf8Valid_iff _).1 (by decide)
  have h2 : Spec.Utf8 [0x21] := (utf8Valid_iff _).1 (by decide)
  simp [sampleOps, StrArg, h1, h2, heText_text.1]

/-! ### C23 -/

theorem cmpBytes_zero (a b : Bytes) (ha : (0 : UInt8) ∉ a) (hb : (0 : UInt8) ∉ b) :
    GString.cmpBytes (a ++ [0]) (b ++ [0]) = GString.cmpBytes a b := by
  have pos : ∀ x : UInt8, x ≠ 0 → (0 : UInt8) < x := by
    intro x hx
    rw [UInt8.lt_iff_toNat_lt]
    have : x.toNat ≠ 0 := fun h => hx (UInt8.toNat_inj.1 h)
    show 0 < x.toNat
    omega
  have npos : ∀ x : UInt8, ¬ x < (0 : UInt8) := by
    intro x h
    rw [UInt8.lt_iff_toNat_lt] at h
    exact Nat.not_lt_zero _ h
  induction a generalizing b with
  | nil =>
    cases b with
    | nil => simp [GString.cmpBytes]
    | cons y ys =>
      have : y ≠ 0 := fun h => hb (by simp [h])
      simp [GString.cmpBytes, pos y this]
  | cons x xs ih =>
    have hx : x ≠ 0 := fun h => ha (by simp [h])
    cases b with
    | nil => simp only [List.cons_append, List.nil_append, GString.cmpBytes, npos x, pos x hx, if_true, if_false]
    | cons y ys =>
      simp only [List.cons_append, GString.cmpBytes]
      rw [ih ys (fun h => ha (by simp [h])) (fun h => hb (by simp [h]))]

/-- Equality and ordering of `GString`s are those of their texts, and equality is that of the `Str`s
    they borrow as. -/
theorem c23_compare (g h : GString) (s t : Bytes) (hg : GInv g s) (hh : GInv h t) :
    (GString.eq g h = true ↔ s = t) ∧ GString.cmp g h = GString.cmpBytes s t ∧
    GString.eq g h = strEq g.deref h.deref := by
  have h1 : GString.eq g h = true ↔ s = t := by
    simp only [GString.eq, beq_iff_eq, hg.2.1, hh.2.1, List.append_cancel_right_eq]
  refine ⟨h1, ?_, ?_⟩
  · simp only [GString.cmp, hg.2.1, hh.2.1]
    exact cmpBytes_zero s t hg.1.2 hh.1.2
  · rw [Bool.eq_iff_iff, h1, strEq_iff, GString.deref, GString.deref, hg.2.1, hh.2.1, toStr_text hg.1,
      toStr_text hh.1]

/-- The byte order used says `eq` exactly on equal texts, and swapping the arguments swaps the
    answer. -/
theorem c23_cmp_lawful (a b : Bytes) :
    (GString.cmpBytes a b = .eq ↔ a = b) ∧ GString.cmpBytes b a = (GString.cmpBytes a b).swap := by
  induction a generalizing b with
  | nil => cases b <;> simp [GString.cmpBytes]
  | cons x xs ih =>
    cases b with
    | nil => simp [GString.cmpBytes]
    | cons y ys =>
      simp only [GString.cmpBytes, List.cons.injEq]
      have tri : x < y ∨ x = y ∨ y < x := by
        simp only [UInt8.lt_iff_toNat_lt, ← UInt8.toNat_inj]; omega
      have irr : ∀ {p q : UInt8}, p < q → ¬ q < p ∧ p ≠ q := by
        intro p q h
        simp only [UInt8.lt_iff_toNat_lt, ne_eq, ← UInt8.toNat_inj] at *; omega
      rcases tri with h | rfl | h
      · obtain ⟨h1, h2⟩ := irr h
        simp [h, h1, h2]
      · have : ¬ x < x := by simp only [UInt8.lt_iff_toNat_lt]; omega
        simp only [this, if_false, true_and]
        exact ih ys
      · obtain ⟨h1, h2⟩ := irr h
        simp [h, h1, h2.symm]

example : GInv ⟨heText ++ [0], 9⟩ heText ∧ GInv ⟨[0x68, 0], 2⟩ [0x68] ∧
    GString.cmp ⟨heText ++ [0], 9⟩ ⟨[0x68, 0], 2⟩ = .gt := by
  refine ⟨⟨heText_text, rfl, by decide⟩, ⟨⟨(utf8Valid_iff _).1 (by decide), by decide⟩, rfl, by decide⟩, by decide⟩

theorem ofNat_lt {a b : Nat} (ha : a < 256) (hb : b < 256) : UInt8.ofNat a < UInt8.ofNat b ↔ a < b := by
  rw [UInt8.lt_iff_toNat_lt, UInt8.toNat_ofNat', UInt8.toNat_ofNat']
  omega

theorem cmpBytes_append (p u v : Bytes) : GString.cmpBytes (p ++ u) (p ++ v) = GString.cmpBytes u v := by
  induction p with
  | nil => rfl
  | cons x xs ih =>
    have : ¬ x < x := by simp only [UInt8.lt_iff_toNat_lt]; omega
    simp only [List.cons_append, GString.cmpBytes, this, if_false, ih]

theorem cmpBytes_cons {a b : Nat} (ha : a < 256) (hb : b < 256) (u v : Bytes) :
    GString.cmpBytes (UInt8.ofNat a :: u) (UInt8.ofNat b :: v) =
      if a < b then .lt else if b < a then .gt else GString.cmpBytes u v := by
  simp only [GString.cmpBytes, ofNat_lt ha hb, ofNat_lt hb ha]

theorem utf8Encode_lt {x y : Nat} (hy : y < 0x110000) (h : x < y) (u v : Bytes) :
    GString.cmpBytes (Spec.utf8Encode x ++ u) (Spec.utf8Encode y ++ v) = .lt := by
  unfold Spec.utf8Encode
  have hx : x < 0x110000 := by omega
  by_cases h1 : x < 0x80
  · by_cases h2 : y < 0x80
    · simp only [h1, h2, if_true, List.cons_append, List.nil_append]
      rw [cmpBytes_cons (by omega) (by omega), if_pos h]
    · simp only [h1, h2, if_true, if_false, List.cons_append, List.nil_append]
      by_cases h3 : y < 0x800
      · simp only [h3, if_true, List.cons_append, List.nil_append]
        rw [cmpBytes_cons (by omega) (by omega), if_pos (by omega)]
      · by_cases h4 : y < 0x10000
        · simp only [h3, h4, if_true, if_false, List.cons_append, List.nil_append]
          rw [cmpBytes_cons (by omega) (by omega), if_pos (by omega)]
        · simp only [h3, h4, if_false, List.cons_append, List.nil_append]
          rw [cmpBytes_cons (by omega) (by omega), if_pos (by omega)]
  · have k1 : ¬ y < 0x80 := by omega
    by_cases h2 : x < 0x800
    · simp only [h1, k1, h2, if_true, if_false, List.cons_append, List.nil_append]
      by_cases h3 : y < 0x800
      · simp only [h3, if_true, List.cons_append, List.nil_append]
        rw [cmpBytes_cons (by omega) (by omega), cmpBytes_cons (by omega) (by omega)]
        by_cases e : x / 64 < y / 64
        · rw [if_pos (by omega)]
        · rw [if_neg (by omega), if_neg (by omega), if_pos (by omega)]
      · by_cases h4 : y < 0x10000
        · simp only [h3, h4, if_true, if_false, List.cons_append, List.nil_append]
          rw [cmpBytes_cons (by omega) (by omega), if_pos (by omega)]
        · simp only [h3, h4, if_false, List.cons_append, List.nil_append]
          rw [cmpBytes_cons (by omega) (by omega), if_pos (by omega)]
    · have k2 : ¬ y < 0x800 := by omega
      by_cases h3 : x < 0x10000
      · by_cases h4 : y < 0x10000
        · simp only [h1, k1, h2, k2, h3, h4, if_true, if_false, List.cons_append, List.nil_append]
          rw [cmpBytes_cons (by omega) (by omega), cmpBytes_cons (by omega) (by omega),
            cmpBytes_cons (by omega) (by omega)]
          by_cases e : x / 4096 < y / 4096
          · rw [if_pos (by omega)]
          · rw [if_neg (by omega), if_neg (by omega)]
            by_cases e : x / 64 < y / 64
            · rw [if_pos (by omega)]
            · rw [if_neg (by omega), if_neg (by omega), if_pos (by omega)]
        · simp only [h1, k1, h2, k2, h3, h4, if_true, if_false, List.cons_append, List.nil_append]
          rw [cmpBytes_cons (by omega) (by omega), if_pos (by omega)]
      · have k3 : ¬ y < 0x10000 := by omega
        simp only [h1, k1, h2, k2, h3, k3, if_false, List.cons_append, List.nil_append]
        rw [cmpBytes_cons (by omega) (by omega), cmpBytes_cons (by omega) (by omega),
          cmpBytes_cons (by omega) (by omega), cmpBytes_cons (by omega) (by omega)]
        by_cases e : x / 262144 < y / 262144
        · rw [if_pos (by omega)]
        · rw [if_neg (by omega), if_neg (by omega)]
          by_cases e : x / 4096 < y / 4096
          · rw [if_pos (by omega)]
          · rw [if_neg (by omega), if_neg (by omega)]
            by_cases e : x / 64 < y / 64
            · rw [if_pos (by omega)]
            · rw [if_neg (by omega), if_neg (by omega), if_pos (by omega)]

/-- The byte order used is the alphabetic order of the texts by the numbers of their characters. -/
theorem c23_code_points (cs ds : List Nat) (hc : ∀ x ∈ cs, Spec.Scalar x) (hd : ∀ x ∈ ds, Spec.Scalar x) :
    GString.cmpBytes (cs.flatMap Spec.utf8Encode) (ds.flatMap Spec.utf8Encode) = Spec.codeOrder cs ds := by
  have lt : ∀ x, Spec.Scalar x → x < 0x110000 := by
    intro x h; unfold Spec.Scalar at h; omega
  have ne : ∀ x, ∃ y ys, Spec.utf8Encode x = y :: ys := by
    intro x; unfold Spec.utf8Encode; repeat' split
    all_goals exact ⟨_, _, rfl⟩
  induction cs generalizing ds with
  | nil =>
    cases ds with
    | nil => rfl
    | cons y ys =>
      obtain ⟨b, bs, e⟩ := ne y
      simp [e, GString.cmpBytes, Spec.codeOrder]
  | cons x xs ih =>
    cases ds with
    | nil =>
      obtain ⟨b, bs, e⟩ := ne x
      simp [e, GString.cmpBytes, Spec.codeOrder]
    | cons y ys =>
      simp only [List.flatMap_cons, Spec.codeOrder]
      rcases Nat.lt_trichotomy x y with h | rfl | h
      · rw [if_pos h, utf8Encode_lt (lt _ (hd _ (by simp))) h]
      · rw [if_neg (Nat.lt_irrefl _), if_neg (Nat.lt_irrefl _), cmpBytes_append]
        exact ih ys (fun z hz => hc z (by simp [hz])) (fun z hz => hd z (by simp [hz]))
      · rw [if_neg (by omega), if_pos h, (c23_cmp_lawful _ _).2,
          utf8Encode_lt (lt _ (hc _ (by simp))) h]
        rfl

example : GString.cmpBytes ([0x7a, 0xe9].flatMap Spec.utf8Encode) ([0x7a, 0x1f600].flatMap Spec.utf8Encode) = .lt ∧
    Spec.codeOrder [0x7a, 0xe9] [0x7a, 0x1f600] = .lt := by decide

/-- The order is transitive. -/
theorem c23_cmp_trans (a b d : Bytes) (h1 : GString.cmpBytes a b ≠ .gt) (h2 : GString.cmpBytes b d ≠ .gt) :
    GString.cmpBytes a d ≠ .gt := by
  induction a generalizing b d with
  | nil => cases d <;> simp [GString.cmpBytes]
  | cons x xs ih =>
    cases b with
    | nil => simp [GString.cmpBytes] at h1
    | cons y ys =>
      cases d with
      | nil => simp [GString.cmpBytes] at h2
      | cons z zs =>
        simp only [GString.cmpBytes, UInt8.lt_iff_toNat_lt] at *
        rcases Nat.lt_trichotomy x.toNat y.toNat with h | h | h
        · rcases Nat.lt_trichotomy y.toNat z.toNat with k | k | k
          · rw [if_pos (by omega)]; decide
          · rw [if_pos (by omega)]; decide
          · rw [if_neg (by omega), if_pos k] at h2; exact absurd rfl h2
        · rcases Nat.lt_trichotomy y.toNat z.toNat with k | k | k
          · rw [if_pos (by omega)]; decide
          · rw [if_neg (by omega), if_neg (by omega)] at h1 h2 ⊢
            exact ih ys zs h1 h2
          · rw [if_neg (by omega), if_pos k] at h2; exact absurd rfl h2
        · rw [if_neg (by omega), if_pos h] at h1; exact absurd rfl h1

example : GString.cmpBytes [1] [1, 2] ≠ .gt ∧ GString.cmpBytes [1, 2] [2] ≠ .gt := by decide

/-! ### C24 -/

/-- From a `GString` satisfying the invariant of C22, no conversion panics and each shows the text. -/
theorem c24_conversions (c : Cfg) (g : GString) (t : Bytes) (hg : GInv g t) :
    g.intoCString = .ok (t ++ [0]) ∧ g.asStr c = .ok t ∧ g.intoString = t ∧ toStr g.deref = t ∧
    g.len c = .ok t.length := by
  obtain ⟨ht, hd, hc⟩ := hg
  have hlen : g.data.length = t.length + 1 := by simp [hd]
  refine ⟨?_, ?_, ?_, ?_, ?_⟩
  · have h1 : (t ++ [0]).findIdx? (· == (0 : UInt8)) = some t.length := by
      rw [List.findIdx?_append]
      have : t.findIdx? (· == (0 : UInt8)) = none := by
        rw [List.findIdx?_eq_none_iff]
        intro x hx
        have : x ≠ 0 := fun h => ht.2 (h ▸ hx)
        simp [this]
      simp [this]
    simp only [GString.intoCString, GString.withNul, hd, h1, List.length_append, List.length_cons,
      List.length_nil, if_true, Res.unwrap_some]
  · simp only [GString.asStr, hlen, usub_ok (show 1 ≤ t.length + 1 by omega), Res.bind_ok, Nat.add_sub_cancel]
    rw [GString.strTo, hd, if_pos]
    · simp
    · simp [isCont_zero]
  · simp only [GString.intoString, hd, popChar_zero]
  · simp only [GString.deref, hd, toStr_text ht]
  · simp only [GString.len, hlen, usub_ok (show 1 ≤ t.length + 1 by omega), Nat.add_sub_cancel]

/-- `String` to `GString` to `String` is the identity on strings without NUL and an error otherwise. -/
theorem c24_string_round_trip (extra : Nat → Nat) (s : Bytes) (cap : Nat) :
    (GString.tryFrom extra s cap).map GString.intoString = if (0 : UInt8) ∈ s then none else some s := by
  unfold GString.tryFrom
  by_cases h : (0 : UInt8) ∈ s
  · rw [if_pos (contains_zero.2 h), if_pos h]; rfl
  · rw [if_neg (fun h' => h (contains_zero.1 h')), if_neg h]
    simp [GString.intoString, GString.append, popChar_zero]

example : (GString.tryFrom (fun _ => 0) heText 3).map GString.intoString = some heText := by decide

/-! ### C25 -/

/-- C25 as stated. -/
def C25_full : Prop :=
  (∀ (c : Cfg) (n : Nat), n + 1 < 2 ^ 63 →
    ∃ g k, GString.withCapacity c n = .ok g ∧ g.capacity c = .ok k ∧ n ≤ k) ∧
  (∀ (c : Cfg) (extra : Nat → Nat) (g : GString) (t : Bytes) (n : Nat), GInv g t → t.length + 1 + n < 2 ^ 63 →
    ∃ g' k, g.reserve extra n = .ok g' ∧ g'.capacity c = .ok k ∧ t.length + n ≤ k)

/-- False: `with_capacity` drops the `String` it reserved and returns a fresh one with room for just
    the NUL. -/
theorem c25_full_false : ¬ C25_full := by
  rintro ⟨h, _⟩
  obtain ⟨g, k, h1, h2, h3⟩ := h ⟨true, true, false, 0, 0⟩ 10 (by decide)
  have e1 : GString.withCapacity ⟨true, true, false, 0, 0⟩ 10 = .ok ⟨[0], 1⟩ := by decide
  rw [e1] at h1; cases h1
  have e2 : (GString.mk [0] 1).capacity ⟨true, true, false, 0, 0⟩ = .ok 0 := by decide
  rw [e2] at h2; cases h2
  omega

/-- What holds: `reserve` does what it says; it panics exactly if that takes more than `isize::MAX` bytes and
    there is not yet room enough.  Missing: `with_capacity` (its capacity is always 0). -/
theorem c25_reserve_partial (c : Cfg) (extra : Nat → Nat) (g : GString) (t : Bytes) (n : Nat)
    (hg : GInv g t) :
    (∀ g', g.reserve extra n = .ok g' →
      ∃ k, g'.capacity c = .ok k ∧ t.length + n ≤ k ∧ g'.data = g.data) ∧
    ((∃ f, g.reserve extra n = .fail f) ↔ 2 ^ 63 ≤ t.length + 1 + n ∧ g.cap < t.length + 1 + n) := by
  have h1 : g.data.length = t.length + 1 := by simp [hg.2.1]
  have h2 := capReserve_ge extra g.data.length g.cap n hg.2.2
  have h3 := hg.2.2
  unfold GString.reserve
  constructor
  · intro g' h
    split at h
    · obtain rfl := Res.ok.inj h
      refine ⟨_, usub_ok (show 1 ≤ (g.room extra n).cap from ?_), ?_, rfl⟩
      · simp only [GString.room]; omega
      · simp only [GString.room]; omega
    · cases h
  · split
    · rename_i h
      constructor
      · rintro ⟨f, hf⟩; cases hf
      · omega
    · rename_i h
      constructor
      · intro _; omega
      · intro _; exact ⟨_, rfl⟩

/-- … and `with_capacity(n)` always gives capacity 0. -/
theorem c25_with_capacity_ignored (c : Cfg) (n : Nat) (h : n + 1 < 2 ^ 63) :
    ∃ g, GString.withCapacity c n = .ok g ∧ GInv g [] ∧ g.capacity c = .ok 0 := by
  have hu : n + 1 < usizeMod := by simp only [usizeMod]; omega
  refine ⟨⟨[0], 1⟩, by simp [GString.withCapacity, uadd_ok hu, h], ⟨⟨⟨[], by simp, rfl⟩, by simp⟩, rfl, by decide⟩, ?_⟩
  simp [GString.capacity, usub_ok]

example : (GString.mk (heText ++ [0]) 4).reserve (fun _ => 0) 10 = .ok ⟨heText ++ [0], 14⟩ := by decide
example : (GString.mk (heText ++ [0]) 4).reserve (fun _ => 0) (2 ^ 63) = .fail .explicit := by decide

theorem capReserve_room {extra : Nat → Nat} {len cap n : Nat} (h : len + n ≤ cap) : capReserve extra len cap n = cap := by
  unfold capReserve
  rw [if_pos (by omega)]

/-- Room asked for is used: pushing strings that fit in together leaves the capacity, so nothing moves. -/
theorem c25_room_used (ops : List ((Nat → Nat) × Bytes)) : ∀ (g : GString) (t : Bytes), GInv g t →
    (∀ p ∈ ops, Spec.Utf8 p.2) → t.length + 1 + (ops.map (·.2.length)).sum ≤ g.cap →
    ∃ g', grun g (ops.map fun p => (p.1, .push p.2)) = .ok g' ∧ g'.cap = g.cap := by
  induction ops with
  | nil => intro g t _ _ _; exact ⟨g, rfl, rfl⟩
  | cons p ops ih =>
    intro g t hi hu hl
    simp only [List.map_cons, List.sum_cons] at hl
    obtain ⟨g1, ok, h1, h2, h3⟩ := gstep_inv (extra := p.1) (op := .push p.2) hi (hu p (by simp)) (by simp)
    have hcap : g1.cap = g.cap := by
      obtain ⟨ht, hd, hc⟩ := hi
      simp only [gstep, GString.tryPushStr] at h1
      split at h1
      · obtain ⟨rfl, _⟩ := Prod.mk.inj (Res.ok.inj h1); rfl
      · obtain ⟨rfl, _⟩ := Prod.mk.inj (Res.ok.inj h1)
        simp only [GString.append, GString.room, hd, popChar_zero, List.length_append, List.length_cons, List.length_nil]
        rw [capReserve_room (len := t.length + (0 + 1)) (by omega), capReserve_room (len := t.length) (by omega),
          capReserve_room (by omega)]
    have hlen : (Spec.StrOp.push p.2 |>.onText t).length ≤ t.length + p.2.length := by
      simp only [Spec.StrOp.onText]
      split
      · omega
      · simp
    obtain ⟨g2, h4, h5⟩ := ih g1 _ h2 (fun q hq => hu q (by simp [hq])) (by rw [hcap]; omega)
    refine ⟨g2, ?_, h5.trans hcap⟩
    simp only [List.map_cons, grun, h1, Res.bind_ok]
    exact h4

/-- … and asking again for room there is changes nothing. -/
theorem c25_room_kept (extra : Nat → Nat) (g : GString) (t : Bytes) (n : Nat) (hg : GInv g t)
    (h : t.length + 1 + n ≤ g.cap) : g.reserve extra n = .ok g := by
  have h1 : g.data.length = t.length + 1 := by simp [hg.2.1]
  unfold GString.reserve
  rw [if_pos (Or.inl (by omega)), GString.room, capReserve_room (by omega)]

example : grun ⟨heText ++ [0], 9⟩ [(fun _ => 7, .push heText), (fun _ => 5, .push [97, 98])] =
    .ok ⟨heText ++ heText ++ [97, 98, 0], 9⟩ := by decide

end GV.Props
