import Verif.Proofs.TypeParser
/-
C01: type strings survive parse and print.
C02: the parser accepts exactly the grammar.
-/
namespace GV.Props
open GV Spec

/-- C01: printing a type and parsing the text gives the type back. -/
theorem c01_parse_show (t : Ty) : one t.show = some t := (one_eq_some_iff _ _).2 rfl

/-- C01: different types print differently. -/
theorem c01_show_injective (t u : Ty) (h : t.show = u.show) : t = u := by
  have := c01_parse_show t
  rw [h, c01_parse_show u] at this
  simpa using this.symm

/-- C02: `gv!` accepts a byte string with result `t` exactly when the grammar derives `t` from it. -/
theorem c02_accepts_iff_derives (s : Bytes) (t : Ty) : one s = some t ↔ Derives s t := by
  rw [one_eq_some_iff]
  constructor
  · rintro rfl; exact show_derives t
  · exact derives_show s t

/-- C02: a byte string is rejected exactly when no type derives from it. -/
theorem c02_rejects_iff (s : Bytes) : one s = none ↔ ¬ ∃ t, Derives s t := by
  constructor
  · rintro h ⟨t, ht⟩
    rw [(c02_accepts_iff_derives s t).2 ht] at h
    exact Option.some_ne_none _ h
  · intro h
    cases ho : one s with
    | none => rfl
    | some t => exact absurd ⟨t, (c02_accepts_iff_derives s t).1 ho⟩ h

/-- C02: the grammar is unambiguous. -/
theorem c02_unique (s : Bytes) (t u : Ty) (h : Derives s t) (h' : Derives s u) : t = u := by
  have h1 := (c02_accepts_iff_derives s t).2 h
  rw [(c02_accepts_iff_derives s u).2 h'] at h1
  simpa using h1.symm

/-- C02: trailing bytes after a complete type are always rejected. -/
theorem c02_trailing (t : Ty) (c : UInt8) (rest : Bytes) : one (t.show ++ c :: rest) = none := by
  cases h : one (t.show ++ c :: rest) with
  | none => rfl
  | some u =>
    rw [one_eq_some_iff] at h
    -- parsing `u.show` and `t.show ++ ..` from the front gives two different remainders
    obtain ⟨c', tl, hs, _⟩ := show_head t
    have h1 := parse_complete t ((t.show ++ c :: rest).length) c' (tl ++ c :: rest) (c :: rest)
      (by simp) (by simp [hs])
    have h2 := parse_complete u ((t.show ++ c :: rest).length) c' (tl ++ c :: rest) []
      (by rw [h]; exact Nat.le_refl _) (by rw [List.append_nil, ← h]; simp [hs])
    rw [h1] at h2
    simp at h2

-- Non-vacuity: `(a{sv}may)` parses and prints; `a`, `()i` and `{si` are rejected.
example : one (Ty.show (.tuple [.A (.dict .S .V), .M (.A .Y)])) =
    some (.tuple [.A (.dict .S .V), .M (.A .Y)]) := by decide
example : one (['a', '{', 's', 'v', '}'].map ch) = some (.A (.dict .S .V)) := by decide
example : one (['a'].map ch) = none ∧ one (['(', ')', 'i'].map ch) = none
    ∧ one (['{', 's', 'i'].map ch) = none ∧ one [] = none := by decide
example : Derives [ch '(', ch 's', ch ')'] (.tuple [.S]) := .struct (.cons .string .nil)

end GV.Props
