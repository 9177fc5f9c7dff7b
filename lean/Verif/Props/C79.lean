import Verif.Proofs.ParseError
/-
C79: the parser's error messages name the true cause.
-/
namespace GV.Props
open GV Spec

/-- C79: with its messages the parser accepts the same strings as the same types. -/
theorem c79_accepts (s : Bytes) (t : Ty) : oneMsg s = .ok t ↔ Derives s t := by
  rw [oneMsg_ok]
  exact ⟨fun h => h ▸ show_derives t, derives_show s t⟩

/-- C79: the same result as `one`, which has the messages left out. -/
theorem c79_agrees (s : Bytes) (t : Ty) : oneMsg s = .ok t ↔ one s = some t := by
  rw [oneMsg_ok, one_eq_some_iff]

/-- C79: "Type string is empty" is the answer to the empty string only. -/
theorem c79_empty (s : Bytes) : oneMsg s = .error .empty ↔ s = [] := oneMsg_empty s

/-- C79: "More than one type in type string" exactly if a type string comes first and something
    follows it. -/
theorem c79_more (s : Bytes) :
    oneMsg s = .error .more ↔ ∃ p q, s = p ++ q ∧ Complete p ∧ q ≠ [] := by
  rw [oneMsg_more]
  constructor
  · rintro ⟨t, q, h, hq⟩; exact ⟨_, q, h, (complete_iff _).2 ⟨t, rfl⟩, hq⟩
  · rintro ⟨p, q, h, hp, hq⟩
    obtain ⟨t, rfl⟩ := (complete_iff _).1 hp
    exact ⟨t, q, h, hq⟩

/-- C79: "Array item type required", "Maybe item type required", "EOF when inside tuple definition",
    "EOF: Dict entry requires two types", "EOF when expecting }": each exactly for the strings
    that can be completed to a type string and end with what it names. -/
theorem c79_end (s : Bytes) :
    (oneMsg s = .error .arrayItem ↔ Viable s ∧ EndsWith 'a' s) ∧
    (oneMsg s = .error .maybeItem ↔ Viable s ∧ EndsWith 'm' s) ∧
    (oneMsg s = .error .inTuple ↔ Viable s ∧ ∃ n, Opens '(' n s) ∧
    (oneMsg s = .error .dictTypes ↔ Viable s ∧ ∃ n, n < 2 ∧ Opens '{' n s) ∧
    (oneMsg s = .error .dictEnd ↔ Viable s ∧ Opens '{' 2 s) := by
  refine ⟨eof_exact s _ rfl, eof_exact s _ rfl, ?_, ?_, ?_⟩
  · rw [eof_exact s _ rfl]
    refine and_congr_right fun _ => ?_
    simp only [opens_iff, Tail]
    exact ⟨fun ⟨p, ts, h⟩ => ⟨_, p, ts, h, rfl⟩, fun ⟨_, p, ts, h, _⟩ => ⟨p, ts, h⟩⟩
  · rw [eof_exact s _ rfl]
    refine and_congr_right fun _ => ?_
    simp only [opens_iff, Tail]
    exact ⟨fun ⟨p, ts, h, hl⟩ => ⟨_, hl, p, ts, h, rfl⟩,
      fun ⟨_, hn, p, ts, h, hl⟩ => ⟨p, ts, h, hl ▸ hn⟩⟩
  · rw [eof_exact s _ rfl, opens_iff]
    rfl

/-- C79: the parser complains of a missing rest (these five, or the empty string) exactly if there
    is a rest that makes the string a type string. -/
theorem c79_unfinished (s : Bytes) :
    (∃ e ∈ [ParseErr.empty, .arrayItem, .maybeItem, .inTuple, .dictTypes, .dictEnd],
      oneMsg s = .error e) ↔ Viable s ∧ ¬ Complete s := by
  constructor
  · rintro ⟨e, he, h⟩
    refine eof_viable h ?_
    simp at he
    rcases he with rfl | rfl | rfl | rfl | rfl | rfl <;> simp [isEof]
  · rintro ⟨h, hc⟩
    obtain ⟨e, he, hk⟩ := viable_eof h hc
    refine ⟨e, ?_, he⟩
    cases e <;> simp [isEof] at hk ⊢

/-- C79: "Expected }, got something else" exactly if, after a beginning that wants the brace closing
    a dictionary entry, another byte comes. -/
theorem c79_brace (s : Bytes) :
    oneMsg s = .error .notBrace ↔
      ∃ p c q, s = p ++ c :: q ∧ Viable p ∧ Opens '{' 2 p ∧ c ≠ ch '}' := by
  constructor
  · intro h
    obtain ⟨p, c, q, rfl, hv, hc, hn⟩ := stuck_exists h (.inl rfl)
    obtain ⟨e, he, hs⟩ := oneMsg_stuck hv hc hn
    have hd : e = .dictEnd := by
      rw [hs q] at h
      by_cases hd : e = .dictEnd
      · exact hd
      · simp [hd] at h
    subst hd
    refine ⟨p, c, q, rfl, hv, ((c79_end p).2.2.2.2.1 he).2, ?_⟩
    rintro rfl
    obtain ⟨w, t, hw⟩ := (oneMsg_eof he rfl).1 [125] rfl
    exact hn ((viable_iff _).2 ⟨w, t, hw⟩)
  · rintro ⟨p, c, q, rfl, hv, ho, hc⟩
    have hd := (c79_end p).2.2.2.2.2 ⟨hv, ho⟩
    have := oneMsg_ext hd (by simp) (by simp) (w := c :: q)
      (.inr ⟨rfl, c, q, rfl, fun u hu => by simp [Follows] at hu; exact hc hu.1, rfl⟩)
    simpa using this

/-- C79: "Unexpected charactor" exactly if an unfinished beginning, not one wanting the brace of a
    dictionary entry, is followed by a byte after which nothing can make a type string of it. -/
theorem c79_unexpected (s : Bytes) :
    oneMsg s = .error .unexpected ↔
      ∃ p c q, s = p ++ c :: q ∧ Viable p ∧ ¬ Complete p ∧ ¬ Viable (p ++ [c]) ∧
        ¬ Opens '{' 2 p := by
  constructor
  · intro h
    obtain ⟨p, c, q, rfl, hv, hc, hn⟩ := stuck_exists h (.inr rfl)
    refine ⟨p, c, q, rfl, hv, hc, hn, fun ho => ?_⟩
    have hd := (c79_end p).2.2.2.2.2 ⟨hv, ho⟩
    obtain ⟨e, he, hs⟩ := oneMsg_stuck hv hc hn
    rw [hd] at he
    simp at he
    rw [hs q, ← he] at h
    simp at h
  · rintro ⟨p, c, q, rfl, hv, hc, hn, ho⟩
    obtain ⟨e, he, hs⟩ := oneMsg_stuck hv hc hn
    have : e ≠ .dictEnd := by
      rintro rfl
      exact ho ((c79_end p).2.2.2.2.1 he).2
    rw [hs q, if_neg this]

/-- C79: a byte is rejected as soon as it comes: once no rest can help, the answer is settled,
    whatever follows, and it is not that something is missing or that there is too much. -/
theorem c79_settled (p : Bytes) (c : UInt8) (hv : Viable p) (hc : ¬ Complete p)
    (hn : ¬ Viable (p ++ [c])) :
    (∀ q, oneMsg (p ++ c :: q) = .error .notBrace) ∨
    (∀ q, oneMsg (p ++ c :: q) = .error .unexpected) := by
  obtain ⟨e, he, hs⟩ := oneMsg_stuck hv hc hn
  by_cases hd : e = .dictEnd
  · left; intro q; rw [hs q, if_pos hd]
  · right; intro q; rw [hs q, if_neg hd]

/-- C79: no two messages read the same. -/
theorem c79_texts (e e' : ParseErr) (h : e.show = e'.show) : e = e' := by
  revert h
  cases e <;> cases e' <;> decide

-- Non-vacuity: one string for every message, and the strings meeting the hypotheses above.
example : oneMsg ([].map ch) = .error .empty := by rfl
example : oneMsg ("a{sv}i".toList.map ch) = .error .more := by rfl
example : oneMsg ("(ia".toList.map ch) = .error .arrayItem := by rfl
example : oneMsg ("a{sm".toList.map ch) = .error .maybeItem := by rfl
example : oneMsg ("(((((((i".toList.map ch) = .error .inTuple := by rfl
example : oneMsg ("a{s".toList.map ch) = .error .dictTypes := by rfl
example : oneMsg ("(a{sv".toList.map ch) = .error .dictEnd := by rfl
example : oneMsg ("(a{svi}".toList.map ch) = .error .notBrace := by rfl
example : oneMsg ("(a}i)".toList.map ch) = .error .unexpected := by rfl
example : oneMsg ("(iz".toList.map ch) = .error .unexpected := by rfl
example : ParseErr.notBrace.show = "Parse Error: Expected }, got something else" := by decide
example : Viable ("(a{sv".toList.map ch) ∧ Opens '{' 2 ("(a{sv".toList.map ch) ∧
    ¬ Complete ("(a{sv".toList.map ch) ∧ ¬ Viable ("(a{svi".toList.map ch) := by
  have h : oneMsg ("(a{sv".toList.map ch) = .error .dictEnd := by rfl
  have h' : oneMsg ("(a{svi".toList.map ch) = .error .notBrace := by rfl
  have h1 := (c79_end _).2.2.2.2.1 h
  refine ⟨h1.1, h1.2, ((c79_unfinished _).1 ⟨_, by simp, h⟩).2, fun hv => ?_⟩
  by_cases hc : Complete ("(a{svi".toList.map ch)
  · obtain ⟨t, ht⟩ := hc
    have := (c79_accepts _ t).2 ht
    rw [h'] at this
    cases this
  · obtain ⟨e, he, hk⟩ := (c79_unfinished _).2 ⟨hv, hc⟩
    rw [h'] at hk
    cases hk
    simp at he

end GV.Props
