import Verif.Model.ParseError
import Verif.Proofs.TypeParser
import Verif.Spec.Prefix
/- Helper lemmas for C79. -/
namespace GV
open Spec

/-- forget the message -/
def erase {α : Type} : Except ParseErr α → Option α
  | .ok x => some x
  | .error _ => none

theorem erase_parse : ∀ f : Nat,
    (∀ c it, erase (parseMsg f c it) = parseOneTypeSpec f c it) ∧
    (∀ it, erase (membersMsg f it) = parseMembers f it) := by
  intro f
  induction f with
  | zero => simp [parseMsg, membersMsg, parseOneTypeSpec, parseMembers, erase]
  | succ f ih =>
    obtain ⟨ih1, ih2⟩ := ih
    constructor
    · intro c it
      unfold parseMsg parseOneTypeSpec
      split
      all_goals first
        | rfl
        | skip
      · cases it with
        | nil => rfl
        | cons c it =>
          simp only [← ih1]
          cases parseMsg f c it <;> rfl
      · cases it with
        | nil => rfl
        | cons c it =>
          simp only [← ih1]
          cases parseMsg f c it <;> rfl
      · simp only [← ih2]
        cases membersMsg f it <;> rfl
      · cases it with
        | nil => rfl
        | cons c it =>
          simp only [← ih1]
          rcases parseMsg f c it with e | ⟨k, it⟩
          · rfl
          · cases it with
            | nil => rfl
            | cons c it =>
              simp only [erase]
              rcases parseMsg f c it with e | ⟨v, it⟩
              · rfl
              · cases it with
                | nil => rfl
                | cons c it =>
                  by_cases h : c = 125
                  · subst h; rfl
                  · simp only [h, ne_eq, not_false_eq_true, if_true]
                    split
                    · rename_i h'; simp at h'; exact absurd h'.1 h
                    · rfl
      · split <;> first | rfl | simp_all
    · intro it
      cases it with
      | nil => rfl
      | cons c it =>
        simp only [membersMsg, parseMembers]
        split
        · rfl
        · simp only [← ih1]
          rcases parseMsg f c it with e | ⟨t, it⟩
          · rfl
          · simp only [erase, ← ih2]
            cases membersMsg f it <;> rfl

theorem erase_eq_some {α : Type} {r : Except ParseErr α} {x : α} : erase r = some x ↔ r = .ok x := by
  cases r <;> simp [erase]

theorem parseMsg_sound {f c it t rest} (h : parseMsg f c it = .ok (t, rest)) :
    c :: it = t.show ++ rest :=
  (parse_sound f).1 c it t rest (by rw [← (erase_parse f).1, h]; rfl)

theorem membersMsg_sound {f it ts rest} (h : membersMsg f it = .ok (ts, rest)) :
    it = Ty.shows ts ++ 41 :: rest :=
  (parse_sound f).2 it ts rest (by rw [← (erase_parse f).2, h]; rfl)

theorem parseMsg_complete (t : Ty) (f : Nat) (c : UInt8) (it rest : Bytes)
    (hf : t.show.length ≤ f) (h : c :: it = t.show ++ rest) : parseMsg f c it = .ok (t, rest) := by
  rw [← erase_eq_some, (erase_parse f).1]
  exact parse_complete t f c it rest hf h

/-- `ch` is the first letter of some type -/
def Starter (ch : UInt8) : Prop := ∃ t u, Ty.show t = ch :: u

/-- what is open at the end of the text when the parser runs out of bytes -/
def Tail : ParseErr → Bytes → Prop
  | .arrayItem, s => ∃ p, s = p ++ [97]
  | .maybeItem, s => ∃ p, s = p ++ [109]
  | .inTuple, s => ∃ p ts, s = p ++ 40 :: Ty.shows ts
  | .dictTypes, s => ∃ p ts, s = p ++ 123 :: Ty.shows ts ∧ ts.length < 2
  | .dictEnd, s => ∃ p ts, s = p ++ 123 :: Ty.shows ts ∧ ts.length = 2
  | _, _ => False

/-- the messages for running out of bytes -/
def isEof : ParseErr → Bool
  | .arrayItem | .maybeItem | .inTuple | .dictTypes | .dictEnd => true
  | _ => false

/-- what may follow -/
def Follows : ParseErr → Bytes → Prop
  | .arrayItem, u => ∃ t, u = Ty.show t
  | .maybeItem, u => ∃ t, u = Ty.show t
  | .inTuple, u => u = [41] ∨ ∃ t, u = Ty.show t
  | .dictTypes, u => ∃ t, u = Ty.show t
  | .dictEnd, u => u = [125]
  | _, _ => False

theorem tail_pre {e s} (x : Bytes) (h : Tail e s) : Tail e (x ++ s) := by
  cases e <;> simp only [Tail] at h ⊢
  · obtain ⟨p, rfl⟩ := h; exact ⟨x ++ p, by simp⟩
  · obtain ⟨p, rfl⟩ := h; exact ⟨x ++ p, by simp⟩
  · obtain ⟨p, ts, rfl⟩ := h; exact ⟨x ++ p, ts, by simp⟩
  · obtain ⟨p, ts, rfl, hl⟩ := h; exact ⟨x ++ p, ts, by simp, hl⟩
  · obtain ⟨p, ts, rfl, hl⟩ := h; exact ⟨x ++ p, ts, by simp, hl⟩

theorem show_append {t : Ty} {c it rest} (h : c :: it = t.show ++ rest) :
    rest.length ≤ it.length := by
  have := congrArg List.length h
  have := show_ne_nil t
  simp at *; omega

/-- Running out of bytes: the text can be completed whatever permitted item comes next, and it ends
    as the message says. -/
theorem eof_tail : ∀ f : Nat,
    (∀ c it e, 2 * it.length + 2 ≤ f → parseMsg f c it = .error e → isEof e = true →
      (∀ u, Follows e u → ∃ w t, c :: it ++ u ++ w = Ty.show t) ∧ Tail e (c :: it)) ∧
    (∀ it e, 2 * it.length + 1 ≤ f → membersMsg f it = .error e → isEof e = true →
      (∀ u, Follows e u → ∃ w ts, it ++ u ++ w = Ty.shows ts ++ [41]) ∧
      (Tail e it ∨ e = .inTuple ∧ ∃ ts, it = Ty.shows ts)) := by
  intro f
  induction f with
  | zero => simp
  | succ f ih =>
    obtain ⟨ih1, ih2⟩ := ih
    constructor
    · intro c it e hf h he
      unfold parseMsg at h
      split at h
      all_goals first
        | (simp at h; done)
        | (simp at h; subst h; simp [isEof] at he; done)
        | skip
      · cases it with
        | nil =>
          simp at h; subst h
          refine ⟨?_, [], rfl⟩
          rintro u ⟨t, rfl⟩
          exact ⟨[], .A t, by simp [Ty.show]⟩
        | cons c it =>
          simp only at h
          split at h
          · simp at h
          · rename_i m hm
            simp at h; subst h
            obtain ⟨h1, h2⟩ := ih1 c it m (by simp at hf; omega) hm he
            refine ⟨fun u hu => ?_, tail_pre [97] h2⟩
            obtain ⟨w, t, hw⟩ := h1 u hu
            exact ⟨w, .A t, by simpa [Ty.show] using hw⟩
      · cases it with
        | nil =>
          simp at h; subst h
          refine ⟨?_, [], rfl⟩
          rintro u ⟨t, rfl⟩
          exact ⟨[], .M t, by simp [Ty.show]⟩
        | cons c it =>
          simp only at h
          split at h
          · simp at h
          · rename_i m hm
            simp at h; subst h
            obtain ⟨h1, h2⟩ := ih1 c it m (by simp at hf; omega) hm he
            refine ⟨fun u hu => ?_, tail_pre [109] h2⟩
            obtain ⟨w, t, hw⟩ := h1 u hu
            exact ⟨w, .M t, by simpa [Ty.show] using hw⟩
      · split at h
        · simp at h
        · rename_i m hm
          simp at h; subst h
          obtain ⟨h1, h2⟩ := ih2 it m (by omega) hm he
          refine ⟨fun u hu => ?_, ?_⟩
          · obtain ⟨w, ts, hw⟩ := h1 u hu
            exact ⟨w, .tuple ts, by simpa [Ty.show] using hw⟩
          · rcases h2 with h2 | ⟨rfl, ts, rfl⟩
            · exact tail_pre [40] h2
            · exact ⟨[], ts, rfl⟩
      · cases it with
        | nil =>
          simp at h; subst h
          refine ⟨?_, [], [], rfl, by simp⟩
          rintro u ⟨t, rfl⟩
          exact ⟨Ty.show .Y ++ [125], .dict t .Y, by simp [Ty.show]⟩
        | cons c it =>
          simp only at h
          split at h
          · rename_i m hm
            simp at h; subst h
            obtain ⟨h1, h2⟩ := ih1 c it m (by simp at hf; omega) hm he
            refine ⟨fun u hu => ?_, tail_pre [123] h2⟩
            obtain ⟨w, t, hw⟩ := h1 u hu
            refine ⟨w ++ Ty.show .Y ++ [125], .dict t .Y, ?_⟩
            simp [Ty.show, ← hw]
          · rename_i k it' hk
            have hk' := parseMsg_sound hk
            have hl := show_append hk'
            split at h
            · simp at h; subst h
              simp at hk'
              refine ⟨?_, [], [k], by simp [Ty.shows, hk'], by simp⟩
              rintro u ⟨t, rfl⟩
              refine ⟨[125], .dict k t, by simp [Ty.show, ← hk']⟩
            · rename_i c2 it2
              split at h
              · rename_i m hm
                simp at h; subst h
                obtain ⟨h1, h2⟩ := ih1 c2 it2 m (by simp at hf hl; omega) hm he
                rw [hk']
                refine ⟨fun u hu => ?_, tail_pre (123 :: k.show) h2⟩
                obtain ⟨w, t, hw⟩ := h1 u hu
                refine ⟨w ++ [125], .dict k t, ?_⟩
                simp [Ty.show, ← hw]
              · rename_i v it3 hv
                have hv' := parseMsg_sound hv
                split at h
                · simp at h; subst h
                  simp at hv'
                  rw [hk', hv']
                  refine ⟨?_, [], [k, v], by simp [Ty.shows], rfl⟩
                  rintro u rfl
                  exact ⟨[], .dict k v, by simp [Ty.show]⟩
                · split at h
                  · simp at h; subst h; simp [isEof] at he
                  · simp at h
    · intro it e hf h he
      cases it with
      | nil =>
        simp [membersMsg] at h; subst h
        refine ⟨?_, .inr ⟨rfl, [], rfl⟩⟩
        rintro u (rfl | ⟨t, rfl⟩)
        · exact ⟨[], [], by simp [Ty.shows]⟩
        · exact ⟨[41], [t], by simp [Ty.shows]⟩
      | cons c it =>
        simp only [membersMsg] at h
        split at h
        · simp at h
        · split at h
          · rename_i m hm
            simp at h; subst h
            obtain ⟨h1, h2⟩ := ih1 c it m (by simp at hf; omega) hm he
            refine ⟨fun u hu => ?_, .inl h2⟩
            obtain ⟨w, t, hw⟩ := h1 u hu
            exact ⟨w ++ [41], [t], by simp [Ty.shows, ← hw]⟩
          · rename_i t it' ht
            have ht' := parseMsg_sound ht
            have hl := show_append ht'
            split at h
            · rename_i m hm
              simp at h; subst h
              obtain ⟨h1, h2⟩ := ih2 it' m (by simp at hf; omega) hm he
              rw [ht']
              refine ⟨fun u hu => ?_, ?_⟩
              · obtain ⟨w, ts, hw⟩ := h1 u hu
                exact ⟨w, t :: ts, by simpa [Ty.shows] using hw⟩
              · rcases h2 with h2 | ⟨rfl, ts, rfl⟩
                · exact .inl (tail_pre _ h2)
                · exact .inr ⟨rfl, t :: ts, rfl⟩
            · simp at h

/-- What the parser answers on a longer text when it gave up with `e`. -/
def Blamed (e : ParseErr) (w : Bytes) (e' : ParseErr) : Prop :=
  (isEof e = false ∧ e' = e) ∨
  (isEof e = true ∧ ∃ ch q, w = ch :: q ∧ (∀ u, ¬ Follows e (ch :: u)) ∧
    e' = if e = .dictEnd then .notBrace else .unexpected)

theorem parse_nonstarter {c} (h : ¬ Starter c) (f : Nat) (it : Bytes) :
    parseMsg f c it = .error .unexpected := by
  cases f with
  | zero => rfl
  | succ f =>
    unfold parseMsg
    split
    all_goals first
      | rfl
      | (refine absurd ?_ h; first
          | exact ⟨.B, _, rfl⟩ | exact ⟨.Y, _, rfl⟩ | exact ⟨.N, _, rfl⟩ | exact ⟨.Q, _, rfl⟩
          | exact ⟨.I, _, rfl⟩ | exact ⟨.U, _, rfl⟩ | exact ⟨.X, _, rfl⟩ | exact ⟨.T, _, rfl⟩
          | exact ⟨.D, _, rfl⟩ | exact ⟨.S, _, rfl⟩ | exact ⟨.O, _, rfl⟩ | exact ⟨.G, _, rfl⟩
          | exact ⟨.V, _, rfl⟩ | exact ⟨.A .Y, _, rfl⟩ | exact ⟨.M .Y, _, rfl⟩
          | exact ⟨.tuple [], _, rfl⟩ | exact ⟨.dict .Y .Y, _, rfl⟩)

/-- Errors do not depend on what comes after the offending byte. -/
theorem parse_ext : ∀ f : Nat,
    (∀ c it e, 2 * it.length + 2 ≤ f → parseMsg f c it = .error e →
      ∀ w e' f', Blamed e w e' → 2 * (it ++ w).length + 2 ≤ f' →
        parseMsg f' c (it ++ w) = .error e') ∧
    (∀ it e, 2 * it.length + 1 ≤ f → membersMsg f it = .error e →
      ∀ w e' f', Blamed e w e' → 2 * (it ++ w).length + 1 ≤ f' →
        membersMsg f' (it ++ w) = .error e') := by
  intro f
  induction f with
  | zero => simp
  | succ f ih =>
    obtain ⟨ih1, ih2⟩ := ih
    constructor
    · intro c it e hf h w e' f' hb hf'
      obtain ⟨g, rfl⟩ : ∃ g, f' = g + 1 := ⟨f' - 1, by omega⟩
      unfold parseMsg at h
      split at h
      all_goals first
        | (simp at h; done)
        | skip
      · cases it with
        | nil =>
          simp at h; subst h
          rcases hb with ⟨h', _⟩ | ⟨_, ch, q, rfl, hn, rfl⟩
          · simp [isEof] at h'
          · have : ¬ Starter ch := fun ⟨t, u, hu⟩ => hn u ⟨t, hu.symm⟩
            simp [parseMsg, parse_nonstarter this]
        | cons c it =>
          simp only at h
          split at h
          · simp at h
          · rename_i m hm
            simp at h; subst h
            have := ih1 c it m (by simp at hf; omega) hm w e' g hb (by simp at hf' ⊢; omega)
            simp [parseMsg, this]
      · cases it with
        | nil =>
          simp at h; subst h
          rcases hb with ⟨h', _⟩ | ⟨_, ch, q, rfl, hn, rfl⟩
          · simp [isEof] at h'
          · have : ¬ Starter ch := fun ⟨t, u, hu⟩ => hn u ⟨t, hu.symm⟩
            simp [parseMsg, parse_nonstarter this]
        | cons c it =>
          simp only at h
          split at h
          · simp at h
          · rename_i m hm
            simp at h; subst h
            have := ih1 c it m (by simp at hf; omega) hm w e' g hb (by simp at hf' ⊢; omega)
            simp [parseMsg, this]
      · split at h
        · simp at h
        · rename_i m hm
          simp at h; subst h
          have := ih2 it m (by omega) hm w e' g hb (by omega)
          simp [parseMsg, this]
      · cases it with
        | nil =>
          simp at h; subst h
          rcases hb with ⟨h', _⟩ | ⟨_, ch, q, rfl, hn, rfl⟩
          · simp [isEof] at h'
          · have : ¬ Starter ch := fun ⟨t, u, hu⟩ => hn u ⟨t, hu.symm⟩
            simp [parseMsg, parse_nonstarter this]
        | cons c it =>
          simp only at h
          split at h
          · rename_i m hm
            simp at h; subst h
            have := ih1 c it m (by simp at hf; omega) hm w e' g hb (by simp at hf' ⊢; omega)
            simp [parseMsg, this]
          · rename_i k it' hk
            have hk' := parseMsg_sound hk
            have hl := show_append hk'
            have hkw : parseMsg g c (it ++ w) = .ok (k, it' ++ w) := by
              apply parseMsg_complete
              · have := congrArg List.length hk'
                simp at this hf'; omega
              · rw [← List.append_assoc, ← hk']; rfl
            split at h
            · simp at h; subst h
              rcases hb with ⟨h', _⟩ | ⟨_, ch, q, rfl, hn, rfl⟩
              · simp [isEof] at h'
              · have : ¬ Starter ch := fun ⟨t, u, hu⟩ => hn u ⟨t, hu.symm⟩
                simp [parseMsg, hkw, parse_nonstarter this]
            · rename_i c2 it2
              split at h
              · rename_i m hm
                simp at h; subst h
                have := ih1 c2 it2 m (by simp at hf hl; omega) hm w e' g hb
                  (by simp at hf' hl ⊢; omega)
                simp [parseMsg, hkw, this]
              · rename_i v it3 hv
                have hv' := parseMsg_sound hv
                have hvw : parseMsg g c2 (it2 ++ w) = .ok (v, it3 ++ w) := by
                  apply parseMsg_complete
                  · have := congrArg List.length hv'
                    simp at this hf' hl; omega
                  · rw [← List.append_assoc, ← hv']; rfl
                split at h
                · simp at h; subst h
                  rcases hb with ⟨h', _⟩ | ⟨_, ch, q, rfl, hn, rfl⟩
                  · simp [isEof] at h'
                  · have : ch ≠ 125 := fun hc => hn [] (by simp [Follows, hc])
                    simp [parseMsg, hkw, hvw, this]
                · split at h
                  · rename_i hc
                    simp at h; subst h
                    rcases hb with ⟨_, rfl⟩ | ⟨h', _⟩
                    · simp [parseMsg, hkw, hvw, hc]
                    · simp [isEof] at h'
                  · simp at h
      · simp at h; subst h
        rcases hb with ⟨_, rfl⟩ | ⟨h', _⟩
        · unfold parseMsg
          split <;> first | rfl | simp_all
        · simp [isEof] at h'
    · intro it e hf h w e' f' hb hf'
      obtain ⟨g, rfl⟩ : ∃ g, f' = g + 1 := ⟨f' - 1, by omega⟩
      cases it with
      | nil =>
        simp [membersMsg] at h; subst h
        rcases hb with ⟨h', _⟩ | ⟨_, ch, q, rfl, hn, rfl⟩
        · simp [isEof] at h'
        · have h1 : ¬ Starter ch := fun ⟨t, u, hu⟩ => hn u (.inr ⟨t, hu.symm⟩)
          have h2 : ch ≠ 41 := fun hc => hn [] (by simp [Follows, hc])
          simp [membersMsg, h2, parse_nonstarter h1]
      | cons c it =>
        simp only [membersMsg] at h
        split at h
        · simp at h
        · rename_i hc
          split at h
          · rename_i m hm
            simp at h; subst h
            have := ih1 c it m (by simp at hf; omega) hm w e' g hb (by simp at hf' ⊢; omega)
            simp [membersMsg, hc, this]
          · rename_i t it' ht
            have ht' := parseMsg_sound ht
            have hl := show_append ht'
            have htw : parseMsg g c (it ++ w) = .ok (t, it' ++ w) := by
              apply parseMsg_complete
              · have := congrArg List.length ht'
                simp at this hf'; omega
              · rw [← List.append_assoc, ← ht']; rfl
            split at h
            · rename_i m hm
              simp at h; subst h
              have := ih2 it' m (by simp at hf; omega) hm w e' g hb (by simp at hf' ⊢; omega)
              simp [membersMsg, hc, htw, this]
            · simp at h

/- whole type strings -/

theorem oneMsg_ok (s : Bytes) (t : Ty) : oneMsg s = .ok t ↔ s = t.show := by
  constructor
  · intro h
    cases s with
    | nil => simp [oneMsg] at h
    | cons c it =>
      simp only [oneMsg] at h
      split at h
      · simp at h
      · simp at h
      · rename_i heq
        simp at h; subst h
        simpa using parseMsg_sound heq
  · rintro rfl
    obtain ⟨c, tl, hs, _⟩ := show_head t
    have := parseMsg_complete t (2 * t.show.length) c tl [] (by omega) (by simp [hs])
    rw [hs] at this
    simp only [oneMsg, hs, this]

theorem parse_kinds : ∀ f : Nat,
    (∀ c it e, parseMsg f c it = .error e → e ≠ .empty ∧ e ≠ .more) ∧
    (∀ it e, membersMsg f it = .error e → e ≠ .empty ∧ e ≠ .more) := by
  intro f
  induction f with
  | zero =>
    constructor
    · intro c it e h; simp [parseMsg] at h; subst h; simp
    · intro it e h; simp [membersMsg] at h; subst h; simp
  | succ f ih =>
    obtain ⟨ih1, ih2⟩ := ih
    constructor
    · intro c it e h
      unfold parseMsg at h
      repeat' split at h
      all_goals first
        | (simp at h; done)
        | (simp at h; subst h; simp; done)
        | (rename_i heq; simp at h; subst h; first | exact ih1 _ _ _ heq | exact ih2 _ _ heq)
    · intro it e h
      cases it with
      | nil => simp [membersMsg] at h; subst h; simp
      | cons c it =>
        simp only [membersMsg] at h
        repeat' split at h
        all_goals first
          | (simp at h; done)
          | (rename_i heq; simp at h; subst h; first | exact ih1 _ _ _ heq | exact ih2 _ _ heq)

theorem oneMsg_empty (s : Bytes) : oneMsg s = .error .empty ↔ s = [] := by
  constructor
  · intro h
    cases s with
    | nil => rfl
    | cons c it =>
      simp only [oneMsg] at h
      split at h
      · rename_i m heq
        simp at h; subst h
        exact absurd rfl ((parse_kinds _).1 _ _ _ heq).1
      · simp at h
      · simp at h
  · rintro rfl; rfl

theorem oneMsg_more (s : Bytes) :
    oneMsg s = .error .more ↔ ∃ t rest, s = Ty.show t ++ rest ∧ rest ≠ [] := by
  constructor
  · intro h
    cases s with
    | nil => simp [oneMsg] at h
    | cons c it =>
      simp only [oneMsg] at h
      split at h
      · rename_i m heq
        simp at h; subst h
        exact absurd rfl ((parse_kinds _).1 _ _ _ heq).2
      · rename_i t x xs heq
        exact ⟨t, x :: xs, parseMsg_sound heq, by simp⟩
      · simp at h
  · rintro ⟨t, rest, rfl, hr⟩
    obtain ⟨c, tl, hs, _⟩ := show_head t
    obtain ⟨x, xs, rfl⟩ : ∃ x xs, rest = x :: xs := by
      cases rest with
      | nil => simp at hr
      | cons x xs => exact ⟨x, xs, rfl⟩
    have := parseMsg_complete t (2 * (t.show ++ x :: xs).length) c (tl ++ x :: xs) (x :: xs)
      (by simp; omega) (by simp [hs])
    simp only [hs, List.cons_append] at this ⊢
    simp only [oneMsg, this]

theorem oneMsg_parse {s e} (h : oneMsg s = .error e) (h1 : e ≠ .empty) (h2 : e ≠ .more) :
    ∃ c it, s = c :: it ∧ parseMsg (2 * s.length) c it = .error e := by
  cases s with
  | nil => simp [oneMsg] at h; exact absurd h.symm h1
  | cons c it =>
    simp only [oneMsg] at h
    split at h
    · rename_i m heq
      simp at h; subst h
      exact ⟨c, it, rfl, heq⟩
    · simp at h; exact absurd h.symm h2
    · simp at h

theorem eof_ne {e} (h : isEof e = true) : e ≠ .empty ∧ e ≠ .more := by
  constructor <;> rintro rfl <;> simp [isEof] at h

theorem oneMsg_eof {s e} (h : oneMsg s = .error e) (he : isEof e = true) :
    (∀ u, Follows e u → ∃ w t, s ++ u ++ w = Ty.show t) ∧ Tail e s := by
  obtain ⟨c, it, rfl, hp⟩ := oneMsg_parse h (eof_ne he).1 (eof_ne he).2
  exact (eof_tail _).1 c it e (by simp; omega) hp he

theorem oneMsg_ext {s e w e'} (h : oneMsg s = .error e) (h1 : e ≠ .empty) (h2 : e ≠ .more)
    (hb : Blamed e w e') : oneMsg (s ++ w) = .error e' := by
  obtain ⟨c, it, rfl, hp⟩ := oneMsg_parse h h1 h2
  have := (parse_ext _).1 c it e (by simp; omega) hp w e' (2 * (c :: it ++ w).length) hb
    (by simp; omega)
  simp only [List.cons_append] at this ⊢
  simp only [oneMsg, this]

theorem follows_exists {e} (h : isEof e = true) : ∃ u, Follows e u := by
  cases e <;> simp [isEof] at h
  · exact ⟨_, .Y, rfl⟩
  · exact ⟨_, .Y, rfl⟩
  · exact ⟨_, .inl rfl⟩
  · exact ⟨_, .Y, rfl⟩
  · exact ⟨_, rfl⟩

/- brackets -/

/-- what a byte adds to the number of open brackets -/
def lift : UInt8 → Int
  | 40 => 1
  | 123 => 1
  | 41 => -1
  | 125 => -1
  | _ => 0

/-- opened minus closed -/
def bal : Bytes → Int
  | [] => 0
  | c :: s => lift c + bal s

/-- no suffix opens more than it closes -/
def Shut : Bytes → Prop
  | [] => True
  | c :: s => bal (c :: s) ≤ 0 ∧ Shut s

theorem bal_append (a b : Bytes) : bal (a ++ b) = bal a + bal b := by
  induction a with
  | nil => simp [bal]
  | cons c a ih => simp [bal, ih]; omega

theorem shut_append {a b : Bytes} (ha : Shut a) (hb : Shut b) (h : bal b ≤ 0) : Shut (a ++ b) := by
  induction a with
  | nil => exact hb
  | cons c a ih =>
    refine ⟨?_, ih ha.2⟩
    have := ha.1
    show bal ((c :: a) ++ b) ≤ 0
    rw [bal_append]; omega

theorem shut_suffix {a b : Bytes} (h : Shut (a ++ b)) : bal b ≤ 0 := by
  induction a with
  | nil =>
    cases b with
    | nil => simp [bal]
    | cons c b => exact h.1
  | cons c a ih => exact ih h.2

theorem show_bal (t : Ty) : bal t.show = 0 ∧ Shut t.show := by
  induction t using Ty.ind with
  | a e ih => simp [Ty.show, bal, Shut, lift, ih]
  | m e ih => simp [Ty.show, bal, Shut, lift, ih]
  | tuple ts ih =>
    have key : ∀ us : List Ty, (∀ e ∈ us, e ∈ ts) → bal (Ty.shows us) = 0 ∧ Shut (Ty.shows us) := by
      intro us
      induction us with
      | nil => intro _; simp [Ty.shows, bal, Shut]
      | cons e us ihu =>
        intro hs
        have h1 := ih e (hs e (by simp))
        have h2 := ihu fun x hx => hs x (by simp [hx])
        simp only [Ty.shows]
        exact ⟨by rw [bal_append]; omega, shut_append h1.2 h2.2 (by omega)⟩
    have h := key ts fun _ h => h
    have hb : bal (40 :: (Ty.shows ts ++ [41])) = 0 := by
      simp [bal, bal_append, h.1, lift]
    refine ⟨hb, by omega, ?_⟩
    exact shut_append h.2 (by simp [Shut, bal, lift]) (by simp [bal, lift])
  | dict k v ihk ihv =>
    have hb : bal (123 :: (k.show ++ v.show ++ [125])) = 0 := by
      simp [bal, bal_append, ihk.1, ihv.1, lift]
    refine ⟨hb, by omega, ?_⟩
    exact shut_append (shut_append ihk.2 ihv.2 (by omega)) (by simp [Shut, bal, lift])
      (by simp [bal, lift])
  | _ => simp [Ty.show, bal, Shut, lift]

theorem shows_bal (ts : List Ty) : bal (Ty.shows ts) = 0 ∧ Shut (Ty.shows ts) := by
  induction ts with
  | nil => simp [Ty.shows, bal, Shut]
  | cons t ts ih =>
    have h := show_bal t
    simp only [Ty.shows]
    exact ⟨by rw [bal_append]; omega, shut_append h.2 ih.2 (by omega)⟩

theorem show_last (t : Ty) : ∃ p c, t.show = p ++ [c] ∧ c ≠ 97 ∧ c ≠ 109 ∧ c ≠ 40 ∧ c ≠ 123 := by
  induction t using Ty.ind with
  | a e ih => obtain ⟨p, c, h, h'⟩ := ih; exact ⟨97 :: p, c, by simp [Ty.show, h], h'⟩
  | m e ih => obtain ⟨p, c, h, h'⟩ := ih; exact ⟨109 :: p, c, by simp [Ty.show, h], h'⟩
  | tuple ts ih => exact ⟨40 :: Ty.shows ts, 41, by simp [Ty.show], by decide⟩
  | dict k v _ _ => exact ⟨123 :: (k.show ++ v.show), 125, by simp [Ty.show], by decide⟩
  | _ => exact ⟨[], _, by simp only [Ty.show, List.nil_append]; rfl, by decide⟩

theorem shows_last (ts : List Ty) (h : ts ≠ []) :
    ∃ p c, Ty.shows ts = p ++ [c] ∧ c ≠ 97 ∧ c ≠ 109 := by
  induction ts with
  | nil => simp at h
  | cons t ts ih =>
    cases ts with
    | nil =>
      obtain ⟨p, c, hp, h1, h2, _⟩ := show_last t
      exact ⟨p, c, by simp [Ty.shows, hp], h1, h2⟩
    | cons u us =>
      obtain ⟨p, c, hp, h'⟩ := ih (by simp)
      rw [Ty.shows, hp]
      exact ⟨t.show ++ p, c, by simp, h'⟩

/-- the last byte of an opening bracket followed by whole types -/
theorem open_last (p : Bytes) (b : UInt8) (ts : List Ty) (q : Bytes) (x : UInt8)
    (h : p ++ b :: Ty.shows ts = q ++ [x]) : x = b ∨ x ≠ 97 ∧ x ≠ 109 := by
  cases ts with
  | nil =>
    simp only [Ty.shows] at h
    left
    have := congrArg List.getLast? h
    simpa using this.symm
  | cons t ts =>
    obtain ⟨p', c, hp, h1, h2⟩ := shows_last (t :: ts) (by simp)
    right
    rw [hp] at h
    have := congrArg List.getLast? h
    have : c = x := by
      simpa [List.getLast?_append, List.getLast?_cons] using this
    subst this; exact ⟨h1, h2⟩

/-- the innermost open bracket is determined -/
theorem open_unique {p p' : Bytes} {b b' : UInt8} {ts ts' : List Ty} (hb : lift b = 1)
    (hb' : lift b' = 1) (h : p ++ b :: Ty.shows ts = p' ++ b' :: Ty.shows ts') :
    b = b' ∧ ts = ts' := by
  have key : ∀ {b b' : UInt8} {as : Bytes} {ts ts' : List Ty}, lift b' = 1 →
      b :: Ty.shows ts = as ++ b' :: Ty.shows ts' → b = b' ∧ ts = ts' := by
    intro b b' as ts ts' hb' h
    cases as with
    | nil =>
      simp at h
      refine ⟨h.1, ?_⟩
      have : Ty.show (.tuple ts) = Ty.show (.tuple ts') := by simp [Ty.show, h.2]
      have h1 := (one_eq_some_iff _ _).2 this
      rw [(one_eq_some_iff _ (.tuple ts)).2 rfl] at h1
      simpa using h1
    | cons a as =>
      simp at h
      have h1 := (shows_bal ts).2
      rw [h.2] at h1
      have h2 := shut_suffix h1
      simp [bal, hb', (shows_bal ts').1] at h2
  rcases List.append_eq_append_iff.1 h with ⟨as, _, h2⟩ | ⟨as, _, h2⟩
  · exact key hb' h2
  · obtain ⟨h3, h4⟩ := key hb h2
    exact ⟨h3.symm, h4.symm⟩

theorem tail_unique {e e' s} (h : Tail e s) (h' : Tail e' s) : e = e' := by
  cases e <;> simp only [Tail] at h <;> cases e' <;> simp only [Tail] at h'
  all_goals first
    | rfl
    | (exfalso
       obtain ⟨p, h⟩ := h
       obtain ⟨q, h'⟩ := h'
       rw [h] at h'
       have := congrArg List.getLast? h'
       simp at this; done)
    | (exfalso
       obtain ⟨p, rfl⟩ := h
       obtain ⟨q, ts, h'⟩ := h'
       have := open_last _ _ _ _ _ h'.symm
       revert this; decide)
    | (exfalso
       obtain ⟨p, rfl⟩ := h
       obtain ⟨q, ts, h', _⟩ := h'
       have := open_last _ _ _ _ _ h'.symm
       revert this; decide)
    | (exfalso
       obtain ⟨p, rfl⟩ := h'
       obtain ⟨q, ts, h⟩ := h
       have := open_last _ _ _ _ _ h.symm
       revert this; decide)
    | (exfalso
       obtain ⟨p, rfl⟩ := h'
       obtain ⟨q, ts, h, _⟩ := h
       have := open_last _ _ _ _ _ h.symm
       revert this; decide)
    | (exfalso
       obtain ⟨p, ts, rfl⟩ := h
       obtain ⟨q, ts', h', _⟩ := h'
       have := (open_unique (by rfl) (by rfl) h').1
       revert this; decide)
    | (exfalso
       obtain ⟨p, ts, rfl, _⟩ := h
       obtain ⟨q, ts', h'⟩ := h'
       have := (open_unique (by rfl) (by rfl) h').1
       revert this; decide)
    | (exfalso
       obtain ⟨p, ts, rfl, _⟩ := h
       obtain ⟨q, ts', h', _⟩ := h'
       have := (open_unique (by rfl) (by rfl) h').2
       subst this; omega)

theorem tail_incomplete {e s} (h : Tail e s) (t : Ty) : s ≠ t.show := by
  rintro rfl
  obtain ⟨p, c, hs, h1, h2, _⟩ := show_last t
  have hb := (show_bal t).2
  cases e <;> simp only [Tail] at h
  · obtain ⟨q, h⟩ := h
    rw [hs] at h
    have := congrArg List.getLast? h
    simp at this; exact h1 this
  · obtain ⟨q, h⟩ := h
    rw [hs] at h
    have := congrArg List.getLast? h
    simp at this; exact h2 this
  · obtain ⟨q, ts, h⟩ := h
    rw [h] at hb
    have := shut_suffix hb
    simp [bal, lift, (shows_bal ts).1] at this
  · obtain ⟨q, ts, h, _⟩ := h
    rw [h] at hb
    have := shut_suffix hb
    simp [bal, lift, (shows_bal ts).1] at this
  · obtain ⟨q, ts, h, _⟩ := h
    rw [h] at hb
    have := shut_suffix hb
    simp [bal, lift, (shows_bal ts).1] at this

/- the specification -/

theorem shows_derivesAll (ts : List Ty) : DerivesAll (Ty.shows ts) ts := by
  induction ts with
  | nil => exact .nil
  | cons t ts ih => exact .cons (show_derives t) ih

theorem complete_iff (s : Bytes) : Complete s ↔ ∃ t, s = Ty.show t :=
  ⟨fun ⟨t, h⟩ => ⟨t, derives_show _ _ h⟩, fun ⟨t, h⟩ => ⟨t, h ▸ show_derives t⟩⟩

theorem viable_iff (s : Bytes) : Viable s ↔ ∃ w t, s ++ w = Ty.show t :=
  ⟨fun ⟨w, t, h⟩ => ⟨w, t, derives_show _ _ h⟩, fun ⟨w, t, h⟩ => ⟨w, t, h ▸ show_derives t⟩⟩

theorem opens_iff (b : Char) (n : Nat) (s : Bytes) :
    Opens b n s ↔ ∃ p ts, s = p ++ ch b :: Ty.shows ts ∧ ts.length = n := by
  constructor
  · rintro ⟨p, w, ts, rfl, h, hn⟩
    exact ⟨p, ts, by rw [derivesAll_shows _ _ h], hn⟩
  · rintro ⟨p, ts, rfl, hn⟩
    exact ⟨p, _, ts, rfl, shows_derivesAll ts, hn⟩

/-- a text that can be completed and is not complete: the parser runs out of bytes -/
theorem viable_eof {s} (h : Viable s) (hc : ¬ Complete s) :
    ∃ e, oneMsg s = .error e ∧ (isEof e = true ∨ e = .empty) := by
  obtain ⟨w, t, hw⟩ := (viable_iff s).1 h
  have hok := (oneMsg_ok (s ++ w) t).2 hw
  cases ho : oneMsg s with
  | ok t => exact absurd ((complete_iff s).2 ⟨t, (oneMsg_ok s t).1 ho⟩) hc
  | error e =>
    refine ⟨e, rfl, ?_⟩
    by_cases he : isEof e = true
    · exact .inl he
    · by_cases h1 : e = .empty
      · exact .inr h1
      · by_cases h2 : e = .more
        · subst h2
          obtain ⟨t', rest, rfl, hr⟩ := (oneMsg_more s).1 ho
          have := (oneMsg_more (Ty.show t' ++ rest ++ w)).2 ⟨t', rest ++ w, by simp, by simp [hr]⟩
          rw [hok] at this; simp at this
        · have := oneMsg_ext ho h1 h2 (w := w) (e' := e) (.inl ⟨by simpa using he, rfl⟩)
          rw [hok] at this; simp at this

theorem eof_viable {s e} (h : oneMsg s = .error e) (he : isEof e = true ∨ e = .empty) :
    Viable s ∧ ¬ Complete s := by
  constructor
  · rcases he with he | rfl
    · obtain ⟨u, hu⟩ := follows_exists he
      obtain ⟨w, t, hw⟩ := (oneMsg_eof h he).1 u hu
      exact (viable_iff s).2 ⟨u ++ w, t, by rw [← List.append_assoc, hw]⟩
    · rw [(oneMsg_empty s).1 h]
      exact (viable_iff []).2 ⟨_, .Y, rfl⟩
  · rw [complete_iff]
    rintro ⟨t, ht⟩
    rw [(oneMsg_ok s t).2 ht] at h; simp at h

/-- which one, from how the text ends -/
theorem viable_tail {s e} (h : Viable s) (ht : Tail e s) : oneMsg s = .error e := by
  have hc : ¬ Complete s := by
    rw [complete_iff]; rintro ⟨t, hs⟩; exact tail_incomplete ht t hs
  obtain ⟨e', he', hk⟩ := viable_eof h hc
  rcases hk with hk | rfl
  · rw [he', tail_unique ht (oneMsg_eof he' hk).2]
  · have := (oneMsg_empty s).1 he'
    subst this
    cases e <;> simp [Tail] at ht

theorem tail_eof {e s} (h : Tail e s) : isEof e = true := by
  cases e <;> simp [Tail] at h <;> rfl

theorem eof_exact (s : Bytes) (e : ParseErr) (he : isEof e = true) :
    oneMsg s = .error e ↔ Viable s ∧ Tail e s :=
  ⟨fun h => ⟨(eof_viable h (.inl he)).1, (oneMsg_eof h he).2⟩, fun h => viable_tail h.1 h.2⟩

/-- the longest beginning that can be completed -/
theorem longest {s : Bytes} (h : ¬ Viable s) :
    ∃ p c q, s = p ++ c :: q ∧ Viable p ∧ ¬ Viable (p ++ [c]) := by
  have key : ∀ (q p : Bytes), Viable p → ¬ Viable (p ++ q) →
      ∃ p' c q', p ++ q = p' ++ c :: q' ∧ Viable p' ∧ ¬ Viable (p' ++ [c]) := by
    intro q
    induction q with
    | nil => intro p h1 h2; simp at h2; exact absurd h1 h2
    | cons c q ih =>
      intro p h1 h2
      by_cases hv : Viable (p ++ [c])
      · obtain ⟨p', c', q', h3, h4⟩ := ih (p ++ [c]) hv (by simpa using h2)
        exact ⟨p', c', q', by simpa using h3, h4⟩
      · exact ⟨p, c, q, rfl, h1, hv⟩
  exact key s [] ((viable_iff []).2 ⟨_, .Y, rfl⟩) h

/-- The parser on a text that cannot be completed. -/
theorem oneMsg_stuck {p : Bytes} {c : UInt8} (h : Viable p) (hc : ¬ Complete p)
    (hn : ¬ Viable (p ++ [c])) : ∃ e, oneMsg p = .error e ∧ ∀ q, oneMsg (p ++ c :: q) =
      .error (if e = .dictEnd then .notBrace else .unexpected) := by
  obtain ⟨e, he, hk⟩ := viable_eof h hc
  refine ⟨e, he, fun q => ?_⟩
  rcases hk with hk | rfl
  · have hf : ∀ u, ¬ Follows e (c :: u) := by
      intro u hu
      obtain ⟨w, t, hw⟩ := (oneMsg_eof he hk).1 _ hu
      exact hn ((viable_iff _).2 ⟨u ++ w, t, by rw [← hw]; simp⟩)
    rw [oneMsg_ext he (eof_ne hk).1 (eof_ne hk).2 (.inr ⟨hk, c, q, rfl, hf, rfl⟩)]
  · have := (oneMsg_empty p).1 he
    subst this
    have hs : ¬ Starter c := by
      rintro ⟨t, u, hu⟩
      exact hn ((viable_iff _).2 ⟨u, t, by simp [hu]⟩)
    simp [oneMsg, parse_nonstarter hs]

/-- a rejection that is not for want of bytes and not for too many -/
theorem stuck_exists {s e} (h : oneMsg s = .error e) (he : e = .notBrace ∨ e = .unexpected) :
    ∃ p c q, s = p ++ c :: q ∧ Viable p ∧ ¬ Complete p ∧ ¬ Viable (p ++ [c]) := by
  have hv : ¬ Viable s := by
    intro hv
    by_cases hc : Complete s
    · obtain ⟨t, ht⟩ := (complete_iff s).1 hc
      rw [(oneMsg_ok s t).2 ht] at h; simp at h
    · obtain ⟨e', he', hk⟩ := viable_eof hv hc
      rw [h] at he'
      simp at he'; subst he'
      rcases he with rfl | rfl <;> simp [isEof] at hk
  obtain ⟨p, c, q, hs, h1, h2⟩ := longest hv
  refine ⟨p, c, q, hs, h1, ?_, h2⟩
  rw [complete_iff]
  rintro ⟨t, rfl⟩
  rw [(oneMsg_more s).2 ⟨t, c :: q, hs, by simp⟩] at h
  simp at h
  rcases he with rfl | rfl <;> simp at h

end GV
