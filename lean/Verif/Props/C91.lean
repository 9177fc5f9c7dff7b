import Verif.Proofs.Sink
import Verif.Props.C57_C58
import Verif.Props.C20_C25
/-
C91: printing into sinks that may refuse, and into `GString`.
-/
namespace GV.Props
open GV Spec

/-- The calls `{:?}` makes do not depend on the sink, and stop when it refuses one.  Their text is the value that
    reading gives; they end in a panic exactly if reading does. -/
theorem c91_calls (C : CoreCalls) (c : Cfg) (t : Ty) (s : Slice) : ∃ calls e,
    (∀ (σ : Type) (w : TextSink σ) (st : σ), debugAsTo C c w t s st = feed w calls e st) ∧
    (Printable C → ∀ x ∈ calls, Text x) ∧
    (∀ v, readAs c t s = .ok v → e = none ∧ calls.flatten = print C.text t v) ∧
    ((∃ f, readAs c t s = .fail f) → ∃ f, e = some f) := by
  obtain ⟨calls, e, h1, h2, h3, h4⟩ := shows_after (r := fromAligned c t s) fun r => debug_shows C c t r
  refine ⟨calls, e, h1, h2, fun v hv => h3 _ ((c57_value C.text c t s _).2 ⟨v, hv, rfl⟩), fun hf => ?_⟩
  obtain ⟨f, hf⟩ := (c57_faults C.text c t s).2 hf
  exact ⟨f, h4 f hf⟩

theorem feed_taking (calls : List Bytes) : ∀ st : Bytes,
    feed (fun st x => (st ++ x, true)) calls none st = (st ++ calls.flatten, .ok true) := by
  induction calls with
  | nil => intro st; simp [feed]
  | cons x xs ih => intro st; simp [feed, ih]

/-- A sink that takes everything, such as `String`, gets the text of the value. -/
theorem c91_string (C : CoreCalls) (c : Cfg) (t : Ty) (s : Slice) (v : Val) (st : Bytes) (hv : readAs c t s = .ok v) :
    debugAsTo C c (fun st x => (st ++ x, true)) t s st = (st ++ print C.text t v, .ok true) := by
  obtain ⟨calls, e, h1, _, h3, _⟩ := c91_calls C c t s
  obtain ⟨rfl, ht⟩ := h3 v hv
  rw [h1, feed_taking, ht]

theorem feed_room (n : Nat) (calls : List Bytes) : ∀ st : Bytes, st.length ≤ n →
    ∃ got, feed (roomFor n) calls none st = (st ++ got, .ok (decide ((st ++ calls.flatten).length ≤ n))) ∧
      got <+: calls.flatten ∧ (st ++ got).length ≤ n ∧ ((st ++ calls.flatten).length ≤ n → got = calls.flatten) := by
  induction calls with
  | nil => intro st h; exact ⟨[], by simp [feed, h], by simp, by simpa using h, by simp⟩
  | cons x xs ih =>
    intro st h
    by_cases hx : st.length + x.length ≤ n
    · obtain ⟨got, g1, g2, g3, g4⟩ := ih (st ++ x) (by simpa using hx)
      refine ⟨x ++ got, ?_, ?_, by simpa using g3, fun hn => ?_⟩
      · have hw : roomFor n st x = (st ++ x, true) := by simp [roomFor, hx]
        simp only [feed, hw, g1]
        simp [Nat.add_assoc]
      · rw [List.flatten_cons]; exact (List.prefix_append_right_inj x).2 g2
      · rw [List.flatten_cons, g4 (by simpa [Nat.add_assoc] using hn)]
    · have hw : roomFor n st x = (st, false) := by simp [roomFor, hx]
      refine ⟨[], ?_, by simp, by simpa using h, fun hn => ?_⟩
      · simp only [feed, hw, List.append_nil, List.flatten_cons, List.length_append]
        rw [decide_eq_false (by omega)]
      · simp at hn; omega

/-- A sink with little room gets a beginning of the text, never more than fits; the result is `Ok` exactly if all
    of the text fits, and then the text is there. -/
theorem c91_room (C : CoreCalls) (c : Cfg) (t : Ty) (s : Slice) (v : Val) (n : Nat) (hv : readAs c t s = .ok v) :
    ∃ got, debugAsTo C c (roomFor n) t s [] = (got, .ok (decide ((print C.text t v).length ≤ n))) ∧
      got <+: print C.text t v ∧ got.length ≤ n ∧ ((print C.text t v).length ≤ n → got = print C.text t v) := by
  obtain ⟨calls, e, h1, _, h3, _⟩ := c91_calls C c t s
  obtain ⟨rfl, ht⟩ := h3 v hv
  obtain ⟨got, g1, g2, g3, g4⟩ := feed_room n calls [] (by simp)
  rw [ht] at g1 g2 g4
  exact ⟨got, by rw [h1]; simpa using g1, g2, by simpa using g3, by simpa using g4⟩

/-- `write!` of anything into a `GString`: the pieces before the first one with a NUL are appended, and the result
    is `Ok` exactly if there is no such piece.  The string stays one. -/
theorem c91_gstring_any (extra : Nat → Nat) (calls : List Bytes) (hu : ∀ x ∈ calls, Utf8 x) : ∀ (g : GString) (t : Bytes),
    GInv g t → ∃ g', feed (GString.sink extra) calls none g = (g', .ok (decide (∀ x ∈ calls, (0 : UInt8) ∉ x))) ∧
      GInv g' (t ++ (calls.takeWhile fun x => !x.contains 0).flatten) := by
  induction calls with
  | nil => intro g t hg; exact ⟨g, by simp [feed], by simpa using hg⟩
  | cons x xs ih =>
    intro g t hg
    obtain ⟨g1, ok, h1, h2, h3⟩ := gstep_inv (extra := extra) (op := .push x) hg (hu x (by simp)) nofun
    simp only [gstep, Res.ok.injEq] at h1
    have hw : GString.sink extra g x = (g1, ok) := h1
    by_cases h0 : (0 : UInt8) ∈ x
    · have hok : ok = false := h3.2 ⟨x, rfl, h0⟩
      subst hok
      refine ⟨g1, ?_, ?_⟩
      · simp only [feed, hw]
        rw [decide_eq_false]
        intro h; exact h x (by simp) h0
      · simp only [StrOp.onText, if_pos h0] at h2
        rw [List.takeWhile_cons_of_neg (by simp [h0])]
        simpa using h2
    · have hok : ok = true := by
        cases ok with
        | true => rfl
        | false => obtain ⟨y, hy, hz⟩ := h3.1 rfl; cases hy; exact absurd hz h0
      subst hok
      simp only [StrOp.onText, if_neg h0] at h2
      obtain ⟨g', k1, k2⟩ := ih (fun y hy => hu y (by simp [hy])) g1 (t ++ x) h2
      refine ⟨g', ?_, ?_⟩
      · simp only [feed, hw, k1]
        simp [h0]
      · rw [List.takeWhile_cons_of_pos (by simp [h0])]
        simpa using k2

theorem takeWhile_all {α : Type} {p : α → Bool} : ∀ {l : List α}, (∀ x ∈ l, p x = true) → l.takeWhile p = l
  | [], _ => rfl
  | x :: l, h => by
    rw [List.takeWhile_cons_of_pos (h x (by simp)), takeWhile_all fun y hy => h y (by simp [hy])]

/-- `write!(g, "{:?}", value)` into a `GString` always succeeds, whatever the data, and appends the text of the
    value. -/
theorem c91_gstring (C : CoreCalls) (hC : Printable C) (c : Cfg) (t : Ty) (s : Slice) (v : Val) (extra : Nat → Nat)
    (g : GString) (old : Bytes) (hg : GInv g old) (hv : readAs c t s = .ok v) :
    ∃ g', debugAsTo C c (GString.sink extra) t s g = (g', .ok true) ∧ GInv g' (old ++ print C.text t v) := by
  obtain ⟨calls, e, h1, h2, h3, _⟩ := c91_calls C c t s
  obtain ⟨rfl, ht⟩ := h3 v hv
  obtain ⟨g', k1, k2⟩ := c91_gstring_any extra calls (fun x hx => (h2 hC x hx).1) g old hg
  refine ⟨g', ?_, ?_⟩
  · rw [h1, k1, decide_eq_true fun x hx => (h2 hC x hx).2]
  · have : (calls.takeWhile fun x => !x.contains 0) = calls := by
      exact takeWhile_all fun x hx => by simp [(h2 hC x hx).2]
    rw [this, ht] at k2
    exact k2

/-- `write!(g, "{}", string)` with a string read from any data always succeeds and appends its text. -/
theorem c91_display (c : Cfg) (s : Slice) (extra : Nat → Nat) (g : GString) (old : Bytes) (hg : GInv g old) :
    ∃ g' x, view c .S s = .ok (.str x) ∧ displayStrTo (GString.sink extra) s g = (g', .ok true) ∧ GInv g' (old ++ x) := by
  obtain ⟨g1, ok, h1, h2, h3⟩ := gstep_inv (extra := extra) (op := .push (toStr s.bytes)) hg (toStr_is_text _).1 nofun
  simp only [gstep, Res.ok.injEq] at h1
  have h0 := (toStr_is_text s.bytes).2
  have hok : ok = true := by
    cases ok with
    | true => rfl
    | false => obtain ⟨y, hy, hz⟩ := h3.1 rfl; cases hy; exact absurd hz h0
  subst hok
  simp only [StrOp.onText, if_neg h0] at h2
  refine ⟨g1, toStr s.bytes, rfl, ?_, h2⟩
  simp only [displayStrTo, Printer.say, GString.sink, h1]

/-- Calls with the properties assumed of the standard library's: a number as that many `1`s in one call, a string
    by the number of its bytes between quotes in three calls. -/
def toyCalls (alloc : Bool) : CoreCalls where
  num _ n := [List.replicate n 49]
  str b := [[34], List.replicate b.length 63, [34]]
  lossy b := b.map fun _ => 63
  alloc := alloc

theorem text_ones (x : UInt8) (hx : x = 49 ∨ x = 63) (n : Nat) : Text (List.replicate n x) := by
  constructor
  · refine ⟨List.replicate n x.toNat, ?_, ?_⟩
    · intro y hy
      have := List.eq_of_mem_replicate hy
      subst this
      rcases hx with rfl | rfl <;> exact .inl (by decide)
    · induction n with
      | zero => rfl
      | succ n ih =>
        rw [List.replicate_succ, List.replicate_succ, List.flatMap_cons, ← ih]
        rcases hx with rfl | rfl <;> rfl
  · intro h
    have := List.eq_of_mem_replicate h
    rcases hx with rfl | rfl <;> exact absurd this (by decide)

theorem toyCalls_printable (alloc : Bool) : Printable (toyCalls alloc) where
  num _ n x hx := by
    simp only [toyCalls, List.mem_singleton] at hx
    subst hx
    exact text_ones 49 (.inl rfl) n
  str b _ x hx := by
    have hq : Text [34] := ⟨(utf8Valid_iff _).1 (by decide), by decide⟩
    simp only [toyCalls, List.mem_cons, List.not_mem_nil, or_false] at hx
    rcases hx with rfl | rfl | rfl
    · exact hq
    · exact text_ones 63 (.inr rfl) _
    · exact hq
  lossy b := by
    simp only [toyCalls, List.map_const']
    exact (text_ones 63 (.inr rfl) _).1

example : Printable (toyCalls true) ∧ Printable (toyCalls false) := ⟨toyCalls_printable true, toyCalls_printable false⟩
/-- `[1, 2]` into a sink with room for four bytes: `[1, ` is taken, `11` is refused, nothing more is tried. -/
example : readAs dbg (.A .Y) ⟨64, [1, 2]⟩ = .ok (.arr [.num 1, .num 2]) ∧
    debugAsTo (toyCalls true) dbg (roomFor 4) (.A .Y) ⟨64, [1, 2]⟩ [] = ([91, 49, 44, 32], .ok false) ∧
    debugAsTo (toyCalls true) dbg (roomFor 7) (.A .Y) ⟨64, [1, 2]⟩ [] = ([91, 49, 44, 32, 49, 49, 93], .ok true) :=
  ⟨rfl, by decide +kernel, by decide +kernel⟩
/-- The same and a string into a `GString` that holds `a`. -/
example : (debugAsTo (toyCalls true) dbg (GString.sink fun _ => 0) (.tuple [.S, .A .Y]) ⟨64, [104, 105, 0, 1, 2, 3]⟩
      ⟨[97, 0], 2⟩).1.data = [97, 40, 34, 63, 63, 34, 44, 32, 91, 49, 44, 32, 49, 49, 93, 41, 0] ∧
    (debugAsTo (toyCalls true) dbg (GString.sink fun _ => 0) (.tuple [.S, .A .Y]) ⟨64, [104, 105, 0, 1, 2, 3]⟩
      ⟨[97, 0], 2⟩).2 = .ok true := by decide +kernel
example : GInv ⟨[97, 0], 2⟩ [97] :=
  ⟨⟨(utf8Valid_iff _).1 (by decide), by decide⟩, rfl, by decide⟩
/-- A piece with a NUL: the pieces before it stay. -/
example : (feed (GString.sink fun _ => 0) [[97], [0, 98], [99]] none GString.new).1.data = [97, 0] ∧
    (feed (GString.sink fun _ => 0) [[97], [0, 98], [99]] none GString.new).2 = .ok false := by decide +kernel
/-- Where reading panics, the calls until then have been made. -/
example : debugAsTo (toyCalls true) dbg (fun st x => (st ++ x, true)) (.A (.A .I)) ⟨64, [1, 2, 3, 3]⟩ [] =
    ([91], .fail .unwrap) := by decide +kernel
/-- Data that is not text prints as the empty string. -/
example : (displayStrTo (GString.sink fun _ => 0) ⟨64, [104, 0, 105, 0]⟩ ⟨[97, 0], 2⟩).1.data = [97, 0] := by
  decide +kernel

end GV.Props
