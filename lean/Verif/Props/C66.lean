import Verif.Props.C19_C48
import Verif.Proofs.Panic
/-
C66 and further parts of C38: what is read from data of 4 GiB and more with huge framing offsets.

`Expands t`: `gv!` accepts `t`.  `Small t`: its type string has less than 2^40 characters.  The longest
Rust slice has `2 ^ 63 - 1` bytes.
-/
namespace GV.Props
open GV

/-! ### C66 -/

/-- Builds without overflow checks, any data: reading everything panics exactly if an element of an array or
    the content of a maybe is an array of fixed-size items with a length that is no multiple of their size.
    Otherwise it gives the value of the rules with all positions modulo 2^64. -/
theorem c66_release (c : Cfg) (t : Ty) (s : Slice) (hov : c.overflowChecks = false) (hx : Expands t)
    (hsm : Small t) (ha : Spec.align t ∣ s.addr) (hl : s.len < 2 ^ 63) :
    readAs c t s = if Spec.raggedWrap t s.bytes = true then .fail .unwrap
      else .ok (Spec.decWrap c.bigEndian t s.bytes) :=
  readAs_rel hov hx hsm ha hl

/-- Builds with overflow checks, any data: a position of 2^64 or more, or a ragged array, makes reading panic.
    Positions less than 8 below 2^64 may.  Otherwise it gives the value of the rules, and so does every read
    that does not panic. -/
theorem c66_checked (c : Cfg) (t : Ty) (s : Slice) (hov : c.overflowChecks = true) (hx : Expands t)
    (hsm : Small t) (ha : Spec.align t ∣ s.addr) (hl : s.len < 2 ^ 63) :
    (Spec.over (.crate c.bigEndian) 0 t s.bytes = true ∨ Spec.ragged (.crate c.bigEndian) t s.bytes = true →
      ∃ f, readAs c t s = .fail f) ∧
    (Spec.over (.crate c.bigEndian) 8 t s.bytes = false → Spec.ragged (.crate c.bigEndian) t s.bytes = false →
      readAs c t s = .ok (Spec.dec (.crate c.bigEndian) t s.bytes)) ∧
    (∀ v, readAs c t s = .ok v → v = Spec.dec (.crate c.bigEndian) t s.bytes) ∧
    ∀ f, readAs c t s = .fail f → (f = .overflow ∧ Spec.over (.crate c.bigEndian) 8 t s.bytes = true) ∨
      (f = .unwrap ∧ Spec.ragged (.crate c.bigEndian) t s.bytes = true) := by
  rcases readAs_out hov hx hsm ha hl with ⟨v, h1, rfl, h2, h3⟩ | ⟨h1, h2⟩ | ⟨h1, h2⟩
  · refine ⟨?_, fun _ _ => h1, fun w hw => ?_, fun f hf => ?_⟩
    · rintro (h | h)
      · rw [h2] at h; cases h
      · rw [h3] at h; cases h
    · rw [h1] at hw; cases hw; rfl
    · rw [h1] at hf; cases hf
  · refine ⟨fun _ => ⟨_, h1⟩, fun h => ?_, fun w hw => ?_, fun f hf => ?_⟩
    · rw [h2] at h; cases h
    · rw [h1] at hw; cases hw
    · rw [h1] at hf; cases hf; exact Or.inl ⟨rfl, h2⟩
  · refine ⟨fun _ => ⟨_, h1⟩, fun _ h => ?_, fun w hw => ?_, fun f hf => ?_⟩
    · rw [h2] at h; cases h
    · rw [h1] at hw; cases hw
    · rw [h1] at hf; cases hf; exact Or.inr ⟨rfl, h2⟩

/-- For data shorter than 4 GiB or without framing offsets of 2^63 or more nothing wraps and no position is
    that large. -/
theorem c66_tame (be : Bool) (t : Ty) (b : Bytes) (hsm : Small t)
    (h : b.length < 2 ^ 32 ∨ Spec.Tame (.crate be) t b) :
    Spec.decWrap be t b = Spec.dec (.crate be) t b ∧ Spec.raggedWrap t b = Spec.ragged (.crate be) t b ∧
      Spec.over (.crate be) 8 t b = false := by
  have ht := h.elim (tame_small (.crate be) t b) id
  obtain ⟨h1, h2⟩ := wrap_tame be t hsm b ht
  exact ⟨h1, h2, over_tame _ (by decide) t hsm b ht⟩

/-- Where the `i`-th element of a variable-width array lies if positions wrap round. -/
def elemRangeWrap (e : Ty) (b : Bytes) (i : Nat) : Option (Nat × Nat) :=
  let (body, stops) := Spec.arrFrame b
  let start := Spec.roundUp (if i = 0 then 0 else stops.getD (i - 1) 0) (Spec.align e) % 2 ^ 64
  let stop := stops.getD i 0
  if start ≤ stop ∧ stop ≤ body then some (start, stop) else none

/-- Each element of a variable-width array, in builds without overflow checks. -/
theorem c66_element (c : Cfg) (e : Ty) (s : Slice) (i n : Nat) (r : Slice) (hov : c.overflowChecks = false)
    (hx : Expands e) (ha : Spec.align e ∣ s.addr) (hl : s.len < 2 ^ 63)
    (hn : arrLen c s = .ok n) (hi : i < n) (hr : arrIndex c e s i = .ok r) :
    match elemRangeWrap e s.bytes i with
    | some (start, stop) => r = ⟨s.addr + start, Spec.sub s.bytes start stop⟩
    | none => r.bytes = [] := by
  rw [arrLen_ok hl] at hn
  cases hn
  rw [arrIndex_raw ha hl hi] at hr
  have hal := specAlign_isAl e
  obtain ⟨start, h1, hd, h⟩ := elemRaw_cases hx ha (prevStop_lt _ _) hr
  have hstart : start = Spec.roundUp (prevStop s.bytes i) (Spec.align e) % 2 ^ 64 := by
    rw [alignOf_eq, alignOffset_rel hov hal (prevStop_lt _ _)] at h1
    cases h1; rfl
  have hget : (Spec.arrFrame s.bytes).2.getD i 0 = (Spec.arrFrame s.bytes).2[i] := by
    simp [List.getElem?_eq_getElem hi]
  have hrange : elemRangeWrap e s.bytes i = if start ≤ (Spec.arrFrame s.bytes).2[i] ∧
      (Spec.arrFrame s.bytes).2[i] ≤ (Spec.arrFrame s.bytes).1
      then some (start, (Spec.arrFrame s.bytes).2[i]) else none := by
    simp only [elemRangeWrap, hget]
    rw [hstart]
    rfl
  rw [hrange]
  rcases h with h | h
  · rw [if_pos ⟨h.1, h.2.1⟩]; exact h.2.2
  · rw [if_neg h.1]; simp [h.2]

/-- The members of a variable-size structure, in builds without overflow checks: no panic, and the bytes are
    those that the rules with positions modulo 2^64 assign. -/
theorem c66_members (c : Cfg) (gv : Ty) (ts : List Ty) (s : Slice) (hov : c.overflowChecks = false)
    (hm : HasMembers gv ts) (hx : Expands gv) (hsm : Small gv) (hs : Spec.size gv = none)
    (ha : Spec.align gv ∣ s.addr) (hl : s.len < 2 ^ 63) :
    ∃ rs, tupRefs c gv ts s = .ok rs ∧
      rs.map (·.bytes) = List.zipWith childBytes ts (Spec.memberChildrenWrap ts s.bytes) := by
  have key : ∃ rs, tupRefs c gv ts s = .ok rs ∧
      RefsFor c s ts (Spec.memberChildrenWrap ts s.bytes) rs := by
    rcases hm with rfl | ⟨k, v, rfl, rfl⟩
    · obtain ⟨hx', d, hd⟩ := expands_tuple.1 hx
      exact tupRefs_rel hov rfl hx' hd hsm.shows ha (castBytes_eq hs rfl) (fun _ => hl)
    · obtain ⟨⟨hk, hv⟩, d, hd⟩ := expands_dict.1 hx
      refine tupRefs_rel hov (size_dict_eq k v) ?_ hd hsm.dict (by rw [align_dict_eq] at ha; exact ha)
        (castBytes_eq (by rw [← size_dict_eq]; exact hs) rfl) (fun _ => hl)
      intro t ht
      simp only [List.mem_cons, List.not_mem_nil, or_false] at ht
      rcases ht with rfl | rfl <;> assumption
  obtain ⟨rs, h1, h2⟩ := key
  exact ⟨rs, h1, refsFor_bytes ts _ rs h2⟩

/-- The array of `c32_full_false`, whose first framing offset is 2^64 − 1: its second element has a start
    beyond 2^64, so reading it as `aax` panics with overflow checks.  Without, this element starts at 0. -/
example {pre : Bytes} (hp : pre.length = 2 ^ 32) : (huge pre).len < 2 ^ 63 ∧
    Spec.over (.crate false) 0 (.A (.A .X)) (huge pre).bytes = true ∧
    elemRangeWrap (.A .X) (huge pre).bytes 1 = some (0, 2 ^ 32) ∧ elemRange (.A .X) (huge pre).bytes 1 = none := by
  refine ⟨by rw [huge_len hp]; decide, ?_, ?_, ?_⟩
  · rw [over_A, Spec.arrOver, huge_frame hp]; rfl
  · unfold elemRangeWrap
    rw [huge_frame hp]; rfl
  · unfold elemRange
    rw [huge_frame hp]; rfl

/-- The structure of `c47_full_false`, `(axi)` of more than 4 GiB with framing offset 2^64 − 1: the `i` would
    start at 2^64; it is read at 0. -/
example {pre : Bytes} (hp : pre.length = 2 ^ 32) (h4 : pre.take 4 = [1, 1, 1, 1]) :
    Spec.memberOver 0 [.A .X, .I] (hugeStruct pre).bytes = true ∧
    Spec.memberChildrenWrap [.A .X, .I] (hugeStruct pre).bytes = [none, some [1, 1, 1, 1]] := by
  have hb : Spec.bodyEnd [.A .X, .I] (hugeStruct pre).bytes = some (2 ^ 32) := by
    unfold Spec.bodyEnd
    rw [hugeStruct_len hp]; rfl
  constructor
  · unfold Spec.memberOver
    rw [hb]
    simp only [show Spec.size (.tuple [.A .X, .I]) = none from rfl, Spec.membersOver, hugeStruct_frame hp]
    rfl
  · unfold Spec.memberChildrenWrap
    rw [hb]
    simp only [show Spec.size (.tuple [.A .X, .I]) = none from rfl, show Spec.size (.A .X) = none from rfl,
      show Spec.size .I = some 4 from rfl, Spec.membersWrap, hugeStruct_frame hp, Option.map_some,
      Option.bind_some, reduceCtorEq, if_false]
    show [Spec.place _ _ 0 (2 ^ 64 - 1), Spec.place _ _ 0 4] = _
    unfold Spec.place
    rw [if_neg (by decide), if_pos (by decide)]
    simp only [Spec.sub, hugeStruct, List.drop_zero]
    rw [List.take_append_of_le_length (by rw [hp]; decide), h4]

/-- Small data, where nothing wraps. -/
example : Spec.decWrap false (.A (.tuple [.S, .Y])) [97, 0, 7, 2, 4] =
      Spec.dec (.crate false) (.A (.tuple [.S, .Y])) [97, 0, 7, 2, 4] ∧
    Spec.raggedWrap (.M (.A .I)) [1, 2, 3, 0] = true := ⟨rfl, by decide⟩

/-! ### C38 -/

/-- Builds with and without overflow checks give the same if all positions are more than 8 below 2^64, and
    differ if some position is 2^64 or more and no array is ragged. -/
theorem c38_positions_partial (c : Cfg) (t : Ty) (s : Slice) (hx : Expands t) (hsm : Small t)
    (ha : Spec.align t ∣ s.addr) (hl : s.len < 2 ^ 63) :
    (Spec.over (.crate c.bigEndian) 8 t s.bytes = false →
      readAs { c with overflowChecks := true } t s = readAs { c with overflowChecks := false } t s) ∧
    (Spec.over (.crate c.bigEndian) 0 t s.bytes = true → Spec.ragged (.crate c.bigEndian) t s.bytes = false →
      readAs { c with overflowChecks := true } t s ≠ readAs { c with overflowChecks := false } t s) := by
  obtain ⟨h1, _, _, h2⟩ := c66_checked { c with overflowChecks := true } t s rfl hx hsm ha hl
  constructor
  · intro h
    rcases readAs_ov c t s with h3 | h3
    · rcases h2 _ h3 with h4 | h4
      · rw [h] at h4; cases h4.2
      · cases h4.1
    · exact h3
  · intro h hr he
    obtain ⟨f, hf⟩ := h1 (Or.inl h)
    rcases h2 f hf with h4 | h4
    · rw [hf, h4.1, c66_release { c with overflowChecks := false } t s rfl hx hsm ha hl] at he
      split at he <;> cases he
    · rw [hr] at h4; cases h4.2

example : Spec.over (.crate false) 8 (.A (.A .X)) [1, 2, 255, 3] = false := by decide

end GV.Props
