import Verif.Proofs.Local
/-
C65: access to one element or member looks at its framing offsets and its own bytes only.
-/
namespace GV.Props
open GV Spec

/-- An element `i` of a variable-width array is decided by the last framing offset, its own framing offset,
    the one before it, and its own bytes: whatever the other bytes are changed to, indexing gives the same,
    panics included.  `lo, …, hi - 1` are the positions of the element's own bytes. -/
theorem c65_element (c : Cfg) (e : Ty) (s : Slice) (n i : Nat) (ha : Spec.align e ∣ s.addr)
    (hl : s.len < 2 ^ 63) (hn : arrLen c s = .ok n) (hi : i < n) :
    ∃ lo hi, hi ≤ s.len ∧ (∀ r, arrIndex c e s i = .ok r → hi - lo ≤ r.len) ∧
      (lo < hi → arrIndex c e s i = .ok ⟨s.addr + lo, sub s.bytes lo hi⟩) ∧
      ∀ s' : Slice, s'.addr = s.addr → s'.len = s.len →
        let w := offsetWidth s.len
        let body := (arrFrame s.bytes).1
        Agree s.bytes s'.bytes (s.len - w) s.len →
        Agree s.bytes s'.bytes (body + i * w) (body + i * w + w) →
        (0 < i → Agree s.bytes s'.bytes (body + (i - 1) * w) (body + (i - 1) * w + w)) →
        Agree s.bytes s'.bytes lo hi →
        arrLen c s' = .ok n ∧ arrIndex c e s' i = arrIndex c e s i := by
  rw [arrLen_ok hl] at hn
  cases hn
  obtain ⟨lo, hi, h0, h1, h2, h3⟩ := arrIndex_local (c := c) ha hl hi
  refine ⟨lo, hi, h0, h1, h2, ?_⟩
  intro s' g1 g2 w body g3 g4 g5 g6
  obtain ⟨k1, k2⟩ := arrFrame_agree g2 g3
  refine ⟨by rw [arrLen_ok (by rw [g2]; exact hl), k2], h3 s' g1 g2 k1 (arrFrame_slot g2 g3 g4) ?_ g6⟩
  unfold prevStop
  by_cases hz : i = 0
  · simp only [hz, if_true]
  · simp only [hz, if_false, List.getD_eq_getElem?_getD, arrFrame_slot g2 g3 (g5 (by omega))]

/-- `["ab", "cd", "e"]`: the second string stays when the first one and its framing offset's neighbours
    among the bytes change, but it moves when its own framing offset does. -/
example : arrLen ⟨true, true, false, 4097, 3⟩ ⟨64, [97, 98, 0, 99, 100, 0, 101, 0, 3, 6, 8]⟩ = .ok 3 ∧
    arrIndex ⟨true, true, false, 4097, 3⟩ .S ⟨64, [97, 98, 0, 99, 100, 0, 101, 0, 3, 6, 8]⟩ 1 = .ok ⟨67, [99, 100, 0]⟩ ∧
    arrIndex ⟨true, true, false, 4097, 3⟩ .S ⟨64, [1, 2, 3, 99, 100, 0, 4, 5, 3, 6, 8]⟩ 1 = .ok ⟨67, [99, 100, 0]⟩ ∧
    arrIndex ⟨true, true, false, 4097, 3⟩ .S ⟨64, [97, 98, 0, 99, 100, 0, 101, 0, 3, 5, 8]⟩ 1 = .ok ⟨67, [99, 100]⟩ := by
  decide +kernel

/-- A member `k` of a structure without fixed size is decided by the framing offset of the nearest member
    before it that has no fixed size, its own framing offset if it has one, and its own bytes.  The
    `framesBefore ts k`-th framing offset from the end is the member's own. -/
theorem c65_member (c : Cfg) (gv : Ty) (ts : List Ty) (s : Slice) (rs : List Slice) (k : Nat)
    (hgv : Spec.size gv = none) (hsm : (Ty.shows ts).length < 2 ^ 40)
    (ha : alignMax ts ∣ s.addr) (hl : s.len < 2 ^ 63) (hrs : tupRefs c gv ts s = .ok rs)
    (hk : k < ts.length) :
    ∃ r lo hi, rs[k]? = some r ∧ hi ≤ s.len ∧ hi - lo ≤ r.len ∧
      (lo < hi → r = ⟨s.addr + lo, sub s.bytes lo hi⟩) ∧
      ∀ s' : Slice, s'.addr = s.addr → s'.len = s.len →
        (0 < framesBefore ts k →
          frame s'.bytes (framesBefore ts k - 1) = frame s.bytes (framesBefore ts k - 1)) →
        (Spec.size ts[k] = none → k + 1 ≠ ts.length →
          frame s'.bytes (framesBefore ts k) = frame s.bytes (framesBefore ts k)) →
        Agree s.bytes s'.bytes lo hi →
        ∀ rs', tupRefs c gv ts s' = .ok rs' → rs'[k]? = some r :=
  member_local hgv hsm ha hl hrs hk

/-- `(sys)` holding `("a", 7, "b")`: the number stays when all but it and the framing offset of the first
    string change. -/
example : tupRefs ⟨true, true, false, 4097, 3⟩ (.tuple [.S, .Y, .S]) [.S, .Y, .S] ⟨64, [97, 0, 7, 98, 0, 2]⟩ =
      .ok [⟨64, [97, 0]⟩, ⟨66, [7]⟩, ⟨67, [98, 0]⟩] ∧
    tupRefs ⟨true, true, false, 4097, 3⟩ (.tuple [.S, .Y, .S]) [.S, .Y, .S] ⟨64, [1, 2, 7, 3, 4, 2]⟩ =
      .ok [⟨64, [1, 2]⟩, ⟨66, [7]⟩, ⟨67, [3, 4]⟩] ∧
    framesBefore [.S, .Y, .S] 1 = 1 ∧ frame [97, 0, 7, 98, 0, 2] 0 = some 2 := by decide +kernel

end GV.Props
