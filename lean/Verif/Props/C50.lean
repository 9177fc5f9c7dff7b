import Verif.Proofs.EqReads
import Verif.Proofs.Addr
import Verif.Props.C54_C56
/-
C50 continued: `==` of any two byte strings, and of data in normal form.
-/
namespace GV.Props
open GV Spec

/-- Of any two byte strings at all, `==` is true exactly if both can be read (nothing inside is left out)
    and the values read are the same, doubles compared as numbers. -/
theorem c50_true (c : Cfg) (t : Ty) (a b : Slice) (hx : Expands t) (hsm : Small t)
    (ha : Spec.align t ∣ a.addr) (hb : Spec.align t ∣ b.addr) (hla : a.len < 2 ^ 63) (hlb : b.len < 2 ^ 63) :
    eqAs c t a b = .ok true ↔ ∃ v w, readAs c t a = .ok v ∧ readAs c t b = .ok w ∧ Same t v w := by
  constructor
  · intro h
    obtain ⟨v, w, hv, hw⟩ := eqAs_reads hx hsm ha hb hla hlb h
    obtain ⟨x, h1, h2⟩ := eqAs_ok hx hsm ha hb hla hlb hv hw
    rw [h, Res.ok.injEq] at h1
    exact ⟨v, w, hv, hw, h2.1 h1.symm⟩
  · rintro ⟨v, w, hv, hw, h⟩
    obtain ⟨x, h1, h2⟩ := eqAs_ok hx hsm ha hb hla hlb hv hw
    rw [h1, h2.2 h]

/-- Without doubles: exactly if the same value is read from both. -/
theorem c50_same_value (c : Cfg) (t : Ty) (a b : Slice) (hx : Expands t) (hsm : Small t) (hd : ¬ Component .D t)
    (ha : Spec.align t ∣ a.addr) (hb : Spec.align t ∣ b.addr) (hla : a.len < 2 ^ 63) (hlb : b.len < 2 ^ 63) :
    eqAs c t a b = .ok true ↔ ∃ v, readAs c t a = .ok v ∧ readAs c t b = .ok v := by
  rw [c50_true c t a b hx hsm ha hb hla hlb]
  constructor
  · rintro ⟨v, w, hv, hw, h⟩
    obtain rfl := (same_eq t hd v w (readAs_fits hx hsm ha hla hv) (readAs_fits hx hsm hb hlb hw)).1 h
    exact ⟨v, hv, hw⟩
  · rintro ⟨v, hv, hw⟩
    exact ⟨v, v, hv, hw, (same_eq t hd v v (readAs_fits hx hsm ha hla hv) (readAs_fits hx hsm hb hlb hw)).2 rfl⟩

/-- `aai`: an inner array of 3 bytes cannot be read.  Comparing it with itself panics; comparing it with
    an array that differs earlier, or in length, does not get there. -/
example : eqAs dbg (.A (.A .I)) ⟨64, [1, 2, 3, 3]⟩ ⟨64, [1, 2, 3, 3]⟩ = .fail .unwrap ∧
    eqAs dbg (.A (.A .I)) ⟨64, [1, 2, 3, 3]⟩ ⟨64, []⟩ = .ok false ∧
    eqAs dbg (.A (.A .I)) ⟨64, [1, 0, 0, 0, 4]⟩ ⟨128, [1, 0, 0, 0, 4]⟩ = .ok true ∧
    Expands (.A (.A .I)) ∧ Small (.A (.A .I)) ∧ ¬ Component .D (.A (.A .I)) := by
  refine ⟨by decide +kernel, by decide +kernel, by decide +kernel, by decide, by decide, ?_⟩
  rintro (_ | ⟨_ | ⟨h⟩⟩)
  cases h

/-- Whatever the bytes, and with doubles too: what is equal one way round is equal the other way round,
    and equality passes along a chain. -/
theorem c50_chain (c : Cfg) (t : Ty) (a b d : Slice) (hx : Expands t) (hsm : Small t)
    (ha : Spec.align t ∣ a.addr) (hb : Spec.align t ∣ b.addr) (hc : Spec.align t ∣ d.addr)
    (hla : a.len < 2 ^ 63) (hlb : b.len < 2 ^ 63) (hlc : d.len < 2 ^ 63) :
    (eqAs c t a b = .ok true ↔ eqAs c t b a = .ok true) ∧
    (eqAs c t a b = .ok true → eqAs c t b d = .ok true → eqAs c t a d = .ok true) := by
  simp only [c50_true c t _ _ hx hsm, ha, hb, hc, hla, hlb, hlc]
  refine ⟨⟨?_, ?_⟩, ?_⟩
  · rintro ⟨v, w, h1, h2, h⟩
    exact ⟨w, v, h2, h1, (same_per t).1 _ _ h⟩
  · rintro ⟨v, w, h1, h2, h⟩
    exact ⟨w, v, h2, h1, (same_per t).1 _ _ h⟩
  · rintro ⟨u, v, h1, h2, h⟩ ⟨v', w, g1, g2, g⟩
    rw [h2, Res.ok.injEq] at g1
    subst g1
    exact ⟨u, w, h1, g2, (same_per t).2 _ _ _ h g⟩

/-- `(md)`: 0.0 and -0.0, both ways round; a NaN is not equal even to itself. -/
example : eqAs dbg (.tuple [.M .D]) ⟨64, [0, 0, 0, 0, 0, 0, 0, 0]⟩ ⟨128, [0, 0, 0, 0, 0, 0, 0, 128]⟩ = .ok true ∧
    eqAs dbg (.tuple [.M .D]) ⟨128, [0, 0, 0, 0, 0, 0, 0, 128]⟩ ⟨64, [0, 0, 0, 0, 0, 0, 0, 0]⟩ = .ok true ∧
    eqAs dbg (.tuple [.M .D]) ⟨64, [0, 0, 0, 0, 0, 0, 248, 127]⟩ ⟨64, [0, 0, 0, 0, 0, 0, 248, 127]⟩ = .ok false := by
  decide +kernel

/-- Of data in normal form, without doubles, `==` never panics and is equality of bytes. -/
theorem c50_normal (c : Cfg) (t : Ty) (a b : Slice) (hx : Expands t) (hsm : Small t) (hd : ¬ Component .D t)
    (ha : Spec.align t ∣ a.addr) (hb : Spec.align t ∣ b.addr) (hla : a.len < 2 ^ 63) (hlb : b.len < 2 ^ 63)
    (hna : Normal c.bigEndian t a.bytes) (hnb : Normal c.bigEndian t b.bytes) :
    eqAs c t a b = .ok (decide (a.bytes = b.bytes)) := by
  obtain ⟨va, h1, h2⟩ := (c54_recognise c t a hx hsm ha hla).1 hna
  obtain ⟨vb, g1, g2⟩ := (c54_recognise c t b hx hsm hb hlb).1 hnb
  obtain ⟨x, h3, h4⟩ := c50_equal c t a b va vb hx hsm hd ha hb hla hlb h1 g1
  rw [h3, Res.ok.injEq, Bool.eq_iff_iff, h4, decide_eq_true_iff]
  constructor
  · rintro rfl
    rw [← h2, ← g2]
  · intro h
    have := readAs_same (c := c) (t := t) (s := a) (s' := b) hx hsm ha hb hla h
    rw [h1, g1] at this
    exact Res.ok.inj this

/-- `(sab)`: the two encodings differ in the string only. -/
example : Normal dbg.bigEndian (.tuple [.S, .A .B]) [97, 0, 1, 0, 2] ∧
    Normal dbg.bigEndian (.tuple [.S, .A .B]) [98, 0, 1, 0, 2] ∧
    eqAs dbg (.tuple [.S, .A .B]) ⟨64, [97, 0, 1, 0, 2]⟩ ⟨128, [97, 0, 1, 0, 2]⟩ = .ok true ∧
    eqAs dbg (.tuple [.S, .A .B]) ⟨64, [97, 0, 1, 0, 2]⟩ ⟨128, [98, 0, 1, 0, 2]⟩ = .ok false := by
  refine ⟨⟨.tup [.str [97], .arr [.bool true, .bool false]], ?_, by decide +kernel⟩,
    ⟨.tup [.str [98], .arr [.bool true, .bool false]], ?_, by decide +kernel⟩, by decide +kernel, by decide +kernel⟩ <;>
  · simp [Fits, FitsAll, Text, ← utf8Valid_iff]; decide

end GV.Props
