import Verif.Proofs.Alike
import Verif.Model.Reser
/-
C64: types whose values look the same in bytes.
-/
namespace GV.Props
open GV Spec

/-- Two types that differ only in signedness, integer or floating point, kind of string, and dictionary entry
    or structure of two are read alike from the same data, whether or not it is in normal form: no object path
    or signature is ever checked, as the documentation says (lib.rs:112-130). -/
theorem c64_read (c : Cfg) (t u : Ty) (s : Slice) (h : canon t = canon u) :
    readAs c t s = readAs c u s ∧ fromAligned c t s = fromAligned c u s := by
  refine ⟨?_, ?_⟩
  · rw [← readAs_canon c t s, ← readAs_canon c u s, h]
  · rw [← fromAligned_canon c t s, ← fromAligned_canon c u s, h]

/-- And they are written alike, through every writer, failing or not. -/
theorem c64_write (c : Cfg) (t u : Ty) (x : Src) (h : canon t = canon u) :
    (∀ (σ : Type) (w : Writer σ) (st : σ), serialize w c t x st = serialize w c u x st) ∧
    serializeToVec c t x = serializeToVec c u x := by
  have h1 : ∀ (σ : Type) (w : Writer σ) (st : σ), serialize w c t x st = serialize w c u x st := by
    intro σ w st
    rw [← serialize_canon w c t x st, ← serialize_canon w c u x st, h]
  exact ⟨h1, by simp only [serializeToVec, h1]⟩

/-- An object path that is no object path, and a signature that is no signature, read as strings. -/
example : canon (.dict .O (.M .G)) = canon (.tuple [.S, .M .S]) ∧
    readAs ⟨true, true, false, 4097, 3⟩ (.dict .O (.M .G)) ⟨64, [97, 47, 0, 40, 0, 0, 3]⟩ = .ok (.tup [.str [97, 47], .just (.str [40])]) := ⟨by rfl, by rfl⟩

/-- `ay` and `as` are not alike. -/
example : canon (.A .Y) ≠ canon (.A .S) := by decide

end GV.Props
