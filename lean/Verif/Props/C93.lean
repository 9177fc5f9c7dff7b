import Verif.Proofs.Extent
import Verif.Props.C10_C19
/-
C93: how long the serialized form of a value is.
-/
namespace GV.Props
open GV Spec

/-- What is serialized takes at least the bytes of its simple values, and beyond these at most 22 for each value
    in it, to any depth.  It is enough for success that this sum is below 2^63. -/
theorem c93_serialized (c : Cfg) (t : Ty) (x : Src) (h : Serializable t x) (hn : ¬ HasNul x)
    (hl : bulk t x + 22 * units x < 2 ^ 63) :
    ∃ b, serializeToVec c t x = .ok b ∧ bulk t x ≤ b.length ∧ b.length + 15 ≤ bulk t x + 22 * units x := by
  have hl := (bounded_iff hn).1 (bounded_bulk (c := c) h hl)
  refine ⟨_, vec_good h hn hl, ?_⟩
  have h1 := extends_ok (.crate c.bigEndian) t _ (bytesOf_fits (c := c) h hn)
  have h2 := spreads_ok (.crate c.bigEndian) x t h.acc hn
  unfold Spreads at h2
  unfold bytesOf
  omega

-- ("ab", [(1, 2), (3, 4)], <[-1, 5]>, <<"x">>)
def several : Src := .tup [.str [97, 98], .seq [.tup [.num 1, .num 2], .tup [.num 3, .num 4]],
  .wrap (.A .I) (.seq [.num 4294967295, .num 5]), .wrap .V (.wrap .S (.str [120]))]
def severalTy : Ty := .tuple [.S, .A (.tuple [.Y, .T]), .V, .V]
theorem several_ok : Serializable severalTy several := by
  have hu : ∀ b : Bytes, utf8Valid b = true → Utf8 b := fun b hb => (utf8Valid_iff b).1 hb
  refine ⟨?_, ?_, ?_⟩
  · simp only [severalTy, several, Accepts, AcceptsAll, AcceptsEach, isStr, numWidth]
    refine ⟨⟨trivial, hu _ (by decide)⟩, ⟨⟨⟨1, rfl, by decide⟩, ⟨8, rfl, by decide⟩, trivial⟩,
      ⟨⟨1, rfl, by decide⟩, ⟨8, rfl, by decide⟩, trivial⟩, trivial⟩,
      ⟨trivial, ⟨4, rfl, by decide⟩, ⟨4, rfl, by decide⟩, trivial⟩, ⟨trivial, trivial, trivial, hu _ (by decide)⟩, trivial⟩
  · decide
  · intro u hu
    simp only [several, wraps, wrapsAll, List.append_nil, List.nil_append, List.cons_append, List.mem_cons, List.not_mem_nil,
      or_false] at hu
    rcases hu with rfl | rfl | rfl <;> decide
example : ¬ HasNul several := by simp [several, HasNul, HasNulAny]
example : bulk severalTy several = 38 ∧ units several = 16 := by decide +kernel
example : serializeToVec dbg severalTy several = .ok [97, 98, 0, 0, 0, 0, 0, 0, 1, 0, 0, 0, 0, 0, 0, 0, 2, 0, 0, 0, 0, 0, 0, 0,
    3, 0, 0, 0, 0, 0, 0, 0, 4, 0, 0, 0, 0, 0, 0, 0, 255, 255, 255, 255, 5, 0, 0, 0, 0, 97, 105, 0, 0, 0, 0, 0, 120, 0, 0,
    115, 0, 118, 51, 40, 3] := by decide +kernel

/-- So a value fails to serialize only when it holds a string with a NUL in it, and then it does. -/
theorem c93_decides (c : Cfg) (t : Ty) (x : Src) (h : Serializable t x)
    (hl : bulk t x + 22 * units x < 2 ^ 63) :
    (HasNul x ↔ serializeToVec c t x = .fail .unwrap) ∧ (¬ HasNul x ↔ ∃ b, serializeToVec c t x = .ok b) := by
  have hb := bounded_bulk (c := c) h hl
  by_cases hn : HasNul x
  · have := vec_bad h hn (fun _ => text_nil) hb
    simp [hn, this]
  · have := vec_good h hn ((bounded_iff hn).1 hb)
    simp [hn, this]

-- with "a\0b" in place of "ab"
example : Serializable .S (.str [97, 0, 98]) ∧ HasNul (.str [97, 0, 98]) ∧ bulk .S (.str [97, 0, 98]) = 4 :=
  ⟨⟨⟨rfl, (utf8Valid_iff _).1 (by decide)⟩, by decide, by simp [wraps]⟩, by simp [HasNul], rfl⟩

/-- Some such overhead cannot be avoided: `n` pairs of a byte and a 64-bit number need 16 bytes each, not 9. -/
theorem c93_overhead (c : Cfg) (n : Nat) (hn : n < 2 ^ 56) :
    let x : Src := .seq (List.replicate n (.tup [.num 1, .num 2]))
    bulk (.A (.tuple [.Y, .T])) x = 9 * n ∧ units x = 1 + 3 * n ∧
      ∃ b, serializeToVec c (.A (.tuple [.Y, .T])) x = .ok b ∧ b.length = 16 * n := by
  intro x
  have h1 : ∀ n, bulkEach (.tuple [.Y, .T]) (List.replicate n (.tup [.num 1, .num 2])) = 9 * n := by
    intro n
    induction n with
    | zero => rfl
    | succ n ih => rw [List.replicate_succ, bulkEach, ih]; simp only [bulk, bulkAll, numWidth, Option.getD_some]; omega
  have h2 : ∀ n, unitsAll (List.replicate n (.tup [.num 1, .num 2])) = 3 * n := by
    intro n
    induction n with
    | zero => rfl
    | succ n ih => rw [List.replicate_succ, unitsAll, ih]; simp only [units, unitsAll]; omega
  have hb : bulk (.A (.tuple [.Y, .T])) x = 9 * n := by simp only [x, bulk, h1]
  have hu : units x = 1 + 3 * n := by simp only [x, units, h2]
  have hs : Serializable (.A (.tuple [.Y, .T])) x := by
    refine ⟨?_, by decide, ?_⟩
    · simp only [x, Accepts, acceptsEach_iff]
      intro y hy
      rw [List.eq_of_mem_replicate hy]
      exact ⟨⟨1, rfl, by decide⟩, ⟨8, rfl, by decide⟩, trivial⟩
    · intro u hu
      simp only [x, wraps, mem_wrapsAll] at hu
      obtain ⟨y, hy, hu⟩ := hu
      rw [List.eq_of_mem_replicate hy] at hu
      simp [wraps, wrapsAll] at hu
  have hnn : ¬ HasNul x := by
    simp only [x, HasNul, hasNulAny_iff]
    rintro ⟨y, hy, h⟩
    rw [List.eq_of_mem_replicate hy] at h
    simp [HasNul, HasNulAny] at h
  refine ⟨hb, hu, bytesOf c _ x, vec_good hs hnn ((bounded_iff hnn).1 (bounded_bulk hs (by omega))), ?_⟩
  simp only [x, bytesOf_seq]
  rw [if_pos (by decide), List.length_flatten, List.map_map, List.map_replicate]
  have : (bytesOf c (.tuple [.Y, .T]) (.tup [.num 1, .num 2])).length = 16 :=
    enc_length _ _ _ 16 (by simp [meaning, meaningAll, Fits, FitsAll]) (by decide)
  simp only [Function.comp, this, List.sum_replicate_nat]
  omega

/-- The same for normal form. -/
theorem c93_normal (be : Bool) (t : Ty) (v : Val) (h : Fits t v) :
    content t v ≤ (enc (.pdf be) t v).length ∧ (enc (.pdf be) t v).length + 15 ≤ content t v + 22 * parts v :=
  extends_ok (.pdf be) t v h

-- a sentence, and nothing
example : content (.tuple [.A .S, .M .S]) (.tup [.arr [.str [97], .str []], .nothing]) = 3 ∧
    enc (.pdf false) (.tuple [.A .S, .M .S]) (.tup [.arr [.str [97], .str []], .nothing]) = [97, 0, 0, 2, 3, 5] := by
  decide +kernel

end GV.Props
