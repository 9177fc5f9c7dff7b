import Verif.Proofs.Clean
import Verif.Props.C54_C56
import Verif.Props.C67_C68
/-
C77: normal form can be told from the bytes alone, and then the crate reads exactly what is there.
-/
namespace GV.Props
open GV Spec

/-- The bytes without any of the abnormalities listed in the specification (and the few it forgot) are those
    that its rules for encoding produce. -/
theorem c77_recognise (be : Bool) (t : Ty) (b : Bytes) (hl : b.length < 2 ^ 64) :
    clean t b = true ↔ Normal be t b :=
  clean_iff be t b hl

/-- Whether bytes are in normal form does not depend on the byte order of the numbers in them. -/
theorem c77_order (t : Ty) (b : Bytes) (hl : b.length < 2 ^ 64) : Normal false t b ↔ Normal true t b := by
  rw [← c77_recognise false t b hl, c77_recognise true t b hl]

/-- Data that passes the check, and no other, is read by the crate without loss: reading gives a value of which
    the bytes are the encoding. -/
theorem c77_read (c : Cfg) (t : Ty) (s : Slice) (hx : Expands t) (hsm : Small t)
    (ha : Spec.align t ∣ s.addr) (hl : s.len < 2 ^ 63) :
    clean t s.bytes = true ↔ ∃ v, readAs c t s = .ok v ∧ Fits t v ∧ enc (.pdf c.bigEndian) t v = s.bytes := by
  have hl' : s.bytes.length < 2 ^ 63 := hl
  rw [c77_recognise c.bigEndian t s.bytes (by omega)]
  constructor
  · intro hn
    obtain ⟨h1, h2, h3⟩ := c54_agree c t s hx hsm ha hl hn
    exact ⟨_, h1, h2, ((h3 _).2 rfl).2⟩
  · rintro ⟨v, _, h2, h3⟩
    exact ⟨v, h2, h3⟩

example : ∃ v, readAs dbg (.tuple [.S, .Y]) ⟨64, [104, 0, 7, 2]⟩ = .ok v ∧ Fits (.tuple [.S, .Y]) v ∧
    enc (.pdf false) (.tuple [.S, .Y]) v = [104, 0, 7, 2] :=
  (c77_read dbg (.tuple [.S, .Y]) ⟨64, [104, 0, 7, 2]⟩ (by decide) (by decide) (by decide) (by decide)).1
    (by decide)

/-- An array of strings of 255 bytes has framing offsets of one byte; with offsets of two bytes it has 256,
    which is just what two-byte offsets are for, and only the rule of least width forbids it.  A structure must
    not have bytes that belong to no member, a string must end with its only zero byte. -/
example : clean (.A .S) (List.replicate 253 97 ++ [0, 254]) = true ∧
    clean (.A .S) (List.replicate 253 97 ++ [0, 254, 0]) = false ∧
    clean (.tuple [.S, .Y]) [104, 0, 7, 2] = true ∧ clean (.tuple [.S, .Y]) [104, 0, 7, 0, 2] = false ∧
    clean (.tuple [.Y, .I]) [1, 0, 0, 0, 5, 0, 0, 0] = true ∧
    clean (.tuple [.Y, .I]) [1, 0, 9, 0, 5, 0, 0, 0] = false ∧
    clean (.A (.M .I)) [5, 0, 0, 0, 4, 4] = true ∧ clean (.A (.M .I)) [5, 0, 0, 0, 5, 4] = false ∧
    clean .S [104, 0, 105, 0] = false ∧ clean (.tuple [.S, .S, .N]) [0x78, 0, 0, 2] = false := by
  decide +kernel

/-- What the crate reads of the array with the wider framing offsets: the same as of the other. -/
example : (readAs dbg (.A .S) ⟨64, List.replicate 253 97 ++ [0, 254, 0]⟩ >>= fun v => match v with
    | .arr [.str b] => .ok (b == List.replicate 253 97)
    | _ => .ok false) = .ok true := by
  decide +kernel

/-- What the crate writes passes the check if no array in it ends with an element that was padded. -/
theorem c77_written (c : Cfg) (t : Ty) (x : Src) (h : Serializable t x) (hn : ¬ HasNul x)
    (hl : (bytesOf c t x).length < 2 ^ 63)
    (he : EvenEnds (.crate c.bigEndian) t (meaning (.crate c.bigEndian) t x)) :
    ∃ b, serializeToVec c t x = .ok b ∧ clean t b = true := by
  refine ⟨_, vec_good h hn (by omega), (c77_recognise c.bigEndian t _ (by omega)).2 ⟨_, bytesOf_fits (c := c) h hn, ?_⟩⟩
  exact (enc_even _ t _ he).symm

example : ∃ b, serializeToVec dbg (.A (.tuple [.I, .S])) (.seq [.tup [.num 5, .str [97, 98, 99]]]) = .ok b ∧
    clean (.A (.tuple [.I, .S])) b = true :=
  c77_written dbg _ _
    ⟨by simp only [Accepts, AcceptsEach, AcceptsAll, isStr, numWidth, ← utf8Valid_iff]; decide, by decide,
      by simp [wraps, wrapsAll]⟩ (by simp [HasNul, HasNulAny]) (by decide +kernel)
    (by simp [EvenEnds, EvenEndsAll, meaning, meaningEach, meaningAll]; decide +kernel)

/-- The converse fails: the padding of a last element may make the bytes those of another value.  The array
    of one array of one structure `[[(5, "abc")]]` is written as the normal form of
    `[[], [], [], [(5, "abc")]]`, and no check of the bytes can find fault with it. -/
theorem c77_disguised (c : Cfg) : ∃ (t : Ty) (x : Src) (b : Bytes) (v : Val), Serializable t x ∧ ¬ HasNul x ∧
    serializeToVec c t x = .ok b ∧ clean t b = true ∧
    Fits t v ∧ enc (.pdf c.bigEndian) t v = b ∧ v ≠ meaning (.crate c.bigEndian) t x := by
  let t : Ty := .A (.A (.tuple [.I, .S]))
  let x : Src := .seq [.seq [.tup [.num 5, .str [97, 98, 99]]]]
  let v : Val := .arr [.arr [], .arr [], .arr [], .arr [.tup [.num 5, .str [97, 98, 99]]]]
  have h : Serializable t x :=
    ⟨by simp only [t, x, Accepts, AcceptsEach, AcceptsAll, isStr, numWidth, ← utf8Valid_iff]; decide, by decide,
      by simp [x, wraps, wrapsAll]⟩
  have hn : ¬ HasNul x := by simp [x, HasNul, HasNulAny]
  have hf : Fits t v := by simp [t, v, Fits, FitsAll, Text, ← utf8Valid_iff]; decide
  have he : enc (.pdf c.bigEndian) t v = bytesOf c t x := by
    unfold bytesOf
    cases c.bigEndian <;> decide +kernel
  have hl : (bytesOf c t x).length < 2 ^ 63 := by
    unfold bytesOf
    cases c.bigEndian <;> decide +kernel
  refine ⟨t, x, _, v, h, hn, vec_good h hn hl, ?_, hf, he, ?_⟩
  · exact (c77_recognise c.bigEndian t _ (by omega)).2 ⟨v, hf, he⟩
  · cases c.bigEndian <;> simp [t, x, v, meaning, meaningEach]

end GV.Props
