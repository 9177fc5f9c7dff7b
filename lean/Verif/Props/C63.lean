import Verif.Proofs.Endian
import Verif.Props.C39_C44
/-
C63: machines with the other byte order.
-/
namespace GV.Props
open GV Spec

/-- Reading the same bytes on a machine with the other byte order panics in the same cases, and otherwise
    gives the same value but for the bytes of numbers, which are reversed. -/
theorem c63_read (c : Cfg) (t : Ty) (s : Slice) (hx : Expands t) (hsm : Small t) (ha : Spec.align t ∣ s.addr)
    (hl : s.len < 2 ^ 63) :
    (∀ v, readAs c t s = .ok v ↔ ∃ w, readAs ⟨c.overflowChecks, c.debugAssertions, !c.bigEndian, c.spacesAddr, c.staticIdx⟩ t s = .ok w ∧
      v = swap t w) ∧
    (∀ f, readAs c t s = .fail f ↔
      readAs ⟨c.overflowChecks, c.debugAssertions, !c.bigEndian, c.spacesAddr, c.staticIdx⟩ t s = .fail f) := by
  obtain ⟨r, h1, h2⟩ := cast_good (c := c.flip) hx hsm ha hl
  have h3 := view_swap t r h2
  have h4 := fromAligned_flip c.flip t s
  rw [flip_flip] at h3 h4
  have h5 : readAs c t s = (readAs c.flip t s >>= fun v => .ok (swap t v)) := by
    simp only [readAs, h4, h1, Res.bind_ok, h3]
  have h6 : (⟨c.overflowChecks, c.debugAssertions, !c.bigEndian, c.spacesAddr, c.staticIdx⟩ : Cfg) = c.flip := rfl
  rw [h6, h5]
  cases readAs c.flip t s with
  | fail f => simp
  | ok w => simp [eq_comm]

/-- The bytes that the other machine writes are those of the value with the bytes of numbers reversed. -/
theorem c63_write (c : Cfg) (t : Ty) (x : Src) (h : Serializable t x) (hn : ¬ HasNul x)
    (hl : (enc (.crate !c.bigEndian) t (meaning (.crate !c.bigEndian) t x)).length < 2 ^ 63) :
    serializeToVec ⟨c.overflowChecks, c.debugAssertions, !c.bigEndian, c.spacesAddr, c.staticIdx⟩ t x =
      .ok (enc (.crate c.bigEndian) t (swap t (meaning (.crate !c.bigEndian) t x))) := by
  have e : enc (.crate c.bigEndian) t (swap t (meaning (.crate !c.bigEndian) t x)) =
      enc (.crate !c.bigEndian) t (meaning (.crate !c.bigEndian) t x) := (enc_swap c.bigEndian true t _).symm
  rw [e]
  exact vec_good (c := c.flip) h hn hl

/-- What one machine writes, the other reads as the value with the bytes of numbers reversed (if the value
    survives the round trip at all, see C40).  Strings, lengths, and which variant is which are the same. -/
theorem c63_foreign (c : Cfg) (t : Ty) (x : Src) (addr : Nat) (h : Serializable t x) (hn : ¬ HasNul x) (hsm : Small t)
    (ha : Spec.align t ∣ addr) (hl : (bytesOf c t x).length < 2 ^ 63)
    (he : EvenEnds (.crate c.bigEndian) t (meaning (.crate c.bigEndian) t x)) :
    ∃ b, serializeToVec c t x = .ok b ∧
      readAs ⟨c.overflowChecks, c.debugAssertions, !c.bigEndian, c.spacesAddr, c.staticIdx⟩ t ⟨addr, b⟩ =
        .ok (swap t (meaning (.crate c.bigEndian) t x)) := by
  obtain ⟨b, h1, h2⟩ := c40_round_trip_partial c t x addr h hn hsm ha hl
  have hb : b = bytesOf c t x := Res.ok.inj (h1.symm.trans (vec_good h hn (by omega)))
  refine ⟨b, h1, ?_⟩
  have h3 := (c63_read c.flip t ⟨addr, b⟩ h.ex hsm ha (by rw [hb]; exact hl)).1
    (swap t (meaning (.crate c.bigEndian) t x))
  have e : (⟨c.flip.overflowChecks, c.flip.debugAssertions, !c.flip.bigEndian, c.flip.spacesAddr, c.flip.staticIdx⟩ : Cfg) = c :=
    flip_flip c
  rw [e] at h3
  exact h3.2 ⟨_, h2.2 he, rfl⟩

example : readAs ⟨true, true, false, 4097, 3⟩ (.tuple [.S, .Q, .V]) ⟨64, [97, 0, 1, 2, 0, 0, 0, 0, 7, 8, 0, 113, 2]⟩ =
      .ok (.tup [.str [97], .num 513, .variant [113] [7, 8]]) ∧
    readAs ⟨true, true, true, 4097, 3⟩ (.tuple [.S, .Q, .V]) ⟨64, [97, 0, 1, 2, 0, 0, 0, 0, 7, 8, 0, 113, 2]⟩ =
      .ok (.tup [.str [97], .num 258, .variant [113] [7, 8]]) ∧ swapNum 2 513 = 258 := ⟨by rfl, by rfl, by decide⟩

example : serializeToVec ⟨true, true, true, 4097, 3⟩ (.tuple [.S, .Q]) (.tup [.str [97], .num 513]) = .ok [97, 0, 2, 1, 2] ∧
    serializeToVec ⟨true, true, false, 4097, 3⟩ (.tuple [.S, .Q]) (.tup [.str [97], .num 513]) = .ok [97, 0, 1, 2, 2] :=
  ⟨by rfl, by rfl⟩

end GV.Props
