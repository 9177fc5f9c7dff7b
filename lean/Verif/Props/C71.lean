import Verif.Model.Convert
import Verif.Proofs.Enc
import Verif.Proofs.Ser
import Verif.Proofs.Endian
import Verif.Props.C10_C19
/-
C71: offsets, aligned slices and slices of numbers compare and convert as the plain numbers and bytes
they hold.
-/
namespace GV.Props
open GV

/-- C71 as stated for offsets: any two can be compared, and are equal exactly if their numbers are. -/
def C71_full : Prop := ∀ a b : Nat, offEqOff a b = some (decide (a = b))

/-- False: `derive(PartialEq)` asks for `A: PartialEq`, which none of the marker types has, so that the
    comparison does not compile. -/
theorem c71_full_false : ¬ C71_full := by
  intro h
  exact absurd (h 8 8) (by decide)

/-- Offsets and `usize`s: equality and order are those of the numbers, whichever comes first; converting
    to `usize` and back gives the same offset; converting from `usize` works exactly for multiples and
    keeps the number. -/
theorem c71_offset_partial (al a n : Nat) (ha : al ∣ a) :
    (offEqUsize a n = true ↔ a = n) ∧ (usizeEqOff n a = true ↔ a = n) ∧
    (offCmpUsize a n = some .lt ↔ a < n) ∧ (offCmpUsize a n = some .eq ↔ a = n) ∧
    (offCmpUsize a n = some .gt ↔ n < a) ∧
    usizeCmpOff n a = (offCmpUsize a n).map Ordering.swap ∧
    offTryFrom al (offToUsize a) = some a ∧
    (∀ b, offTryFrom al n = some b ↔ al ∣ n ∧ offToUsize b = n) := by
  refine ⟨?_, ?_, ?_, ?_, ?_, ?_, ?_, ?_⟩
  · simp only [offEqUsize, beq_iff_eq]; exact eq_comm
  · simp only [usizeEqOff, beq_iff_eq]; exact eq_comm
  · simp only [offCmpUsize, usizeCmp]; split <;> (try split) <;> simp <;> omega
  · simp only [offCmpUsize, usizeCmp]; split <;> (try split) <;> simp <;> omega
  · simp only [offCmpUsize, usizeCmp]; split <;> (try split) <;> simp <;> omega
  · simp only [offCmpUsize, usizeCmpOff, usizeCmp, Option.map_some, Option.some.injEq]
    rcases Nat.lt_trichotomy a n with h | h | h
    · have : ¬ n < a := by omega
      have : n ≠ a := by omega
      simp [*]
    · simp [h]
    · have : ¬ a < n := by omega
      have : a ≠ n := by omega
      simp [*]
  · exact (c10_try_new_iff al a).1.2 ha
  · intro b
    simp only [offTryFrom, tryNew, offToUsize, Nat.dvd_iff_mod_eq_zero]
    by_cases h : n % al = 0 <;> simp [h, eq_comm]

example : (4 ∣ 8) ∧ offCmpUsize 8 9 = some .lt ∧ usizeCmpOff 9 8 = some .gt ∧ offTryFrom 4 9 = none := by decide

/-- Aligned slices are equal exactly if they have the same bytes, wherever they are; that is, if they
    are equally long and indexing gives the same bytes.  Indexing panics exactly past the end. -/
theorem c71_slices (a b : Slice) :
    (alignedEq a b = true ↔ a.bytes = b.bytes) ∧
    (alignedEq a b = true ↔ a.len = b.len ∧ ∀ i, i < a.len → idxByte a i = idxByte b i) ∧
    (∀ i, idxByte a i = .fail .bounds ↔ a.len ≤ i) ∧
    (∀ i x, idxByte a i = .ok x ↔ a.bytes[i]? = some x) := by
  have hb : alignedEq a b = true ↔ a.bytes = b.bytes := by simp [alignedEq]
  have hx : ∀ (s : Slice) i x, idxByte s i = .ok x ↔ s.bytes[i]? = some x := by
    intro s i x; unfold idxByte; split <;> simp_all
  refine ⟨hb, ?_, ?_, hx a⟩
  · rw [hb]
    constructor
    · intro h; exact ⟨by simp [Slice.len, h], fun i _ => by simp [idxByte, h]⟩
    · rintro ⟨h1, h2⟩
      refine List.ext_getElem h1 fun i hi hi' => ?_
      have := (h2 i hi)
      rw [(hx a i a.bytes[i]).2 (List.getElem?_eq_getElem hi)] at this
      have := (hx b i _).1 this.symm
      rw [List.getElem?_eq_getElem hi'] at this
      exact (Option.some.inj this).symm
  · intro i
    unfold idxByte
    split
    · rename_i x h
      have := (List.getElem?_eq_some_iff.1 h).1
      simp [Slice.len]; omega
    · rename_i h
      simpa [Slice.len] using h

example : alignedEq ⟨8, [1, 2]⟩ ⟨24, [1, 2]⟩ = true ∧ idxByte ⟨8, [1, 2]⟩ 1 = .ok 2 := by decide

theorem nums_flat (w : Nat) : ∀ (k : Nat) (b : Bytes), b.length = k * w →
    ((List.range k).map fun i => (b.drop (i * w)).take w).flatten = b := by
  intro k
  induction k with
  | zero => intro b h; simp at h; simp [h]
  | succ k ih =>
    intro b h
    rw [List.range_succ_eq_map]
    simp only [List.map_cons, List.map_map, List.flatten_cons, Nat.zero_mul, List.drop_zero]
    have := ih (b.drop w) (by rw [List.length_drop, h, Nat.succ_mul]; omega)
    simp only [List.drop_drop] at this
    have e : ((fun i => (b.drop (i * w)).take w) ∘ Nat.succ) = fun i => (b.drop (w + i * w)).take w := by
      funext i; simp only [Function.comp, Nat.succ_mul, Nat.add_comm]
    rw [e, this, List.take_append_drop]

theorem nums_bytes (c : Cfg) (b : Bytes) : Spec.numBytes c.bigEndian b.length (fromNe c b) = b := by
  unfold Spec.numBytes fromNe
  cases c.bigEndian with
  | true =>
    simp only [if_true, fromLe_eq]
    have := leBytes_le b.reverse
    rw [List.length_reverse] at this
    rw [this, List.reverse_reverse]
  | false => simp [fromLe_eq, leBytes_le]

theorem fromNe_bound (c : Cfg) (b : Bytes) : fromNe c b < 256 ^ b.length := by
  unfold fromNe
  split
  · have := le_lt b.reverse
    rwa [List.length_reverse, ← fromLe_eq] at this
  · rw [fromLe_eq]; exact le_lt b

/-- Lowering the alignment, shared or mutable, gives the same slice, which is aligned as the new type promises;
    so does taking plain bytes, wherever they are, as aligned to 1. -/
theorem c71_lower (c : Cfg) (a b : Nat) (s : Slice) (hb : b ∣ a) (ha : a ∣ s.addr) :
    asAligned a b s = .ok s ∧ asAlignedMut a b s = .ok s ∧ b ∣ s.addr ∧ bytesAsAligned c s = .ok s := by
  refine ⟨rfl, rfl, Nat.dvd_trans hb ha, ?_⟩
  simp [bytesAsAligned, unchecked, Slice.isAligned, Nat.mod_one]

example : (4 : Nat) ∣ 8 ∧ (8 : Nat) ∣ (Slice.mk 64 [1, 2, 3]).addr ∧ bytesAsAligned dbg ⟨65, [1, 2]⟩ = .ok ⟨65, [1, 2]⟩ :=
  ⟨by decide, by decide, rfl⟩

/-- Converting aligned bytes to a slice of numbers never panics.  It fails exactly if the bytes do not
    divide into numbers; otherwise it gives as many numbers as there is room for, and their bytes in the
    byte order of the machine are the bytes of the slice. -/
theorem c71_numbers (c : Cfg) (t : Ty) (w : Nat) (s : Slice) (ht : castAlign t = some w) (ha : w ∣ s.addr) :
    (¬ w ∣ s.len → tryIntoNums c t s = .ok none) ∧
    (w ∣ s.len → ∃ ns, tryIntoNums c t s = .ok (some ns) ∧ ns.length * w = s.len ∧
      (∀ x ∈ ns, x < 256 ^ w) ∧ (ns.map (Spec.numBytes c.bigEndian w)).flatten = s.bytes) := by
  have hl : rustLayout t = .ok (w, w) := by
    cases t <;> simp [castAlign] at ht <;> subst ht <;> rfl
  have hw : 0 < w := by
    cases t <;> simp [castAlign] at ht <;> omega
  have hal : s.isAligned w = true := by
    simp [Slice.isAligned, Nat.mod_eq_zero_of_dvd ha]
  have hc : castSlice c w t s = .ok (if s.len % w = 0 then some s else none) := by
    simp only [castSlice, hl, Res.bind_ok, Nat.lt_irrefl, if_false, hal, Bool.not_true, Bool.and_false,
      Bool.false_eq_true, if_true, Nat.pos_iff_ne_zero.1 hw]
    split <;> rfl
  refine ⟨fun h => ?_, fun h => ?_⟩
  · rw [Nat.dvd_iff_mod_eq_zero] at h
    simp [tryIntoNums, ht, hc, h]
  · have hm := Nat.mod_eq_zero_of_dvd h
    refine ⟨(sliceElems w s).map fun x => fromNe c x.bytes, ?_, ?_, ?_, ?_⟩
    · simp [tryIntoNums, ht, hc, hm, hl]
    · simp [sliceElems, Nat.div_mul_cancel h]
    · have hlen : ∀ x ∈ sliceElems w s, x.bytes.length = w := by
        intro x hx
        obtain ⟨i, hi, rfl⟩ := List.mem_map.1 hx
        have hi := List.mem_range.1 hi
        have : i * w + w ≤ s.len := by
          have := Nat.mul_le_mul_right w (show i + 1 ≤ s.len / w from hi)
          rw [Nat.div_mul_cancel h, Nat.succ_mul] at this
          exact this
        simp only [Slice.len] at this
        simp [List.length_take, List.length_drop]; omega
      intro x hx
      obtain ⟨y, hy, rfl⟩ := List.mem_map.1 hx
      have := fromNe_bound c y.bytes
      rwa [hlen y hy] at this
    · have hlen : ∀ x ∈ sliceElems w s, x.bytes.length = w := by
        intro x hx
        obtain ⟨i, hi, rfl⟩ := List.mem_map.1 hx
        have hi := List.mem_range.1 hi
        have : i * w + w ≤ s.len := by
          have := Nat.mul_le_mul_right w (show i + 1 ≤ s.len / w from hi)
          rw [Nat.div_mul_cancel h, Nat.succ_mul] at this
          exact this
        simp only [Slice.len] at this
        simp [List.length_take, List.length_drop]; omega
      rw [List.map_map]
      have : (sliceElems w s).map (Spec.numBytes c.bigEndian w ∘ fun x => fromNe c x.bytes)
          = (sliceElems w s).map Slice.bytes := by
        refine List.map_congr_left fun x hx => ?_
        have := nums_bytes c x.bytes
        rwa [hlen x hx] at this
      rw [this, sliceElems, List.map_map]
      exact nums_flat w (s.len / w) s.bytes (by rw [Nat.div_mul_cancel h]; rfl)

example : tryIntoNums dbg .Q ⟨4, [1, 2, 3, 4]⟩ = .ok (some [513, 1027]) ∧
    tryIntoNums dbg .Q ⟨4, [1, 2, 3]⟩ = .ok none ∧ castAlign .Q = some 2 := by decide

/-- The types such a conversion exists for are the numbers, and the alignment asked for is that of the
    format, which is also the size. -/
theorem c71_table (t : Ty) (w : Nat) : castAlign t = some w ↔
    (t = .Y ∨ t = .N ∨ t = .Q ∨ t = .I ∨ t = .U ∨ t = .X ∨ t = .T ∨ t = .D) ∧ Spec.align t = w ∧
      Spec.size t = some w := by
  cases t <;> simp [castAlign, Spec.align, Spec.size]

example : castAlign .D = some 8 ∧ castAlign .B = none := ⟨rfl, rfl⟩

end GV.Props
