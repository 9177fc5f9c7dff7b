import Verif.Model.Deser
import Verif.Spec.Decode
import Verif.Proofs.Memory
import Verif.Proofs.Generate
import Verif.Proofs.RustLayout
/-
Helper lemmas about framing offsets, casts and variable-width arrays.
-/
namespace GV

/-! ### Numbers and offset widths -/

theorem fromLe_eq (b : Bytes) : fromLe b = Spec.le b := by
  induction b with
  | nil => rfl
  | cons x xs ih => simp [fromLe, Spec.le, ih]

theorem fromNe_eq (c : Cfg) (b : Bytes) : fromNe c b = Spec.number c.bigEndian b := by
  unfold fromNe Spec.number
  cases c.bigEndian <;> simp [fromLe_eq]

theorem offsetSize_eq (n : Nat) : offsetSize n = Spec.offsetWidth n := by
  unfold offsetSize Spec.offsetWidth
  simp only [Nat.reducePow]
  repeat' split
  all_goals omega

theorem le_cons (x : UInt8) (b : Bytes) : Spec.le (x :: b) = x.toNat + 256 * Spec.le b := rfl

theorem le_lt (b : Bytes) : Spec.le b < 256 ^ b.length := by
  induction b with
  | nil => simp [Spec.le]
  | cons x xs ih =>
    rw [le_cons, List.length_cons, Nat.pow_succ]
    have := x.toNat_lt
    omega

theorem le_lt_of_length {b : Bytes} {w : Nat} (h : b.length ≤ w) : Spec.le b < 256 ^ w :=
  Nat.lt_of_lt_of_le (le_lt b) (Nat.pow_le_pow_right (by decide) h)

/-- Offset widths. -/
def IsWidth (w : Nat) : Prop := w = 1 ∨ w = 2 ∨ w = 4 ∨ w = 8

theorem offsetWidth_isWidth {n : Nat} (h : n ≠ 0) : IsWidth (Spec.offsetWidth n) := by
  unfold Spec.offsetWidth IsWidth
  simp only [Nat.reducePow]
  repeat' split
  all_goals omega

theorem offsetWidth_le {n : Nat} : Spec.offsetWidth n ≤ n := by
  unfold Spec.offsetWidth
  simp only [Nat.reducePow]
  repeat' split
  all_goals omega

theorem offsetWidth_zero : Spec.offsetWidth 0 = 0 := rfl

theorem offsetWidth_le4 {n : Nat} (h : n < 2 ^ 32) : Spec.offsetWidth n ≤ 4 := by
  unfold Spec.offsetWidth
  simp only [Nat.reducePow] at *
  repeat' split
  all_goals omega

theorem IsWidth.pos {w : Nat} (h : IsWidth w) : 0 < w := by
  rcases h with h | h | h | h <;> omega

theorem sub_length {b : Bytes} {lo hi : Nat} (h : hi ≤ b.length) : (Spec.sub b lo hi).length = hi - lo := by
  simp only [Spec.sub, List.length_drop, List.length_take]; omega

theorem sub_length_le (b : Bytes) (lo hi : Nat) : (Spec.sub b lo hi).length ≤ hi - lo := by
  simp only [Spec.sub, List.length_drop, List.length_take]; omega

theorem sub_length_le' (b : Bytes) (lo hi : Nat) : (Spec.sub b lo hi).length ≤ b.length := by
  simp only [Spec.sub, List.length_drop, List.length_take]; omega

theorem sub_drop (b : Bytes) (p lo hi : Nat) :
    Spec.sub (b.drop p) lo hi = Spec.sub b (p + lo) (p + hi) := by
  simp only [Spec.sub, List.take_drop, List.drop_drop]

theorem sub_take (b : Bytes) {p lo hi : Nat} (h : hi ≤ p) :
    Spec.sub (b.take p) lo hi = Spec.sub b lo hi := by
  simp only [Spec.sub, List.take_take, Nat.min_eq_left h]

theorem sub_full (b : Bytes) (lo : Nat) : Spec.sub b lo b.length = b.drop lo := by
  simp [Spec.sub]

/-- Offsets of at most `w` bytes. -/
theorem readUint_ok {c : Cfg} {data : Bytes} {w n : Nat} (hw : IsWidth w)
    (hl : data.length < 2 ^ 63) (h : n * w + w ≤ data.length) :
    readUint c data w n = .ok (Spec.le (Spec.sub data (n * w) (n * w + w))) := by
  have hm : n * w < usizeMod := by unfold usizeMod; omega
  unfold readUint
  rw [umul_ok hm]
  simp only [Res.bind_ok]
  have h0 : w ≠ 0 := by have := hw.pos; omega
  rw [if_neg h0]
  by_cases h1 : w = 1
  · subst h1
    rw [if_pos rfl]
    have hlt : n * 1 < data.length := by omega
    rw [List.getElem?_eq_getElem hlt]
    have : Spec.sub data (n * 1) (n * 1 + 1) = [data[n * 1]] := by
      unfold Spec.sub
      rw [List.drop_take, show n * 1 + 1 - n * 1 = 1 by omega, List.take_one,
        List.head?_drop, List.getElem?_eq_getElem hlt]
      rfl
    rw [this]
    rfl
  · rw [if_neg h1, uadd_ok (by unfold usizeMod; omega)]
    simp only [Res.bind_ok]
    rw [if_pos ⟨by omega, h⟩, fromLe_eq]
    rfl

/-- Reading beyond the data panics, in builds where indices cannot wrap around. -/
theorem readUint_oob {c : Cfg} {data : Bytes} {w n : Nat} (hw : IsWidth w)
    (hn : n * w + w < usizeMod) (h : data.length < n * w + w) :
    readUint c data w n = .fail .bounds := by
  unfold readUint
  rw [umul_ok (by omega)]
  simp only [Res.bind_ok]
  have h0 : w ≠ 0 := by have := hw.pos; omega
  rw [if_neg h0]
  by_cases h1 : w = 1
  · subst h1
    rw [if_pos rfl, List.getElem?_eq_none (by omega)]
  · rw [if_neg h1, uadd_ok hn]
    simp only [Res.bind_ok]
    rw [if_neg (by omega)]

/-! ### The frame of a variable-width array -/

/-- Offset size used by array code. -/
def arrW (b : Bytes) : Nat := if b = [] then 1 else Spec.offsetWidth b.length

theorem arrW_isWidth (b : Bytes) : IsWidth (arrW b) := by
  unfold arrW
  split
  · exact Or.inl rfl
  · rename_i h
    exact offsetWidth_isWidth (by simpa using h)

theorem arrW_le4 {b : Bytes} (h : b.length < 2 ^ 32) : arrW b ≤ 4 := by
  unfold arrW
  split
  · omega
  · exact offsetWidth_le4 h

theorem arrFrame_body_le (b : Bytes) : (Spec.arrFrame b).1 ≤ b.length := by
  unfold Spec.arrFrame
  simp only
  split <;> simp only <;> omega

theorem arrFrame_stops (b : Bytes) :
    (Spec.arrFrame b).2 = (List.range ((Spec.arrFrame b).2.length)).map fun k =>
      Spec.le (Spec.sub b ((Spec.arrFrame b).1 + k * arrW b) ((Spec.arrFrame b).1 + k * arrW b + arrW b)) := by
  unfold Spec.arrFrame arrW
  simp only
  split
  · rfl
  · rename_i h
    have hb : b ≠ [] := fun hb => h (Or.inl hb)
    simp [hb]

theorem arrFrame_count (b : Bytes) :
    (Spec.arrFrame b).2.length * arrW b = b.length - (Spec.arrFrame b).1 := by
  unfold Spec.arrFrame arrW
  simp only
  split
  · simp
  · rename_i h
    have hb : b ≠ [] := fun hb => h (Or.inl hb)
    simp only [List.length_map, List.length_range, if_neg hb]
    apply Nat.div_mul_cancel
    apply Nat.dvd_of_mod_eq_zero
    by_cases h' : (b.length - Spec.le (b.drop (b.length - Spec.offsetWidth b.length))) %
        Spec.offsetWidth b.length = 0
    · exact h'
    · exact absurd (Or.inr (Or.inr h')) h

theorem arrFrame_len (b : Bytes) :
    (Spec.arrFrame b).2.length = (b.length - (Spec.arrFrame b).1) / arrW b := by
  rw [← arrFrame_count, Nat.mul_div_cancel _ (arrW_isWidth b).pos]

theorem arrFrame_get (b : Bytes) {k : Nat} (h : k < (Spec.arrFrame b).2.length) :
    (Spec.arrFrame b).2[k] = Spec.le
      (Spec.sub (b.drop (Spec.arrFrame b).1) (k * arrW b) (k * arrW b + arrW b)) := by
  rw [sub_drop]
  have := List.getElem_of_eq (arrFrame_stops b) h
  rw [this, List.getElem_map, List.getElem_range, Nat.add_assoc]

theorem arrFrame_bound (b : Bytes) {k : Nat} (h : k < (Spec.arrFrame b).2.length) :
    k * arrW b + arrW b ≤ b.length - (Spec.arrFrame b).1 := by
  rw [← arrFrame_count, ← Nat.succ_mul]
  exact Nat.mul_le_mul_right _ h

theorem stops_lt {b : Bytes} (hb : b.length < 2 ^ 32) : ∀ x ∈ (Spec.arrFrame b).2, x < 2 ^ 32 := by
  intro x hx
  obtain ⟨k, hk, rfl⟩ := List.getElem_of_mem hx
  rw [arrFrame_get b hk]
  have h1 := sub_length_le (b.drop (Spec.arrFrame b).1) (k * arrW b) (k * arrW b + arrW b)
  have := le_lt_of_length (b := Spec.sub (b.drop (Spec.arrFrame b).1) (k * arrW b) (k * arrW b + arrW b))
    (w := 4) (by have := arrW_le4 hb; omega)
  simpa using this

theorem readLast_ok {c : Cfg} {b : Bytes} (hl : b.length < 2 ^ 63) :
    readLastFrameOffset c b = .ok (arrW b, (Spec.arrFrame b).1) := by
  unfold readLastFrameOffset
  simp only [offsetSize_eq]
  by_cases hb : b = []
  · subst hb; rfl
  · have hne : b.length ≠ 0 := by simpa using hb
    have hw := offsetWidth_isWidth hne
    have hwp := hw.pos
    have hle := offsetWidth_le (n := b.length)
    rw [if_neg (by omega), usub_ok hle]
    simp only [Res.bind_ok]
    rw [if_pos (by omega), readUint_ok (n := 0) hw (by simp only [List.length_drop]; omega)
      (by simp only [List.length_drop]; omega)]
    have hs : Spec.sub (b.drop (b.length - Spec.offsetWidth b.length)) (0 * Spec.offsetWidth b.length)
        (0 * Spec.offsetWidth b.length + Spec.offsetWidth b.length) =
        b.drop (b.length - Spec.offsetWidth b.length) := by
      simp only [Spec.sub, Nat.zero_mul, Nat.zero_add, List.drop_zero]
      rw [List.take_of_length_le (by simp only [List.length_drop]; omega)]
    rw [hs]
    simp only [Res.bind_ok, Spec.arrFrame, arrW, hb, false_or, if_false]
    by_cases h1 : Spec.le (b.drop (b.length - Spec.offsetWidth b.length)) > b.length
    · simp only [h1, true_or, if_true, Res.pure_eq]
    · by_cases h2 : (b.length - Spec.le (b.drop (b.length - Spec.offsetWidth b.length))) %
          Spec.offsetWidth b.length = 0
      · simp only [h1, h2, if_true, if_false, Res.pure_eq, ne_eq, not_true, or_self]
      · simp only [h1, h2, if_true, if_false, Res.pure_eq, ne_eq, not_false_iff, or_true]

/-! ### Casts -/

/-- The type string is not absurdly long, so that layout arithmetic cannot overflow. -/
def Small (t : Ty) : Prop := t.show.length < 2 ^ 40

instance (t : Ty) : Decidable (Small t) := inferInstanceAs (Decidable (_ < _))

/-- The bytes of a static default value. -/
def dfltBytes (t : Ty) : Bytes :=
  match Spec.size t with
  | some n => List.replicate n 0
  | none => []

/-- What a cast to `t` leaves of the bytes. -/
def castBytes (t : Ty) (b : Bytes) : Bytes :=
  match Spec.size t with
  | some n => if b.length = n then b else List.replicate n 0
  | none => if Spec.badSize t b then [] else b

theorem mkRef_ok {c : Cfg} {ra : Nat} {s : Slice} (h : ra ∣ s.addr) : mkRef c ra s = .ok s := by
  simp [mkRef, isAligned_iff.2 h]

theorem tryFromAligned_ok {c : Cfg} {t : Ty} {s : Slice} (hx : Expands t)
    (ha : Spec.align t ∣ s.addr) :
    tryFromAligned c t s = .ok (if castBytes t s.bytes = s.bytes ∧
      (Spec.size t).isSome ∨ (Spec.size t).isNone ∧ Spec.badSize t s.bytes = false
      then some s else none) := by
  unfold tryFromAligned
  rw [sizeOf_eq]
  cases hs : Spec.size t with
  | some n =>
    simp only [tryCastSliceTo, rustLayout_ok t n hs hx, Res.bind_ok, mkRef_ok ha]
    by_cases h : n = s.len
    · subst h; simp [castBytes, hs, Slice.len]
    · rw [if_neg h, if_neg]
      · rfl
      · rintro (⟨h1, _⟩ | ⟨h1, _⟩)
        · apply h
          simp only [castBytes, hs] at h1
          split at h1
          · rename_i h2; exact h2.symm
          · simp [Slice.len, ← h1]
        · simp at h1
  | none =>
    simp only [Option.isSome_none, Option.isNone_none, Bool.false_eq_true, and_false, false_or, true_and]
    cases t with
    | A e =>
      simp only
      rw [sizeOf_eq]
      cases he : Spec.size e with
      | none => simp [Spec.badSize, he]
      | some n =>
        have hxe := expands_A.1 hx
        have hae : Spec.align e ∣ s.addr := by simpa [Spec.align] using ha
        have hn := (size_pos_dvd e n he).1
        simp only [castSlice, rustLayout_ok e n he hxe, Res.bind_ok, alignOf_eq, Spec.align,
          Nat.lt_irrefl, if_false, isAligned_iff.2 hae, Bool.not_true, Bool.and_false,
          Bool.false_eq_true, if_true]
        rw [if_neg (by omega)]
        by_cases h : s.len % n = 0
        · have h' : s.bytes.length % n = 0 := h
          simp [h, Spec.badSize, he, h']
        · have h' : ¬ s.bytes.length % n = 0 := h
          simp [h, Spec.badSize, he, h']
    | _ => simp [Spec.badSize]

/-- Reference to a static default of type `t`. -/
def IsStatic (c : Cfg) (t : Ty) (r : Slice) : Prop :=
  r.bytes = dfltBytes t ∧
    (r.addr = c.staticIdx * Spec.align t ∨
      (Spec.size t = none ∧ r.addr = c.spacesAddr + gap (Spec.align t) c.spacesAddr))

theorem defaultRef_ok {c : Cfg} {t : Ty} (hx : Expands t) :
    ∃ r, defaultRef c t = .ok r ∧ Spec.align t ∣ r.addr ∧ IsStatic c t r := by
  have hal := specAlign_isAl t
  unfold defaultRef
  rw [sizeOf_eq]
  cases hs : Spec.size t with
  | some n =>
    simp only [rustLayout_ok t n hs hx, Res.bind_ok]
    exact ⟨_, rfl, Nat.dvd_mul_left _ _, by simp [dfltBytes, hs], Or.inl rfl⟩
  | none =>
    have he := emptyAligned_ok (c := c) hal
    have hemp : ∃ r, emptyAligned c (alignOf t) = .ok r ∧ Spec.align t ∣ r.addr ∧ IsStatic c t r := by
      rw [alignOf_eq, he]
      exact ⟨_, rfl, gap_dvd hal _, by simp [dfltBytes, hs], Or.inr ⟨hs, rfl⟩⟩
    cases t with
    | A e =>
      simp only
      rw [sizeOf_eq]
      cases he : Spec.size e with
      | none => exact hemp
      | some n =>
        simp only [rustLayout_ok e n he (expands_A.1 hx), Res.bind_ok]
        refine ⟨_, rfl, ?_, by simp [dfltBytes, hs], Or.inl ?_⟩
        · simp only [Spec.align]; exact Nat.dvd_mul_left _ _
        · simp only [Spec.align]
    | S => exact ⟨_, rfl, Nat.one_dvd _, rfl, Or.inl (by simp [Spec.align])⟩
    | O => exact ⟨_, rfl, Nat.one_dvd _, rfl, Or.inl (by simp [Spec.align])⟩
    | G => exact ⟨_, rfl, Nat.one_dvd _, rfl, Or.inl (by simp [Spec.align])⟩
    | _ => exact hemp

theorem castBytes_of_bad {t : Ty} {b : Bytes} (h : castBytes t b ≠ b ∨ (Spec.size t).isNone)
    (h2 : (Spec.size t).isSome ∨ Spec.badSize t b = true) : castBytes t b = dfltBytes t := by
  unfold castBytes dfltBytes at *
  cases hs : Spec.size t with
  | some n =>
    simp only [hs] at h ⊢
    split
    · rename_i hl; simp [hl] at h
    · rfl
  | none =>
    simp only [hs, Option.isSome_none, Bool.false_eq_true, false_or] at h2 ⊢
    rw [if_pos h2]

/-- `from_aligned_slice` on aligned data: the data itself if it has a suitable size, else a static
    default. -/
theorem fromAligned_ok {c : Cfg} {t : Ty} {s : Slice} (hx : Expands t)
    (ha : Spec.align t ∣ s.addr) :
    ∃ r, fromAligned c t s = .ok r ∧ Spec.align t ∣ r.addr ∧ r.bytes = castBytes t s.bytes ∧
      (r = s ∨ IsStatic c t r) := by
  unfold fromAligned
  rw [tryFromAligned_ok hx ha]
  simp only [Res.bind_ok]
  by_cases h : castBytes t s.bytes = s.bytes ∧ (Spec.size t).isSome ∨
      (Spec.size t).isNone ∧ Spec.badSize t s.bytes = false
  · rw [if_pos h]
    refine ⟨s, rfl, ha, ?_, Or.inl rfl⟩
    rcases h with h | h
    · exact h.1.symm
    · unfold castBytes
      cases hs : Spec.size t with
      | some n => simp [hs] at h
      | none => simp [h.2]
  · rw [if_neg h]
    obtain ⟨r, h1, h2, h3⟩ := defaultRef_ok (c := c) hx
    refine ⟨r, h1, h2, ?_, Or.inr h3⟩
    rw [h3.1]
    have h5 : Spec.badSize t s.bytes = false ∨ Spec.badSize t s.bytes = true := by
      cases Spec.badSize t s.bytes <;> simp
    cases hs : Spec.size t with
    | some n =>
      simp only [hs, Option.isSome_some, and_true, Option.isNone_some, Bool.false_eq_true, false_and, or_false] at h
      exact (castBytes_of_bad (Or.inl h) (Or.inl (by simp [hs]))).symm
    | none =>
      simp only [hs, Option.isSome_none, Bool.false_eq_true, and_false, Option.isNone_none, true_and, false_or] at h
      rcases h5 with h5 | h5
      · exact absurd h5 h
      · exact (castBytes_of_bad (Or.inr (by simp [hs])) (Or.inr h5)).symm

theorem castBytes_idem (t : Ty) (b : Bytes) : castBytes t (castBytes t b) = castBytes t b := by
  unfold castBytes
  cases hs : Spec.size t with
  | some n =>
    simp only
    by_cases h : b.length = n
    · simp [h]
    · rw [if_neg h, if_pos (by simp)]
  | none =>
    simp only
    by_cases h : Spec.badSize t b = true
    · rw [if_pos h]; split <;> rfl
    · rw [if_neg h, if_neg h]

theorem castBytes_dflt (t : Ty) : castBytes t (dfltBytes t) = dfltBytes t := by
  unfold castBytes dfltBytes
  cases hs : Spec.size t with
  | some n => simp
  | none => simp

/-! ### Elements of a variable-width array -/

/-- An element of a variable-width array as the code computes it, with the bounds checks resolved. -/
def elemAt (c : Cfg) (e : Ty) (s : Slice) (body prev stop : Nat) : Res Slice :=
  let al := Spec.align e
  let d : Slice := if Spec.roundUp prev al ≤ stop ∧ stop ≤ body then
      ⟨s.addr + Spec.roundUp prev al, Spec.sub s.bytes (Spec.roundUp prev al) stop⟩
    else ⟨c.spacesAddr + gap al c.spacesAddr, []⟩
  tryFromAligned c e d >>= Res.unwrap

theorem window_ok {c : Cfg} {al : Nat} {s : Slice} {start stop : Nat}
    (ha : al ∣ s.addr) (hs : al ∣ start) (h1 : start ≤ stop) (h2 : stop ≤ s.len) :
    window c al s start stop = .ok ⟨s.addr + start, Spec.sub s.bytes start stop⟩ := by
  have h2' : stop ≤ s.bytes.length := h2
  unfold window idxTo Slice.to
  rw [if_pos h2]
  simp only [Res.bind_ok]
  rw [unchecked_ok (s := ⟨s.addr, s.bytes.take stop⟩) (Or.inr ha)]
  simp only [Res.bind_ok, idxAFrom, Slice.from_, Slice.len, List.length_take]
  rw [if_pos (by omega)]
  simp only [Res.bind_ok]
  exact unchecked_ok (Or.inr (Nat.dvd_add ha hs))

theorem iterNext_none {c : Cfg} {e : Ty} {it : ArrIter} (h : it.offsets.length ≤ it.offsetIdx) :
    iterNext c e it = .ok (none, it) := by
  simp [iterNext, h]

/-- State of the iterator over `b` after `k` items, the last of which ended at `prev`. -/
def iterState (s : Slice) (k prev : Nat) : ArrIter :=
  ⟨⟨s.addr, s.bytes.take (Spec.arrFrame s.bytes).1⟩, s.bytes.drop (Spec.arrFrame s.bytes).1, prev,
    k * arrW s.bytes, arrW s.bytes⟩

theorem intoIter_ok {c : Cfg} {e : Ty} {s : Slice} (ha : Spec.align e ∣ s.addr)
    (hl : s.len < 2 ^ 63) : intoIter c e s = .ok (iterState s 0 0) := by
  unfold intoIter
  rw [readLast_ok hl]
  simp only [Res.bind_ok, alignOf_eq]
  have hb := arrFrame_body_le s.bytes
  unfold splitAt
  rw [if_pos (show (Spec.arrFrame s.bytes).1 ≤ s.len from hb),
    unchecked_ok (s := ⟨s.addr, s.bytes.take (Spec.arrFrame s.bytes).1⟩) (Or.inr ha)]
  simp [iterState]

theorem iterNext_ok {c : Cfg} {e : Ty} {s : Slice} (ha : Spec.align e ∣ s.addr)
    (hl : s.len < 2 ^ 63) {k prev : Nat} (hk : k < (Spec.arrFrame s.bytes).2.length)
    (hp : prev < 2 ^ 63) :
    iterNext c e (iterState s k prev) =
      (elemAt c e s (Spec.arrFrame s.bytes).1 prev (Spec.arrFrame s.bytes).2[k] >>= fun r =>
        .ok (some r, iterState s (k + 1) (Spec.arrFrame s.bytes).2[k])) := by
  have hal := specAlign_isAl e
  have hl' : s.bytes.length < 2 ^ 63 := hl
  have hw := arrW_isWidth s.bytes
  have hwp := hw.pos
  have hbnd := arrFrame_bound s.bytes hk
  have hbody := arrFrame_body_le s.bytes
  have hru := roundUp_lt hal.pos prev
  have hal8 : Spec.align e ≤ 8 := by rcases hal with h | h | h | h <;> omega
  have hw8 : arrW s.bytes ≤ 8 := by rcases hw with h | h | h | h <;> omega
  have hidx : ¬ (iterState s k prev).offsetIdx ≥ (iterState s k prev).offsets.length := by
    simp only [iterState, List.length_drop]; omega
  unfold iterNext
  rw [if_neg hidx]
  simp only [iterState, alignOf_eq]
  rw [alignOffset_ok hal (by unfold usizeMod; omega)]
  simp only [Res.bind_ok]
  have hrd : readUint c (List.drop (k * arrW s.bytes) (List.drop (Spec.arrFrame s.bytes).1 s.bytes))
      (arrW s.bytes) 0 = .ok (Spec.arrFrame s.bytes).2[k] := by
    rw [readUint_ok hw (by simp only [List.length_drop]; omega)
      (by simp only [List.length_drop]; omega), sub_drop, arrFrame_get s.bytes hk]
    simp
  rw [hrd, uadd_ok (by unfold usizeMod; omega)]
  simp only [Res.bind_ok]
  have hlen : (⟨s.addr, s.bytes.take (Spec.arrFrame s.bytes).1⟩ : Slice).len =
      (Spec.arrFrame s.bytes).1 := by
    simp only [Slice.len, List.length_take]; omega
  have hsucc : k * arrW s.bytes + arrW s.bytes = (k + 1) * arrW s.bytes := by
    rw [Nat.succ_mul]
  unfold elemAt
  simp only [hlen, hsucc]
  by_cases h : Spec.roundUp prev (Spec.align e) ≤ (Spec.arrFrame s.bytes).2[k] ∧
      (Spec.arrFrame s.bytes).2[k] ≤ (Spec.arrFrame s.bytes).1
  · rw [if_neg (by omega), if_pos h, window_ok (s := ⟨s.addr, s.bytes.take (Spec.arrFrame s.bytes).1⟩)
      ha (roundUp_dvd _ _) h.1 (by rw [hlen]; exact h.2)]
    simp only [Res.bind_ok, sub_take _ h.2]
    cases tryFromAligned c e ⟨s.addr + Spec.roundUp prev (Spec.align e),
      Spec.sub s.bytes (Spec.roundUp prev (Spec.align e)) (Spec.arrFrame s.bytes).2[k]⟩ with
    | fail f => rfl
    | ok o => cases o <;> rfl
  · rw [if_pos (by omega), if_neg h, emptyAligned_ok hal]
    simp only [Res.bind_ok]
    cases tryFromAligned c e ⟨c.spacesAddr + gap (Spec.align e) c.spacesAddr, []⟩ with
    | fail f => rfl
    | ok o => cases o <;> rfl

theorem iterNext_end {c : Cfg} {e : Ty} {s : Slice} {k prev : Nat}
    (hk : (Spec.arrFrame s.bytes).2.length ≤ k) :
    iterNext c e (iterState s k prev) = .ok (none, iterState s k prev) := by
  apply iterNext_none
  simp only [iterState, List.length_drop]
  rw [← arrFrame_count]
  exact Nat.mul_le_mul_right _ hk

/-- All elements, in order. -/
def elemRefs (c : Cfg) (e : Ty) (s : Slice) (body : Nat) : Nat → List Nat → Res (List Slice)
  | _, [] => .ok []
  | prev, stop :: stops => do
    let r ← elemAt c e s body prev stop
    let rs ← elemRefs c e s body stop stops
    pure (r :: rs)

theorem collect_ok {c : Cfg} {e : Ty} {s : Slice} (ha : Spec.align e ∣ s.addr)
    (hl : s.len < 2 ^ 63) (hst : ∀ x ∈ (Spec.arrFrame s.bytes).2, x < 2 ^ 63) (fuel : Nat) :
    ∀ k prev, prev < 2 ^ 63 → k ≤ (Spec.arrFrame s.bytes).2.length →
    (Spec.arrFrame s.bytes).2.length < k + fuel →
    collectIter c e fuel (iterState s k prev) =
      elemRefs c e s (Spec.arrFrame s.bytes).1 prev ((Spec.arrFrame s.bytes).2.drop k) := by
  induction fuel with
  | zero =>
    intro k prev _ _ hf
    omega
  | succ fuel ih =>
    intro k prev hp hkl hf
    simp only [collectIter]
    by_cases hk : k < (Spec.arrFrame s.bytes).2.length
    · rw [iterNext_ok ha hl hk hp, List.drop_eq_getElem_cons hk]
      simp only [elemRefs]
      cases elemAt c e s (Spec.arrFrame s.bytes).1 prev (Spec.arrFrame s.bytes).2[k] with
      | fail f => rfl
      | ok r =>
        simp only [Res.bind_ok]
        rw [ih (k + 1) _ (hst _ (List.getElem_mem _)) (by omega) (by omega)]
    · rw [iterNext_end (by omega), List.drop_of_length_le (by omega)]
      rfl

end GV
