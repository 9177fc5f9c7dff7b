import Verif.Proofs.Inj
import Verif.Proofs.SerRun
import Verif.Props.C10_C19
/-
C11, C12: framing offsets as written and as read.
-/
namespace GV.Props
open GV Spec

/-- What `write_offsets` writes after a body of `bw` bytes. -/
def offsetsWritten (c : Cfg) (bw : Nat) (offs : List Nat) : Bytes :=
  (writeOffsets vecWriter c bw offs ⟨(), []⟩).1.got

theorem offsetsWritten_ok {c : Cfg} {bw : Nat} {offs : List Nat}
    (h : bw + (frames bw offs).length < 2 ^ 64) :
    writeOffsets vecWriter c bw offs ⟨(), []⟩ =
      (⟨(), frames bw offs⟩, .ok (bw + (frames bw offs).length)) := by
  rcases writeOffsets_half (w := vecWriter) (c := c) h with ⟨_, ws, hw, ht⟩ | ⟨hf, _⟩
  · rw [ht, runAll_vec, hw]; rfl
  · exact hf.elim

theorem frames_le (bw : Nat) (offs : List Nat) : (frames bw offs).length ≤ 8 * offs.length := by
  rw [frames_length, Nat.mul_comm]
  apply Nat.mul_le_mul_right
  rcases frameWidth_isWidth bw offs.length with h | h | h | h <;> omega

/-! ### C11 -/

/-- After any body and for any offsets within it, `write_offsets` writes all offsets with one width `k`
    and returns the total size; the reader's `offset_size` of the total is `k`; each offset is there in
    full; and with any smaller width `k'` the reader would not look for offsets of that width. -/
theorem c11_width (c : Cfg) (bw : Nat) (offs : List Nat) (hb : ∀ o ∈ offs, o ≤ bw)
    (hl : bw + 8 * offs.length < 2 ^ 64) :
    ∃ bytes k, writeOffsets vecWriter c bw offs ⟨(), []⟩ = (⟨(), bytes⟩, .ok (bw + bytes.length)) ∧
      bytes.length = offs.length * k ∧
      (offs ≠ [] → offsetSize (bw + bytes.length) = k) ∧
      (∀ i (h : i < offs.length), Spec.le ((bytes.drop (i * k)).take k) = offs[i]) ∧
      ∀ k', 0 < k' → k' < k → offsetSize (bw + offs.length * k') ≠ k' := by
  have hfl := frames_le bw offs
  refine ⟨frames bw offs, frameWidth bw offs.length, offsetsWritten_ok (by omega), frames_length _ _, ?_,
    ?_, ?_⟩
  · intro hne
    rw [offsetSize_eq]
    exact frames_total hne
  · intro i h
    have hbody : (List.replicate bw (0 : UInt8)).length = bw := by simp
    have := le_frames (body := List.replicate bw 0) (offs := offs) (by simpa using hb)
      (by rw [List.length_append, hbody]; omega) h
    rw [hbody, Nat.add_assoc, sub_prefix _ _ hbody] at this
    rw [← this]
    unfold Spec.sub
    rw [List.drop_take]
    congr 2; omega
  · intro k' h0 hk
    rw [frameWidth_eq] at hk
    unfold offsetSize
    have hk8 : k' < 8 := by split at hk <;> (try split at hk) <;> (try split at hk) <;> omega
    have : k' = 1 ∨ k' = 2 ∨ k' = 3 ∨ k' = 4 ∨ k' = 5 ∨ k' = 6 ∨ k' = 7 := by omega
    rcases this with rfl | rfl | rfl | rfl | rfl | rfl | rfl <;>
      (repeat' split at hk) <;> (repeat' split) <;> omega

/-- 252 bytes and one or two offsets are just below and just above the limit for 1-byte offsets. -/
example : writeOffsets vecWriter dbg 254 [254] ⟨(), []⟩ = (⟨(), [254]⟩, .ok 255) ∧
    writeOffsets vecWriter dbg 254 [3, 254] ⟨(), []⟩ = (⟨(), [3, 0, 254, 0]⟩, .ok 258) ∧
    offsetSize 255 = 1 ∧ offsetSize 258 = 2 := ⟨rfl, rfl, rfl, rfl⟩

/-! ### C12 -/

/-- Every offset written after a body is read back by `read_uint` at its index. -/
theorem c12_index (c : Cfg) (body : Bytes) (offs : List Nat) (hb : ∀ o ∈ offs, o ≤ body.length)
    (hl : body.length + 8 * offs.length < 2 ^ 63) (i : Nat) (hi : i < offs.length) :
    readUint c (offsetsWritten c body.length offs)
      (offsetSize (body ++ offsetsWritten c body.length offs).length) i = .ok offs[i] := by
  have hfl := frames_le body.length offs
  have hw : offsetsWritten c body.length offs = frames body.length offs := by
    unfold offsetsWritten; rw [offsetsWritten_ok (by omega)]
  have hne : offs ≠ [] := by rintro rfl; simp at hi
  rw [hw, offsetSize_eq, List.length_append, frames_total hne]
  have hmul : i * frameWidth body.length offs.length + frameWidth body.length offs.length ≤
      offs.length * frameWidth body.length offs.length := by
    rw [← Nat.succ_mul]; exact Nat.mul_le_mul_right _ hi
  rw [readUint_ok (frameWidth_isWidth _ _) (by omega) (by rw [frames_length]; exact hmul)]
  have := le_frames hb (by rw [List.length_append]; omega) hi
  rw [Nat.add_assoc, sub_prefix _ _ rfl] at this
  rw [this]

/-- The `n`-th last offset written after a body is the one `nth_last_frame_offset` gives. -/
theorem c12_nth_last (c : Cfg) (body : Bytes) (offs : List Nat) (hb : ∀ o ∈ offs, o ≤ body.length)
    (hl : body.length + 8 * offs.length < 2 ^ 63) (n : Nat) (hn : 0 < n) (hi : n ≤ offs.length) :
    nthLastFrameOffset c (body ++ offsetsWritten c body.length offs)
      (offsetSize (body ++ offsetsWritten c body.length offs).length) n =
      .ok (some (offs[offs.length - n]'(by omega))) := by
  have hfl := frames_le body.length offs
  have hw : offsetsWritten c body.length offs = frames body.length offs := by
    unfold offsetsWritten; rw [offsetsWritten_ok (by omega)]
  rw [hw, nthLast_ok (by rw [List.length_append]; omega) (by omega), if_neg (by omega)]
  have := frame_frames (body := body) (offs := offs.reverse) (by simpa using hb)
    (by rw [List.reverse_reverse, List.length_append]; omega) (i := n - 1) (by simp; omega)
  rw [List.reverse_reverse, List.getElem_reverse] at this
  rw [this]
  congr 2
  apply getElem_congr rfl
  omega

/-- `(aysayi)`-like offsets: 3 offsets after 300 bytes. -/
example : (∀ o ∈ [300, 299, 7], o ≤ 300) ∧
    offsetsWritten rel 300 [300, 299, 7] = [44, 1, 43, 1, 7, 0] := ⟨by decide, rfl⟩

/-- The offsets that the reader of an array uses: those after the last one, which points there. -/
def offsetsRead (c : Cfg) (b : Bytes) : Res (List Nat) :=
  readLastFrameOffset c b >>= fun p =>
    Res.traverse (readUint c (b.drop p.2) p.1) (List.range ((b.length - p.2) / p.1))

theorem offsetsRead_ok {c : Cfg} {b : Bytes} (hl : b.length < 2 ^ 63) :
    offsetsRead c b = .ok (arrFrame b).2 := by
  unfold offsetsRead
  rw [readLast_ok hl]
  simp only [Res.bind_ok]
  rw [← arrFrame_len]
  have hget : ∀ i ∈ List.range (arrFrame b).2.length,
      readUint c (b.drop (arrFrame b).1) (arrW b) i = .ok ((arrFrame b).2.getD i 0) := by
    intro i hi
    rw [List.mem_range] at hi
    rw [readUint_ok (arrW_isWidth b) (by rw [List.length_drop]; omega)
      (by rw [List.length_drop]; exact arrFrame_bound b hi), ← arrFrame_get b hi]
    simp [hi]
  rw [traverse_map hget]
  congr 1
  apply List.ext_getElem
  · simp
  · intro i h1 h2; simp [h2]

/-- Where the elements of an array end, as the serializer records it. -/
def elemEnds (c : Cfg) (e : Ty) (xs : List Src) : List Nat := layEnds 0 (xs.map fun x => (e, bytesOf c e x))

/-- Reading a serialized array of variable-width elements finds the offsets that were stored. -/
def C12_full : Prop := ∀ (c : Cfg) (e : Ty) (xs : List Src) (b : Bytes), Serializable (.A e) (.seq xs) →
  size e = none → serializeToVec c (.A e) (.seq xs) = .ok b → b.length < 2 ^ 63 →
  offsetsRead c b = .ok (elemEnds c e xs)

/-- `a(si)` with one element `("hi", -2)`: three padding bytes are taken for offsets. -/
theorem c12_full_false : ¬ C12_full := by
  intro h
  have := h dbg (.tuple [.S, .I]) [.tup [.str [104, 105], .num 4294967294]]
    [104, 105, 0, 0, 254, 255, 255, 255, 3, 0, 0, 0, 9]
    ⟨by simp [Accepts, AcceptsEach, AcceptsAll, isStr, numWidth]; exact ⟨[104, 105], by simp [Scalar], rfl⟩,
      by decide, by simp [wraps, wrapsAll]⟩ rfl rfl (by decide)
  rw [show offsetsRead dbg [104, 105, 0, 0, 254, 255, 255, 255, 3, 0, 0, 0, 9] = .ok [0, 0, 0, 9] from rfl,
    show elemEnds dbg (.tuple [.S, .I]) [.tup [.str [104, 105], .num 4294967294]] = [9] from rfl] at this
  cases this

/-- An array is written with the element ends as offsets, after the padded elements; the offsets are
    found again exactly when the last element needs no padding.  Missing: nothing can be found
    otherwise. -/
theorem c12_array_partial (c : Cfg) (e : Ty) (xs : List Src) (h : Serializable (.A e) (.seq xs))
    (hs : size e = none) (hn : ¬ HasNul (.seq xs)) (hl : Bounded c (.A e) (.seq xs)) :
    ∃ b body, serializeToVec c (.A e) (.seq xs) = .ok b ∧
      b = body ++ offsetsWritten c body.length (elemEnds c e xs) ∧
      (offsetsRead c b = .ok (elemEnds c e xs) ↔ Spec.align e ∣ (elemEnds c e xs).getLastD 0) := by
  rw [bounded_iff hn] at hl
  have hv := vec_good h hn hl
  have hb : bytesOf c (.A e) (.seq xs) = encArr (.crate c.bigEndian) e (xs.map (bytesOf c e)) := by
    rw [bytesOf_seq, hs]; rfl
  rw [hb] at hl hv
  have hee : elemEnds c e xs = layEnds 0 ((xs.map (bytesOf c e)).map fun b => (e, b)) := by
    unfold elemEnds; rw [List.map_map]; rfl
  have hle : (elemEnds c e xs).getLastD 0 = (laid 0 ((xs.map (bytesOf c e)).map fun b => (e, b))).length := by
    rw [hee]
    cases hx : layEnds 0 ((xs.map (bytesOf c e)).map fun b => (e, b)) with
    | nil =>
      have := congrArg List.length hx
      rw [layEnds_length] at this
      rw [List.length_eq_zero_iff.1 this]; rfl
    | cons o os =>
      have := layEnds_last (ms := (xs.map (bytesOf c e)).map fun b => (e, b)) (pos := 0) (by rw [hx]; simp)
      rw [Nat.zero_add] at this
      rw [← this]
      simp only [hx]
      rw [List.getLastD_eq_getLast?, List.getLast?_eq_some_getLast (by simp)]; rfl
  generalize hbs : xs.map (bytesOf c e) = bs at *
  refine ⟨_, arrBody (.crate c.bigEndian) e bs, hv, ?_, ?_⟩
  · rw [encArr_eq] at hl
    rw [List.length_append] at hl
    unfold offsetsWritten
    rw [hee, offsetsWritten_ok (by omega), encArr_eq]
  · rw [hle, offsetsRead_ok hl]
    constructor
    · intro hr
      by_contra hd
      have := arrChildren_padded (R := .crate false) (E := .crate c.bigEndian) hs (by omega) rfl hd
      apply this
      simp only [Res.ok.injEq] at hr
      simp only [arrChildren, hs, hr, hee]
      have helems : ∀ (b : Bytes) (l al : Nat) (offs : List Nat) (p : Nat),
          (elemsFrom b l al p offs).length = offs.length := by
        intro b l al offs
        induction offs with
        | nil => intro p; rfl
        | cons o offs ih => intro p; simp [elemsFrom, ih]
      rw [helems, layEnds_length, List.length_map]
    · intro hd
      by_cases hb0 : bs = []
      · subst hb0
        rw [encArr_nil, hee]; rfl
      · have hne : layEnds 0 (bs.map fun b => (e, b)) ≠ [] := by
          intro h; have := congrArg List.length h; rw [layEnds_length] at this; simp [hb0] at this
        rw [encArr_eq] at hl
        rw [encArr_eq, hee, arrFrame_enc hne arrBody_ends (by omega)]
        rw [layEnds_last, Nat.zero_add]
        unfold arrBody
        rw [List.length_append, zeros_length]
        simp only [Enc.crate, if_true]
        rw [roundUp_of_dvd (specAlign_isAl e).pos hd]
        omega

/-- `aai` with elements of 8, 0 and 4 bytes. -/
example : Serializable (.A (.A .I)) (.seq [.seq [.num 1, .num 2], .seq [], .seq [.num 3]]) ∧
    (serializeToVec dbg (.A (.A .I)) (.seq [.seq [.num 1, .num 2], .seq [], .seq [.num 3]]) >>= fun b =>
      offsetsRead dbg b) = .ok [8, 8, 12] :=
  ⟨⟨by simp [Accepts, AcceptsEach, numWidth], by decide, by simp [wraps, wrapsAll]⟩, rfl⟩

/-- Of a serialized structure, the `i`-th framing offset counted from the end says where the `i`-th
    member of variable width ends. -/
theorem c12_struct (c : Cfg) (ts : List Ty) (xs : List Src) (h : Serializable (.tuple ts) (.tup xs))
    (hs : size (.tuple ts) = none) (hn : ¬ HasNul (.tup xs)) (hl : Bounded c (.tuple ts) (.tup xs)) :
    ∃ b, serializeToVec c (.tuple ts) (.tup xs) = .ok b ∧
      ∀ i (hi : i < (frameEnds 0 (List.zipWith (fun t x => (t, bytesOf c t x)) ts xs)).length),
        nthLastFrameOffset c b (offsetSize b.length) (i + 1) =
          .ok (some (frameEnds 0 (List.zipWith (fun t x => (t, bytesOf c t x)) ts xs))[i]) := by
  rw [bounded_iff hn] at hl
  refine ⟨_, vec_good h hn hl, ?_⟩
  rw [bytesOf_tup, hs] at hl ⊢
  generalize List.zipWith (fun t x => (t, bytesOf c t x)) ts xs = ms at *
  simp only [encStruct] at hl ⊢
  intro i hi
  have hl' := hl
  rw [List.length_append, frames_length, List.length_reverse, frameWidth_eq] at hl'
  rw [nthLast_ok hl (by (repeat' split at hl') <;> omega), if_neg (by omega), Nat.add_sub_cancel,
    frame_frames (fun o ho => by simpa using frameEnds_le ho) (by omega) hi]

/-- `(ssys)` has two framing offsets. -/
example : Serializable (.tuple [.S, .S, .Y, .S]) (.tup [.str [97], .str [], .num 7, .str [98]]) ∧
    serializeToVec dbg (.tuple [.S, .S, .Y, .S]) (.tup [.str [97], .str [], .num 7, .str [98]]) =
      .ok [97, 0, 0, 7, 98, 0, 3, 2] :=
  ⟨⟨by simp [Accepts, AcceptsAll, numWidth, isStr]
       exact ⟨⟨[97], by simp [Scalar], rfl⟩, ⟨[], by simp⟩, ⟨[98], by simp [Scalar], rfl⟩⟩, by decide,
     by simp [wraps, wrapsAll]⟩, rfl⟩

end GV.Props
