import Verif.Proofs.Memory
import Verif.Spec.Memory
/-
C10, C13–C18: aligned offsets, aligned slices, aligned buffers.
-/
namespace GV.Props
open GV

/-- A debug build. -/
def dbg : Cfg := ⟨true, true, false, 4097, 3⟩
/-- A release build. -/
def rel : Cfg := ⟨false, false, false, 4097, 3⟩

/-! ### C10 -/

/-- C10 as stated: the least multiple is returned whenever it is a `usize`. -/
def C10_full : Prop := ∀ (c : Cfg) (al i r : Nat), IsAl al → i < usizeMod →
  Spec.IsLeastMultiple al i r → r < usizeMod → alignOffset c al i = .ok r

/-- False: with overflow checks `align_offset::<A8>(2^64 - 8)` panics although `2^64 - 8` is already
    a multiple of 8, because `idx + A` is computed before `- 1`. -/
theorem c10_full_false : ¬ C10_full := by
  intro h
  have := h dbg 8 18446744073709551608 18446744073709551608 (by simp [IsAl]) (by decide)
    ⟨by decide, Nat.le_refl _, fun _ _ h => h⟩ (by decide)
  revert this
  decide

theorem isLeast_iff {al i r : Nat} (h : IsAl al) :
    Spec.IsLeastMultiple al i r ↔ r = Spec.roundUp i al := by
  constructor
  · rintro ⟨h1, h2, h3⟩
    exact Nat.le_antisymm (h3 _ (roundUp_dvd _ _) (le_roundUp h.pos _))
      (roundUp_le_of_dvd h.pos h1 h2)
  · rintro rfl
    exact ⟨roundUp_dvd _ _, le_roundUp h.pos _, fun m h1 h2 => roundUp_le_of_dvd h.pos h1 h2⟩

/-- Exactly what `align_offset` does: with overflow checks it gives the least multiple, except that it
    panics from `2^64 - A` on; without, it gives the least multiple whenever that is a `usize`, and
    0 otherwise. -/
theorem c10_align_offset_partial (c : Cfg) (al i r : Nat) (hal : IsAl al) (hi : i < usizeMod)
    (hr : Spec.IsLeastMultiple al i r) :
    alignOffset c al i =
      if i + al < usizeMod then .ok r
      else if c.overflowChecks then .fail .overflow
      else if r < usizeMod then .ok r else .ok 0 := by
  rw [alignOffset_eq hal hi]
  have hr' := (isLeast_iff hal).1 hr
  have hlt := roundUp_lt hal.pos i
  rw [← hr'] at *
  split
  · rfl
  · split
    · rfl
    · split
      · rename_i h
        rw [Nat.mod_eq_of_lt h]
      · rename_i h1 _ h2
        have hd : al ∣ r := hr.1
        have : r = usizeMod := by
          rcases hal.dvd_usize with ⟨k, hk⟩
          have := hr.2.2 usizeMod hal.dvd_usize (by omega)
          omega
        rw [this, Nat.mod_self]

example : alignOffset rel 8 13 = .ok 16 ∧ Spec.IsLeastMultiple 8 13 16 := by
  refine ⟨by decide, (isLeast_iff isAl8).2 (by decide)⟩
example : alignOffset rel 8 (usizeMod - 8) = .ok (usizeMod - 8) ∧
    alignOffset rel 8 (usizeMod - 7) = .ok 0 ∧ alignOffset dbg 8 (usizeMod - 9) = .ok (usizeMod - 8) := by
  decide

/-- However an `AlignedOffset<A>` is put together by safe code, it is a multiple of `A`, also when the
    arithmetic wraps. -/
theorem c10_offsets_aligned (c : Cfg) (e : OffExpr) (al v : Nat)
    (hty : e.ty = some al) (hr : e.inRange) (he : e.eval c = .ok (some v)) : al ∣ v :=
  (offExpr_aligned c e hty hr he).1

example :
    let e := OffExpr.bor (.add (.alignOffset 8 (usizeMod - 3)) (.tryNew 8 24)) (.narrow 4 (.alignOffset 8 9))
    e.ty = some 4 ∧ e.eval rel = .ok (some 24) := by decide

/-- `try_new` accepts exactly the multiples. -/
theorem c10_try_new_iff (al v : Nat) : (tryNew al v = some v ↔ al ∣ v) ∧ (tryNew al v = none ↔ ¬ al ∣ v) := by
  unfold tryNew
  rw [Nat.dvd_iff_mod_eq_zero]
  constructor <;> split <;> simp_all

example : tryNew 4 8 = some 8 ∧ tryNew 4 6 = none := by decide

/-! ### C13 -/

/-- A slicing step on a slice that keeps its promise succeeds exactly when the window it denotes is
    inside the slice, and shows exactly that window at the right address. No debug assertion fails. -/
theorem c13_step_exact (c : Cfg) (al : Nat) (s : Slice) (op : SliceOp) (hal : IsAl al)
    (ht : op.typed al) (hp : s.Promise al) (hlen : s.len < 2 ^ 63) (al' : Nat) (s' : Slice) :
    op.run c al s = .ok (al', s') ↔
      al' = op.tag al ∧ ∃ lo hi, Spec.Selects c s.len op lo hi ∧ lo ≤ hi ∧ hi ≤ s.len ∧
        s' = ⟨s.addr + lo, Spec.sub s.bytes lo hi⟩ := by
  rw [run_eq hal ht hp hlen]
  simp only [range_ok]

example : (SliceOp.aRange (.tryNew 4 4) (.alignOffset 4 7)).run dbg 4 ⟨8, [1, 2, 3, 4, 5, 6, 7, 8, 9]⟩ =
    .ok (4, ⟨12, [5, 6, 7, 8]⟩) := by decide

/-- Any sequence of slicing steps on data aligned as promised gives data aligned as promised. -/
theorem c13_program_aligned (c : Cfg) (ops : List SliceOp) : ∀ (al : Nat) (s : Slice) (al' : Nat) (s' : Slice),
    IsAl al → typedSlices al ops → al ∣ s.addr → s.len < 2 ^ 63 →
    runSlices c al s ops = .ok (al', s') → al' ∣ s'.addr := by
  induction ops with
  | nil => intro al s al' s' _ _ hp _ h; cases h; exact hp
  | cons op ops ih =>
    intro al s al' s' hal ht hp hlen h
    obtain ⟨⟨al1, s1⟩, h1, h2⟩ := Res.bind_eq_ok.1 h
    obtain ⟨rfl, lo, hi, hs, hr⟩ := (run_eq hal ht.1 (Or.inr hp) hlen al1 s1).1 h1
    obtain ⟨h3, h4, rfl⟩ := range_ok.1 hr
    refine ih _ _ _ _ (tag_isAl hal ht.1) ht.2 ?_ ?_ h2
    · exact Nat.dvd_add (Nat.dvd_trans (tag_dvd hal ht.1) hp) (window_dvd hal ht.1 hs)
    · simp only [Slice.len, Spec.sub, List.length_drop, List.length_take] at *; omega

/-- The same for the weaker promise that an empty slice may be anywhere, which is what an empty
    `AlignedBuf` gives (see C15); the result shows a contiguous part of the original bytes, at its
    original address; and the only faults are the bounds checks and the arithmetic of the offsets:
    no debug assertion fails. -/
theorem c13_program_window (c : Cfg) (ops : List SliceOp) : ∀ (al : Nat) (s : Slice) (al' : Nat) (s' : Slice),
    IsAl al → typedSlices al ops → s.Promise al → s.len < 2 ^ 63 →
    runSlices c al s ops = .ok (al', s') →
    s'.Promise al' ∧ ∃ lo hi, lo ≤ hi ∧ hi ≤ s.len ∧ s' = ⟨s.addr + lo, Spec.sub s.bytes lo hi⟩ := by
  induction ops with
  | nil =>
    intro al s al' s' _ _ hp _ h; cases h
    refine ⟨hp, 0, s.len, Nat.zero_le _, Nat.le_refl _, ?_⟩
    cases s; simp [Spec.sub, Slice.len]
  | cons op ops ih =>
    intro al s al' s' hal ht hp hlen h
    obtain ⟨⟨al1, s1⟩, h1, h2⟩ := Res.bind_eq_ok.1 h
    obtain ⟨rfl, lo, hi, hs, hr⟩ := (run_eq hal ht.1 hp hlen al1 s1).1 h1
    obtain ⟨h3, h4, rfl⟩ := range_ok.1 hr
    have hp1 := sub_promise (hi := hi) (promise_mono (tag_dvd hal ht.1) hp) (window_dvd hal ht.1 hs)
    have hl : (Spec.sub s.bytes lo hi).length = hi - lo := by
      simp only [Slice.len, Spec.sub, List.length_drop, List.length_take] at *; omega
    obtain ⟨h5, lo', hi', h6, h7, h8⟩ :=
      ih _ _ _ _ (tag_isAl hal ht.1) ht.2 hp1 (by simp only [Slice.len, hl] at *; omega) h2
    refine ⟨h5, lo + lo', lo + hi', by omega, by simp only [Slice.len, hl] at *; omega, ?_⟩
    rw [h8]
    simp only [Slice.len, hl] at h7
    simp only [Spec.sub, Slice.mk.injEq, Nat.add_assoc, true_and]
    rw [← List.drop_drop]
    congr 1
    rw [List.take_drop, List.take_take, Nat.min_eq_left (by omega)]

/-- No debug assertion fails while slicing: the only faults are out-of-bounds ranges, overflow in the
    offset arithmetic, and unwrapping a `Misaligned` from `try_new`. -/
theorem c13_no_assertion (c : Cfg) (ops : List SliceOp) : ∀ (al : Nat) (s : Slice),
    IsAl al → typedSlices al ops → s.Promise al → s.len < 2 ^ 63 →
    runSlices c al s ops ≠ .fail .debugAssert := by
  have ha : ∀ x y, uadd c x y ≠ .fail .debugAssert := by
    intro x y h; unfold uadd at h; split at h
    · cases h
    · split at h <;> cases h
  have hs : ∀ x y, usub c x y ≠ .fail .debugAssert := by
    intro x y h; unfold usub at h; split at h
    · cases h
    · split at h <;> cases h
  have hu : ∀ (al i : Nat), alignOffset c al i ≠ .fail .debugAssert := by
    intro al i h
    rcases Res.bind_eq_fail.1 h with h | ⟨_, _, h⟩
    · exact ha _ _ h
    · rcases Res.bind_eq_fail.1 h with h | ⟨_, _, h⟩
      · exact hs _ _ h
      · cases h
  have he : ∀ e : OffExpr, e.eval c ≠ .fail .debugAssert := by
    intro e
    induction e with
    | tryNew => intro h; cases h
    | alignOffset al i =>
      intro h
      rcases Res.bind_eq_fail.1 h with h | ⟨_, _, h⟩
      · exact hu _ _ h
      · cases h
    | bor x y ihx ihy =>
      intro h
      rcases Res.bind_eq_fail.1 h with h | ⟨xv, _, h⟩
      · exact ihx h
      · cases xv with
        | none => cases h
        | some xv =>
          rcases Res.bind_eq_fail.1 h with h | ⟨yv, _, h⟩
          · exact ihy h
          · cases yv <;> cases h
    | add x y ihx ihy =>
      intro h
      rcases Res.bind_eq_fail.1 h with h | ⟨xv, _, h⟩
      · exact ihx h
      · cases xv with
        | none => cases h
        | some xv =>
          rcases Res.bind_eq_fail.1 h with h | ⟨yv, _, h⟩
          · exact ihy h
          · cases yv with
            | none => cases h
            | some yv =>
              rcases Res.bind_eq_fail.1 h with h | ⟨_, _, h⟩
              · exact ha _ _ h
              · cases h
    | narrow al x ih => exact ih
  have ho : ∀ e : OffExpr, offArg c e ≠ .fail .debugAssert := by
    intro e h
    rcases Res.bind_eq_fail.1 h with h | ⟨v, _, h⟩
    · exact he _ h
    · cases v <;> cases h
  have hrange : ∀ (s : Slice) (a b : Nat), s.range a b ≠ .fail .debugAssert := by
    intro s a b h; unfold Slice.range at h; split at h <;> cases h
  have hpair : ∀ (s : Slice) (a b t : Nat),
      (s.range a b >>= fun r => Res.ok (t, r)) ≠ .fail .debugAssert := by
    intro s a b t h
    rcases Res.bind_eq_fail.1 h with h | ⟨_, _, h⟩
    · exact hrange _ _ _ h
    · cases h
  have step : ∀ (al : Nat) (s : Slice) (op : SliceOp), op.typed al → s.Promise al →
      s.len < 2 ^ 63 → op.run c al s ≠ .fail .debugAssert := by
    intro al s op ht hp hlen h
    have h1 := promise_one s
    have z : ∀ n, n ∣ 0 := Nat.dvd_zero
    cases op with
    | to b =>
      simp only [SliceOp.run, idxTo, to_eq_range, range_unchecked 0 b hp (z _)] at h
      exact hpair _ _ _ _ h
    | toIncl b =>
      simp only [SliceOp.run, idxToIncl, rangeIncl_eq_range hlen, range_unchecked 0 (b+1) hp (z _)] at h
      exact hpair _ _ _ _ h
    | range a b =>
      simp only [SliceOp.run, idxRange, range_unchecked a b h1 (Nat.one_dvd _)] at h
      exact hpair _ _ _ _ h
    | rangeIncl a b =>
      simp only [SliceOp.run, idxRangeIncl, rangeIncl_eq_range hlen, range_unchecked a (b+1) h1 (Nat.one_dvd _)] at h
      exact hpair _ _ _ _ h
    | from_ a =>
      simp only [SliceOp.run, idxFrom, from_eq_range, range_unchecked a _ h1 (Nat.one_dvd _)] at h
      exact hpair _ _ _ _ h
    | full => cases h
    | narrow n => cases h
    | aRange a b =>
      rcases Res.bind_eq_fail.1 h with h | ⟨x, hx, h⟩
      · exact ho _ h
      rcases Res.bind_eq_fail.1 h with h | ⟨y, hy, h⟩
      · exact ho _ h
      have hd := (offExpr_aligned c a ht.1 ht.2.2.1 (offArg_ok.1 hx)).1
      simp only [idxARange, range_unchecked x y hp hd] at h
      exact hpair _ _ _ _ h
    | aRangeIncl a b =>
      rcases Res.bind_eq_fail.1 h with h | ⟨x, hx, h⟩
      · exact ho _ h
      rcases Res.bind_eq_fail.1 h with h | ⟨y, hy, h⟩
      · exact ho _ h
      have hd := (offExpr_aligned c a ht.1 ht.2.2.1 (offArg_ok.1 hx)).1
      simp only [idxARangeIncl, rangeIncl_eq_range hlen, range_unchecked x (y+1) hp hd] at h
      exact hpair _ _ _ _ h
    | aFrom a =>
      rcases Res.bind_eq_fail.1 h with h | ⟨x, hx, h⟩
      · exact ho _ h
      have hd := (offExpr_aligned c a ht.1 ht.2 (offArg_ok.1 hx)).1
      simp only [idxAFrom, from_eq_range, range_unchecked x _ hp hd] at h
      exact hpair _ _ _ _ h
    | splitFst mid =>
      simp only [SliceOp.run, splitAt_eq hp] at h
      rcases Res.bind_eq_fail.1 h with h | ⟨_, _, h⟩
      · rcases Res.bind_eq_fail.1 h with h | ⟨_, _, h⟩
        · exact hrange _ _ _ h
        · rcases Res.bind_eq_fail.1 h with h | ⟨_, _, h⟩
          · exact hrange _ _ _ h
          · cases h
      · cases h
    | splitSnd mid =>
      simp only [SliceOp.run, splitAt_eq hp] at h
      rcases Res.bind_eq_fail.1 h with h | ⟨_, _, h⟩
      · rcases Res.bind_eq_fail.1 h with h | ⟨_, _, h⟩
        · exact hrange _ _ _ h
        · rcases Res.bind_eq_fail.1 h with h | ⟨_, _, h⟩
          · exact hrange _ _ _ h
          · cases h
      · cases h
  induction ops with
  | nil => intro al s _ _ _ _ h; cases h
  | cons op ops ih =>
    intro al s hal ht hp hlen h
    rcases Res.bind_eq_fail.1 h with h | ⟨⟨al1, s1⟩, h1, h2⟩
    · exact step al s op ht.1 hp hlen h
    · obtain ⟨rfl, lo, hi, hs, hr⟩ := (run_eq hal ht.1 hp hlen al1 s1).1 h1
      obtain ⟨h3, h4, rfl⟩ := range_ok.1 hr
      refine ih _ _ (tag_isAl hal ht.1) ht.2
        (sub_promise (hi := hi) (promise_mono (tag_dvd hal ht.1) hp) (window_dvd hal ht.1 hs)) ?_ h2
      simp only [Slice.len, Spec.sub, List.length_drop, List.length_take] at *; omega

example :
    let ops := [SliceOp.to 9, .aFrom (.tryNew 8 8), .splitFst 1, .narrow 2, .full]
    typedSlices 8 ops ∧
    runSlices dbg 8 ⟨16, [0, 1, 2, 3, 4, 5, 6, 7, 8, 9]⟩ ops = .ok (2, ⟨24, [8]⟩) := by
  refine ⟨?_, by decide⟩
  simp [typedSlices, SliceOp.typed, SliceOp.tag, OffExpr.ty, OffExpr.inRange, usizeMod]

/-- Copying an aligned slice gives a buffer that shows the same bytes, aligned if there are any. -/
theorem c13_to_owned (c : Cfg) (a : Alloc) (s : Slice) (ha : a.Valid) (hs : s.len ≤ 2 ^ 62) :
    ∃ b r, sliceToOwned c a s = .ok b ∧ b.deref c = .ok r ∧ r.bytes = s.bytes ∧ r.Promise 8 := by
  obtain ⟨hv, hb⟩ := ofSlice_valid ha hs
  obtain ⟨w, hw, hi, hvis⟩ := alignVec_ok (c := c) ha hv
  refine ⟨⟨w⟩, _, by simp [sliceToOwned, AlignedBuf.fromVec, hw], deref_ok hi, by simp only [hvis, hb], ?_⟩
  by_cases h0 : w.bytes = []
  · left; simp [AlignedBuf.vis, h0]
  · right
    simp only [h0, if_false]
    exact gap_dvd isAl8 _

example : sliceToOwned dbg ⟨fun _ => 1000003, fun _ => 0⟩ ⟨16, [1, 2]⟩ =
    .ok ⟨⟨1000003, 9, [0, 0, 0, 0, 0, 1, 2]⟩⟩ := rfl

/-! ### C14 -/

/-- C14 as stated. -/
def C14_full : Prop := ∀ (fromA toA : Nat) (s : Slice), IsAl fromA → IsAl toA → fromA ∣ s.addr →
  tryAsAligned fromA toA s = if toA ∣ s.addr then some s else none

/-- False: the alignments compared are those of the marker structs `A1`…`A8`, which are all 1, so
    `try_as_aligned::<A8>` of bytes at address 9 is `Ok`. -/
theorem c14_full_false : ¬ C14_full := by
  intro h
  have := h 1 8 ⟨9, [1, 2]⟩ (by simp [IsAl]) (by simp [IsAl]) (by decide)
  revert this
  decide

/-- What holds: the conversion shows the same bytes, and its result is aligned whenever the target
    alignment is no larger than what was promised before or the data happens to be aligned.  Missing:
    rejection of misaligned data (the conversion never fails). -/
theorem c14_try_as_aligned_partial (fromA toA : Nat) (s : Slice) (h : IsAl fromA) (h' : IsAl toA)
    (hp : fromA ∣ s.addr) :
    tryAsAligned fromA toA s = some s ∧ (toA ≤ fromA → toA ∣ s.addr) := by
  refine ⟨by simp [tryAsAligned, markerAlign], fun hle => Nat.dvd_trans (h'.dvd h hle) hp⟩

example : tryAsAligned 8 4 ⟨16, [1, 2, 3]⟩ = some ⟨16, [1, 2, 3]⟩ := by decide

/-! ### C15 -/

/-- C15 as stated: whatever the allocator does, `copy_to_align` gives aligned data with the same
    bytes, without copying data that is already aligned. -/
def C15_full : Prop := ∀ (c : Cfg) (a : Alloc) (al : Nat) (d : Slice),
  IsAl al → a.Valid → d.len ≤ 2 ^ 62 →
  ∃ w r, copyToAlign c a al d = .ok w ∧ w.asRef c = .ok r ∧ r.bytes = d.bytes ∧ al ∣ r.addr ∧
    (al ∣ d.addr → w = .borrowed d)

/-- An allocator that hands out odd addresses. -/
def oddAlloc : Alloc := ⟨fun _ => 1000003, fun _ => 0⟩

theorem oddAlloc_valid : oddAlloc.Valid := by
  intro n hn; simp only [oddAlloc, usizeMod]; omega

/-- False: empty data at an odd address is "copied" into a vec that owns no memory, whose dangling
    address is 1. -/
theorem c15_full_false : ¬ C15_full := by
  intro h
  obtain ⟨w, r, h1, h2, h3, h4, _⟩ :=
    h rel oddAlloc 4 ⟨9, []⟩ (by simp [IsAl]) oddAlloc_valid (by decide)
  have e1 : copyToAlign rel oddAlloc 4 ⟨9, []⟩ = .ok (.owned ⟨⟨1, 0, []⟩⟩) := rfl
  rw [e1] at h1; cases h1
  have e2 : (CowSlice.owned ⟨⟨1, 0, []⟩⟩).asRef rel = .ok ⟨1, []⟩ := rfl
  rw [e2] at h2; cases h2
  revert h4; decide

/-- What holds: the bytes are always the same, aligned data is borrowed, and the result is aligned
    unless the data was empty (and misaligned).  Missing: alignment of empty results. -/
theorem c15_copy_to_align_partial (c : Cfg) (a : Alloc) (al : Nat) (d : Slice)
    (hal : IsAl al) (ha : a.Valid) (hd : d.len ≤ 2 ^ 62) :
    ∃ w r, copyToAlign c a al d = .ok w ∧ w.asRef c = .ok r ∧ r.bytes = d.bytes ∧
      (d.bytes ≠ [] → al ∣ r.addr) ∧ (al ∣ d.addr → w = .borrowed d) ∧
      (¬ al ∣ d.addr → ∃ b, w = .owned b) := by
  unfold copyToAlign
  by_cases h : al ∣ d.addr
  · rw [if_pos (isAligned_iff.2 h)]
    refine ⟨.borrowed d, d, ?_, rfl, rfl, fun _ => h, fun _ => rfl, fun h' => absurd h h'⟩
    simp [tryAsAligned, markerAlign]
  · rw [if_neg (fun h' => h (isAligned_iff.1 h'))]
    obtain ⟨hv, hb⟩ := ofSlice_valid ha hd
    obtain ⟨w, hw, hi, hvis⟩ := alignVec_ok (c := c) ha hv
    refine ⟨.owned ⟨w⟩, _, by simp [AlignedBuf.fromVec, hw], deref_ok hi, ?_, ?_,
      fun h' => absurd h' h, fun _ => ⟨_, rfl⟩⟩
    · simp only [hvis, hb]
    · intro hne
      have : w.bytes ≠ [] := by
        intro h0
        simp only [AlignedBuf.vis, h0, List.drop_nil] at hvis
        rw [hb] at hvis
        exact hne hvis.symm
      simp only [this, if_false]
      exact Nat.dvd_trans (hal.dvd isAl8 (by rcases hal with h | h | h | h <;> omega)) (gap_dvd isAl8 _)

example : copyToAlign dbg oddAlloc 8 ⟨9, [1, 2]⟩ = .ok (.owned ⟨⟨1000003, 9, [0, 0, 0, 0, 0, 1, 2]⟩⟩) ∧
    (CowSlice.owned ⟨⟨1000003, 9, [0, 0, 0, 0, 0, 1, 2]⟩⟩).asRef dbg = .ok ⟨1000008, [1, 2]⟩ :=
  ⟨rfl, rfl⟩

/-! ### C16 -/

/-- `empty_aligned::<A>()` never panics and is empty and aligned, wherever the literal is. -/
theorem c16_empty_aligned (c : Cfg) (al : Nat) (hal : IsAl al) :
    ∃ s, emptyAligned c al = .ok s ∧ s.bytes = [] ∧ al ∣ s.addr ∧
      c.spacesAddr ≤ s.addr ∧ s.addr < c.spacesAddr + 8 := by
  refine ⟨_, emptyAligned_ok hal, rfl, gap_dvd hal _, Nat.le_add_right _ _, ?_⟩
  have := gap_lt hal c.spacesAddr
  have : al ≤ 8 := by rcases hal with h | h | h | h <;> omega
  simp only; omega

example : emptyAligned dbg 8 = .ok ⟨4104, []⟩ := by decide

/-! ### C17 -/

/-- `Vec` to `AlignedBuf` and back: nothing panics, the bytes in between and after are the original
    ones, and non-empty contents are 8-byte aligned in between. -/
theorem c17_round_trip (c : Cfg) (a : Alloc) (v : RVec) (ha : a.Valid) (hv : v.Valid) :
    ∃ b s w, AlignedBuf.fromVec c a v = .ok b ∧ b.deref c = .ok s ∧ b.intoVec c = .ok w ∧
      s.bytes = v.bytes ∧ (v.bytes ≠ [] → 8 ∣ s.addr) ∧ w.bytes = v.bytes := by
  obtain ⟨w, hw, hi, hvis⟩ := alignVec_ok (c := c) ha hv
  obtain ⟨u, hu, hub, _, _⟩ := unalignVec_ok (c := c) hi
  refine ⟨⟨w⟩, _, u, by simp [AlignedBuf.fromVec, hw], deref_ok hi, hu, hvis, ?_, by rw [hub, hvis]⟩
  intro hne
  have : w.bytes ≠ [] := by
    intro h0
    simp only [AlignedBuf.vis, h0, List.drop_nil] at hvis
    exact hne hvis.symm
  simp only [this, if_false]
  exact gap_dvd isAl8 _

example : RVec.Valid ⟨1000003, 4, [7, 8, 9]⟩ ∧
    AlignedBuf.fromVec dbg oddAlloc ⟨1000003, 4, [7, 8, 9]⟩ =
      .ok ⟨⟨1000003, 10, [0, 0, 0, 0, 0, 7, 8, 9]⟩⟩ := ⟨⟨by decide, by decide, by decide⟩, rfl⟩

/-! ### C18 -/

/-- The environment of a step is sane: the allocator is, and the vec a callback leaves behind can
    exist. -/
def EnvOk (e : Env) (b : Bytes) : Spec.VecOp → Prop
  | .callback g => e.alloc.Valid ∧ RVec.Valid ⟨(e.place (g b)).1, (e.place (g b)).2, g b⟩
  | .set _ _ => True
  | .convert => e.alloc.Valid

/-- … for every step of a history. -/
def HistOk : Bytes → List (Env × Spec.VecOp) → Prop
  | _, [] => True
  | b, (e, op) :: ops => b.length ≤ 2 ^ 62 ∧ EnvOk e b op ∧
      ∀ b', op.onBytes b = some b' → HistOk b' ops

theorem bufStep_ok {c : Cfg} {e : Env} {buf : AlignedBuf} {op : Spec.VecOp} (hi : buf.Inv)
    (hl : buf.vis.length ≤ 2 ^ 62) (he : EnvOk e buf.vis op) :
    (∀ b', op.onBytes buf.vis = some b' → ∃ buf', bufStep c e buf op = .ok buf' ∧ buf'.Inv ∧ buf'.vis = b') ∧
    (op.onBytes buf.vis = none → bufStep c e buf op = .fail .bounds) := by
  cases op with
  | callback g =>
    refine ⟨?_, fun h => by cases h⟩
    rintro b' hb
    cases hb
    obtain ⟨u, hu, hub, _, _⟩ := unalignVec_ok (c := c) hi
    obtain ⟨w, hw, hi', hvis⟩ := alignVec_ok (c := c) he.1 he.2
    refine ⟨⟨w⟩, ?_, hi', hvis⟩
    simp only [bufStep, AlignedBuf.withVec, hu, Res.bind_ok, hub, hw, Res.pure_eq]
  | convert =>
    refine ⟨?_, fun h => by cases h⟩
    rintro b' hb
    cases hb
    obtain ⟨u, hu, hub, hua, huc⟩ := unalignVec_ok (c := c) hi
    have huv : u.Valid := by
      refine ⟨?_, by rw [hua, huc]; exact hi.2.1, by rw [hub]; exact hl⟩
      rw [hub, huc]
      have := hi.1
      simp only [AlignedBuf.vis, List.length_drop]
      omega
    obtain ⟨w, hw, hi', hvis⟩ := alignVec_ok (c := c) he huv
    refine ⟨⟨w⟩, ?_, hi', by rw [hvis, hub]⟩
    simp only [bufStep, AlignedBuf.intoVec, hu, Res.bind_ok, AlignedBuf.fromVec, hw, Res.pure_eq]
  | set i x =>
    have h8 : buf.data.addr + 8 ≤ usizeMod := by have := hi.2.1; omega
    have hd := deref_ok (c := c) hi
    unfold AlignedBuf.deref at hd
    by_cases hb : buf.data.bytes = []
    · have hv : buf.vis = [] := by simp [AlignedBuf.vis, hb]
      simp only [Spec.VecOp.onBytes, hv, List.length_nil, Nat.not_lt_zero, if_false]
      refine ⟨fun _ h => (by cases h), fun _ => ?_⟩
      simp only [offsetToAlign_ok h8, hb, if_true, Res.bind_ok, Slice.from_, Nat.zero_le,
        RVec.slice, List.drop_zero, Nat.add_zero] at hd
      simp only [bufStep, AlignedBuf.setAt, offsetToAlign_ok h8, hb, if_true, Res.bind_ok, Slice.from_,
        Nat.zero_le, RVec.slice, List.drop_zero, Nat.add_zero, hd, Slice.len, List.length_nil,
        Nat.not_lt_zero, if_false]
    · have hg : gap 8 buf.data.addr < buf.data.bytes.length := hi.2.2.2.resolve_left hb
      have hle : gap 8 buf.data.addr ≤ buf.data.slice.len := Nat.le_of_lt hg
      simp only [offsetToAlign_ok h8, hb, if_false, Res.bind_ok, Slice.from_, if_pos hle] at hd
      have hstep : bufStep c e buf (.set i x) =
          if i < buf.vis.length then
            .ok ⟨{ buf.data with bytes := buf.data.bytes.set (gap 8 buf.data.addr + i) x }⟩
          else .fail .bounds := by
        simp only [bufStep, AlignedBuf.setAt, offsetToAlign_ok h8, hb, if_false, Res.bind_ok, Slice.from_,
          if_pos hle, hd, Res.pure_eq]
        rfl
      rw [hstep]
      simp only [Spec.VecOp.onBytes]
      split
      · rename_i hlt
        refine ⟨?_, fun h => by cases h⟩
        rintro b' h; cases h
        refine ⟨_, rfl, ?_, ?_⟩
        · refine ⟨by simp only [List.length_set]; exact hi.1, hi.2.1,
            by simp only [List.length_set]; exact hi.2.2.1, Or.inr ?_⟩
          simp only [List.length_set]; exact hg
        · simp only [AlignedBuf.vis]
          rw [List.drop_set, if_neg (by omega)]
          congr 1
          omega
      · exact ⟨fun _ h => (by cases h), fun _ => rfl⟩

theorem bufRun_spec (c : Cfg) (ops : List (Env × Spec.VecOp)) : ∀ buf : AlignedBuf, buf.Inv →
    HistOk buf.vis ops →
    (∀ b', Spec.runBytes buf.vis (ops.map Prod.snd) = some b' →
      ∃ buf', bufRun c buf ops = .ok buf' ∧ buf'.Inv ∧ buf'.vis = b') ∧
    (Spec.runBytes buf.vis (ops.map Prod.snd) = none → bufRun c buf ops = .fail .bounds) := by
  induction ops with
  | nil =>
    intro buf hi _
    refine ⟨fun b' h => ?_, fun h => by cases h⟩
    cases h
    exact ⟨buf, rfl, hi, rfl⟩
  | cons p ops ih =>
    obtain ⟨e, op⟩ := p
    intro buf hi hh
    obtain ⟨h1, h2⟩ := bufStep_ok (c := c) hi hh.1 hh.2.1
    simp only [List.map_cons, Spec.runBytes, bufRun]
    cases hop : op.onBytes buf.vis with
    | none =>
      refine ⟨fun b' h => by simp [Option.bind] at h, fun _ => ?_⟩
      rw [h2 hop]; rfl
    | some b1 =>
      obtain ⟨buf1, hs, hi1, hv1⟩ := h1 b1 hop
      have := ih buf1 hi1 (hv1 ▸ hh.2.2 b1 hop)
      simp only [Option.bind_some, hs, Res.bind_ok, ← hv1]
      exact this

/-- After any history — callbacks that grow, shrink, reallocate or unwind, writes through `DerefMut`,
    conversions — starting from any vec, the visible bytes are those of a plain vec with the same
    history, non-empty contents are 8-byte aligned, and the only panics are those of the plain vec. -/
theorem c18_history (c : Cfg) (a : Alloc) (v : RVec) (ops : List (Env × Spec.VecOp))
    (ha : a.Valid) (hv : v.Valid) (hh : HistOk v.bytes ops) :
    ∃ b0, AlignedBuf.fromVec c a v = .ok b0 ∧
      match Spec.runBytes v.bytes (ops.map Prod.snd) with
      | some bytes => ∃ b s, bufRun c b0 ops = .ok b ∧ b.deref c = .ok s ∧ s.bytes = bytes ∧
          (bytes ≠ [] → 8 ∣ s.addr)
      | none => bufRun c b0 ops = .fail .bounds := by
  obtain ⟨w, hw, hi, hvis⟩ := alignVec_ok (c := c) ha hv
  refine ⟨⟨w⟩, by simp [AlignedBuf.fromVec, hw], ?_⟩
  have := bufRun_spec c ops ⟨w⟩ hi (hvis ▸ hh)
  rw [hvis] at this
  split
  · rename_i bytes hb
    obtain ⟨buf, h1, h2, h3⟩ := this.1 bytes hb
    refine ⟨buf, _, h1, deref_ok h2, h3, ?_⟩
    intro hne
    have : buf.data.bytes ≠ [] := by
      intro h0
      simp only [AlignedBuf.vis, h0, List.drop_nil] at h3
      exact hne h3.symm
    simp only [this, if_false]
    exact gap_dvd isAl8 _
  · rename_i hn
    exact this.2 hn

/-- The same starting from `AlignedBuf::new()` or `default()`, which is as an empty vec. -/
theorem c18_new (c : Cfg) (ops : List (Env × Spec.VecOp)) (hh : HistOk [] ops) :
    (∃ s, AlignedBuf.new.deref c = .ok s ∧ s.bytes = []) ∧
      match Spec.runBytes [] (ops.map Prod.snd) with
      | some bytes => ∃ b s, bufRun c AlignedBuf.new ops = .ok b ∧ b.deref c = .ok s ∧ s.bytes = bytes ∧
          (bytes ≠ [] → 8 ∣ s.addr)
      | none => bufRun c AlignedBuf.new ops = .fail .bounds := by
  have hi : AlignedBuf.new.Inv := ⟨by decide, by decide, by decide, Or.inl rfl⟩
  have hvis : AlignedBuf.new.vis = [] := by simp [AlignedBuf.vis, AlignedBuf.new, RVec.empty]
  refine ⟨⟨_, deref_ok hi, hvis⟩, ?_⟩
  have := bufRun_spec c ops AlignedBuf.new hi (hvis ▸ hh)
  rw [hvis] at this
  split
  · rename_i bytes hb
    obtain ⟨buf, h1, h2, h3⟩ := this.1 bytes hb
    refine ⟨buf, _, h1, deref_ok h2, h3, ?_⟩
    intro hne
    have : buf.data.bytes ≠ [] := by
      intro h0
      simp only [AlignedBuf.vis, h0, List.drop_nil] at h3
      exact hne h3.symm
    simp only [this, if_false]
    exact gap_dvd isAl8 _
  · rename_i hn
    exact this.2 hn

/-- A history: append, overwrite, convert, truncate, each time somewhere else in memory. -/
def sampleHist : List (Env × Spec.VecOp) :=
  [(⟨oddAlloc, fun _ => (1001, 40)⟩, .callback (· ++ [1, 2, 3])),
   (⟨oddAlloc, fun _ => (0, 0)⟩, .set 1 9),
   (⟨oddAlloc, fun _ => (0, 0)⟩, .convert),
   (⟨oddAlloc, fun _ => (2005, 50)⟩, .callback (·.drop 1))]

example : HistOk [5] sampleHist ∧ Spec.runBytes [5] (sampleHist.map Prod.snd) = some [9, 2, 3] := by
  refine ⟨?_, by decide⟩
  refine ⟨by decide, ⟨oddAlloc_valid, ⟨by decide, by decide, by decide⟩⟩, ?_⟩
  rintro _ ⟨⟩
  refine ⟨by decide, trivial, ?_⟩
  rintro _ ⟨⟩
  refine ⟨by decide, oddAlloc_valid, ?_⟩
  rintro _ ⟨⟩
  refine ⟨by decide, ⟨oddAlloc_valid, ⟨by decide, by decide, by decide⟩⟩, ?_⟩
  rintro _ ⟨⟩
  trivial

example : HistOk [] [(⟨oddAlloc, fun _ => (1001, 40)⟩, .callback (· ++ [1, 2, 3]))] ∧
    Spec.runBytes [] [.callback (· ++ [1, 2, 3])] = some [1, 2, 3] := by
  refine ⟨⟨by decide, ⟨oddAlloc_valid, ⟨by decide, by decide, by decide⟩⟩, ?_⟩, by decide⟩
  rintro _ ⟨⟩
  trivial

end GV.Props
