import Verif.Proofs.Wrap
import Verif.Proofs.Faults
import Verif.Props.C10_C19
/-
C27, C30–C32: splitting variants; length, iteration, indexing and bounds of variable-width arrays.

A reference to a variant or to an array of `e` is a slice aligned for it, or an empty slice where noted.
The longest Rust slice has `2 ^ 63 - 1` bytes.
-/
namespace GV.Props
open GV

/-! ### C27 -/

/-- `split` never panics.  With `s.bytes = x ++ 0 :: y` and no zero byte in `y` the type string is `y`
    and the data is exactly the bytes `x` where they are; without zero byte the type is `()` and the
    data empty.  The data is 8-byte aligned. -/
theorem c27_split (c : Cfg) (s : Slice) (h : s.bytes = [] ∨ 8 ∣ s.addr) :
    ∃ ty d, split c s = .ok (ty, d) ∧ 8 ∣ d.addr ∧
      (∀ x y, s.bytes = x ++ 0 :: y → (0 : UInt8) ∉ y → ty = y ∧ d = ⟨s.addr, x⟩) ∧
      ((0 : UInt8) ∉ s.bytes → ty = "()".toList.map (fun ch => ch.toNat.toUInt8) ∧ d.bytes = []) := by
  have hal : IsAl 8 := by simp [IsAl]
  unfold split
  cases hm : memrchr0 s.bytes with
  | none =>
    have hno := memrchr0_none.1 hm
    rw [emptyAligned_ok hal]
    refine ⟨_, _, rfl, gap_dvd hal _, ?_, fun _ => ⟨by decide, rfl⟩⟩
    intro x y hxy
    exact absurd (by rw [hxy]; simp) hno
  | some i =>
    obtain ⟨x0, y0, h1, h2, h3⟩ := memrchr0_some hm
    have hne : s.bytes ≠ [] := by rw [h1]; simp
    have ha : 8 ∣ s.addr := h.resolve_left hne
    obtain ⟨d, hd, h8, hb, hin⟩ := split_ok (c := c) ha
    have hs := hd
    unfold split at hs
    rw [hm] at hs
    have hvp : Spec.variantParts s.bytes = (y0, x0) := by rw [h1]; exact variantParts_append h3
    rw [hvp] at hs hb
    refine ⟨_, _, hs, h8, ?_, fun hno => absurd (by rw [h1]; simp) hno⟩
    intro x y hxy hy
    have hvp' : Spec.variantParts s.bytes = (y, x) := by rw [hxy]; exact variantParts_append hy
    rw [hvp] at hvp'
    obtain ⟨rfl, rfl⟩ := Prod.mk.inj hvp'
    refine ⟨rfl, ?_⟩
    have hda : d.addr = s.addr := by
      have hlen : i ≤ s.len := by simp only [Slice.len, h1, List.length_append]; omega
      simp only [splitAt, if_pos hlen, unchecked_ok (s := ⟨s.addr, s.bytes.take i⟩) (Or.inr ha)] at hs
      obtain ⟨p, hp, hs⟩ := Res.bind_eq_ok.1 hs
      obtain ⟨t, _, hs⟩ := Res.bind_eq_ok.1 hs
      simp only [Res.bind_ok, Res.pure_eq, Res.ok.injEq] at hp
      simp only [Res.pure_eq, Res.ok.injEq, Prod.mk.injEq] at hs
      rw [← hs.2, ← hp]
    cases d
    simp only at hda hb
    rw [hda, hb]

example : split dbg ⟨16, [7, 0, 1, 0, 0, 0x61, 0x79]⟩ = .ok ([0x61, 0x79], ⟨16, [7, 0, 1, 0]⟩) ∧
    split dbg ⟨16, [7, 1]⟩ = .ok ([40, 41], ⟨4104, []⟩) := by decide

/-! ### C30 -/

/-- Call `next` `k` times: the results and the final iterator. -/
def nexts (c : Cfg) (e : Ty) : Nat → ArrIter → Res (List (Option Slice) × ArrIter)
  | 0, it => .ok ([], it)
  | k + 1, it => iterNext c e it >>= fun p => nexts c e k p.2 >>= fun q => .ok (p.1 :: q.1, q.2)

/-- The same by indexing: `a[i]` below the length, then `None`. -/
def indexed (c : Cfg) (e : Ty) (s : Slice) (n i : Nat) : Res (Option Slice) :=
  if i < n then arrIndex c e s i >>= fun r => .ok (some r) else .ok none

theorem nexts_spec {c : Cfg} {e : Ty} {s : Slice} (ha : Spec.align e ∣ s.addr) (hl : s.len < 2 ^ 63)
    (k : Nat) : ∀ j, j ≤ (Spec.arrFrame s.bytes).2.length →
    nexts c e k (iterState s j (prevStop s.bytes j)) =
      (Res.traverse (indexed c e s (Spec.arrFrame s.bytes).2.length) (List.range' j k) >>= fun items =>
        .ok (items, iterState s (min (j + k) (Spec.arrFrame s.bytes).2.length)
          (prevStop s.bytes (min (j + k) (Spec.arrFrame s.bytes).2.length)))) := by
  generalize hn : (Spec.arrFrame s.bytes).2.length = n
  induction k with
  | zero =>
    intro j hj
    simp [nexts, Res.traverse, Nat.min_eq_left hj]
  | succ k ih =>
    intro j hj
    simp only [nexts, List.range'_succ, Res.traverse]
    by_cases hlt : j < n
    · have hj' : j < (Spec.arrFrame s.bytes).2.length := by omega
      rw [iterNext_raw ha hl hj' (prevStop_lt _ _)]
      simp only [indexed, if_pos hlt]
      rw [arrIndex_raw ha hl hj']
      cases elemRaw c e s (Spec.arrFrame s.bytes).1 (prevStop s.bytes j) (Spec.arrFrame s.bytes).2[j] with
      | fail f => rfl
      | ok r =>
        simp only [Res.bind_ok]
        rw [← prevStop_succ hj', ih (j + 1) (by omega), show j + 1 + k = j + (k + 1) by omega]
        unfold indexed
        cases Res.traverse (fun i => if i < n then arrIndex c e s i >>= fun r => Res.ok (some r) else .ok none)
          (List.range' (j + 1) k) <;> rfl
    · have hjn : j = n := by omega
      rw [iterNext_end (by omega)]
      have hidx : indexed c e s n j = .ok none := by simp [indexed, hlt]
      rw [hidx]
      simp only [Res.bind_ok]
      have hall : ∀ m a, n ≤ a → Res.traverse (indexed c e s n) (List.range' a m) =
          .ok (List.replicate m none) := by
        intro m
        induction m with
        | zero => intro a _; rfl
        | succ m ihm =>
          intro a h
          simp only [List.range'_succ, Res.traverse, List.replicate_succ]
          rw [ihm (a + 1) (by omega)]
          simp [indexed, Nat.not_lt.2 h]
      rw [ih j hj, hall k j (by omega), hall k (j + 1) (by omega)]
      simp only [Res.bind_ok, Res.pure_eq]
      rw [Nat.min_eq_right (by omega), Nat.min_eq_right (by omega)]

/-- Calling `next` any number of times gives what indexing gives, one item per index below `len()` and
    `None` afterwards, panicking exactly where indexing panics; after `k` calls `size_hint` says that
    `len() - k` items are left. -/
theorem c30_iterate (c : Cfg) (e : Ty) (s : Slice) (ha : Spec.align e ∣ s.addr) (hl : s.len < 2 ^ 63) :
    ∃ n it, arrLen c s = .ok n ∧ intoIter c e s = .ok it ∧ ∀ k,
      ∃ itk, nexts c e k it =
          (Res.traverse (indexed c e s n) (List.range k) >>= fun items => .ok (items, itk)) ∧
        sizeHint c itk = .ok (n - k) := by
  refine ⟨_, _, arrLen_ok hl, intoIter_ok ha hl, fun k =>
    ⟨iterState s (min (0 + k) (Spec.arrFrame s.bytes).2.length)
      (prevStop s.bytes (min (0 + k) (Spec.arrFrame s.bytes).2.length)), ?_, ?_⟩⟩
  · have := nexts_spec (c := c) (e := e) ha hl k 0 (Nat.zero_le _)
    rw [List.range_eq_range']
    exact this
  · rw [sizeHint_ok (Nat.min_le_right _ _)]
    congr 1
    omega

/-- Iterating to the end terminates and yields exactly `a[0], …, a[len() - 1]`. -/
theorem c30_collect (c : Cfg) (e : Ty) (s : Slice) (ha : Spec.align e ∣ s.addr) (hl : s.len < 2 ^ 63)
    (hn : Spec.size e = none) :
    ∃ n, arrLen c s = .ok n ∧ arrRefs c e s = Res.traverse (arrIndex c e s) (List.range n) := by
  refine ⟨_, arrLen_ok hl, ?_⟩
  have hcount : (Spec.arrFrame s.bytes).2.length ≤ (iterState s 0 0).offsets.length := by
    simp only [iterState, List.length_drop, ← arrFrame_count]
    exact Nat.le_mul_of_pos_right _ (arrW_isWidth _).pos
  simp only [arrRefs, sizeOf_eq, hn, intoIter_ok ha hl, Res.bind_ok]
  have := collect_eq (c := c) (e := e) ha hl ((iterState s 0 0).offsets.length + 1) 0 (Nat.zero_le _)
    (by omega)
  rw [List.range_eq_range']
  simpa [prevStop] using this

theorem traverse_get {α β : Type} {f : α → Res β} : ∀ {l : List α} {rs : List β},
    Res.traverse f l = .ok rs → rs.length = l.length ∧
      ∀ i (h : i < l.length) (h' : i < rs.length), f l[i] = .ok rs[i]
  | [], rs, h => by
    cases h
    exact ⟨rfl, fun i h => absurd h (by simp)⟩
  | a :: l, rs, h => by
    simp only [Res.traverse, Res.pure_eq] at h
    obtain ⟨b, h1, h⟩ := Res.bind_eq_ok.1 h
    obtain ⟨bs, h2, h⟩ := Res.bind_eq_ok.1 h
    cases h
    obtain ⟨h3, h4⟩ := traverse_get h2
    refine ⟨by simp [h3], fun i hi hi' => ?_⟩
    cases i with
    | zero => exact h1
    | succ i => exact h4 i (by simpa using hi) (by simpa using hi')

/-- If iteration yields `rs` then `len()` is their number, `a[i]` is the `i`-th, and `first()` and
    `last()` are the ends (`None` if empty). -/
theorem c30_ends (c : Cfg) (e : Ty) (s : Slice) (rs : List Slice) (ha : Spec.align e ∣ s.addr)
    (hl : s.len < 2 ^ 63) (hn : Spec.size e = none) (hrs : arrRefs c e s = .ok rs) :
    arrLen c s = .ok rs.length ∧ (∀ i (h : i < rs.length), arrIndex c e s i = .ok rs[i]) ∧
      arrFirst c e s = .ok rs.head? ∧ arrLast c e s = .ok rs.getLast? := by
  obtain ⟨n, h1, h2⟩ := c30_collect c e s ha hl hn
  rw [h2] at hrs
  obtain ⟨h3, h4⟩ := traverse_get hrs
  rw [List.length_range] at h3
  subst h3
  have hidx : ∀ i (h : i < rs.length), arrIndex c e s i = .ok rs[i] := by
    intro i h
    have := h4 i (by simpa using h) h
    simpa using this
  refine ⟨h1, hidx, ?_, ?_⟩
  · simp only [arrFirst, h1, Res.bind_ok]
    cases rs with
    | nil => rfl
    | cons r rs =>
      have := hidx 0 (by simp)
      simp only [List.getElem_cons_zero] at this
      simp [this]
  · simp only [arrLast, h1, Res.bind_ok]
    by_cases h0 : rs = []
    · subst h0; rfl
    · have hp : 0 < rs.length := List.length_pos_iff.2 h0
      rw [if_neg (by omega), usub_ok (by omega)]
      simp only [Res.bind_ok]
      rw [hidx (rs.length - 1) (by omega), List.getLast?_eq_getElem?]
      simp [List.getElem?_eq_getElem (show rs.length - 1 < rs.length by omega)]

/-- Strings "i", "can" and a bad framing offset. -/
def sampleStrs : Slice := ⟨64, [105, 0, 99, 97, 110, 0, 2, 200, 6]⟩

example : Spec.align .S ∣ sampleStrs.addr ∧ Spec.size .S = none ∧ arrLen dbg sampleStrs = .ok 3 ∧
    arrRefs dbg .S sampleStrs = .ok [⟨64, [105, 0]⟩, ⟨4097, []⟩, ⟨4097, []⟩] ∧
    arrLast dbg .S sampleStrs = .ok (some ⟨4097, []⟩) := by decide

/-! ### C31 -/

/-- `a[i]` panics exactly when `i ≥ len()`. -/
def C31_full : Prop := ∀ (c : Cfg) (e : Ty) (s : Slice) (i : Nat), Expands e → Spec.size e = none →
  Spec.align e ∣ s.addr → s.len < 2 ^ 63 → i < 2 ^ 64 →
  ∃ n, arrLen c s = .ok n ∧ ((∃ f, arrIndex c e s i = .fail f) ↔ n ≤ i)

/-- Two empty strings: 256 bytes of body and two 2-byte framing offsets. -/
def wideStrs : Slice := ⟨64, List.replicate 256 0 ++ [0, 1, 0, 1]⟩

set_option maxRecDepth 8000 in
/-- Without overflow checks a huge index wraps round to a valid one. -/
theorem c31_full_false : ¬ C31_full := by
  intro h
  obtain ⟨n, h1, h2⟩ := h rel .S wideStrs (2 ^ 63 + 1) (by decide) (by decide) (by decide) (by decide)
    (by decide)
  have hn : arrLen rel wideStrs = .ok 2 := by decide
  have hi : arrIndex rel .S wideStrs (2 ^ 63 + 1) = .ok ⟨320, []⟩ := by decide
  rw [hn] at h1
  cases h1
  obtain ⟨f, hf⟩ := h2.2 (by decide)
  rw [hi] at hf
  cases hf

/-- Every index from `len()` on panics if the build checks overflow, or if the index times the offset
    size is less than 2^64 (for instance if the index is less than 2^60). -/
theorem c31_past_end_partial (c : Cfg) (e : Ty) (s : Slice) (i n : Nat) (hl : s.len < 2 ^ 63)
    (hn : arrLen c s = .ok n) (hi : n ≤ i)
    (hw : c.overflowChecks = true ∨ (i + 1) * 8 < 2 ^ 64) :
    ∃ f, arrIndex c e s i = .fail f ∧ f ≠ .ub := by
  rw [arrLen_ok hl] at hn
  cases hn
  apply arrIndex_oob hl hi
  refine hw.imp id fun h => ?_
  have hw8 : arrW s.bytes ≤ 8 := by rcases arrW_isWidth s.bytes with h | h | h | h <;> omega
  have := Nat.mul_le_mul_left (i + 1) hw8
  unfold usizeMod
  omega

/-- Without overflow checks an index from `len()` on panics, except that it may wrap round to a smaller one:
    with framing offsets of `w` bytes it counts modulo `2^64 / w` (and then not as 0).  So this and
    `c31_past_end_partial` say for all indices past the end what happens. -/
theorem c31_wrap_partial (c : Cfg) (e : Ty) (s : Slice) (i n : Nat) (hl : s.len < 2 ^ 63)
    (hov : c.overflowChecks = false) (hn : arrLen c s = .ok n) (hi : n ≤ i) (hi2 : i < 2 ^ 64) :
    arrIndex c e s i =
      (let j := i % (2 ^ 64 / Spec.offsetWidth s.len)
       if 0 < j ∧ j < n then arrIndex c e s j else .fail .bounds) := by
  rw [arrLen_ok hl] at hn
  cases hn
  have h := arrIndex_wrap (e := e) hl hov hi hi2
  by_cases hb : s.bytes = []
  · have h1 : (Spec.arrFrame s.bytes).2.length = 0 := by rw [hb]; rfl
    rw [h1] at h ⊢
    rw [h, if_neg (by omega), if_neg (by omega)]
  · have h1 : arrW s.bytes = Spec.offsetWidth s.len := by rw [arrW, if_neg hb]; rfl
    rw [h1] at h
    exact h

set_option maxRecDepth 8000 in
/-- Two bytes per offset: 2^63 + 1 counts as 1, 2^63 does not count as 0. -/
example : Spec.offsetWidth wideStrs.len = 2 ∧ arrLen rel wideStrs = .ok 2 ∧
    arrIndex rel .S wideStrs (2 ^ 63 + 1) = arrIndex rel .S wideStrs 1 ∧
    arrIndex rel .S wideStrs (2 ^ 63) = .fail .bounds ∧
    arrIndex rel .S wideStrs (2 ^ 63 + 2) = .fail .bounds := by decide

set_option maxRecDepth 8000 in
example : arrLen rel sampleStrs = .ok 3 ∧ arrIndex rel .S sampleStrs 3 = .fail .bounds ∧
    arrIndex rel .S sampleStrs (2 ^ 64 - 1) = .fail .bounds ∧
    arrIndex dbg .S wideStrs (2 ^ 63 + 1) = .fail .overflow := by decide

/-- No index below `len()` panics, provided the elements are not themselves arrays of fixed-size items,
    and overflow checks are off, or the array is shorter than 4 GiB or has no huge framing offsets. -/
theorem c31_below_partial (c : Cfg) (e : Ty) (s : Slice) (i n : Nat) (hx : Expands e)
    (hs : Spec.size e = none) (he : ∀ f, e = .A f → Spec.size f = none)
    (ha : Spec.align e ∣ s.addr) (hl : s.len < 2 ^ 63)
    (hw : c.overflowChecks = false ∨ s.len < 2 ^ 32 ∨ ∀ o ∈ (Spec.arrFrame s.bytes).2, o < 2 ^ 63)
    (hn : arrLen c s = .ok n) (hi : i < n) : ∃ r, arrIndex c e s i = .ok r := by
  have hb : ∀ b, Spec.badSize e b = false := by
    intro b
    cases e with
    | A f => simp [Spec.badSize, he f rfl]
    | _ => rfl
  rw [arrLen_ok hl] at hn
  cases hn
  rcases hw with hw | hw
  · rw [arrIndex_raw ha hl hi]
    have hal := specAlign_isAl e
    have : ∃ start, alignOffset c (alignOf e) (prevStop s.bytes i) = .ok start := by
      rw [alignOf_eq, alignOffset_eq hal (prevStop_lt _ _), hw]
      split
      · exact ⟨_, rfl⟩
      · exact ⟨_, rfl⟩
    obtain ⟨start, h1⟩ := this
    obtain ⟨hd, _⟩ := alignOffset_dvd hal (prevStop_lt _ _) (alignOf_eq e ▸ h1)
    unfold elemRaw
    rw [h1, Res.bind_ok]
    by_cases hc : start ≤ (Spec.arrFrame s.bytes).2[i] ∧ (Spec.arrFrame s.bytes).2[i] ≤ (Spec.arrFrame s.bytes).1
    · rw [if_pos hc, tryFromAligned_ok (s := ⟨s.addr + start, _⟩) hx (Nat.dvd_add ha hd)]
      simp [hs, hb]
    · rw [if_neg hc, tryFromAligned_ok (s := ⟨_, []⟩) hx (gap_dvd hal _)]
      simp [hs, hb]
  have hst : ∀ o ∈ (Spec.arrFrame s.bytes).2, o < 2 ^ 63 := hw.elim
    (fun h o ho => Nat.lt_trans (stops_lt h o ho) (by decide)) id
  have hp : prevStop s.bytes i < 2 ^ 63 := by
    unfold prevStop
    split
    · decide
    · rw [List.getD_eq_getElem?_getD]
      cases h : (Spec.arrFrame s.bytes).2[i - 1]? with
      | none => simp
      | some x =>
        obtain ⟨h1, h2⟩ := List.getElem?_eq_some_iff.1 h
        exact hst x (h2 ▸ List.getElem_mem h1)
  rw [arrIndex_ok ha hl hi hp]
  obtain ⟨_, h2⟩ := elemAt_ok (c := c) (prev := prevStop s.bytes i)
    (stop := (Spec.arrFrame s.bytes).2[i]) hx hs ha (arrFrame_body_le s.bytes)
  obtain ⟨r, hr, _⟩ := h2 (by
    cases Spec.place s.bytes (Spec.arrFrame s.bytes).1
      (Spec.roundUp (prevStop s.bytes i) (Spec.align e)) (Spec.arrFrame s.bytes).2[i] <;>
      simp [badChild, hb])
  exact ⟨r, hr⟩

example : Expands (.A .S) ∧ Spec.size (.A .S) = none ∧ (∀ f, Ty.A .S = .A f → Spec.size f = none) ∧
    arrIndex dbg .S sampleStrs 1 = .ok ⟨4097, []⟩ :=
  ⟨by decide, rfl, by rintro f ⟨⟩; rfl, by decide⟩

/-- The other exception: an element that is an array of fixed-size items but no multiple of their size
    (here three bytes as `ai`) panics although the index is below `len()`. -/
theorem c31_ragged_panics : arrLen dbg ⟨64, [1, 2, 3, 3]⟩ = .ok 1 ∧
    arrIndex dbg (.A .I) ⟨64, [1, 2, 3, 3]⟩ 0 = .fail .unwrap := by decide

/-! ### C32 -/

/-- Where the `i`-th element of a variable-width array lies by the rules (2.5.3.2, 2.7.3): from the end
    of the previous element (0 for the first), rounded up, to its own framing offset, if that is in the
    body. -/
def elemRange (e : Ty) (b : Bytes) (i : Nat) : Option (Nat × Nat) :=
  let (body, stops) := Spec.arrFrame b
  let start := Spec.roundUp (if i = 0 then 0 else stops.getD (i - 1) 0) (Spec.align e)
  let stop := stops.getD i 0
  if start ≤ stop ∧ stop ≤ body then some (start, stop) else none

/-- Each element that can be had is the part of the body that the rules give it, or empty (the default
    value) if they give none. -/
def C32_full : Prop := ∀ (c : Cfg) (e : Ty) (s : Slice) (i n : Nat) (r : Slice), Expands e →
  Spec.size e = none → Spec.align e ∣ s.addr → s.len < 2 ^ 63 → arrLen c s = .ok n → i < n →
  arrIndex c e s i = .ok r →
  match elemRange e s.bytes i with
  | some (start, stop) => r = ⟨s.addr + start, Spec.sub s.bytes start stop⟩
  | none => r.bytes = []

theorem elemRaw_cases {c : Cfg} {e : Ty} {s : Slice} {body prev stop : Nat} {r : Slice}
    (hx : Expands e) (ha : Spec.align e ∣ s.addr) (hp : prev < usizeMod)
    (h : elemRaw c e s body prev stop = .ok r) :
    ∃ start, alignOffset c (alignOf e) prev = .ok start ∧ Spec.align e ∣ start ∧
      ((start ≤ stop ∧ stop ≤ body ∧ r = ⟨s.addr + start, Spec.sub s.bytes start stop⟩) ∨
       (¬ (start ≤ stop ∧ stop ≤ body) ∧
          r = ⟨c.spacesAddr + gap (Spec.align e) c.spacesAddr, []⟩)) := by
  unfold elemRaw at h
  obtain ⟨start, h1, h⟩ := Res.bind_eq_ok.1 h
  have hal := specAlign_isAl e
  obtain ⟨hd, _⟩ := alignOffset_dvd hal hp (alignOf_eq e ▸ h1)
  refine ⟨start, h1, hd, ?_⟩
  by_cases hc : start ≤ stop ∧ stop ≤ body
  · rw [if_pos hc, tryFromAligned_ok (s := ⟨s.addr + start, _⟩) hx (Nat.dvd_add ha hd)] at h
    left
    simp only [Res.bind_ok] at h
    split at h
    · cases h; exact ⟨hc.1, hc.2, rfl⟩
    · cases h
  · rw [if_neg hc, tryFromAligned_ok (s := ⟨_, []⟩) hx (gap_dvd hal _)] at h
    right
    simp only [Res.bind_ok] at h
    split at h
    · cases h; exact ⟨hc, rfl⟩
    · cases h

/-- Whatever the size, and overflow or not: each element is in the body, at an aligned offset and
    ending at its framing offset, or is empty. -/
theorem c32_in_body (c : Cfg) (e : Ty) (s : Slice) (i n : Nat) (r : Slice) (hx : Expands e)
    (ha : Spec.align e ∣ s.addr) (hl : s.len < 2 ^ 63)
    (hn : arrLen c s = .ok n) (hi : i < n) (hr : arrIndex c e s i = .ok r) :
    r.bytes = [] ∨ ∃ start stop, Spec.align e ∣ start ∧ start ≤ stop ∧
      (Spec.arrFrame s.bytes).2[i]? = some stop ∧ stop ≤ (Spec.arrFrame s.bytes).1 ∧
      r = ⟨s.addr + start, Spec.sub s.bytes start stop⟩ := by
  rw [arrLen_ok hl] at hn
  cases hn
  rw [arrIndex_raw ha hl hi] at hr
  obtain ⟨start, _, hd, h | h⟩ := elemRaw_cases hx ha (prevStop_lt _ _) hr
  · exact Or.inr ⟨start, _, hd, h.1, List.getElem?_eq_getElem hi, h.2.1, h.2.2⟩
  · left; rw [h.2]

/-- The rules hold with overflow checks, or for arrays shorter than 4 GiB or without huge framing
    offsets. -/
theorem c32_rule_partial (c : Cfg) (e : Ty) (s : Slice) (i n : Nat) (r : Slice) (hx : Expands e)
    (ha : Spec.align e ∣ s.addr) (hl : s.len < 2 ^ 63)
    (hw : c.overflowChecks = true ∨ s.len < 2 ^ 32 ∨ ∀ o ∈ (Spec.arrFrame s.bytes).2, o < 2 ^ 63)
    (hn : arrLen c s = .ok n) (hi : i < n) (hr : arrIndex c e s i = .ok r) :
    match elemRange e s.bytes i with
    | some (start, stop) => r = ⟨s.addr + start, Spec.sub s.bytes start stop⟩
    | none => r.bytes = [] := by
  rw [arrLen_ok hl] at hn
  cases hn
  rw [arrIndex_raw ha hl hi] at hr
  have hal := specAlign_isAl e
  have hal8 : Spec.align e ≤ 8 := by rcases hal with h | h | h | h <;> omega
  obtain ⟨start, h1, hd, h⟩ := elemRaw_cases hx ha (prevStop_lt _ _) hr
  have hstart : start = Spec.roundUp (prevStop s.bytes i) (Spec.align e) := by
    by_cases hlt : prevStop s.bytes i + Spec.align e < usizeMod
    · rw [alignOf_eq, alignOffset_ok hal hlt] at h1
      cases h1; rfl
    · exfalso
      rcases hw with hw | hw
      · rw [alignOf_eq, alignOffset_eq hal (prevStop_lt _ _), if_neg hlt, if_pos hw] at h1
        cases h1
      · have hst : ∀ o ∈ (Spec.arrFrame s.bytes).2, o < 2 ^ 63 := hw.elim
          (fun h o ho => Nat.lt_trans (stops_lt h o ho) (by decide)) id
        have : prevStop s.bytes i < 2 ^ 63 := by
          unfold prevStop
          split
          · decide
          · rw [List.getD_eq_getElem?_getD]
            cases h : (Spec.arrFrame s.bytes).2[i - 1]? with
            | none => simp
            | some x =>
              obtain ⟨h1, h2⟩ := List.getElem?_eq_some_iff.1 h
              exact hst x (h2 ▸ List.getElem_mem h1)
        unfold usizeMod at hlt
        omega
  have hget : (Spec.arrFrame s.bytes).2.getD i 0 = (Spec.arrFrame s.bytes).2[i] := by
    simp [List.getElem?_eq_getElem hi]
  have hrange : elemRange e s.bytes i = if start ≤ (Spec.arrFrame s.bytes).2[i] ∧
      (Spec.arrFrame s.bytes).2[i] ≤ (Spec.arrFrame s.bytes).1
      then some (start, (Spec.arrFrame s.bytes).2[i]) else none := by
    simp only [elemRange, hget]
    rw [hstart]
    rfl
  rw [hrange]
  rcases h with h | h
  · rw [if_pos ⟨h.1, h.2.1⟩]; exact h.2.2
  · rw [if_neg h.1]; simp [h.2]

example : elemRange .S sampleStrs.bytes 0 = some (0, 2) ∧ elemRange .S sampleStrs.bytes 1 = none ∧
    elemRange .S sampleStrs.bytes 2 = none ∧ arrIndex dbg .S sampleStrs 0 = .ok ⟨64, [105, 0]⟩ := by
  decide

/-- Two framing offsets, 2^64 - 1 and 2^32. -/
def hugeTail : Bytes := [255, 255, 255, 255, 255, 255, 255, 255, 0, 0, 0, 0, 1, 0, 0, 0]

/-- An array of 4 GiB and 16 bytes: any body and two framing offsets of 8 bytes. -/
def huge (pre : Bytes) : Slice := ⟨64, pre ++ hugeTail⟩

theorem exists_huge : ∃ pre : Bytes, pre.length = 2 ^ 32 :=
  ⟨List.replicate (2 ^ 32) 0, List.length_replicate⟩

theorem hugeFrame (pre : Bytes) (h : pre.length = 2 ^ 32) :
    Spec.arrFrame (pre ++ hugeTail) = (2 ^ 32, [2 ^ 64 - 1, 2 ^ 32]) := by
  have hlen : (pre ++ hugeTail).length = 2 ^ 32 + 16 := by simp [h, hugeTail]
  have hw : Spec.offsetWidth (2 ^ 32 + 16) = 8 := by decide
  have hd : ∀ k, (pre ++ hugeTail).drop (2 ^ 32 + k) = hugeTail.drop k := by
    intro k
    rw [← h, List.drop_append]
    simp
  have hne : pre ++ hugeTail ≠ [] := by simp [hugeTail]
  have hlast : Spec.le ((pre ++ hugeTail).drop (2 ^ 32 + 16 - 8)) = 2 ^ 32 := by
    rw [show 2 ^ 32 + 16 - 8 = 2 ^ 32 + 8 by omega, hd]
    decide
  unfold Spec.arrFrame
  simp only [hlen, hw, hlast]
  rw [if_neg]
  · have hs : ∀ k, Spec.sub (pre ++ hugeTail) (2 ^ 32 + k * 8) (2 ^ 32 + k * 8 + 8) =
        (hugeTail.drop (k * 8)).take 8 := by
      intro k
      rw [Spec.sub, List.drop_take, hd, show 2 ^ 32 + k * 8 + 8 - (2 ^ 32 + k * 8) = 8 by omega]
    rw [show (2 ^ 32 + 16 - 2 ^ 32) / 8 = 2 by omega]
    simp only [hs]
    rfl
  · rintro (h1 | h1 | h1)
    · exact hne h1
    · omega
    · omega

section
variable {pre : Bytes} (h : pre.length = 2 ^ 32)
include h

theorem huge_frame : Spec.arrFrame (huge pre).bytes = (2 ^ 32, [2 ^ 64 - 1, 2 ^ 32]) := hugeFrame _ h

theorem huge_len : (huge pre).len = 2 ^ 32 + 16 := by
  simp only [Slice.len, huge, List.length_append, h]
  rfl

theorem huge_arrLen (c : Cfg) : arrLen c (huge pre) = .ok 2 := by
  rw [arrLen_ok (by rw [huge_len h]; decide), huge_frame h]
  rfl

theorem huge_prev : prevStop (huge pre).bytes 1 = 2 ^ 64 - 1 := by
  unfold prevStop; rw [huge_frame h]; rfl

/-- With overflow checks, indexing panics. -/
theorem huge_debug (c : Cfg) (hc : c.overflowChecks = true) :
    arrIndex c (.A .X) (huge pre) 1 = .fail .overflow := by
  rw [arrIndex_raw (show Spec.align (.A .X) ∣ 64 by decide) (by rw [huge_len h]; decide)
    (by rw [huge_frame h]; decide), huge_prev h]
  unfold elemRaw
  rw [alignOf_eq, alignOffset_eq (specAlign_isAl _) (by decide), if_neg (by decide), if_pos hc]
  rfl

/-- Without, the second element is the whole body. -/
theorem huge_release (c : Cfg) (hc : c.overflowChecks = false) :
    arrIndex c (.A .X) (huge pre) 1 = .ok ⟨64, pre⟩ := by
  have hst : (Spec.arrFrame (huge pre).bytes).2[1]'(by rw [huge_frame h]; decide) = 2 ^ 32 := by
    simp only [huge_frame h]; rfl
  rw [arrIndex_raw (show Spec.align (.A .X) ∣ 64 by decide) (by rw [huge_len h]; decide)
    (by rw [huge_frame h]; decide), hst, huge_frame h, huge_prev h]
  unfold elemRaw
  rw [alignOf_eq, alignOffset_eq (specAlign_isAl _) (by decide), if_neg (by decide),
    if_neg (by simp [hc])]
  rw [show Spec.roundUp (2 ^ 64 - 1) (Spec.align (.A .X)) % usizeMod = 0 by decide, Res.bind_ok,
    if_pos ⟨Nat.zero_le _, Nat.le_refl _⟩]
  have hsub : Spec.sub (huge pre).bytes 0 (2 ^ 32) = pre := by
    rw [Spec.sub, List.drop_zero, huge]
    exact List.take_left' h
  rw [hsub, tryFromAligned_ok (by decide) (show Spec.align (.A .X) ∣ 64 + 0 by decide)]
  rw [if_pos]
  · rfl
  · right
    refine ⟨rfl, ?_⟩
    simp only [Spec.badSize, Spec.size, h]
    decide

end

/-- Without overflow checks, a framing offset near 2^64 makes the next element start at 0. -/
theorem c32_full_false : ¬ C32_full := by
  intro h
  obtain ⟨pre, hp⟩ := exists_huge
  have := h rel (.A .X) (huge pre) 1 2 _ (by decide) (by decide) (show Spec.align (.A .X) ∣ 64 by decide)
    (by rw [huge_len hp]; decide) (huge_arrLen hp _) (by decide) (huge_release hp _ rfl)
  have hr : elemRange (.A .X) (huge pre).bytes 1 = none := by
    unfold elemRange
    rw [huge_frame hp]
    decide
  rw [hr] at this
  have h2 : pre = [] := this
  rw [h2] at hp
  exact absurd hp (by decide)

end GV.Props
