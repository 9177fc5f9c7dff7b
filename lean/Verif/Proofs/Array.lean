import Verif.Proofs.View
/-
Helper lemmas: iteration and indexing of variable-width arrays without any bound on the data, so
including arithmetic overflow.
-/
namespace GV

/-- An element as the code computes it, overflow included. -/
def elemRaw (c : Cfg) (e : Ty) (s : Slice) (body prev stop : Nat) : Res Slice :=
  alignOffset c (alignOf e) prev >>= fun start =>
    tryFromAligned c e (if start ≤ stop ∧ stop ≤ body then
      ⟨s.addr + start, Spec.sub s.bytes start stop⟩
      else ⟨c.spacesAddr + gap (Spec.align e) c.spacesAddr, []⟩) >>= Res.unwrap

theorem elemRaw_eq {c : Cfg} {e : Ty} {s : Slice} {body prev stop : Nat}
    (h : prev + Spec.align e < usizeMod) : elemRaw c e s body prev stop = elemAt c e s body prev stop := by
  unfold elemRaw elemAt
  rw [alignOf_eq, alignOffset_ok (specAlign_isAl e) h]
  rfl

theorem stops_lt_usize (b : Bytes) : ∀ x ∈ (Spec.arrFrame b).2, x < usizeMod := by
  intro x hx
  obtain ⟨k, hk, rfl⟩ := List.getElem_of_mem hx
  rw [arrFrame_get b hk]
  have h1 := sub_length_le (b.drop (Spec.arrFrame b).1) (k * arrW b) (k * arrW b + arrW b)
  have hw8 : arrW b ≤ 8 := by rcases arrW_isWidth b with h | h | h | h <;> omega
  have := le_lt_of_length (b := Spec.sub (b.drop (Spec.arrFrame b).1) (k * arrW b) (k * arrW b + arrW b))
    (w := 8) (by omega)
  simpa [usizeMod] using this

theorem iterNext_raw {c : Cfg} {e : Ty} {s : Slice} (ha : Spec.align e ∣ s.addr)
    (hl : s.len < 2 ^ 63) {k prev : Nat} (hk : k < (Spec.arrFrame s.bytes).2.length)
    (hp : prev < usizeMod) :
    iterNext c e (iterState s k prev) =
      (elemRaw c e s (Spec.arrFrame s.bytes).1 prev (Spec.arrFrame s.bytes).2[k] >>= fun r =>
        .ok (some r, iterState s (k + 1) (Spec.arrFrame s.bytes).2[k])) := by
  have hal := specAlign_isAl e
  have hl' : s.bytes.length < 2 ^ 63 := hl
  have hw := arrW_isWidth s.bytes
  have hwp := hw.pos
  have hbnd := arrFrame_bound s.bytes hk
  have hbody := arrFrame_body_le s.bytes
  have hw8 : arrW s.bytes ≤ 8 := by rcases hw with h | h | h | h <;> omega
  have hidx : ¬ (iterState s k prev).offsetIdx ≥ (iterState s k prev).offsets.length := by
    simp only [iterState, List.length_drop]; omega
  unfold iterNext elemRaw
  rw [if_neg hidx]
  simp only [iterState, alignOf_eq]
  cases hst : alignOffset c (Spec.align e) prev with
  | fail f => rfl
  | ok start =>
    obtain ⟨hd, _⟩ := alignOffset_dvd hal hp hst
    simp only [Res.bind_ok]
    have hrd : readUint c (List.drop (k * arrW s.bytes) (List.drop (Spec.arrFrame s.bytes).1 s.bytes))
        (arrW s.bytes) 0 = .ok (Spec.arrFrame s.bytes).2[k] := by
      rw [readUint_ok hw (by simp only [List.length_drop]; omega)
        (by simp only [List.length_drop]; omega), sub_drop, arrFrame_get s.bytes hk]
      simp
    rw [hrd, uadd_ok (by unfold usizeMod; omega)]
    simp only [Res.bind_ok]
    have hlen : (⟨s.addr, s.bytes.take (Spec.arrFrame s.bytes).1⟩ : Slice).len =
        (Spec.arrFrame s.bytes).1 := by
      simp only [Slice.len, List.length_take]; omega
    have hsucc : k * arrW s.bytes + arrW s.bytes = (k + 1) * arrW s.bytes := by
      rw [Nat.succ_mul]
    simp only [hlen, hsucc]
    by_cases h : start ≤ (Spec.arrFrame s.bytes).2[k] ∧
        (Spec.arrFrame s.bytes).2[k] ≤ (Spec.arrFrame s.bytes).1
    · rw [if_neg (by omega), if_pos h, window_ok (s := ⟨s.addr, s.bytes.take (Spec.arrFrame s.bytes).1⟩)
        ha hd h.1 (by rw [hlen]; exact h.2)]
      simp only [Res.bind_ok, sub_take _ h.2]
      cases tryFromAligned c e ⟨s.addr + start, Spec.sub s.bytes start (Spec.arrFrame s.bytes).2[k]⟩ with
      | fail f => rfl
      | ok o => cases o <;> rfl
    · rw [if_pos (by omega), if_neg h, emptyAligned_ok hal]
      simp only [Res.bind_ok]
      cases tryFromAligned c e ⟨c.spacesAddr + gap (Spec.align e) c.spacesAddr, []⟩ with
      | fail f => rfl
      | ok o => cases o <;> rfl

theorem prevStop_lt (b : Bytes) (i : Nat) : prevStop b i < usizeMod := by
  unfold prevStop
  split
  · decide
  · rw [List.getD_eq_getElem?_getD]
    cases h : (Spec.arrFrame b).2[i - 1]? with
    | none => simp [usizeMod]
    | some x =>
      obtain ⟨h1, h2⟩ := List.getElem?_eq_some_iff.1 h
      exact stops_lt_usize b x (h2 ▸ List.getElem_mem h1)

theorem arrIndex_raw {c : Cfg} {e : Ty} {s : Slice} (ha : Spec.align e ∣ s.addr)
    (hl : s.len < 2 ^ 63) {i : Nat} (hi : i < (Spec.arrFrame s.bytes).2.length) :
    arrIndex c e s i =
      elemRaw c e s (Spec.arrFrame s.bytes).1 (prevStop s.bytes i) (Spec.arrFrame s.bytes).2[i] := by
  have hal := specAlign_isAl e
  have hl' : s.bytes.length < 2 ^ 63 := hl
  have hb := arrFrame_body_le s.bytes
  have hw := arrW_isWidth s.bytes
  have hbd := arrFrame_bound s.bytes hi
  have hwp := hw.pos
  have hp := prevStop_lt s.bytes i
  unfold arrIndex elemRaw
  simp only [readLast_ok hl, Res.bind_ok]
  rw [if_pos (show (Spec.arrFrame s.bytes).1 ≤ s.len from hb),
    readUint_ok hw (by simp only [List.length_drop]; omega) (by simp only [List.length_drop]; omega),
    ← arrFrame_get s.bytes hi]
  simp only [Res.bind_ok]
  have hprev : (if i = 0 then (pure 0 : Res Nat) else
      readUint c (s.bytes.drop (Spec.arrFrame s.bytes).1) (arrW s.bytes) (i - 1)) =
      .ok (prevStop s.bytes i) := by
    unfold prevStop
    by_cases h0 : i = 0
    · simp [h0]
    · have hi' : i - 1 < (Spec.arrFrame s.bytes).2.length := by omega
      have hbd' := arrFrame_bound s.bytes hi'
      rw [if_neg h0, if_neg h0, readUint_ok hw (by simp only [List.length_drop]; omega)
        (by simp only [List.length_drop]; omega), ← arrFrame_get s.bytes hi']
      simp [List.getElem?_eq_getElem hi']
  rw [hprev]
  simp only [Res.bind_ok, alignOf_eq]
  cases hst : alignOffset c (Spec.align e) (prevStop s.bytes i) with
  | fail f => rfl
  | ok start =>
    obtain ⟨hd, _⟩ := alignOffset_dvd hal hp hst
    simp only [Res.bind_ok]
    by_cases h : start ≤ (Spec.arrFrame s.bytes).2[i] ∧
        (Spec.arrFrame s.bytes).2[i] ≤ (Spec.arrFrame s.bytes).1
    · rw [if_pos ⟨by simp only [Slice.len]; omega, h.2, h.1⟩, if_pos h,
        window_ok ha hd h.1 (by simp only [Slice.len]; omega)]
      rfl
    · rw [if_neg (by rintro ⟨_, h1, h2⟩; exact h ⟨h2, h1⟩), if_neg h, emptyAligned_ok hal]
      rfl

theorem arrLen_ok {c : Cfg} {s : Slice} (hl : s.len < 2 ^ 63) :
    arrLen c s = .ok (Spec.arrFrame s.bytes).2.length := by
  have hb := arrFrame_body_le s.bytes
  have hw := (arrW_isWidth s.bytes).pos
  unfold arrLen
  simp only [readLast_ok hl, Res.bind_ok]
  rw [usub_ok (show (Spec.arrFrame s.bytes).1 ≤ s.len from hb)]
  simp only [Res.bind_ok]
  rw [if_neg (by omega), arrFrame_len]
  rfl

theorem sizeHint_ok {c : Cfg} {s : Slice} {k prev : Nat} (hk : k ≤ (Spec.arrFrame s.bytes).2.length) :
    sizeHint c (iterState s k prev) = .ok ((Spec.arrFrame s.bytes).2.length - k) := by
  have hw := (arrW_isWidth s.bytes).pos
  have hc := arrFrame_count s.bytes
  have hle : k * arrW s.bytes ≤ (Spec.arrFrame s.bytes).2.length * arrW s.bytes :=
    Nat.mul_le_mul_right _ hk
  unfold sizeHint
  rw [if_neg (show ¬ (iterState s k prev).offsetSize = 0 by simp only [iterState]; omega)]
  simp only [iterState]
  rw [usub_ok (by simp only [List.length_drop]; omega)]
  simp only [Res.bind_ok, List.length_drop, ← hc, ← Nat.sub_mul, Nat.mul_div_cancel _ hw]
  rfl

/-- Indices past the end. -/
theorem arrIndex_oob {c : Cfg} {e : Ty} {s : Slice} (hl : s.len < 2 ^ 63) {i : Nat}
    (hi : (Spec.arrFrame s.bytes).2.length ≤ i)
    (hw : c.overflowChecks = true ∨ (i + 1) * arrW s.bytes < usizeMod) :
    ∃ f, arrIndex c e s i = .fail f ∧ f ≠ .ub := by
  have hb := arrFrame_body_le s.bytes
  have hww := arrW_isWidth s.bytes
  have hc := arrFrame_count s.bytes
  have hle : (Spec.arrFrame s.bytes).2.length * arrW s.bytes ≤ i * arrW s.bytes :=
    Nat.mul_le_mul_right _ hi
  have hs : (i + 1) * arrW s.bytes = i * arrW s.bytes + arrW s.bytes := Nat.succ_mul _ _
  have hwp := hww.pos
  unfold arrIndex
  simp only [readLast_ok hl, Res.bind_ok]
  rw [if_pos (show (Spec.arrFrame s.bytes).1 ≤ s.len from hb)]
  by_cases hlt : i * arrW s.bytes + arrW s.bytes < usizeMod
  · rw [readUint_oob hww hlt (by simp only [List.length_drop]; omega)]
    exact ⟨_, rfl, by decide⟩
  · have hov : c.overflowChecks = true := by
      rcases hw with h | h
      · exact h
      · omega
    have : readUint c (s.bytes.drop (Spec.arrFrame s.bytes).1) (arrW s.bytes) i = .fail .overflow ∨
        readUint c (s.bytes.drop (Spec.arrFrame s.bytes).1) (arrW s.bytes) i = .fail .bounds := by
      unfold readUint
      by_cases hm : i * arrW s.bytes < usizeMod
      · rw [umul_ok hm]
        simp only [Res.bind_ok]
        rw [if_neg (by omega)]
        by_cases h1 : arrW s.bytes = 1
        · rw [if_pos h1, List.getElem?_eq_none]
          · right; rfl
          · simp only [List.length_drop]
            have : i * arrW s.bytes + 1 ≤ usizeMod := by omega
            omega
        · rw [if_neg h1]
          left
          simp [uadd, hlt, hov]
      · left
        simp [umul, hm, hov]
    rcases this with h | h
    · rw [h]; exact ⟨_, rfl, by decide⟩
    · rw [h]; exact ⟨_, rfl, by decide⟩

end GV
