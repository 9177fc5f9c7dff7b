import Verif.Proofs.Reach
import Verif.Spec.Local
/-
Helper lemmas: which bytes the access to one element or member depends on.
-/
namespace GV

/-- Two results of a cast that differ only in the bytes. -/
def SameCast (a : Nat) (x x' : Bytes) (r r' : Res (Option Slice)) : Prop :=
  (∃ f, r = .fail f ∧ r' = .fail f) ∨ (r = .ok none ∧ r' = .ok none) ∨
    (r = .ok (some ⟨a, x⟩) ∧ r' = .ok (some ⟨a, x'⟩))

/-- Casting looks only at where the data is and how long it is. -/
theorem tryFromAligned_local (c : Cfg) (t : Ty) (a : Nat) {x x' : Bytes} (h : x'.length = x.length) :
    SameCast a x x' (tryFromAligned c t ⟨a, x⟩) (tryFromAligned c t ⟨a, x'⟩) := by
  have hal : ∀ ra, Slice.isAligned ⟨a, x'⟩ ra = Slice.isAligned ⟨a, x⟩ ra := fun _ => rfl
  have h1 : SameCast a x x' (tryCastSliceTo c t ⟨a, x⟩) (tryCastSliceTo c t ⟨a, x'⟩) := by
    unfold tryCastSliceTo
    cases rustLayout t with
    | fail f => exact .inl ⟨f, rfl, rfl⟩
    | ok p =>
      simp only [Res.bind_ok, Slice.len, h, mkRef, hal]
      by_cases h1 : p.1 = x.length
      · by_cases h2 : Slice.isAligned ⟨a, x⟩ p.2
        · simp only [h1, h2, if_true]; exact .inr (.inr ⟨rfl, rfl⟩)
        · by_cases h3 : c.debugAssertions
          · simp only [h1, h2, h3, if_true]; exact .inl ⟨_, rfl, rfl⟩
          · simp only [h1, h2, h3, if_true]; exact .inl ⟨_, rfl, rfl⟩
      · simp only [h1, if_false]; exact .inr (.inl ⟨rfl, rfl⟩)
  have h2 : ∀ al e, SameCast a x x' (castSlice c al e ⟨a, x⟩) (castSlice c al e ⟨a, x'⟩) := by
    intro al e
    unfold castSlice
    cases rustLayout e with
    | fail f => exact .inl ⟨f, rfl, rfl⟩
    | ok p =>
      simp only [Res.bind_ok, Slice.len, h, hal]
      by_cases h1 : al < p.2
      · simp only [h1, if_true]; exact .inl ⟨_, rfl, rfl⟩
      · by_cases h2 : (c.debugAssertions && !Slice.isAligned ⟨a, x⟩ p.2) = true
        · simp only [h1, h2, if_true, if_false]; exact .inl ⟨_, rfl, rfl⟩
        · by_cases h3 : p.1 = 0
          · simp only [h1, h2, h3, if_true, if_false]; exact .inl ⟨_, rfl, rfl⟩
          · by_cases h4 : x.length % p.1 = 0
            · by_cases h5 : Slice.isAligned ⟨a, x⟩ p.2
              · simp only [h1, h2, h3, h4, if_true, if_false]; simp only [h5, if_true]; exact .inr (.inr ⟨rfl, rfl⟩)
              · simp only [h1, h2, h3, h4, if_true, if_false]; simp only [h5]; exact .inl ⟨_, rfl, rfl⟩
            · simp only [h1, h2, h3, h4, if_false]; exact .inr (.inl ⟨rfl, rfl⟩)
  unfold tryFromAligned
  cases sizeOf t with
  | some n => exact h1
  | none =>
    cases t
    case A e =>
      simp only
      cases sizeOf e with
      | some n => exact h2 _ _
      | none => exact .inr (.inr ⟨rfl, rfl⟩)
    all_goals exact .inr (.inr ⟨rfl, rfl⟩)

/-- A function of two positions that looks at nothing but the bytes between them, and at those only
    if it returns them. -/
theorem cast_window_local {c : Cfg} {t : Ty} {s : Slice} {start stop : Nat}
    {k : Option Slice → Res Slice} (hk : ∀ x, k (some x) = .ok x) (h1 : start ≤ stop) (h2 : stop ≤ s.len) :
    ∃ lo hi, (∀ r, tryFromAligned c t ⟨s.addr + start, Spec.sub s.bytes start stop⟩ >>= k = .ok r →
        hi - lo ≤ r.len) ∧ hi ≤ s.len ∧
      (lo < hi → tryFromAligned c t ⟨s.addr + start, Spec.sub s.bytes start stop⟩ >>= k =
        .ok ⟨s.addr + lo, Spec.sub s.bytes lo hi⟩) ∧
      ∀ b' : Bytes, b'.length = s.len → Spec.Agree s.bytes b' lo hi →
        tryFromAligned c t ⟨s.addr + start, Spec.sub b' start stop⟩ >>= k =
          tryFromAligned c t ⟨s.addr + start, Spec.sub s.bytes start stop⟩ >>= k := by
  have hlen : ∀ b' : Bytes, b'.length = s.len →
      (Spec.sub b' start stop).length = (Spec.sub s.bytes start stop).length := by
    intro b' hb
    simp only [Slice.len] at h2 hb
    simp only [Spec.sub, List.length_take, List.length_drop]
    omega
  have hl0 : (Spec.sub s.bytes start stop).length = stop - start := by
    simp only [Slice.len] at h2
    simp only [Spec.sub, List.length_take, List.length_drop]
    omega
  rcases tryFromAligned_local c t (s.addr + start) (x := Spec.sub s.bytes start stop) rfl with
    ⟨f, h, -⟩ | ⟨h, -⟩ | ⟨h, -⟩
  · refine ⟨0, 0, by intro r _; omega, by omega, by omega, fun b' hb _ => ?_⟩
    rcases tryFromAligned_local c t (s.addr + start) (hlen b' hb) with ⟨f, h3, h4⟩ | ⟨h3, h4⟩ | ⟨h3, h4⟩
    · rw [h3, h4]
    · rw [h3, h4]
    · rw [h3] at h; cases h
  · refine ⟨0, 0, by intro r _; omega, by omega, by omega, fun b' hb _ => ?_⟩
    rcases tryFromAligned_local c t (s.addr + start) (hlen b' hb) with ⟨f, h3, h4⟩ | ⟨h3, h4⟩ | ⟨h3, h4⟩
    · rw [h3, h4]
    · rw [h3, h4]
    · rw [h3] at h; cases h
  · refine ⟨start, stop, ?_, h2, fun _ => by rw [h, Res.bind_ok, hk], fun b' hb ha => ?_⟩
    · intro r hr
      rw [h, Res.bind_ok, hk] at hr
      cases hr
      simp only [Slice.len]; omega
    · have : Spec.sub b' start stop = Spec.sub s.bytes start stop := ha.symm
      rw [this]

/-- The `i`-th element of a variable-width array. -/
theorem arrIndex_local {c : Cfg} {e : Ty} {s : Slice} (ha : Spec.align e ∣ s.addr)
    (hl : s.len < 2 ^ 63) {i : Nat} (hi : i < (Spec.arrFrame s.bytes).2.length) :
    ∃ lo hi, hi ≤ s.len ∧ (∀ r, arrIndex c e s i = .ok r → hi - lo ≤ r.len) ∧
      (lo < hi → arrIndex c e s i = .ok ⟨s.addr + lo, Spec.sub s.bytes lo hi⟩) ∧
      ∀ s' : Slice, s'.addr = s.addr → s'.len = s.len →
        (Spec.arrFrame s'.bytes).1 = (Spec.arrFrame s.bytes).1 →
        (Spec.arrFrame s'.bytes).2[i]? = (Spec.arrFrame s.bytes).2[i]? →
        prevStop s'.bytes i = prevStop s.bytes i →
        Spec.Agree s.bytes s'.bytes lo hi → arrIndex c e s' i = arrIndex c e s i := by
  have hbody := arrFrame_body_le s.bytes
  rw [arrIndex_raw ha hl hi]
  have hget : (Spec.arrFrame s.bytes).2[i]? = some (Spec.arrFrame s.bytes).2[i] :=
    List.getElem?_eq_getElem hi
  generalize hstop : (Spec.arrFrame s.bytes).2[i] = stop at *
  have step : ∀ s' : Slice, s'.addr = s.addr → s'.len = s.len →
        (Spec.arrFrame s'.bytes).1 = (Spec.arrFrame s.bytes).1 →
        (Spec.arrFrame s'.bytes).2[i]? = (Spec.arrFrame s.bytes).2[i]? →
        prevStop s'.bytes i = prevStop s.bytes i →
        arrIndex c e s' i = elemRaw c e s' (Spec.arrFrame s.bytes).1 (prevStop s.bytes i) stop := by
    intro s' h1 h2 h3 h4 h5
    rw [hget] at h4
    obtain ⟨hi', h4⟩ := List.getElem?_eq_some_iff.1 h4
    rw [arrIndex_raw (by rw [h1]; exact ha) (by rw [h2]; exact hl) hi', h3, h4, h5]
  unfold elemRaw at step ⊢
  cases hst : alignOffset c (alignOf e) (prevStop s.bytes i) with
  | fail f =>
    refine ⟨0, 0, by omega, by intro r _; omega, by omega, fun s' h1 h2 h3 h4 h5 _ => ?_⟩
    rw [step s' h1 h2 h3 h4 h5, hst]
    rfl
  | ok start =>
    simp only [hst, Res.bind_ok] at step ⊢
    by_cases h : start ≤ stop ∧ stop ≤ (Spec.arrFrame s.bytes).1
    · have hle : stop ≤ s.len := by simp only [Slice.len]; omega
      obtain ⟨lo, hi, h1, h0, h2, h3⟩ := cast_window_local (c := c) (t := e) (k := Res.unwrap)
        (fun _ => rfl) h.1 hle
      rw [if_pos h]
      refine ⟨lo, hi, h0, h1, h2, fun s' g1 g2 g3 g4 g5 g6 => ?_⟩
      rw [step s' g1 g2 g3 g4 g5, if_pos h, g1]
      exact h3 s'.bytes g2 g6
    · rw [if_neg h]
      refine ⟨0, 0, by omega, by intro r _; omega, by omega, fun s' h1 h2 h3 h4 h5 _ => ?_⟩
      rw [step s' h1 h2 h3 h4 h5, if_neg h]

/-- Agreement of the bytes of the framing offsets gives agreement of their values. -/
theorem arrFrame_agree {b b' : Bytes} (hlen : b'.length = b.length)
    (hlast : Spec.Agree b b' (b.length - Spec.offsetWidth b.length) b.length) :
    (Spec.arrFrame b').1 = (Spec.arrFrame b).1 ∧ (Spec.arrFrame b').2.length = (Spec.arrFrame b).2.length := by
  have hd : b'.drop (b.length - Spec.offsetWidth b.length) = b.drop (b.length - Spec.offsetWidth b.length) := by
    unfold Spec.Agree Spec.sub at hlast
    rw [List.take_of_length_le (Nat.le_refl _), List.take_of_length_le (Nat.le_of_eq hlen)] at hlast
    exact hlast.symm
  have he : b' = [] ↔ b = [] := by
    rw [← List.length_eq_zero_iff, ← List.length_eq_zero_iff, hlen]
  unfold Spec.arrFrame
  simp only [hlen, hd, he]
  split
  · exact ⟨rfl, rfl⟩
  · simp

theorem arrFrame_slot {b b' : Bytes} {k : Nat} (hlen : b'.length = b.length)
    (hlast : Spec.Agree b b' (b.length - Spec.offsetWidth b.length) b.length)
    (hk : Spec.Agree b b' ((Spec.arrFrame b).1 + k * Spec.offsetWidth b.length)
      ((Spec.arrFrame b).1 + k * Spec.offsetWidth b.length + Spec.offsetWidth b.length)) :
    (Spec.arrFrame b').2[k]? = (Spec.arrFrame b).2[k]? := by
  obtain ⟨h1, h2⟩ := arrFrame_agree hlen hlast
  have he : b' = [] ↔ b = [] := by
    rw [← List.length_eq_zero_iff, ← List.length_eq_zero_iff, hlen]
  have hw : arrW b' = arrW b := by unfold arrW; simp only [he, hlen]
  by_cases h : k < (Spec.arrFrame b).2.length
  · rw [List.getElem?_eq_getElem h, List.getElem?_eq_getElem (by omega), arrFrame_get b h,
      arrFrame_get b' (by omega), h1, hw, sub_drop, sub_drop]
    have hne : b ≠ [] := by
      intro hb
      subst hb
      simp [Spec.arrFrame] at h
    have hw' : arrW b = Spec.offsetWidth b.length := by unfold arrW; rw [if_neg hne]
    rw [hw', ← Nat.add_assoc]
    unfold Spec.Agree at hk
    rw [hk]
  · rw [List.getElem?_eq_none (by omega), List.getElem?_eq_none (by omega)]

/-! ### Structures -/

theorem calcOffsets_local {c : Cfg} {al : Nat} {b b' : Bytes} {row : Row} {size : Option Nat}
    {last : Bool} {nfo : Nat} (hlen : b'.length = b.length)
    (h1 : nthLastFrameOffset c b' (offsetSize b.length) (row.i + 1).toNat =
      nthLastFrameOffset c b (offsetSize b.length) (row.i + 1).toNat)
    (h2 : size = none → last = false →
      nthLastFrameOffset c b' (offsetSize b.length) (row.i + 2).toNat =
      nthLastFrameOffset c b (offsetSize b.length) (row.i + 2).toNat) :
    calcOffsets c al b' row size last nfo = calcOffsets c al b row size last nfo := by
  unfold calcOffsets
  simp only [hlen, h1]
  cases size with
  | some n => rfl
  | none =>
    cases last with
    | true => rfl
    | false => simp only [h2 rfl rfl]

theorem fromAligned_eq (c : Cfg) (t : Ty) (s : Slice) :
    fromAligned c t s = tryFromAligned c t s >>= fun o =>
      match o with | some r => pure r | none => defaultRef c t := rfl

theorem getChildElem_local {c : Cfg} {t : Ty} {s : Slice} {row : Row} {last : Bool} {nfo : Nat}
    (ha : Spec.align t ∣ s.addr)
    (hl : s.len < 2 ^ 63) (hi : -1 ≤ row.i) (hi' : row.i < 2 ^ 59) (hn : nfo < 2 ^ 59)
    (hb : IsAl row.b) (hle : Spec.align t ≤ row.b) (hc : Spec.align t ∣ row.c) :
    ∃ lo hi, hi ≤ s.len ∧ (∀ r, getChildElem c t s row last nfo = .ok r → hi - lo ≤ r.len) ∧
      (lo < hi → getChildElem c t s row last nfo = .ok ⟨s.addr + lo, Spec.sub s.bytes lo hi⟩) ∧
      ∀ s' : Slice, s'.addr = s.addr → s'.len = s.len →
        (0 < (row.i + 1).toNat →
          Spec.frame s'.bytes ((row.i + 1).toNat - 1) = Spec.frame s.bytes ((row.i + 1).toNat - 1)) →
        (Spec.size t = none → last = false →
          Spec.frame s'.bytes (row.i + 1).toNat = Spec.frame s.bytes (row.i + 1).toNat) →
        Spec.Agree s.bytes s'.bytes lo hi →
        getChildElem c t s' row last nfo = getChildElem c t s row last nfo := by
  obtain ⟨h1, -⟩ := calcOffsets_safe (c := c) (t := t) (b := s.bytes) (last := last) (nfo := nfo)
    hl hi hi' hn hb hle hc
  have step : ∀ s' : Slice, s'.len = s.len →
      (0 < (row.i + 1).toNat →
        Spec.frame s'.bytes ((row.i + 1).toNat - 1) = Spec.frame s.bytes ((row.i + 1).toNat - 1)) →
      (Spec.size t = none → last = false →
        Spec.frame s'.bytes (row.i + 1).toNat = Spec.frame s.bytes (row.i + 1).toNat) →
      calcOffsets c (alignOf t) s'.bytes row (sizeOf t) last nfo =
        calcOffsets c (alignOf t) s.bytes row (sizeOf t) last nfo := by
    intro s' g1 g2 g3
    have g1' : s'.bytes.length = s.bytes.length := g1
    have hl' : s'.bytes.length < 2 ^ 63 := by rw [g1']; exact hl
    apply calcOffsets_local g1
    · rw [nthLast_ok hl (by omega), ← g1', nthLast_ok hl' (by omega)]
      by_cases h0 : (row.i + 1).toNat = 0
      · simp only [h0, if_true]
      · simp only [h0, if_false, g2 (by omega)]
    · intro k1 k2
      rw [sizeOf_eq] at k1
      rw [nthLast_ok hl (by omega), ← g1', nthLast_ok hl' (by omega)]
      have e1 : ¬ (row.i + 2).toNat = 0 := by omega
      have e2 : (row.i + 2).toNat - 1 = (row.i + 1).toNat := by omega
      simp only [e1, if_false, e2, g3 k1 k2]
  unfold getChildElem
  cases hco : calcOffsets c (alignOf t) s.bytes row (sizeOf t) last nfo with
  | fail f =>
    refine ⟨0, 0, by omega, by intro r _; omega, by omega, fun s' g1 g2 g3 g4 _ => ?_⟩
    rw [step s' g2 g3 g4, hco]
    rfl
  | ok o =>
    cases o with
    | none =>
      refine ⟨0, 0, by omega, by intro r _; omega, by omega, fun s' g1 g2 g3 g4 _ => ?_⟩
      rw [step s' g2 g3 g4, hco]
      rfl
    | some p =>
      obtain ⟨start, stop⟩ := p
      obtain ⟨h3, h4, h5⟩ := h1 start stop hco
      obtain ⟨lo, hi, k1, k0, k2, k3⟩ := cast_window_local (c := c) (t := t) (s := s)
        (k := fun o => match o with | some r => pure r | none => defaultRef c t) (fun _ => rfl) h4 h5
      simp only [Res.bind_ok, alignOf_eq, window_ok ha h3 h4 h5, fromAligned_eq]
      refine ⟨lo, hi, k0, k1, k2, fun s' g1 g2 g3 g4 g5 => ?_⟩
      have hco' := step s' g2 g3 g4
      rw [hco, alignOf_eq] at hco'
      simp only [hco', Res.bind_ok, window_ok (c := c) (s := s') (by rw [g1]; exact ha) h3 h4 (by rw [g2]; exact h5), g1]
      exact k3 s'.bytes g2 g5

theorem tableLoop_frames (ts : List Ty) : ∀ (st : Row) (k : Nat) (row : Row),
    (tableLoop st ts)[k]? = some row → row.i = st.i + Spec.framesBefore ts k := by
  induction ts with
  | nil => intro st k row h; simp [tableLoop] at h
  | cons t ts ih =>
    intro st k row h
    obtain ⟨i, a, b, c⟩ := st
    unfold tableLoop at h
    cases k with
    | zero =>
      simp only [List.getElem?_cons_zero, Option.some.injEq] at h
      subst h
      simp only [Spec.framesBefore, List.take_zero, List.filter_nil, List.length_nil]
      split <;> simp
    | succ k =>
      simp only [List.getElem?_cons_succ] at h
      have := ih _ _ _ h
      rw [this]
      simp only [Spec.framesBefore, List.take_succ_cons, List.filter_cons, sizeOf_eq]
      cases Spec.size t with
      | some n =>
        simp only [Option.isNone_some, Bool.false_eq_true, if_false]
        split <;> simp
      | none =>
        simp only [Option.isNone_none, if_true, List.length_cons]
        split <;> simp <;> omega

theorem memberRefs_get {c : Cfg} {s : Slice} {nfo : Nat} (ts : List Ty) : ∀ (rows : List Row) (rs : List Slice),
    memberRefs c s nfo ts rows = .ok rs → ∀ (k : Nat) (t : Ty) (row : Row), ts[k]? = some t → rows[k]? = some row →
    ∃ r, rs[k]? = some r ∧ getChildElem c t s row (decide (k + 1 = ts.length)) nfo = .ok r := by
  induction ts with
  | nil => intro rows rs _ k t row h; simp at h
  | cons t ts ih =>
    intro rows rs h k t' row ht hr
    cases rows with
    | nil => simp at hr
    | cons row0 rows =>
      simp only [memberRefs] at h
      obtain ⟨r, h1, h⟩ := Res.bind_eq_ok.1 h
      obtain ⟨rs', h2, h⟩ := Res.bind_eq_ok.1 h
      cases h
      cases k with
      | zero =>
        simp only [List.getElem?_cons_zero, Option.some.injEq] at ht hr ⊢
        subst ht hr
        refine ⟨r, rfl, ?_⟩
        rw [← h1]
        congr 1
        cases ts <;> simp
      | succ k =>
        simp only [List.getElem?_cons_succ, List.length_cons] at ht hr ⊢
        obtain ⟨r', h3, h4⟩ := ih rows rs' h2 k t' row ht hr
        refine ⟨r', h3, ?_⟩
        rw [← h4]
        congr 1
        simp

/-- The `k`-th member of a structure without fixed size. -/
theorem member_local {c : Cfg} {gv : Ty} {ts : List Ty} {s : Slice}
    (hgv : Spec.size gv = none) (hsm : (Ty.shows ts).length < 2 ^ 40)
    (ha : Spec.alignMax ts ∣ s.addr) (hl : s.len < 2 ^ 63) {rs : List Slice}
    (hrs : tupRefs c gv ts s = .ok rs) {k : Nat} (hk : k < ts.length) :
    ∃ r lo hi, rs[k]? = some r ∧ hi ≤ s.len ∧ hi - lo ≤ r.len ∧
      (lo < hi → r = ⟨s.addr + lo, Spec.sub s.bytes lo hi⟩) ∧
      ∀ s' : Slice, s'.addr = s.addr → s'.len = s.len →
        (0 < Spec.framesBefore ts k → Spec.frame s'.bytes (Spec.framesBefore ts k - 1) =
          Spec.frame s.bytes (Spec.framesBefore ts k - 1)) →
        (Spec.size ts[k] = none → k + 1 ≠ ts.length →
          Spec.frame s'.bytes (Spec.framesBefore ts k) = Spec.frame s.bytes (Spec.framesBefore ts k)) →
        Spec.Agree s.bytes s'.bytes lo hi →
        ∀ rs', tupRefs c gv ts s' = .ok rs' → rs'[k]? = some r := by
  have hnl := shows_length_ge ts
  have hfl := framesLeft_le ts
  have hun : ∀ s, tupRefs c gv ts s = memberRefs c s (nFrameOffsets ts) ts (generateTable ts) := by
    intro s
    unfold tupRefs
    rw [sizeOf_eq, hgv]
    obtain ⟨cmds, hcm⟩ := serLoop_ok (nFrameOffsets ts) ts 0 8 0 0 (by rw [nFrameOffsets_eq]; omega)
    have hp : writeNonFixedSizeStructure ts = .ok ⟨generateTable ts, nFrameOffsets ts, cmds⟩ := by
      simp [writeNonFixedSizeStructure, hcm]
    simp only [hp, Res.bind_ok]
  have ha' : Spec.align ts[k] ∣ s.addr :=
    Nat.dvd_trans ((specAlign_isAl _).dvd (alignMax_isAl ts) (alignMax_ge (List.getElem_mem hk))) ha
  obtain ⟨hlen, hrow⟩ := tableLoop_aligned ts ⟨-1, 0, 1, 0⟩ (Or.inl rfl)
  have hk' : k < (generateTable ts).length := by rw [generateTable_length]; exact hk
  have hget : (generateTable ts)[k]? = some (generateTable ts)[k] := List.getElem?_eq_getElem hk'
  have hmem : (ts[k], (generateTable ts)[k]) ∈ ts.zip (generateTable ts) := by
    rw [List.mem_iff_getElem]
    exact ⟨k, by rw [List.length_zip]; omega, by simp⟩
  obtain ⟨r1, r2, r3⟩ := hrow _ hmem
  rw [alignOf_eq] at r2 r3
  have r4 := tableLoop_i_bound ts ⟨-1, 0, 1, 0⟩ (by simp) _ (List.of_mem_zip hmem).2
  simp only at r4
  have r5 := tableLoop_frames ts _ _ _ hget
  have r6 : ((generateTable ts)[k].i + 1).toNat = Spec.framesBefore ts k := by simp only at r5; omega
  rw [hun] at hrs
  obtain ⟨r, g1, g2⟩ := memberRefs_get ts _ _ hrs k ts[k] _ (List.getElem?_eq_getElem hk) hget
  obtain ⟨lo, hi, k0, k1, k2, k3⟩ := getChildElem_local (c := c) (nfo := nFrameOffsets ts)
    (last := decide (k + 1 = ts.length)) ha' hl r4.1 (by omega) (by rw [nFrameOffsets_eq]; omega) r1 r2 r3
  refine ⟨r, lo, hi, g1, k0, k1 r g2, fun h => ?_, fun s' q1 q2 q3 q4 q5 rs' hrs' => ?_⟩
  · have := k2 h
    rw [g2] at this
    cases this
    rfl
  · rw [hun] at hrs'
    obtain ⟨r', p1, p2⟩ := memberRefs_get ts _ _ hrs' k ts[k] _ (List.getElem?_eq_getElem hk) hget
    rw [r6] at k3
    rw [k3 s' q1 q2 q3 (fun u v => q4 u (by simpa using v)) q5, g2] at p2
    cases p2
    exact p1

end GV
