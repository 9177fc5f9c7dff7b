import Verif.Proofs.Reach
/-
Helper lemmas: the members of a structure lie before its framing offsets.
-/
namespace GV

theorem calcOffsets_body {c : Cfg} {al : Nat} {b : Bytes} {row : Row} {sz : Option Nat} {last : Bool}
    {nfo start stop : Nat} (hn : nfo < 2 ^ 59)
    (h : calcOffsets c al b row sz last nfo = .ok (some (start, stop))) :
    Spec.offsetWidth b.length * nfo ≤ b.length ∧ start ≤ stop ∧
      stop ≤ b.length - Spec.offsetWidth b.length * nfo := by
  have hw8 := offsetSize_lt b.length
  have hmul : Spec.offsetWidth b.length * nfo ≤ 8 * nfo := Nat.mul_le_mul_right _ hw8
  unfold calcOffsets at h
  simp only [offsetSize_eq] at h
  obtain ⟨o, _, h⟩ := Res.bind_eq_ok.1 h
  cases o with
  | none => cases h
  | some fo =>
    simp only at h
    rw [umul_ok (by unfold usizeMod; omega), Res.bind_ok] at h
    unfold checkedSub at h
    by_cases hle : Spec.offsetWidth b.length * nfo ≤ b.length
    · rw [if_pos hle] at h
      simp only at h
      obtain ⟨x, _, h⟩ := Res.bind_eq_ok.1 h
      obtain ⟨y, _, h⟩ := Res.bind_eq_ok.1 h
      obtain ⟨z, _, h⟩ := Res.bind_eq_ok.1 h
      obtain ⟨w, _, h⟩ := Res.bind_eq_ok.1 h
      obtain ⟨o, _, h⟩ := Res.bind_eq_ok.1 h
      cases o with
      | none => cases h
      | some e =>
        simp only at h
        split at h
        · rename_i hh
          simp only [Res.pure_eq, Res.ok.injEq, Option.some.injEq, Prod.mk.injEq] at h
          obtain ⟨rfl, rfl⟩ := h
          exact ⟨hle, hh⟩
        · cases h
    · rw [if_neg hle] at h
      cases h

/-- In the body of the structure at `s`, or a static default. -/
def InBody (c : Cfg) (s : Slice) (nfo : Nat) (t : Ty) (r : Slice) : Prop :=
  (Spec.offsetWidth s.len * nfo ≤ s.len ∧
    Inside ⟨s.addr, s.bytes.take (s.len - Spec.offsetWidth s.len * nfo)⟩ r) ∨ IsStatic c t r

theorem getChildElem_body {c : Cfg} {t : Ty} {s : Slice} {row : Row} {last : Bool} {nfo : Nat} {r : Slice}
    (hx : Expands t) (ha : Spec.align t ∣ s.addr)
    (hl : s.len < 2 ^ 63) (hi : -1 ≤ row.i) (hi' : row.i < 2 ^ 59) (hn : nfo < 2 ^ 59)
    (hb : IsAl row.b) (hle : Spec.align t ≤ row.b) (hc : Spec.align t ∣ row.c)
    (h : getChildElem c t s row last nfo = .ok r) : InBody c s nfo t r := by
  unfold getChildElem at h
  obtain ⟨o, ho, h⟩ := Res.bind_eq_ok.1 h
  cases o with
  | none =>
    obtain ⟨r', h1, h2, h3⟩ := defaultRef_ok (c := c) hx
    rw [h1] at h
    cases h
    exact Or.inr h3
  | some p =>
    obtain ⟨start, stop⟩ := p
    simp only at h
    obtain ⟨h1, h2, h3⟩ := calcOffsets_body hn ho
    obtain ⟨hd, _, hs⟩ := (calcOffsets_safe (c := c) (t := t) (b := s.bytes) (last := last) (nfo := nfo)
      hl hi hi' hn hb hle hc).1 _ _ ho
    rw [window_ok (by rw [alignOf_eq]; exact ha) (by rw [alignOf_eq]; exact hd) h2 hs, Res.bind_ok] at h
    obtain ⟨q, hq, _, _, hcase⟩ := fromAligned_ok (c := c) (t := t)
      (s := ⟨s.addr + start, Spec.sub s.bytes start stop⟩) hx (Nat.dvd_add ha hd)
    rw [h] at hq
    cases hq
    rcases hcase with rfl | hst
    · refine Or.inl ⟨h1, start, stop, h2, ?_, ?_⟩
      · simp only [List.length_take, Slice.len]; omega
      · simp only [Spec.sub, List.take_take, Slice.len]
        rw [Nat.min_eq_left h3]
    · exact Or.inr hst

theorem memberRefs_body {c : Cfg} {s : Slice} {nfo : Nat} (hl : s.len < 2 ^ 63) (hn : nfo < 2 ^ 59)
    (ts : List Ty) : ∀ (rows : List Row) rs, (∀ t ∈ ts, Expands t) → (∀ t ∈ ts, Spec.align t ∣ s.addr) →
    rows.length = ts.length →
    (∀ p ∈ ts.zip rows, -1 ≤ p.2.i ∧ p.2.i < 2 ^ 59 ∧ IsAl p.2.b ∧ Spec.align p.1 ≤ p.2.b ∧
      Spec.align p.1 ∣ p.2.c) →
    memberRefs c s nfo ts rows = .ok rs → List.Forall₂ (InBody c s nfo) ts rs := by
  induction ts with
  | nil =>
    intro rows rs _ _ _ _ h
    cases rows <;> (cases h; exact .nil)
  | cons t ts ih =>
    intro rows rs hx ha hlen hp h
    cases rows with
    | nil => simp at hlen
    | cons row rows =>
      simp only [memberRefs] at h
      obtain ⟨r, hr, h⟩ := Res.bind_eq_ok.1 h
      obtain ⟨rs', hrs, h⟩ := Res.bind_eq_ok.1 h
      cases h
      obtain ⟨p1, p2, p3, p4, p5⟩ := hp (t, row) (by simp)
      exact .cons (getChildElem_body (hx t (by simp)) (ha t (by simp)) hl p1 p2 hn p3 p4 p5 hr)
        (ih rows rs' (fun u hu => hx u (by simp [hu])) (fun u hu => ha u (by simp [hu]))
          (by simpa using hlen) (fun p hp' => hp p (by simp [hp'])) hrs)

theorem tupRefs_body {c : Cfg} {gv : Ty} {ts : List Ty} {s : Slice} {rs : List Slice}
    (hgv : Spec.size gv = Spec.size (.tuple ts)) (hs : Spec.size (.tuple ts) = none)
    (hx : ∀ t ∈ ts, Expands t) (hsm : (Ty.shows ts).length < 2 ^ 40)
    (ha : Spec.alignMax ts ∣ s.addr) (hl : s.len < 2 ^ 63) (h : tupRefs c gv ts s = .ok rs) :
    List.Forall₂ (InBody c s (nFrameOffsets ts)) ts rs := by
  have ha' : ∀ t ∈ ts, Spec.align t ∣ s.addr := fun t ht =>
    Nat.dvd_trans ((specAlign_isAl t).dvd (alignMax_isAl ts) (alignMax_ge ht)) ha
  have hnl := shows_length_ge ts
  have hfl := framesLeft_le ts
  unfold tupRefs at h
  rw [sizeOf_eq, hgv, hs] at h
  simp only at h
  obtain ⟨cmds, hcm⟩ := serLoop_ok (nFrameOffsets ts) ts 0 8 0 0 (by rw [nFrameOffsets_eq]; omega)
  have hp : writeNonFixedSizeStructure ts = .ok ⟨generateTable ts, nFrameOffsets ts, cmds⟩ := by
    simp [writeNonFixedSizeStructure, hcm]
  simp only [hp, Res.bind_ok] at h
  obtain ⟨hlen, hrow⟩ := tableLoop_aligned ts ⟨-1, 0, 1, 0⟩ (Or.inl rfl)
  refine memberRefs_body hl (by rw [nFrameOffsets_eq]; omega) ts _ _ hx ha' hlen ?_ h
  intro p hp
  obtain ⟨h1, h2, h3⟩ := hrow p hp
  rw [alignOf_eq] at h2 h3
  have := tableLoop_i_bound ts ⟨-1, 0, 1, 0⟩ (by simp) p.2 (List.of_mem_zip hp).2
  simp only at this
  exact ⟨this.1, by omega, h1, h2, h3⟩

end GV
