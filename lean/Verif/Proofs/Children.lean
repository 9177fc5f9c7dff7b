import Mathlib.Data.List.Forall2
import Verif.Proofs.Framing
/-
Helper lemmas: the references to the children of arrays and maybes.
-/
namespace GV

/-- The reference points into `s`. -/
def Inside (s r : Slice) : Prop :=
  ∃ lo hi, lo ≤ hi ∧ hi ≤ s.len ∧ r = ⟨s.addr + lo, Spec.sub s.bytes lo hi⟩

/-- `r` is a proper reference to the child of type `t` of the value at `s` that the specification
    gives the bytes `o`. -/
def RefFor (c : Cfg) (s : Slice) (t : Ty) (o : Option Bytes) (r : Slice) : Prop :=
  Spec.align t ∣ r.addr ∧ r.bytes = castBytes t (o.getD (dfltBytes t)) ∧ (Inside s r ∨ IsStatic c t r)

/-- The size of the child is impossible. -/
def badChild (t : Ty) (o : Option Bytes) : Bool := o.elim false (Spec.badSize t)

theorem badSize_fixed {t : Ty} (h : (Spec.size t).isSome) (b : Bytes) : Spec.badSize t b = false := by
  cases t with
  | A e => simp [Spec.size] at h
  | _ => rfl

theorem castBytes_eq {t : Ty} {b : Bytes} (hn : Spec.size t = none) (h : Spec.badSize t b = false) :
    castBytes t b = b := by
  simp [castBytes, hn, h]

theorem elemAt_ok {c : Cfg} {e : Ty} {s : Slice} {body prev stop : Nat} (hx : Expands e)
    (hn : Spec.size e = none) (ha : Spec.align e ∣ s.addr) (hb : body ≤ s.len) :
    (badChild e (Spec.place s.bytes body (Spec.roundUp prev (Spec.align e)) stop) = true →
      elemAt c e s body prev stop = .fail .unwrap) ∧
    (badChild e (Spec.place s.bytes body (Spec.roundUp prev (Spec.align e)) stop) = false →
      ∃ r, elemAt c e s body prev stop = .ok r ∧
        RefFor c s e (Spec.place s.bytes body (Spec.roundUp prev (Spec.align e)) stop) r) := by
  unfold elemAt Spec.place
  by_cases h : Spec.roundUp prev (Spec.align e) ≤ stop ∧ stop ≤ body
  · simp only [if_pos h, badChild, Option.elim]
    have ha' : Spec.align e ∣ s.addr + Spec.roundUp prev (Spec.align e) :=
      Nat.dvd_add ha (roundUp_dvd _ _)
    rw [tryFromAligned_ok (s := ⟨s.addr + Spec.roundUp prev (Spec.align e), _⟩) hx ha']
    simp only [hn, Option.isSome_none, Bool.false_eq_true, and_false, Option.isNone_none, true_and,
      false_or, Res.bind_ok]
    constructor
    · intro h1; rw [if_neg (by simp [h1])]; rfl
    · intro h1
      rw [if_pos h1]
      exact ⟨_, rfl, ha', by simp [castBytes_eq hn h1], Or.inl ⟨_, _, h.1, by omega, rfl⟩⟩
  · simp only [if_neg h, badChild, Option.elim]
    have ha' := gap_dvd (specAlign_isAl e) c.spacesAddr
    have hbe : Spec.badSize e [] = false := by
      cases e with
      | A e => simp only [Spec.badSize]; cases Spec.size e <;> simp
      | _ => rfl
    rw [tryFromAligned_ok (s := ⟨_, []⟩) hx ha']
    simp only [hn, Option.isSome_none, Bool.false_eq_true, and_false, Option.isNone_none, true_and,
      false_or, Res.bind_ok, hbe, if_true]
    refine ⟨fun h => (nomatch h), fun _ => ⟨_, rfl, ha', ?_, Or.inr ⟨?_, Or.inr ⟨hn, rfl⟩⟩⟩⟩
    · simp [dfltBytes, hn, castBytes_eq hn hbe]
    · simp [dfltBytes, hn]

theorem elemRefs_ok {c : Cfg} {e : Ty} {s : Slice} {body : Nat} (hx : Expands e)
    (hn : Spec.size e = none) (ha : Spec.align e ∣ s.addr) (hb : body ≤ s.len) (stops : List Nat) :
    ∀ prev, let os := Spec.elemsFrom s.bytes body (Spec.align e) prev stops
    (os.any (badChild e) = true → elemRefs c e s body prev stops = .fail .unwrap) ∧
    (os.any (badChild e) = false →
      ∃ rs, elemRefs c e s body prev stops = .ok rs ∧ List.Forall₂ (RefFor c s e) os rs) := by
  induction stops with
  | nil =>
    intro prev
    refine ⟨fun h => ?_, fun _ => ⟨[], rfl, .nil⟩⟩
    simp [Spec.elemsFrom] at h
  | cons stop stops ih =>
    intro prev
    obtain ⟨h1, h2⟩ := elemAt_ok (c := c) (prev := prev) (stop := stop) hx hn ha hb
    obtain ⟨h3, h4⟩ := ih stop
    simp only [Spec.elemsFrom, elemRefs, List.any_cons]
    constructor
    · intro h
      cases hc : badChild e (Spec.place s.bytes body (Spec.roundUp prev (Spec.align e)) stop) with
      | true => rw [h1 hc]; rfl
      | false =>
        rw [hc, Bool.false_or] at h
        obtain ⟨r, hr, _⟩ := h2 hc
        rw [hr, h3 h]; rfl
    · intro h
      rw [Bool.or_eq_false_iff] at h
      obtain ⟨r, hr, hr'⟩ := h2 h.1
      obtain ⟨rs, hrs, hrs'⟩ := h4 h.2
      rw [hr, hrs]
      exact ⟨_, rfl, .cons hr' hrs'⟩

theorem castBytes_A_fixed {e : Ty} {n : Nat} {b : Bytes} (he : Spec.size e = some n)
    (hc : castBytes (.A e) b = b) : b.length % n = 0 := by
  simp only [castBytes, Spec.size, Spec.badSize, he] at hc
  split at hc
  · rw [← hc]; simp
  · rename_i h; simpa using h

theorem forall₂_map_range {α β : Type} {R : α → β → Prop} (f : Nat → α) (g : Nat → β) (n : Nat)
    (h : ∀ i, i < n → R (f i) (g i)) :
    List.Forall₂ R ((List.range n).map f) ((List.range n).map g) := by
  induction n with
  | zero => exact .nil
  | succ n ih =>
    rw [List.range_succ, List.map_append, List.map_append]
    exact List.rel_append (ih fun i hi => h i (by omega)) (.cons (h n (by omega)) .nil)

/-- References to the elements of an array, for any element type. -/
theorem arrRefs_tame {c : Cfg} {e : Ty} {s : Slice} (hx : Expands e) (ha : Spec.align e ∣ s.addr)
    (hc : castBytes (.A e) s.bytes = s.bytes) (hl : Spec.size e = none → s.len < 2 ^ 63)
    (hst : Spec.size e = none → ∀ x ∈ (Spec.arrFrame s.bytes).2, x < 2 ^ 63) :
    let os := Spec.arrChildren (.crate c.bigEndian) e s.bytes
    (os.any (badChild e) = true → arrRefs c e s = .fail .unwrap) ∧
    (os.any (badChild e) = false →
      ∃ rs, arrRefs c e s = .ok rs ∧ List.Forall₂ (RefFor c s e) os rs) := by
  unfold arrRefs Spec.arrChildren
  rw [sizeOf_eq]
  cases he : Spec.size e with
  | some n =>
    have hmod := castBytes_A_fixed he hc
    obtain ⟨hn, hd⟩ := size_pos_dvd e n he
    simp only [hmod, if_true, rustLayout_ok e n he hx, Res.bind_ok]
    have hf : ((Spec.chunks n s.bytes).map some).any (badChild e) = false := by
      rw [List.any_eq_false]
      intro o ho
      obtain ⟨x, _, rfl⟩ := List.mem_map.1 ho
      simp [badChild, badSize_fixed (t := e) (by simp [he])]
    refine ⟨fun h => ?_, fun _ => ⟨_, rfl, ?_⟩⟩
    · rw [hf] at h; cases h
    · unfold sliceElems Spec.chunks
      rw [List.map_map]
      apply forall₂_map_range
      intro i hi
      have hi' : i < s.bytes.length / n := hi
      have hle : i * n + n ≤ s.bytes.length := by
        rw [← Nat.succ_mul]
        exact Nat.le_trans (Nat.mul_le_mul_right _ hi') (Nat.div_mul_le_self _ _)
      have hsub : Spec.sub s.bytes (i * n) (i * n + n) = (s.bytes.drop (i * n)).take n := by
        simp [Spec.sub, List.drop_take]
      have hlen : (Spec.sub s.bytes (i * n) (i * n + n)).length = n := by
        rw [sub_length hle]; omega
      refine ⟨Nat.dvd_add ha (Nat.dvd_mul_left_of_dvd hd _), ?_,
        Or.inl ⟨i * n, i * n + n, by omega, hle, by rw [hsub]⟩⟩
      simp [← hsub, castBytes, he, hlen]
  | none =>
    have hl2 := hl he
    simp only [intoIter_ok ha hl2, Res.bind_ok]
    have hb := arrFrame_body_le s.bytes
    have hcount : (Spec.arrFrame s.bytes).2.length ≤ (iterState s 0 0).offsets.length := by
      simp only [iterState, List.length_drop, ← arrFrame_count]
      exact Nat.le_mul_of_pos_right _ (arrW_isWidth _).pos
    rw [collect_ok ha hl2 (hst he) _ 0 0 (by decide)
      (Nat.zero_le _) (by omega), List.drop_zero]
    exact elemRefs_ok hx he ha hb _ 0

theorem arrRefs_ok {c : Cfg} {e : Ty} {s : Slice} (hx : Expands e) (ha : Spec.align e ∣ s.addr)
    (hc : castBytes (.A e) s.bytes = s.bytes) (hl : Spec.size e = none → s.len < 2 ^ 32) :
    let os := Spec.arrChildren (.crate c.bigEndian) e s.bytes
    (os.any (badChild e) = true → arrRefs c e s = .fail .unwrap) ∧
    (os.any (badChild e) = false →
      ∃ rs, arrRefs c e s = .ok rs ∧ List.Forall₂ (RefFor c s e) os rs) :=
  arrRefs_tame hx ha hc (fun h => Nat.lt_trans (hl h) (by decide))
    fun h x hx => Nat.lt_trans (stops_lt (hl h) x hx) (by decide)

/-- The content of a maybe. -/
theorem toOption_ok {c : Cfg} {e : Ty} {s : Slice} (hx : Expands e) (ha : Spec.align e ∣ s.addr)
    (hl : s.len < usizeMod) :
    match Spec.maybeChild e s.bytes with
    | none => toOption c e s = .ok none
    | some x =>
      (Spec.badSize e x = true → toOption c e s = .fail .unwrap) ∧
      (Spec.badSize e x = false → ∃ r, toOption c e s = .ok (some r) ∧ RefFor c s e (some x) r) := by
  unfold toOption Spec.maybeChild
  rw [sizeOf_eq]
  cases he : Spec.size e with
  | some n =>
    simp only [tryFromAligned_ok hx ha]
    by_cases h : s.bytes.length = n
    · have hc : castBytes e s.bytes = s.bytes := by simp [castBytes, he, h]
      simp only [h, if_true, hc, he, Option.isSome_some, and_self, true_or]
      refine ⟨fun hb => ?_, fun _ => ⟨s, rfl, ha, by simp [hc], Or.inl ⟨0, s.len, Nat.zero_le _, Nat.le_refl _, by simp [Spec.sub, Slice.len]⟩⟩⟩
      rw [badSize_fixed (by simp [he])] at hb; cases hb
    · have hc : castBytes e s.bytes ≠ s.bytes := by
        simp only [castBytes, he, if_neg h]
        intro h'
        exact h (by rw [← h']; simp)
      simp [h, hc, he]
  | none =>
    by_cases h : s.bytes = []
    · simp [h]
    · have hpos : 0 < s.bytes.length := List.length_pos_iff.2 h
      have he' : s.bytes.isEmpty = false := by simpa using h
      simp only [h, if_false, he', Bool.false_eq_true, alignOf_eq]
      rw [usub_ok (show 1 ≤ s.len from hpos)]
      have hw : idxTo c (Spec.align e) s (s.len - 1) = .ok ⟨s.addr, s.bytes.dropLast⟩ := by
        unfold idxTo Slice.to
        rw [if_pos (by omega)]
        rw [Res.bind_ok, unchecked_ok (s := ⟨s.addr, s.bytes.take (s.len - 1)⟩) (Or.inr ha), List.dropLast_eq_take]
        rfl
      simp only [Res.bind_ok, hw]
      rw [tryFromAligned_ok (s := ⟨s.addr, s.bytes.dropLast⟩) hx ha]
      simp only [he, Option.isSome_none, Bool.false_eq_true, and_false, Option.isNone_none, true_and,
        false_or, Res.bind_ok]
      constructor
      · intro hb; rw [if_neg (by simp [hb])]; rfl
      · intro hb
        rw [if_pos hb]
        refine ⟨_, rfl, ha, by simp [castBytes_eq he hb], Or.inl ⟨0, s.len - 1, Nat.zero_le _, by omega, ?_⟩⟩
        rw [List.dropLast_eq_take]
        simp [Spec.sub, Slice.len]

/-! ### Indexing a variable-width array -/

/-- Where the `i`-th element may start at the earliest. -/
def prevStop (b : Bytes) (i : Nat) : Nat :=
  if i = 0 then 0 else (Spec.arrFrame b).2.getD (i - 1) 0

theorem arrIndex_ok {c : Cfg} {e : Ty} {s : Slice} (ha : Spec.align e ∣ s.addr)
    (hl : s.len < 2 ^ 63) {i : Nat} (hi : i < (Spec.arrFrame s.bytes).2.length)
    (hp : prevStop s.bytes i < 2 ^ 63) :
    arrIndex c e s i =
      elemAt c e s (Spec.arrFrame s.bytes).1 (prevStop s.bytes i) (Spec.arrFrame s.bytes).2[i] := by
  have hal := specAlign_isAl e
  have hl' : s.bytes.length < 2 ^ 63 := hl
  have hb := arrFrame_body_le s.bytes
  have hw := arrW_isWidth s.bytes
  have hbd := arrFrame_bound s.bytes hi
  have hwp := hw.pos
  have hal8 : Spec.align e ≤ 8 := by rcases hal with h | h | h | h <;> omega
  unfold arrIndex
  simp only [readLast_ok hl, Res.bind_ok]
  rw [if_pos (show (Spec.arrFrame s.bytes).1 ≤ s.len from hb),
    readUint_ok hw (by simp only [List.length_drop]; omega) (by simp only [List.length_drop]; omega),
    ← arrFrame_get s.bytes hi]
  simp only [Res.bind_ok]
  have hprev : (if i = 0 then (pure 0 : Res Nat) else
      readUint c (s.bytes.drop (Spec.arrFrame s.bytes).1) (arrW s.bytes) (i - 1)) =
      .ok (prevStop s.bytes i) := by
    unfold prevStop
    by_cases h0 : i = 0
    · simp [h0]
    · have hi' : i - 1 < (Spec.arrFrame s.bytes).2.length := by omega
      have hbd' := arrFrame_bound s.bytes hi'
      rw [if_neg h0, if_neg h0, readUint_ok hw (by simp only [List.length_drop]; omega)
        (by simp only [List.length_drop]; omega), ← arrFrame_get s.bytes hi']
      simp [List.getElem?_eq_getElem hi']
  rw [hprev]
  simp only [Res.bind_ok, alignOf_eq]
  rw [alignOffset_ok hal (by unfold usizeMod; omega)]
  simp only [Res.bind_ok]
  unfold elemAt
  simp only
  by_cases h : Spec.roundUp (prevStop s.bytes i) (Spec.align e) ≤ (Spec.arrFrame s.bytes).2[i] ∧
      (Spec.arrFrame s.bytes).2[i] ≤ (Spec.arrFrame s.bytes).1
  · rw [if_pos ⟨by simp only [Slice.len]; omega, h.2, h.1⟩, if_pos h,
      window_ok ha (roundUp_dvd _ _) h.1 (by simp only [Slice.len]; omega)]
    rfl
  · rw [if_neg (by rintro ⟨_, h1, h2⟩; exact h ⟨h2, h1⟩), if_neg h, emptyAligned_ok hal]
    rfl

theorem elemRefs_get {c : Cfg} {e : Ty} {s : Slice} {body : Nat} (stops : List Nat) :
    ∀ prev rs, elemRefs c e s body prev stops = .ok rs →
      rs.length = stops.length ∧ ∀ i (h : i < stops.length) (h' : i < rs.length),
        elemAt c e s body (if i = 0 then prev else stops.getD (i - 1) 0) stops[i] = .ok rs[i] := by
  induction stops with
  | nil =>
    intro prev rs h
    simp only [elemRefs, Res.ok.injEq] at h
    subst h
    exact ⟨rfl, fun i h => absurd h (by simp)⟩
  | cons stop stops ih =>
    intro prev rs h
    simp only [elemRefs, Res.pure_eq] at h
    obtain ⟨r, h1, h⟩ := Res.bind_eq_ok.1 h
    obtain ⟨rs', h2, h⟩ := Res.bind_eq_ok.1 h
    cases h
    obtain ⟨h3, h4⟩ := ih stop rs' h2
    refine ⟨by simp [h3], fun i hi hi' => ?_⟩
    cases i with
    | zero => simpa using h1
    | succ i =>
      have := h4 i (by simpa using hi) (by simpa using hi')
      simp only [List.getElem_cons_succ, Nat.succ_ne_zero, if_false, Nat.add_sub_cancel]
      rw [← this]
      cases i with
      | zero => simp
      | succ j => simp

end GV
