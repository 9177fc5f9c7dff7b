import Verif.Props.C33_C36
import Verif.Proofs.Owned
import Verif.Proofs.Overflow
import Verif.Proofs.Body
/-
C19, C37, C38, C47, C48: buffers as input, the different ways of reading, overflow checks, members of
structures, mutable casts.

`Expands t`: `gv!` accepts `t`.  `Small t`: its type string has less than 2^40 characters.
`AlignedBuf.Inv` holds of every buffer that can be made (C17), `RVec.Valid` and `Alloc.Valid` say that
vecs lie within the address space and hold at most 2^62 bytes.
-/
namespace GV.Props
open GV

/-! ### C19 -/

/-- Casting the contents of any buffer to any type gives an aligned reference. -/
def C19_full : Prop := ∀ (c : Cfg) (t : Ty) (b : AlignedBuf), Expands t → Small t → b.Inv →
  ∃ r, (b.deref c >>= fromAligned c t) = .ok r ∧ Spec.align t ∣ r.addr

/-- The empty buffer is at address 1, where no array of `i32` can be. -/
theorem c19_full_false : ¬ C19_full := by
  intro h
  obtain ⟨r, h1, _⟩ := h rel (.A .I) AlignedBuf.new (by decide) (by decide)
    ⟨by decide, by decide, by decide, Or.inl rfl⟩
  have : (AlignedBuf.new.deref rel >>= fromAligned rel (.A .I)) = .fail .ub := by rfl
  rw [this] at h1
  cases h1

/-- Casting a buffer that holds something gives an aligned reference.  An empty one can be cast unless
    the type asks for an array of fixed-size items whose alignment the buffer's address lacks
    (`Spec.emptySafe`).  Reading everything then causes no alignment fault.  Missing: those empty
    buffers. -/
theorem c19_cast_partial (c : Cfg) (t : Ty) (b : AlignedBuf) (hx : Expands t) (hsm : Small t) (hi : b.Inv)
    (h : b.vis ≠ [] ∨ Spec.emptySafe b.data.addr t = true) :
    (∃ r, (b.deref c >>= fromAligned c t) = .ok r ∧ (b.vis ≠ [] → Spec.align t ∣ r.addr)) ∧
    ∀ f, readBuf c t b = .fail f → f = .unwrap ∨ f = .overflow := by
  have hlen : b.vis.length < 2 ^ 63 := by
    have := hi.2.2.1
    simp only [AlignedBuf.vis, List.length_drop]
    omega
  refine ⟨?_, ?_⟩
  · rw [deref_ok hi, Res.bind_ok]
    by_cases hd : b.data.bytes = []
    · have hv : b.vis = [] := by simp [AlignedBuf.vis, hd]
      rw [if_pos hd, hv]
      have he := emptyOk c b.data.addr t hx hsm (h.resolve_left fun h => h hv)
      obtain ⟨r, hr, _⟩ := Res.bind_eq_ok.1 he
      exact ⟨r, hr, fun h => absurd rfl h⟩
    · rw [if_neg hd]
      obtain ⟨r, h1, h2, _⟩ := fromAligned_ok (c := c) (t := t)
        (s := ⟨b.data.addr + gap 8 b.data.addr, b.vis⟩) hx
        (Nat.dvd_trans (align_dvd_8 t) (gap_dvd isAl8 _))
      exact ⟨r, h1, fun _ => h2⟩
  · intro f hf
    rw [readBuf_ok hx hsm hi h] at hf
    rcases readAs_fault (s := ⟨0, b.vis⟩) hx hsm (Nat.dvd_zero _) hlen hf with h | h
    · exact Or.inl h.1
    · exact Or.inr h.1

/-- The condition is needed: an empty buffer at an address unsuitable for the items fails the assertion,
    or creates a misaligned reference in builds without it. -/
theorem c19_empty_fault (c : Cfg) (e : Ty) (b : AlignedBuf) (hx : Expands (.A e)) (hi : b.Inv)
    (hs : (Spec.size e).isSome) (hv : b.vis = []) (ha : ¬ Spec.align e ∣ b.data.addr) :
    (b.deref c >>= fromAligned c (.A e)) = .fail (if c.debugAssertions then .debugAssert else .ub) := by
  obtain ⟨n, hn⟩ := Option.isSome_iff_exists.1 hs
  have hp := (size_pos_dvd e n hn).1
  have hd : b.data.bytes = [] := by
    rcases hi.2.2.2 with h | h
    · exact h
    · have := congrArg List.length hv
      simp only [AlignedBuf.vis, List.length_drop, List.length_nil] at this
      omega
  have hal : (⟨b.data.addr, []⟩ : Slice).isAligned (Spec.align e) = false := by
    rw [Bool.eq_false_iff]
    exact fun h => ha (isAligned_iff.1 h)
  rw [deref_ok hi, Res.bind_ok, if_pos hd, hv]
  have hl0 : (⟨b.data.addr, []⟩ : Slice).len % n = 0 := by simp [Slice.len]
  simp only [fromAligned, tryFromAligned, sizeOf_eq, Spec.size, hn, castSlice, alignOf_eq]
  rw [rustLayout_ok e n hn (expands_A.1 hx), Res.bind_ok]
  simp only [Spec.align, Nat.lt_irrefl, if_false, hal, Bool.not_false, Bool.and_true]
  cases hc : c.debugAssertions with
  | true => rfl
  | false =>
    rw [if_neg (by simp), if_neg (by omega), if_pos hl0]
    rfl

example : AlignedBuf.Inv ⟨⟨1000003, 9, [0, 0, 0, 0, 0, 1, 0, 0, 0]⟩⟩ ∧
    (AlignedBuf.deref dbg ⟨⟨1000003, 9, [0, 0, 0, 0, 0, 1, 0, 0, 0]⟩⟩ >>= fromAligned dbg (.A .I)) =
      .ok ⟨1000008, [1, 0, 0, 0]⟩ := ⟨⟨by decide, by decide, by decide, Or.inr (by decide)⟩, rfl⟩

example : Spec.emptySafe 1 (.A (.tuple [.S, .V])) = true ∧ Spec.emptySafe 1 (.A .I) = false ∧
    Spec.emptySafe 1 (.tuple [.A .I, .S]) = false := by decide

/-! ### C37 -/

/-- `cast`, `from_bytes`, `deserialize` and reading from a buffer agree. -/
def C37_full : Prop := ∀ (c : Cfg) (p : Places) (t : Ty) (s d : Slice) (v : RVec) (b : AlignedBuf),
  Expands t → Small t → p.vecs.Valid → Spec.align t ∣ p.addr → Spec.align t ∣ s.addr → s.len ≤ 2 ^ 62 →
  d.bytes = s.bytes → v.bytes = s.bytes → v.Valid → b.Inv → b.vis = s.bytes →
  readFromBytes c p t d = readAs c t s ∧ readDeserialize c p t v = readAs c t s ∧
    readBuf c t b = readAs c t s

def oddPlaces : Places := ⟨oddAlloc, fun _ => 0, 64⟩

/-- No bytes at an odd address read as `ai`: `from_bytes` fails an assertion. -/
theorem c37_full_false : ¬ C37_full := by
  intro h
  have := (h dbg oddPlaces (.A .I) ⟨64, []⟩ ⟨65, []⟩ .empty .new (by decide) (by decide) oddAlloc_valid
    (by decide) (by decide) (by decide) rfl rfl ⟨by decide, by decide, by decide⟩
    ⟨by decide, by decide, by decide, Or.inl rfl⟩ rfl).1
  have h1 : readFromBytes dbg oddPlaces (.A .I) ⟨65, []⟩ = .fail .debugAssert := by rfl
  have h2 : readAs dbg (.A .I) ⟨64, []⟩ = .ok (.arr []) := by rfl
  rw [h1, h2] at this
  cases this

/-- The same with a structure inside `Owned`: no bytes at all, `deserialize` to `(ais)`. -/
example : readDeserialize dbg oddPlaces (.tuple [.A .I, .S]) .empty = .fail .debugAssert ∧
    readAs dbg (.tuple [.A .I, .S]) ⟨64, []⟩ = .ok (.tup [.arr [], .str []]) := ⟨rfl, rfl⟩

theorem emptySafe_one : ∀ (t : Ty) (a : Nat), Spec.emptySafe 1 t = true → Spec.emptySafe a t = true := by
  intro t a
  induction t using Ty.ind with
  | a e ih =>
    simp only [Spec.emptySafe, Bool.or_eq_true, beq_iff_eq]
    rintro (h | h)
    · exact Or.inl h
    · right
      have : Spec.align e = 1 := by
        rcases specAlign_isAl e with h' | h' | h' | h' <;> rw [h'] at h <;> first | exact h' | omega
      rw [this, Nat.mod_one]
  | tuple ts ih =>
    simp only [Spec.emptySafe, Bool.or_eq_true]
    rintro (h | h)
    · exact Or.inl h
    · right
      induction ts with
      | nil => rfl
      | cons t ts ih2 =>
        simp only [Spec.emptySafeAll, Bool.and_eq_true] at h ⊢
        exact ⟨ih t (by simp) h.1, ih2 (fun u hu => ih u (by simp [hu])) h.2⟩
  | dict k v ihk ihv =>
    simp only [Spec.emptySafe, Bool.or_eq_true, Bool.and_eq_true]
    rintro (h | h)
    · exact Or.inl h
    · exact Or.inr ⟨ihk h.1, ihv h.2⟩
  | _ => intro _; rfl

/-- All ways of reading agree, and what they read does not depend on addresses, for all bytes but the
    empty sequence; for that, if the type does not ask for an array of items with alignment above 1
    (`Spec.emptySafe 1`).  The faults agree too.  Missing: those types on no bytes. -/
theorem c37_agree_partial (c : Cfg) (p : Places) (t : Ty) (s d : Slice) (v : RVec) (b : AlignedBuf)
    (hx : Expands t) (hsm : Small t) (hp : p.vecs.Valid) (hpa : Spec.align t ∣ p.addr)
    (ha : Spec.align t ∣ s.addr) (hl : s.len ≤ 2 ^ 62) (hd : d.bytes = s.bytes) (hv : v.bytes = s.bytes)
    (hvv : v.Valid) (hi : b.Inv) (hb : b.vis = s.bytes)
    (h : s.bytes ≠ [] ∨ Spec.emptySafe 1 t = true) :
    readFromBytes c p t d = readAs c t s ∧ readDeserialize c p t v = readAs c t s ∧
      readBuf c t b = readAs c t s := by
  have hl' : s.bytes.length ≤ 2 ^ 62 := hl
  have hs0 : readAs c t s = readAs c t ⟨0, s.bytes⟩ :=
    readAs_same hx hsm ha (Nat.dvd_zero _) (show s.len < 2 ^ 63 by omega) rfl
  have hany : ∀ a, s.bytes ≠ [] ∨ Spec.emptySafe a t = true := fun a => h.imp id (emptySafe_one t a)
  -- a cast of the right bytes, then `to_owned`, borrow and view
  have key : ∀ r : Slice, r.bytes = s.bytes → (Spec.align t ∣ r.addr ∨ s.bytes = []) →
      (fromAligned c t r >>= fun r => toOwned c p t r >>= fun o => o.borrow c t >>= fun r => view c t r) =
        readAs c t ⟨0, s.bytes⟩ := by
    intro r hr hra
    have : ∃ q, fromAligned c t r = .ok q ∧ q.bytes = castBytes t s.bytes := by
      rcases hra with hra | hra
      · obtain ⟨q, h1, _, h2, _⟩ := fromAligned_ok (c := c) hx hra
        exact ⟨q, h1, by rw [h2, hr]⟩
      · obtain ⟨ra, rb⟩ := r
        simp only at hr
        subst hr
        rw [hra]
        cases hs : Spec.size t with
        | some n =>
          obtain ⟨q, h1, _, h3⟩ := defaultRef_ok (c := c) hx
          refine ⟨q, by rw [fromAligned_nil_fixed hx hs, h1], ?_⟩
          have hpos := (size_pos_dvd t n hs).1
          rw [h3.1]
          simp only [castBytes, dfltBytes, hs]
          rw [if_neg (show ¬ ([] : Bytes).length = n by simp only [List.length_nil]; omega)]
        | none =>
          have hcn : castBytes t [] = [] := by simp [castBytes, hs]
          obtain ⟨q, h1, _⟩ := Res.bind_eq_ok.1 (emptyOk c ra t hx hsm ((hany ra).resolve_left fun h => h hra))
          refine ⟨q, h1, ?_⟩
          rw [hcn]
          unfold fromAligned tryFromAligned at h1
          rw [sizeOf_eq, hs] at h1
          cases t with
          | A e =>
            simp only [sizeOf_eq] at h1
            cases he : Spec.size e with
            | none => rw [he] at h1; cases h1; rfl
            | some n =>
              rw [he] at h1
              simp only [castSlice, rustLayout_ok e n he (expands_A.1 hx), Res.bind_ok, alignOf_eq, Spec.align,
                Nat.lt_irrefl, if_false] at h1
              have hpos := (size_pos_dvd e n he).1
              split at h1
              · cases h1
              · rw [if_neg (by omega), if_pos (show (⟨ra, []⟩ : Slice).len % n = 0 by simp [Slice.len])] at h1
                split at h1
                · cases h1; rfl
                · cases h1
          | _ => cases h1; rfl
    obtain ⟨q, hq, hqb⟩ := this
    rw [hq, Res.bind_ok]
    exact owned_read hx hsm hp hpa hl' hqb h
  refine ⟨?_, ?_, ?_⟩
  · obtain ⟨w, r, h1, h2, h3, h4, h5, _⟩ := c15_copy_to_align_partial c p.vecs (alignOf t) d
      (by rw [alignOf_eq]; exact specAlign_isAl t) hp (by simp only [Slice.len, hd]; exact hl')
    unfold readFromBytes
    rw [h1, Res.bind_ok, h2, Res.bind_ok, hs0]
    refine key r (by rw [h3, hd]) ?_
    by_cases he : s.bytes = []
    · exact Or.inr he
    · left; rw [← alignOf_eq]; exact h4 (by rw [hd]; exact he)
  · obtain ⟨w, h1, h2, h3, h4, _⟩ := fromVec_read (c := c) (t := t) (v := v) hx hsm hp hvv
      (by rw [hv]; exact hany _)
    unfold readDeserialize
    rw [h1, Res.bind_ok, deref_ok h2, Res.bind_ok, hs0]
    refine key _ (by simp only [h3, hv]) ?_
    by_cases he : s.bytes = []
    · exact Or.inr he
    · left
      have : w.data.bytes ≠ [] := by
        intro h0
        simp only [AlignedBuf.vis, h0, List.drop_nil] at h3
        rw [hv] at h3
        exact he h3.symm
      simp only [if_neg this]
      exact Nat.dvd_trans (align_dvd_8 t) (gap_dvd isAl8 _)
  · rw [hs0, ← hb]
    exact readBuf_ok hx hsm hi (by rw [hb]; exact hany _)

/-- The value does not depend on where the bytes are. -/
theorem c37_address (c : Cfg) (t : Ty) (s s' : Slice) (hx : Expands t) (hsm : Small t)
    (ha : Spec.align t ∣ s.addr) (ha' : Spec.align t ∣ s'.addr) (hl : s.len < 2 ^ 63)
    (hb : s.bytes = s'.bytes) : readAs c t s = readAs c t s' :=
  readAs_same hx hsm ha ha' hl hb

/-- `as` read in four ways from different places. -/
example :
    readAs dbg (.A .S) ⟨64, [104, 105, 0, 0, 3, 4]⟩ = .ok (.arr [.str [104, 105], .str []]) ∧
    readFromBytes dbg oddPlaces (.A .S) ⟨77, [104, 105, 0, 0, 3, 4]⟩ = .ok (.arr [.str [104, 105], .str []]) ∧
    readDeserialize dbg oddPlaces (.A .S) ⟨77, 9, [104, 105, 0, 0, 3, 4]⟩ =
      .ok (.arr [.str [104, 105], .str []]) ∧
    readBuf dbg (.A .S) ⟨⟨1000003, 11, [0, 0, 0, 0, 0, 104, 105, 0, 0, 3, 4]⟩⟩ =
      .ok (.arr [.str [104, 105], .str []]) := ⟨rfl, rfl, rfl, rfl⟩

/-! ### C38 -/

/-- Reading gives the same result with overflow checks on and off. -/
def C38_full : Prop := ∀ (c : Cfg) (t : Ty) (s : Slice), Expands t → Small t → Spec.align t ∣ s.addr →
  s.len < 2 ^ 63 → readAs { c with overflowChecks := true } t s = readAs { c with overflowChecks := false } t s

/-- More than 4 GiB of `aax` whose first framing offset is 2^64 − 1: one build panics, the other cannot. -/
theorem c38_full_false : ¬ C38_full := by
  intro h
  obtain ⟨pre, hp⟩ := exists_huge
  have hal : Spec.align (.A .X) ∣ 64 := by decide
  have hlen : (huge pre).len < 2 ^ 63 := by rw [huge_len hp]; decide
  have hx : Expands (.A (.A .X)) := by decide
  have h0 := h rel (.A (.A .X)) (huge pre) hx (by decide) hal hlen
  have h1 : readAs { rel with overflowChecks := true } (.A (.A .X)) (huge pre) = .fail .overflow := by
    have hf : fromAligned { rel with overflowChecks := true } (.A (.A .X)) (huge pre) = .ok (huge pre) := rfl
    rw [readAs, hf, Res.bind_ok, view, arrRefs_eq hal hlen rfl, huge_frame hp]
    have hi1 := huge_debug hp { rel with overflowChecks := true } rfl
    obtain ⟨_, hi0⟩ := arrIndex_safe (c := { rel with overflowChecks := true }) (i := 0)
      (show Expands (.A .X) by decide) rfl hal hlen
    show (Res.traverse _ [0, 1] >>= _) = _
    cases h2 : arrIndex { rel with overflowChecks := true } (.A .X) (huge pre) 0 with
    | fail f =>
      exfalso
      rw [arrIndex_ok hal hlen (i := 0) (by rw [huge_frame hp]; decide) (by simp [prevStop])] at h2
      unfold elemAt at h2
      rw [show prevStop (huge pre).bytes 0 = 0 from rfl] at h2
      simp only [huge_frame hp] at h2
      rw [if_neg (by show ¬ (_ ∧ 2 ^ 64 - 1 ≤ 2 ^ 32); omega)] at h2
      cases h2
    | ok r => simp only [Res.traverse, h2, hi1, Res.bind_ok, Res.bind_fail]
  rw [h1] at h0
  rcases readAs_fault hx (by decide) (show Spec.align (.A (.A .X)) ∣ (huge pre).addr from hal) hlen h0.symm with h | h
  · cases h.1
  · cases h.2

/-- With checks on, the result is an overflow panic or the result with checks off; so no build with
    checks ever returns a value that the other does not.  For data of less than 4 GiB, or without framing
    offsets of 2^63 or more, they are equal.  Missing: equality for other data. -/
theorem c38_overflow_partial (c : Cfg) (t : Ty) (s : Slice) :
    (readAs { c with overflowChecks := true } t s = .fail .overflow ∨
      readAs { c with overflowChecks := true } t s = readAs { c with overflowChecks := false } t s) ∧
    (Expands t → Small t → Spec.align t ∣ s.addr → s.len < 2 ^ 63 →
      (s.len < 2 ^ 32 ∨ Spec.Tame (.crate c.bigEndian) t s.bytes) →
      readAs { c with overflowChecks := true } t s = readAs { c with overflowChecks := false } t s) :=
  ⟨readAs_ov c t s, fun hx hsm ha hl hw => by
    have ht := hw.elim (tame_small (.crate c.bigEndian) t _) id
    rw [readAs_tame (c := { c with overflowChecks := true }) hx hsm ha (fun _ => hl) ht,
      readAs_tame (c := { c with overflowChecks := false }) hx hsm ha (fun _ => hl) ht]⟩

example : readAs dbg (.A (.A .X)) ⟨64, [1, 2, 255, 3]⟩ = readAs rel (.A (.A .X)) ⟨64, [1, 2, 255, 3]⟩ ∧
    (readAs dbg (.A (.A .X)) ⟨64, [255, 3]⟩).isOk = true := ⟨rfl, rfl⟩

/-! ### C47 -/

/-- `gv` is a structure or dictionary entry with members `ts`. -/
def HasMembers (gv : Ty) (ts : List Ty) : Prop := gv = .tuple ts ∨ ∃ k v, gv = .dict k v ∧ ts = [k, v]

/-- The bytes of a child that is given the byte sequence `o`: those, unless there are none or they have
    an impossible size for type `t`; else zeros or nothing. -/
def childBytes (t : Ty) (o : Option Bytes) : Bytes :=
  match o with
  | some x => if (∃ n, Spec.size t = some n ∧ x.length ≠ n) ∨ Spec.badSize t x then
      List.replicate ((Spec.size t).getD 0) 0 else x
  | none => List.replicate ((Spec.size t).getD 0) 0

/-- The members of any variable-size structure are what the specification assigns, before the framing
    offsets, or defaults. -/
def C47_full : Prop := ∀ (c : Cfg) (gv : Ty) (ts : List Ty) (s : Slice) (rs : List Slice),
  HasMembers gv ts → Expands gv → Small gv → Spec.size gv = none → Spec.align gv ∣ s.addr →
  s.len < 2 ^ 63 → tupRefs c gv ts s = .ok rs →
  rs.map (·.bytes) = List.zipWith childBytes ts (Spec.memberChildren (.crate c.bigEndian) ts s.bytes)

/-- A structure of more than 4 GiB whose only framing offset is 2^64 − 1. -/
def hugeStruct (pre : Bytes) : Slice := ⟨64, pre ++ [255, 255, 255, 255, 255, 255, 255, 255]⟩

theorem exists_hugeStruct : ∃ pre : Bytes, pre.length = 2 ^ 32 ∧ pre.take 4 = [1, 1, 1, 1] :=
  ⟨[1, 1, 1, 1] ++ List.replicate (2 ^ 32 - 4) 0, by
    rw [List.length_append, List.length_replicate]; decide, List.take_left' rfl⟩

section
variable {pre : Bytes} (h : pre.length = 2 ^ 32)
include h

theorem hugeStruct_len : (hugeStruct pre).bytes.length = 2 ^ 32 + 8 := by
  simp only [hugeStruct, List.length_append, h]; rfl

theorem hugeStruct_frame : Spec.frame (hugeStruct pre).bytes 0 = some (2 ^ 64 - 1) := by
  have hw : Spec.offsetWidth (2 ^ 32 + 8) = 8 := by decide
  unfold Spec.frame
  rw [hugeStruct_len h, hw]
  simp only
  rw [if_pos (by decide)]
  have : Spec.sub (hugeStruct pre).bytes (2 ^ 32 + 8 - (0 + 1) * 8) (2 ^ 32 + 8 - 0 * 8) =
      [255, 255, 255, 255, 255, 255, 255, 255] := by
    rw [Spec.sub, show 2 ^ 32 + 8 - 0 * 8 = (hugeStruct pre).bytes.length by rw [hugeStruct_len h],
      List.take_length, show 2 ^ 32 + 8 - (0 + 1) * 8 = pre.length by rw [h]]
    exact List.drop_left
  rw [this]
  rfl

/-- The second member of `(sis)`: without overflow checks its start wraps round to 0. -/
theorem hugeStruct_member :
    calcOffsets rel (alignOf .I) (hugeStruct pre).bytes ⟨0, 0, 4, 0⟩ (sizeOf .I) false 1 =
      .ok (some (0, 4)) := by
  have hl := hugeStruct_len h
  have hw : Spec.offsetWidth (2 ^ 32 + 8) = 8 := by decide
  unfold calcOffsets
  simp only [nthLast_ok (c := rel) (b := (hugeStruct pre).bytes) (n := ((0 : Int) + 1).toNat)
    (by rw [hl]; decide) (by decide), Res.bind_ok]
  rw [if_neg (by decide), show ((0 : Int) + 1).toNat - 1 = 0 from rfl, hugeStruct_frame h, offsetSize_eq, hl, hw]
  rfl

end

/-- Without overflow checks, a framing offset near 2^64 makes the next member start at 0. -/
theorem c47_full_false : ¬ C47_full := by
  intro hf
  obtain ⟨pre, hp, hp4⟩ := exists_hugeStruct
  have hlen := hugeStruct_len hp
  have hl63 : (hugeStruct pre).len < 2 ^ 63 := by rw [Slice.len, hlen]; decide
  have hex : Expands (.tuple [.S, .I, .S]) := by decide
  obtain ⟨hx, d, hd⟩ := expands_tuple.1 hex
  have hsafe := (tupRefs_safe (c := rel) (gv := .tuple [.S, .I, .S]) (s := hugeStruct pre) rfl hx hd
    (by decide) (show Spec.alignMax _ ∣ 64 by decide) (castBytes_eq rfl rfl) hl63)
  cases hrs : tupRefs rel (.tuple [.S, .I, .S]) [.S, .I, .S] (hugeStruct pre) with
  | fail f => exact absurd (hsafe.2 f hrs).2 (by decide)
  | ok rs =>
    have h1 := hf rel (.tuple [.S, .I, .S]) [.S, .I, .S] (hugeStruct pre) rs (Or.inl rfl) hex (by decide) rfl
      (show Spec.align (.tuple [.S, .I, .S]) ∣ 64 by decide) hl63 hrs
    have h2 : memberRefs rel (hugeStruct pre) 1 [.S, .I, .S] [⟨-1, 0, 1, 0⟩, ⟨0, 0, 4, 0⟩, ⟨0, 0, 4, 4⟩] =
      .ok rs := hrs
    rw [memberRefs] at h2
    obtain ⟨r1, _, h2a⟩ := Res.bind_eq_ok.1 h2
    obtain ⟨rs1, h2b, h2c⟩ := Res.bind_eq_ok.1 h2a
    rw [memberRefs] at h2b
    obtain ⟨r2, h4, h2d⟩ := Res.bind_eq_ok.1 h2b
    obtain ⟨rs2, _, h2e⟩ := Res.bind_eq_ok.1 h2d
    cases h2e
    cases h2c
    have h5 : r2.bytes = [1, 1, 1, 1] := by
      unfold getChildElem at h4
      rw [show ([Ty.S] : List Ty).isEmpty = false from rfl, hugeStruct_member hp, Res.bind_ok] at h4
      simp only at h4
      rw [window_ok (show alignOf .I ∣ 64 by decide) (by decide) (by decide) (by rw [Slice.len, hlen]; decide),
        Res.bind_ok] at h4
      have h6 : Spec.sub (hugeStruct pre).bytes 0 4 = [1, 1, 1, 1] := by
        rw [Spec.sub, List.drop_zero, hugeStruct, List.take_append_of_le_length (by rw [hp]; decide), hp4]
      rw [h6] at h4
      have h7 : fromAligned rel .I ⟨64 + 0, [1, 1, 1, 1]⟩ = .ok ⟨64, [1, 1, 1, 1]⟩ := by decide
      rw [show (hugeStruct pre).addr = 64 from rfl, h7] at h4
      cases h4
      rfl
    have h8 : (Spec.memberChildren (.crate rel.bigEndian) [.S, .I, .S] (hugeStruct pre).bytes)[1]? = some none := by
      have hbe : Spec.bodyEnd [.S, .I, .S] (hugeStruct pre).bytes = some (2 ^ 32) := by
        unfold Spec.bodyEnd
        rw [hlen]
        decide
      unfold Spec.memberChildren
      rw [show Spec.size (.tuple [.S, .I, .S]) = none from rfl]
      simp only [Spec.Rules.crate, if_true, hbe]
      simp only [Spec.membersFrom, Spec.size, hugeStruct_frame hp]
      rw [if_neg (by simp), List.getElem?_cons_succ, List.getElem?_cons_zero, Option.map_some, Option.bind_some,
        Spec.place, if_neg (by decide)]
    have h9 := congrArg (fun l => l[1]?) h1
    simp only [List.getElem?_zipWith, h8] at h9
    simp only [List.map_cons, List.getElem?_cons_succ, List.getElem?_cons_zero, h5] at h9
    revert h9
    decide

/-- The members of a variable-size structure (or dictionary entry) of any size are parts of the body,
    that is of the bytes before its framing offsets, or static default values; all of them are default
    values if there is no room for the framing offsets. -/
theorem c47_in_body (c : Cfg) (gv : Ty) (ts : List Ty) (s : Slice) (rs : List Slice) (hm : HasMembers gv ts)
    (hx : Expands gv) (hsm : Small gv) (hs : Spec.size gv = none) (ha : Spec.align gv ∣ s.addr)
    (hl : s.len < 2 ^ 63) (h : tupRefs c gv ts s = .ok rs) :
    rs.length = ts.length ∧ ∀ (i : Nat) t r, ts[i]? = some t → rs[i]? = some r →
      (∃ e, Spec.bodyEnd ts s.bytes = some e ∧ PartOf ⟨s.addr, s.bytes.take e⟩ r) ∨ StaticDefault c t r := by
  have key : List.Forall₂ (InBody c s (nFrameOffsets ts)) ts rs := by
    rcases hm with rfl | ⟨k, v, rfl, rfl⟩
    · exact tupRefs_body rfl hs (expands_tuple.1 hx).1 hsm.shows ha hl h
    · refine tupRefs_body (size_dict_eq k v) (by rw [← size_dict_eq]; exact hs) ?_ hsm.dict
        (by rw [align_dict_eq] at ha; exact ha) hl h
      intro t ht
      simp only [List.mem_cons, List.not_mem_nil, or_false] at ht
      rcases ht with rfl | rfl
      · exact (expands_dict.1 hx).1.1
      · exact (expands_dict.1 hx).1.2
  refine ⟨key.length_eq.symm, fun i t r ht hr => ?_⟩
  have hin : InBody c s (nFrameOffsets ts) t r := by
    refine forall₂_zip key (List.mem_iff_getElem?.2 ⟨i, ?_⟩)
    rw [List.getElem?_zip_eq_some]
    exact ⟨ht, hr⟩
  rcases hin with ⟨h1, h2⟩ | hst
  · left
    refine ⟨_, ?_, Inside.partOf h2⟩
    unfold Spec.bodyEnd
    rw [nFrameOffsets_eq, ← frameCount_eq] at h1 ⊢
    simp only [Slice.len] at h1
    simp only [if_pos h1, Slice.len]
  · right
    have hb : r.bytes = List.replicate ((Spec.size t).getD 0) 0 := by
      rw [hst.1]; unfold dfltBytes; split <;> simp [*]
    rcases hst.2 with h | h
    · exact Or.inl ⟨h, hb⟩
    · refine Or.inr ⟨by omega, ?_, by rw [hb, h.1]; rfl⟩
      have := gap_lt (specAlign_isAl t) c.spacesAddr
      rcases specAlign_isAl t with h' | h' | h' | h' <;> omega

theorem childBytes_eq (t : Ty) (o : Option Bytes) : castBytes t (o.getD (dfltBytes t)) = childBytes t o := by
  cases hs : Spec.size t with
  | none =>
    cases o with
    | none => simp [castBytes, childBytes, dfltBytes, hs]
    | some x => simp [castBytes, childBytes, hs]
  | some n =>
    cases o with
    | none => simp [castBytes, childBytes, dfltBytes, hs]
    | some x =>
      have hb := badSize_fixed (t := t) (by simp [hs]) x
      by_cases hx : x.length = n <;> simp [castBytes, childBytes, hs, hb, hx]

theorem refsFor_bytes {c : Cfg} {s : Slice} : ∀ (ts : List Ty) (os : List (Option Bytes)) (rs : List Slice),
    RefsFor c s ts os rs → rs.map (·.bytes) = List.zipWith childBytes ts os
  | [], [], [], _ => rfl
  | t :: ts, o :: os, r :: rs, h => by
    simp only [List.map_cons, List.zipWith_cons_cons, refsFor_bytes ts os rs h.2, h.1.2.1, childBytes_eq]
  | [], [], _ :: _, h => h.elim
  | [], _ :: _, _, h => h.elim
  | _ :: _, [], _, h => h.elim
  | _ :: _, _ :: _, [], h => h.elim

/-- Each member has the bytes the specification assigns if the structure is shorter than 4 GiB or has no
    framing offset of 2^63 or more.  In builds with overflow checks the only other outcome is a panic, see
    `c47_checked_partial`.  Missing: huge framing offsets in builds without. -/
theorem c47_exact_partial (c : Cfg) (gv : Ty) (ts : List Ty) (s : Slice) (hm : HasMembers gv ts)
    (hx : Expands gv) (hsm : Small gv) (hs : Spec.size gv = none) (ha : Spec.align gv ∣ s.addr)
    (hl : s.len < 2 ^ 63)
    (hw : s.len < 2 ^ 32 ∨ ∀ i o, i < Spec.frameCount ts → Spec.frame s.bytes i = some o → o < 2 ^ 63) :
    ∃ rs, tupRefs c gv ts s = .ok rs ∧
      rs.map (·.bytes) = List.zipWith childBytes ts (Spec.memberChildren (.crate c.bigEndian) ts s.bytes) := by
  have hw : ∀ i o, i < Spec.frameCount ts → Spec.frame s.bytes i = some o → o < 2 ^ 63 :=
    hw.elim (fun h i o _ ho => Nat.lt_trans (frame_lt h ho) (by decide)) id
  have key : ∃ rs, tupRefs c gv ts s = .ok rs ∧
      RefsFor c s ts (Spec.memberChildren (.crate c.bigEndian) ts s.bytes) rs := by
    rcases hm with rfl | ⟨k, v, rfl, rfl⟩
    · obtain ⟨hx', d, hd⟩ := expands_tuple.1 hx
      exact tupRefs_tame rfl hx' hd hsm.shows ha (castBytes_eq hs rfl) (fun _ => hl) hw
    · obtain ⟨⟨hk, hv⟩, d, hd⟩ := expands_dict.1 hx
      refine tupRefs_tame (size_dict_eq k v) ?_ hd hsm.dict (by rw [align_dict_eq] at ha; exact ha)
        (castBytes_eq (by rw [← size_dict_eq]; exact hs) rfl) (fun _ => hl) hw
      intro t ht
      simp only [List.mem_cons, List.not_mem_nil, or_false] at ht
      rcases ht with rfl | rfl <;> assumption
  obtain ⟨rs, h1, h2⟩ := key
  exact ⟨rs, h1, refsFor_bytes ts _ rs h2⟩

/-- With overflow checks, whatever the size and the framing offsets: an overflow panic, or the bytes the
    specification assigns. -/
theorem c47_checked_partial (c : Cfg) (gv : Ty) (ts : List Ty) (s : Slice) (hm : HasMembers gv ts)
    (hx : Expands gv) (hsm : Small gv) (hs : Spec.size gv = none) (ha : Spec.align gv ∣ s.addr)
    (hl : s.len < 2 ^ 63) (hov : c.overflowChecks = true) :
    tupRefs c gv ts s = .fail .overflow ∨ ∃ rs, tupRefs c gv ts s = .ok rs ∧
      rs.map (·.bytes) = List.zipWith childBytes ts (Spec.memberChildren (.crate c.bigEndian) ts s.bytes) := by
  have key : tupRefs c gv ts s = .fail .overflow ∨ ∃ rs, tupRefs c gv ts s = .ok rs ∧
      RefsFor c s ts (Spec.memberChildren (.crate c.bigEndian) ts s.bytes) rs := by
    rcases hm with rfl | ⟨k, v, rfl, rfl⟩
    · obtain ⟨hx', d, hd⟩ := expands_tuple.1 hx
      exact tupRefs_checked hov rfl hx' hd hsm.shows ha (castBytes_eq hs rfl) (fun _ => hl)
    · obtain ⟨⟨hk, hv⟩, d, hd⟩ := expands_dict.1 hx
      refine tupRefs_checked hov (size_dict_eq k v) ?_ hd hsm.dict (by rw [align_dict_eq] at ha; exact ha)
        (castBytes_eq (by rw [← size_dict_eq]; exact hs) rfl) (fun _ => hl)
      intro t ht
      simp only [List.mem_cons, List.not_mem_nil, or_false] at ht
      rcases ht with rfl | rfl <;> assumption
  exact key.imp id fun ⟨rs, h1, h2⟩ => ⟨rs, h1, refsFor_bytes ts _ rs h2⟩

/-- Without room for the framing offsets all members are default values. -/
theorem c47_no_room (R : Spec.Rules) (hR : R.disjoint = true) (ts : List Ty) (b : Bytes)
    (hs : Spec.size (.tuple ts) = none) (h : b.length < Spec.offsetWidth b.length * Spec.frameCount ts) :
    Spec.memberChildren R ts b = ts.map fun _ => none := by
  unfold Spec.memberChildren Spec.bodyEnd
  simp only [hs, hR, if_true]
  rw [if_neg (by omega)]

/-- `(ssy)` with two framing offsets, the second beyond the body; and too short for them. -/
example : (tupRefs dbg (.tuple [.S, .S, .Y]) [.S, .S, .Y] ⟨64, [97, 0, 7, 200, 2]⟩) =
      .ok [⟨64, [97, 0]⟩, ⟨3, []⟩, ⟨3, [0]⟩] ∧
    Spec.memberChildren (.crate false) [.S, .S, .Y] [97, 0, 7, 200, 2] = [some [97, 0], none, none] ∧
    Spec.bodyEnd [.S, .S, .Y] [97, 0, 7, 200, 2] = some 3 ∧
    Spec.memberChildren (.crate false) [.S, .S, .Y] [97] = [none, none, none] := by decide

/-! ### C48 -/

/-- `try_cast_mut` succeeds exactly when `cast` does not have to fall back to a default value, and gives
    the same view. -/
def C48_full : Prop := ∀ (c : Cfg) (t : Ty) (s : Slice), Expands t → Small t → Spec.align t ∣ s.addr →
  s.len < 2 ^ 63 → tryFromAlignedMut c t s = tryFromAligned c t s ∧ ∃ o, tryFromAlignedMut c t s = .ok o

/-- For `ai` it is not implemented. -/
theorem c48_full_false : ¬ C48_full := by
  intro h
  obtain ⟨_, o, ho⟩ := h rel (.A .I) ⟨64, [1, 0, 0, 0]⟩ (by decide) (by decide) (by decide) (by decide)
  cases ho

/-- It panics for every array of fixed-size items, whatever the data. -/
theorem c48_todo (c : Cfg) (e : Ty) (s : Slice) (h : (Spec.size e).isSome) :
    tryFromAlignedMut c (.A e) s = .fail .todo := by
  obtain ⟨n, hn⟩ := Option.isSome_iff_exists.1 h
  simp [tryFromAlignedMut, sizeOf_eq, Spec.size, hn]

/-- For all other types it gives the whole data, unless the type has a fixed size and the data another;
    just when the immutable cast does not give a default value.  Missing: arrays of fixed-size items. -/
theorem c48_mut_partial (c : Cfg) (t : Ty) (s : Slice) (hx : Expands t) (ha : Spec.align t ∣ s.addr)
    (h : Spec.fixedArr t = false) :
    tryFromAlignedMut c t s = .ok (if ∀ n, Spec.size t = some n → s.bytes.length = n then some s else none) ∧
    tryFromAlignedMut c t s = tryFromAligned c t s := by
  have h1 : tryFromAlignedMut c t s = tryFromAligned c t s := by
    unfold tryFromAlignedMut tryFromAligned
    cases t with
    | A e =>
      simp only [Spec.fixedArr, Option.isSome_eq_false_iff, Option.isNone_iff_eq_none] at h
      simp [sizeOf_eq, Spec.size, h]
    | _ => rfl
  refine ⟨?_, h1⟩
  rw [h1, tryFromAligned_ok hx ha]
  congr 1
  cases hs : Spec.size t with
  | some n =>
    by_cases hl : s.bytes.length = n
    · rw [if_pos (Or.inl ⟨by simp [castBytes, hs, hl], rfl⟩), if_pos (by simpa using hl)]
    · rw [if_neg, if_neg (by simpa using hl)]
      rintro (⟨h2, _⟩ | ⟨h2, _⟩)
      · simp only [castBytes, hs, if_neg hl] at h2
        rw [← h2, List.length_replicate] at hl
        exact hl rfl
      · simp at h2
  | none =>
    have hb : Spec.badSize t s.bytes = false := by
      cases t with
      | A e =>
        simp only [Spec.fixedArr, Option.isSome_eq_false_iff, Option.isNone_iff_eq_none] at h
        simp [Spec.badSize, h]
      | _ => rfl
    rw [if_pos (Or.inr ⟨rfl, hb⟩), if_pos (by simp)]

example : tryFromAlignedMut dbg (.tuple [.I, .Y]) ⟨64, [1, 0, 0, 0, 2, 0, 0, 0]⟩ =
      .ok (some ⟨64, [1, 0, 0, 0, 2, 0, 0, 0]⟩) ∧
    tryFromAlignedMut dbg (.tuple [.I, .Y]) ⟨64, [1, 0, 0, 0, 2]⟩ = .ok none ∧
    tryFromAlignedMut dbg (.A .S) ⟨64, [1, 0, 0]⟩ = .ok (some ⟨64, [1, 0, 0]⟩) := by decide

end GV.Props
