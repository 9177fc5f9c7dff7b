import Verif.Proofs.Array
/-
Helper lemmas: every reference obtained from a good reference is good, without any bound on the data
beyond what fits in memory, and whether or not arithmetic wraps around.
-/
namespace GV

/-- The fault is neither undefined behaviour nor a failed alignment assertion. -/
def Fault.harmless (f : Fault) : Prop := f ≠ .ub ∧ f ≠ .debugAssert

/-- What is required of each reference: aligned, of a suitable length for its type, in `root` or in a
    static default value. -/
structure Good (c : Cfg) (root : Slice) (t : Ty) (r : Slice) : Prop where
  ex : Expands t
  sm : Small t
  al : Spec.align t ∣ r.addr
  cast : castBytes t r.bytes = r.bytes
  len : r.len < 2 ^ 63
  loc : Inside root r ∨ ∃ t' d, Small t' ∧ IsStatic c t' d ∧ Inside d r

theorem Inside.refl (s : Slice) : Inside s s :=
  ⟨0, s.len, Nat.zero_le _, Nat.le_refl _, by simp [Spec.sub, Slice.len]⟩

theorem sub_sub (b : Bytes) (lo hi lo' hi' : Nat) (h : lo + hi' ≤ hi) :
    Spec.sub (Spec.sub b lo hi) lo' hi' = Spec.sub b (lo + lo') (lo + hi') := by
  simp only [Spec.sub, List.drop_take, List.take_take, List.drop_drop]
  rw [Nat.min_eq_left (by omega)]
  congr 1
  omega

theorem Inside.trans {a b d : Slice} (h1 : Inside a b) (h2 : Inside b d) : Inside a d := by
  obtain ⟨lo, hi, h, hle, rfl⟩ := h1
  obtain ⟨lo', hi', h', hle', rfl⟩ := h2
  have hlen : (Spec.sub a.bytes lo hi).length = hi - lo := sub_length hle
  simp only [Slice.len, hlen] at hle'
  refine ⟨lo + lo', lo + hi', by omega, by simp only [Slice.len] at hle ⊢; omega, ?_⟩
  rw [sub_sub _ _ _ _ _ (by omega)]
  simp only [Nat.add_assoc]

theorem Inside.len_le {s r : Slice} (h : Inside s r) : r.len ≤ s.len := by
  obtain ⟨lo, hi, _, hle, rfl⟩ := h
  simp only [Slice.len] at *
  rw [sub_length hle]; omega

theorem dfltBytes_len {t : Ty} (h : Small t) : (dfltBytes t).length < 2 ^ 63 := by
  unfold dfltBytes
  cases hs : Spec.size t with
  | none => simp
  | some n =>
    have := size_bound t n hs
    unfold Small at h
    simp only [List.length_replicate]
    omega

/-- A child of a good reference is good. -/
theorem Good.child {c : Cfg} {root s r : Slice} {T t : Ty} (h : Good c root T s) (hx : Expands t)
    (hsm : Small t) (ha : Spec.align t ∣ r.addr) (hc : castBytes t r.bytes = r.bytes)
    (hl : Inside s r ∨ IsStatic c t r) : Good c root t r := by
  refine ⟨hx, hsm, ha, hc, ?_, ?_⟩
  · rcases hl with hl | hl
    · exact Nat.lt_of_le_of_lt hl.len_le h.len
    · simp only [Slice.len, hl.1]; exact dfltBytes_len hsm
  · rcases hl with hl | hl
    · rcases h.loc with hr | ⟨t', d, hs, hd, hi⟩
      · exact Or.inl (hr.trans hl)
      · exact Or.inr ⟨t', d, hs, hd, hi.trans hl⟩
    · exact Or.inr ⟨t, r, hsm, hl, .refl r⟩

theorem Good.refFor {c : Cfg} {root s r : Slice} {T t : Ty} {o : Option Bytes} (h : Good c root T s)
    (hx : Expands t) (hsm : Small t) (hr : RefFor c s t o r) : Good c root t r :=
  h.child hx hsm hr.1 (by rw [hr.2.1, castBytes_idem]) hr.2.2

theorem readUint_lt {c : Cfg} {b : Bytes} {w n v : Nat} (hw : w ≤ 8) (h : readUint c b w n = .ok v) :
    v < usizeMod := by
  unfold readUint at h
  obtain ⟨s, _, h⟩ := Res.bind_eq_ok.1 h
  split at h
  · cases h; decide
  · split at h
    · split at h
      · cases h
        rename_i x _
        have := x.toNat_lt
        unfold usizeMod; omega
      · cases h
    · obtain ⟨e, he, h⟩ := Res.bind_eq_ok.1 h
      split at h
      · cases h
        rename_i hh
        rw [fromLe_eq]
        have hlen : ((b.take e).drop s).length ≤ 8 := by
          simp only [List.length_drop, List.length_take]
          unfold uadd at he
          split at he
          · cases he; omega
          · split at he
            · cases he
            · cases he
              have := Nat.mod_le (s + w) usizeMod
              omega
        have := le_lt_of_length (b := (b.take e).drop s) (w := 8) hlen
        simpa [usizeMod] using this
      · cases h

theorem uadd_fault {c : Cfg} {a b : Nat} {f : Fault} (h : uadd c a b = .fail f) :
    f = .overflow ∧ c.overflowChecks = true := by
  unfold uadd at h
  repeat' split at h
  all_goals first | (cases h; exact ⟨rfl, by assumption⟩) | cases h
theorem umul_fault {c : Cfg} {a b : Nat} {f : Fault} (h : umul c a b = .fail f) : f = .overflow := by
  unfold umul at h
  repeat' split at h
  all_goals first | cases h; rfl | cases h
theorem uadd_lt {c : Cfg} {a b r : Nat} (h : uadd c a b = .ok r) : r < usizeMod := by
  unfold uadd at h
  repeat' split at h
  all_goals first | (cases h; assumption) | (cases h; exact Nat.mod_lt _ (by decide)) | cases h
theorem uadd_dvd {c : Cfg} {al a b r : Nat} (hal : IsAl al) (ha : al ∣ a) (hb : al ∣ b)
    (h : uadd c a b = .ok r) : al ∣ r := by
  unfold uadd at h
  repeat' split at h
  · cases h; exact Nat.dvd_add ha hb
  · cases h
  · cases h
    exact (Nat.dvd_mod_iff (by rcases hal with h | h | h | h <;> subst h <;> decide)).2 (Nat.dvd_add ha hb)

theorem readUint_fault {c : Cfg} {b : Bytes} {w n : Nat} {f : Fault} (h : readUint c b w n = .fail f) :
    f = .overflow ∨ f = .bounds := by
  unfold readUint at h
  rcases Res.bind_eq_fail.1 h with h | ⟨s, _, h⟩
  · exact Or.inl (umul_fault h)
  · split at h
    · cases h
    · split at h
      · split at h
        · cases h
        · cases h; exact Or.inr rfl
      · rcases Res.bind_eq_fail.1 h with h | ⟨e, _, h⟩
        · exact Or.inl (uadd_fault h).1
        · split at h
          · cases h
          · cases h; exact Or.inr rfl

theorem alignOffset_fault {c : Cfg} {al i : Nat} {f : Fault} (hal : IsAl al) (hi : i < usizeMod)
    (h : alignOffset c al i = .fail f) : f = .overflow ∧ c.overflowChecks = true := by
  rw [alignOffset_eq hal hi] at h
  repeat' split at h
  all_goals first | (cases h; exact ⟨rfl, by assumption⟩) | cases h

/-- The end of `Index::index` and of `next`: cast a window or the empty slice, then unwrap. -/
theorem cast_unwrap {c : Cfg} {e : Ty} {s d : Slice} (hx : Expands e) (hs : Spec.size e = none)
    (ha : Spec.align e ∣ d.addr) (hl : Inside s d ∨ IsStatic c e d) :
    (∀ x, (tryFromAligned c e d >>= Res.unwrap) = .ok x →
      x = d ∧ Spec.align e ∣ x.addr ∧ castBytes e x.bytes = x.bytes ∧ (Inside s x ∨ IsStatic c e x)) ∧
    (∀ f, (tryFromAligned c e d >>= Res.unwrap) = .fail f → f = .unwrap) := by
  rw [tryFromAligned_ok hx ha]
  simp only [Res.bind_ok]
  split
  · rename_i h
    refine ⟨?_, fun f h => by cases h⟩
    rintro x ⟨⟩
    refine ⟨rfl, ha, ?_, hl⟩
    rcases h with h | h
    · exact h.1
    · exact castBytes_eq hs h.2
  · exact ⟨fun x h => (by cases h), fun f h => (by cases h; rfl)⟩

theorem isStatic_empty {c : Cfg} {e : Ty} (hs : Spec.size e = none) :
    IsStatic c e ⟨c.spacesAddr + gap (Spec.align e) c.spacesAddr, []⟩ :=
  ⟨by simp [dfltBytes, hs], Or.inr ⟨hs, rfl⟩⟩

/-- Any index at all, also one whose position wraps around. -/
theorem arrIndex_safe {c : Cfg} {e : Ty} {s : Slice} (hx : Expands e) (hs : Spec.size e = none)
    (ha : Spec.align e ∣ s.addr) (hl : s.len < 2 ^ 63) (i : Nat) :
    (∀ x, arrIndex c e s i = .ok x →
      Spec.align e ∣ x.addr ∧ castBytes e x.bytes = x.bytes ∧ (Inside s x ∨ IsStatic c e x)) ∧
    (∀ f, arrIndex c e s i = .fail f → f = .overflow ∨ f = .bounds ∨ f = .unwrap) := by
  have hal := specAlign_isAl e
  have hw8 : arrW s.bytes ≤ 8 := by rcases arrW_isWidth s.bytes with h | h | h | h <;> omega
  unfold arrIndex
  simp only [readLast_ok hl, Res.bind_ok, alignOf_eq]
  rw [if_pos (show (Spec.arrFrame s.bytes).1 ≤ s.len from arrFrame_body_le s.bytes)]
  cases hstop : readUint c (s.bytes.drop (Spec.arrFrame s.bytes).1) (arrW s.bytes) i with
  | fail f =>
    refine ⟨fun x h => (by cases h), fun f' h => ?_⟩
    cases h
    rcases readUint_fault hstop with h | h <;> simp [h]
  | ok stop =>
    simp only [Res.bind_ok]
    generalize hpr : (if i = 0 then (pure 0 : Res Nat) else
      readUint c (s.bytes.drop (Spec.arrFrame s.bytes).1) (arrW s.bytes) (i - 1)) = pr
    cases pr with
    | fail f =>
      refine ⟨fun x h => (by cases h), fun f' h => ?_⟩
      cases h
      split at hpr
      · cases hpr
      · rcases readUint_fault hpr with h | h <;> simp [h]
    | ok prev =>
      have hprev : prev < usizeMod := by
        split at hpr
        · cases hpr; decide
        · exact readUint_lt hw8 hpr
      simp only [Res.bind_ok]
      cases hst : alignOffset c (Spec.align e) prev with
      | fail f =>
        refine ⟨fun x h => (by cases h), fun f' h => ?_⟩
        cases h
        simp [(alignOffset_fault hal hprev hst).1]
      | ok start =>
        obtain ⟨hd, _⟩ := alignOffset_dvd hal hprev hst
        simp only [Res.bind_ok]
        by_cases h : start < s.len ∧ stop ≤ (Spec.arrFrame s.bytes).1 ∧ start ≤ stop
        · have hb := arrFrame_body_le s.bytes
          have hle : stop ≤ s.len := by simp only [Slice.len]; omega
          rw [if_pos h, window_ok ha hd h.2.2 hle, Res.bind_ok]
          obtain ⟨h1, h2⟩ := cast_unwrap (c := c) (s := s) (d := ⟨s.addr + start, Spec.sub s.bytes start stop⟩)
            hx hs (Nat.dvd_add ha hd) (Or.inl ⟨start, stop, h.2.2, hle, rfl⟩)
          exact ⟨fun x hx => (h1 x hx).2, fun f hf => Or.inr (Or.inr (h2 f hf))⟩
        · rw [if_neg h, emptyAligned_ok hal, Res.bind_ok]
          obtain ⟨h1, h2⟩ := cast_unwrap (c := c) (s := s) hx hs (gap_dvd hal c.spacesAddr)
            (Or.inr (isStatic_empty hs))
          exact ⟨fun x hx => (h1 x hx).2, fun f hf => Or.inr (Or.inr (h2 f hf))⟩

/-! ### Structures -/

theorem calcOffsets_safe {c : Cfg} {t : Ty} {b : Bytes} {row : Row} {last : Bool} {nfo : Nat}
    (hl : b.length < 2 ^ 63) (hi : -1 ≤ row.i) (hi' : row.i < 2 ^ 59) (hn : nfo < 2 ^ 59)
    (hb : IsAl row.b) (hle : Spec.align t ≤ row.b) (hc : Spec.align t ∣ row.c) :
    (∀ start stop, calcOffsets c (alignOf t) b row (sizeOf t) last nfo = .ok (some (start, stop)) →
      Spec.align t ∣ start ∧ start ≤ stop ∧ stop ≤ b.length) ∧
    (∀ f, calcOffsets c (alignOf t) b row (sizeOf t) last nfo = .fail f → f = .overflow ∧ c.overflowChecks = true) := by
  have hal := specAlign_isAl t
  have hw8 := offsetSize_lt b.length
  have hmul : Spec.offsetWidth b.length * nfo ≤ 8 * nfo := Nat.mul_le_mul_right _ hw8
  unfold calcOffsets
  simp only [nthLast_ok hl (n := (row.i + 1).toNat) (by omega), alignOf_eq, Res.bind_ok]
  cases (if (row.i + 1).toNat = 0 then some 0 else Spec.frame b ((row.i + 1).toNat - 1) : Option Nat) with
  | none => exact ⟨fun a b h => (by cases h), fun f h => (by cases h)⟩
  | some fo =>
    simp only [offsetSize_eq]
    rw [umul_ok (by unfold usizeMod; omega)]
    simp only [Res.bind_ok, checkedSub]
    by_cases hde : Spec.offsetWidth b.length * nfo ≤ b.length
    · simp only [if_pos hde]
      cases hx : uadd c fo row.a with
      | fail f => exact ⟨fun a b h => (by cases h), fun f h => (by cases h; exact uadd_fault hx)⟩
      | ok x =>
        simp only [Res.bind_ok]
        cases hy : alignOffset c row.b x with
        | fail f => exact ⟨fun a b h => (by cases h), fun f h => (by cases h; exact alignOffset_fault hb (uadd_lt hx) hy)⟩
        | ok y =>
          have hyd : Spec.align t ∣ y := Nat.dvd_trans (hal.dvd hb hle) (alignOffset_dvd hb (uadd_lt hx) hy).1
          have htn : tryNew (Spec.align t) row.c = some row.c := by
            simp [tryNew, Nat.mod_eq_zero_of_dvd hc]
          simp only [Res.bind_ok, htn, Res.unwrap_some]
          cases hs : uadd c y row.c with
          | fail f => exact ⟨fun a b h => (by cases h), fun f h => (by cases h; exact uadd_fault hs)⟩
          | ok start =>
            have hsd := uadd_dvd hal hyd hc hs
            simp only [Res.bind_ok]
            have fin : ∀ (o : Res (Option Nat)), (∀ f, o = .fail f → f = .overflow ∧ c.overflowChecks = true) →
                (∀ st sp, (o >>= fun stop => match stop with
                  | none => pure none
                  | some stop => if start ≤ stop ∧ stop ≤ b.length - Spec.offsetWidth b.length * nfo then
                      pure (some (start, stop)) else pure none) = Res.ok (some (st, sp)) →
                    Spec.align t ∣ st ∧ st ≤ sp ∧ sp ≤ b.length) ∧
                (∀ f, (o >>= fun stop => match stop with
                  | none => pure none
                  | some stop => if start ≤ stop ∧ stop ≤ b.length - Spec.offsetWidth b.length * nfo then
                      pure (some (start, stop)) else pure none) = (Res.fail f : Res (Option (Nat × Nat))) → f = .overflow ∧ c.overflowChecks = true) := by
              intro o ho
              cases o with
              | fail f => exact ⟨fun a b h => (by cases h), fun f h => (by cases h; exact ho _ rfl)⟩
              | ok o =>
                cases o with
                | none => exact ⟨fun a b h => (by cases h), fun f h => (by cases h)⟩
                | some stop =>
                  simp only [Res.bind_ok]
                  split
                  · rename_i h
                    refine ⟨?_, fun f h => (by cases h)⟩
                    rintro st sp ⟨⟩
                    exact ⟨hsd, h.1, by omega⟩
                  · exact ⟨fun a b h => (by cases h), fun f h => (by cases h)⟩
            apply fin
            intro f hf
            split at hf
            · rcases Res.bind_eq_fail.1 hf with hf | ⟨_, _, hf⟩
              · exact uadd_fault hf
              · cases hf
            · split at hf
              · cases hf
              · rw [nthLast_ok' hl (by omega)] at hf; cases hf
    · simp only [if_neg hde]
      exact ⟨fun a b h => (by cases h), fun f h => (by cases h)⟩

/-- What is needed of a reference to a member. -/
def MemberOk (c : Cfg) (s : Slice) (t : Ty) (r : Slice) : Prop :=
  Spec.align t ∣ r.addr ∧ castBytes t r.bytes = r.bytes ∧ (Inside s r ∨ IsStatic c t r)

theorem RefFor.memberOk {c : Cfg} {s : Slice} {t : Ty} {o : Option Bytes} {r : Slice}
    (h : RefFor c s t o r) : MemberOk c s t r :=
  ⟨h.1, by rw [h.2.1, castBytes_idem], h.2.2⟩

theorem getChildElem_safe {c : Cfg} {t : Ty} {s : Slice} {row : Row} {last : Bool} {nfo : Nat}
    (hx : Expands t) (ha : Spec.align t ∣ s.addr)
    (hl : s.len < 2 ^ 63) (hi : -1 ≤ row.i) (hi' : row.i < 2 ^ 59) (hn : nfo < 2 ^ 59)
    (hb : IsAl row.b) (hle : Spec.align t ≤ row.b) (hc : Spec.align t ∣ row.c) :
    (∀ r, getChildElem c t s row last nfo = .ok r → MemberOk c s t r) ∧
    (∀ f, getChildElem c t s row last nfo = .fail f → f = .overflow ∧ c.overflowChecks = true) := by
  obtain ⟨h1, h2⟩ := calcOffsets_safe (c := c) (t := t) (b := s.bytes) (last := last) (nfo := nfo)
    hl hi hi' hn hb hle hc
  unfold getChildElem
  cases hco : calcOffsets c (alignOf t) s.bytes row (sizeOf t) last nfo with
  | fail f => exact ⟨fun r h => (by cases h), fun f h => (by cases h; exact h2 _ hco)⟩
  | ok o =>
    cases o with
    | none =>
      obtain ⟨r, hr, hr'⟩ := default_refFor (c := c) s hx
      simp only [Res.bind_ok, hr]
      exact ⟨fun r h => (by cases h; exact hr'.memberOk), fun f h => (by cases h)⟩
    | some p =>
      obtain ⟨start, stop⟩ := p
      obtain ⟨h3, h4, h5⟩ := h1 start stop hco
      obtain ⟨r, hr, hr'⟩ := window_refFor (c := c) hx ha h3 h4 h5
      simp only [Res.bind_ok]
      have : (do let d ← window c (alignOf t) s start stop; fromAligned c t d) = .ok r := hr
      rw [this]
      exact ⟨fun r h => (by cases h; exact hr'.memberOk), fun f h => (by cases h)⟩

theorem memberRefs_safe {c : Cfg} {s : Slice} {nfo : Nat} (hl : s.len < 2 ^ 63) (hn : nfo < 2 ^ 59)
    (ts : List Ty) : ∀ rows : List Row, (∀ t ∈ ts, Expands t) → (∀ t ∈ ts, Spec.align t ∣ s.addr) →
    rows.length = ts.length →
    (∀ p ∈ ts.zip rows, -1 ≤ p.2.i ∧ p.2.i < 2 ^ 59 ∧ IsAl p.2.b ∧ Spec.align p.1 ≤ p.2.b ∧
      Spec.align p.1 ∣ p.2.c) →
    (∀ rs, memberRefs c s nfo ts rows = .ok rs → List.Forall₂ (MemberOk c s) ts rs) ∧
    (∀ f, memberRefs c s nfo ts rows = .fail f → f = .overflow ∧ c.overflowChecks = true) := by
  induction ts with
  | nil =>
    intro rows _ _ _ _
    cases rows <;> exact ⟨fun r h => (by cases h; exact .nil), fun f h => (by cases h)⟩
  | cons t ts ih =>
    intro rows hx ha hlen hp
    cases rows with
    | nil => simp at hlen
    | cons row rows =>
      obtain ⟨hi, hi', hb, hle, hc⟩ := hp (t, row) (by simp)
      obtain ⟨h1, h2⟩ := getChildElem_safe (c := c) (last := ts.isEmpty) (hx t (by simp)) (ha t (by simp))
        hl hi hi' hn hb hle hc
      obtain ⟨h3, h4⟩ := ih rows (fun u hu => hx u (by simp [hu])) (fun u hu => ha u (by simp [hu]))
        (by simpa using hlen) (fun p h => hp p (by simp [h]))
      simp only [memberRefs]
      constructor
      · intro rs h
        obtain ⟨r, hr, h⟩ := Res.bind_eq_ok.1 h
        obtain ⟨rs', hrs, h⟩ := Res.bind_eq_ok.1 h
        cases h
        exact .cons (h1 r hr) (h3 rs' hrs)
      · intro f h
        rcases Res.bind_eq_fail.1 h with h | ⟨r, _, h⟩
        · exact h2 f h
        · rcases Res.bind_eq_fail.1 h with h | ⟨rs', _, h⟩
          · exact h4 f h
          · cases h

theorem tableLoop_i_bound (ts : List Ty) : ∀ st : Row, -1 ≤ st.i →
    ∀ row ∈ tableLoop st ts, -1 ≤ row.i ∧ row.i ≤ st.i + ts.length := by
  induction ts with
  | nil => intro st _ row h; simp [tableLoop] at h
  | cons t ts ih =>
    intro st hi row h
    obtain ⟨i, a, b, cc⟩ := st
    simp only at hi
    have hst : ∃ st' : Row, i ≤ st'.i ∧ st'.i ≤ i + 1 ∧
        (tableLoop ⟨i, a, b, cc⟩ (t :: ts)) =
          (if alignOf t ≤ b then (⟨i, a, b, align cc (alignOf t)⟩ : Row)
            else ⟨i, a + align cc b, alignOf t, 0⟩) :: tableLoop st' ts := by
      refine ⟨_, ?_, ?_, rfl⟩
      · cases sizeOf t <;> simp only <;> split <;> simp only <;> omega
      · cases sizeOf t <;> simp only <;> split <;> simp only <;> omega
    obtain ⟨st', h1, h2, h3⟩ := hst
    rw [h3] at h
    simp only [List.length_cons]
    rcases List.mem_cons.1 h with rfl | h
    · split <;> simp only <;> omega
    · have := ih st' (by omega) row h
      omega

theorem RefsFor.forall₂ {c : Cfg} {s : Slice} : ∀ {ts : List Ty} {os : List (Option Bytes)} {rs : List Slice},
    RefsFor c s ts os rs → List.Forall₂ (MemberOk c s) ts rs
  | [], [], [], _ => .nil
  | _ :: _, _ :: _, _ :: _, h => .cons h.1.memberOk (RefsFor.forall₂ h.2)
  | [], [], _ :: _, h => h.elim
  | [], _ :: _, _, h => h.elim
  | _ :: _, [], _, h => h.elim
  | _ :: _, _ :: _, [], h => h.elim

/-- References to the members of a structure, whatever the size. -/
theorem tupRefs_safe {c : Cfg} {gv : Ty} {ts : List Ty} {s : Slice}
    (hgv : Spec.size gv = Spec.size (.tuple ts)) (hx : ∀ t ∈ ts, Expands t)
    {d} (hd : generateTuple gv ts = .ok d) (hsm : (Ty.shows ts).length < 2 ^ 40)
    (ha : Spec.alignMax ts ∣ s.addr) (hc : castBytes (.tuple ts) s.bytes = s.bytes)
    (hl : s.len < 2 ^ 63) :
    (∀ rs, tupRefs c gv ts s = .ok rs → List.Forall₂ (MemberOk c s) ts rs) ∧
    (∀ f, tupRefs c gv ts s = .fail f → f = .overflow ∧ c.overflowChecks = true) := by
  cases hs : Spec.size (.tuple ts) with
  | some n =>
    obtain ⟨rs, h1, h2⟩ := tupRefs_ok (c := c) hgv hx hd hsm ha hc (by rw [hs]; intro h; cases h)
    rw [h1]
    exact ⟨fun r h => (by cases h; exact h2.forall₂), fun f h => (by cases h)⟩
  | none =>
    have ha' : ∀ t ∈ ts, Spec.align t ∣ s.addr := fun t ht =>
      Nat.dvd_trans ((specAlign_isAl t).dvd (alignMax_isAl ts) (alignMax_ge ht)) ha
    have hnl := shows_length_ge ts
    have hfl := framesLeft_le ts
    unfold tupRefs
    rw [sizeOf_eq, hgv, hs]
    simp only
    obtain ⟨cmds, hcm⟩ := serLoop_ok (nFrameOffsets ts) ts 0 8 0 0 (by rw [nFrameOffsets_eq]; omega)
    have hp : writeNonFixedSizeStructure ts = .ok ⟨generateTable ts, nFrameOffsets ts, cmds⟩ := by
      simp [writeNonFixedSizeStructure, hcm]
    simp only [hp, Res.bind_ok, nFrameOffsets_eq]
    obtain ⟨hlen, hrow⟩ := tableLoop_aligned ts ⟨-1, 0, 1, 0⟩ (Or.inl rfl)
    apply memberRefs_safe hl (by omega) ts _ hx ha' hlen
    intro p hp
    obtain ⟨h1, h2, h3⟩ := hrow p hp
    rw [alignOf_eq] at h2 h3
    have := tableLoop_i_bound ts ⟨-1, 0, 1, 0⟩ (by simp) p.2 (List.of_mem_zip hp).2
    simp only at this
    exact ⟨this.1, by omega, h1, h2, h3⟩

end GV
