import Verif.Proofs.Addr
import Verif.Model.Owned
import Verif.Spec.Empty
/-
Helper lemmas: reading through owned values and buffers, and reading empty data at odd addresses.
-/
namespace GV

/-! ### Empty data at any address -/

/-- Reading the empty data at address `a` as a `t` gives the default value. -/
def EmptyOk (c : Cfg) (a : Nat) (t : Ty) : Prop :=
  (fromAligned c t ⟨a, []⟩ >>= view c t) = .ok (Spec.dflt t)

theorem default_view {c : Cfg} {t : Ty} (hx : Expands t) (hsm : Small t) :
    ∃ r, defaultRef c t = .ok r ∧ view c t r = .ok (Spec.dflt t) := by
  obtain ⟨r, h1, h2, h3⟩ := defaultRef_ok (c := c) hx
  refine ⟨r, h1, ?_⟩
  rw [view_ok c t hx hsm r h2 (by rw [h3.1, castBytes_dflt]) (by
    intro hs; simp [Slice.len, h3.1, dfltBytes, hs]) (by rw [h3.1]; exact tame_dflt _ t), h3.1, (dec_dfltBytes _ t).1, (dec_dfltBytes _ t).2]
  rfl

/-- Empty data as a fixed-size type is the static default, wherever it is. -/
theorem fromAligned_nil_fixed {c : Cfg} {t : Ty} {n a : Nat} (hx : Expands t) (hs : Spec.size t = some n) :
    fromAligned c t ⟨a, []⟩ = defaultRef c t := by
  have hp := (size_pos_dvd t n hs).1
  have : tryCastSliceTo c t ⟨a, []⟩ = .ok none := by
    unfold tryCastSliceTo
    rw [rustLayout_ok t n hs hx, Res.bind_ok]
    simp only
    rw [if_neg (show ¬ n = (⟨a, []⟩ : Slice).len by simp only [Slice.len, List.length_nil]; omega)]
    rfl
  simp only [fromAligned, tryFromAligned, sizeOf_eq, hs, this, Res.bind_ok]

theorem emptyOk_fixed {c : Cfg} {t : Ty} {n a : Nat} (hx : Expands t) (hsm : Small t)
    (hs : Spec.size t = some n) : EmptyOk c a t := by
  obtain ⟨r, h1, h2⟩ := default_view (c := c) hx hsm
  unfold EmptyOk
  rw [fromAligned_nil_fixed hx hs, h1, Res.bind_ok, h2]

theorem getChildElem_nil {c : Cfg} {t : Ty} {a : Nat} {row : Row} {last : Bool} {nfo : Nat} {r : Slice}
    (h : getChildElem c t ⟨0, []⟩ row last nfo = .ok r) :
    getChildElem c t ⟨a, []⟩ row last nfo = fromAligned c t ⟨a, []⟩ ∨
    getChildElem c t ⟨a, []⟩ row last nfo = defaultRef c t := by
  unfold getChildElem at h ⊢
  simp only at h ⊢
  cases hco : calcOffsets c (alignOf t) [] row (sizeOf t) last nfo with
  | fail f => rw [hco] at h; cases h
  | ok o =>
    rw [hco] at h
    cases o with
    | none => right; rfl
    | some p =>
      obtain ⟨start, stop⟩ := p
      simp only [Res.bind_ok] at h ⊢
      obtain ⟨d, hd, _⟩ := Res.bind_eq_ok.1 h
      left
      have hw : window c (alignOf t) ⟨a, []⟩ start stop = .ok ⟨a, []⟩ := by
        unfold window idxTo Slice.to at hd ⊢
        by_cases hz : stop ≤ (⟨0, []⟩ : Slice).len
        · rw [if_pos hz] at hd
          rw [if_pos (show stop ≤ (⟨a, []⟩ : Slice).len from hz)]
          simp only [List.take_nil] at hd ⊢
          simp only [Res.bind_ok, unchecked_ok (s := ⟨0, []⟩) (Or.inl rfl)] at hd
          simp only [Res.bind_ok, unchecked_ok (s := ⟨a, []⟩) (Or.inl rfl)]
          unfold idxAFrom Slice.from_ at hd ⊢
          by_cases hz : start = 0
          · subst hz
            rw [if_pos (Nat.zero_le _), Res.bind_ok]
            exact unchecked_ok (Or.inl rfl)
          · rw [if_neg (show ¬ start ≤ (⟨0, []⟩ : Slice).len by
              simp only [Slice.len, List.length_nil]; omega)] at hd
            cases hd
        · rw [if_neg hz] at hd; cases hd
      rw [hw]
      rfl

theorem memberRefs_nil {c : Cfg} {a nfo : Nat} (ts : List Ty) : ∀ rows rs, rows.length = ts.length →
    (∀ t ∈ ts, Expands t ∧ Small t ∧ EmptyOk c a t) →
    memberRefs c ⟨0, []⟩ nfo ts rows = .ok rs →
    ∃ rs', memberRefs c ⟨a, []⟩ nfo ts rows = .ok rs' ∧ viewAll c ts rs' = .ok (Spec.dflts ts) := by
  induction ts with
  | nil =>
    intro rows rs hl _ _
    cases rows with
    | nil => exact ⟨[], rfl, by simp [viewAll, Spec.dflts]⟩
    | cons => simp at hl
  | cons t ts ih =>
    intro rows rs hl ht h
    cases rows with
    | nil => simp at hl
    | cons row rows =>
      simp only [memberRefs] at h ⊢
      obtain ⟨r, hr, h⟩ := Res.bind_eq_ok.1 h
      obtain ⟨rs', hrs, h⟩ := Res.bind_eq_ok.1 h
      obtain ⟨hx, hsm, he⟩ := ht t (by simp)
      obtain ⟨qs, h1, h2⟩ := ih rows rs' (by simpa using hl) (fun u hu => ht u (by simp [hu])) hrs
      have hfirst : ∃ q, getChildElem c t ⟨a, []⟩ row ts.isEmpty nfo = .ok q ∧ view c t q = .ok (Spec.dflt t) := by
        rcases getChildElem_nil (a := a) hr with hg | hg
        · rw [hg]; exact Res.bind_eq_ok.1 he
        · rw [hg]; exact default_view hx hsm
      obtain ⟨q, hq, hv⟩ := hfirst
      refine ⟨q :: qs, by rw [hq, h1]; rfl, ?_⟩
      rw [viewAll, hv, h2, Spec.dflts]
      rfl

theorem tuple_nil {c : Cfg} {a : Nat} {gv : Ty} {ts : List Ty} (hgv : Spec.size gv = Spec.size (.tuple ts))
    (hs : Spec.size gv = none) (hx : ∀ t ∈ ts, Expands t) {d} (hd : generateTuple gv ts = .ok d)
    (hsm : (Ty.shows ts).length < 2 ^ 40) (ht : ∀ t ∈ ts, EmptyOk c a t) :
    ∃ rs, tupRefs c gv ts ⟨a, []⟩ = .ok rs ∧ viewAll c ts rs = .ok (Spec.dflts ts) := by
  obtain ⟨rs, h1, _⟩ := tupRefs_ok (c := c) (s := ⟨0, []⟩) hgv hx hd hsm (Nat.dvd_zero _)
    (castBytes_eq (by rw [← hgv, hs]) rfl) (fun _ => by simp [Slice.len])
  unfold tupRefs at h1 ⊢
  rw [sizeOf_eq, hs] at h1 ⊢
  simp only at h1 ⊢
  obtain ⟨cmds, hcm⟩ := serLoop_ok (nFrameOffsets ts) ts 0 8 0 0 (by rw [nFrameOffsets_eq]; omega)
  have hp : writeNonFixedSizeStructure ts = .ok ⟨generateTable ts, nFrameOffsets ts, cmds⟩ := by
    simp [writeNonFixedSizeStructure, hcm]
  simp only [hp, Res.bind_ok] at h1 ⊢
  obtain ⟨hlen, _⟩ := tableLoop_aligned ts ⟨-1, 0, 1, 0⟩ (Or.inl rfl)
  exact memberRefs_nil ts _ rs hlen (fun t h => ⟨hx t h, Nat.lt_of_le_of_lt (shows_ge h) hsm, ht t h⟩) h1

theorem emptySafeAll_mem {a : Nat} {t : Ty} {ts : List Ty} (h : t ∈ ts) (hs : Spec.emptySafeAll a ts = true) :
    Spec.emptySafe a t = true := by
  induction ts with
  | nil => simp at h
  | cons u ts ih =>
    simp only [Spec.emptySafeAll, Bool.and_eq_true] at hs
    rcases List.mem_cons.1 h with rfl | h
    · exact hs.1
    · exact ih h hs.2

/-- Types whose empty data can be read at address `a`. -/
theorem emptyOk (c : Cfg) (a : Nat) (t : Ty) : Expands t → Small t → Spec.emptySafe a t = true →
    EmptyOk c a t := by
  have wrap : ∀ t : Ty, Spec.size t = none → (∀ e, t = .A e → Spec.size e = none) →
      fromAligned c t ⟨a, []⟩ = .ok ⟨a, []⟩ := by
    intro t hs he
    unfold fromAligned tryFromAligned
    rw [sizeOf_eq, hs]
    cases t with
    | A e => simp [sizeOf_eq, he e rfl]
    | _ => rfl
  induction t using Ty.ind with
  | s => intro _ _ _; rfl
  | o => intro _ _ _; rfl
  | g => intro _ _ _; rfl
  | v =>
    intro _ _ _
    unfold EmptyOk
    rw [wrap .V rfl (by intro e h; cases h), Res.bind_ok, view, split]
    simp only [memrchr0, emptyAligned_ok isAl8]
    rfl
  | a e ih =>
    intro hx hsm h
    cases hs : Spec.size e with
    | none =>
      unfold EmptyOk
      rw [wrap _ rfl (by rintro _ ⟨⟩; exact hs), Res.bind_ok, view]
      simp only [arrRefs, sizeOf_eq, hs, intoIter]
      have h1 := readLast_ok (c := c) (b := []) (by decide)
      have hf : (Spec.arrFrame []).1 = 0 := by decide
      rw [h1, hf, Res.bind_ok]
      simp only [splitAt, Slice.len, List.length_nil, Nat.le_refl, if_true, List.take_nil, List.drop_nil,
        unchecked_ok (s := ⟨a, []⟩) (Or.inl rfl), Res.bind_ok, Res.pure_eq, collectIter, iterNext, ge_iff_le,
        Res.traverse, Spec.dflt]
    | some n =>
      have ha : Spec.align e ∣ a := by
        simp only [Spec.emptySafe, hs, Option.isNone_some, Bool.false_or, beq_iff_eq] at h
        exact Nat.dvd_of_mod_eq_zero h
      have hr := readAs_ok (c := c) (t := .A e) (s := ⟨a, []⟩) hx hsm ha (by simp [Slice.len])
      rw [(dec_nil _ _).1, (dec_nil _ _).2] at hr
      exact hr
  | m e ih =>
    intro hx hsm h
    unfold EmptyOk
    rw [wrap _ rfl (by rintro _ ⟨⟩), Res.bind_ok, view]
    have : toOption c e ⟨a, []⟩ = .ok none := by
      unfold toOption
      rw [sizeOf_eq]
      cases hs : Spec.size e with
      | none => rfl
      | some n =>
        have hp := (size_pos_dvd e n hs).1
        simp only [tryFromAligned, sizeOf_eq, hs, tryCastSliceTo]
        rw [rustLayout_ok e n hs (expands_M.1 hx), Res.bind_ok]
        simp only
        rw [if_neg (show ¬ n = (⟨a, []⟩ : Slice).len by simp only [Slice.len, List.length_nil]; omega)]
        rfl
    rw [this]
    rfl
  | tuple ts ih =>
    intro hx hsm h
    cases hs : Spec.size (.tuple ts) with
    | some n => exact emptyOk_fixed hx hsm hs
    | none =>
      simp only [Spec.emptySafe, hs, Option.isSome_none, Bool.false_or] at h
      obtain ⟨hx', d, hd⟩ := expands_tuple.1 hx
      obtain ⟨rs, h1, h2⟩ := tuple_nil (c := c) (a := a) rfl hs hx' hd hsm.shows (fun t ht =>
        ih t ht (hx' t ht) (Nat.lt_of_le_of_lt (shows_ge ht) hsm.shows) (emptySafeAll_mem ht h))
      unfold EmptyOk
      rw [wrap _ hs (by rintro _ ⟨⟩), Res.bind_ok, view, h1, Res.bind_ok, h2, Spec.dflt]
      rfl
  | dict k v ihk ihv =>
    intro hx hsm h
    cases hs : Spec.size (.dict k v) with
    | some n => exact emptyOk_fixed hx hsm hs
    | none =>
      simp only [Spec.emptySafe, hs, Option.isSome_none, Bool.false_or, Bool.and_eq_true] at h
      obtain ⟨⟨hk, hv⟩, d, hd⟩ := expands_dict.1 hx
      have hx' : ∀ t ∈ [k, v], Expands t := by
        intro t ht
        simp only [List.mem_cons, List.not_mem_nil, or_false] at ht
        rcases ht with rfl | rfl <;> assumption
      have hsm' : ∀ t ∈ [k, v], Small t := fun t ht => Nat.lt_of_le_of_lt (shows_ge ht) hsm.dict
      obtain ⟨rs, h1, h2⟩ := tuple_nil (c := c) (a := a) (ts := [k, v]) (size_dict_eq k v) hs hx' hd hsm.dict
        (by
          intro t ht
          have hst := hsm' t ht
          simp only [List.mem_cons, List.not_mem_nil, or_false] at ht
          rcases ht with rfl | rfl
          · exact ihk hk hst h.1
          · exact ihv hv hst h.2)
      unfold EmptyOk
      rw [wrap _ hs (by rintro _ ⟨⟩), Res.bind_ok, view, h1, Res.bind_ok]
      match rs, h2 with
      | [rk, rv], h2 =>
        simp only [viewAll] at h2 ⊢
        obtain ⟨x, hx, h2⟩ := Res.bind_eq_ok.1 h2
        obtain ⟨ys, hy, h2⟩ := Res.bind_eq_ok.1 h2
        obtain ⟨y, hy', hy⟩ := Res.bind_eq_ok.1 hy
        simp only [Res.bind_ok, Res.pure_eq, Res.ok.injEq] at hy
        subst hy
        rw [hx, hy']
        simp only [Spec.dflts, Res.pure_eq, Res.ok.injEq, List.cons.injEq, and_true] at h2
        simp [Spec.dflt, h2.1, h2.2]
      | [], h2 => simp [viewAll] at h2
      | [_], h2 =>
        simp only [viewAll] at h2
        obtain ⟨x, hx, h2⟩ := Res.bind_eq_ok.1 h2
        cases h2
      | _ :: _ :: _ :: _, h2 =>
        simp only [viewAll] at h2
        obtain ⟨x, hx, h2⟩ := Res.bind_eq_ok.1 h2
        obtain ⟨ys, hy, h2⟩ := Res.bind_eq_ok.1 h2
        obtain ⟨x, hx, hy⟩ := Res.bind_eq_ok.1 hy
        cases hy
  | _ => intro hx hsm _; exact emptyOk_fixed hx hsm rfl

theorem align_dvd_8 (t : Ty) : Spec.align t ∣ 8 :=
  (specAlign_isAl t).dvd isAl8 (by rcases specAlign_isAl t with h | h | h | h <;> omega)

/-- What is read depends on the bytes alone, and only on what casting makes of them. -/
theorem readAs_cast {c : Cfg} {t : Ty} {s s' : Slice} (hx : Expands t) (hsm : Small t)
    (ha : Spec.align t ∣ s.addr) (ha' : Spec.align t ∣ s'.addr) (hl : s.len < 2 ^ 63) (hl' : s'.len < 2 ^ 63)
    (hb : castBytes t s.bytes = castBytes t s'.bytes) : readAs c t s = readAs c t s' := by
  obtain ⟨r, h1, h2⟩ := cast_good (c := c) hx hsm ha hl
  obtain ⟨r', h1', h2'⟩ := cast_good (c := c) hx hsm ha' hl'
  obtain ⟨q, hq, _, hq', _⟩ := fromAligned_ok (c := c) hx ha
  obtain ⟨q', hq1, _, hq2, _⟩ := fromAligned_ok (c := c) hx ha'
  rw [h1] at hq
  cases hq
  rw [h1'] at hq1
  cases hq1
  rw [readAs, readAs, h1, h1']
  exact view_same t r r' h2 h2' (by rw [SameB, hq', hq2, hb])

/-- Viewing a reference that a cast could have made is reading its bytes. -/
theorem view_readAs {c : Cfg} {t : Ty} {r : Slice} (hx : Expands t) (hsm : Small t)
    (ha : Spec.align t ∣ r.addr) (hl : r.len < 2 ^ 63) (hc : castBytes t r.bytes = r.bytes) :
    view c t r = readAs c t r := by
  obtain ⟨q, h1, h2⟩ := cast_good (c := c) hx hsm ha hl
  obtain ⟨q', hq, _, hb, _⟩ := fromAligned_ok (c := c) hx ha
  rw [h1] at hq
  cases hq
  rw [readAs, h1, Res.bind_ok]
  exact view_same t r q ⟨hx, hsm, ha, hc, hl, Or.inl (Inside.refl r)⟩ h2 (by rw [SameB, hb, hc])

theorem readAs_nil {c : Cfg} {t : Ty} {a : Nat} (hx : Expands t) (hsm : Small t) (ha : Spec.align t ∣ a) :
    readAs c t ⟨a, []⟩ = .ok (Spec.dflt t) := by
  rw [readAs_ok (s := ⟨a, []⟩) hx hsm ha (by simp [Slice.len]), (dec_nil _ _).1, (dec_nil _ _).2]
  rfl

/-- Bytes at any place where they are aligned or can do without. -/
theorem readAs_anywhere {c : Cfg} {t : Ty} {a : Nat} {b : Bytes} (hx : Expands t) (hsm : Small t)
    (hl : b.length < 2 ^ 63) (h : Spec.align t ∣ a ∨ b = [] ∧ Spec.emptySafe a t = true) :
    readAs c t ⟨a, b⟩ = readAs c t ⟨0, b⟩ := by
  rcases h with h | ⟨rfl, h⟩
  · exact readAs_same hx hsm h (Nat.dvd_zero _) hl rfl
  · rw [readAs_nil hx hsm (Nat.dvd_zero _)]
    exact emptyOk c a t hx hsm h

theorem readBuf_ok {c : Cfg} {t : Ty} {b : AlignedBuf} (hx : Expands t) (hsm : Small t) (hi : b.Inv)
    (h : b.vis ≠ [] ∨ Spec.emptySafe b.data.addr t = true) : readBuf c t b = readAs c t ⟨0, b.vis⟩ := by
  unfold readBuf
  rw [deref_ok hi, Res.bind_ok]
  have hlen : b.vis.length < 2 ^ 63 := by
    have := hi.2.2.1
    simp only [AlignedBuf.vis, List.length_drop]
    omega
  refine readAs_anywhere (c := c) hx hsm hlen ?_
  by_cases hd : b.data.bytes = []
  · have hv : b.vis = [] := by simp [AlignedBuf.vis, hd]
    rw [if_pos hd]
    exact Or.inr ⟨hv, h.resolve_left fun h => h hv⟩
  · rw [if_neg hd]
    exact Or.inl (Nat.dvd_trans (align_dvd_8 t) (gap_dvd isAl8 _))

theorem alignVec_nil {c : Cfg} {a : Alloc} {v : RVec} (h : v.bytes = []) : alignVec c a v = .ok v := by
  unfold alignVec
  rw [if_pos ((bufIsAligned_iff v).2 (Or.inl h))]

/-- A vec made into a buffer and read. -/
theorem fromVec_read {c : Cfg} {p : Places} {t : Ty} {v : RVec} (hx : Expands t) (hsm : Small t)
    (hp : p.vecs.Valid) (hv : v.Valid) (h : v.bytes ≠ [] ∨ Spec.emptySafe v.addr t = true) :
    ∃ b, AlignedBuf.fromVec c p.vecs v = .ok b ∧ b.Inv ∧ b.vis = v.bytes ∧
      (v.bytes = [] → b.data = v) ∧ readBuf c t b = readAs c t ⟨0, v.bytes⟩ := by
  obtain ⟨w, h1, h2, h3⟩ := alignVec_ok (c := c) hp hv
  have h4 : v.bytes = [] → w = v := by
    intro he
    rw [alignVec_nil he] at h1
    exact (Res.ok.inj h1).symm
  refine ⟨⟨w⟩, by simp [AlignedBuf.fromVec, h1], h2, h3, h4, ?_⟩
  have := readBuf_ok (c := c) hx hsm h2 (by
    rw [h3]
    by_cases he : v.bytes = []
    · right; rw [show (⟨w⟩ : AlignedBuf).data = v from h4 he]; exact h.resolve_left fun h => h he
    · exact Or.inl he)
  rw [this, h3]

theorem ofSlice_nil_addr {a : Alloc} : (RVec.ofSlice a []).addr = 1 := rfl

/-- Bytes copied into a buffer and read. -/
theorem ownedFromBytes_read {c : Cfg} {p : Places} {t : Ty} {b : Bytes} (hx : Expands t) (hsm : Small t)
    (hp : p.vecs.Valid) (hb : b.length ≤ 2 ^ 62) (h : b ≠ [] ∨ Spec.emptySafe 1 t = true) :
    ∃ w, ownedFromBytes c p b = .ok w ∧ readBuf c t w = readAs c t ⟨0, b⟩ := by
  obtain ⟨hv, hvb⟩ := ofSlice_valid hp hb
  obtain ⟨w, h1, _, _, _, h2⟩ := fromVec_read (c := c) (t := t) (v := RVec.ofSlice p.vecs b) hx hsm hp hv (by
    rw [hvb]
    by_cases he : b = []
    · subst he; exact h
    · exact Or.inl he)
  exact ⟨w, h1, by rw [h2, hvb]⟩

/-- `to_owned` then borrowing again gives back the same value. -/
theorem owned_read {c : Cfg} {p : Places} {t : Ty} {r : Slice} {b : Bytes} (hx : Expands t) (hsm : Small t)
    (hp : p.vecs.Valid) (ha : Spec.align t ∣ p.addr) (hb : b.length ≤ 2 ^ 62)
    (hr : r.bytes = castBytes t b) (h : b ≠ [] ∨ Spec.emptySafe 1 t = true) :
    (toOwned c p t r >>= fun o => o.borrow c t >>= fun r => view c t r) = readAs c t ⟨0, b⟩ := by
  have hlc : (castBytes t b).length < 2 ^ 63 := by
    unfold castBytes
    cases hs : Spec.size t with
    | none => simp only; split <;> simp <;> omega
    | some n =>
      have := dfltBytes_len hsm
      simp only [dfltBytes, hs, List.length_replicate] at this
      simp only
      split
      · omega
      · simpa using this
  have plain : view c t ⟨p.addr, r.bytes⟩ = readAs c t ⟨0, b⟩ := by
    rw [hr, view_readAs (r := ⟨p.addr, castBytes t b⟩) hx hsm ha hlc (castBytes_idem t b)]
    exact readAs_cast hx hsm ha (Nat.dvd_zero _) hlc (show b.length < 2 ^ 63 by omega) (castBytes_idem t b)
  have str : (t = .S ∨ t = .O ∨ t = .G) → (OwnedVal.borrow c t (.gstring p.addr (strToOwned p.extra r.bytes)) >>=
      fun r => view c t r) = readAs c t ⟨0, b⟩ := by
    intro ht
    have hcb : castBytes t b = b := by rcases ht with rfl | rfl | rfl <;> rfl
    have hv : view c t r = readAs c t ⟨0, b⟩ := by
      rcases ht with rfl | rfl | rfl <;> simp only [view, hr, hcb] <;> rfl
    rw [← hv]
    have e : ∀ x : Bytes, (strToOwned p.extra x).data = toStr x ++ [0] := by
      intro x; simp [strToOwned, GString.fromStrUnchecked, GString.append]
    have e2 : (OwnedVal.borrow c t (.gstring p.addr (strToOwned p.extra r.bytes))) =
        .ok ⟨p.addr, toStr r.bytes ++ [0]⟩ := by
      rcases ht with rfl | rfl | rfl <;>
        simp [OwnedVal.borrow, tryFromAligned, sizeOf_eq, Spec.size, GString.deref, e, Res.unwrap]
    rw [e2, Res.bind_ok]
    rcases ht with rfl | rfl | rfl <;> simp only [view, toStr_text (toStr_is_text _)]
  have buf : castBytes t b = b → (ownedFromBytes c p r.bytes >>= fun w => OwnedVal.borrow c t (.buf w) >>=
      fun r => view c t r) = readAs c t ⟨0, b⟩ := by
    intro hcb
    obtain ⟨w, h1, h2⟩ := ownedFromBytes_read (c := c) hx hsm hp hb h
    rw [hr, hcb, h1, Res.bind_ok, ← h2]
    simp only [readBuf, OwnedVal.borrow]
    cases w.deref c <;> rfl
  unfold toOwned
  rw [sizeOf_eq]
  cases hs : Spec.size t with
  | some n => exact plain
  | none =>
    simp only
    have hcb : (∀ e, t = .A e → Spec.size e = none) → castBytes t b = b := by
      intro h
      apply castBytes_eq hs
      unfold Spec.badSize
      cases t with
      | A e => simp [h e rfl]
      | _ => rfl
    have buf' : (∀ e, t = .A e → Spec.size e = none) → ((ownedFromBytes c p r.bytes >>= fun b =>
        pure (OwnedVal.buf b)) >>= fun o => o.borrow c t >>= fun r => view c t r) = readAs c t ⟨0, b⟩ := by
      intro h
      rw [← buf (hcb h)]
      cases ownedFromBytes c p r.bytes <;> rfl
    cases t with
    | S => exact str (Or.inl rfl)
    | O => exact str (Or.inr (Or.inl rfl))
    | G => exact str (Or.inr (Or.inr rfl))
    | A e =>
      simp only [sizeOf_eq]
      cases he : Spec.size e with
      | some n => exact plain
      | none => exact buf' (by rintro _ ⟨⟩; exact he)
    | _ => exact buf' (by rintro _ ⟨⟩)

end GV
