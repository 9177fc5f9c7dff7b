import Verif.Model.Buf
import Verif.Proofs.Layout
import Verif.Spec.Memory
/-
Helper lemmas about offsets, tagged slices and aligned buffers.
-/
namespace GV

theorem IsAl.cases {al : Nat} (h : IsAl al) : al = 1 ∨ al = 2 ∨ al = 4 ∨ al = 8 := h

theorem isAl8 : IsAl 8 := by simp [IsAl]

theorem and_al {al : Nat} (h : IsAl al) (x : Nat) : x &&& (al - 1) = x % al := by
  rcases h with h | h | h | h <;> subst h
  · simp [Nat.mod_one]
  · exact Nat.and_two_pow_sub_one_eq_mod x 1
  · exact Nat.and_two_pow_sub_one_eq_mod x 2
  · exact Nat.and_two_pow_sub_one_eq_mod x 3

/-- Bytes to skip from address `p` to the next multiple of `al`. -/
def gap (al p : Nat) : Nat := (al - p % al) % al

theorem uneg_and {al : Nat} (h : IsAl al) (p : Nat) : uneg p &&& (al - 1) = gap al p := by
  rw [and_al h]
  unfold uneg gap usizeMod
  rcases h with h | h | h | h <;> subst h <;> omega

theorem gap_dvd {al : Nat} (h : IsAl al) (p : Nat) : al ∣ p + gap al p := by
  unfold gap
  rcases h with h | h | h | h <;> subst h <;> omega

theorem gap_lt {al : Nat} (h : IsAl al) (p : Nat) : gap al p < al := by
  unfold gap
  rcases h with h | h | h | h <;> subst h <;> omega

theorem gap_eq_zero {al : Nat} (h : IsAl al) (p : Nat) : gap al p = 0 ↔ al ∣ p := by
  unfold gap
  rcases h with h | h | h | h <;> subst h <;> omega

theorem and7 (x : Nat) : x &&& 7 = x % 8 := Nat.and_two_pow_sub_one_eq_mod x 3

/-! ### Offsets -/

theorem alignOffset_eq {c : Cfg} {al : Nat} (h : IsAl al) {i : Nat} (hi : i < usizeMod) :
    alignOffset c al i =
      if i + al < usizeMod then .ok (Spec.roundUp i al)
      else if c.overflowChecks then .fail .overflow
      else .ok (Spec.roundUp i al % usizeMod) := by
  unfold alignOffset uadd
  split
  · rename_i h1
    have : 1 ≤ i + al := by have := h.pos; omega
    simp only [Res.bind_ok, usub_ok this, Res.pure_eq, andNot_al h, Spec.roundUp]
  · split
    · rfl
    · rename_i h1 h2
      simp only [Res.bind_ok, usub, h2]
      split
      · rename_i h3
        simp only [Res.bind_ok, Res.pure_eq, andNot_al h, Spec.roundUp, Res.ok.injEq]
        unfold usizeMod at *
        rcases h with h | h | h | h <;> subst h <;> omega
      · rename_i h3
        simp only [Bool.false_eq_true, if_false, Res.bind_ok, Res.pure_eq, andNot_al h,
          Spec.roundUp, Res.ok.injEq]
        unfold usizeMod at *
        rcases h with h | h | h | h <;> subst h <;> omega

theorem IsAl.dvd_usize {al : Nat} (h : IsAl al) : al ∣ usizeMod := by
  unfold usizeMod
  rcases h with h | h | h | h <;> subst h <;> omega

theorem mod_usize_dvd {al n : Nat} (h : IsAl al) (hd : al ∣ n) : al ∣ n % usizeMod :=
  (Nat.dvd_mod_iff h.dvd_usize).2 hd

theorem alignOffset_dvd {c : Cfg} {al : Nat} (h : IsAl al) {i r : Nat} (hi : i < usizeMod)
    (hr : alignOffset c al i = .ok r) : al ∣ r ∧ r < usizeMod := by
  rw [alignOffset_eq h hi] at hr
  split at hr
  · cases hr
    exact ⟨roundUp_dvd _ _, by have := roundUp_lt h.pos i; omega⟩
  · split at hr
    · cases hr
    · cases hr
      exact ⟨mod_usize_dvd h (roundUp_dvd _ _), Nat.mod_lt _ (by decide)⟩

theorem alignOffset_ok {c : Cfg} {al : Nat} (h : IsAl al) {i : Nat} (hi : i + al < usizeMod) :
    alignOffset c al i = .ok (Spec.roundUp i al) := by
  rw [alignOffset_eq h (by omega), if_pos hi]

theorem or_dvd {al a b : Nat} (h : IsAl al) (ha : al ∣ a) (hb : al ∣ b) : al ∣ a ||| b := by
  have key : ∀ k, 2 ^ k ∣ a → 2 ^ k ∣ b → 2 ^ k ∣ a ||| b := by
    intro k h1 h2
    apply Nat.dvd_of_mod_eq_zero
    rw [Nat.or_mod_two_pow, Nat.mod_eq_zero_of_dvd h1, Nat.mod_eq_zero_of_dvd h2]
    rfl
  rcases h with h | h | h | h <;> subst h
  · exact Nat.one_dvd _
  · exact key 1 ha hb
  · exact key 2 ha hb
  · exact key 3 ha hb

theorem offExpr_ty_isAl (e : OffExpr) : ∀ {al}, e.ty = some al → IsAl al := by
  induction e with
  | tryNew a v | alignOffset a v =>
    intro al h
    simp only [OffExpr.ty] at h
    split at h
    · cases h; assumption
    · cases h
  | bor x y ihx ihy =>
    intro al h
    simp only [OffExpr.ty, Option.bind_eq_bind, Option.pure_def] at h
    cases hx : x.ty <;> cases hy : y.ty <;> simp only [hx, hy, Option.bind_some, Option.bind_none] at h
    · cases h
    · cases h
    · cases h
    · cases h
      have := ihx hx; have := ihy hy
      rw [Nat.min_def]; split <;> assumption
  | add x y ihx ihy =>
    intro al h
    simp only [OffExpr.ty, Option.bind_eq_bind, Option.pure_def] at h
    cases hx : x.ty <;> cases hy : y.ty <;> simp only [hx, hy, Option.bind_some, Option.bind_none] at h
    · cases h
    · cases h
    · cases h
    · split at h
      · cases h; exact ihx hx
      · cases h
  | narrow a x ih =>
    intro al h
    simp only [OffExpr.ty, Option.bind_eq_bind, Option.pure_def] at h
    cases hx : x.ty <;> simp only [hx, Option.bind_some, Option.bind_none] at h
    · cases h
    · split at h
      · rename_i h1; cases h; exact h1.2
      · cases h

theorem offExpr_aligned (c : Cfg) (e : OffExpr) :
    ∀ {al v}, e.ty = some al → e.inRange → e.eval c = .ok (some v) → al ∣ v ∧ v < usizeMod := by
  induction e with
  | tryNew a v =>
    intro al w h hr he
    simp only [OffExpr.eval, tryNew, Res.ok.injEq] at he
    simp only [OffExpr.ty] at h
    split at h
    · cases h
      split at he
      · cases he; exact ⟨Nat.dvd_of_mod_eq_zero (by assumption), hr⟩
      · cases he
    · cases h
  | alignOffset a i =>
    intro al w h hr he
    have hal := offExpr_ty_isAl _ h
    simp only [OffExpr.ty] at h
    split at h
    · cases h
      simp only [OffExpr.eval] at he
      obtain ⟨r, h1, h2⟩ := Res.bind_eq_ok.1 he
      cases h2
      exact alignOffset_dvd hal hr h1
    · cases h
  | bor x y ihx ihy =>
    intro al w h hr he
    have hal := offExpr_ty_isAl _ h
    simp only [OffExpr.ty, Option.bind_eq_bind, Option.pure_def] at h
    cases hx : x.ty with
    | none => simp [hx] at h
    | some a =>
      cases hy : y.ty with
      | none => simp [hx, hy] at h
      | some b =>
        simp only [hx, hy, Option.bind_some, Option.some.injEq] at h
        simp only [OffExpr.eval] at he
        obtain ⟨xv, h1, h2⟩ := Res.bind_eq_ok.1 he
        cases xv with
        | none => cases h2
        | some xv =>
          obtain ⟨yv, h3, h4⟩ := Res.bind_eq_ok.1 h2
          cases yv with
          | none => cases h4
          | some yv =>
            cases h4
            have hx' := ihx hx hr.1 h1
            have hy' := ihy hy hr.2 h3
            subst h
            refine ⟨or_dvd hal (Nat.dvd_trans ?_ hx'.1) (Nat.dvd_trans ?_ hy'.1), ?_⟩
            · exact hal.dvd (offExpr_ty_isAl _ hx) (Nat.min_le_left _ _)
            · exact hal.dvd (offExpr_ty_isAl _ hy) (Nat.min_le_right _ _)
            · exact Nat.or_lt_two_pow (n := 64) hx'.2 hy'.2
  | add x y ihx ihy =>
    intro al w h hr he
    have hal := offExpr_ty_isAl _ h
    simp only [OffExpr.ty, Option.bind_eq_bind, Option.pure_def] at h
    cases hx : x.ty with
    | none => simp [hx] at h
    | some a =>
      cases hy : y.ty with
      | none => simp [hx, hy] at h
      | some b =>
        simp only [hx, hy, Option.bind_some] at h
        split at h
        · rename_i hab
          cases h
          subst hab
          simp only [OffExpr.eval] at he
          obtain ⟨xv, h1, h2⟩ := Res.bind_eq_ok.1 he
          cases xv with
          | none => cases h2
          | some xv =>
            obtain ⟨yv, h3, h4⟩ := Res.bind_eq_ok.1 h2
            cases yv with
            | none => cases h4
            | some yv =>
              obtain ⟨r, h5, h6⟩ := Res.bind_eq_ok.1 h4
              cases h6
              have hx' := ihx hx hr.1 h1
              have hy' := ihy hy hr.2 h3
              unfold uadd at h5
              split at h5
              · cases h5; exact ⟨Nat.dvd_add hx'.1 hy'.1, by assumption⟩
              · split at h5
                · cases h5
                · cases h5
                  exact ⟨mod_usize_dvd hal (Nat.dvd_add hx'.1 hy'.1), Nat.mod_lt _ (by decide)⟩
        · cases h
  | narrow a x ih =>
    intro al w h hr he
    simp only [OffExpr.ty, Option.bind_eq_bind, Option.pure_def] at h
    cases hx : x.ty with
    | none => simp [hx] at h
    | some b =>
      simp only [hx, Option.bind_some] at h
      split at h
      · rename_i h1
        cases h
        have := ih hx hr he
        exact ⟨Nat.dvd_trans (IsAl.dvd h1.2 (offExpr_ty_isAl _ hx) h1.1) this.1, this.2⟩
      · cases h

/-! ### Slices -/

/-- What a reference `&AlignedSlice<A>` promises at least: empty or aligned. -/
def Slice.Promise (al : Nat) (s : Slice) : Prop := s.bytes = [] ∨ al ∣ s.addr

theorem isAligned_iff {s : Slice} {al : Nat} : s.isAligned al = true ↔ al ∣ s.addr := by
  simp [Slice.isAligned, Nat.dvd_iff_mod_eq_zero]

theorem unchecked_ok {c : Cfg} {al : Nat} {s : Slice} (h : s.Promise al) :
    unchecked c al s = .ok s := by
  unfold unchecked
  rcases h with h | h
  · simp [h]
  · simp [isAligned_iff.2 h]

theorem unchecked_eq_ok {c : Cfg} {al : Nat} {s r : Slice} (h : unchecked c al s = .ok r) : r = s := by
  unfold unchecked at h
  split at h
  · cases h
  · cases h; rfl

theorem promise_one (s : Slice) : s.Promise 1 := Or.inr (Nat.one_dvd _)

theorem alignBytes_ok {al : Nat} (h : IsAl al) {s : Slice} (hl : al ≤ s.len + 1) :
    alignBytes al s = .ok ⟨s.addr + gap al s.addr, s.bytes.drop (gap al s.addr)⟩ := by
  have hg := gap_lt h s.addr
  have h2 : gap al s.addr ≤ s.len := by omega
  simp only [alignBytes, Slice.from_, tryAsAligned, markerAlign, uneg_and h]
  rw [if_pos h2]
  simp

theorem emptyAligned_ok {c : Cfg} {al : Nat} (h : IsAl al) :
    emptyAligned c al = .ok ⟨c.spacesAddr + gap al c.spacesAddr, []⟩ := by
  have h8 : al ≤ (⟨c.spacesAddr, List.replicate 8 32⟩ : Slice).len + 1 := by
    simp only [Slice.len, List.length_replicate]
    rcases h with h | h | h | h <;> subst h <;> decide
  have hp : Slice.Promise al ⟨c.spacesAddr + gap al c.spacesAddr, []⟩ := Or.inl rfl
  rw [emptyAligned, alignBytes_ok h h8]
  simp only [Res.bind_ok, idxTo, Slice.to, Nat.zero_le, if_true, List.take_zero]
  exact unchecked_ok hp

/-! ### Slicing steps -/

theorem promise_mono {al al' : Nat} {s : Slice} (h : al' ∣ al) (hp : s.Promise al) : s.Promise al' :=
  hp.imp id (Nat.dvd_trans h)

theorem sub_promise {al : Nat} {s : Slice} {lo hi : Nat} (hp : s.Promise al) (hlo : al ∣ lo) :
    Slice.Promise al ⟨s.addr + lo, Spec.sub s.bytes lo hi⟩ := by
  rcases hp with h | h
  · left; simp [h, Spec.sub]
  · right; exact Nat.dvd_add h hlo

theorem offArg_ok {c : Cfg} {e : OffExpr} {v : Nat} : offArg c e = .ok v ↔ e.eval c = .ok (some v) := by
  unfold offArg
  cases e.eval c with
  | fail f => simp
  | ok o => cases o <;> simp

/-- The tag after a step is an alignment that divides the one promised before, or 1. -/
theorem tag_isAl {al : Nat} (hal : IsAl al) {op : SliceOp} (ht : op.typed al) : IsAl (op.tag al) := by
  cases op <;> simp only [SliceOp.tag] <;> first | exact hal | exact ht.2 | (left; rfl)

theorem window_dvd {c : Cfg} {al len : Nat} {op : SliceOp} (hal : IsAl al) (ht : op.typed al)
    {lo hi : Nat} (hs : Spec.Selects c len op lo hi) : op.tag al ∣ lo := by
  cases op <;> simp only [SliceOp.tag, Spec.Selects, SliceOp.typed] at * <;>
    first
    | (rw [hs.1]; exact Nat.dvd_zero _)
    | exact Nat.one_dvd _
    | (exact (offExpr_aligned c _ ht.1 ht.2.2.1 hs.1).1)
    | (exact (offExpr_aligned c _ ht.1 ht.2 hs.1).1)

theorem tag_dvd {al : Nat} (hal : IsAl al) {op : SliceOp} (ht : op.typed al) : op.tag al ∣ al := by
  cases op <;> simp only [SliceOp.tag] <;>
    first | exact Nat.dvd_refl _ | exact Nat.one_dvd _ | exact IsAl.dvd ht.2 hal ht.1


theorem range_unchecked {c : Cfg} {t : Nat} {s : Slice} (lo hi : Nat) (hp : s.Promise t) (hd : t ∣ lo) :
    (do let r ← s.range lo hi; unchecked c t r) = s.range lo hi := by
  unfold Slice.range
  split
  · rw [Res.bind_ok]
    exact unchecked_ok (sub_promise (hi := hi) hp hd)
  · rfl

theorem range_ok {s s' : Slice} {lo hi : Nat} :
    s.range lo hi = .ok s' ↔ lo ≤ hi ∧ hi ≤ s.len ∧ s' = ⟨s.addr + lo, Spec.sub s.bytes lo hi⟩ := by
  unfold Slice.range Spec.sub
  split
  · rename_i h
    simp only [Res.ok.injEq, h.1, h.2, true_and]
    exact eq_comm
  · rename_i h
    constructor
    · intro h'; cases h'
    · rintro ⟨h1, h2, _⟩; exact absurd ⟨h1, h2⟩ h

theorem to_eq_range (s : Slice) (b : Nat) : s.to b = s.range 0 b := by
  simp [Slice.to, Slice.range]

theorem from_eq_range (s : Slice) (a : Nat) : s.from_ a = s.range a s.len := by
  unfold Slice.from_ Slice.range Slice.len
  by_cases h : a ≤ s.bytes.length
  · rw [if_pos h, if_pos ⟨h, Nat.le_refl _⟩, List.take_of_length_le (Nat.le_refl _)]
  · rw [if_neg h, if_neg (fun h' => h h'.1)]

theorem rangeIncl_eq_range {s : Slice} (h : s.len < 2 ^ 63) (a b : Nat) :
    s.rangeIncl a b = s.range a (b + 1) := by
  unfold Slice.rangeIncl
  split
  · rfl
  · unfold Slice.range
    rw [if_neg]
    rintro ⟨h1, h2⟩
    unfold usizeMod at *
    omega

theorem range_full (s : Slice) : s.range 0 s.len = .ok s := by
  cases s; simp [Slice.range, Slice.len]

theorem splitAt_eq {c : Cfg} {al : Nat} {s : Slice} (hp : s.Promise al) (mid : Nat) :
    splitAt c al s mid =
      (s.range 0 mid >>= fun a => s.range mid s.len >>= fun b => Res.ok (a, b)) := by
  unfold splitAt Slice.range
  split
  · rename_i h
    have := unchecked_ok (c := c) (sub_promise (lo := 0) (hi := mid) hp (Nat.dvd_zero _))
    simp only [Spec.sub, List.drop_zero, Nat.add_zero] at this
    have h' : mid ≤ s.bytes.length := h
    simp [h', this, Slice.len]
  · rename_i h
    simp [h]

/-- On slices that keep their promise every step is just a range of the underlying bytes, and a tag. -/
theorem run_eq {c : Cfg} {al : Nat} {s : Slice} {op : SliceOp} (hal : IsAl al)
    (ht : op.typed al) (hp : s.Promise al) (hlen : s.len < 2 ^ 63) (al' : Nat) (s' : Slice) :
    op.run c al s = .ok (al', s') ↔
      al' = op.tag al ∧ ∃ lo hi, Spec.Selects c s.len op lo hi ∧ s.range lo hi = .ok s' := by
  have h1 := promise_one s
  have z : ∀ n, n ∣ 0 := Nat.dvd_zero
  have pair : ∀ (t lo hi : Nat), ((do let r ← s.range lo hi; pure (t, r)) = Res.ok (al', s')) ↔
      (al' = t ∧ s.range lo hi = .ok s') := by
    intro t lo hi
    cases s.range lo hi with
    | fail f => simp
    | ok r => simp only [Res.bind_ok, Res.pure_eq, Res.ok.injEq, Prod.mk.injEq]; exact ⟨fun h => ⟨h.1.symm, h.2⟩, fun h => ⟨h.1.symm, h.2⟩⟩
  cases op with
  | to b =>
    simp only [SliceOp.run, idxTo, to_eq_range, range_unchecked 0 b hp (z _), pair, SliceOp.tag, Spec.Selects]
    simp [and_assoc]
  | toIncl b =>
    simp only [SliceOp.run, idxToIncl, rangeIncl_eq_range hlen, range_unchecked 0 (b+1) hp (z _), pair, SliceOp.tag,
      Spec.Selects]
    simp [and_assoc]
  | range a b =>
    simp only [SliceOp.run, idxRange, range_unchecked a b h1 (Nat.one_dvd _), pair, SliceOp.tag, Spec.Selects]
    simp [and_assoc]
  | rangeIncl a b =>
    simp only [SliceOp.run, idxRangeIncl, rangeIncl_eq_range hlen, range_unchecked a (b+1) h1 (Nat.one_dvd _), pair,
      SliceOp.tag, Spec.Selects]
    simp [and_assoc]
  | from_ a =>
    simp only [SliceOp.run, idxFrom, from_eq_range, range_unchecked a _ h1 (Nat.one_dvd _), pair,
      SliceOp.tag, Spec.Selects]
    simp [and_assoc]
  | full =>
    simp only [SliceOp.run, SliceOp.tag, Spec.Selects, Res.ok.injEq, Prod.mk.injEq]
    constructor
    · rintro ⟨rfl, rfl⟩; exact ⟨rfl, 0, s.len, ⟨rfl, rfl⟩, range_full s⟩
    · rintro ⟨rfl, lo, hi, ⟨rfl, rfl⟩, h⟩
      rw [range_full] at h; cases h; exact ⟨rfl, rfl⟩
  | narrow n =>
    simp only [SliceOp.run, asAligned, SliceOp.tag, Spec.Selects, Res.bind_ok, Res.pure_eq, Res.ok.injEq, Prod.mk.injEq]
    constructor
    · rintro ⟨rfl, rfl⟩; exact ⟨rfl, 0, s.len, ⟨rfl, rfl⟩, range_full s⟩
    · rintro ⟨rfl, lo, hi, ⟨rfl, rfl⟩, h⟩
      rw [range_full] at h; cases h; exact ⟨rfl, rfl⟩
  | aRange a b =>
    simp only [SliceOp.run, SliceOp.tag, Spec.Selects]
    constructor
    · intro h
      obtain ⟨x, hx, h⟩ := Res.bind_eq_ok.1 h
      obtain ⟨y, hy, h⟩ := Res.bind_eq_ok.1 h
      have hd := (offExpr_aligned c a ht.1 ht.2.2.1 (offArg_ok.1 hx)).1
      simp only [idxARange, range_unchecked x y hp hd, pair] at h
      exact ⟨h.1, x, y, ⟨offArg_ok.1 hx, offArg_ok.1 hy⟩, h.2⟩
    · rintro ⟨rfl, x, y, ⟨hx, hy⟩, h⟩
      have hd := (offExpr_aligned c a ht.1 ht.2.2.1 hx).1
      simp only [offArg_ok.2 hx, offArg_ok.2 hy, Res.bind_ok, idxARange]
      rw [range_unchecked x y hp hd]
      exact (pair _ _ _).2 ⟨rfl, h⟩
  | aRangeIncl a b =>
    simp only [SliceOp.run, SliceOp.tag, Spec.Selects]
    constructor
    · intro h
      obtain ⟨x, hx, h⟩ := Res.bind_eq_ok.1 h
      obtain ⟨y, hy, h⟩ := Res.bind_eq_ok.1 h
      have hd := (offExpr_aligned c a ht.1 ht.2.2.1 (offArg_ok.1 hx)).1
      simp only [idxARangeIncl, rangeIncl_eq_range hlen, range_unchecked x (y+1) hp hd, pair] at h
      exact ⟨h.1, x, y + 1, ⟨offArg_ok.1 hx, y, offArg_ok.1 hy, rfl⟩, h.2⟩
    · rintro ⟨rfl, x, y, ⟨hx, e, hy, rfl⟩, h⟩
      have hd := (offExpr_aligned c a ht.1 ht.2.2.1 hx).1
      simp only [offArg_ok.2 hx, offArg_ok.2 hy, Res.bind_ok, idxARangeIncl, rangeIncl_eq_range hlen]
      rw [range_unchecked x (e+1) hp hd]
      exact (pair _ _ _).2 ⟨rfl, h⟩
  | aFrom a =>
    simp only [SliceOp.run, SliceOp.tag, Spec.Selects]
    constructor
    · intro h
      obtain ⟨x, hx, h⟩ := Res.bind_eq_ok.1 h
      have hd := (offExpr_aligned c a ht.1 ht.2 (offArg_ok.1 hx)).1
      simp only [idxAFrom, from_eq_range, range_unchecked x _ hp hd, pair] at h
      exact ⟨h.1, x, _, ⟨offArg_ok.1 hx, rfl⟩, h.2⟩
    · rintro ⟨rfl, x, y, ⟨hx, rfl⟩, h⟩
      have hd := (offExpr_aligned c a ht.1 ht.2 hx).1
      simp only [offArg_ok.2 hx, Res.bind_ok, idxAFrom, from_eq_range]
      rw [range_unchecked x _ hp hd]
      exact (pair _ _ _).2 ⟨rfl, h⟩
  | splitFst mid =>
    simp only [SliceOp.run, SliceOp.tag, Spec.Selects, splitAt_eq hp]
    constructor
    · intro h
      obtain ⟨p, hp', h⟩ := Res.bind_eq_ok.1 h
      obtain ⟨a, ha, h2⟩ := Res.bind_eq_ok.1 hp'
      obtain ⟨b, hb, h3⟩ := Res.bind_eq_ok.1 h2
      cases h3; cases h
      exact ⟨rfl, 0, mid, ⟨rfl, rfl⟩, ha⟩
    · rintro ⟨rfl, lo, hi, ⟨rfl, rfl⟩, h⟩
      have hle := (range_ok.1 h).2.1
      rw [h, range_ok.2 ⟨hle, Nat.le_refl _, rfl⟩]
      rfl
  | splitSnd mid =>
    simp only [SliceOp.run, SliceOp.tag, Spec.Selects, splitAt_eq hp]
    constructor
    · intro h
      obtain ⟨p, hp', h⟩ := Res.bind_eq_ok.1 h
      obtain ⟨a, ha, h2⟩ := Res.bind_eq_ok.1 hp'
      obtain ⟨b, hb, h3⟩ := Res.bind_eq_ok.1 h2
      cases h3; cases h
      exact ⟨rfl, mid, _, ⟨rfl, rfl⟩, hb⟩
    · rintro ⟨rfl, lo, hi, ⟨rfl, rfl⟩, h⟩
      have hle := (range_ok.1 h).1
      rw [h, range_ok.2 ⟨Nat.zero_le _, hle, rfl⟩]
      rfl

/-! ### Buffers -/

namespace RVec
/-- A vec that can exist: contents within capacity, not at the very end of the address space, and
    not absurdly large. -/
def Valid (v : RVec) : Prop :=
  v.bytes.length ≤ v.cap ∧ v.addr + v.cap + 8 ≤ usizeMod ∧ v.bytes.length ≤ 2 ^ 62
end RVec

/-- An allocator that answers requests of up to 2^62 + 14 bytes with blocks inside the address
    space. -/
def Alloc.Valid (a : Alloc) : Prop :=
  ∀ n, n ≤ 2 ^ 62 + 14 → a.addr n + (n + a.extra n) + 8 ≤ usizeMod

theorem offsetToAlign_ok {c : Cfg} {v : RVec} (h : v.addr + 8 ≤ usizeMod) :
    offsetToAlign c v = .ok (if v.bytes = [] then 0 else gap 8 v.addr) := by
  unfold offsetToAlign
  have hg := gap_lt (al := 8) isAl8 v.addr
  have hd := gap_dvd (al := 8) isAl8 v.addr
  have hu := uneg_and (al := 8) isAl8 v.addr
  simp only [Nat.reduceSub] at hu
  by_cases hb : v.bytes = []
  · simp [hb]
  · have : v.bytes.isEmpty = false := by simp [hb]
    simp only [this, Bool.false_eq_true, if_false, hb, hu]
    split
    · rw [uadd_ok (by omega)]
      simp only [Res.bind_ok, and7]
      rw [if_pos (by omega)]
      rfl
    · rfl

/-- The buffer invariant: empty, or padded up to an 8-byte boundary with something visible after. -/
def AlignedBuf.Inv (b : AlignedBuf) : Prop :=
  b.data.bytes.length ≤ b.data.cap ∧ b.data.addr + b.data.cap + 8 ≤ usizeMod ∧
  b.data.bytes.length ≤ 2 ^ 62 + 7 ∧
  (b.data.bytes = [] ∨ gap 8 b.data.addr < b.data.bytes.length)

/-- The visible bytes. -/
def AlignedBuf.vis (b : AlignedBuf) : Bytes := b.data.bytes.drop (gap 8 b.data.addr)

theorem bufIsAligned_iff (v : RVec) : bufIsAligned v = true ↔ v.bytes = [] ∨ gap 8 v.addr = 0 := by
  rw [gap_eq_zero isAl8]
  simp [bufIsAligned, and7, Nat.dvd_iff_mod_eq_zero]

theorem deref_ok {c : Cfg} {b : AlignedBuf} (h : b.Inv) :
    b.deref c = .ok ⟨if b.data.bytes = [] then b.data.addr else b.data.addr + gap 8 b.data.addr, b.vis⟩ := by
  obtain ⟨h1, h2, h3, h4⟩ := h
  simp only [AlignedBuf.deref, offsetToAlign_ok (show b.data.addr + 8 ≤ usizeMod by omega),
    Res.bind_ok, AlignedBuf.vis]
  by_cases hb : b.data.bytes = []
  · simp only [hb, if_true, Slice.from_, Nat.zero_le, Nat.add_zero, Res.bind_ok, RVec.slice,
      List.drop_nil]
    exact unchecked_ok (Or.inl rfl)
  · have h5 : gap 8 b.data.addr < b.data.bytes.length := by
      rcases h4 with h | h
      · exact absurd h hb
      · exact h
    simp only [hb, if_false, Slice.from_, Slice.len, RVec.slice]
    rw [if_pos (by omega)]
    simp only [Res.bind_ok]
    exact unchecked_ok (Or.inr (gap_dvd isAl8 _))

theorem alignVec_ok {c : Cfg} {a : Alloc} {v : RVec} (ha : a.Valid) (h : v.Valid) :
    ∃ w, alignVec c a v = .ok w ∧ AlignedBuf.Inv ⟨w⟩ ∧ AlignedBuf.vis ⟨w⟩ = v.bytes := by
  obtain ⟨h1, h2, h3⟩ := h
  unfold alignVec
  by_cases hal : bufIsAligned v = true
  · rw [if_pos hal]
    refine ⟨v, rfl, ⟨h1, h2, by simp only; omega, ?_⟩, ?_⟩
    · rcases (bufIsAligned_iff v).1 hal with h | h
      · exact Or.inl h
      · by_cases hb : v.bytes = []
        · exact Or.inl hb
        · right
          have : 0 < v.bytes.length := List.length_pos_iff.2 hb
          simp only [h]; exact this
    · rcases (bufIsAligned_iff v).1 hal with h | h
      · simp [AlignedBuf.vis, h]
      · simp [AlignedBuf.vis, h]
  · rw [if_neg hal]
    have hb : v.bytes ≠ [] := fun h => hal ((bufIsAligned_iff v).2 (Or.inl h))
    have hpos : 0 < v.bytes.length := List.length_pos_iff.2 hb
    -- the vec after `reserve(7)`
    have hw : ∃ w : RVec, v.reserve a 7 = w ∧ w.bytes = v.bytes ∧ v.bytes.length + 7 ≤ w.cap ∧
        w.addr + w.cap + 8 ≤ usizeMod := by
      unfold RVec.reserve
      split
      · exact ⟨v, rfl, rfl, by omega, h2⟩
      · refine ⟨_, rfl, rfl, by simp only; omega, ?_⟩
        exact ha _ (by omega)
    obtain ⟨w, hw1, hw2, hw3, hw4⟩ := hw
    have hg := gap_lt (al := 8) isAl8 w.addr
    have hbw : w.bytes ≠ [] := by rw [hw2]; exact hb
    simp only [alignCold, hw1, offsetToAlign_ok (show w.addr + 8 ≤ usizeMod by omega), if_neg hbw,
      Res.bind_ok]
    rw [uadd_ok (by rw [hw2]; unfold usizeMod; omega)]
    simp only [Res.bind_ok]
    have hr : w.resize a (w.bytes.length + gap 8 w.addr) 0 =
        { w with bytes := w.bytes ++ List.replicate (gap 8 w.addr) 0 } := by
      unfold RVec.resize
      split
      · have : gap 8 w.addr = 0 := by omega
        simp [this]
      · have : w.reserve a (w.bytes.length + gap 8 w.addr - w.bytes.length) = w := by
          unfold RVec.reserve
          rw [if_pos (by rw [hw2]; omega)]
        simp only [this]
        congr 2
        rw [show w.bytes.length + gap 8 w.addr - w.bytes.length = gap 8 w.addr by omega]
    rw [hr]
    unfold RVec.rotateRight
    rw [if_pos (by simp only [List.length_append, List.length_replicate]; omega)]
    refine ⟨_, rfl, ?_, ?_⟩
    · refine ⟨?_, ?_, ?_, ?_⟩
      · simp only [List.length_append, List.length_replicate, List.length_drop, List.length_take, hw2]
        omega
      · exact hw4
      · simp only [List.length_append, List.length_replicate, List.length_drop, List.length_take, hw2]
        omega
      · right
        simp only [List.length_append, List.length_replicate, List.length_drop, List.length_take, hw2]
        omega
    · simp only [AlignedBuf.vis, List.length_append, List.length_replicate, Nat.add_sub_cancel,
        List.drop_left, List.take_left]
      rw [List.drop_append, List.length_replicate, Nat.sub_self, List.drop_replicate, Nat.sub_self]
      simp [hw2]

theorem unalignVec_ok {c : Cfg} {b : AlignedBuf} (h : b.Inv) :
    ∃ w, unalignVec c b.data = .ok w ∧ w.bytes = b.vis ∧ w.addr = b.data.addr ∧ w.cap = b.data.cap := by
  obtain ⟨h1, h2, h3, h4⟩ := h
  unfold unalignVec
  by_cases hal : bufIsAligned b.data = true
  · rw [if_pos hal]
    refine ⟨_, rfl, ?_, rfl, rfl⟩
    rcases (bufIsAligned_iff _).1 hal with h | h
    · simp [AlignedBuf.vis, h]
    · simp [AlignedBuf.vis, h]
  · rw [if_neg hal]
    have hb : b.data.bytes ≠ [] := fun h => hal ((bufIsAligned_iff _).2 (Or.inl h))
    have h5 : gap 8 b.data.addr < b.data.bytes.length := by
      rcases h4 with h | h
      · exact absurd h hb
      · exact h
    simp only [unalignCold, offsetToAlign_ok (show b.data.addr + 8 ≤ usizeMod by omega), if_neg hb,
      Res.bind_ok, RVec.rotateLeft]
    rw [if_pos (by omega)]
    simp only [Res.bind_ok, List.length_append, List.length_drop, List.length_take]
    rw [usub_ok (by omega)]
    simp only [Res.bind_ok, Res.pure_eq]
    refine ⟨_, rfl, ?_, rfl, rfl⟩
    simp only [RVec.truncate, AlignedBuf.vis]
    rw [List.take_append, List.take_of_length_le (by simp only [List.length_drop]; omega)]
    rw [show b.data.bytes.length - gap 8 b.data.addr + min (gap 8 b.data.addr) b.data.bytes.length -
      gap 8 b.data.addr - (b.data.bytes.drop (gap 8 b.data.addr)).length = 0 by
        simp only [List.length_drop]; omega]
    simp

theorem ofSlice_valid {a : Alloc} (ha : a.Valid) {b : Bytes} (hb : b.length ≤ 2 ^ 62) :
    (RVec.ofSlice a b).Valid ∧ (RVec.ofSlice a b).bytes = b := by
  unfold RVec.ofSlice
  split
  · rename_i h
    have : b = [] := by simpa using h
    subst this
    exact ⟨⟨by decide, by decide, by decide⟩, rfl⟩
  · refine ⟨⟨Nat.le_refl _, ?_, hb⟩, rfl⟩
    have := ha b.length (by omega)
    simp only
    omega

end GV
