import Verif.Proofs.Array
import Verif.Proofs.Overflow
/-
Helper lemmas: with overflow checks, reading gives what the specification says or panics with an
overflow, whatever the data.
-/
namespace GV

theorem uadd_chk {c : Cfg} (hov : c.overflowChecks = true) (a b : Nat) :
    uadd c a b = .fail .overflow ∨ (uadd c a b = .ok (a + b) ∧ a + b < usizeMod) := by
  unfold uadd
  split
  · exact Or.inr ⟨rfl, by assumption⟩
  · left; simp [hov]

theorem alignOffset_chk {c : Cfg} (hov : c.overflowChecks = true) {al : Nat} (h : IsAl al) {i : Nat}
    (hi : i < usizeMod) :
    alignOffset c al i = .fail .overflow ∨ alignOffset c al i = .ok (Spec.roundUp i al) := by
  rw [alignOffset_eq h hi]
  split
  · exact Or.inr rfl
  · left; simp [hov]

theorem elemRaw_checked {c : Cfg} (hov : c.overflowChecks = true) {e : Ty} {s : Slice} {body prev stop : Nat}
    (hp : prev < usizeMod) : OvLe (elemRaw c e s body prev stop) (elemAt c e s body prev stop) := by
  by_cases h : prev + Spec.align e < usizeMod
  · rw [elemRaw_eq h]; exact .refl _
  · left
    unfold elemRaw
    rw [alignOf_eq, alignOffset_eq (specAlign_isAl e) hp, if_neg h, if_pos hov]
    rfl

theorem collect_checked {c : Cfg} (hov : c.overflowChecks = true) {e : Ty} {s : Slice}
    (ha : Spec.align e ∣ s.addr) (hl : s.len < 2 ^ 63) (fuel : Nat) :
    ∀ k prev, prev < usizeMod → k ≤ (Spec.arrFrame s.bytes).2.length →
    (Spec.arrFrame s.bytes).2.length < k + fuel →
    OvLe (collectIter c e fuel (iterState s k prev))
      (elemRefs c e s (Spec.arrFrame s.bytes).1 prev ((Spec.arrFrame s.bytes).2.drop k)) := by
  induction fuel with
  | zero =>
    intro k prev _ _ hf
    omega
  | succ fuel ih =>
    intro k prev hp hkl hf
    simp only [collectIter]
    by_cases hk : k < (Spec.arrFrame s.bytes).2.length
    · rw [iterNext_raw ha hl hk hp, List.drop_eq_getElem_cons hk]
      simp only [elemRefs]
      rcases elemRaw_checked (c := c) hov (e := e) (s := s) (body := (Spec.arrFrame s.bytes).1)
        (stop := (Spec.arrFrame s.bytes).2[k]) hp with h | h
      · left; rw [h]; rfl
      · rw [h]
        cases elemAt c e s (Spec.arrFrame s.bytes).1 prev (Spec.arrFrame s.bytes).2[k] with
        | fail f => exact .refl _
        | ok r =>
          simp only [Res.bind_ok]
          exact (ih (k + 1) _ (stops_lt_usize _ _ (List.getElem_mem _)) (by omega) (by omega)).bind
            fun _ => .refl _
    · rw [iterNext_end (by omega), List.drop_of_length_le (by omega)]
      exact .refl _

theorem arrRefs_checked {c : Cfg} (hov : c.overflowChecks = true) {e : Ty} {s : Slice} (hx : Expands e)
    (ha : Spec.align e ∣ s.addr) (hc : castBytes (.A e) s.bytes = s.bytes)
    (hl : Spec.size e = none → s.len < 2 ^ 63) :
    arrRefs c e s = .fail .overflow ∨
    let os := Spec.arrChildren (.crate c.bigEndian) e s.bytes
    (os.any (badChild e) = true → arrRefs c e s = .fail .unwrap) ∧
    (os.any (badChild e) = false →
      ∃ rs, arrRefs c e s = .ok rs ∧ List.Forall₂ (RefFor c s e) os rs) := by
  cases he : Spec.size e with
  | some n =>
    exact Or.inr (arrRefs_tame hx ha hc hl (by rw [he]; intro h; cases h))
  | none =>
    have hl2 := hl he
    unfold arrRefs Spec.arrChildren
    rw [sizeOf_eq, he]
    simp only [intoIter_ok ha hl2, Res.bind_ok]
    have hb := arrFrame_body_le s.bytes
    have hcount : (Spec.arrFrame s.bytes).2.length ≤ (iterState s 0 0).offsets.length := by
      simp only [iterState, List.length_drop, ← arrFrame_count]
      exact Nat.le_mul_of_pos_right _ (arrW_isWidth _).pos
    rcases collect_checked hov ha hl2 ((iterState s 0 0).offsets.length + 1) 0 0 (by decide)
      (Nat.zero_le _) (by omega) with h | h
    · exact Or.inl h
    · right
      rw [h, List.drop_zero]
      exact elemRefs_ok hx he ha hb _ 0

theorem calcOffsets_checked {c : Cfg} (hov : c.overflowChecks = true) {t : Ty} {b : Bytes}
    {k a bb cc nfo f : Nat} {last : Bool}
    (hl : b.length < 2 ^ 63) (hbb : IsAl bb) (hcc : Spec.align t ∣ cc) (hk : k < 2 ^ 50)
    (hn : nfo < 2 ^ 50) (hsum : a + cc < 2 ^ 50)
    (hf : frameBefore b k = some f) (hw : Spec.offsetWidth b.length * nfo ≤ b.length) :
    OvLe (calcOffsets c (alignOf t) b ⟨(k : Int) - 1, a, bb, cc⟩ (sizeOf t) last nfo)
      (.ok (
        let start := Spec.roundUp (f + a) bb + cc
        let stop := match Spec.size t with
          | some n => some (start + n)
          | none => if last then some (b.length - Spec.offsetWidth b.length * nfo) else Spec.frame b k
        match stop with
        | none => none
        | some e => if start ≤ e ∧ e ≤ b.length - Spec.offsetWidth b.length * nfo
            then some (start, e) else none)) := by
  have e1 : ((k : Int) - 1 + 1).toNat = k := by omega
  have e2 : ((k : Int) - 1 + 2).toNat = k + 1 := by omega
  unfold frameBefore at hf
  unfold calcOffsets
  simp only [e1, e2, offsetSize_eq, sizeOf_eq, alignOf_eq, nthLast_ok' hl (n := k) (by omega),
    nthLast_ok' hl (n := k + 1) (by omega), hf, Res.bind_ok]
  rw [umul_ok (by unfold usizeMod; omega)]
  simp only [Res.bind_ok, checkedSub, if_pos hw]
  rcases uadd_chk hov f a with h | ⟨h, hlt⟩ <;> rw [h]
  · exact Or.inl rfl
  simp only [Res.bind_ok]
  rcases alignOffset_chk hov hbb hlt with h | h <;> rw [h]
  · exact Or.inl rfl
  have htn : tryNew (Spec.align t) cc = some cc := by
    simp [tryNew, Nat.mod_eq_zero_of_dvd hcc]
  simp only [Res.bind_ok, htn, Res.unwrap_some]
  rcases uadd_chk hov (Spec.roundUp (f + a) bb) cc with h | ⟨h, _⟩ <;> rw [h]
  · exact Or.inl rfl
  simp only [Res.bind_ok]
  cases hs : Spec.size t with
  | some n =>
    simp only
    rcases uadd_chk hov (Spec.roundUp (f + a) bb + cc) n with h | ⟨h, _⟩ <;> rw [h]
    · exact Or.inl rfl
    simp only [Res.bind_ok, Res.pure_eq]
    right
    split <;> rfl
  | none =>
    right
    simp only
    cases last with
    | true =>
      simp only [if_true, Res.bind_ok, Res.pure_eq]
      split <;> rfl
    | false =>
      simp only [Bool.false_eq_true, if_false, Res.bind_ok, Nat.succ_ne_zero, Nat.add_sub_cancel]
      cases Spec.frame b k with
      | none => rfl
      | some e => simp only [Res.pure_eq]; split <;> rfl

theorem memberRefs_checked {c : Cfg} (hov : c.overflowChecks = true) {s : Slice} {nfo : Nat} (hl : s.len < 2 ^ 63) (hn : nfo < 2 ^ 50)
    (hw : Spec.offsetWidth s.len * nfo ≤ s.len) (ts : List Ty) :
    (∀ t ∈ ts, Expands t) → (∀ t ∈ ts, Spec.align t ∣ s.addr) →
    ∀ (k a b cc f : Nat), IsAl b → k + framesLeft ts ≤ nfo + 1 →
      (ts ≠ [] → k + framesLeft ts ≤ nfo) →
      a + cc + 16 * (Ty.shows ts).length < 2 ^ 50 →
      (ts ≠ [] → frameBefore s.bytes k = some f) →
      let e := s.len - Spec.offsetWidth s.len * nfo
      memberRefs c s nfo ts (tableLoop ⟨(k : Int) - 1, a, b, cc⟩ ts) = .fail .overflow ∨
      ∃ rs, memberRefs c s nfo ts (tableLoop ⟨(k : Int) - 1, a, b, cc⟩ ts) = .ok rs ∧
        RefsFor c s ts
          (Spec.membersFrom s.bytes e (some e) (some (Spec.roundUp (f + a) b + cc)) k ts) rs := by
  induction ts with
  | nil => intro _ _ k a b cc f _ _ _ _ _; exact Or.inr ⟨[], rfl, trivial⟩
  | cons t ts ih =>
    intro hx ha k a b cc f hb hk1 hk hsum hf
    have hx' : ∀ u ∈ ts, Expands u := fun u hu => hx u (by simp [hu])
    have ha' : ∀ u ∈ ts, Spec.align u ∣ s.addr := fun u hu => ha u (by simp [hu])
    have hxt := hx t (by simp)
    have hat := ha t (by simp)
    have hk := hk (by simp)
    have hf := hf (by simp)
    have hl' : s.bytes.length < 2 ^ 63 := hl
    obtain ⟨a', b', c', hb', hle, hd, hst, hbound, hpos⟩ := tableStep f t ((k : Int) - 1) (a := a) (c := cc) hb
    simp only [Ty.shows, List.length_append] at hsum
    have hshow := show_pos t
    have hcalc := calcOffsets_checked hov (t := t) (b := s.bytes) (k := k) (a := a') (bb := b') (cc := c')
      (nfo := nfo) (f := f) (last := ts.isEmpty) hl' hb' hd (by omega) hn (by omega)
      hf hw
    rw [hpos] at hcalc
    rcases hcalc with hcalc | hcalc
    · left
      simp only [tableLoop, hst, memberRefs, getChildElem, hcalc, Res.bind_fail]
    -- the reference to this member
    have hmem : ∀ (stop : Option Nat) (o : Option (Nat × Nat)),
        o = (match stop with
            | none => none
            | some e => if Spec.roundUp (Spec.roundUp (f + a) b + cc) (Spec.align t) ≤ e ∧
                e ≤ s.len - Spec.offsetWidth s.len * nfo
                then some (Spec.roundUp (Spec.roundUp (f + a) b + cc) (Spec.align t), e) else none) →
        calcOffsets c (alignOf t) s.bytes ⟨(k : Int) - 1, a', b', c'⟩ (sizeOf t) ts.isEmpty nfo = .ok o →
        ∃ r, getChildElem c t s ⟨(k : Int) - 1, a', b', c'⟩ ts.isEmpty nfo = .ok r ∧
          RefFor c s t (stop.bind fun e => Spec.place s.bytes (s.len - Spec.offsetWidth s.len * nfo)
            (Spec.roundUp (Spec.roundUp (f + a) b + cc) (Spec.align t)) e) r := by
      intro stop o ho hcalc
      unfold getChildElem
      rw [hcalc, Res.bind_ok, ho]
      cases stop with
      | none => exact default_refFor s hxt
      | some e =>
        simp only [Option.bind_some, Spec.place]
        by_cases h : Spec.roundUp (Spec.roundUp (f + a) b + cc) (Spec.align t) ≤ e ∧
                e ≤ s.len - Spec.offsetWidth s.len * nfo
        · simp only [if_pos h]
          exact window_refFor hxt hat (roundUp_dvd _ _) h.1 (by omega)
        · simp only [if_neg h]
          exact default_refFor s hxt
    simp only [tableLoop, hst, memberRefs, Spec.membersFrom, Option.map_some, Option.bind_some]
    rw [sizeOf_eq] at hmem hcalc ⊢
    cases hs : Spec.size t with
    | some n =>
      have hsb := size_bound t n hs
      rw [hs] at hmem hcalc
      obtain ⟨r, hr, hr'⟩ :=
        hmem (some (Spec.roundUp (Spec.roundUp (f + a) b + cc) (Spec.align t) + n)) _ rfl hcalc
      have hfl : framesLeft (t :: ts) = framesLeft ts := by simp [framesLeft, hs]
      rw [hfl] at hk1 hk
      rcases ih hx' ha' k a' b' (c' + n) f hb' hk1 (fun _ => hk) (by omega) (fun _ => hf) with hrs | ⟨rs, hrs, hrs'⟩
      · left; simp only [hr, hrs, Res.bind_ok, Res.bind_fail]
      rw [← Nat.add_assoc, hpos] at hrs'
      exact Or.inr ⟨r :: rs, by simp only [hr, hrs, Res.bind_ok, Res.pure_eq], hr', hrs'⟩
    | none =>
      rw [hs] at hmem hcalc
      have hki : (k : Int) - 1 + 1 = ((k + 1 : Nat) : Int) - 1 := by omega
      simp only [hki]
      by_cases hts : ts = []
      · subst hts
        obtain ⟨r, hr, hr'⟩ := hmem (some (s.len - Spec.offsetWidth s.len * nfo)) _ rfl hcalc
        simp only [tableLoop, memberRefs, Spec.membersFrom]
        exact Or.inr ⟨[r], by simp only [hr, Res.bind_ok, Res.pure_eq], by simpa using hr', trivial⟩
      · have hfl : framesLeft (t :: ts) = 1 + framesLeft ts := by simp [framesLeft, hs, hts]
        rw [hfl] at hk1 hk
        have hex : ∃ g, Spec.frame s.bytes k = some g := by
          unfold Spec.frame
          simp only
          rw [if_pos]
          · exact ⟨_, rfl⟩
          · have h1 : (k + 1) * Spec.offsetWidth s.len ≤ nfo * Spec.offsetWidth s.len :=
              Nat.mul_le_mul_right _ (by omega)
            rw [Nat.mul_comm nfo] at h1
            exact Nat.le_trans h1 hw
        obtain ⟨g, hg⟩ := hex
        have hemp : ts.isEmpty = false := by simpa using hts
        rw [hg, hemp] at hcalc
        rw [hemp] at hmem
        obtain ⟨r, hr, hr'⟩ := hmem (some g) _ rfl hcalc
        rcases ih hx' ha' (k + 1) 0 1 0 g (Or.inl rfl) (by omega) (fun _ => by omega)
          (by omega) (fun _ => by simp [frameBefore, hg]) with hrs | ⟨rs, hrs, hrs'⟩
        · left; simp only [hemp, hr, hrs, Res.bind_ok, Res.bind_fail]
        simp only [hemp, if_false, hts, hg]
        have hp1 : Spec.roundUp (g + 0) 1 + 0 = g := by simp [Spec.roundUp]
        rw [hp1] at hrs'
        exact Or.inr ⟨r :: rs, by simp only [hr, hrs, Res.bind_ok, Res.pure_eq], by simpa using hr', hrs'⟩

theorem tupRefs_checked {c : Cfg} (hov : c.overflowChecks = true) {gv : Ty} {ts : List Ty} {s : Slice}
    (hgv : Spec.size gv = Spec.size (.tuple ts)) (hx : ∀ t ∈ ts, Expands t)
    {d} (hd : generateTuple gv ts = .ok d) (hsm : (Ty.shows ts).length < 2 ^ 40)
    (ha : Spec.alignMax ts ∣ s.addr) (hc : castBytes (.tuple ts) s.bytes = s.bytes)
    (hl : Spec.size (.tuple ts) = none → s.len < 2 ^ 63) :
    tupRefs c gv ts s = .fail .overflow ∨
    ∃ rs, tupRefs c gv ts s = .ok rs ∧
      RefsFor c s ts (Spec.memberChildren (.crate c.bigEndian) ts s.bytes) rs := by
  cases hs : Spec.size (.tuple ts) with
  | some n =>
    refine Or.inr (tupRefs_tame hgv hx hd hsm ha hc hl ?_)
    intro i o hi
    rw [frameCount_fixed hs] at hi
    omega
  | none =>
    have ha' : ∀ t ∈ ts, Spec.align t ∣ s.addr := fun t ht =>
      Nat.dvd_trans ((specAlign_isAl t).dvd (alignMax_isAl ts) (alignMax_ge ht)) ha
    have hl := hl hs
    have hnl := shows_length_ge ts
    have hfl := framesLeft_le ts
    unfold tupRefs Spec.memberChildren
    rw [sizeOf_eq, hgv, hs]
    simp only
    obtain ⟨cmds, hc⟩ := serLoop_ok (nFrameOffsets ts) ts 0 8 0 0 (by rw [nFrameOffsets_eq]; omega)
    have hp : writeNonFixedSizeStructure ts = .ok ⟨generateTable ts, nFrameOffsets ts, cmds⟩ := by
      simp [writeNonFixedSizeStructure, hc]
    simp only [hp, Res.bind_ok, nFrameOffsets_eq, Spec.Rules.crate, if_true, Spec.bodyEnd, frameCount_eq]
    by_cases hw : Spec.offsetWidth s.bytes.length * framesLeft ts ≤ s.bytes.length
    · rw [if_pos hw]
      have := memberRefs_checked hov (s := s) hl (by omega) hw ts hx ha' 0 0 1 0 0 (Or.inl rfl)
        (by omega) (fun _ => by omega) (by omega) (fun _ => rfl)
      exact this
    · rw [if_neg hw]
      exact Or.inr (memberRefs_short (c := c) hl (by omega) (by simpa [Slice.len] using hw) ts hx _ (by simp)
        (by simp only; omega))

/-- What reading a reference to a value of type `t` gives in a build with overflow checks. -/
def ViewChk (c : Cfg) (t : Ty) : Prop :=
  ∀ r : Slice, Spec.align t ∣ r.addr → castBytes t r.bytes = r.bytes →
    (Spec.size t = none → r.len < 2 ^ 63) →
    OvLe (view c t r) (guardRag (Spec.ragged (.crate c.bigEndian) t r.bytes)
      (Spec.dec (.crate c.bigEndian) t r.bytes))

theorem child_checked {c : Cfg} {s : Slice} {t : Ty} {o : Option Bytes} {r : Slice} (ih : ViewChk c t)
    (h : RefFor c s t o r) (hl : Spec.size t = none → s.len < 2 ^ 63) :
    OvLe (view c t r)
      (guardRag (raggedChild (.crate c.bigEndian) t o) (decChild (.crate c.bigEndian) t o)) := by
  obtain ⟨h1, h2, h3⟩ := h
  have hlen : Spec.size t = none → r.len < 2 ^ 63 := by
    intro hs
    rcases h3 with ⟨lo, hi, _, _, rfl⟩ | h3
    · have := sub_length_le' s.bytes lo hi
      have := hl hs
      simp only [Slice.len] at *
      omega
    · simp [Slice.len, h3.1, dfltBytes, hs]
  have := ih r h1 (by rw [h2]; exact castBytes_idem _ _) hlen
  rw [h2] at this
  cases o with
  | some x =>
    simpa only [Option.getD_some, raggedChild, decChild, dec_castBytes] using this
  | none =>
    simpa only [Option.getD_none, raggedChild, decChild, dec_castBytes, dec_dfltBytes] using this

theorem traverse_checked {c : Cfg} {s : Slice} {t : Ty} (ih : ViewChk c t)
    (hl : Spec.size t = none → s.len < 2 ^ 63) {os : List (Option Bytes)} {rs : List Slice}
    (h : List.Forall₂ (RefFor c s t) os rs) :
    OvLe (Res.traverse (view c t) rs) (guardRag (os.any (raggedChild (.crate c.bigEndian) t))
      (os.map (decChild (.crate c.bigEndian) t))) := by
  induction h with
  | nil => exact .refl _
  | @cons o r os rs h1 h2 ih2 =>
    rw [Res.traverse]
    rcases child_checked ih h1 hl with h | h <;> rw [h]
    · exact Or.inl rfl
    simp only [List.any_cons, List.map_cons, guardRag]
    cases raggedChild (.crate c.bigEndian) t o with
    | true => exact .refl _
    | false =>
      rcases ih2 with h | h <;> rw [h]
      · exact Or.inl rfl
      · right
        simp only [guardRag]
        cases os.any (raggedChild (.crate c.bigEndian) t) <;> simp

theorem viewAll_checked {c : Cfg} {s : Slice} (ts : List Ty) :
    (∀ t ∈ ts, ViewChk c t) → (∀ t ∈ ts, Spec.size t = none → s.len < 2 ^ 63) →
    ∀ (os : List (Option Bytes)) (rs : List Slice), RefsFor c s ts os rs →
    OvLe (viewAll c ts rs) (guardRag (Spec.raggedAny (.crate c.bigEndian) ts os)
      (Spec.decAll (.crate c.bigEndian) ts os)) := by
  induction ts with
  | nil =>
    intro _ _ os rs h
    cases os <;> cases rs <;> simp only [RefsFor] at h
    rw [viewAll]; exact .refl _
  | cons t ts ih =>
    intro hv hl os rs h
    cases os with
    | nil => cases rs <;> simp only [RefsFor] at h
    | cons o os =>
      cases rs with
      | nil => simp only [RefsFor] at h
      | cons r rs =>
        obtain ⟨h1, h2⟩ := h
        rw [viewAll, raggedAny_cons, decAll_cons]
        rcases child_checked (hv t (by simp)) h1 (hl t (by simp)) with h | h <;> rw [h]
        · exact Or.inl rfl
        simp only [guardRag]
        cases raggedChild (.crate c.bigEndian) t o with
        | true => exact .refl _
        | false =>
          rcases ih (fun u hu => hv u (by simp [hu])) (fun u hu => hl u (by simp [hu])) os rs h2 with h | h <;>
            rw [h]
          · exact Or.inl rfl
          · right
            simp only [guardRag]
            cases Spec.raggedAny (.crate c.bigEndian) ts os <;> simp

theorem view_checked (c : Cfg) (hov : c.overflowChecks = true) (t : Ty) :
    Expands t → Small t → ViewChk c t := by
  have leaf : ∀ t : Ty, (∀ b, Spec.Tame (.crate c.bigEndian) t b) → Expands t → Small t → ViewChk c t := by
    intro t ht hx hsm r ha hc hl
    exact Or.inr (view_ok c t hx hsm r ha hc hl (ht _))
  induction t using Ty.ind with
  | a e ih =>
    intro hx hsm r ha hc hl
    have hx' := expands_A.1 hx
    have ha' : Spec.align e ∣ r.addr := by simpa [Spec.align] using ha
    have hl' : Spec.size e = none → r.len < 2 ^ 63 := fun _ => hl (by simp [Spec.size])
    rw [view, ragged_A, dec_A]
    rcases arrRefs_checked (c := c) hov hx' ha' hc hl' with h | ⟨h1, h2⟩
    · left; rw [h]; rfl
    cases hb : (Spec.arrChildren (.crate c.bigEndian) e r.bytes).any (badChild e) with
    | true => right; rw [h1 hb]; rfl
    | false =>
      obtain ⟨rs, h3, h4⟩ := h2 hb
      rw [h3, Res.bind_ok]
      rcases traverse_checked (ih hx' hsm.A) hl' h4 with h | h <;> rw [h]
      · exact Or.inl rfl
      right
      simp only [Bool.false_or, guardRag]
      split <;> rfl
  | m e ih =>
    intro hx hsm r ha hc hl
    have hx' := expands_M.1 hx
    have ha' : Spec.align e ∣ r.addr := by simpa [Spec.align] using ha
    have hl' : r.len < 2 ^ 63 := hl (by simp [Spec.size])
    have h := toOption_ok (c := c) hx' ha' (Nat.lt_trans hl' (by decide))
    rw [view, Spec.ragged, dec_M]
    cases hm : Spec.maybeChild e r.bytes with
    | none => rw [hm] at h; simp only at h; rw [h]; exact .refl _
    | some x =>
      rw [hm] at h
      obtain ⟨h1, h2⟩ := h
      simp only
      cases hb : Spec.badSize e x with
      | true => rw [h1 hb]; exact .refl _
      | false =>
        obtain ⟨r', h3, h4⟩ := h2 hb
        rw [h3, Res.bind_ok]
        simp only
        rcases child_checked (ih hx' hsm.M) h4 (fun _ => hl') with h | h <;> rw [h]
        · exact Or.inl rfl
        right
        rw [show raggedChild (.crate c.bigEndian) e (some x) = Spec.ragged (.crate c.bigEndian) e x from rfl]
        simp only [Bool.false_or, guardRag, decChild]
        by_cases hr : Spec.ragged (.crate c.bigEndian) e x = true
        · rw [if_pos hr, if_pos hr]; rfl
        · rw [if_neg hr, if_neg hr]; rfl
  | tuple ts ih =>
    intro hx hsm r ha hc hl
    obtain ⟨hx', d, hd⟩ := expands_tuple.1 hx
    rw [view, Spec.ragged, Spec.dec]
    rcases tupRefs_checked (c := c) hov rfl hx' hd hsm.shows (by simpa [Spec.align] using ha) hc hl
      with h | ⟨rs, h1, h2⟩
    · left; rw [h]; rfl
    rw [h1, Res.bind_ok]
    rcases viewAll_checked ts
      (fun t ht => ih t ht (hx' t ht) (by have := shows_ge ht; have := hsm.shows; unfold Small; omega))
      (fun t ht hs => hl (members_nonfixed ht hs)) _ rs h2 with h | h <;> rw [h]
    · exact Or.inl rfl
    right
    simp only [guardRag]
    split <;> rfl
  | dict k v ihk ihv =>
    intro hx hsm r ha hc hl
    obtain ⟨⟨hxk, hxv⟩, d, hd⟩ := expands_dict.1 hx
    have hx' : ∀ t ∈ [k, v], Expands t := by
      intro t ht
      simp only [List.mem_cons, List.not_mem_nil, or_false] at ht
      rcases ht with rfl | rfl
      · exact hxk
      · exact hxv
    rw [castBytes_dict] at hc
    rw [size_dict_eq] at hl
    have hsm' := hsm.dict
    have hv : ∀ t ∈ [k, v], ViewChk c t := by
      intro t ht
      have := shows_ge ht
      have hs : Small t := by unfold Small; omega
      simp only [List.mem_cons, List.not_mem_nil, or_false] at ht
      rcases ht with rfl | rfl
      · exact ihk hxk hs
      · exact ihv hxv hs
    rw [view, ragged_dict, dec_dict, Spec.ragged, Spec.dec]
    rcases tupRefs_checked (c := c) hov (size_dict_eq k v) hx' hd hsm'
      (by rw [align_dict_eq] at ha; simpa only [Spec.align] using ha) hc hl with h | ⟨rs, h1, h2⟩
    · left; rw [h]; rfl
    have h3 := viewAll_checked [k, v] hv (fun t ht hs => hl (members_nonfixed ht hs)) _ rs h2
    rw [h1, Res.bind_ok]
    have hlen := memberChildren_length (.crate c.bigEndian) [k, v] r.bytes
    match hm : Spec.memberChildren (.crate c.bigEndian) [k, v] r.bytes, rs, h2, h3, hlen with
    | [x, y], [rk, rv], _, h3, _ =>
      simp only
      rw [viewAll, viewAll, viewAll] at h3
      cases hk : view c k rk with
      | fail f =>
        rw [hk] at h3
        simp only [Res.bind_fail, guardRag, OvLe] at h3 ⊢
        rcases h3 with h3 | h3
        · cases h3; exact Or.inl rfl
        right
        split at h3
        · rename_i hr; rw [if_pos hr]; cases h3; rfl
        · cases h3
      | ok a =>
        cases hv : view c v rv with
        | fail f =>
          rw [hk, hv] at h3
          simp only [Res.bind_fail, Res.bind_ok, guardRag, OvLe] at h3 ⊢
          rcases h3 with h3 | h3
          · cases h3; exact Or.inl rfl
          right
          split at h3
          · rename_i hr; rw [if_pos hr]; cases h3; rfl
          · cases h3
        | ok b =>
          rw [hk, hv] at h3
          simp only [Res.bind_ok, guardRag, Res.pure_eq, OvLe] at h3 ⊢
          rcases h3 with h3 | h3
          · cases h3
          right
          split at h3
          · cases h3
          · rename_i hr
            rw [if_neg hr]
            cases h3
            rfl
  | _ => exact leaf _ fun b => by simp [Spec.Tame]

/-- With overflow checks, reading gives the value of the specification, panics because of a ragged
    array, or panics with an overflow; the latter only if the data is not tame. -/
theorem readAs_checked {c : Cfg} (hov : c.overflowChecks = true) {t : Ty} {s : Slice} (hx : Expands t)
    (hsm : Small t) (ha : Spec.align t ∣ s.addr) (hl : s.len < 2 ^ 63) :
    OvLe (readAs c t s) (if Spec.ragged (.crate c.bigEndian) t s.bytes = true then .fail .unwrap
      else .ok (Spec.dec (.crate c.bigEndian) t s.bytes)) := by
  obtain ⟨r, h1, h2, h3, h4⟩ := fromAligned_ok (c := c) hx ha
  have hlen : Spec.size t = none → r.len < 2 ^ 63 := by
    intro hs
    rcases h4 with rfl | h4
    · exact hl
    · simp [Slice.len, h4.1, dfltBytes, hs]
  unfold readAs
  have := view_checked c hov t hx hsm r h2 (by rw [h3]; exact castBytes_idem _ _) hlen
  rw [h3, (dec_castBytes _ t _).1, (dec_castBytes _ t _).2] at this
  rw [h1, Res.bind_ok]
  exact this

end GV
