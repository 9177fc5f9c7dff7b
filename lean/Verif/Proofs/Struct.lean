import Verif.Proofs.Children
/-
Helper lemmas: the references to the members of structures.
-/
namespace GV

/-! ### Size bounds -/

theorem endAfter_bound {ts : List Ty} (h : ∀ t ∈ ts, ∀ n, Spec.size t = some n → n + 8 ≤ 16 * t.show.length) :
    ∀ pos e, Spec.endAfter pos ts = some e → e ≤ pos + 16 * (Ty.shows ts).length := by
  induction ts with
  | nil => intro pos e he; simp only [Spec.endAfter, Option.some.injEq] at he; omega
  | cons t ts ih =>
    intro pos e he
    simp only [Spec.endAfter] at he
    cases hs : Spec.size t with
    | none => simp [hs] at he
    | some n =>
      simp only [hs] at he
      have h1 := ih (fun u hu => h u (by simp [hu])) _ _ he
      have h2 := h t (by simp) n hs
      have h3 := roundUp_lt (specAlign_isAl t).pos pos
      have h4 : Spec.align t ≤ 8 := by rcases specAlign_isAl t with h | h | h | h <;> omega
      simp only [Ty.shows, List.length_append]
      omega

theorem size_tuple_bound {ts : List Ty}
    (h : ∀ t ∈ ts, ∀ n, Spec.size t = some n → n + 8 ≤ 16 * t.show.length) {n : Nat}
    (hn : Spec.size (.tuple ts) = some n) : n + 8 ≤ 16 * ((Ty.shows ts).length + 2) := by
  obtain ⟨e, he, _, hn⟩ := size_tuple_members hn
  have h1 := endAfter_bound h 0 e he
  have h3 := roundUp_lt (alignMax_isAl ts).pos e
  have h4 : Spec.alignMax ts ≤ 8 := by rcases alignMax_isAl ts with h | h | h | h <;> omega
  split at hn <;> omega

theorem size_bound (t : Ty) : ∀ n, Spec.size t = some n → n + 8 ≤ 16 * t.show.length := by
  induction t using Ty.ind with
  | tuple ts ih =>
    intro n hn
    have := size_tuple_bound ih hn
    simp only [Ty.show, List.length_cons, List.length_append, List.length_nil]
    omega
  | dict k v ihk ihv =>
    intro n hn
    rw [size_dict_eq] at hn
    have := size_tuple_bound (ts := [k, v]) (by
      intro t ht
      simp only [List.mem_cons, List.not_mem_nil, or_false] at ht
      rcases ht with rfl | rfl
      · exact ihk
      · exact ihv) hn
    simp only [Ty.show, List.length_cons, List.length_append, List.length_nil]
    simp only [Ty.shows, List.length_append, List.length_nil] at this
    omega
  | a e ih => intro n h; simp [Spec.size] at h
  | m e ih => intro n h; simp [Spec.size] at h
  | _ => intro n h; simp only [Spec.size, reduceCtorEq, Option.some.injEq] at h <;> simp [Ty.show] <;> omega

theorem show_pos (t : Ty) : 0 < t.show.length := by
  cases t <;> simp [Ty.show]

theorem shows_length_ge (ts : List Ty) : ts.length ≤ (Ty.shows ts).length := by
  induction ts with
  | nil => simp
  | cons t ts ih =>
    have := show_pos t
    simp only [Ty.shows, List.length_append, List.length_cons]; omega

theorem framesLeft_le (ts : List Ty) : framesLeft ts ≤ ts.length := by
  induction ts with
  | nil => simp [framesLeft]
  | cons t ts ih => simp only [framesLeft, List.length_cons]; split <;> omega

theorem frameCount_eq (ts : List Ty) : Spec.frameCount ts = framesLeft ts := by
  induction ts with
  | nil => rfl
  | cons t ts ih =>
    cases ts with
    | nil => simp [Spec.frameCount, framesLeft]
    | cons u us =>
      unfold Spec.frameCount at ih ⊢
      rw [List.dropLast_cons₂, List.filter_cons, framesLeft, ← ih]
      by_cases h : (Spec.size t).isNone = true
      · simp [h]; omega
      · simp [h]

/-! ### Framing offsets of structures -/

theorem offsetSize_lt (n : Nat) : Spec.offsetWidth n ≤ 8 := by
  unfold Spec.offsetWidth
  repeat' split
  all_goals omega

theorem nthLast_ok {c : Cfg} {b : Bytes} {n : Nat} (hl : b.length < 2 ^ 63) (hn : n < 2 ^ 60) :
    nthLastFrameOffset c b (offsetSize b.length) n =
      .ok (if n = 0 then some 0 else Spec.frame b (n - 1)) := by
  have hw8 := offsetSize_lt b.length
  unfold nthLastFrameOffset
  rw [offsetSize_eq]
  by_cases h0 : n = 0
  · simp [h0]
  · have hmul : n * Spec.offsetWidth b.length ≤ n * 8 := Nat.mul_le_mul_left _ hw8
    rw [if_neg h0, if_neg h0, umul_ok (by unfold usizeMod; omega)]
    simp only [Res.bind_ok, checkedSub, Spec.frame]
    rw [show n - 1 + 1 = n by omega]
    by_cases h : n * Spec.offsetWidth b.length ≤ b.length
    · rw [if_pos h, if_pos h]
      simp only
      by_cases hb : b.length = 0
      · have hb' : b = [] := List.length_eq_zero_iff.1 hb
        subst hb'
        simp only [List.length_nil, offsetWidth_zero, readUint, Nat.zero_mul, Nat.mul_zero,
          Nat.sub_self, List.drop_nil]
        rw [umul_ok (by simp [usizeMod])]
        simp [Spec.sub, Spec.le]
      · have hw := offsetWidth_isWidth hb
        have hsplit : n * Spec.offsetWidth b.length =
            (n - 1) * Spec.offsetWidth b.length + Spec.offsetWidth b.length := by
          rw [← Nat.succ_mul, show (n - 1).succ = n by omega]
        rw [readUint_ok hw (by simp only [List.length_drop]; omega)
          (by simp only [List.length_drop]; omega), sub_drop]
        simp only [Res.bind_ok, Res.pure_eq, Res.ok.injEq, Option.some.injEq]
        congr 2 <;> omega
    · rw [if_neg h, if_neg h]
      rfl

theorem nthLast_ok' {c : Cfg} {b : Bytes} {n : Nat} (hl : b.length < 2 ^ 63) (hn : n < 2 ^ 60) :
    nthLastFrameOffset c b (Spec.offsetWidth b.length) n =
      .ok (if n = 0 then some 0 else Spec.frame b (n - 1)) := by
  rw [← offsetSize_eq]; exact nthLast_ok hl hn

theorem frame_lt {b : Bytes} {k f : Nat} (hl : b.length < 2 ^ 32) (h : Spec.frame b k = some f) :
    f < 2 ^ 32 := by
  unfold Spec.frame at h
  simp only at h
  split at h
  · cases h
    have h1 := sub_length_le b (b.length - (k + 1) * Spec.offsetWidth b.length)
      (b.length - k * Spec.offsetWidth b.length)
    have h2 := offsetWidth_le4 hl
    have h3 : (k + 1) * Spec.offsetWidth b.length =
        k * Spec.offsetWidth b.length + Spec.offsetWidth b.length := Nat.succ_mul _ _
    have := le_lt_of_length (w := 4) (b := Spec.sub b (b.length - (k + 1) * Spec.offsetWidth b.length)
      (b.length - k * Spec.offsetWidth b.length)) (by omega)
    simpa using this
  · cases h

/-! ### One step of the addressing table -/

theorem tableStep (f : Nat) (t : Ty) (i : Int) {a b c : Nat} (hb : IsAl b) :
    ∃ a' b' c', IsAl b' ∧ Spec.align t ≤ b' ∧ Spec.align t ∣ c' ∧
      (if alignOf t ≤ b then (⟨i, a, b, align c (alignOf t)⟩ : Row)
        else ⟨i, a + align c b, alignOf t, 0⟩) = ⟨i, a', b', c'⟩ ∧
      a' + c' ≤ a + c + 7 ∧
      Spec.roundUp (f + a') b' + c' =
        Spec.roundUp (Spec.roundUp (f + a) b + c) (Spec.align t) := by
  have hal := specAlign_isAl t
  have h8 : Spec.align t ≤ 8 := by rcases hal with h | h | h | h <;> omega
  have hb8 : b ≤ 8 := by rcases hb with h | h | h | h <;> omega
  rw [alignOf_eq]
  by_cases hle : Spec.align t ≤ b
  · refine ⟨a, b, Spec.roundUp c (Spec.align t), hb, hle, roundUp_dvd _ _, ?_, ?_, ?_⟩
    · simp [hle, align_eq hal]
    · have := roundUp_lt hal.pos c; omega
    · rw [roundUp_add_dvd hal.pos (Nat.dvd_trans (hal.dvd hb hle) (roundUp_dvd _ _))]
  · refine ⟨a + Spec.roundUp c b, Spec.align t, 0, hal, Nat.le_refl _, Nat.dvd_zero _, ?_, ?_, ?_⟩
    · simp [hle, align_eq hb]
    · have := roundUp_lt hb.pos c; omega
    · have hd : b ∣ Spec.align t := hb.dvd hal (by omega)
      rw [← roundUp_roundUp (n := _ + c) hb.pos hal.pos hd,
        roundUp_add_dvd hb.pos (roundUp_dvd _ _), ← Nat.add_assoc, Nat.add_zero,
        ← roundUp_roundUp (n := _ + Spec.roundUp c b) hb.pos hal.pos hd,
        Nat.add_comm _ (Spec.roundUp c b), roundUp_add_dvd hb.pos (roundUp_dvd _ _),
        Nat.add_comm (Spec.roundUp c b)]

/-- The references to the members, one for each type and byte sequence. -/
def RefsFor (c : Cfg) (s : Slice) : List Ty → List (Option Bytes) → List Slice → Prop
  | [], [], [] => True
  | t :: ts, o :: os, r :: rs => RefFor c s t o r ∧ RefsFor c s ts os rs
  | _, _, _ => False

theorem default_refFor {c : Cfg} {t : Ty} (s : Slice) (hx : Expands t) :
    ∃ r, defaultRef c t = .ok r ∧ RefFor c s t none r := by
  obtain ⟨r, h1, h2, h3⟩ := defaultRef_ok (c := c) hx
  exact ⟨r, h1, h2, by simp [h3.1, castBytes_dflt], Or.inr h3⟩

theorem window_refFor {c : Cfg} {t : Ty} {s : Slice} {start stop : Nat} (hx : Expands t)
    (ha : Spec.align t ∣ s.addr) (hs : Spec.align t ∣ start) (h1 : start ≤ stop) (h2 : stop ≤ s.len) :
    ∃ r, (window c (alignOf t) s start stop >>= fun d => fromAligned c t d) = .ok r ∧
      RefFor c s t (some (Spec.sub s.bytes start stop)) r := by
  rw [alignOf_eq, window_ok ha hs h1 h2, Res.bind_ok]
  obtain ⟨r, h3, h4, h5, h6⟩ := fromAligned_ok (c := c) (s := ⟨s.addr + start, Spec.sub s.bytes start stop⟩)
    hx (Nat.dvd_add ha hs)
  refine ⟨r, h3, h4, h5, h6.imp (fun h => ⟨start, stop, h1, h2, h⟩) id⟩

/-- Where a member starts, as the code computes it. -/
def frameBefore (b : Bytes) (k : Nat) : Option Nat := if k = 0 then some 0 else Spec.frame b (k - 1)

theorem calcOffsets_short {c : Cfg} {al : Nat} {b : Bytes} {row : Row} {size : Option Nat}
    {last : Bool} {nfo : Nat} (hl : b.length < 2 ^ 63) (hi : -1 ≤ row.i) (hi' : row.i < 2 ^ 59)
    (hn : nfo < 2 ^ 60) (h : b.length < Spec.offsetWidth b.length * nfo) :
    calcOffsets c al b row size last nfo = .ok none := by
  have hw8 := offsetSize_lt b.length
  have hmul : Spec.offsetWidth b.length * nfo ≤ 8 * nfo := Nat.mul_le_mul_right _ hw8
  unfold calcOffsets
  simp only [nthLast_ok hl (n := (row.i + 1).toNat) (by omega), Res.bind_ok]
  generalize (if (row.i + 1).toNat = 0 then some 0 else _ : Option Nat) = o
  cases o with
  | none => rfl
  | some fo =>
    simp only [offsetSize_eq]
    rw [umul_ok (by unfold usizeMod; omega)]
    simp only [Res.bind_ok, checkedSub]
    rw [if_neg (by omega)]
    rfl

/-- The extent of a member: `calc_offsets` computes what the specification says. -/
theorem calcOffsets_ok {c : Cfg} {t : Ty} {b : Bytes} {k a bb cc nfo f : Nat} {last : Bool}
    (hl : b.length < 2 ^ 63) (hbb : IsAl bb) (hcc : Spec.align t ∣ cc) (hk : k < 2 ^ 50)
    (hn : nfo < 2 ^ 50) (hsum : a + cc < 2 ^ 50) (hsz : ∀ n, Spec.size t = some n → n < 2 ^ 50)
    (hf : frameBefore b k = some f) (hf63 : f < 2 ^ 63) (hw : Spec.offsetWidth b.length * nfo ≤ b.length) :
    calcOffsets c (alignOf t) b ⟨(k : Int) - 1, a, bb, cc⟩ (sizeOf t) last nfo =
      .ok (
        let start := Spec.roundUp (f + a) bb + cc
        let stop := match Spec.size t with
          | some n => some (start + n)
          | none => if last then some (b.length - Spec.offsetWidth b.length * nfo) else Spec.frame b k
        match stop with
        | none => none
        | some e => if start ≤ e ∧ e ≤ b.length - Spec.offsetWidth b.length * nfo
            then some (start, e) else none) := by
  have hb8 : bb ≤ 8 := by rcases hbb with h | h | h | h <;> omega
  have hru := roundUp_lt hbb.pos (f + a)
  have e1 : ((k : Int) - 1 + 1).toNat = k := by omega
  have e2 : ((k : Int) - 1 + 2).toNat = k + 1 := by omega
  unfold frameBefore at hf
  unfold calcOffsets
  simp only [e1, e2, offsetSize_eq, sizeOf_eq, alignOf_eq, nthLast_ok' hl (n := k) (by omega),
    nthLast_ok' hl (n := k + 1) (by omega), hf, Res.bind_ok]
  rw [umul_ok (by unfold usizeMod; omega)]
  simp only [Res.bind_ok, checkedSub, if_pos hw]
  rw [uadd_ok (by unfold usizeMod; omega)]
  simp only [Res.bind_ok]
  rw [alignOffset_ok hbb (by unfold usizeMod; omega)]
  have htn : tryNew (Spec.align t) cc = some cc := by
    simp [tryNew, Nat.mod_eq_zero_of_dvd hcc]
  simp only [Res.bind_ok, htn, Res.unwrap_some]
  rw [uadd_ok (by unfold usizeMod; omega)]
  simp only [Res.bind_ok]
  cases hs : Spec.size t with
  | some n =>
    have := hsz n hs
    simp only
    rw [uadd_ok (by unfold usizeMod; omega)]
    simp only [Res.bind_ok, Res.pure_eq]
    split <;> rfl
  | none =>
    simp only
    cases last with
    | true =>
      simp only [if_true, Res.bind_ok, Res.pure_eq]
      split <;> rfl
    | false =>
      simp only [Bool.false_eq_true, if_false, Res.bind_ok, Nat.succ_ne_zero, Nat.add_sub_cancel]
      cases Spec.frame b k with
      | none => rfl
      | some e => simp only [Res.pure_eq]; split <;> rfl

/-- The members of a non-fixed-size structure with room for its framing offsets. -/
theorem memberRefs_ok {c : Cfg} {s : Slice} {nfo : Nat} (hl : s.len < 2 ^ 63) (hn : nfo < 2 ^ 50)
    (hfr : ∀ i o, i < nfo → Spec.frame s.bytes i = some o → o < 2 ^ 63)
    (hw : Spec.offsetWidth s.len * nfo ≤ s.len) (ts : List Ty) :
    (∀ t ∈ ts, Expands t) → (∀ t ∈ ts, Spec.align t ∣ s.addr) →
    ∀ (k a b cc f : Nat), IsAl b → k + framesLeft ts ≤ nfo + 1 →
      (ts ≠ [] → k + framesLeft ts ≤ nfo) →
      a + cc + 16 * (Ty.shows ts).length < 2 ^ 50 →
      (ts ≠ [] → frameBefore s.bytes k = some f) → f < 2 ^ 63 →
      let e := s.len - Spec.offsetWidth s.len * nfo
      ∃ rs, memberRefs c s nfo ts (tableLoop ⟨(k : Int) - 1, a, b, cc⟩ ts) = .ok rs ∧
        RefsFor c s ts
          (Spec.membersFrom s.bytes e (some e) (some (Spec.roundUp (f + a) b + cc)) k ts) rs := by
  induction ts with
  | nil => intro _ _ k a b cc f _ _ _ _ _ _; exact ⟨[], rfl, trivial⟩
  | cons t ts ih =>
    intro hx ha k a b cc f hb hk1 hk hsum hf hf32
    have hx' : ∀ u ∈ ts, Expands u := fun u hu => hx u (by simp [hu])
    have ha' : ∀ u ∈ ts, Spec.align u ∣ s.addr := fun u hu => ha u (by simp [hu])
    have hxt := hx t (by simp)
    have hat := ha t (by simp)
    have hk := hk (by simp)
    have hf := hf (by simp)
    have hl' : s.bytes.length < 2 ^ 63 := hl
    obtain ⟨a', b', c', hb', hle, hd, hst, hbound, hpos⟩ := tableStep f t ((k : Int) - 1) (a := a) (c := cc) hb
    simp only [Ty.shows, List.length_append] at hsum
    have hshow := show_pos t
    have hcalc := calcOffsets_ok (c := c) (t := t) (b := s.bytes) (k := k) (a := a') (bb := b') (cc := c')
      (nfo := nfo) (f := f) (last := ts.isEmpty) hl' hb' hd (by omega) hn (by omega)
      (fun n hn => by have := size_bound t n hn; omega) hf hf32 hw
    rw [hpos] at hcalc
    -- the reference to this member
    have hmem : ∀ (stop : Option Nat) (o : Option (Nat × Nat)),
        o = (match stop with
            | none => none
            | some e => if Spec.roundUp (Spec.roundUp (f + a) b + cc) (Spec.align t) ≤ e ∧
                e ≤ s.len - Spec.offsetWidth s.len * nfo
                then some (Spec.roundUp (Spec.roundUp (f + a) b + cc) (Spec.align t), e) else none) →
        calcOffsets c (alignOf t) s.bytes ⟨(k : Int) - 1, a', b', c'⟩ (sizeOf t) ts.isEmpty nfo = .ok o →
        ∃ r, getChildElem c t s ⟨(k : Int) - 1, a', b', c'⟩ ts.isEmpty nfo = .ok r ∧
          RefFor c s t (stop.bind fun e => Spec.place s.bytes (s.len - Spec.offsetWidth s.len * nfo)
            (Spec.roundUp (Spec.roundUp (f + a) b + cc) (Spec.align t)) e) r := by
      intro stop o ho hcalc
      unfold getChildElem
      rw [hcalc, Res.bind_ok, ho]
      cases stop with
      | none => exact default_refFor s hxt
      | some e =>
        simp only [Option.bind_some, Spec.place]
        by_cases h : Spec.roundUp (Spec.roundUp (f + a) b + cc) (Spec.align t) ≤ e ∧
                e ≤ s.len - Spec.offsetWidth s.len * nfo
        · simp only [if_pos h]
          exact window_refFor hxt hat (roundUp_dvd _ _) h.1 (by omega)
        · simp only [if_neg h]
          exact default_refFor s hxt
    simp only [tableLoop, hst, memberRefs, Spec.membersFrom, Option.map_some, Option.bind_some]
    rw [sizeOf_eq] at hmem hcalc ⊢
    cases hs : Spec.size t with
    | some n =>
      have hsb := size_bound t n hs
      rw [hs] at hmem hcalc
      obtain ⟨r, hr, hr'⟩ :=
        hmem (some (Spec.roundUp (Spec.roundUp (f + a) b + cc) (Spec.align t) + n)) _ rfl hcalc
      have hfl : framesLeft (t :: ts) = framesLeft ts := by simp [framesLeft, hs]
      rw [hfl] at hk1 hk
      obtain ⟨rs, hrs, hrs'⟩ := ih hx' ha' k a' b' (c' + n) f hb' hk1 (fun _ => hk) (by omega) (fun _ => hf) hf32
      rw [← Nat.add_assoc, hpos] at hrs'
      exact ⟨r :: rs, by simp only [hr, hrs, Res.bind_ok, Res.pure_eq], hr', hrs'⟩
    | none =>
      rw [hs] at hmem hcalc
      have hki : (k : Int) - 1 + 1 = ((k + 1 : Nat) : Int) - 1 := by omega
      simp only [hki]
      by_cases hts : ts = []
      · subst hts
        obtain ⟨r, hr, hr'⟩ := hmem (some (s.len - Spec.offsetWidth s.len * nfo)) _ rfl hcalc
        simp only [tableLoop, memberRefs, Spec.membersFrom]
        exact ⟨[r], by simp only [hr, Res.bind_ok, Res.pure_eq], by simpa using hr', trivial⟩
      · have hfl : framesLeft (t :: ts) = 1 + framesLeft ts := by simp [framesLeft, hs, hts]
        rw [hfl] at hk1 hk
        have hex : ∃ g, Spec.frame s.bytes k = some g := by
          unfold Spec.frame
          simp only
          rw [if_pos]
          · exact ⟨_, rfl⟩
          · have h1 : (k + 1) * Spec.offsetWidth s.len ≤ nfo * Spec.offsetWidth s.len :=
              Nat.mul_le_mul_right _ (by omega)
            rw [Nat.mul_comm nfo] at h1
            exact Nat.le_trans h1 hw
        obtain ⟨g, hg⟩ := hex
        have hg32 := hfr k g (by omega) hg
        have hemp : ts.isEmpty = false := by simpa using hts
        rw [hg, hemp] at hcalc
        rw [hemp] at hmem
        obtain ⟨r, hr, hr'⟩ := hmem (some g) _ rfl hcalc
        obtain ⟨rs, hrs, hrs'⟩ := ih hx' ha' (k + 1) 0 1 0 g (Or.inl rfl) (by omega) (fun _ => by omega)
          (by omega) (fun _ => by simp [frameBefore, hg]) hg32
        simp only [hemp, if_false, hts, hg]
        have hp1 : Spec.roundUp (g + 0) 1 + 0 = g := by simp [Spec.roundUp]
        rw [hp1] at hrs'
        exact ⟨r :: rs, by simp only [hr, hrs, Res.bind_ok, Res.pure_eq], by simpa using hr', hrs'⟩

/-- The members of a structure too short for its framing offsets. -/
theorem memberRefs_short {c : Cfg} {s : Slice} {nfo : Nat} (hl : s.len < 2 ^ 63) (hn : nfo < 2 ^ 50)
    (hw : s.len < Spec.offsetWidth s.len * nfo) (ts : List Ty) :
    (∀ t ∈ ts, Expands t) →
    ∀ (st : Row), -1 ≤ st.i → st.i + ts.length < 2 ^ 50 →
      ∃ rs, memberRefs c s nfo ts (tableLoop st ts) = .ok rs ∧
        RefsFor c s ts (ts.map fun _ => none) rs := by
  induction ts with
  | nil => intro _ st _ _; exact ⟨[], rfl, trivial⟩
  | cons t ts ih =>
    intro hx st hi hi'
    obtain ⟨r, hr, hr'⟩ := default_refFor (c := c) s (hx t (by simp))
    obtain ⟨i, a, b, cc⟩ := st
    simp only [List.length_cons] at hi hi'
    have hcalc : ∀ row : Row, row.i = i →
        calcOffsets c (alignOf t) s.bytes row (sizeOf t) ts.isEmpty nfo = .ok none := by
      intro row hrow
      apply calcOffsets_short hl (by omega) (by omega) (by omega) hw
    have hst : ∃ st' : Row, -1 ≤ st'.i ∧ st'.i + ts.length < 2 ^ 50 ∧
        (tableLoop ⟨i, a, b, cc⟩ (t :: ts)) =
          (if alignOf t ≤ b then (⟨i, a, b, align cc (alignOf t)⟩ : Row)
            else ⟨i, a + align cc b, alignOf t, 0⟩) :: tableLoop st' ts := by
      refine ⟨_, ?_, ?_, rfl⟩
      · cases sizeOf t <;> simp only <;> split <;> simp only <;> omega
      · cases sizeOf t <;> simp only <;> split <;> simp only <;> omega
    obtain ⟨st', h1, h2, h3⟩ := hst
    obtain ⟨rs, hrs, hrs'⟩ := ih (fun u hu => hx u (by simp [hu])) st' h1 h2
    refine ⟨r :: rs, ?_, hr', hrs'⟩
    rw [h3, memberRefs, getChildElem, hcalc _ (by split <;> rfl)]
    simp only [Res.bind_ok, hr, hrs, Res.pure_eq]

/-- The fields of a packed struct. -/
theorem fieldRefs_ok {c : Cfg} {s : Slice} (ts : List Ty) : (∀ t ∈ ts, Spec.align t ∣ s.addr) →
    ∀ pos e k, Spec.endAfter pos ts = some e → e ≤ s.len →
      RefsFor c s ts (Spec.membersFrom s.bytes s.len (some s.len) (some pos) k ts)
        (fieldRefs s (Spec.startsFrom pos ts) ((ts.map lay).map (·.1))) := by
  induction ts with
  | nil => intro _ pos e k _ _; trivial
  | cons t ts ih =>
    intro ha pos e k he hle
    simp only [Spec.endAfter] at he
    cases hs : Spec.size t with
    | none => simp [hs] at he
    | some n =>
      simp only [hs] at he
      have hge := endAfter_ge he
      have hin : Spec.roundUp pos (Spec.align t) + n ≤ s.len := by omega
      have hsub : Spec.sub s.bytes (Spec.roundUp pos (Spec.align t)) (Spec.roundUp pos (Spec.align t) + n) =
          (s.bytes.drop (Spec.roundUp pos (Spec.align t))).take n := by
        simp [Spec.sub, List.drop_take]
      have hlen : (Spec.sub s.bytes (Spec.roundUp pos (Spec.align t))
          (Spec.roundUp pos (Spec.align t) + n)).length = n := by
        rw [sub_length hin]; omega
      simp only [Spec.membersFrom, hs, Option.map_some, Option.bind_some, Spec.startsFrom, List.map_cons,
        lay, Option.getD_some, fieldRefs, RefsFor, Spec.place]
      rw [if_pos ⟨by omega, hin⟩]
      refine ⟨⟨Nat.dvd_add (ha t (by simp)) (roundUp_dvd _ _), ?_, Or.inl ⟨_, _, Nat.le_add_right _ n, hin, by rw [hsub]⟩⟩, ?_⟩
      · simp [← hsub, castBytes, hs, hlen]
      · exact ih (fun u hu => ha u (by simp [hu])) _ e k he hle

/-- References to the members of a structure. -/
theorem tupRefs_tame {c : Cfg} {gv : Ty} {ts : List Ty} {s : Slice}
    (hgv : Spec.size gv = Spec.size (.tuple ts)) (hx : ∀ t ∈ ts, Expands t)
    {d} (hd : generateTuple gv ts = .ok d) (hsm : (Ty.shows ts).length < 2 ^ 40)
    (ha : Spec.alignMax ts ∣ s.addr) (hc : castBytes (.tuple ts) s.bytes = s.bytes)
    (hl : Spec.size (.tuple ts) = none → s.len < 2 ^ 63)
    (hfr : ∀ i o, i < Spec.frameCount ts → Spec.frame s.bytes i = some o → o < 2 ^ 63) :
    ∃ rs, tupRefs c gv ts s = .ok rs ∧
      RefsFor c s ts (Spec.memberChildren (.crate c.bigEndian) ts s.bytes) rs := by
  have ha' : ∀ t ∈ ts, Spec.align t ∣ s.addr := fun t ht =>
    Nat.dvd_trans ((specAlign_isAl t).dvd (alignMax_isAl ts) (alignMax_ge ht)) ha
  unfold tupRefs Spec.memberChildren
  rw [sizeOf_eq, hgv]
  cases hs : Spec.size (.tuple ts) with
  | some n =>
    have hlen : s.bytes.length = n := by
      simp only [castBytes, hs] at hc
      split at hc
      · assumption
      · rw [← hc]; simp
    obtain ⟨e, he, hsz, _⟩ := size_tuple_members hs
    have hle := endAfter_le_size hs he
    have hlays : rustLayouts ts = .ok (ts.map lay) := rustLayouts_ok fun t ht => by
      obtain ⟨m, hm⟩ := Option.isSome_iff_exists.1 (hsz t ht)
      rw [rustLayout_ok t m hm (hx t ht)]
      simp [lay, hm]
    simp only [fieldOffsets_ok hgv (hgv.trans hs) hx hd, hlays, Res.bind_ok, hlen, if_true]
    refine ⟨_, rfl, ?_⟩
    have := fieldRefs_ok (c := c) ts ha' 0 e 0 he (by simp only [Slice.len, hlen]; exact hle)
    simpa [Slice.len, hlen] using this
  | none =>
    have hl := hl hs
    have hnl := shows_length_ge ts
    have hfl := framesLeft_le ts
    simp only
    obtain ⟨cmds, hc⟩ := serLoop_ok (nFrameOffsets ts) ts 0 8 0 0 (by rw [nFrameOffsets_eq]; omega)
    have hp : writeNonFixedSizeStructure ts = .ok ⟨generateTable ts, nFrameOffsets ts, cmds⟩ := by
      simp [writeNonFixedSizeStructure, hc]
    simp only [hp, Res.bind_ok, nFrameOffsets_eq, Spec.Rules.crate, if_true, Spec.bodyEnd, frameCount_eq]
    by_cases hw : Spec.offsetWidth s.bytes.length * framesLeft ts ≤ s.bytes.length
    · rw [if_pos hw]
      have := memberRefs_ok (c := c) (s := s) hl (by omega)
        (by rw [← frameCount_eq]; exact hfr) hw ts hx ha' 0 0 1 0 0 (Or.inl rfl)
        (by omega) (fun _ => by omega) (by omega) (fun _ => rfl) (by omega)
      exact this
    · rw [if_neg hw]
      exact memberRefs_short (c := c) hl (by omega) (by simpa [Slice.len] using hw) ts hx _ (by simp)
        (by simp only; omega)

theorem tupRefs_ok {c : Cfg} {gv : Ty} {ts : List Ty} {s : Slice}
    (hgv : Spec.size gv = Spec.size (.tuple ts)) (hx : ∀ t ∈ ts, Expands t)
    {d} (hd : generateTuple gv ts = .ok d) (hsm : (Ty.shows ts).length < 2 ^ 40)
    (ha : Spec.alignMax ts ∣ s.addr) (hc : castBytes (.tuple ts) s.bytes = s.bytes)
    (hl : Spec.size (.tuple ts) = none → s.len < 2 ^ 32) :
    ∃ rs, tupRefs c gv ts s = .ok rs ∧
      RefsFor c s ts (Spec.memberChildren (.crate c.bigEndian) ts s.bytes) rs :=
  tupRefs_tame hgv hx hd hsm ha hc (fun h => Nat.lt_trans (hl h) (by decide)) (by
    intro i o hi ho
    cases hs : Spec.size (.tuple ts) with
    | none => exact Nat.lt_trans (frame_lt (hl hs) ho) (by decide)
    | some n =>
      obtain ⟨e, _, hsz, _⟩ := size_tuple_members hs
      have : Spec.frameCount ts = 0 := by
        unfold Spec.frameCount
        rw [List.length_eq_zero_iff, List.filter_eq_nil_iff]
        intro t ht
        have := hsz t (List.dropLast_subset _ ht)
        cases h : Spec.size t <;> simp [h] at this ⊢
      omega)

end GV
