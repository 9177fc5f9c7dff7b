import Verif.Proofs.Release
import Verif.Proofs.Checked
/-
Helper lemmas: with overflow checks, reading panics if a position in the data does not fit in 64 bits or an
array is ragged, and only then or if a position is less than 8 below 2^64.
-/
namespace GV

/-- An outcome: a value with the property `P`, not if `o` or `g`; an overflow panic only if `o'`; an
    `unwrap` panic only if `g`. -/
def Outc {α : Type} (o o' g : Bool) (P : α → Prop) (r : Res α) : Prop :=
  (∃ a, r = .ok a ∧ P a ∧ o = false ∧ g = false) ∨ (r = .fail .overflow ∧ o' = true) ∨
    (r = .fail .unwrap ∧ g = true)

namespace Outc
variable {α β : Type} {o o' g p p' h : Bool} {P : α → Prop} {Q : β → Prop} {r : Res α}

theorem ok {a : α} (h : P a) : Outc false o' false P (.ok a) := Or.inl ⟨a, rfl, h, rfl, rfl⟩

theorem bind {f : α → Res β} (h1 : Outc o o' g P r) (h2 : ∀ a, P a → Outc p p' h Q (f a)) :
    Outc (o || p) (o' || p') (g || h) Q (r >>= f) := by
  rcases h1 with ⟨a, rfl, h1, rfl, rfl⟩ | ⟨rfl, rfl⟩ | ⟨rfl, rfl⟩
  · rw [Res.bind_ok, Bool.false_or, Bool.false_or]
    rcases h2 a h1 with h | ⟨h, rfl⟩ | h
    · exact Or.inl h
    · exact Or.inr (Or.inl ⟨h, Bool.or_true _⟩)
    · exact Or.inr (Or.inr h)
  · exact Or.inr (Or.inl ⟨rfl, rfl⟩)
  · exact Or.inr (Or.inr ⟨rfl, rfl⟩)

theorem map {f : α → β} (h1 : Outc o o' g P r) (h2 : ∀ a, P a → Q (f a)) :
    Outc o o' g Q (r >>= fun a => pure (f a)) := by
  have := h1.bind (p := false) (p' := false) (h := false) (Q := Q) (f := fun a => pure (f a))
    fun a ha => Outc.ok (h2 a ha)
  simpa using this

theorem guard {v : α} (h : r = guardRag g v) : Outc false false g (· = v) r := by
  rw [h]
  unfold guardRag
  cases g
  · exact Outc.ok rfl
  · exact Or.inr (Or.inr ⟨rfl, rfl⟩)

end Outc

/-! ### Equations for `over` -/

/-- The positions in a child. -/
def overChild (R : Spec.Rules) (d : Nat) (t : Ty) : Option Bytes → Bool
  | some x => Spec.over R d t x
  | none => false

theorem over_A (R : Spec.Rules) (d : Nat) (e : Ty) (b : Bytes) :
    Spec.over R d (.A e) b = (Spec.arrOver d e b || (Spec.arrChildren R e b).any (overChild R d e)) := by
  rw [Spec.over]
  rfl

theorem overAny_cons (R : Spec.Rules) (d : Nat) (t : Ty) (ts : List Ty) (o : Option Bytes) (os : List (Option Bytes)) :
    Spec.overAny R d (t :: ts) (o :: os) = (overChild R d t o || Spec.overAny R d ts os) := by
  cases o <;> simp only [Spec.overAny, overChild]

theorem over_dict (R : Spec.Rules) (d : Nat) (k v : Ty) (b : Bytes) :
    Spec.over R d (.dict k v) b = Spec.over R d (.tuple [k, v]) b := by
  have h := memberChildren_length R [k, v] b
  rw [Spec.over, Spec.over]
  match hm : Spec.memberChildren R [k, v] b, h with
  | [x, y], _ =>
    simp only [overAny_cons]
    cases x <;> cases y <;> simp [overChild, Spec.overAny]

/-! ### Positions in tame data fit -/

theorem elemsOver_tame {d al : Nat} (hd : d ≤ 8) (h : IsAl al) (stops : List Nat) : ∀ prev, prev < 2 ^ 63 →
    (∀ o ∈ stops, o < 2 ^ 63) → Spec.elemsOver d al prev stops = false := by
  induction stops with
  | nil => intros; rfl
  | cons s ss ih =>
    intro prev hp hs
    rw [Spec.elemsOver, ih s (hs s (by simp)) (fun o ho => hs o (by simp [ho])), Bool.or_false]
    have := roundUp_lt h.pos prev
    have : al ≤ 8 := by rcases h with h | h | h | h <;> omega
    rw [decide_eq_false_iff_not]
    omega

theorem membersOver_tame {d : Nat} (hd : d ≤ 8) {b : Bytes} {K : Nat}
    (hf : ∀ i o, i < K → Spec.frame b i = some o → o < 2 ^ 63)
    (ts : List Ty) : ∀ (pos k : Nat), (ts ≠ [] → k + framesLeft ts ≤ K) →
    pos + 16 * (Ty.shows ts).length < 2 ^ 63 + 2 ^ 50 → (Ty.shows ts).length < 2 ^ 40 →
    Spec.membersOver d b pos k ts = false := by
  induction ts with
  | nil => intros; rfl
  | cons t ts ih =>
    intro pos k hk hp hsm
    have hk := hk (by simp)
    simp only [Ty.shows, List.length_append] at hp hsm
    have hshow := show_pos t
    have hal := specAlign_isAl t
    have hal8 : Spec.align t ≤ 8 := by rcases hal with h | h | h | h <;> omega
    have hr := roundUp_lt hal.pos pos
    simp only [Spec.membersOver]
    cases hs : Spec.size t with
    | some n =>
      have hsb := size_bound t n hs
      have hfl : framesLeft (t :: ts) = framesLeft ts := by simp [framesLeft, hs]
      simp only
      rw [ih _ _ (fun _ => by omega) (by omega) (by omega), Bool.or_false, decide_eq_false_iff_not]
      omega
    | none =>
      simp only
      have h1 : decide (2 ^ 64 ≤ Spec.roundUp pos (Spec.align t) + d) = false := by
        rw [decide_eq_false_iff_not]
        omega
      rw [h1, Bool.false_or]
      cases hg : Spec.frame b k with
      | none => rfl
      | some g =>
        simp only
        by_cases hts : ts = []
        · subst hts; rfl
        · have hfl : framesLeft (t :: ts) = 1 + framesLeft ts := by simp [framesLeft, hs, hts]
          have := hf k g (by omega) hg
          exact ih _ _ (fun _ => by omega) (by omega) (by omega)

theorem memberOver_tame {d : Nat} (hd : d ≤ 8) {ts : List Ty} {b : Bytes} (hsm : (Ty.shows ts).length < 2 ^ 40)
    (h : ∀ i o, i < Spec.frameCount ts → Spec.frame b i = some o → o < 2 ^ 63) :
    Spec.memberOver d ts b = false := by
  unfold Spec.memberOver
  split
  · exact membersOver_tame hd h ts 0 0 (fun _ => by rw [frameCount_eq]; omega) (by omega) hsm
  · rfl

theorem over_tame (R : Spec.Rules) {d : Nat} (hd : d ≤ 8) (t : Ty) :
    Small t → ∀ b, Spec.Tame R t b → Spec.over R d t b = false := by
  have all : ∀ ts : List Ty, (∀ t ∈ ts, ∀ b, Spec.Tame R t b → Spec.over R d t b = false) →
      ∀ os, Spec.TameAll R ts os → Spec.overAny R d ts os = false := by
    intro ts
    induction ts with
    | nil => intro _ os _; cases os <;> rfl
    | cons t ts ih =>
      intro h os ht
      cases os with
      | nil => rfl
      | cons o os =>
        rw [TameAll_cons] at ht
        rw [overAny_cons, ih (fun u hu => h u (by simp [hu])) os ht.2, Bool.or_false]
        cases o with
        | none => rfl
        | some x => exact h t (by simp) x (ht.1 x rfl)
  have tup : ∀ ts : List Ty, (Ty.shows ts).length < 2 ^ 40 → (∀ t ∈ ts, Small t → ∀ b, Spec.Tame R t b →
      Spec.over R d t b = false) → ∀ b, Spec.Tame R (.tuple ts) b → Spec.over R d (.tuple ts) b = false := by
    intro ts hsm ih b ht
    rw [Spec.Tame] at ht
    rw [Spec.over, all ts (fun t hm => ih t hm (by have := shows_ge hm; unfold Small; omega)) _ ht.2,
      memberOver_tame hd hsm ht.1]
    rfl
  induction t using Ty.ind with
  | a e ih =>
    intro hsm b ht
    rw [Spec.Tame] at ht
    rw [over_A]
    have h1 : Spec.arrOver d e b = false := by
      unfold Spec.arrOver
      cases he : Spec.size e with
      | some n => rfl
      | none => exact elemsOver_tame hd (specAlign_isAl e) _ 0 (by decide) (ht.1 he)
    rw [h1, Bool.false_or, List.any_eq_false]
    intro o ho
    cases o with
    | none => simp [overChild]
    | some x => simp [overChild, ih hsm.A x (ht.2 x ho)]
  | m e ih =>
    intro hsm b ht
    rw [Spec.Tame] at ht
    rw [Spec.over]
    cases hm : Spec.maybeChild e b with
    | none => rfl
    | some x => exact ih hsm.M x (ht x hm)
  | tuple ts ih =>
    intro hsm b ht
    exact tup ts hsm.shows ih b ht
  | dict k v ihk ihv =>
    intro hsm b ht
    rw [tame_dict] at ht
    rw [over_dict]
    refine tup [k, v] hsm.dict ?_ b ht
    intro e he
    simp only [List.mem_cons, List.not_mem_nil, or_false] at he
    rcases he with rfl | rfl
    · exact ihk
    · exact ihv
  | _ => intro _ b _; simp [Spec.over]

/-- Casting does not change the positions. -/
theorem over_castBytes {be : Bool} {d : Nat} (hd : d ≤ 8) {t : Ty} (hsm : Small t) (b : Bytes) :
    Spec.over (.crate be) d t (castBytes t b) = Spec.over (.crate be) d t b := by
  by_cases h : castBytes t b = b
  · rw [h]
  have ht := tame_of_cast (be := be) h
  rw [over_tame _ hd t hsm _ ht, over_tame _ hd t hsm _ (tame_castBytes ht)]

theorem over_dflt {be : Bool} {d : Nat} (hd : d ≤ 8) {t : Ty} (hsm : Small t) :
    Spec.over (.crate be) d t (dfltBytes t) = false :=
  over_tame _ hd t hsm _ (tame_dflt _ t)

/-! ### Arrays -/

theorem roundUp_ge' {al : Nat} (h : IsAl al) (i : Nat) : i ≤ Spec.roundUp i al := by
  unfold Spec.roundUp
  rcases h with rfl | rfl | rfl | rfl <;> omega

/-- Rounding up does not fit only if the usual computation overflows. -/
theorem roundUp_over {al : Nat} (h : IsAl al) {i : Nat} (hi : 2 ^ 64 ≤ Spec.roundUp i al) : 2 ^ 64 ≤ i + al := by
  have := roundUp_lt h.pos i
  omega

theorem elemRaw_out {c : Cfg} (hov : c.overflowChecks = true) {e : Ty} {s : Slice} {body prev stop : Nat} (hx : Expands e)
    (hn : Spec.size e = none) (ha : Spec.align e ∣ s.addr) (hb : body ≤ s.len) (hp : prev < usizeMod) :
    Outc (decide (2 ^ 64 ≤ Spec.roundUp prev (Spec.align e) + 0))
      (decide (2 ^ 64 ≤ Spec.roundUp prev (Spec.align e) + 8))
      (badChild e (Spec.place s.bytes body (Spec.roundUp prev (Spec.align e)) stop))
      (RefFor c s e (Spec.place s.bytes body (Spec.roundUp prev (Spec.align e)) stop))
      (elemRaw c e s body prev stop) := by
  have hal := specAlign_isAl e
  have hal8 : Spec.align e ≤ 8 := by rcases hal with h | h | h | h <;> omega
  by_cases h : prev + Spec.align e < usizeMod
  · have hd : decide (2 ^ 64 ≤ Spec.roundUp prev (Spec.align e) + 0) = false := by
      rw [decide_eq_false_iff_not]
      intro h1
      have := roundUp_over hal (i := prev) (by omega)
      unfold usizeMod at h
      omega
    rw [elemRaw_eq h, hd]
    obtain ⟨h1, h2⟩ := elemAt_ok (c := c) (prev := prev) (stop := stop) hx hn ha hb
    cases hc : badChild e (Spec.place s.bytes body (Spec.roundUp prev (Spec.align e)) stop) with
    | true => exact Or.inr (Or.inr ⟨h1 hc, rfl⟩)
    | false =>
      obtain ⟨r, hr, hr'⟩ := h2 hc
      exact Or.inl ⟨r, hr, hr', rfl, rfl⟩
  · right; left
    refine ⟨?_, ?_⟩
    · unfold elemRaw
      rw [alignOf_eq, alignOffset_eq hal hp, if_neg h, if_pos hov]
      rfl
    · rw [decide_eq_true_iff]
      have := roundUp_ge' hal prev
      unfold usizeMod at h
      omega

theorem elemRefsRaw_out {c : Cfg} (hov : c.overflowChecks = true) {e : Ty} {s : Slice} {body : Nat} (hx : Expands e)
    (hn : Spec.size e = none) (ha : Spec.align e ∣ s.addr) (hb : body ≤ s.len) (stops : List Nat) :
    (∀ o ∈ stops, o < usizeMod) → ∀ prev, prev < usizeMod →
    let os := Spec.elemsFrom s.bytes body (Spec.align e) prev stops
    Outc (Spec.elemsOver 0 (Spec.align e) prev stops) (Spec.elemsOver 8 (Spec.align e) prev stops)
      (os.any (badChild e)) (List.Forall₂ (RefFor c s e) os) (elemRefsRaw c e s body prev stops) := by
  induction stops with
  | nil => intro _ prev _; exact Outc.ok .nil
  | cons stop stops ih =>
    intro hst prev hp
    simp only [Spec.elemsOver, Spec.elemsFrom, elemRefsRaw, List.any_cons]
    refine (elemRaw_out hov hx hn ha hb hp).bind fun r hr => ?_
    exact (ih (fun o ho => hst o (by simp [ho])) stop (hst stop (by simp))).map fun rs hrs => .cons hr hrs

theorem arrRefs_out {c : Cfg} (hov : c.overflowChecks = true) {e : Ty} {s : Slice} (hx : Expands e)
    (ha : Spec.align e ∣ s.addr) (hc : castBytes (.A e) s.bytes = s.bytes)
    (hl : Spec.size e = none → s.len < 2 ^ 63) :
    let os := Spec.arrChildren (.crate c.bigEndian) e s.bytes
    Outc (Spec.arrOver 0 e s.bytes) (Spec.arrOver 8 e s.bytes) (os.any (badChild e))
      (List.Forall₂ (RefFor c s e) os) (arrRefs c e s) := by
  cases he : Spec.size e with
  | some n =>
    obtain ⟨h1, h2⟩ := arrRefs_tame (c := c) hx ha hc hl (by rw [he]; intro h; cases h)
    have h3 : ∀ d, Spec.arrOver d e s.bytes = false := fun d => by simp [Spec.arrOver, he]
    simp only
    rw [h3, h3]
    cases hb : (Spec.arrChildren (.crate c.bigEndian) e s.bytes).any (badChild e) with
    | true => exact Or.inr (Or.inr ⟨h1 hb, rfl⟩)
    | false =>
      obtain ⟨rs, h4, h5⟩ := h2 hb
      exact Or.inl ⟨rs, h4, h5, rfl, rfl⟩
  | none =>
    have hl2 := hl he
    unfold arrRefs Spec.arrChildren Spec.arrOver
    rw [sizeOf_eq, he]
    simp only [intoIter_ok ha hl2, Res.bind_ok]
    have hb := arrFrame_body_le s.bytes
    have hcount : (Spec.arrFrame s.bytes).2.length ≤ (iterState s 0 0).offsets.length := by
      simp only [iterState, List.length_drop, ← arrFrame_count]
      exact Nat.le_mul_of_pos_right _ (arrW_isWidth _).pos
    rw [collect_raw ha hl2 ((iterState s 0 0).offsets.length + 1) 0 0 (by decide)
      (Nat.zero_le _) (by omega), List.drop_zero]
    exact elemRefsRaw_out hov hx he ha hb _ (stops_lt_usize _) 0 (by decide)

/-! ### Structures -/

theorem uadd_out {c : Cfg} (hov : c.overflowChecks = true) (a b : Nat) :
    uadd c a b = if a + b < usizeMod then .ok (a + b) else .fail .overflow := by
  unfold uadd
  split
  · rfl
  · simp [hov]

/-- The position `p` that the computation of a member's place uses last. -/
def lastPos (t : Ty) (start : Nat) : Nat := start + (Spec.size t).getD 0

theorem calcOffsets_out {c : Cfg} (hov : c.overflowChecks = true) {t : Ty} {b : Bytes}
    {k a bb cc nfo f : Nat} {last : Bool}
    (hl : b.length < 2 ^ 63) (hbb : IsAl bb) (hcc : Spec.align t ∣ cc) (hk : k < 2 ^ 50)
    (hn : nfo < 2 ^ 50)
    (hf : frameBefore b k = some f) (hw : Spec.offsetWidth b.length * nfo ≤ b.length) :
    Outc (decide (2 ^ 64 ≤ lastPos t (Spec.roundUp (f + a) bb + cc) + 0))
      (decide (2 ^ 64 ≤ lastPos t (Spec.roundUp (f + a) bb + cc) + 8)) false
      (· = (
        let start := Spec.roundUp (f + a) bb + cc
        let stop := match Spec.size t with
          | some n => some (start + n)
          | none => if last then some (b.length - Spec.offsetWidth b.length * nfo) else Spec.frame b k
        match stop with
        | none => none
        | some e => if start ≤ e ∧ e ≤ b.length - Spec.offsetWidth b.length * nfo
            then some (start, e) else none))
      (calcOffsets c (alignOf t) b ⟨(k : Int) - 1, a, bb, cc⟩ (sizeOf t) last nfo) := by
  have e1 : ((k : Int) - 1 + 1).toNat = k := by omega
  have e2 : ((k : Int) - 1 + 2).toNat = k + 1 := by omega
  have hw8 := offsetSize_lt b.length
  have hmul : Spec.offsetWidth b.length * nfo ≤ 8 * nfo := Nat.mul_le_mul_right _ hw8
  have htn : tryNew (Spec.align t) cc = some cc := by
    simp [tryNew, Nat.mod_eq_zero_of_dvd hcc]
  have hb8 : bb ≤ 8 := by rcases hbb with h | h | h | h <;> omega
  have hge := roundUp_ge' hbb (f + a)
  have hM : usizeMod = 2 ^ 64 := rfl
  unfold frameBefore at hf
  unfold calcOffsets
  simp only [e1, e2, offsetSize_eq, sizeOf_eq, alignOf_eq, nthLast_ok' hl (n := k) (by omega),
    nthLast_ok' hl (n := k + 1) (by omega), hf, Res.bind_ok]
  rw [umul_ok (by unfold usizeMod; omega)]
  simp only [Res.bind_ok, checkedSub, if_pos hw, uadd_out hov]
  have hfail : ∀ {α : Type} {P : α → Prop} {p o : Bool} {q : Nat}, 2 ^ 64 ≤ q →
      Outc o (decide (2 ^ 64 ≤ q)) p P (.fail .overflow) := fun h => Or.inr (Or.inl ⟨rfl, by simpa using h⟩)
  by_cases h1 : f + a < usizeMod
  swap
  · rw [if_neg h1]
    exact hfail (by unfold lastPos; omega)
  rw [if_pos h1]
  simp only [Res.bind_ok, alignOffset_eq hbb h1]
  by_cases h2 : f + a + bb < usizeMod
  swap
  · rw [if_neg h2]
    simp only [hov, if_true]
    exact hfail (by unfold lastPos; omega)
  rw [if_pos h2]
  simp only [Res.bind_ok, htn, Res.unwrap_some]
  by_cases h3 : Spec.roundUp (f + a) bb + cc < usizeMod
  swap
  · rw [if_neg h3]
    exact hfail (by unfold lastPos; omega)
  rw [if_pos h3]
  simp only [Res.bind_ok]
  cases hs : Spec.size t with
  | some n =>
    simp only
    by_cases h4 : Spec.roundUp (f + a) bb + cc + n < usizeMod
    swap
    · rw [if_neg h4]
      exact hfail (by unfold lastPos; rw [hs, Option.getD_some]; omega)
    rw [if_pos h4]
    simp only [Res.bind_ok, Res.pure_eq]
    have hd : decide (2 ^ 64 ≤ lastPos t (Spec.roundUp (f + a) bb + cc) + 0) = false := by
      rw [decide_eq_false_iff_not]
      unfold lastPos
      rw [hs, Option.getD_some]
      omega
    rw [hd]
    split
    · exact Outc.ok rfl
    · exact Outc.ok rfl
  | none =>
    have hd : decide (2 ^ 64 ≤ lastPos t (Spec.roundUp (f + a) bb + cc) + 0) = false := by
      rw [decide_eq_false_iff_not]
      unfold lastPos
      rw [hs, Option.getD_none]
      omega
    rw [hd]
    simp only
    cases last with
    | true =>
      simp only [if_true, Res.bind_ok, Res.pure_eq]
      split <;> exact Outc.ok rfl
    | false =>
      simp only [Bool.false_eq_true, if_false, Res.bind_ok, Nat.succ_ne_zero, Nat.add_sub_cancel]
      cases Spec.frame b k with
      | none => exact Outc.ok rfl
      | some e => simp only [Res.pure_eq]; split <;> exact Outc.ok rfl

theorem memberRefs_out {c : Cfg} (hov : c.overflowChecks = true) {s : Slice} {nfo : Nat} (hl : s.len < 2 ^ 63) (hn : nfo < 2 ^ 50)
    (hw : Spec.offsetWidth s.len * nfo ≤ s.len) (ts : List Ty) :
    (∀ t ∈ ts, Expands t) → (∀ t ∈ ts, Spec.align t ∣ s.addr) →
    ∀ (k a b cc f : Nat), IsAl b → k + framesLeft ts ≤ nfo + 1 →
      (ts ≠ [] → k + framesLeft ts ≤ nfo) →
      a + cc + 16 * (Ty.shows ts).length < 2 ^ 50 →
      (ts ≠ [] → frameBefore s.bytes k = some f) →
      let e := s.len - Spec.offsetWidth s.len * nfo
      Outc (Spec.membersOver 0 s.bytes (Spec.roundUp (f + a) b + cc) k ts)
        (Spec.membersOver 8 s.bytes (Spec.roundUp (f + a) b + cc) k ts) false
        (RefsFor c s ts (Spec.membersFrom s.bytes e (some e) (some (Spec.roundUp (f + a) b + cc)) k ts))
        (memberRefs c s nfo ts (tableLoop ⟨(k : Int) - 1, a, b, cc⟩ ts)) := by
  induction ts with
  | nil => intro _ _ k a b cc f _ _ _ _ _; exact Outc.ok trivial
  | cons t ts ih =>
    intro hx ha k a b cc f hb hk1 hk hsum hf
    have hx' : ∀ u ∈ ts, Expands u := fun u hu => hx u (by simp [hu])
    have ha' : ∀ u ∈ ts, Spec.align u ∣ s.addr := fun u hu => ha u (by simp [hu])
    have hxt := hx t (by simp)
    have hat := ha t (by simp)
    have hk := hk (by simp)
    have hf := hf (by simp)
    have hl' : s.bytes.length < 2 ^ 63 := hl
    obtain ⟨a', b', c', hb', hle, hd, hst, hbound, hpos⟩ := tableStep f t ((k : Int) - 1) (a := a) (c := cc) hb
    simp only [Ty.shows, List.length_append] at hsum
    have hshow := show_pos t
    have hcalc := calcOffsets_out hov (t := t) (b := s.bytes) (k := k) (a := a') (bb := b') (cc := c')
      (nfo := nfo) (f := f) (last := ts.isEmpty) hl' hb' hd (by omega) hn hf hw
    rw [hpos] at hcalc
    generalize hpp : Spec.roundUp (Spec.roundUp (f + a) b + cc) (Spec.align t) = pp at *
    have hpd : Spec.align t ∣ pp := by rw [← hpp]; exact roundUp_dvd _ _
    -- the reference to this member
    have hmem : ∀ (stop : Option Nat),
        (match Spec.size t with
          | some n => some (pp + n)
          | none => if ts.isEmpty = true then some (s.bytes.length - Spec.offsetWidth s.bytes.length * nfo)
              else Spec.frame s.bytes k) = stop →
        Outc (decide (2 ^ 64 ≤ lastPos t pp + 0)) (decide (2 ^ 64 ≤ lastPos t pp + 8)) false
          (RefFor c s t (stop.bind fun e => Spec.place s.bytes (s.len - Spec.offsetWidth s.len * nfo) pp e))
          (getChildElem c t s ⟨(k : Int) - 1, a', b', c'⟩ ts.isEmpty nfo) := by
      intro stop hstop
      unfold getChildElem
      simp only at hcalc
      rw [hstop] at hcalc
      have : ∀ (x : Outc (decide (2 ^ 64 ≤ lastPos t pp + 0) || false) (decide (2 ^ 64 ≤ lastPos t pp + 8) || false)
          (false || false) (RefFor c s t (stop.bind fun e => Spec.place s.bytes (s.len - Spec.offsetWidth s.len * nfo) pp e))
          (getChildElem c t s ⟨(k : Int) - 1, a', b', c'⟩ ts.isEmpty nfo)), _ := fun x => by
        simpa only [Bool.or_false] using x
      apply this
      unfold getChildElem
      refine hcalc.bind fun o ho => ?_
      rw [ho]
      cases stop with
      | none =>
        obtain ⟨r, hr, hr'⟩ := default_refFor (c := c) s hxt
        simp only [Option.bind_none]
        rw [hr]
        exact Outc.ok hr'
      | some e =>
        simp only [Option.bind_some, Spec.place]
        by_cases h : pp ≤ e ∧ e ≤ s.bytes.length - Spec.offsetWidth s.bytes.length * nfo
        · have h' : pp ≤ e ∧ e ≤ s.len - Spec.offsetWidth s.len * nfo := h
          simp only [if_pos h, if_pos h']
          obtain ⟨r, hr, hr'⟩ := window_refFor (c := c) hxt hat hpd h.1 (by simp only [Slice.len]; omega)
          rw [hr]
          exact Outc.ok hr'
        · have h' : ¬ (pp ≤ e ∧ e ≤ s.len - Spec.offsetWidth s.len * nfo) := h
          simp only [if_neg h, if_neg h']
          obtain ⟨r, hr, hr'⟩ := default_refFor (c := c) s hxt
          rw [hr]
          exact Outc.ok hr'
    simp only [tableLoop, hst, memberRefs, Spec.membersFrom, Spec.membersOver, Option.map_some, Option.bind_some, hpp]
    rw [sizeOf_eq]
    cases hs : Spec.size t with
    | some n =>
      have hsb := size_bound t n hs
      have hm := hmem (some (pp + n)) (by rw [hs])
      have hfl : framesLeft (t :: ts) = framesLeft ts := by simp [framesLeft, hs]
      rw [hfl] at hk1 hk
      have hrec := ih hx' ha' k a' b' (c' + n) f hb' hk1 (fun _ => hk) (by omega) (fun _ => hf)
      rw [← Nat.add_assoc, hpos] at hrec
      simp only [lastPos, hs, Option.getD_some] at hm
      exact hm.bind fun r hr => hrec.map fun rs hrs => ⟨hr, hrs⟩
    | none =>
      have hki : (k : Int) - 1 + 1 = ((k + 1 : Nat) : Int) - 1 := by omega
      simp only [hki]
      by_cases hts : ts = []
      · subst hts
        have hm := hmem (some (s.len - Spec.offsetWidth s.len * nfo)) (by rw [hs]; rfl)
        simp only [tableLoop, memberRefs, Spec.membersFrom, Spec.membersOver, if_true]
        simp only [lastPos, hs, Option.getD_none, Nat.add_zero] at hm
        cases Spec.frame s.bytes k <;> simp only [Bool.or_false] <;>
          exact hm.map fun r hr => ⟨hr, trivial⟩
      · have hfl : framesLeft (t :: ts) = 1 + framesLeft ts := by simp [framesLeft, hs, hts]
        rw [hfl] at hk1 hk
        have hex : ∃ g, Spec.frame s.bytes k = some g := by
          unfold Spec.frame
          simp only
          rw [if_pos]
          · exact ⟨_, rfl⟩
          · have h1 : (k + 1) * Spec.offsetWidth s.len ≤ nfo * Spec.offsetWidth s.len :=
              Nat.mul_le_mul_right _ (by omega)
            rw [Nat.mul_comm nfo] at h1
            exact Nat.le_trans h1 hw
        obtain ⟨g, hg⟩ := hex
        have hemp : ts.isEmpty = false := by simpa using hts
        have hm := hmem (some g) (by rw [hs, hemp]; simpa using hg)
        have hrec := ih hx' ha' (k + 1) 0 1 0 g (Or.inl rfl) (by omega) (fun _ => by omega)
          (by omega) (fun _ => by simp [frameBefore, hg])
        simp only [if_false, hts, hg, Option.bind_some]
        have hp1 : Spec.roundUp (g + 0) 1 + 0 = g := by simp [Spec.roundUp]
        rw [hp1] at hrec
        simp only [lastPos, hs, Option.getD_none, Nat.add_zero] at hm
        exact hm.bind fun r hr => hrec.map fun rs hrs => ⟨hr, hrs⟩

theorem tupRefs_out {c : Cfg} (hov : c.overflowChecks = true) {gv : Ty} {ts : List Ty} {s : Slice}
    (hgv : Spec.size gv = Spec.size (.tuple ts)) (hx : ∀ t ∈ ts, Expands t)
    {d} (hd : generateTuple gv ts = .ok d) (hsm : (Ty.shows ts).length < 2 ^ 40)
    (ha : Spec.alignMax ts ∣ s.addr) (hc : castBytes (.tuple ts) s.bytes = s.bytes)
    (hl : Spec.size (.tuple ts) = none → s.len < 2 ^ 63) :
    Outc (Spec.memberOver 0 ts s.bytes) (Spec.memberOver 8 ts s.bytes) false
      (RefsFor c s ts (Spec.memberChildren (.crate c.bigEndian) ts s.bytes)) (tupRefs c gv ts s) := by
  cases hs : Spec.size (.tuple ts) with
  | some n =>
    obtain ⟨rs, h1, h2⟩ := tupRefs_tame (c := c) hgv hx hd hsm ha hc hl (by
      intro i o hi
      rw [frameCount_fixed hs] at hi
      omega)
    have h3 : ∀ d, Spec.memberOver d ts s.bytes = false := fun d => by simp [Spec.memberOver, hs]
    rw [h1, h3, h3]
    exact Outc.ok h2
  | none =>
    have ha' : ∀ t ∈ ts, Spec.align t ∣ s.addr := fun t ht =>
      Nat.dvd_trans ((specAlign_isAl t).dvd (alignMax_isAl ts) (alignMax_ge ht)) ha
    have hl := hl hs
    have hnl := shows_length_ge ts
    have hfl := framesLeft_le ts
    unfold tupRefs Spec.memberChildren Spec.memberOver
    rw [sizeOf_eq, hgv, hs]
    simp only
    obtain ⟨cmds, hc⟩ := serLoop_ok (nFrameOffsets ts) ts 0 8 0 0 (by rw [nFrameOffsets_eq]; omega)
    have hp : writeNonFixedSizeStructure ts = .ok ⟨generateTable ts, nFrameOffsets ts, cmds⟩ := by
      simp [writeNonFixedSizeStructure, hc]
    simp only [hp, Res.bind_ok, nFrameOffsets_eq, Spec.Rules.crate, if_true, Spec.bodyEnd, frameCount_eq]
    by_cases hw : Spec.offsetWidth s.bytes.length * framesLeft ts ≤ s.bytes.length
    · rw [if_pos hw]
      have := memberRefs_out hov (s := s) hl (by omega) hw ts hx ha' 0 0 1 0 0 (Or.inl rfl)
        (by omega) (fun _ => by omega) (by omega) (fun _ => rfl)
      exact this
    · rw [if_neg hw]
      obtain ⟨rs, h1, h2⟩ := memberRefs_short (c := c) (nfo := framesLeft ts) hl (by omega)
        (by simpa [Slice.len] using hw) ts hx ⟨-1, 0, 1, 0⟩ (by simp) (by simp only; omega)
      exact Or.inl ⟨rs, h1, h2, rfl, rfl⟩

/-- What reading a reference to a value of type `t` gives in a build with overflow checks. -/
def ViewOut (c : Cfg) (t : Ty) : Prop :=
  ∀ r : Slice, Spec.align t ∣ r.addr → castBytes t r.bytes = r.bytes →
    (Spec.size t = none → r.len < 2 ^ 63) →
    Outc (Spec.over (.crate c.bigEndian) 0 t r.bytes) (Spec.over (.crate c.bigEndian) 8 t r.bytes)
      (Spec.ragged (.crate c.bigEndian) t r.bytes) (· = Spec.dec (.crate c.bigEndian) t r.bytes) (view c t r)

theorem child_out {c : Cfg} {s : Slice} {t : Ty} {o : Option Bytes} {r : Slice} (hsm : Small t) (ih : ViewOut c t)
    (h : RefFor c s t o r) (hl : Spec.size t = none → s.len < 2 ^ 63) :
    Outc (overChild (.crate c.bigEndian) 0 t o) (overChild (.crate c.bigEndian) 8 t o)
      (raggedChild (.crate c.bigEndian) t o) (· = decChild (.crate c.bigEndian) t o) (view c t r) := by
  obtain ⟨h1, h2, h3⟩ := h
  have hlen : Spec.size t = none → r.len < 2 ^ 63 := by
    intro hs
    rcases h3 with ⟨lo, hi, _, _, rfl⟩ | h3
    · have := sub_length_le' s.bytes lo hi
      have := hl hs
      simp only [Slice.len] at *
      omega
    · simp [Slice.len, h3.1, dfltBytes, hs]
  have := ih r h1 (by rw [h2]; exact castBytes_idem _ _) hlen
  rw [h2, over_castBytes (by decide) hsm, over_castBytes (by decide) hsm] at this
  cases o with
  | some x =>
    simpa only [Option.getD_some, raggedChild, decChild, overChild, dec_castBytes] using this
  | none =>
    simpa only [Option.getD_none, raggedChild, decChild, overChild, dec_castBytes, dec_dfltBytes,
      over_dflt (Nat.zero_le 8) hsm, over_dflt (Nat.le_refl 8) hsm] using this

theorem traverse_out {c : Cfg} {s : Slice} {t : Ty} (hsm : Small t) (ih : ViewOut c t)
    (hl : Spec.size t = none → s.len < 2 ^ 63) {os : List (Option Bytes)} {rs : List Slice}
    (h : List.Forall₂ (RefFor c s t) os rs) :
    Outc (os.any (overChild (.crate c.bigEndian) 0 t)) (os.any (overChild (.crate c.bigEndian) 8 t))
      (os.any (raggedChild (.crate c.bigEndian) t)) (· = os.map (decChild (.crate c.bigEndian) t))
      (Res.traverse (view c t) rs) := by
  induction h with
  | nil => exact Outc.ok rfl
  | @cons o r os rs h1 h2 ih2 =>
    rw [Res.traverse]
    simp only [List.any_cons, List.map_cons]
    refine (child_out hsm ih h1 hl).bind fun v hv => ih2.map fun vs hvs => ?_
    rw [hv, hvs]

theorem viewAll_out {c : Cfg} {s : Slice} (ts : List Ty) :
    (∀ t ∈ ts, Small t ∧ ViewOut c t) → (∀ t ∈ ts, Spec.size t = none → s.len < 2 ^ 63) →
    ∀ (os : List (Option Bytes)) (rs : List Slice), RefsFor c s ts os rs →
    Outc (Spec.overAny (.crate c.bigEndian) 0 ts os) (Spec.overAny (.crate c.bigEndian) 8 ts os)
      (Spec.raggedAny (.crate c.bigEndian) ts os) (· = Spec.decAll (.crate c.bigEndian) ts os)
      (viewAll c ts rs) := by
  induction ts with
  | nil =>
    intro _ _ os rs h
    cases os <;> cases rs <;> simp only [RefsFor] at h
    rw [viewAll]; exact Outc.ok rfl
  | cons t ts ih =>
    intro hv hl os rs h
    cases os with
    | nil => cases rs <;> simp only [RefsFor] at h
    | cons o os =>
      cases rs with
      | nil => simp only [RefsFor] at h
      | cons r rs =>
        obtain ⟨h1, h2⟩ := h
        obtain ⟨hsm, hvt⟩ := hv t (by simp)
        rw [viewAll, overAny_cons, overAny_cons, raggedAny_cons, decAll_cons]
        refine (child_out hsm hvt h1 (hl t (by simp))).bind fun v hv' =>
          (ih (fun u hu => hv u (by simp [hu])) (fun u hu => hl u (by simp [hu])) os rs h2).map fun vs hvs => ?_
        rw [hv', hvs]

theorem view_out (c : Cfg) (hov : c.overflowChecks = true) (t : Ty) :
    Expands t → Small t → ViewOut c t := by
  have leaf : ∀ t : Ty, (∀ b, Spec.Tame (.crate c.bigEndian) t b) → Expands t → Small t → ViewOut c t := by
    intro t ht hx hsm r ha hc hl
    rw [over_tame _ (by decide) t hsm _ (ht _), over_tame _ (by decide) t hsm _ (ht _)]
    exact Outc.guard (view_ok c t hx hsm r ha hc hl (ht _))
  induction t using Ty.ind with
  | a e ih =>
    intro hx hsm r ha hc hl
    have hx' := expands_A.1 hx
    have ha' : Spec.align e ∣ r.addr := by simpa [Spec.align] using ha
    have hl' : Spec.size e = none → r.len < 2 ^ 63 := fun _ => hl (by simp [Spec.size])
    rw [view, ragged_A, dec_A, over_A, over_A]
    refine (arrRefs_out (c := c) hov hx' ha' hc hl').bind fun rs hrs => ?_
    refine (traverse_out hsm.A (ih hx' hsm.A) hl' hrs).map fun vs hvs => ?_
    rw [hvs]
  | m e ih =>
    intro hx hsm r ha hc hl
    have hx' := expands_M.1 hx
    have ha' : Spec.align e ∣ r.addr := by simpa [Spec.align] using ha
    have hl' : r.len < 2 ^ 63 := hl (by simp [Spec.size])
    have h := toOption_ok (c := c) hx' ha' (Nat.lt_trans hl' (by decide))
    rw [view, Spec.ragged, dec_M, Spec.over, Spec.over]
    cases hm : Spec.maybeChild e r.bytes with
    | none => rw [hm] at h; simp only at h; rw [h]; exact Outc.ok rfl
    | some x =>
      rw [hm] at h
      obtain ⟨h1, h2⟩ := h
      simp only
      cases hb : Spec.badSize e x with
      | true => rw [h1 hb]; exact Or.inr (Or.inr ⟨rfl, rfl⟩)
      | false =>
        obtain ⟨r', h3, h4⟩ := h2 hb
        rw [h3, Res.bind_ok, Bool.false_or]
        simp only
        refine (child_out hsm.M (ih hx' hsm.M) h4 (fun _ => hl')).map fun v hv => ?_
        rw [hv]
        rfl
  | tuple ts ih =>
    intro hx hsm r ha hc hl
    obtain ⟨hx', d, hd⟩ := expands_tuple.1 hx
    have hsm' : ∀ t ∈ ts, Small t := fun t ht => by have := shows_ge ht; have := hsm.shows; unfold Small; omega
    rw [view, Spec.ragged, Spec.dec, Spec.over, Spec.over]
    have := (tupRefs_out (c := c) hov rfl hx' hd hsm.shows (by simpa [Spec.align] using ha) hc hl).bind
      fun rs hrs => (viewAll_out ts (fun t ht => ⟨hsm' t ht, ih t ht (hx' t ht) (hsm' t ht)⟩)
        (fun t ht hs => hl (members_nonfixed ht hs)) _ rs hrs).map (f := Val.tup)
          (Q := (· = Val.tup (Spec.decAll (.crate c.bigEndian) ts (Spec.memberChildren (.crate c.bigEndian) ts r.bytes))))
          fun vs hvs => by rw [hvs]
    rw [Bool.false_or] at this
    exact this
  | dict k v ihk ihv =>
    intro hx hsm r ha hc hl
    obtain ⟨⟨hxk, hxv⟩, d, hd⟩ := expands_dict.1 hx
    have hx' : ∀ t ∈ [k, v], Expands t := by
      intro t ht
      simp only [List.mem_cons, List.not_mem_nil, or_false] at ht
      rcases ht with rfl | rfl
      · exact hxk
      · exact hxv
    rw [castBytes_dict] at hc
    rw [size_dict_eq] at hl
    have hsm' := hsm.dict
    have hsk : Small k := by have := shows_ge (show k ∈ [k, v] by simp); unfold Small; omega
    have hsv : Small v := by have := shows_ge (show v ∈ [k, v] by simp); unfold Small; omega
    rw [view, ragged_dict, dec_dict, over_dict, over_dict, Spec.ragged, Spec.dec, Spec.over, Spec.over]
    have h0 := tupRefs_out (c := c) hov (size_dict_eq k v) hx' hd hsm'
      (by rw [align_dict_eq] at ha; simpa only [Spec.align] using ha) hc hl
    have hlen := memberChildren_length (.crate c.bigEndian) [k, v] r.bytes
    match hm : Spec.memberChildren (.crate c.bigEndian) [k, v] r.bytes, hlen with
    | [x, y], _ =>
      rw [hm] at h0
      have := h0.bind (f := fun rs => match rs with
          | [rk, rv] => do
            let a ← view c k rk
            let b ← view c v rv
            pure (Val.tup [a, b])
          | _ => .fail .explicit)
        (p := Spec.overAny (.crate c.bigEndian) 0 [k, v] [x, y])
        (p' := Spec.overAny (.crate c.bigEndian) 8 [k, v] [x, y])
        (h := Spec.raggedAny (.crate c.bigEndian) [k, v] [x, y])
        (Q := (· = Val.tup (Spec.decAll (.crate c.bigEndian) [k, v] [x, y]))) (by
        intro rs hrs
        match rs, hrs with
        | [rk, rv], ⟨h1, h2, _⟩ =>
          simp only
          rw [overAny_cons, overAny_cons, raggedAny_cons, decAll_cons, overAny_cons, overAny_cons, raggedAny_cons,
            decAll_cons]
          simp only [Spec.overAny, Spec.raggedAny, Spec.decAll, Bool.or_false]
          refine (child_out hsk (ihk hxk hsk) h1 (fun hs => hl (members_nonfixed (by simp) hs))).bind
            fun a ha' => (child_out hsv (ihv hxv hsv) h2 (fun hs => hl (members_nonfixed (by simp) hs))).map
              fun b hb => ?_
          rw [ha', hb])
      rw [Bool.false_or] at this
      exact this
  | _ => exact leaf _ fun b => by simp [Spec.Tame]

/-- With overflow checks, reading gives the value of the specification, panics because of a ragged
    array, or panics with an overflow. -/
theorem readAs_out {c : Cfg} (hov : c.overflowChecks = true) {t : Ty} {s : Slice} (hx : Expands t)
    (hsm : Small t) (ha : Spec.align t ∣ s.addr) (hl : s.len < 2 ^ 63) :
    Outc (Spec.over (.crate c.bigEndian) 0 t s.bytes) (Spec.over (.crate c.bigEndian) 8 t s.bytes)
      (Spec.ragged (.crate c.bigEndian) t s.bytes) (· = Spec.dec (.crate c.bigEndian) t s.bytes) (readAs c t s) := by
  obtain ⟨r, h1, h2, h3, h4⟩ := fromAligned_ok (c := c) hx ha
  have hlen : Spec.size t = none → r.len < 2 ^ 63 := by
    intro hs
    rcases h4 with rfl | h4
    · exact hl
    · simp [Slice.len, h4.1, dfltBytes, hs]
  unfold readAs
  have := view_out c hov t hx hsm r h2 (by rw [h3]; exact castBytes_idem _ _) hlen
  rw [h3, (dec_castBytes _ t _).1, (dec_castBytes _ t _).2, over_castBytes (by decide) hsm,
    over_castBytes (by decide) hsm] at this
  rw [h1, Res.bind_ok]
  exact this

end GV
