import Verif.Proofs.Eq
import Verif.Proofs.Reser
import Verif.Props.C10_C19
/-
C49, C50, C52: comparing values; maybes made from iterators.
-/
namespace GV.Props
open GV Spec

/-! ### C50 -/

/-- For types without doubles, `==` of two values that can be read is true exactly if everything that
    can be read from them is equal, wherever and however they are encoded. -/
theorem c50_equal (c : Cfg) (t : Ty) (a b : Slice) (v w : Val) (hx : Expands t) (hsm : Small t)
    (hd : ¬ Component .D t) (ha : Spec.align t ∣ a.addr) (hb : Spec.align t ∣ b.addr)
    (hla : a.len < 2 ^ 63) (hlb : b.len < 2 ^ 63) (hv : readAs c t a = .ok v) (hw : readAs c t b = .ok w) :
    ∃ x, eqAs c t a b = .ok x ∧ (x = true ↔ v = w) := by
  obtain ⟨x, h1, h2⟩ := eqAs_ok hx hsm ha hb hla hlb hv hw
  exact ⟨x, h1, h2.trans (same_eq t hd v w (readAs_fits hx hsm ha hla hv) (readAs_fits hx hsm hb hlb hw))⟩

/-- Two encodings of one `(sa{sb})`, one of them not in normal form (boolean 3), and another value. -/
example : eqAs dbg (.tuple [.S, .A (.dict .S .B)]) ⟨64, [97, 0, 98, 0, 1, 2, 4, 2]⟩
      ⟨128, [97, 0, 98, 0, 3, 2, 4, 2]⟩ = .ok true ∧
    readAs dbg (.tuple [.S, .A (.dict .S .B)]) ⟨64, [97, 0, 98, 0, 1, 2, 4, 2]⟩ =
      .ok (.tup [.str [97], .arr [.tup [.str [98], .bool true]]]) ∧
    eqAs dbg (.tuple [.S, .A (.dict .S .B)]) ⟨64, [97, 0, 98, 0, 1, 2, 4, 2]⟩
      ⟨128, [97, 0, 98, 0, 0, 2, 4, 2]⟩ = .ok false := ⟨rfl, rfl, rfl⟩

/-- For such types it is an equivalence. -/
theorem c50_equivalence (c : Cfg) (t : Ty) (hx : Expands t) (hsm : Small t) (hd : ¬ Component .D t)
    (a b d : Slice) (ha : Spec.align t ∣ a.addr) (hb : Spec.align t ∣ b.addr) (hc : Spec.align t ∣ d.addr)
    (hla : a.len < 2 ^ 63) (hlb : b.len < 2 ^ 63) (hlc : d.len < 2 ^ 63)
    (ra : ∃ v, readAs c t a = .ok v) (rb : ∃ v, readAs c t b = .ok v) (rc : ∃ v, readAs c t d = .ok v) :
    eqAs c t a a = .ok true ∧ eqAs c t a b = eqAs c t b a ∧
    (eqAs c t a b = .ok true → eqAs c t b d = .ok true → eqAs c t a d = .ok true) := by
  obtain ⟨u, hu⟩ := ra
  obtain ⟨v, hv⟩ := rb
  obtain ⟨w, hw⟩ := rc
  obtain ⟨x1, e1, f1⟩ := c50_equal c t a a u u hx hsm hd ha ha hla hla hu hu
  obtain ⟨x2, e2, f2⟩ := c50_equal c t a b u v hx hsm hd ha hb hla hlb hu hv
  obtain ⟨x3, e3, f3⟩ := c50_equal c t b a v u hx hsm hd hb ha hlb hla hv hu
  obtain ⟨x4, e4, f4⟩ := c50_equal c t b d v w hx hsm hd hb hc hlb hlc hv hw
  obtain ⟨x5, e5, f5⟩ := c50_equal c t a d u w hx hsm hd ha hc hla hlc hu hw
  refine ⟨by rw [e1, f1.2 rfl], ?_, ?_⟩
  · rw [e2, e3, Res.ok.injEq, Bool.eq_iff_iff, f2, f3]; exact eq_comm
  · rw [e2, e4, e5]
    intro h1 h2
    rw [f5.2 ((f2.1 (Res.ok.inj h1)).trans (f4.1 (Res.ok.inj h2)))]

/-- With doubles, `==` is equality in which doubles are compared as numbers. -/
theorem c50_doubles (c : Cfg) (t : Ty) (a b : Slice) (v w : Val) (hx : Expands t) (hsm : Small t)
    (ha : Spec.align t ∣ a.addr) (hb : Spec.align t ∣ b.addr)
    (hla : a.len < 2 ^ 63) (hlb : b.len < 2 ^ 63) (hv : readAs c t a = .ok v) (hw : readAs c t b = .ok w) :
    ∃ x, eqAs c t a b = .ok x ∧ (x = true ↔ Same t v w) :=
  eqAs_ok hx hsm ha hb hla hlb hv hw

/-- `ad`: 0.0 is equal to -0.0, NaN not to itself. -/
example : eqAs dbg (.A .D) ⟨64, [0, 0, 0, 0, 0, 0, 0, 128]⟩ ⟨64, [0, 0, 0, 0, 0, 0, 0, 0]⟩ = .ok true ∧
    eqAs dbg (.A .D) ⟨64, [0, 0, 0, 0, 0, 0, 248, 127]⟩ ⟨64, [0, 0, 0, 0, 0, 0, 248, 127]⟩ = .ok false := by
  decide +kernel

/-- Comparing an array of variable-width elements with a Rust slice of references (`[&T]`) compares the
    elements with what the references refer to. -/
theorem c50_array_refs (c : Cfg) (e : Ty) (a root : Slice) (ys : List Slice) (vs ws : List Val) (hx : Expands e)
    (hsm : Small (.A e)) (hs : size e = none) (ha : Spec.align e ∣ a.addr) (hla : a.len < 2 ^ 63)
    (hv : readAs c (.A e) a = .ok (.arr vs)) (hy : ∀ y ∈ ys, Good c root e y)
    (hw : Res.traverse (view c e) ys = .ok ws) :
    ∃ x, arrEqRefs c e a ys = .ok x ∧ (x = true ↔ Same (.A e) (.arr vs) (.arr ws)) := by
  have hs' : GV.sizeOf e = none := by rw [sizeOf_eq]; exact hs
  have hc : fromAligned c (.A e) a = .ok a := by
    simp [fromAligned, tryFromAligned, GV.sizeOf, hs']
  obtain ⟨r, h1, hg⟩ := cast_good (c := c) (t := .A e) (s := a) (expands_A.2 hx) hsm ha hla
  rw [hc] at h1
  obtain rfl : a = r := Res.ok.inj h1
  simp only [readAs, hc, Res.bind_ok, view] at hv
  obtain ⟨rs, h2, hv⟩ := Res.bind_eq_ok.1 hv
  obtain ⟨vs', h3, hv⟩ := Res.bind_eq_ok.1 hv
  simp only [Res.pure_eq, Res.ok.injEq, Val.arr.injEq] at hv
  subst hv
  obtain ⟨hn, _⟩ := c30_ends c e a rs hg.al hg.len hs h2
  have hz := zipEq_ok (eq_ok c e) rs ys vs' ws ((arrRefs_good hg).1 rs h2) hy h3 hw
  have hl1 := traverse_length h3
  have hl2 := traverse_length hw
  simp only [arrRefs, hs'] at h2
  obtain ⟨it, h4, h2⟩ := Res.bind_eq_ok.1 h2
  simp only [arrEqRefs, hn, h4, Res.bind_ok, Same]
  by_cases hlen : rs.length = ys.length
  · rw [if_neg (by simpa using hlen), refLoop_eq _ _ _ _ h2]
    exact hz hlen
  · rw [if_pos hlen]
    refine ⟨false, rfl, ?_⟩
    have : ¬ List.Forall₂ (Same e) vs' ws := fun hf => hlen (by rw [← hl1, ← hl2]; exact hf.length_eq)
    simpa using this

/-- `as` against two strings. -/
example : arrEqRefs dbg .S ⟨64, [97, 0, 98, 0, 2, 4]⟩ [⟨10, [97, 0]⟩, ⟨20, [98, 0]⟩] = .ok true ∧
    arrEqRefs dbg .S ⟨64, [97, 0, 98, 0, 2, 4]⟩ [⟨10, [97, 0]⟩] = .ok false := by decide +kernel

/-! ### C49 -/

/-- A maybe of a number. -/
def optVal : Option Nat → Val
  | none => .nothing
  | some n => .just (.num n)

theorem icmp_compare (x y : Int) : icmp x y = compare x y := by
  unfold icmp
  rcases Int.lt_trichotomy x y with h | h | h
  · rw [if_pos h, Int.compare_eq_lt.2 h]
  · subst h; simp
  · rw [if_neg (by omega), if_neg (by omega), Int.compare_eq_gt.2 h]

theorem numCmp_eq {e : Ty} {w a b : Nat} (hw : numWidth e = some w) (ha : a < 256 ^ w) (hb : b < 256 ^ w) :
    numCmp e a b = optCmp e (some a) (some b) := by
  cases e <;> simp only [numWidth, Option.some.injEq, reduceCtorEq] at hw <;> subst hw <;>
    simp only [numCmp, optCmp, numVal, icmp_compare, signed] <;> try rfl
  rw [double_eq (by omega), double_eq (by omega)]
  cases f64Nan a <;> cases f64Nan b <;> simp
  rcases Int.lt_trichotomy (f64Rank a) (f64Rank b) with h | h | h
  · rw [Int.compare_eq_lt.2 h, Int.compare_eq_lt.2 (rankVal_lt_iff.2 h)]
  · rw [h]; simp
  · rw [Int.compare_eq_gt.2 h, Int.compare_eq_gt.2 (rankVal_lt_iff.2 h)]

theorem toOption_num {c : Cfg} {e : Ty} {w : Nat} {s : Slice} (hw : numWidth e = some w)
    (ha : Spec.align e ∣ s.addr) : toOption c e s = .ok (if s.bytes.length = w then some s else none) := by
  have hal : s.isAligned w = true := by
    unfold Slice.isAligned
    cases e <;> simp_all [numWidth, Spec.align] <;> subst hw <;> omega
  cases e <;> simp only [numWidth, Option.some.injEq, reduceCtorEq] at hw <;> subst hw <;>
    simp only [toOption, GV.sizeOf, tryFromAligned, tryCastSliceTo, rustLayout, Res.bind_ok, mkRef, hal, Slice.len,
      if_true, eq_comm (b := s.bytes.length)] <;> split <;> rfl

theorem fromNe_lt {c : Cfg} {b : Bytes} {w : Nat} (h : b.length = w) : fromNe c b < 256 ^ w := by
  rw [fromNe_eq, ← h]
  unfold number
  split
  · have := le_lt b.reverse; rwa [List.length_reverse] at this
  · exact le_lt b

theorem optVal_inj {o o' : Option Nat} : optVal o = optVal o' ↔ o = o' := by
  cases o <;> cases o' <;> simp [optVal]

theorem readMaybe_num {c : Cfg} {e : Ty} {w : Nat} {s : Slice} (hw : numWidth e = some w)
    (hs : Spec.align e ∣ s.addr) : readAs c (.M e) s =
      .ok (optVal (if s.bytes.length = w then some (fromNe c s.bytes) else none)) := by
  have hc : fromAligned c (.M e) s = .ok s := by simp [fromAligned, tryFromAligned, GV.sizeOf]
  have hv : ∀ r, view c e r = .ok (.num (fromNe c r.bytes)) := by
    intro r
    cases e <;> first | rfl | simp [numWidth] at hw
  simp only [readAs, hc, Res.bind_ok, view, toOption_num hw hs]
  by_cases h : s.bytes.length = w <;> simp only [h, if_true, if_false, hv, Res.bind_ok] <;> rfl

/-- For maybes of numbers: what two of them hold, and that ordering is that of options of numbers. -/
theorem c49_order (c : Cfg) (e : Ty) (w : Nat) (a b : Slice) (hw : numWidth e = some w)
    (ha : Spec.align e ∣ a.addr) (hb : Spec.align e ∣ b.addr) :
    ∃ o o', readAs c (.M e) a = .ok (optVal o) ∧ readAs c (.M e) b = .ok (optVal o') ∧
      (o = none ↔ a.bytes.length ≠ w) ∧ maybeCmp c e a b = .ok (optCmp e o o') := by
  have key := fun s hs => readMaybe_num (c := c) (s := s) hw hs
  refine ⟨_, _, key a ha, key b hb, by simp, ?_⟩
  simp only [maybeCmp, toOption_num hw ha, toOption_num hw hb, Res.bind_ok, Res.pure_eq, Res.ok.injEq]
  by_cases h1 : a.bytes.length = w <;> by_cases h2 : b.bytes.length = w <;>
    simp only [h1, h2, if_true, if_false]
  · exact numCmp_eq hw (fromNe_lt h1) (fromNe_lt h2)
  · rfl
  · rfl
  · rfl

/-- `mn`: Nothing, also from a wrong size, is before -1, and -1 before 1; `md`: NaN is incomparable. -/
example : maybeCmp dbg .N ⟨64, [9]⟩ ⟨64, [255, 255]⟩ = .ok (some .lt) ∧
    maybeCmp dbg .N ⟨64, [255, 255]⟩ ⟨64, [1, 0]⟩ = .ok (some .lt) ∧
    maybeCmp dbg .D ⟨64, [0, 0, 0, 0, 0, 0, 248, 127]⟩ ⟨64, [0, 0, 0, 0, 0, 0, 248, 127]⟩ = .ok none := by
  decide +kernel

theorem optCmp_eq_iff {e : Ty} {o o' : Option Nat} : optCmp e o o' = some .eq ↔
    (o = none ∧ o' = none) ∨ ∃ a b x, o = some a ∧ o' = some b ∧ numVal e a = some x ∧ numVal e b = some x := by
  cases o with
  | none => cases o' <;> simp [optCmp]
  | some a =>
    cases o' with
    | none => simp [optCmp]
    | some b =>
      simp only [optCmp]
      cases h1 : numVal e a <;> cases h2 : numVal e b <;> simp [h1, h2]

/-- Equality of maybes of numbers is being equal in that order; integers held are equal only if
    identical. -/
theorem c49_equal (c : Cfg) (e : Ty) (w : Nat) (a b : Slice) (hw : numWidth e = some w)
    (ha : Spec.align e ∣ a.addr) (hb : Spec.align e ∣ b.addr) (hla : a.len < 2 ^ 63) (hlb : b.len < 2 ^ 63) :
    ∃ r, maybeCmp c e a b = .ok r ∧ eqAs c (.M e) a b = .ok (decide (r = some .eq)) := by
  obtain ⟨o, o', h1, h2, _, h3⟩ := c49_order c e w a b hw ha hb
  refine ⟨_, h3, ?_⟩
  have hx : Expands (.M e) := by cases e <;> first | decide | simp [numWidth] at hw
  have hsm : Small (.M e) := by cases e <;> first | decide | simp [numWidth] at hw
  obtain ⟨x, h4, h5⟩ := eqAs_ok hx hsm (by simpa [Spec.align] using ha) (by simpa [Spec.align] using hb) hla hlb h1 h2
  rw [h4, Res.ok.injEq, Bool.eq_iff_iff, h5, decide_eq_true_eq, optCmp_eq_iff]
  have hfit := readAs_fits hx hsm (by simpa [Spec.align] using ha) hla h1
  have hfit' := readAs_fits hx hsm (by simpa [Spec.align] using hb) hlb h2
  cases o with
  | none => cases o' <;> simp [optVal, Same]
  | some m =>
    cases o' with
    | none => simp [optVal, Same]
    | some n =>
      simp only [optVal, Same, Fits] at hfit hfit' ⊢
      cases e <;> simp only [numWidth, reduceCtorEq, Option.some.injEq] at hw <;>
        simp only [Same, Fits, numVal, Val.num.injEq, Option.some.injEq, reduceCtorEq, false_and, false_or] at hfit hfit' ⊢ <;>
        constructor <;> intro h
      all_goals first
        | (subst h; exact ⟨_, _, _, rfl, rfl, rfl, rfl⟩)
        | (obtain ⟨x, hx, hy⟩ := h; exact ⟨_, _, _, rfl, rfl, hx, hy⟩)
        | (obtain ⟨p, q, x, rfl, rfl, hx, hy⟩ := h; exact ⟨x, hx, hy⟩)
        | (obtain ⟨p, q, x, rfl, rfl, hx, hy⟩ := h; split at hx <;> split at hy <;> omega)
        | (obtain ⟨p, q, x, rfl, rfl, hx, hy⟩ := h; omega)

/-- Maybes of integers feed the same to a hasher exactly if they are equal. -/
theorem c49_hash (c : Cfg) (e : Ty) (w : Nat) (a b : Slice) (hw : numWidth e = some w) (hd : e ≠ .D)
    (ha : Spec.align e ∣ a.addr) (hb : Spec.align e ∣ b.addr) (hla : a.len < 2 ^ 63) (hlb : b.len < 2 ^ 63) :
    ∃ h h', maybeHash c e a = .ok h ∧ maybeHash c e b = .ok h' ∧
      eqAs c (.M e) a b = .ok (decide (h = h')) := by
  obtain ⟨o, o', h1, h2, _, h3⟩ := c49_order c e w a b hw ha hb
  have hx : Expands (.M e) := by cases e <;> first | decide | simp [numWidth] at hw
  have hsm : Small (.M e) := by cases e <;> first | decide | simp [numWidth] at hw
  obtain ⟨x, h4, h5⟩ := eqAs_ok hx hsm (by simpa [Spec.align] using ha) (by simpa [Spec.align] using hb) hla hlb h1 h2
  have hnd : ¬ Component .D (.M e) := by
    intro h
    cases h with
    | maybe h => cases h with
      | refl => exact hd rfl
      | _ => simp [numWidth] at hw
  rw [same_eq (.M e) hnd _ _ (readAs_fits hx hsm (by simpa [Spec.align] using ha) hla h1)
    (readAs_fits hx hsm (by simpa [Spec.align] using hb) hlb h2), optVal_inj] at h5
  have key : ∀ (s : Slice) (o : Option Nat), Spec.align e ∣ s.addr → readAs c (.M e) s = .ok (optVal o) →
      maybeHash c e s = .ok (match o with | none => [.isize 0] | some n => [.isize 1, .int e n]) := by
    intro s o hs hr
    rw [readMaybe_num hw hs, Res.ok.injEq, optVal_inj] at hr
    subst hr
    simp only [maybeHash, toOption_num hw hs, Res.bind_ok, Res.pure_eq]
    by_cases h : s.bytes.length = w <;> simp only [h, if_true, if_false]
  refine ⟨_, _, key a o ha h1, key b o' hb h2, ?_⟩
  rw [h4, Res.ok.injEq, Bool.eq_iff_iff, h5, decide_eq_true_eq]
  cases o <;> cases o' <;> simp

/-- `mq`: two spellings of Nothing, and two different contents. -/
example : maybeHash dbg .Q ⟨64, []⟩ = maybeHash dbg .Q ⟨64, [1, 2, 3]⟩ ∧
    maybeHash dbg .Q ⟨64, [1, 2]⟩ = .ok [.isize 1, .int .Q 513] ∧
    eqAs dbg (.M .Q) ⟨64, []⟩ ⟨64, [1, 2, 3]⟩ = .ok true ∧
    eqAs dbg (.M .Q) ⟨64, [1, 2]⟩ ⟨64, [1, 3]⟩ = .ok false := by decide +kernel

/-- What an optional reference stands for. -/
def OptRef (c : Cfg) (root : Slice) (e : Ty) (o : Option Slice) (v : Val) : Prop :=
  match o with
  | none => v = .nothing
  | some r => Good c root e r ∧ ∃ x, view c e r = .ok x ∧ v = .just x

/-- Maybes of any type, compared with each other or with an `Option<&T>`, are compared by what they
    hold: Nothing is equal to Nothing only, contents are compared as values. -/
theorem c49_option (c : Cfg) (e : Ty) (a root : Slice) (o : Option Slice) (v w : Val) (hx : Expands e)
    (hsm : Small (.M e)) (ha : Spec.align e ∣ a.addr) (hla : a.len < 2 ^ 63) (hv : readAs c (.M e) a = .ok v)
    (hw : OptRef c root e o w) :
    ∃ x, maybeEqOption c e a o = .ok x ∧ (x = true ↔
      (v = .nothing ∧ w = .nothing) ∨ ∃ y z, v = .just y ∧ w = .just z ∧ Same e y z) := by
  have hc : fromAligned c (.M e) a = .ok a := by simp [fromAligned, tryFromAligned, GV.sizeOf]
  obtain ⟨r, h1, hg⟩ := cast_good (c := c) (t := .M e) (s := a) (expands_M.2 hx) hsm ha hla
  rw [hc] at h1
  obtain rfl : a = r := Res.ok.inj h1
  simp only [readAs, hc, Res.bind_ok, view] at hv
  obtain ⟨p, h2, hv⟩ := Res.bind_eq_ok.1 hv
  simp only [maybeEqOption, h2, Res.bind_ok]
  cases p with
  | none =>
    cases hv
    cases o with
    | none => cases hw; exact ⟨true, rfl, by simp⟩
    | some q => obtain ⟨_, x, _, rfl⟩ := hw; exact ⟨false, rfl, by simp⟩
  | some q =>
    obtain ⟨y, hy, hv⟩ := Res.bind_eq_ok.1 hv
    cases hv
    cases o with
    | none => cases hw; exact ⟨false, rfl, by simp⟩
    | some q' =>
      obtain ⟨hg', z, hz, rfl⟩ := hw
      obtain ⟨x, e1, e2⟩ := eq_ok c e a root q q' y z ((toOption_good hg).1 q h2) hg' hy hz
      refine ⟨x, e1, e2.trans ?_⟩
      constructor
      · intro h; exact .inr ⟨y, z, rfl, rfl, h⟩
      · rintro (⟨h, _⟩ | ⟨y', z', h1, h2, h3⟩)
        · cases h
        · cases h1; cases h2; exact h3

/-- `ms` holding "a" against `Some("a")`, and Nothing against it. -/
example : maybeEqOption dbg .S ⟨64, [97, 0, 0]⟩ (some ⟨10, [97, 0]⟩) = .ok true ∧
    maybeEqOption dbg .S ⟨64, []⟩ (some ⟨10, [97, 0]⟩) = .ok false ∧
    maybeEqOption dbg .S ⟨64, []⟩ none = .ok true := by decide +kernel

/-- The hypotheses hold for it. -/
example : readAs dbg (.M .S) ⟨64, [97, 0, 0]⟩ = .ok (.just (.str [97])) ∧
    OptRef dbg ⟨10, [97, 0]⟩ .S (some ⟨10, [97, 0]⟩) (.just (.str [97])) := by
  refine ⟨rfl, ?_, _, rfl, rfl⟩
  obtain ⟨r, h, hg⟩ := cast_good (c := dbg) (t := .S) (s := ⟨10, [97, 0]⟩) (by decide) (by decide)
    (by decide) (by decide)
  obtain rfl : (⟨10, [97, 0]⟩ : Slice) = r := Res.ok.inj h
  exact hg

/-! ### C52 -/

/-- Serializing something iterable as a maybe never drops items silently. -/
def C52_full : Prop := ∀ (c : Cfg) (e : Ty) (xs : List Src) (b : Bytes), Expands e →
  Accepts (.M e) (.iter xs) → serializeToVec c (.M e) (.iter xs) = .ok b → xs.length ≤ 1

/-- Two strings as `ms`: only the first is written. -/
theorem c52_full_false : ¬ C52_full := by
  intro h
  have := h dbg .S [.strRef [97, 0], .strRef [98, 0]] [97, 0, 0] (by decide)
    (by simp [Accepts, AcceptsEach, isStr, size]) rfl
  simp at this

/-- Exactly the first item counts: the result, and everything seen by the writer, is that of an
    option holding it; without items that of `None`.  Missing: an error for further items. -/
theorem c52_first_partial {σ : Type} (w : Writer σ) (c : Cfg) (e : Ty) (xs : List Src) (st : σ) (hs : size e = none) :
    serialize w c (.M e) (.iter xs) st =
      serialize w c (.M e) (match xs with | [] => .nothing | x :: _ => .just x) st := by
  have hs' : GV.sizeOf e = none := by rw [sizeOf_eq]; exact hs
  unfold serialize
  cases xs with
  | nil => simp only [ser, hs']
  | cons x xs => simp only [ser, hs']

example : serializeToVec dbg (.M .S) (.iter [.strRef [97, 0], .strRef [98, 0]]) = .ok [97, 0, 0] := rfl

end GV.Props
