import Verif.Model.Eq
import Verif.Spec.Compare
import Verif.Spec.Encode
import Verif.Proofs.Faults
import Verif.Props.C27_C32
/-
Comparing references is comparing the values read from them.
-/
namespace GV
open Spec

/-! ### Doubles -/

/-- Magnitude of a double by its bit pattern without sign, see `double`. -/
def mag (k : Nat) : Nat :=
  if k / 2 ^ 52 = 0 then k % 2 ^ 52 else (2 ^ 52 + k % 2 ^ 52) * 2 ^ (k / 2 ^ 52 - 1)

theorem mag_lt {k l : Nat} (h : k < l) : mag k < mag l := by
  unfold mag
  have hm : k % 2 ^ 52 < 2 ^ 52 := Nat.mod_lt _ (by decide)
  have hm' : l % 2 ^ 52 < 2 ^ 52 := Nat.mod_lt _ (by decide)
  have hk := Nat.div_add_mod k (2 ^ 52)
  have hl := Nat.div_add_mod l (2 ^ 52)
  generalize k / 2 ^ 52 = e at *
  generalize l / 2 ^ 52 = e' at *
  generalize k % 2 ^ 52 = m at *
  generalize l % 2 ^ 52 = m' at *
  have hee : e ≤ e' := by
    by_contra hc
    have : 2 ^ 52 * (e' + 1) ≤ 2 ^ 52 * e := Nat.mul_le_mul_left _ (by omega)
    omega
  rcases Nat.eq_or_lt_of_le hee with rfl | hlt
  · have hmm : m < m' := by omega
    split
    · exact hmm
    · exact Nat.mul_lt_mul_of_pos_right (by omega) (Nat.two_pow_pos _)
  · rw [if_neg (show e' ≠ 0 by omega)]
    have h1 : 2 ^ 52 * 2 ^ e ≤ (2 ^ 52 + m') * 2 ^ (e' - 1) :=
      Nat.mul_le_mul (by omega) (Nat.pow_le_pow_right (by decide) (by omega))
    refine Nat.lt_of_lt_of_le ?_ h1
    split
    · rename_i h0; subst h0; omega
    · rename_i h0
      have : 2 ^ e = 2 ^ (e - 1) * 2 := by rw [← Nat.pow_succ]; congr 1; omega
      rw [this]
      have hp := Nat.two_pow_pos (e - 1)
      generalize 2 ^ (e - 1) = p at hp ⊢
      have : (2 ^ 52 + m) * p < (2 ^ 52 * 2) * p := Nat.mul_lt_mul_of_pos_right (by omega) hp
      calc (2 ^ 52 + m) * p < (2 ^ 52 * 2) * p := this
        _ = 2 ^ 52 * (p * 2) := by rw [Nat.mul_assoc, Nat.mul_comm 2 p]

theorem mag_zero : mag 0 = 0 := rfl

theorem mag_lt_iff {k l : Nat} : mag k < mag l ↔ k < l := by
  refine ⟨fun h => ?_, mag_lt⟩
  by_contra hc
  rcases Nat.eq_or_lt_of_le (Nat.not_lt.1 hc) with rfl | hlt
  · omega
  · have := mag_lt hlt; omega

theorem mag_eq_iff {k l : Nat} : mag k = mag l ↔ k = l := by
  refine ⟨fun h => ?_, fun h => by rw [h]⟩
  rcases Nat.lt_trichotomy k l with h1 | h1 | h1
  · have := mag_lt h1; omega
  · exact h1
  · have := mag_lt h1; omega

/-- The number of a double from its rank. -/
def rankVal (r : Int) : Int := if 0 ≤ r then (mag r.toNat : Int) else -(mag (-r).toNat : Int)

theorem rankVal_lt_iff {r s : Int} : rankVal r < rankVal s ↔ r < s := by
  unfold rankVal
  split <;> split
  · have := @mag_lt_iff r.toNat s.toNat; omega
  · have h0 := @mag_lt_iff 0 (-s).toNat
    rw [mag_zero] at h0; omega
  · have h0 := @mag_lt_iff 0 (-r).toNat
    rw [mag_zero] at h0; omega
  · have := @mag_lt_iff (-s).toNat (-r).toNat; omega

theorem rankVal_inj {r s : Int} : rankVal r = rankVal s ↔ r = s := by
  have h1 := @rankVal_lt_iff r s
  have h2 := @rankVal_lt_iff s r
  omega

theorem double_eq {n : Nat} (h : n < 2 ^ 64) :
    double n = if f64Nan n then none else some (rankVal (f64Rank n)) := by
  unfold double f64Nan f64Rank rankVal
  have he : n / 2 ^ 52 % 2 ^ 11 = n % 2 ^ 63 / 2 ^ 52 := by omega
  have hm : n % 2 ^ 52 = n % 2 ^ 63 % 2 ^ 52 := by omega
  have hnan : (n / 2 ^ 52 % 2 ^ 11 = 2047 ∧ n % 2 ^ 52 ≠ 0) ↔ n % 2 ^ 63 > 0x7ff0000000000000 := by omega
  simp only [hnan, decide_eq_true_eq]
  split
  · rfl
  · congr 1
    rw [he, hm]
    change (if n / 2 ^ 63 = 0 then ((mag (n % 2 ^ 63) : Nat) : Int) else -((mag (n % 2 ^ 63) : Nat) : Int)) = _
    by_cases hs : n < 2 ^ 63
    · rw [if_pos (by omega), if_pos hs, if_pos (by omega), Nat.mod_eq_of_lt hs]
      rfl
    · rw [if_neg (by omega), if_neg hs]
      generalize n % 2 ^ 63 = k
      split
      · have : k = 0 := by omega
        subst this; rfl
      · rw [show (- -(k : Int)).toNat = k by omega]

theorem f64Rank_eq {a b : Nat} (ha : a < 2 ^ 64) (hb : b < 2 ^ 64) : f64Rank a = f64Rank b ↔
    a = b ∨ (a % 2 ^ 63 = 0 ∧ b % 2 ^ 63 = 0) := by
  unfold f64Rank
  split <;> split <;> omega

theorem f64Eq_iff {a b : Nat} (ha : a < 2 ^ 64) (hb : b < 2 ^ 64) : f64Eq a b = true ↔
    ∃ x, double a = some x ∧ double b = some x := by
  rw [double_eq ha, double_eq hb]
  unfold f64Eq
  cases f64Nan a <;> cases f64Nan b <;> simp
  rw [rankVal_inj, eq_comm (a := f64Rank b), f64Rank_eq ha hb]

/-! ### Equality -/

/-- Comparing good references compares the values. -/
def EqOk (c : Cfg) (t : Ty) : Prop := ∀ root root' a b v w, Good c root t a → Good c root' t b →
  view c t a = .ok v → view c t b = .ok w → ∃ x, veq c t a b = .ok x ∧ (x = true ↔ Same t v w)

theorem zipEq_ok {c : Cfg} {root root' : Slice} {e : Ty} (ih : EqOk c e) : ∀ (rs rs' : List Slice) (vs ws : List Val),
    (∀ r ∈ rs, Good c root e r) → (∀ r ∈ rs', Good c root' e r) → Res.traverse (view c e) rs = .ok vs →
    Res.traverse (view c e) rs' = .ok ws → rs.length = rs'.length →
    ∃ x, zipEq (veq c e) rs rs' = .ok x ∧ (x = true ↔ List.Forall₂ (Same e) vs ws) := by
  intro rs
  induction rs with
  | nil =>
    intro rs' vs ws _ _ h1 h2 hlen
    cases rs' with
    | nil => cases h1; cases h2; exact ⟨true, rfl, by simp⟩
    | cons r' rs' => simp at hlen
  | cons r rs ihr =>
    intro rs' vs ws hg hg' h1 h2 hlen
    cases rs' with
    | nil => simp at hlen
    | cons r' rs' =>
      simp only [Res.traverse] at h1 h2
      obtain ⟨v, hv, h1⟩ := Res.bind_eq_ok.1 h1
      obtain ⟨vs', hvs, h1⟩ := Res.bind_eq_ok.1 h1
      obtain ⟨w, hw, h2⟩ := Res.bind_eq_ok.1 h2
      obtain ⟨ws', hws, h2⟩ := Res.bind_eq_ok.1 h2
      cases h1; cases h2
      obtain ⟨x, hx, hx'⟩ := ih root root' r r' v w (hg r (by simp)) (hg' r' (by simp)) hv hw
      obtain ⟨y, hy, hy'⟩ := ihr rs' vs' ws' (fun q hq => hg q (by simp [hq])) (fun q hq => hg' q (by simp [hq]))
        hvs hws (by simpa using hlen)
      simp only [zipEq, hx, Res.bind_ok, List.forall₂_cons]
      cases x with
      | false => exact ⟨false, rfl, by simpa using fun h => absurd h (by simpa using hx')⟩
      | true => exact ⟨y, by simpa using hy, by simpa [hx'.1 rfl] using hy'⟩

theorem zipLoop_eq {c : Cfg} {e : Ty} {eq : Slice → Slice → Res Bool} (fuel : Nat) : ∀ (fuel' : Nat) (it it' : ArrIter)
    (rs rs' : List Slice), collectIter c e fuel it = .ok rs → collectIter c e fuel' it' = .ok rs' →
    zipLoop c e eq fuel it it' = zipEq eq rs rs' := by
  induction fuel with
  | zero => intro fuel' it it' rs rs' h; cases h
  | succ fuel ih =>
    intro fuel' it it' rs rs' h h'
    cases fuel' with
    | zero => cases h'
    | succ fuel' =>
      simp only [collectIter] at h h'
      obtain ⟨⟨o, i1⟩, h1, h⟩ := Res.bind_eq_ok.1 h
      obtain ⟨⟨o', i1'⟩, h1', h'⟩ := Res.bind_eq_ok.1 h'
      simp only [zipLoop, h1, Res.bind_ok]
      cases o with
      | none => cases h; rfl
      | some r =>
        obtain ⟨rs1, h2, h⟩ := Res.bind_eq_ok.1 h
        cases h
        simp only [h1', Res.bind_ok]
        cases o' with
        | none => cases h'; rfl
        | some r' =>
          obtain ⟨rs1', h2', h'⟩ := Res.bind_eq_ok.1 h'
          cases h'
          simp only [zipEq]
          congr 1
          funext b
          cases b
          · rfl
          · exact ih fuel' i1 i1' rs1 rs1' h2 h2'

theorem refLoop_eq {c : Cfg} {e : Ty} {eq : Slice → Slice → Res Bool} (fuel : Nat) : ∀ (it : ArrIter)
    (rs ys : List Slice), collectIter c e fuel it = .ok rs → refLoop c e eq fuel it ys = zipEq eq rs ys := by
  induction fuel with
  | zero => intro it rs ys h; cases h
  | succ fuel ih =>
    intro it rs ys h
    simp only [collectIter] at h
    obtain ⟨⟨o, i1⟩, h1, h⟩ := Res.bind_eq_ok.1 h
    simp only [refLoop, h1, Res.bind_ok]
    cases o with
    | none => cases h; rfl
    | some r =>
      obtain ⟨rs1, h2, h⟩ := Res.bind_eq_ok.1 h
      cases h
      cases ys with
      | nil => rfl
      | cons y ys =>
        simp only [zipEq]
        congr 1
        funext b
        cases b
        · rfl
        · exact ih i1 rs1 ys h2

theorem traverse_length {α β : Type} {f : α → Res β} : ∀ {l : List α} {m : List β}, Res.traverse f l = .ok m →
    m.length = l.length := by
  intro l
  induction l with
  | nil => intro m h; cases h; rfl
  | cons a l ih =>
    intro m h
    simp only [Res.traverse] at h
    obtain ⟨b, _, h⟩ := Res.bind_eq_ok.1 h
    obtain ⟨m', h2, h⟩ := Res.bind_eq_ok.1 h
    cases h
    simp [ih h2]

theorem veqAll_ok {c : Cfg} {root root' : Slice} (ts : List Ty) : (∀ t ∈ ts, EqOk c t) →
    ∀ rs rs' vs ws, List.Forall₂ (Good c root) ts rs → List.Forall₂ (Good c root') ts rs' →
    viewAll c ts rs = .ok vs → viewAll c ts rs' = .ok ws →
    ∃ x, veqAll c ts rs rs' = .ok x ∧ (x = true ↔ SameAll ts vs ws) := by
  induction ts with
  | nil =>
    intro _ rs rs' vs ws h h' hv hw
    cases h; cases h'
    simp only [viewAll, Res.ok.injEq] at hv hw
    subst hv hw
    exact ⟨true, rfl, by simp [SameAll]⟩
  | cons t ts ih =>
    intro hall rs rs' vs ws h h' hv hw
    cases h with
    | @cons _ r _ rs hr hrs =>
      cases h' with
      | @cons _ r' _ rs' hr' hrs' =>
        simp only [viewAll] at hv hw
        obtain ⟨v, h1, hv⟩ := Res.bind_eq_ok.1 hv
        obtain ⟨vs', h2, hv⟩ := Res.bind_eq_ok.1 hv
        obtain ⟨w, g1, hw⟩ := Res.bind_eq_ok.1 hw
        obtain ⟨ws', g2, hw⟩ := Res.bind_eq_ok.1 hw
        cases hv; cases hw
        obtain ⟨x, hx, hx'⟩ := hall t (by simp) root root' r r' v w hr hr' h1 g1
        obtain ⟨y, hy, hy'⟩ := ih (fun u hu => hall u (by simp [hu])) rs rs' vs' ws' hrs hrs' h2 g2
        simp only [veqAll, hx, Res.bind_ok, SameAll]
        cases x with
        | false => exact ⟨false, rfl, by simpa using fun h => absurd h (by simpa using hx')⟩
        | true => exact ⟨y, by simpa using hy, by simpa [hx'.1 rfl] using hy'⟩

theorem variantEq_parts {c : Cfg} {a b : Slice} (ha : 8 ∣ a.addr) (hb : 8 ∣ b.addr) :
    variantEq c a b = .ok (decide (variantParts a.bytes = variantParts b.bytes)) := by
  obtain ⟨d, h1, _, h2, _⟩ := split_ok (c := c) (s := a) ha
  obtain ⟨d', g1, _, g2, _⟩ := split_ok (c := c) (s := b) hb
  unfold variantEq
  rw [h1, g1]
  simp only [Res.bind_ok, Res.pure_eq, h2, g2, Res.ok.injEq]
  rw [Bool.eq_iff_iff]
  simp [Prod.ext_iff]

theorem eqOk_bytes {c : Cfg} {t : Ty} {f : Bytes → Val} {g : Bytes → Bytes → Bool}
    (hv : ∀ s, view c t s = .ok (f s.bytes)) (he : ∀ a b, veq c t a b = .ok (g a.bytes b.bytes))
    (hs : ∀ v w, Same t v w = (v = w)) (h : ∀ a b, g a b = true ↔ f a = f b) : EqOk c t := by
  intro root root' a b v w _ _ h1 h2
  rw [hv, Res.ok.injEq] at h1 h2
  exact ⟨_, he a b, by rw [h, hs, h1, h2]⟩

theorem eq_ok (c : Cfg) (t : Ty) : EqOk c t := by
  induction t using Ty.ind with
  | b =>
    exact eqOk_bytes (f := fun b => .bool (toBool b)) (g := fun a b => toBool a == toBool b)
      (fun _ => rfl) (fun _ _ => rfl) (fun _ _ => rfl) (by simp)
  | s | o | g =>
    exact eqOk_bytes (f := fun b => .str (toStr b)) (g := strEq)
      (fun _ => rfl) (fun _ _ => rfl) (fun _ _ => rfl) (by simp [strEq_iff])
  | v =>
    intro root root' a b v w h h' hv hw
    have ha : 8 ∣ a.addr := h.al
    have hb : 8 ∣ b.addr := h'.al
    obtain ⟨d, h1, _, h2, _⟩ := split_ok (c := c) (s := a) ha
    obtain ⟨d', g1, _, g2, _⟩ := split_ok (c := c) (s := b) hb
    simp only [view, h1, g1, Res.bind_ok, Res.pure_eq, h2, g2, Res.ok.injEq] at hv hw
    refine ⟨_, variantEq_parts ha hb, ?_⟩
    rw [← hv, ← hw]
    simp [Same, Prod.ext_iff]
  | d =>
    intro root root' a b v w h h' hv hw
    have hla : a.bytes.length = 8 := castBytes_fixed_len (t := .D) rfl h.cast
    have hlb : b.bytes.length = 8 := castBytes_fixed_len (t := .D) rfl h'.cast
    have hlt : ∀ s : Bytes, s.length = 8 → fromNe c s < 2 ^ 64 := by
      intro s hs
      rw [fromNe_eq]
      have h1 := le_lt s
      have h2 := le_lt s.reverse
      rw [List.length_reverse] at h2
      rw [hs] at h1 h2
      unfold number
      split <;> omega
    simp only [view, Res.ok.injEq] at hv hw
    refine ⟨_, rfl, ?_⟩
    rw [← hv, ← hw]
    simp only [Same]
    exact f64Eq_iff (hlt _ hla) (hlt _ hlb)
  | a e ih =>
    intro root root' a b v w h h' hv hw
    simp only [view] at hv hw
    obtain ⟨rs, h1, hv⟩ := Res.bind_eq_ok.1 hv
    obtain ⟨vs, h2, hv⟩ := Res.bind_eq_ok.1 hv
    obtain ⟨rs', g1, hw⟩ := Res.bind_eq_ok.1 hw
    obtain ⟨ws, g2, hw⟩ := Res.bind_eq_ok.1 hw
    obtain rfl : Val.arr vs = v := Res.ok.inj hv
    obtain rfl : Val.arr ws = w := Res.ok.inj hw
    have hz := zipEq_ok ih rs rs' vs ws ((arrRefs_good h).1 rs h1) ((arrRefs_good h').1 rs' g1) h2 g2
    have hl1 := traverse_length h2
    have hl2 := traverse_length g2
    simp only [veq, Same]
    have hfalse : rs.length ≠ rs'.length → ¬ List.Forall₂ (Same e) vs ws :=
      fun hne hf => hne (by rw [← hl1, ← hl2]; exact hf.length_eq)
    cases hs : GV.sizeOf e with
    | some n =>
      simp only [arrRefs, hs] at h1 g1
      obtain ⟨⟨n, al⟩, hn, h1⟩ := Res.bind_eq_ok.1 h1
      rw [hn] at g1
      cases h1; cases g1
      simp only [hn, Res.bind_ok]
      by_cases hlen : (sliceElems n a).length = (sliceElems n b).length
      · rw [if_pos hlen]
        exact hz hlen
      · rw [if_neg hlen]
        exact ⟨false, rfl, by simpa using hfalse hlen⟩
    | none =>
      have hs' : size e = none := by rw [← sizeOf_eq]; exact hs
      obtain ⟨hn, _⟩ := Props.c30_ends c e a rs h.al h.len hs' h1
      obtain ⟨hn', _⟩ := Props.c30_ends c e b rs' h'.al h'.len hs' g1
      simp only [arrRefs, hs] at h1 g1
      obtain ⟨it, h3, h1⟩ := Res.bind_eq_ok.1 h1
      obtain ⟨it', g3, g1⟩ := Res.bind_eq_ok.1 g1
      simp only [hn, hn', h3, g3, Res.bind_ok]
      by_cases hlen : rs.length = rs'.length
      · rw [if_neg (by simpa using hlen), zipLoop_eq _ _ _ _ _ _ h1 g1]
        exact hz hlen
      · rw [if_pos hlen]
        exact ⟨false, rfl, by simpa using hfalse hlen⟩
  | m e ih =>
    intro root root' a b v w h h' hv hw
    simp only [view] at hv hw
    obtain ⟨o, h1, hv⟩ := Res.bind_eq_ok.1 hv
    obtain ⟨o', g1, hw⟩ := Res.bind_eq_ok.1 hw
    simp only [veq, h1, g1, Res.bind_ok]
    cases o with
    | none =>
      cases hv
      cases o' with
      | none => cases hw; exact ⟨true, rfl, by simp [Same]⟩
      | some q =>
        obtain ⟨y, _, hw⟩ := Res.bind_eq_ok.1 hw
        cases hw
        exact ⟨false, rfl, by simp [Same]⟩
    | some r =>
      obtain ⟨x, hx, hv⟩ := Res.bind_eq_ok.1 hv
      cases hv
      cases o' with
      | none => cases hw; exact ⟨false, rfl, by simp [Same]⟩
      | some q =>
        obtain ⟨y, hy, hw⟩ := Res.bind_eq_ok.1 hw
        cases hw
        simp only [Same]
        exact ih root root' r q x y ((toOption_good h).1 r h1) ((toOption_good h').1 q g1) hx hy
  | tuple ts ih =>
    intro root root' a b v w h h' hv hw
    simp only [view] at hv hw
    obtain ⟨rs, h1, hv⟩ := Res.bind_eq_ok.1 hv
    obtain ⟨vs, h2, hv⟩ := Res.bind_eq_ok.1 hv
    obtain ⟨rs', g1, hw⟩ := Res.bind_eq_ok.1 hw
    obtain ⟨ws, g2, hw⟩ := Res.bind_eq_ok.1 hw
    cases hv; cases hw
    obtain ⟨hx, d, hd⟩ := expands_tuple.1 h.ex
    have hg := (tuple_good h rfl rfl rfl hx hd h.sm.shows).1 rs h1
    have hg' := (tuple_good h' rfl rfl rfl hx hd h'.sm.shows).1 rs' g1
    simp only [veq, h1, g1, Res.bind_ok, Same]
    exact veqAll_ok ts ih rs rs' vs ws hg hg' h2 g2
  | dict k l ihk ihl =>
    intro root root' a b v w h h' hv hw
    simp only [view] at hv hw
    obtain ⟨rs, h1, hv⟩ := Res.bind_eq_ok.1 hv
    obtain ⟨rs', g1, hw⟩ := Res.bind_eq_ok.1 hw
    obtain ⟨⟨hk, hl⟩, d, hd⟩ := expands_dict.1 h.ex
    have hkl : ∀ t ∈ [k, l], Expands t := by
      intro t ht
      simp only [List.mem_cons, List.not_mem_nil, or_false] at ht
      rcases ht with rfl | rfl <;> assumption
    have hg := (tuple_good (ts := [k, l]) h (size_dict_eq k l) (align_dict_eq k l) (castBytes_dict k l _)
      hkl hd h.sm.dict).1 rs h1
    have hg' := (tuple_good (ts := [k, l]) h' (size_dict_eq k l) (align_dict_eq k l) (castBytes_dict k l _)
      hkl hd h'.sm.dict).1 rs' g1
    simp only [veq, h1, g1, Res.bind_ok]
    cases hg with
    | cons hrk hrest =>
      cases hrest with
      | cons hrv hnil =>
        cases hnil
        cases hg' with
        | cons hrk' hrest' =>
          cases hrest' with
          | cons hrv' hnil' =>
            cases hnil'
            simp only at hv hw
            obtain ⟨x, hx, hv⟩ := Res.bind_eq_ok.1 hv
            obtain ⟨y, hy, hv⟩ := Res.bind_eq_ok.1 hv
            obtain ⟨x', gx, hw⟩ := Res.bind_eq_ok.1 hw
            obtain ⟨y', gy, hw⟩ := Res.bind_eq_ok.1 hw
            cases hv; cases hw
            obtain ⟨p, hp, hp'⟩ := ihk root root' _ _ x x' hrk hrk' hx gx
            obtain ⟨q, hq, hq'⟩ := ihl root root' _ _ y y' hrv hrv' hy gy
            simp only [hp, Res.bind_ok, Same]
            cases p with
            | false => exact ⟨false, rfl, by simpa using fun h => absurd h (by simpa using hp')⟩
            | true => exact ⟨q, by simpa using hq, by simpa [hp'.1 rfl] using hq'⟩
  | _ =>
    exact eqOk_bytes (f := fun b => .num (fromNe c b)) (g := fun a b => fromNe c a == fromNe c b)
      (fun _ => rfl) (fun _ _ => rfl) (fun _ _ => rfl) (by simp)

/-- Comparing casted bytes compares the values read from them. -/
theorem eqAs_ok {c : Cfg} {t : Ty} {a b : Slice} {v w : Val} (hx : Expands t) (hsm : Small t)
    (ha : Spec.align t ∣ a.addr) (hb : Spec.align t ∣ b.addr) (hla : a.len < 2 ^ 63) (hlb : b.len < 2 ^ 63)
    (hv : readAs c t a = .ok v) (hw : readAs c t b = .ok w) :
    ∃ x, eqAs c t a b = .ok x ∧ (x = true ↔ Same t v w) := by
  obtain ⟨r, h1, h2⟩ := cast_good (c := c) hx hsm ha hla
  obtain ⟨r', g1, g2⟩ := cast_good (c := c) hx hsm hb hlb
  simp only [readAs, h1, g1, Res.bind_ok] at hv hw
  simp only [eqAs, h1, g1, Res.bind_ok]
  exact eq_ok c t a b r r' v w h2 g2 hv hw

/-- Without doubles inside, values are the same if they are equal. -/
def SameIsEq (t : Ty) : Prop := ∀ v w, Fits t v → Fits t w → (Same t v w ↔ v = w)

theorem sameAll_eq (ts : List Ty) : (∀ t ∈ ts, SameIsEq t) → ∀ vs ws, FitsAll ts vs → FitsAll ts ws →
    (SameAll ts vs ws ↔ vs = ws) := by
  induction ts with
  | nil =>
    intro _ vs ws h1 h2
    cases vs <;> simp [FitsAll] at h1
    cases ws <;> simp [FitsAll] at h2
    simp [SameAll]
  | cons t ts ih =>
    intro hall vs ws h1 h2
    cases vs with
    | nil => simp [FitsAll] at h1
    | cons v vs =>
      cases ws with
      | nil => simp [FitsAll] at h2
      | cons w ws =>
        simp only [FitsAll] at h1 h2
        simp only [SameAll, List.cons.injEq]
        rw [hall t (by simp) v w h1.1 h2.1, ih (fun u hu => hall u (by simp [hu])) vs ws h1.2 h2.2]

theorem same_eq (t : Ty) : ¬ Component .D t → SameIsEq t := by
  induction t using Ty.ind with
  | d => intro h; exact absurd (.refl _) h
  | a e ih =>
    intro hd v w hv hw
    have ih := ih fun h => hd (.array h)
    cases v <;> simp [Fits] at hv
    cases w <;> simp [Fits] at hw
    rename_i vs ws
    simp only [Same, Val.arr.injEq]
    induction vs generalizing ws with
    | nil => cases ws <;> simp
    | cons v vs ihv =>
      cases ws with
      | nil => simp
      | cons w ws =>
        have h := ihv (fun x hx => hv x (List.mem_cons_of_mem _ hx)) ws fun x hx => hw x (List.mem_cons_of_mem _ hx)
        rw [List.forall₂_cons, List.cons.injEq]
        exact and_congr (ih v w (hv v (by simp)) (hw w (by simp))) h
  | m e ih =>
    intro hd v w hv hw
    have ih := ih fun h => hd (.maybe h)
    cases v <;> simp [Fits] at hv <;> cases w <;> simp [Fits] at hw <;> simp [Same]
    exact ih _ _ hv hw
  | tuple ts ih =>
    intro hd v w hv hw
    cases v <;> simp [Fits] at hv
    cases w <;> simp [Fits] at hw
    simp only [Same, Val.tup.injEq]
    exact sameAll_eq ts (fun t ht => ih t ht fun h => hd (.member h ht)) _ _ hv hw
  | dict k l ihk ihl =>
    intro hd v w hv hw
    have ihk := ihk fun h => hd (.key h)
    have ihl := ihl fun h => hd (.value h)
    cases v with
    | tup vs =>
      cases w with
      | tup ws =>
        match vs, hv, ws, hw with
        | [x, y], hv, [x', y'], hw =>
          simp only [Fits] at hv hw
          simp only [Same, Val.tup.injEq, List.cons.injEq, and_true]
          rw [ihk x x' hv.1 hw.1, ihl y y' hv.2 hw.2]
        | [x, y], _, [], hw => simp [Fits] at hw
        | [x, y], _, [_], hw => simp [Fits] at hw
        | [x, y], _, _ :: _ :: _ :: _, hw => simp [Fits] at hw
        | [], hv, _, _ => simp [Fits] at hv
        | [_], hv, _, _ => simp [Fits] at hv
        | _ :: _ :: _ :: _, hv, _, _ => simp [Fits] at hv
      | _ => simp [Fits] at hw
    | _ => simp [Fits] at hv
  | _ => intro _ v w _ _; simp [Same]

end GV
