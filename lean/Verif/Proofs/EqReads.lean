import Verif.Proofs.Eq
/-
Values that compare equal can be read.
-/
namespace GV
open GV Spec

/-- Comparing good references has the answer `true` only after everything in them was read. -/
def EqReads (c : Cfg) (t : Ty) : Prop := ∀ root root' a b, Good c root t a → Good c root' t b →
  veq c t a b = .ok true → ∃ v w, view c t a = .ok v ∧ view c t b = .ok w

theorem if_true_ok {b : Bool} {x : Res Bool} (h : (if b then x else pure false) = .ok true) :
    b = true ∧ x = .ok true := by
  cases b with
  | true => exact ⟨rfl, h⟩
  | false => cases h

theorem zipEq_reads {c : Cfg} {root root' : Slice} {e : Ty} (ih : EqReads c e) : ∀ (rs rs' : List Slice),
    (∀ r ∈ rs, Good c root e r) → (∀ r ∈ rs', Good c root' e r) → rs.length = rs'.length →
    zipEq (veq c e) rs rs' = .ok true →
    ∃ vs ws, Res.traverse (view c e) rs = .ok vs ∧ Res.traverse (view c e) rs' = .ok ws := by
  intro rs
  induction rs with
  | nil =>
    intro rs' _ _ hlen _
    cases rs' with
    | nil => exact ⟨[], [], rfl, rfl⟩
    | cons r' rs' => simp at hlen
  | cons r rs ihr =>
    intro rs' hg hg' hlen h
    cases rs' with
    | nil => simp at hlen
    | cons r' rs' =>
      simp only [zipEq] at h
      obtain ⟨x, hx, h⟩ := Res.bind_eq_ok.1 h
      obtain ⟨rfl, h⟩ := if_true_ok h
      obtain ⟨v, w, hv, hw⟩ := ih root root' r r' (hg r (by simp)) (hg' r' (by simp)) hx
      obtain ⟨vs, ws, hvs, hws⟩ := ihr rs' (fun q hq => hg q (by simp [hq])) (fun q hq => hg' q (by simp [hq]))
        (by simpa using hlen) h
      exact ⟨v :: vs, w :: ws, by simp [Res.traverse, hv, hvs], by simp [Res.traverse, hw, hws]⟩

theorem zipLoop_reads {c : Cfg} {e : Ty} {s s' : Slice} {eq : Slice → Slice → Res Bool} (ha : Spec.align e ∣ s.addr)
    (hl : s.len < 2 ^ 63) (ha' : Spec.align e ∣ s'.addr) (hl' : s'.len < 2 ^ 63)
    (hn : (Spec.arrFrame s'.bytes).2.length = (Spec.arrFrame s.bytes).2.length) (fuel : Nat) :
    ∀ j, j ≤ (Spec.arrFrame s.bytes).2.length →
    zipLoop c e eq fuel (iterState s j (prevStop s.bytes j)) (iterState s' j (prevStop s'.bytes j)) = .ok true →
    ∃ rs rs', Res.traverse (arrIndex c e s) (List.range' j ((Spec.arrFrame s.bytes).2.length - j)) = .ok rs ∧
      Res.traverse (arrIndex c e s') (List.range' j ((Spec.arrFrame s.bytes).2.length - j)) = .ok rs' ∧
      zipEq eq rs rs' = .ok true := by
  generalize hm : (Spec.arrFrame s.bytes).2.length = n at hn
  induction fuel with
  | zero => intro j _ h; cases h
  | succ fuel ih =>
    intro j hj h
    simp only [zipLoop] at h
    by_cases hlt : j < n
    · have hj1 : j < (Spec.arrFrame s.bytes).2.length := by omega
      have hj2 : j < (Spec.arrFrame s'.bytes).2.length := by omega
      rw [iterNext_raw ha hl hj1 (prevStop_lt _ _), iterNext_raw ha' hl' hj2 (prevStop_lt _ _)] at h
      rw [show n - j = (n - (j + 1)) + 1 by omega, List.range'_succ]
      simp only [Res.traverse]
      rw [arrIndex_raw ha hl hj1, arrIndex_raw ha' hl' hj2]
      cases hr : elemRaw c e s (Spec.arrFrame s.bytes).1 (prevStop s.bytes j) (Spec.arrFrame s.bytes).2[j] with
      | fail f => rw [hr] at h; cases h
      | ok r =>
        rw [hr] at h
        cases hr' : elemRaw c e s' (Spec.arrFrame s'.bytes).1 (prevStop s'.bytes j) (Spec.arrFrame s'.bytes).2[j] with
        | fail f => rw [hr'] at h; cases h
        | ok r' =>
          rw [hr'] at h
          simp only [Res.bind_ok] at h ⊢
          obtain ⟨x, hx, h⟩ := Res.bind_eq_ok.1 h
          obtain ⟨rfl, h⟩ := if_true_ok h
          rw [← prevStop_succ hj1, ← prevStop_succ hj2] at h
          obtain ⟨rs, rs', h1, h2, h3⟩ := ih (j + 1) (by omega) h
          refine ⟨r :: rs, r' :: rs', by simp [h1], by simp [h2], ?_⟩
          simp [zipEq, hx, h3]
    · rw [show n - j = 0 by omega]
      exact ⟨[], [], rfl, rfl, rfl⟩

theorem veqAll_reads {c : Cfg} {root root' : Slice} (ts : List Ty) : (∀ t ∈ ts, EqReads c t) →
    ∀ rs rs', List.Forall₂ (Good c root) ts rs → List.Forall₂ (Good c root') ts rs' →
    veqAll c ts rs rs' = .ok true → ∃ vs ws, viewAll c ts rs = .ok vs ∧ viewAll c ts rs' = .ok ws := by
  induction ts with
  | nil =>
    intro _ rs rs' h h' _
    cases h; cases h'
    exact ⟨[], [], rfl, rfl⟩
  | cons t ts ih =>
    intro hall rs rs' h h' he
    cases h with
    | @cons _ r _ rs hr hrs =>
      cases h' with
      | @cons _ r' _ rs' hr' hrs' =>
        simp only [veqAll] at he
        obtain ⟨x, hx, he⟩ := Res.bind_eq_ok.1 he
        obtain ⟨rfl, he⟩ := if_true_ok he
        obtain ⟨v, w, hv, hw⟩ := hall t (by simp) root root' r r' hr hr' hx
        obtain ⟨vs, ws, hvs, hws⟩ := ih (fun u hu => hall u (by simp [hu])) rs rs' hrs hrs' he
        exact ⟨v :: vs, w :: ws, by simp [viewAll, hv, hvs], by simp [viewAll, hw, hws]⟩

theorem eq_reads (c : Cfg) (t : Ty) : EqReads c t := by
  induction t using Ty.ind with
  | v =>
    intro root root' a b h h' _
    obtain ⟨d, h1, _, _, _⟩ := split_ok (c := c) (s := a) h.al
    obtain ⟨d', g1, _, _, _⟩ := split_ok (c := c) (s := b) h'.al
    simp only [view, h1, g1, Res.bind_ok, Res.pure_eq, Res.ok.injEq]
    exact ⟨_, _, rfl, rfl⟩
  | a e ih =>
    intro root root' a b h h' he
    have hrs : ∃ rs rs', arrRefs c e a = .ok rs ∧ arrRefs c e b = .ok rs' ∧ rs.length = rs'.length ∧
        zipEq (veq c e) rs rs' = .ok true := by
      simp only [veq] at he
      cases hs : GV.sizeOf e with
      | some n =>
        simp only [hs] at he
        obtain ⟨⟨n, al⟩, hn, he⟩ := Res.bind_eq_ok.1 he
        refine ⟨sliceElems n a, sliceElems n b, by simp [arrRefs, hs, hn], by simp [arrRefs, hs, hn], ?_⟩
        by_cases hlen : (sliceElems n a).length = (sliceElems n b).length
        · simp only [if_pos hlen] at he
          exact ⟨hlen, he⟩
        · simp only [if_neg hlen] at he
          cases he
      | none =>
        have hs' : size e = none := by rw [← sizeOf_eq]; exact hs
        have hal : Spec.align e ∣ a.addr := h.al
        have hal' : Spec.align e ∣ b.addr := h'.al
        simp only [hs, arrLen_ok h.len, arrLen_ok h'.len, intoIter_ok hal h.len, intoIter_ok hal' h'.len,
          Res.bind_ok] at he
        split at he
        · cases he
        · rename_i hlen
          have hlen := not_not.1 hlen
          obtain ⟨rs, rs', h1, h2, h3⟩ := zipLoop_reads (e := e) hal h.len hal' h'.len hlen.symm _ 0
            (Nat.zero_le _) he
          rw [Nat.sub_zero, ← List.range_eq_range'] at h1 h2
          refine ⟨rs, rs', ?_, ?_, ?_, h3⟩
          · rw [arrRefs_eq hal h.len hs']; exact h1
          · rw [arrRefs_eq hal' h'.len hs', ← hlen]; exact h2
          · rw [traverse_length h1, traverse_length h2]
    obtain ⟨rs, rs', h1, g1, hlen, hz⟩ := hrs
    obtain ⟨vs, ws, hvs, hws⟩ := zipEq_reads ih rs rs' ((arrRefs_good h).1 rs h1) ((arrRefs_good h').1 rs' g1) hlen hz
    exact ⟨.arr vs, .arr ws, by simp [view, h1, hvs], by simp [view, g1, hws]⟩
  | m e ih =>
    intro root root' a b h h' he
    simp only [veq] at he
    obtain ⟨o, h1, he⟩ := Res.bind_eq_ok.1 he
    obtain ⟨o', g1, he⟩ := Res.bind_eq_ok.1 he
    cases o with
    | none =>
      cases o' with
      | none => exact ⟨.nothing, .nothing, by simp [view, h1], by simp [view, g1]⟩
      | some q => cases he
    | some r =>
      cases o' with
      | none => cases he
      | some q =>
        obtain ⟨x, y, hx, hy⟩ := ih root root' r q ((toOption_good h).1 r h1) ((toOption_good h').1 q g1) he
        exact ⟨.just x, .just y, by simp [view, h1, hx], by simp [view, g1, hy]⟩
  | tuple ts ih =>
    intro root root' a b h h' he
    simp only [veq] at he
    obtain ⟨rs, h1, he⟩ := Res.bind_eq_ok.1 he
    obtain ⟨rs', g1, he⟩ := Res.bind_eq_ok.1 he
    obtain ⟨hx, d, hd⟩ := expands_tuple.1 h.ex
    have hg := (tuple_good h rfl rfl rfl hx hd h.sm.shows).1 rs h1
    have hg' := (tuple_good h' rfl rfl rfl hx hd h'.sm.shows).1 rs' g1
    obtain ⟨vs, ws, hvs, hws⟩ := veqAll_reads ts ih rs rs' hg hg' he
    exact ⟨.tup vs, .tup ws, by simp [view, h1, hvs], by simp [view, g1, hws]⟩
  | dict k l ihk ihl =>
    intro root root' a b h h' he
    simp only [veq] at he
    obtain ⟨rs, h1, he⟩ := Res.bind_eq_ok.1 he
    obtain ⟨rs', g1, he⟩ := Res.bind_eq_ok.1 he
    obtain ⟨⟨hk, hl⟩, d, hd⟩ := expands_dict.1 h.ex
    have hkl : ∀ t ∈ [k, l], Expands t := by
      intro t ht
      simp only [List.mem_cons, List.not_mem_nil, or_false] at ht
      rcases ht with rfl | rfl <;> assumption
    have hg := (tuple_good (ts := [k, l]) h (size_dict_eq k l) (align_dict_eq k l) (castBytes_dict k l _)
      hkl hd h.sm.dict).1 rs h1
    have hg' := (tuple_good (ts := [k, l]) h' (size_dict_eq k l) (align_dict_eq k l) (castBytes_dict k l _)
      hkl hd h'.sm.dict).1 rs' g1
    cases hg with
    | cons hrk hrest =>
      cases hrest with
      | cons hrv hnil =>
        cases hnil
        cases hg' with
        | cons hrk' hrest' =>
          cases hrest' with
          | cons hrv' hnil' =>
            cases hnil'
            obtain ⟨x, hx, he⟩ := Res.bind_eq_ok.1 he
            obtain ⟨rfl, he⟩ := if_true_ok he
            obtain ⟨p, q, hp, hq⟩ := ihk root root' _ _ hrk hrk' hx
            obtain ⟨p', q', hp', hq'⟩ := ihl root root' _ _ hrv hrv' he
            exact ⟨.tup [p, p'], .tup [q, q'], by simp [view, h1, hp, hp'], by simp [view, g1, hq, hq']⟩
  | _ =>
    intro root root' a b _ _ _
    exact ⟨_, _, rfl, rfl⟩

/-- Casted bytes that compare equal can both be read. -/
theorem eqAs_reads {c : Cfg} {t : Ty} {a b : Slice} (hx : Expands t) (hsm : Small t)
    (ha : Spec.align t ∣ a.addr) (hb : Spec.align t ∣ b.addr) (hla : a.len < 2 ^ 63) (hlb : b.len < 2 ^ 63)
    (h : eqAs c t a b = .ok true) : ∃ v w, readAs c t a = .ok v ∧ readAs c t b = .ok w := by
  obtain ⟨r, h1, h2⟩ := cast_good (c := c) hx hsm ha hla
  obtain ⟨r', g1, g2⟩ := cast_good (c := c) hx hsm hb hlb
  simp only [readAs, h1, g1, Res.bind_ok]
  simp only [eqAs, h1, g1, Res.bind_ok] at h
  exact eq_reads c t a b r r' h2 g2 h

/-- Sameness of values is symmetric and transitive, with doubles too. -/
def SamePer (t : Ty) : Prop :=
  (∀ v w, Same t v w → Same t w v) ∧ (∀ u v w, Same t u v → Same t v w → Same t u w)

theorem samePer_eq {t : Ty} (h : ∀ v w, Same t v w = (v = w)) : SamePer t :=
  ⟨fun v w => by rw [h, h]; exact Eq.symm, fun u v w => by rw [h, h, h]; exact Eq.trans⟩

theorem forall₂_per {e : Ty} (ih : SamePer e) : (∀ vs ws, List.Forall₂ (Same e) vs ws → List.Forall₂ (Same e) ws vs) ∧
    (∀ us vs ws, List.Forall₂ (Same e) us vs → List.Forall₂ (Same e) vs ws → List.Forall₂ (Same e) us ws) := by
  constructor
  · intro vs ws h
    induction h with
    | nil => exact .nil
    | cons h _ ihl => exact .cons (ih.1 _ _ h) ihl
  · intro us vs ws h
    induction h generalizing ws with
    | nil => intro h; cases h; exact .nil
    | cons h _ ihl =>
      intro h'
      cases h' with
      | cons h1 h2 => exact .cons (ih.2 _ _ _ h h1) (ihl _ h2)

theorem sameAll_per (ts : List Ty) : (∀ t ∈ ts, SamePer t) →
    (∀ vs ws, SameAll ts vs ws → SameAll ts ws vs) ∧
    (∀ us vs ws, SameAll ts us vs → SameAll ts vs ws → SameAll ts us ws) := by
  induction ts with
  | nil =>
    intro _
    refine ⟨fun vs ws h => ?_, fun us vs ws h h' => ?_⟩
    · match vs, ws, h with
      | [], [], _ => trivial
    · match us, vs, ws, h, h' with
      | [], [], [], _, _ => trivial
  | cons t ts ih =>
    intro hall
    obtain ⟨h1, h2⟩ := ih fun u hu => hall u (by simp [hu])
    obtain ⟨g1, g2⟩ := hall t (by simp)
    refine ⟨fun vs ws h => ?_, fun us vs ws h h' => ?_⟩
    · match vs, ws, h with
      | v :: vs, w :: ws, h => exact ⟨g1 _ _ h.1, h1 _ _ h.2⟩
    · match us, vs, ws, h, h' with
      | u :: us, v :: vs, w :: ws, h, h' => exact ⟨g2 _ _ _ h.1 h'.1, h2 _ _ _ h.2 h'.2⟩

theorem same_per (t : Ty) : SamePer t := by
  induction t using Ty.ind with
  | d =>
    refine ⟨fun v w h => ?_, fun u v w h h' => ?_⟩
    · match v, w, h with
      | .num a, .num b, ⟨x, h1, h2⟩ => exact ⟨x, h2, h1⟩
    · match u, v, w, h, h' with
      | .num a, .num b, .num d, ⟨x, h1, h2⟩, ⟨y, h3, h4⟩ =>
        exact ⟨x, h1, by rw [h4, ← h3, h2]⟩
  | a e ih =>
    refine ⟨fun v w h => ?_, fun u v w h h' => ?_⟩
    · match v, w, h with
      | .arr vs, .arr ws, h => exact (forall₂_per ih).1 _ _ h
    · match u, v, w, h, h' with
      | .arr us, .arr vs, .arr ws, h, h' => exact (forall₂_per ih).2 _ _ _ h h'
  | m e ih =>
    refine ⟨fun v w h => ?_, fun u v w h h' => ?_⟩
    · match v, w, h with
      | .nothing, .nothing, _ => trivial
      | .just x, .just y, h => exact ih.1 _ _ h
    · match u, v, w, h, h' with
      | .nothing, .nothing, .nothing, _, _ => trivial
      | .just x, .just y, .just z, h, h' => exact ih.2 _ _ _ h h'
  | tuple ts ih =>
    refine ⟨fun v w h => ?_, fun u v w h h' => ?_⟩
    · match v, w, h with
      | .tup vs, .tup ws, h => exact (sameAll_per ts ih).1 _ _ h
    · match u, v, w, h, h' with
      | .tup us, .tup vs, .tup ws, h, h' => exact (sameAll_per ts ih).2 _ _ _ h h'
  | dict k l ihk ihl =>
    refine ⟨fun v w h => ?_, fun u v w h h' => ?_⟩
    · match v, w, h with
      | .tup [x, y], .tup [x', y'], h => exact ⟨ihk.1 _ _ h.1, ihl.1 _ _ h.2⟩
    · match u, v, w, h, h' with
      | .tup [x, y], .tup [x', y'], .tup [x2, y2], h, h' =>
        exact ⟨ihk.2 _ _ _ h.1 h'.1, ihl.2 _ _ _ h.2 h'.2⟩
  | _ => exact samePer_eq fun _ _ => rfl

end GV
