import Verif.Proofs.Faults
/-
Helper lemmas: what is read from a good reference depends on its bytes only, not on addresses.
-/
namespace GV

/-- Both fail alike, or both succeed with related values. -/
def ResRel {α β : Type} (R : α → β → Prop) : Res α → Res β → Prop
  | .ok a, .ok b => R a b
  | .fail f, .fail g => f = g
  | _, _ => False

/-- The same bytes. -/
def SameB (r r' : Slice) : Prop := r.bytes = r'.bytes

namespace ResRel

theorem bind {α β γ δ : Type} {R : α → β → Prop} {S : γ → δ → Prop} {x : Res α} {y : Res β}
    {f : α → Res γ} {g : β → Res δ} (h : ResRel R x y)
    (hf : ∀ a b, x = .ok a → y = .ok b → R a b → ResRel S (f a) (g b)) : ResRel S (x >>= f) (y >>= g) := by
  cases x <;> cases y <;> simp only [ResRel] at h
  · exact hf _ _ rfl rfl h
  · subst h; exact rfl

theorem toEq {α : Type} {x y : Res α} (h : ResRel Eq x y) : x = y := by
  cases x <;> cases y <;> simp only [ResRel] at h <;> rw [h]

theorem traverse {α β γ δ : Type} {R : α → β → Prop} {S : γ → δ → Prop} {f : α → Res γ} {g : β → Res δ}
    {l : List α} {m : List β} (h : List.Forall₂ R l m)
    (hf : ∀ a ∈ l, ∀ b ∈ m, R a b → ResRel S (f a) (g b)) :
    ResRel (List.Forall₂ S) (Res.traverse f l) (Res.traverse g m) := by
  induction h with
  | nil => exact .nil
  | @cons a b l m h1 _ ih =>
    refine (hf a (by simp) b (by simp) h1).bind fun c d _ _ hcd => ?_
    refine (ih fun a ha b hb => hf a (by simp [ha]) b (by simp [hb])).bind fun cs ds _ _ hcs => ?_
    exact .cons hcd hcs

end ResRel

theorem forall₂_eq {α : Type} {l m : List α} (h : List.Forall₂ Eq l m) : l = m := by
  induction h with
  | nil => rfl
  | cons h _ ih => rw [h, ih]

theorem tryUnwrap_same {c : Cfg} {e : Ty} {d d' : Slice} (hx : Expands e) (ha : Spec.align e ∣ d.addr)
    (ha' : Spec.align e ∣ d'.addr) (h : SameB d d') :
    ResRel SameB (tryFromAligned c e d >>= Res.unwrap) (tryFromAligned c e d' >>= Res.unwrap) := by
  rw [tryFromAligned_ok hx ha, tryFromAligned_ok hx ha', ← show d.bytes = d'.bytes from h]
  simp only [Res.bind_ok]
  split
  · exact h
  · exact rfl

theorem elemRaw_same {c : Cfg} {e : Ty} {s s' : Slice} {body prev stop : Nat} (hx : Expands e)
    (ha : Spec.align e ∣ s.addr) (ha' : Spec.align e ∣ s'.addr) (hp : prev < usizeMod) (h : SameB s s') :
    ResRel SameB (elemRaw c e s body prev stop) (elemRaw c e s' body prev stop) := by
  have hal := specAlign_isAl e
  unfold elemRaw
  cases hst : alignOffset c (alignOf e) prev with
  | fail f => exact rfl
  | ok start =>
    obtain ⟨hd, _⟩ := alignOffset_dvd hal hp (alignOf_eq e ▸ hst)
    simp only [Res.bind_ok]
    apply tryUnwrap_same hx
    · split
      · exact Nat.dvd_add ha hd
      · exact gap_dvd hal _
    · split
      · exact Nat.dvd_add ha' hd
      · exact gap_dvd hal _
    · unfold SameB at h ⊢
      rw [h]
      split <;> rfl

theorem forall₂_refl {α : Type} (l : List α) : List.Forall₂ Eq l l := by
  induction l with
  | nil => exact .nil
  | cons a l ih => exact .cons rfl ih

theorem arrRefs_same {c : Cfg} {root root' s s' : Slice} {e : Ty} (h : Good c root (.A e) s)
    (h' : Good c root' (.A e) s') (hb : SameB s s') :
    ResRel (List.Forall₂ SameB) (arrRefs c e s) (arrRefs c e s') := by
  have hx : Expands e := expands_A.1 h.ex
  have hb' : s.bytes = s'.bytes := hb
  cases hs : Spec.size e with
  | some n =>
    simp only [arrRefs, sizeOf_eq, hs, rustLayout_ok e n hs hx, Res.bind_ok, sliceElems, Slice.len, hb']
    refine forall₂_map_range _ _ _ fun i _ => ?_
    exact rfl
  | none =>
    rw [arrRefs_eq (e := e) h.al h.len hs, arrRefs_eq (e := e) h'.al h'.len hs, ← hb']
    refine .traverse (forall₂_refl _) ?_
    rintro i hi _ _ rfl
    have hi1 : i < (Spec.arrFrame s.bytes).2.length := by simpa using hi
    have hi2 : i < (Spec.arrFrame s'.bytes).2.length := by rw [← hb']; exact hi1
    rw [arrIndex_raw (e := e) h.al h.len hi1, arrIndex_raw (e := e) h'.al h'.len hi2]
    simp only [← hb']
    exact elemRaw_same hx h.al h'.al (prevStop_lt _ _) hb

/-- Both absent, or both present with the same bytes. -/
def SameO : Option Slice → Option Slice → Prop
  | none, none => True
  | some r, some r' => SameB r r'
  | _, _ => False

theorem toOption_same {c : Cfg} {root root' s s' : Slice} {e : Ty} (h : Good c root (.M e) s)
    (h' : Good c root' (.M e) s') (hb : SameB s s') : ResRel SameO (toOption c e s) (toOption c e s') := by
  have hx : Expands e := expands_M.1 h.ex
  have h1 := toOption_ok (c := c) hx h.al (Nat.lt_trans h.len (by decide))
  have h2 := toOption_ok (c := c) hx h'.al (Nat.lt_trans h'.len (by decide))
  rw [← show s.bytes = s'.bytes from hb] at h2
  cases hm : Spec.maybeChild e s.bytes with
  | none =>
    rw [hm] at h1 h2
    rw [h1, h2]
    exact trivial
  | some x =>
    rw [hm] at h1 h2
    cases hbad : Spec.badSize e x with
    | true => rw [h1.1 hbad, h2.1 hbad]; exact rfl
    | false =>
      obtain ⟨r, hr, hr'⟩ := h1.2 hbad
      obtain ⟨q, hq, hq'⟩ := h2.2 hbad
      rw [hr, hq]
      exact hr'.2.1.trans hq'.2.1.symm

theorem getChildElem_same {c : Cfg} {t : Ty} {s s' : Slice} {row : Row} {last : Bool} {nfo : Nat}
    (hx : Expands t) (ha : Spec.align t ∣ s.addr) (ha' : Spec.align t ∣ s'.addr)
    (hl : s.len < 2 ^ 63) (hi : -1 ≤ row.i) (hi' : row.i < 2 ^ 59) (hn : nfo < 2 ^ 59)
    (hb : IsAl row.b) (hle : Spec.align t ≤ row.b) (hc : Spec.align t ∣ row.c) (hbb : SameB s s') :
    ResRel SameB (getChildElem c t s row last nfo) (getChildElem c t s' row last nfo) := by
  obtain ⟨h1, h2⟩ := calcOffsets_safe (c := c) (t := t) (b := s.bytes) (last := last) (nfo := nfo)
    hl hi hi' hn hb hle hc
  have hbb' : s.bytes = s'.bytes := hbb
  unfold getChildElem
  rw [← hbb']
  cases hco : calcOffsets c (alignOf t) s.bytes row (sizeOf t) last nfo with
  | fail f => exact rfl
  | ok o =>
    cases o with
    | none =>
      simp only [Res.bind_ok]
      obtain ⟨r, hr, _⟩ := default_refFor (c := c) s hx
      rw [hr]
      exact rfl
    | some p =>
      obtain ⟨start, stop⟩ := p
      obtain ⟨h3, h4, h5⟩ := h1 start stop hco
      obtain ⟨r, hr, hr'⟩ := window_refFor (c := c) hx ha h3 h4 h5
      obtain ⟨q, hq, hq'⟩ := window_refFor (c := c) hx ha' h3 h4 (by simp only [Slice.len, ← hbb']; exact h5)
      simp only [Res.bind_ok]
      have e1 : (do let d ← window c (alignOf t) s start stop; fromAligned c t d) = .ok r := hr
      have e2 : (do let d ← window c (alignOf t) s' start stop; fromAligned c t d) = .ok q := hq
      rw [e1, e2]
      show r.bytes = q.bytes
      rw [hr'.2.1, hq'.2.1, hbb']

theorem memberRefs_same {c : Cfg} {s s' : Slice} {nfo : Nat} (hl : s.len < 2 ^ 63) (hn : nfo < 2 ^ 59)
    (hbb : SameB s s') (ts : List Ty) : ∀ rows : List Row, (∀ t ∈ ts, Expands t) →
    (∀ t ∈ ts, Spec.align t ∣ s.addr) → (∀ t ∈ ts, Spec.align t ∣ s'.addr) →
    rows.length = ts.length →
    (∀ p ∈ ts.zip rows, -1 ≤ p.2.i ∧ p.2.i < 2 ^ 59 ∧ IsAl p.2.b ∧ Spec.align p.1 ≤ p.2.b ∧
      Spec.align p.1 ∣ p.2.c) →
    ResRel (List.Forall₂ SameB) (memberRefs c s nfo ts rows) (memberRefs c s' nfo ts rows) := by
  induction ts with
  | nil => intro rows _ _ _ _ _; cases rows <;> exact .nil
  | cons t ts ih =>
    intro rows hx ha ha' hlen hp
    cases rows with
    | nil => simp at hlen
    | cons row rows =>
      obtain ⟨hi, hi', hb, hle, hc⟩ := hp (t, row) (by simp)
      simp only [memberRefs]
      refine (getChildElem_same (hx t (by simp)) (ha t (by simp)) (ha' t (by simp)) hl hi hi' hn hb hle hc
        hbb).bind fun r q _ _ hrq => ?_
      refine (ih rows (fun u hu => hx u (by simp [hu])) (fun u hu => ha u (by simp [hu]))
        (fun u hu => ha' u (by simp [hu])) (by simpa using hlen) (fun p h => hp p (by simp [h]))).bind
          fun rs qs _ _ h => ?_
      exact .cons hrq h

theorem fieldRefs_same {s s' : Slice} (hb : SameB s s') (os : List Nat) : ∀ ns,
    List.Forall₂ SameB (fieldRefs s os ns) (fieldRefs s' os ns) := by
  have hb' : s.bytes = s'.bytes := hb
  induction os with
  | nil => intro ns; cases ns <;> exact .nil
  | cons o os ih =>
    intro ns
    cases ns with
    | nil => exact .nil
    | cons n ns => exact .cons (by simp [SameB, hb']) (ih ns)

theorem tupRefs_same {c : Cfg} {gv : Ty} {ts : List Ty} {s s' : Slice}
    (hgv : Spec.size gv = Spec.size (.tuple ts)) (hx : ∀ t ∈ ts, Expands t)
    (hsm : (Ty.shows ts).length < 2 ^ 40)
    (ha : Spec.alignMax ts ∣ s.addr) (ha' : Spec.alignMax ts ∣ s'.addr)
    (hl : s.len < 2 ^ 63) (hb : SameB s s') :
    ResRel (List.Forall₂ SameB) (tupRefs c gv ts s) (tupRefs c gv ts s') := by
  unfold tupRefs
  rw [sizeOf_eq, hgv]
  cases hs : Spec.size (.tuple ts) with
  | some n =>
    simp only
    cases fieldOffsets gv ts with
    | fail f => exact rfl
    | ok offs =>
      cases rustLayouts ts with
      | fail f => exact rfl
      | ok ls => exact fieldRefs_same hb _ _
  | none =>
    have hd : ∀ t ∈ ts, Spec.align t ∣ Spec.alignMax ts := fun t ht =>
      (specAlign_isAl t).dvd (alignMax_isAl ts) (alignMax_ge ht)
    have hnl := shows_length_ge ts
    have hfl := framesLeft_le ts
    simp only
    obtain ⟨cmds, hcm⟩ := serLoop_ok (nFrameOffsets ts) ts 0 8 0 0 (by rw [nFrameOffsets_eq]; omega)
    have hp : writeNonFixedSizeStructure ts = .ok ⟨generateTable ts, nFrameOffsets ts, cmds⟩ := by
      simp [writeNonFixedSizeStructure, hcm]
    simp only [hp, Res.bind_ok, nFrameOffsets_eq]
    obtain ⟨hlen, hrow⟩ := tableLoop_aligned ts ⟨-1, 0, 1, 0⟩ (Or.inl rfl)
    apply memberRefs_same hl (by omega) hb ts _ hx (fun t ht => Nat.dvd_trans (hd t ht) ha)
      (fun t ht => Nat.dvd_trans (hd t ht) ha') hlen
    intro p hp
    obtain ⟨h1, h2, h3⟩ := hrow p hp
    rw [alignOf_eq] at h2 h3
    have := tableLoop_i_bound ts ⟨-1, 0, 1, 0⟩ (by simp) p.2 (List.of_mem_zip hp).2
    simp only at this
    exact ⟨this.1, by omega, h1, h2, h3⟩

theorem viewAll_same {c : Cfg} {root root' : Slice} (ts : List Ty) :
    (∀ t ∈ ts, ∀ r r', Good c root t r → Good c root' t r' → SameB r r' → view c t r = view c t r') →
    ∀ rs rs', List.Forall₂ (Good c root) ts rs → List.Forall₂ (Good c root') ts rs' →
      List.Forall₂ SameB rs rs' → viewAll c ts rs = viewAll c ts rs' := by
  induction ts with
  | nil => intro _ rs rs' h h' _; cases h; cases h'; rfl
  | cons t ts ih =>
    intro hv rs rs' h h' hb
    cases h with
    | cons hr hrs =>
      cases h' with
      | cons hr' hrs' =>
        cases hb with
        | cons hb1 hb2 =>
          rw [viewAll, viewAll, hv t (by simp) _ _ hr hr' hb1,
            ih (fun u hu => hv u (by simp [hu])) _ _ hrs hrs' hb2]

/-- What can be read from a reference depends on the bytes alone. -/
theorem view_same {c : Cfg} {root root' : Slice} (t : Ty) : ∀ r r', Good c root t r → Good c root' t r' →
    SameB r r' → view c t r = view c t r' := by
  induction t using Ty.ind with
  | a e ih =>
    intro r r' h h' hb
    rw [view, view]
    refine ((arrRefs_same h h' hb).bind fun rs rs' e1 e2 hrs => ?_).toEq
    refine (ResRel.traverse (S := Eq) hrs fun a ha b hb hab => ?_).bind fun vs vs' _ _ hvs => ?_
    · rw [ih a b ((arrRefs_good h).1 rs e1 a ha) ((arrRefs_good h').1 rs' e2 b hb) hab]
      cases view c e b <;> exact rfl
    · rw [forall₂_eq hvs]; exact rfl
  | m e ih =>
    intro r r' h h' hb
    rw [view, view]
    refine ((toOption_same h h' hb).bind fun o o' e1 e2 ho => ?_).toEq
    cases o with
    | none =>
      cases o' with
      | none => exact rfl
      | some y => exact ho.elim
    | some x =>
      cases o' with
      | none => exact ho.elim
      | some y =>
        simp only
        rw [ih x y ((toOption_good h).1 x e1) ((toOption_good h').1 y e2) ho]
        cases view c e y <;> exact rfl
  | tuple ts ih =>
    intro r r' h h' hb
    rw [view, view]
    obtain ⟨hx, d, hd⟩ := expands_tuple.1 h.ex
    refine ((tupRefs_same (c := c) (ts := ts) rfl hx h.sm.shows h.al h'.al h.len hb).bind
      fun rs rs' e1 e2 hrs => ?_).toEq
    rw [viewAll_same ts ih rs rs' ((tuple_good h rfl rfl rfl hx hd h.sm.shows).1 rs e1)
      ((tuple_good h' rfl rfl rfl hx hd h.sm.shows).1 rs' e2) hrs]
    cases viewAll c ts rs' <;> exact rfl
  | dict k v ihk ihv =>
    intro r r' h h' hb
    rw [view, view]
    obtain ⟨⟨hk, hv⟩, d, hd⟩ := expands_dict.1 h.ex
    have hx : ∀ t ∈ [k, v], Expands t := by
      intro t ht
      simp only [List.mem_cons, List.not_mem_nil, or_false] at ht
      rcases ht with rfl | rfl <;> assumption
    refine ((tupRefs_same (c := c) (ts := [k, v]) (size_dict_eq k v) hx h.sm.dict
      (by have := h.al; rw [align_dict_eq] at this; exact this)
      (by have := h'.al; rw [align_dict_eq] at this; exact this) h.len hb).bind
      fun rs rs' e1 e2 hrs => ?_).toEq
    have g1 := (tuple_good (ts := [k, v]) h (size_dict_eq k v) (align_dict_eq k v) (castBytes_dict k v _)
      hx hd h.sm.dict).1 rs e1
    have g2 := (tuple_good (ts := [k, v]) h' (size_dict_eq k v) (align_dict_eq k v) (castBytes_dict k v _)
      hx hd h.sm.dict).1 rs' e2
    cases g1 with
    | cons a1 a2 =>
      cases a2 with
      | cons a2 a3 =>
        cases a3
        cases g2 with
        | cons b1 b2 =>
          cases b2 with
          | cons b2 b3 =>
            cases b3
            cases hrs with
            | cons c1 c2 =>
              cases c2 with
              | cons c2 c3 =>
                simp only
                rw [ihk _ _ a1 b1 c1, ihv _ _ a2 b2 c2]
                cases view c k _ with
                | fail f => exact rfl
                | ok x => cases view c v _ <;> exact rfl
  | v =>
    intro r r' h h' hb
    rw [view, view]
    obtain ⟨d, h1, _, h2, _⟩ := split_ok (c := c) (s := r) h.al
    obtain ⟨d', h1', _, h2', _⟩ := split_ok (c := c) (s := r') h'.al
    rw [h1, h1']
    simp only [Res.bind_ok, h2, h2', show r.bytes = r'.bytes from hb]
  | _ => intro r r' h h' hb; simp only [view, show r.bytes = r'.bytes from hb]

/-- So does what is read from aligned data. -/
theorem readAs_same {c : Cfg} {t : Ty} {s s' : Slice} (hx : Expands t) (hsm : Small t)
    (ha : Spec.align t ∣ s.addr) (ha' : Spec.align t ∣ s'.addr) (hl : s.len < 2 ^ 63)
    (hb : s.bytes = s'.bytes) : readAs c t s = readAs c t s' := by
  have hl' : s'.len < 2 ^ 63 := by simp only [Slice.len, ← hb]; exact hl
  obtain ⟨r, h1, h2⟩ := cast_good (c := c) hx hsm ha hl
  obtain ⟨r', h1', h2'⟩ := cast_good (c := c) hx hsm ha' hl'
  obtain ⟨q, hq, _, hq', _⟩ := fromAligned_ok (c := c) hx ha
  obtain ⟨q', hq1, _, hq2, _⟩ := fromAligned_ok (c := c) hx ha'
  rw [h1] at hq
  cases hq
  rw [h1'] at hq1
  cases hq1
  rw [readAs, readAs, h1, h1']
  exact view_same t r r' h2 h2' (by rw [SameB, hq', hq2, hb])

end GV
