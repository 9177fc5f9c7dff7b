import Verif.Proofs.Reach
import Verif.Spec.Nested
/-
Helper lemmas: the only ways in which reading can panic.
-/
namespace GV

/-- A fault that reading a value of type `t` may have. -/
def Allowed (c : Cfg) (t : Ty) (f : Fault) : Prop :=
  (f = .unwrap ∧ Spec.nestedFixed t = true) ∨ (f = .overflow ∧ c.overflowChecks = true)

theorem badSize_fixedArr {e : Ty} {b : Bytes} (h : Spec.badSize e b = true) : Spec.fixedArr e = true := by
  cases e with
  | A f =>
    simp only [Spec.badSize] at h
    simp only [Spec.fixedArr]
    cases hs : Spec.size f with
    | some n => rfl
    | none => simp [hs] at h
  | _ => cases h

theorem tryUnwrap_fault {c : Cfg} {e : Ty} {d : Slice} {f : Fault} (hx : Expands e)
    (hs : Spec.size e = none) (ha : Spec.align e ∣ d.addr)
    (h : (tryFromAligned c e d >>= Res.unwrap) = .fail f) : f = .unwrap ∧ Spec.fixedArr e = true := by
  rw [tryFromAligned_ok hx ha] at h
  simp only [Res.bind_ok] at h
  split at h
  · cases h
  · rename_i hb
    cases h
    refine ⟨rfl, badSize_fixedArr (b := d.bytes) ?_⟩
    cases hbs : Spec.badSize e d.bytes with
    | true => rfl
    | false => exact absurd (Or.inr ⟨by simp [hs], hbs⟩) hb

theorem elemRaw_fault {c : Cfg} {e : Ty} {s : Slice} {body prev stop : Nat} {f : Fault}
    (hx : Expands e) (hs : Spec.size e = none) (ha : Spec.align e ∣ s.addr) (hp : prev < usizeMod)
    (h : elemRaw c e s body prev stop = .fail f) : Allowed c (.A e) f := by
  have hal := specAlign_isAl e
  unfold elemRaw at h
  rw [alignOf_eq] at h
  rcases Res.bind_eq_fail.1 h with h | ⟨start, h1, h⟩
  · exact Or.inr (alignOffset_fault hal hp h)
  · left
    obtain ⟨hd, _⟩ := alignOffset_dvd hal hp h1
    have := tryUnwrap_fault hx hs (by split <;> [exact Nat.dvd_add ha hd; exact gap_dvd hal _]) h
    exact ⟨this.1, by simp [Spec.nestedFixed, this.2]⟩

theorem traverse_fail {α β : Type} {f : α → Res β} : ∀ {l : List α} {e : Fault},
    Res.traverse f l = .fail e → ∃ a ∈ l, f a = .fail e
  | [], _, h => by cases h
  | a :: l, e, h => by
    simp only [Res.traverse] at h
    rcases Res.bind_eq_fail.1 h with h | ⟨b, _, h⟩
    · exact ⟨a, by simp, h⟩
    · rcases Res.bind_eq_fail.1 h with h | ⟨bs, _, h⟩
      · obtain ⟨x, hx, hf⟩ := traverse_fail h
        exact ⟨x, by simp [hx], hf⟩
      · cases h

theorem traverse_mem {α β : Type} {f : α → Res β} : ∀ {l : List α} {rs : List β},
    Res.traverse f l = .ok rs → ∀ r ∈ rs, ∃ a ∈ l, f a = .ok r
  | [], rs, h => by cases h; intro r hr; simp at hr
  | a :: l, rs, h => by
    simp only [Res.traverse, Res.pure_eq] at h
    obtain ⟨b, h1, h⟩ := Res.bind_eq_ok.1 h
    obtain ⟨bs, h2, h⟩ := Res.bind_eq_ok.1 h
    cases h
    intro r hr
    rcases List.mem_cons.1 hr with rfl | hr
    · exact ⟨a, by simp, h1⟩
    · obtain ⟨x, hx, hf⟩ := traverse_mem h2 r hr
      exact ⟨x, by simp [hx], hf⟩

theorem prevStop_succ {b : Bytes} {i : Nat} (h : i < (Spec.arrFrame b).2.length) :
    prevStop b (i + 1) = (Spec.arrFrame b).2[i] := by
  simp [prevStop, List.getElem?_eq_getElem h]

theorem collect_eq {c : Cfg} {e : Ty} {s : Slice} (ha : Spec.align e ∣ s.addr) (hl : s.len < 2 ^ 63)
    (fuel : Nat) : ∀ j, j ≤ (Spec.arrFrame s.bytes).2.length →
    (Spec.arrFrame s.bytes).2.length < j + fuel →
    collectIter c e fuel (iterState s j (prevStop s.bytes j)) =
      Res.traverse (arrIndex c e s) (List.range' j ((Spec.arrFrame s.bytes).2.length - j)) := by
  generalize hn : (Spec.arrFrame s.bytes).2.length = n
  induction fuel with
  | zero => intro j _ h; omega
  | succ fuel ih =>
    intro j hj hf
    simp only [collectIter]
    by_cases hlt : j < n
    · have hj' : j < (Spec.arrFrame s.bytes).2.length := by omega
      rw [iterNext_raw ha hl hj' (prevStop_lt _ _), show n - j = (n - (j + 1)) + 1 by omega,
        List.range'_succ]
      simp only [Res.traverse]
      rw [arrIndex_raw ha hl hj']
      cases elemRaw c e s (Spec.arrFrame s.bytes).1 (prevStop s.bytes j) (Spec.arrFrame s.bytes).2[j] with
      | fail f => rfl
      | ok r =>
        simp only [Res.bind_ok]
        rw [← prevStop_succ hj', ih (j + 1) (by omega) (by omega)]
    · rw [iterNext_end (by omega), show n - j = 0 by omega]
      rfl

theorem arrRefs_eq {c : Cfg} {e : Ty} {s : Slice} (ha : Spec.align e ∣ s.addr) (hl : s.len < 2 ^ 63)
    (hn : Spec.size e = none) :
    arrRefs c e s = Res.traverse (arrIndex c e s) (List.range (Spec.arrFrame s.bytes).2.length) := by
  have hcount : (Spec.arrFrame s.bytes).2.length ≤ (iterState s 0 0).offsets.length := by
    simp only [iterState, List.length_drop, ← arrFrame_count]
    exact Nat.le_mul_of_pos_right _ (arrW_isWidth _).pos
  simp only [arrRefs, sizeOf_eq, hn, intoIter_ok ha hl, Res.bind_ok]
  have := collect_eq (c := c) (e := e) ha hl ((iterState s 0 0).offsets.length + 1) 0 (Nat.zero_le _)
    (by omega)
  rw [List.range_eq_range']
  simpa [prevStop] using this

theorem arrRefs_good {c : Cfg} {root s : Slice} {e : Ty} (h : Good c root (.A e) s) :
    (∀ rs, arrRefs c e s = .ok rs → ∀ r ∈ rs, Good c root e r) ∧
    (∀ f, arrRefs c e s = .fail f → Allowed c (.A e) f) := by
  have hx : Expands e := expands_A.1 h.ex
  have ha : Spec.align e ∣ s.addr := h.al
  cases hs : Spec.size e with
  | some n =>
    obtain ⟨h1, h2⟩ := arrRefs_ok (c := c) hx ha h.cast (by rw [hs]; intro h; cases h)
    have hany : (Spec.arrChildren (.crate c.bigEndian) e s.bytes).any (badChild e) = false := by
      rw [List.any_eq_false]
      intro o _
      cases o <;> simp [badChild, badSize_fixed (t := e) (by simp [hs])]
    obtain ⟨rs, hr, hr'⟩ := h2 hany
    rw [hr]
    refine ⟨?_, fun f h => by cases h⟩
    rintro _ ⟨⟩ r hmem
    obtain ⟨i, hi, rfl⟩ := List.getElem_of_mem hmem
    have hi' : i < (Spec.arrChildren (.crate c.bigEndian) e s.bytes).length := by rw [hr'.length_eq]; exact hi
    exact h.refFor hx h.sm.A (List.Forall₂.get hr' hi' hi)
  | none =>
    rw [arrRefs_eq ha h.len hs]
    constructor
    · intro rs hrs r hr
      obtain ⟨i, _, hi⟩ := traverse_mem hrs r hr
      obtain ⟨h1, h2, h3⟩ := (arrIndex_safe (c := c) hx hs ha h.len i).1 r hi
      exact h.child hx h.sm.A h1 h2 h3
    · intro f hf
      obtain ⟨i, hi, hf⟩ := traverse_fail hf
      rw [arrIndex_raw ha h.len (by simpa using hi)] at hf
      exact elemRaw_fault hx hs ha (prevStop_lt _ _) hf

theorem toOption_good {c : Cfg} {root s : Slice} {e : Ty} (h : Good c root (.M e) s) :
    (∀ r, toOption c e s = .ok (some r) → Good c root e r) ∧
    (∀ f, toOption c e s = .fail f → Allowed c (.M e) f) := by
  have hx : Expands e := expands_M.1 h.ex
  have ha : Spec.align e ∣ s.addr := h.al
  have hl : s.len < usizeMod := Nat.lt_trans h.len (by decide)
  have := toOption_ok (c := c) hx ha hl
  cases hm : Spec.maybeChild e s.bytes with
  | none =>
    rw [hm] at this
    rw [this]
    exact ⟨fun r h => (by cases h), fun f h => (by cases h)⟩
  | some x =>
    rw [hm] at this
    obtain ⟨h1, h2⟩ := this
    cases hb : Spec.badSize e x with
    | true =>
      rw [h1 hb]
      refine ⟨fun r h => (by cases h), fun f h => ?_⟩
      cases h
      exact Or.inl ⟨rfl, by simp [Spec.nestedFixed, badSize_fixedArr hb]⟩
    | false =>
      obtain ⟨r, hr, hr'⟩ := h2 hb
      rw [hr]
      exact ⟨fun r hr => (by cases hr; exact h.refFor hx h.sm.M hr'), fun f h => (by cases h)⟩

theorem tuple_good {c : Cfg} {root s : Slice} {gv : Ty} {ts : List Ty} (h : Good c root gv s)
    (hgv : Spec.size gv = Spec.size (.tuple ts)) (hal : Spec.align gv = Spec.alignMax ts)
    (hc : castBytes gv s.bytes = castBytes (.tuple ts) s.bytes) (hx : ∀ t ∈ ts, Expands t)
    {d} (hd : generateTuple gv ts = .ok d) (hsm : (Ty.shows ts).length < 2 ^ 40) :
    (∀ rs, tupRefs c gv ts s = .ok rs → List.Forall₂ (Good c root) ts rs) ∧
    (∀ f, tupRefs c gv ts s = .fail f → f = .overflow ∧ c.overflowChecks = true) := by
  obtain ⟨h1, h2⟩ := tupRefs_safe (c := c) (s := s) hgv hx hd hsm (hal ▸ h.al) (hc ▸ h.cast) h.len
  refine ⟨fun rs hrs => ?_, h2⟩
  have := h1 rs hrs
  have hsm' : ∀ t ∈ ts, Small t := fun t ht => Nat.lt_of_le_of_lt (shows_ge ht) hsm
  clear h1 h2 hrs hd hgv hal hc hsm
  induction this with
  | nil => exact .nil
  | @cons t r ts rs hm _ ih =>
    exact .cons (h.child (hx t (by simp)) (hsm' t (by simp)) hm.1 hm.2.1 hm.2.2)
      (ih (fun u hu => hx u (by simp [hu])) (fun u hu => hsm' u (by simp [hu])))

theorem nestedFixedAny_mem {t : Ty} {ts : List Ty} (h : t ∈ ts) (hn : Spec.nestedFixed t = true) :
    Spec.nestedFixedAny ts = true := by
  induction ts with
  | nil => simp at h
  | cons u ts ih =>
    simp only [Spec.nestedFixedAny]
    rcases List.mem_cons.1 h with rfl | h
    · simp [hn]
    · simp [ih h]

theorem viewAll_fault {c : Cfg} {root : Slice} (ts : List Ty) :
    (∀ t ∈ ts, ∀ r f, Good c root t r → view c t r = .fail f → Allowed c t f) →
    ∀ rs f, List.Forall₂ (Good c root) ts rs → viewAll c ts rs = .fail f →
      ∃ t ∈ ts, Allowed c t f := by
  induction ts with
  | nil => intro _ rs f h hf; cases h; simp [viewAll] at hf
  | cons t ts ih =>
    intro hv rs f h hf
    cases h with
    | cons hr hrs =>
      simp only [viewAll] at hf
      rcases Res.bind_eq_fail.1 hf with hf | ⟨v, _, hf⟩
      · exact ⟨t, by simp, hv t (by simp) _ f hr hf⟩
      · rcases Res.bind_eq_fail.1 hf with hf | ⟨vs, _, hf⟩
        · obtain ⟨u, hu, hA⟩ := ih (fun u hu => hv u (by simp [hu])) _ f hrs hf
          exact ⟨u, by simp [hu], hA⟩
        · cases hf

/-- Reading everything reachable from a good reference panics only in the allowed ways. -/
theorem view_fault {c : Cfg} {root : Slice} (t : Ty) : ∀ r f, Good c root t r → view c t r = .fail f →
    Allowed c t f := by
  induction t using Ty.ind with
  | a e ih =>
    intro r f h hf
    simp only [view] at hf
    obtain ⟨h1, h2⟩ := arrRefs_good h
    rcases Res.bind_eq_fail.1 hf with hf | ⟨rs, hrs, hf⟩
    · exact h2 f hf
    · rcases Res.bind_eq_fail.1 hf with hf | ⟨vs, _, hf⟩
      · obtain ⟨x, hx, hf⟩ := traverse_fail hf
        rcases ih x f (h1 rs hrs x hx) hf with hA | hA
        · exact Or.inl ⟨hA.1, by simp [Spec.nestedFixed, hA.2]⟩
        · exact Or.inr hA
      · cases hf
  | m e ih =>
    intro r f h hf
    simp only [view] at hf
    obtain ⟨h1, h2⟩ := toOption_good h
    rcases Res.bind_eq_fail.1 hf with hf | ⟨o, ho, hf⟩
    · exact h2 f hf
    · cases o with
      | none => cases hf
      | some x =>
        rcases Res.bind_eq_fail.1 hf with hf | ⟨vs, _, hf⟩
        · rcases ih x f (h1 x ho) hf with hA | hA
          · exact Or.inl ⟨hA.1, by simp [Spec.nestedFixed, hA.2]⟩
          · exact Or.inr hA
        · cases hf
  | tuple ts ih =>
    intro r f h hf
    simp only [view] at hf
    obtain ⟨hx, d, hd⟩ := expands_tuple.1 h.ex
    obtain ⟨h1, h2⟩ := tuple_good h rfl rfl rfl hx hd h.sm.shows
    rcases Res.bind_eq_fail.1 hf with hf | ⟨rs, hrs, hf⟩
    · exact Or.inr (h2 f hf)
    · rcases Res.bind_eq_fail.1 hf with hf | ⟨vs, _, hf⟩
      · obtain ⟨u, hu, hA⟩ := viewAll_fault ts ih rs f (h1 rs hrs) hf
        rcases hA with hA | hA
        · exact Or.inl ⟨hA.1, by simp [Spec.nestedFixed, nestedFixedAny_mem hu hA.2]⟩
        · exact Or.inr hA
      · cases hf
  | dict k v ihk ihv =>
    intro r f h hf
    simp only [view] at hf
    obtain ⟨⟨hk, hv⟩, d, hd⟩ := expands_dict.1 h.ex
    obtain ⟨h1, h2⟩ := tuple_good (ts := [k, v]) h (size_dict_eq k v) (align_dict_eq k v) (castBytes_dict k v _)
      (by
        intro t ht
        simp only [List.mem_cons, List.not_mem_nil, or_false] at ht
        rcases ht with rfl | rfl <;> assumption) hd h.sm.dict
    rcases Res.bind_eq_fail.1 hf with hf | ⟨rs, hrs, hf⟩
    · exact Or.inr (h2 f hf)
    · have hall := h1 rs hrs
      cases hall with
      | cons hrk hrest =>
        cases hrest with
        | cons hrv hnil =>
          cases hnil
          simp only at hf
          rcases Res.bind_eq_fail.1 hf with hf | ⟨x, _, hf⟩
          · rcases ihk _ f hrk hf with hA | hA
            · exact Or.inl ⟨hA.1, by simp [Spec.nestedFixed, hA.2]⟩
            · exact Or.inr hA
          · rcases Res.bind_eq_fail.1 hf with hf | ⟨y, _, hf⟩
            · rcases ihv _ f hrv hf with hA | hA
              · exact Or.inl ⟨hA.1, by simp [Spec.nestedFixed, hA.2]⟩
              · exact Or.inr hA
            · cases hf
  | v =>
    intro r f h hf
    simp only [view] at hf
    obtain ⟨d, hd, _⟩ := split_ok (c := c) (s := r) h.al
    rw [hd] at hf
    cases hf
  | _ => intro r f h hf; simp [view] at hf

/-- A cast of aligned data is a good reference. -/
theorem cast_good {c : Cfg} {t : Ty} {s : Slice} (hx : Expands t) (hsm : Small t)
    (ha : Spec.align t ∣ s.addr) (hl : s.len < 2 ^ 63) :
    ∃ r, fromAligned c t s = .ok r ∧ Good c s t r := by
  obtain ⟨r, h1, h2, h3, h4⟩ := fromAligned_ok (c := c) hx ha
  refine ⟨r, h1, hx, hsm, h2, by rw [h3, castBytes_idem], ?_, ?_⟩
  · rcases h4 with rfl | h4
    · exact hl
    · simp only [Slice.len, h4.1]; exact dfltBytes_len hsm
  · rcases h4 with rfl | h4
    · exact Or.inl (.refl _)
    · exact Or.inr ⟨t, r, hsm, h4, .refl r⟩

theorem readAs_fault {c : Cfg} {t : Ty} {s : Slice} {f : Fault} (hx : Expands t) (hsm : Small t)
    (ha : Spec.align t ∣ s.addr) (hl : s.len < 2 ^ 63) (h : readAs c t s = .fail f) : Allowed c t f := by
  obtain ⟨r, h1, h2⟩ := cast_good (c := c) hx hsm ha hl
  simp only [readAs, h1, Res.bind_ok] at h
  exact view_fault t r f h2 h

end GV
