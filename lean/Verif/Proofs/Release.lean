import Verif.Proofs.Array
import Verif.Proofs.Wrap
import Verif.Spec.Wrap
/-
Helper lemmas: without overflow checks, reading gives what the wrapping decoder says, whatever the data.
-/
namespace GV

theorem dvd_usizeMod {al : Nat} (h : IsAl al) : al ∣ usizeMod := by
  unfold usizeMod
  rcases h with rfl | rfl | rfl | rfl
  · exact ⟨2 ^ 64, rfl⟩
  · exact ⟨2 ^ 63, rfl⟩
  · exact ⟨2 ^ 62, rfl⟩
  · exact ⟨2 ^ 61, rfl⟩

theorem dvd_mod_usize {al n : Nat} (h : IsAl al) (hd : al ∣ n) : al ∣ n % usizeMod :=
  (Nat.dvd_mod_iff (dvd_usizeMod h)).2 hd

/-- Rounding up commutes with wrapping round. -/
theorem roundUp_mod {al : Nat} (h : IsAl al) (n : Nat) :
    Spec.roundUp (n % usizeMod) al % usizeMod = Spec.roundUp n al % usizeMod := by
  have h1 := roundUp_add_dvd (m := n % usizeMod) h.pos (Nat.dvd_trans (dvd_usizeMod h) (Nat.dvd_mul_right usizeMod (n / usizeMod)))
  rw [Nat.div_add_mod] at h1
  rw [h1, Nat.mul_add_mod]

theorem alignOffset_rel {c : Cfg} (hov : c.overflowChecks = false) {al : Nat} (h : IsAl al) {i : Nat}
    (hi : i < usizeMod) : alignOffset c al i = .ok (Spec.roundUp i al % usizeMod) := by
  rw [alignOffset_eq h hi]
  split
  · rename_i h1
    rw [Nat.mod_eq_of_lt]
    have := roundUp_lt h.pos i
    omega
  · simp [hov]

/-! ### The wrapping decoder -/

/-- The value of a child. -/
def decWrapChild (be : Bool) (t : Ty) : Option Bytes → Val
  | some x => Spec.decWrap be t x
  | none => Spec.dflt t

/-- Raggedness of a child. -/
def raggedWrapChild (t : Ty) : Option Bytes → Bool
  | some x => Spec.raggedWrap t x
  | none => false

theorem decWrap_A (be : Bool) (e : Ty) (b : Bytes) :
    Spec.decWrap be (.A e) b = .arr ((Spec.arrChildrenWrap e b).map (decWrapChild be e)) := by
  rw [Spec.decWrap]
  rfl

theorem decWrap_M (be : Bool) (e : Ty) (b : Bytes) :
    Spec.decWrap be (.M e) b = match Spec.maybeChild e b with
      | some x => .just (Spec.decWrap be e x)
      | none => .nothing := by
  rw [Spec.decWrap]
  rfl

theorem decWrapAll_cons (be : Bool) (t : Ty) (ts : List Ty) (o : Option Bytes) (os : List (Option Bytes)) :
    Spec.decWrapAll be (t :: ts) (o :: os) = decWrapChild be t o :: Spec.decWrapAll be ts os := by
  cases o <;> simp only [Spec.decWrapAll, decWrapChild]

theorem raggedWrapAny_cons (t : Ty) (ts : List Ty) (o : Option Bytes) (os : List (Option Bytes)) :
    Spec.raggedWrapAny (t :: ts) (o :: os) = (raggedWrapChild t o || Spec.raggedWrapAny ts os) := by
  cases o <;> simp only [Spec.raggedWrapAny, raggedWrapChild]

theorem raggedWrap_A (e : Ty) (b : Bytes) :
    Spec.raggedWrap (.A e) b = ((Spec.arrChildrenWrap e b).any (badChild e) ||
      (Spec.arrChildrenWrap e b).any (raggedWrapChild e)) := by
  rw [Spec.raggedWrap]
  induction Spec.arrChildrenWrap e b with
  | nil => rfl
  | cons o os ih =>
    simp only [List.any_cons, ih]
    cases o with
    | none => simp [badChild, raggedWrapChild]
    | some x =>
      simp only [badChild, raggedWrapChild, Option.elim]
      cases Spec.badSize e x <;> cases Spec.raggedWrap e x <;> simp

theorem membersWrap_length (b : Bytes) (l : Nat) (ts : List Ty) :
    ∀ pos k, (Spec.membersWrap b l pos k ts).length = ts.length := by
  induction ts with
  | nil => intros; rfl
  | cons t ts ih =>
    intro pos k
    simp only [Spec.membersWrap]
    cases Spec.size t <;> simp [ih]

theorem memberChildrenWrap_length (ts : List Ty) (b : Bytes) :
    (Spec.memberChildrenWrap ts b).length = ts.length := by
  unfold Spec.memberChildrenWrap
  repeat' split
  all_goals simp [membersFrom_length, membersWrap_length]

theorem decWrap_dict (be : Bool) (k v : Ty) (b : Bytes) :
    Spec.decWrap be (.dict k v) b = Spec.decWrap be (.tuple [k, v]) b := by
  have h := memberChildrenWrap_length [k, v] b
  rw [Spec.decWrap, Spec.decWrap]
  match hm : Spec.memberChildrenWrap [k, v] b, h with
  | [x, y], _ =>
    simp only [decWrapAll_cons]
    cases x <;> cases y <;> simp [decWrapChild, Spec.decWrapAll]

theorem raggedWrap_dict (k v : Ty) (b : Bytes) :
    Spec.raggedWrap (.dict k v) b = Spec.raggedWrap (.tuple [k, v]) b := by
  have h := memberChildrenWrap_length [k, v] b
  rw [Spec.raggedWrap, Spec.raggedWrap]
  match hm : Spec.memberChildrenWrap [k, v] b, h with
  | [x, y], _ =>
    simp only [raggedWrapAny_cons]
    cases x <;> cases y <;> simp [raggedWrapChild, Spec.raggedWrapAny]

/-! ### Nothing wraps in tame data -/

theorem elemsWrap_tame {b : Bytes} {l al : Nat} (h : IsAl al) (stops : List Nat) : ∀ prev, prev < 2 ^ 63 →
    (∀ o ∈ stops, o < 2 ^ 63) → Spec.elemsWrap b l al prev stops = Spec.elemsFrom b l al prev stops := by
  induction stops with
  | nil => intros; rfl
  | cons s ss ih =>
    intro prev hp hs
    rw [Spec.elemsWrap, Spec.elemsFrom, ih s (hs s (by simp)) (fun o ho => hs o (by simp [ho])), Nat.mod_eq_of_lt]
    have := roundUp_lt h.pos prev
    rcases h with rfl | rfl | rfl | rfl <;> omega

theorem arrChildrenWrap_tame {be : Bool} {e : Ty} {b : Bytes}
    (h : Spec.size e = none → ∀ o ∈ (Spec.arrFrame b).2, o < 2 ^ 63) :
    Spec.arrChildrenWrap e b = Spec.arrChildren (.crate be) e b := by
  unfold Spec.arrChildrenWrap Spec.arrChildren
  cases hs : Spec.size e with
  | some n => rfl
  | none =>
    simp only [Spec.Rules.crate, if_true]
    exact elemsWrap_tame (specAlign_isAl e) _ 0 (by decide) (h hs)

theorem membersWrap_tame {b : Bytes} {l K : Nat} (hf : ∀ i o, i < K → Spec.frame b i = some o → o < 2 ^ 63)
    (ts : List Ty) : ∀ (pos : Option Nat) (k : Nat), (ts ≠ [] → k + framesLeft ts ≤ K) →
    (∀ p, pos = some p → p + 16 * (Ty.shows ts).length < 2 ^ 63 + 2 ^ 50) → (Ty.shows ts).length < 2 ^ 40 →
    Spec.membersWrap b l pos k ts = Spec.membersFrom b l (some l) pos k ts := by
  induction ts with
  | nil => intros; rfl
  | cons t ts ih =>
    intro pos k hk hp hsm
    have hk := hk (by simp)
    simp only [Ty.shows, List.length_append] at hp hsm
    have hshow := show_pos t
    have hal := specAlign_isAl t
    have hal8 : Spec.align t ≤ 8 := by rcases hal with h | h | h | h <;> omega
    simp only [Spec.membersWrap, Spec.membersFrom]
    cases hs : Spec.size t with
    | some n =>
      have hsb := size_bound t n hs
      have hfl : framesLeft (t :: ts) = framesLeft ts := by simp [framesLeft, hs]
      simp only
      congr 1
      · cases pos with
        | none => rfl
        | some p =>
          have := hp p rfl
          have := roundUp_lt hal.pos p
          simp only [Option.map_some, Option.bind_some]
          rw [Nat.mod_eq_of_lt (by omega), Nat.mod_eq_of_lt (by omega)]
      · apply ih _ _ (fun _ => by omega) _ (by omega)
        intro q hq
        cases pos with
        | none => simp at hq
        | some p =>
          have := hp p rfl
          have := roundUp_lt hal.pos p
          simp only [Option.map_some, Option.some.injEq] at hq
          omega
    | none =>
      simp only
      congr 1
      · cases pos with
        | none => rfl
        | some p =>
          have := hp p rfl
          have := roundUp_lt hal.pos p
          simp only [Option.map_some, Option.bind_some]
          rw [Nat.mod_eq_of_lt (by omega)]
      · by_cases hts : ts = []
        · subst hts; rfl
        · have hfl : framesLeft (t :: ts) = 1 + framesLeft ts := by simp [framesLeft, hs, hts]
          simp only [hts, if_false]
          apply ih _ _ (fun _ => by omega) _ (by omega)
          intro q hq
          have := hf k q (by omega) hq
          omega

theorem memberChildrenWrap_tame {be : Bool} {ts : List Ty} {b : Bytes} (hsm : (Ty.shows ts).length < 2 ^ 40)
    (h : ∀ i o, i < Spec.frameCount ts → Spec.frame b i = some o → o < 2 ^ 63) :
    Spec.memberChildrenWrap ts b = Spec.memberChildren (.crate be) ts b := by
  unfold Spec.memberChildrenWrap Spec.memberChildren
  cases hs : Spec.size (.tuple ts) with
  | some n => rfl
  | none =>
    simp only [Spec.Rules.crate, if_true]
    cases hb : Spec.bodyEnd ts b with
    | none => rfl
    | some e =>
      exact membersWrap_tame h ts (some 0) 0 (fun _ => by rw [frameCount_eq]; omega)
        (fun p hp => by cases hp; omega) hsm

/-- On tame data the wrapping decoder is the one of the specification. -/
theorem wrap_tame (be : Bool) (t : Ty) : Small t → ∀ b, Spec.Tame (.crate be) t b →
    Spec.decWrap be t b = Spec.dec (.crate be) t b ∧ Spec.raggedWrap t b = Spec.ragged (.crate be) t b := by
  have all : ∀ ts : List Ty, (∀ t ∈ ts, ∀ b, Spec.Tame (.crate be) t b →
      Spec.decWrap be t b = Spec.dec (.crate be) t b ∧ Spec.raggedWrap t b = Spec.ragged (.crate be) t b) →
      ∀ os, Spec.TameAll (.crate be) ts os →
      Spec.decWrapAll be ts os = Spec.decAll (.crate be) ts os ∧
        Spec.raggedWrapAny ts os = Spec.raggedAny (.crate be) ts os := by
    intro ts
    induction ts with
    | nil => intro _ os _; cases os <;> exact ⟨rfl, rfl⟩
    | cons t ts ih =>
      intro h os ht
      cases os with
      | nil => exact ⟨rfl, rfl⟩
      | cons o os =>
        rw [TameAll_cons] at ht
        obtain ⟨h1, h2⟩ := ih (fun u hu => h u (by simp [hu])) os ht.2
        rw [decWrapAll_cons, decAll_cons, raggedWrapAny_cons, raggedAny_cons, h1, h2]
        cases o with
        | none => exact ⟨rfl, rfl⟩
        | some x =>
          obtain ⟨h3, h4⟩ := h t (by simp) x (ht.1 x rfl)
          simp only [decWrapChild, decChild, raggedWrapChild, raggedChild, h3, h4, and_self]
  have tup : ∀ ts : List Ty, (Ty.shows ts).length < 2 ^ 40 → (∀ t ∈ ts, Small t → ∀ b, Spec.Tame (.crate be) t b →
      Spec.decWrap be t b = Spec.dec (.crate be) t b ∧ Spec.raggedWrap t b = Spec.ragged (.crate be) t b) →
      ∀ b, Spec.Tame (.crate be) (.tuple ts) b →
      Spec.decWrap be (.tuple ts) b = Spec.dec (.crate be) (.tuple ts) b ∧
        Spec.raggedWrap (.tuple ts) b = Spec.ragged (.crate be) (.tuple ts) b := by
    intro ts hsm ih b ht
    rw [Spec.Tame] at ht
    obtain ⟨h1, h2⟩ := all ts (fun t hm => ih t hm (by have := shows_ge hm; unfold Small; omega)) _ ht.2
    rw [Spec.decWrap, Spec.dec, Spec.raggedWrap, Spec.ragged, memberChildrenWrap_tame (be := be) hsm ht.1, h1, h2]
    exact ⟨rfl, rfl⟩
  induction t using Ty.ind with
  | a e ih =>
    intro hsm b ht
    rw [Spec.Tame] at ht
    rw [decWrap_A, dec_A, raggedWrap_A, ragged_A, arrChildrenWrap_tame (be := be) ht.1]
    have h2 := ht.2
    generalize Spec.arrChildren (.crate be) e b = os at h2 ⊢
    have hd : os.map (decWrapChild be e) = os.map (decChild (.crate be) e) := by
      apply List.map_congr_left
      intro o ho
      cases o with
      | none => rfl
      | some x => exact (ih hsm.A x (h2 x ho)).1
    have hr : os.any (raggedWrapChild e) = os.any (raggedChild (.crate be) e) := by
      clear hd
      induction os with
      | nil => rfl
      | cons o os ih2 =>
        rw [List.any_cons, List.any_cons, ih2 fun x hx => h2 x (by simp [hx])]
        cases o with
        | none => rfl
        | some x =>
          have := (ih hsm.A x (h2 x (by simp))).2
          simp only [raggedWrapChild, raggedChild, this]
    rw [hd, hr]
    exact ⟨rfl, rfl⟩
  | m e ih =>
    intro hsm b ht
    rw [Spec.Tame] at ht
    rw [decWrap_M, dec_M, Spec.raggedWrap, Spec.ragged]
    cases hm : Spec.maybeChild e b with
    | none => exact ⟨rfl, rfl⟩
    | some x =>
      obtain ⟨h1, h2⟩ := ih hsm.M x (ht x hm)
      simp only [h1, h2, and_self]
  | tuple ts ih =>
    intro hsm b ht
    exact tup ts hsm.shows ih b ht
  | dict k v ihk ihv =>
    intro hsm b ht
    rw [tame_dict] at ht
    rw [decWrap_dict, dec_dict, raggedWrap_dict, ragged_dict]
    refine tup [k, v] hsm.dict ?_ b ht
    intro e he
    simp only [List.mem_cons, List.not_mem_nil, or_false] at he
    rcases he with rfl | rfl
    · exact ihk
    · exact ihv
  | _ => intro _ b _; simp [Spec.decWrap, Spec.raggedWrap, Spec.ragged]

/-- Data that is replaced in a cast is tame. -/
theorem tame_of_cast {be : Bool} {t : Ty} {b : Bytes} (h : castBytes t b ≠ b) : Spec.Tame (.crate be) t b := by
  unfold castBytes at h
  cases hs : Spec.size t with
  | some n => exact tame_fixed _ t n hs b
  | none =>
    rw [hs] at h
    simp only at h
    have hb : Spec.badSize t b = true := by
      cases hb : Spec.badSize t b with
      | true => rfl
      | false => simp [hb] at h
    cases t with
    | A e =>
      simp only [Spec.badSize] at hb
      cases he : Spec.size e with
      | none => simp [he] at hb
      | some n =>
        rw [Spec.Tame]
        exact ⟨fun h => (by rw [he] at h; cases h), fun x _ => tame_fixed _ e n he x⟩
    | _ => simp [Spec.badSize] at hb

/-- Casting does not change the meaning. -/
theorem decWrap_castBytes {be : Bool} {t : Ty} (hsm : Small t) (b : Bytes) :
    Spec.decWrap be t (castBytes t b) = Spec.decWrap be t b ∧
      Spec.raggedWrap t (castBytes t b) = Spec.raggedWrap t b := by
  by_cases h : castBytes t b = b
  · rw [h]; exact ⟨rfl, rfl⟩
  have ht := tame_of_cast (be := be) h
  obtain ⟨h1, h2⟩ := wrap_tame be t hsm b ht
  obtain ⟨h3, h4⟩ := wrap_tame be t hsm _ (tame_castBytes ht)
  rw [h1, h2, h3, h4]
  exact dec_castBytes _ t b

theorem decWrap_dflt {be : Bool} {t : Ty} (hsm : Small t) :
    Spec.decWrap be t (dfltBytes t) = Spec.dflt t ∧ Spec.raggedWrap t (dfltBytes t) = false := by
  obtain ⟨h1, h2⟩ := wrap_tame be t hsm _ (tame_dflt _ t)
  rw [h1, h2]
  exact dec_dfltBytes _ t

/-! ### Children -/

theorem elemRaw_rel {c : Cfg} (hov : c.overflowChecks = false) {e : Ty} {s : Slice} {body prev stop : Nat}
    (hp : prev < usizeMod) :
    elemRaw c e s body prev stop = elemAt c e s body (Spec.roundUp prev (Spec.align e) % usizeMod) stop := by
  have hal := specAlign_isAl e
  unfold elemRaw elemAt
  simp only [alignOf_eq, alignOffset_rel hov hal hp, roundUp_of_dvd hal.pos (dvd_mod_usize hal (roundUp_dvd _ _)),
    Res.bind_ok]

/-- References to the elements from some framing offsets on. -/
def elemRefsRaw (c : Cfg) (e : Ty) (s : Slice) (body : Nat) : Nat → List Nat → Res (List Slice)
  | _, [] => .ok []
  | prev, stop :: stops => do
    let r ← elemRaw c e s body prev stop
    let rs ← elemRefsRaw c e s body stop stops
    pure (r :: rs)

theorem collect_raw {c : Cfg} {e : Ty} {s : Slice}
    (ha : Spec.align e ∣ s.addr) (hl : s.len < 2 ^ 63) (fuel : Nat) :
    ∀ k prev, prev < usizeMod → k ≤ (Spec.arrFrame s.bytes).2.length →
    (Spec.arrFrame s.bytes).2.length < k + fuel →
    collectIter c e fuel (iterState s k prev) =
      elemRefsRaw c e s (Spec.arrFrame s.bytes).1 prev ((Spec.arrFrame s.bytes).2.drop k) := by
  induction fuel with
  | zero =>
    intro k prev _ _ hf
    omega
  | succ fuel ih =>
    intro k prev hp hkl hf
    simp only [collectIter]
    by_cases hk : k < (Spec.arrFrame s.bytes).2.length
    · rw [iterNext_raw ha hl hk hp, List.drop_eq_getElem_cons hk]
      simp only [elemRefsRaw]
      cases elemRaw c e s (Spec.arrFrame s.bytes).1 prev (Spec.arrFrame s.bytes).2[k] with
      | fail f => rfl
      | ok r =>
        simp only [Res.bind_ok]
        rw [ih (k + 1) _ (stops_lt_usize _ _ (List.getElem_mem _)) (by omega) (by omega)]
    · rw [iterNext_end (by omega), List.drop_of_length_le (by omega)]
      rfl

theorem elemRefsRaw_rel {c : Cfg} (hov : c.overflowChecks = false) {e : Ty} {s : Slice} {body : Nat} (hx : Expands e)
    (hn : Spec.size e = none) (ha : Spec.align e ∣ s.addr) (hb : body ≤ s.len) (stops : List Nat) :
    (∀ o ∈ stops, o < usizeMod) → ∀ prev, prev < usizeMod →
    let os := Spec.elemsWrap s.bytes body (Spec.align e) prev stops
    (os.any (badChild e) = true → elemRefsRaw c e s body prev stops = .fail .unwrap) ∧
    (os.any (badChild e) = false →
      ∃ rs, elemRefsRaw c e s body prev stops = .ok rs ∧ List.Forall₂ (RefFor c s e) os rs) := by
  induction stops with
  | nil =>
    intro _ prev _
    refine ⟨fun h => ?_, fun _ => ⟨[], rfl, .nil⟩⟩
    simp [Spec.elemsWrap] at h
  | cons stop stops ih =>
    intro hst prev hp
    have hal := specAlign_isAl e
    obtain ⟨h1, h2⟩ := elemAt_ok (c := c) (prev := Spec.roundUp prev (Spec.align e) % usizeMod) (stop := stop) hx hn ha hb
    rw [roundUp_of_dvd hal.pos (dvd_mod_usize hal (roundUp_dvd _ _)), ← elemRaw_rel hov hp] at h1 h2
    obtain ⟨h3, h4⟩ := ih (fun o ho => hst o (by simp [ho])) stop (hst stop (by simp))
    simp only [Spec.elemsWrap, elemRefsRaw, List.any_cons]
    have hmod : (2 : Nat) ^ 64 = usizeMod := rfl
    rw [hmod]
    constructor
    · intro h
      cases hc : badChild e (Spec.place s.bytes body (Spec.roundUp prev (Spec.align e) % usizeMod) stop) with
      | true => rw [h1 hc]; rfl
      | false =>
        rw [hc, Bool.false_or] at h
        obtain ⟨r, hr, _⟩ := h2 hc
        rw [hr, h3 h]; rfl
    · intro h
      rw [Bool.or_eq_false_iff] at h
      obtain ⟨r, hr, hr'⟩ := h2 h.1
      obtain ⟨rs, hrs, hrs'⟩ := h4 h.2
      rw [hr, hrs]
      exact ⟨_, rfl, .cons hr' hrs'⟩

theorem arrRefs_rel {c : Cfg} (hov : c.overflowChecks = false) {e : Ty} {s : Slice} (hx : Expands e)
    (ha : Spec.align e ∣ s.addr) (hc : castBytes (.A e) s.bytes = s.bytes)
    (hl : Spec.size e = none → s.len < 2 ^ 63) :
    let os := Spec.arrChildrenWrap e s.bytes
    (os.any (badChild e) = true → arrRefs c e s = .fail .unwrap) ∧
    (os.any (badChild e) = false →
      ∃ rs, arrRefs c e s = .ok rs ∧ List.Forall₂ (RefFor c s e) os rs) := by
  cases he : Spec.size e with
  | some n =>
    rw [arrChildrenWrap_tame (be := c.bigEndian) (by rw [he]; intro h; cases h)]
    exact arrRefs_tame hx ha hc hl (by rw [he]; intro h; cases h)
  | none =>
    have hl2 := hl he
    unfold arrRefs Spec.arrChildrenWrap
    rw [sizeOf_eq, he]
    simp only [intoIter_ok ha hl2, Res.bind_ok]
    have hb := arrFrame_body_le s.bytes
    have hcount : (Spec.arrFrame s.bytes).2.length ≤ (iterState s 0 0).offsets.length := by
      simp only [iterState, List.length_drop, ← arrFrame_count]
      exact Nat.le_mul_of_pos_right _ (arrW_isWidth _).pos
    rw [collect_raw ha hl2 ((iterState s 0 0).offsets.length + 1) 0 0 (by decide)
      (Nat.zero_le _) (by omega), List.drop_zero]
    exact elemRefsRaw_rel hov hx he ha hb _ (stops_lt_usize _) 0 (by decide)

/-! ### Structures -/

theorem calcOffsets_rel {c : Cfg} (hov : c.overflowChecks = false) {t : Ty} {b : Bytes}
    {k a bb cc nfo f : Nat} {last : Bool}
    (hl : b.length < 2 ^ 63) (hbb : IsAl bb) (hcc : Spec.align t ∣ cc) (hk : k < 2 ^ 50)
    (hn : nfo < 2 ^ 50)
    (hf : frameBefore b k = some f) (hw : Spec.offsetWidth b.length * nfo ≤ b.length) :
    calcOffsets c (alignOf t) b ⟨(k : Int) - 1, a, bb, cc⟩ (sizeOf t) last nfo =
      .ok (
        let start := (Spec.roundUp (f + a) bb + cc) % usizeMod
        let stop := match Spec.size t with
          | some n => some ((Spec.roundUp (f + a) bb + cc + n) % usizeMod)
          | none => if last then some (b.length - Spec.offsetWidth b.length * nfo) else Spec.frame b k
        match stop with
        | none => none
        | some e => if start ≤ e ∧ e ≤ b.length - Spec.offsetWidth b.length * nfo
            then some (start, e) else none) := by
  have e1 : ((k : Int) - 1 + 1).toNat = k := by omega
  have e2 : ((k : Int) - 1 + 2).toNat = k + 1 := by omega
  have hw8 := offsetSize_lt b.length
  have hmul : Spec.offsetWidth b.length * nfo ≤ 8 * nfo := Nat.mul_le_mul_right _ hw8
  have htn : tryNew (Spec.align t) cc = some cc := by
    simp [tryNew, Nat.mod_eq_zero_of_dvd hcc]
  have hM : 0 < usizeMod := by decide
  unfold frameBefore at hf
  unfold calcOffsets
  simp only [e1, e2, offsetSize_eq, sizeOf_eq, alignOf_eq, nthLast_ok' hl (n := k) (by omega),
    nthLast_ok' hl (n := k + 1) (by omega), hf, Res.bind_ok]
  rw [umul_ok (by unfold usizeMod; omega)]
  simp only [Res.bind_ok, checkedSub, if_pos hw, uadd_wrap hov, alignOffset_rel hov hbb (Nat.mod_lt _ hM),
    roundUp_mod hbb, htn, Res.unwrap_some, Nat.mod_add_mod]
  have e3 : ∀ n, (Spec.roundUp (f + a) bb % usizeMod + cc + n) % usizeMod =
      (Spec.roundUp (f + a) bb + cc + n) % usizeMod := by
    intro n
    rw [Nat.add_assoc, Nat.mod_add_mod, Nat.add_assoc]
  cases hs : Spec.size t with
  | some n =>
    simp only [Res.bind_ok, Res.pure_eq, e3]
    split <;> rfl
  | none =>
    simp only
    cases last with
    | true =>
      simp only [if_true, Res.bind_ok, Res.pure_eq]
      split <;> rfl
    | false =>
      simp only [Bool.false_eq_true, if_false, Res.bind_ok, Nat.succ_ne_zero, Nat.add_sub_cancel]
      cases Spec.frame b k with
      | none => rfl
      | some e => simp only [Res.pure_eq]; split <;> rfl

theorem memberRefs_rel {c : Cfg} (hov : c.overflowChecks = false) {s : Slice} {nfo : Nat} (hl : s.len < 2 ^ 63) (hn : nfo < 2 ^ 50)
    (hw : Spec.offsetWidth s.len * nfo ≤ s.len) (ts : List Ty) :
    (∀ t ∈ ts, Expands t) → (∀ t ∈ ts, Spec.align t ∣ s.addr) →
    ∀ (k a b cc f : Nat), IsAl b → k + framesLeft ts ≤ nfo + 1 →
      (ts ≠ [] → k + framesLeft ts ≤ nfo) →
      a + cc + 16 * (Ty.shows ts).length < 2 ^ 50 →
      (ts ≠ [] → frameBefore s.bytes k = some f) →
      let e := s.len - Spec.offsetWidth s.len * nfo
      ∃ rs, memberRefs c s nfo ts (tableLoop ⟨(k : Int) - 1, a, b, cc⟩ ts) = .ok rs ∧
        RefsFor c s ts
          (Spec.membersWrap s.bytes e (some (Spec.roundUp (f + a) b + cc)) k ts) rs := by
  induction ts with
  | nil => intro _ _ k a b cc f _ _ _ _ _; exact ⟨[], rfl, trivial⟩
  | cons t ts ih =>
    intro hx ha k a b cc f hb hk1 hk hsum hf
    have hx' : ∀ u ∈ ts, Expands u := fun u hu => hx u (by simp [hu])
    have ha' : ∀ u ∈ ts, Spec.align u ∣ s.addr := fun u hu => ha u (by simp [hu])
    have hxt := hx t (by simp)
    have hat := ha t (by simp)
    have hk := hk (by simp)
    have hf := hf (by simp)
    have hl' : s.bytes.length < 2 ^ 63 := hl
    obtain ⟨a', b', c', hb', hle, hd, hst, hbound, hpos⟩ := tableStep f t ((k : Int) - 1) (a := a) (c := cc) hb
    simp only [Ty.shows, List.length_append] at hsum
    have hshow := show_pos t
    have hcalc := calcOffsets_rel hov (t := t) (b := s.bytes) (k := k) (a := a') (bb := b') (cc := c')
      (nfo := nfo) (f := f) (last := ts.isEmpty) hl' hb' hd (by omega) hn hf hw
    rw [hpos] at hcalc
    -- the reference to this member
    have hmem : ∀ (stop : Option Nat) (o : Option (Nat × Nat)),
        o = (match stop with
            | none => none
            | some e => if Spec.roundUp (Spec.roundUp (f + a) b + cc) (Spec.align t) % usizeMod ≤ e ∧
                e ≤ s.len - Spec.offsetWidth s.len * nfo
                then some (Spec.roundUp (Spec.roundUp (f + a) b + cc) (Spec.align t) % usizeMod, e) else none) →
        calcOffsets c (alignOf t) s.bytes ⟨(k : Int) - 1, a', b', c'⟩ (sizeOf t) ts.isEmpty nfo = .ok o →
        ∃ r, getChildElem c t s ⟨(k : Int) - 1, a', b', c'⟩ ts.isEmpty nfo = .ok r ∧
          RefFor c s t (stop.bind fun e => Spec.place s.bytes (s.len - Spec.offsetWidth s.len * nfo)
            ((Spec.roundUp (Spec.roundUp (f + a) b + cc) (Spec.align t) % usizeMod)) e) r := by
      intro stop o ho hcalc
      unfold getChildElem
      rw [hcalc, Res.bind_ok, ho]
      cases stop with
      | none => exact default_refFor s hxt
      | some e =>
        simp only [Option.bind_some, Spec.place]
        by_cases h : Spec.roundUp (Spec.roundUp (f + a) b + cc) (Spec.align t) % usizeMod ≤ e ∧
                e ≤ s.len - Spec.offsetWidth s.len * nfo
        · simp only [if_pos h]
          exact window_refFor hxt hat (dvd_mod_usize (specAlign_isAl t) (roundUp_dvd _ _)) h.1 (by omega)
        · simp only [if_neg h]
          exact default_refFor s hxt
    simp only [tableLoop, hst, memberRefs, Spec.membersWrap, Option.map_some, Option.bind_some]
    rw [sizeOf_eq] at hmem hcalc ⊢
    cases hs : Spec.size t with
    | some n =>
      have hsb := size_bound t n hs
      rw [hs] at hmem hcalc
      obtain ⟨r, hr, hr'⟩ :=
        hmem (some ((Spec.roundUp (Spec.roundUp (f + a) b + cc) (Spec.align t) + n) % usizeMod)) _ rfl hcalc
      have hfl : framesLeft (t :: ts) = framesLeft ts := by simp [framesLeft, hs]
      rw [hfl] at hk1 hk
      obtain ⟨rs, hrs, hrs'⟩ := ih hx' ha' k a' b' (c' + n) f hb' hk1 (fun _ => hk) (by omega) (fun _ => hf)
      rw [← Nat.add_assoc, hpos] at hrs'
      exact ⟨r :: rs, by simp only [hr, hrs, Res.bind_ok, Res.pure_eq], hr', hrs'⟩
    | none =>
      rw [hs] at hmem hcalc
      have hki : (k : Int) - 1 + 1 = ((k + 1 : Nat) : Int) - 1 := by omega
      simp only [hki]
      by_cases hts : ts = []
      · subst hts
        obtain ⟨r, hr, hr'⟩ := hmem (some (s.len - Spec.offsetWidth s.len * nfo)) _ rfl hcalc
        simp only [tableLoop, memberRefs, Spec.membersWrap]
        exact ⟨[r], by simp only [hr, Res.bind_ok, Res.pure_eq], by simpa using hr', trivial⟩
      · have hfl : framesLeft (t :: ts) = 1 + framesLeft ts := by simp [framesLeft, hs, hts]
        rw [hfl] at hk1 hk
        have hex : ∃ g, Spec.frame s.bytes k = some g := by
          unfold Spec.frame
          simp only
          rw [if_pos]
          · exact ⟨_, rfl⟩
          · have h1 : (k + 1) * Spec.offsetWidth s.len ≤ nfo * Spec.offsetWidth s.len :=
              Nat.mul_le_mul_right _ (by omega)
            rw [Nat.mul_comm nfo] at h1
            exact Nat.le_trans h1 hw
        obtain ⟨g, hg⟩ := hex
        have hemp : ts.isEmpty = false := by simpa using hts
        rw [hg, hemp] at hcalc
        rw [hemp] at hmem
        obtain ⟨r, hr, hr'⟩ := hmem (some g) _ rfl hcalc
        obtain ⟨rs, hrs, hrs'⟩ := ih hx' ha' (k + 1) 0 1 0 g (Or.inl rfl) (by omega) (fun _ => by omega)
          (by omega) (fun _ => by simp [frameBefore, hg])
        simp only [hemp, if_false, hts, hg]
        have hp1 : Spec.roundUp (g + 0) 1 + 0 = g := by simp [Spec.roundUp]
        rw [hp1] at hrs'
        exact ⟨r :: rs, by simp only [hr, hrs, Res.bind_ok, Res.pure_eq], by simpa using hr', hrs'⟩

theorem tupRefs_rel {c : Cfg} (hov : c.overflowChecks = false) {gv : Ty} {ts : List Ty} {s : Slice}
    (hgv : Spec.size gv = Spec.size (.tuple ts)) (hx : ∀ t ∈ ts, Expands t)
    {d} (hd : generateTuple gv ts = .ok d) (hsm : (Ty.shows ts).length < 2 ^ 40)
    (ha : Spec.alignMax ts ∣ s.addr) (hc : castBytes (.tuple ts) s.bytes = s.bytes)
    (hl : Spec.size (.tuple ts) = none → s.len < 2 ^ 63) :
    ∃ rs, tupRefs c gv ts s = .ok rs ∧
      RefsFor c s ts (Spec.memberChildrenWrap ts s.bytes) rs := by
  cases hs : Spec.size (.tuple ts) with
  | some n =>
    have hfr : ∀ i o, i < Spec.frameCount ts → Spec.frame s.bytes i = some o → o < 2 ^ 63 := by
      intro i o hi
      rw [frameCount_fixed hs] at hi
      omega
    rw [memberChildrenWrap_tame (be := c.bigEndian) hsm hfr]
    exact tupRefs_tame hgv hx hd hsm ha hc hl hfr
  | none =>
    have ha' : ∀ t ∈ ts, Spec.align t ∣ s.addr := fun t ht =>
      Nat.dvd_trans ((specAlign_isAl t).dvd (alignMax_isAl ts) (alignMax_ge ht)) ha
    have hl := hl hs
    have hnl := shows_length_ge ts
    have hfl := framesLeft_le ts
    unfold tupRefs Spec.memberChildrenWrap
    rw [sizeOf_eq, hgv, hs]
    simp only
    obtain ⟨cmds, hc⟩ := serLoop_ok (nFrameOffsets ts) ts 0 8 0 0 (by rw [nFrameOffsets_eq]; omega)
    have hp : writeNonFixedSizeStructure ts = .ok ⟨generateTable ts, nFrameOffsets ts, cmds⟩ := by
      simp [writeNonFixedSizeStructure, hc]
    simp only [hp, Res.bind_ok, nFrameOffsets_eq, Spec.bodyEnd, frameCount_eq]
    by_cases hw : Spec.offsetWidth s.bytes.length * framesLeft ts ≤ s.bytes.length
    · rw [if_pos hw]
      have := memberRefs_rel hov (s := s) hl (by omega) hw ts hx ha' 0 0 1 0 0 (Or.inl rfl)
        (by omega) (fun _ => by omega) (by omega) (fun _ => rfl)
      exact this
    · rw [if_neg hw]
      exact memberRefs_short (c := c) hl (by omega) (by simpa [Slice.len] using hw) ts hx _ (by simp)
        (by simp only; omega)

/-- What reading a reference to a value of type `t` gives in a build without overflow checks. -/
def ViewRel (c : Cfg) (t : Ty) : Prop :=
  ∀ r : Slice, Spec.align t ∣ r.addr → castBytes t r.bytes = r.bytes →
    (Spec.size t = none → r.len < 2 ^ 63) →
    view c t r = guardRag (Spec.raggedWrap t r.bytes) (Spec.decWrap c.bigEndian t r.bytes)

theorem child_rel {c : Cfg} {s : Slice} {t : Ty} {o : Option Bytes} {r : Slice} (hsm : Small t) (ih : ViewRel c t)
    (h : RefFor c s t o r) (hl : Spec.size t = none → s.len < 2 ^ 63) :
    view c t r = guardRag (raggedWrapChild t o) (decWrapChild c.bigEndian t o) := by
  obtain ⟨h1, h2, h3⟩ := h
  have hlen : Spec.size t = none → r.len < 2 ^ 63 := by
    intro hs
    rcases h3 with ⟨lo, hi, _, _, rfl⟩ | h3
    · have := sub_length_le' s.bytes lo hi
      have := hl hs
      simp only [Slice.len] at *
      omega
    · simp [Slice.len, h3.1, dfltBytes, hs]
  have := ih r h1 (by rw [h2]; exact castBytes_idem _ _) hlen
  rw [h2] at this
  have c1 := fun x => decWrap_castBytes (be := c.bigEndian) hsm x
  have c2 := decWrap_dflt (be := c.bigEndian) hsm
  cases o with
  | some x =>
    simpa only [Option.getD_some, raggedWrapChild, decWrapChild, c1] using this
  | none =>
    simpa only [Option.getD_none, raggedWrapChild, decWrapChild, c1, c2] using this

theorem traverse_rel {c : Cfg} {s : Slice} {t : Ty} (hsm : Small t) (ih : ViewRel c t)
    (hl : Spec.size t = none → s.len < 2 ^ 63) {os : List (Option Bytes)} {rs : List Slice}
    (h : List.Forall₂ (RefFor c s t) os rs) :
    Res.traverse (view c t) rs = guardRag (os.any (raggedWrapChild t))
      (os.map (decWrapChild c.bigEndian t)) := by
  induction h with
  | nil => rfl
  | @cons o r os rs h1 h2 ih2 =>
    rw [Res.traverse, child_rel hsm ih h1 hl, ih2]
    simp only [List.any_cons, List.map_cons, guardRag]
    cases raggedWrapChild t o <;>
      cases os.any (raggedWrapChild t) <;> simp

theorem viewAll_rel {c : Cfg} {s : Slice} (ts : List Ty) :
    (∀ t ∈ ts, Small t ∧ ViewRel c t) → (∀ t ∈ ts, Spec.size t = none → s.len < 2 ^ 63) →
    ∀ (os : List (Option Bytes)) (rs : List Slice), RefsFor c s ts os rs →
    viewAll c ts rs = guardRag (Spec.raggedWrapAny ts os) (Spec.decWrapAll c.bigEndian ts os) := by
  induction ts with
  | nil =>
    intro _ _ os rs h
    cases os <;> cases rs <;> simp only [RefsFor] at h
    rw [viewAll]; rfl
  | cons t ts ih =>
    intro hv hl os rs h
    cases os with
    | nil => cases rs <;> simp only [RefsFor] at h
    | cons o os =>
      cases rs with
      | nil => simp only [RefsFor] at h
      | cons r rs =>
        obtain ⟨h1, h2⟩ := h
        obtain ⟨hsm, hvt⟩ := hv t (by simp)
        rw [viewAll, raggedWrapAny_cons, decWrapAll_cons, child_rel hsm hvt h1 (hl t (by simp)),
          ih (fun u hu => hv u (by simp [hu])) (fun u hu => hl u (by simp [hu])) os rs h2]
        simp only [guardRag]
        cases raggedWrapChild t o <;>
          cases Spec.raggedWrapAny ts os <;> simp

theorem view_rel (c : Cfg) (hov : c.overflowChecks = false) (t : Ty) :
    Expands t → Small t → ViewRel c t := by
  have leaf : ∀ t : Ty, (∀ b, Spec.Tame (.crate c.bigEndian) t b) → Expands t → Small t → ViewRel c t := by
    intro t ht hx hsm r ha hc hl
    obtain ⟨h1, h2⟩ := wrap_tame c.bigEndian t hsm r.bytes (ht _)
    rw [h1, h2]
    exact view_ok c t hx hsm r ha hc hl (ht _)
  induction t using Ty.ind with
  | a e ih =>
    intro hx hsm r ha hc hl
    have hx' := expands_A.1 hx
    have ha' : Spec.align e ∣ r.addr := by simpa [Spec.align] using ha
    have hl' : Spec.size e = none → r.len < 2 ^ 63 := fun _ => hl (by simp [Spec.size])
    rw [view, raggedWrap_A, decWrap_A]
    obtain ⟨h1, h2⟩ := arrRefs_rel (c := c) hov hx' ha' hc hl'
    cases hb : (Spec.arrChildrenWrap e r.bytes).any (badChild e) with
    | true => rw [h1 hb]; rfl
    | false =>
      obtain ⟨rs, h3, h4⟩ := h2 hb
      rw [h3, Res.bind_ok, traverse_rel hsm.A (ih hx' hsm.A) hl' h4]
      simp only [Bool.false_or, guardRag]
      split <;> rfl
  | m e ih =>
    intro hx hsm r ha hc hl
    have hx' := expands_M.1 hx
    have ha' : Spec.align e ∣ r.addr := by simpa [Spec.align] using ha
    have hl' : r.len < 2 ^ 63 := hl (by simp [Spec.size])
    have h := toOption_ok (c := c) hx' ha' (Nat.lt_trans hl' (by decide))
    rw [view, Spec.raggedWrap, decWrap_M]
    cases hm : Spec.maybeChild e r.bytes with
    | none => rw [hm] at h; simp only at h; rw [h]; rfl
    | some x =>
      rw [hm] at h
      obtain ⟨h1, h2⟩ := h
      simp only
      cases hb : Spec.badSize e x with
      | true => rw [h1 hb]; rfl
      | false =>
        obtain ⟨r', h3, h4⟩ := h2 hb
        rw [h3, Res.bind_ok]
        simp only
        rw [child_rel hsm.M (ih hx' hsm.M) h4 (fun _ => hl'),
          show raggedWrapChild e (some x) = Spec.raggedWrap e x from rfl]
        simp only [Bool.false_or, guardRag, decWrapChild]
        by_cases hr : Spec.raggedWrap e x = true
        · rw [if_pos hr, if_pos hr]; rfl
        · rw [if_neg hr, if_neg hr]; rfl
  | tuple ts ih =>
    intro hx hsm r ha hc hl
    obtain ⟨hx', d, hd⟩ := expands_tuple.1 hx
    rw [view, Spec.raggedWrap, Spec.decWrap]
    obtain ⟨rs, h1, h2⟩ := tupRefs_rel (c := c) hov rfl hx' hd hsm.shows (by simpa [Spec.align] using ha) hc hl
    have hsm' : ∀ t ∈ ts, Small t := fun t ht => by have := shows_ge ht; have := hsm.shows; unfold Small; omega
    rw [h1, Res.bind_ok, viewAll_rel ts (fun t ht => ⟨hsm' t ht, ih t ht (hx' t ht) (hsm' t ht)⟩)
      (fun t ht hs => hl (members_nonfixed ht hs)) _ rs h2]
    simp only [guardRag]
    split <;> rfl
  | dict k v ihk ihv =>
    intro hx hsm r ha hc hl
    obtain ⟨⟨hxk, hxv⟩, d, hd⟩ := expands_dict.1 hx
    have hx' : ∀ t ∈ [k, v], Expands t := by
      intro t ht
      simp only [List.mem_cons, List.not_mem_nil, or_false] at ht
      rcases ht with rfl | rfl
      · exact hxk
      · exact hxv
    rw [castBytes_dict] at hc
    rw [size_dict_eq] at hl
    have hsm' := hsm.dict
    have hv : ∀ t ∈ [k, v], Small t ∧ ViewRel c t := by
      intro t ht
      have := shows_ge ht
      have hs : Small t := by unfold Small; omega
      simp only [List.mem_cons, List.not_mem_nil, or_false] at ht
      rcases ht with rfl | rfl
      · exact ⟨hs, ihk hxk hs⟩
      · exact ⟨hs, ihv hxv hs⟩
    rw [view, raggedWrap_dict, decWrap_dict, Spec.raggedWrap, Spec.decWrap]
    obtain ⟨rs, h1, h2⟩ := tupRefs_rel (c := c) hov (size_dict_eq k v) hx' hd hsm'
      (by rw [align_dict_eq] at ha; simpa only [Spec.align] using ha) hc hl
    have h3 := viewAll_rel [k, v] hv (fun t ht hs => hl (members_nonfixed ht hs)) _ rs h2
    rw [h1, Res.bind_ok]
    have hlen := memberChildrenWrap_length [k, v] r.bytes
    match hm : Spec.memberChildrenWrap [k, v] r.bytes, rs, h2, h3, hlen with
    | [x, y], [rk, rv], _, h3, _ =>
      simp only
      rw [viewAll, viewAll, viewAll] at h3
      cases hk : view c k rk with
      | fail f =>
        rw [hk] at h3
        simp only [Res.bind_fail, guardRag] at h3 ⊢
        split at h3
        · rename_i hr; rw [if_pos hr]; cases h3; rfl
        · cases h3
      | ok a =>
        cases hv : view c v rv with
        | fail f =>
          rw [hk, hv] at h3
          simp only [Res.bind_fail, Res.bind_ok, guardRag] at h3 ⊢
          split at h3
          · rename_i hr; rw [if_pos hr]; cases h3; rfl
          · cases h3
        | ok b =>
          rw [hk, hv] at h3
          simp only [Res.bind_ok, guardRag, Res.pure_eq] at h3 ⊢
          split at h3
          · cases h3
          · rename_i hr
            rw [if_neg hr]
            cases h3
            rfl
  | _ => exact leaf _ fun b => by simp [Spec.Tame]

/-- Without overflow checks, reading gives the value of the wrapping decoder, or panics because of a
    ragged array. -/
theorem readAs_rel {c : Cfg} (hov : c.overflowChecks = false) {t : Ty} {s : Slice} (hx : Expands t)
    (hsm : Small t) (ha : Spec.align t ∣ s.addr) (hl : s.len < 2 ^ 63) :
    readAs c t s = if Spec.raggedWrap t s.bytes = true then .fail .unwrap
      else .ok (Spec.decWrap c.bigEndian t s.bytes) := by
  obtain ⟨r, h1, h2, h3, h4⟩ := fromAligned_ok (c := c) hx ha
  have hlen : Spec.size t = none → r.len < 2 ^ 63 := by
    intro hs
    rcases h4 with rfl | h4
    · exact hl
    · simp [Slice.len, h4.1, dfltBytes, hs]
  unfold readAs
  have := view_rel c hov t hx hsm r h2 (by rw [h3]; exact castBytes_idem _ _) hlen
  rw [h3, (decWrap_castBytes hsm _).1, (decWrap_castBytes (be := c.bigEndian) hsm _).2] at this
  rw [h1, Res.bind_ok]
  exact this

end GV
