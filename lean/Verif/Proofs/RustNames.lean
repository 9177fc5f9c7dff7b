import Verif.Spec.RustNames
import Verif.Proofs.EmitParts
/-
Names used in a filled-in format string.
-/
namespace GV.Props
open GV Spec

/-! ### Names after filling in -/

def subPath (σ : UInt8 → Bytes) (ws : List Bytes) : List Bytes := ws.map fun w => w.flatMap σ

def subUse (σ : UInt8 → Bytes) : Use → Use
  | .path r ws => .path r (subPath σ ws)
  | .life w => .life (w.flatMap σ)

def subCur (σ : UInt8 → Bytes) : Cur → Cur
  | .path r ws => .path r (subPath σ ws)
  | c => c

def subBefore (σ : UInt8 → Bytes) : Before → Before
  | .at c k => .at (subCur σ c) k
  | s => s

theorem pathOf_sub (σ : UInt8 → Bytes) (s : Before) (w : Bytes) :
    pathOf (subBefore σ s) (w.flatMap σ) = subCur σ (pathOf s w) := by
  cases s with
  | «at» c k =>
    simp only [subBefore, pathOf]
    split
    · rfl
    · split
      · cases c with
        | none => rfl
        | closed => rfl
        | path r ws => simp [subCur, subPath]
      · rfl
  | _ => rfl

theorem starts_sub (σ : UInt8 → Bytes) (s : Before) : starts (subBefore σ s) = starts s := by
  cases s <;> rfl

/-- What follows does not begin with a colon. -/
def noColon : Forest → Bool
  | .leaf (.op c) _ => c ≠ 58
  | _ => true

/-- A stretch of trees all of whose names are good wherever it is put in place of an expression, type or list. -/
def Fine (br : Bool) (ok : Use → Prop) (f : Forest) : Prop :=
  (∀ g, noColon g = true → noColon (f.append g) = true) ∧
  ∀ c g, noColon g = true → ∃ us c', uses br (.at c 0) (f.append g) = us ++ uses br (.at c' 0) g ∧ ∀ u ∈ us, ok u

theorem Fine.nil {br ok} : Fine br ok .nil := ⟨fun _ h => h, fun c _ _ => ⟨[], c, rfl, by simp⟩⟩

theorem Fine.append {br ok f g} (hf : Fine br ok f) (hg : Fine br ok g) : Fine br ok (f.append g) := by
  refine ⟨fun x hx => ?_, fun c x hx => ?_⟩
  · rw [forest_append_assoc]
    exact hf.1 _ (hg.1 _ hx)
  · rw [forest_append_assoc]
    obtain ⟨us, c1, h1, k1⟩ := hf.2 c (g.append x) (hg.1 _ hx)
    obtain ⟨vs, c2, h2, k2⟩ := hg.2 c1 x hx
    refine ⟨us ++ vs, c2, by rw [h1, h2, List.append_assoc], fun u hu => ?_⟩
    rcases List.mem_append.1 hu with hu | hu
    · exact k1 u hu
    · exact k2 u hu

theorem Fine.concat {br ok} {fs : List Forest} (h : ∀ f ∈ fs, Fine br ok f) : Fine br ok (concatF fs) := by
  induction fs with
  | nil => exact .nil
  | cons f fs ih => exact (h f (by simp)).append (ih fun g hg => h g (by simp [hg]))

theorem Fine.sep {br ok sf} {fs : List Forest} (hs : Fine br ok sf) (h : ∀ f ∈ fs, Fine br ok f) :
    Fine br ok (sepF sf fs) := by
  cases fs with
  | nil => exact .nil
  | cons f fs =>
    refine (h f (by simp)).append (.concat fun g hg => ?_)
    obtain ⟨x, hx, rfl⟩ := List.mem_map.1 hg
    exact hs.append (h x (by simp [hx]))

theorem Fine.uses {br ok f} (h : Fine br ok f) : ∀ u ∈ Spec.uses br (.at .none 0) f, ok u := by
  obtain ⟨us, c, h1, h2⟩ := h.2 .none .nil rfl
  rw [forest_append_nil] at h1
  rw [h1]
  simpa [Spec.uses] using h2

theorem Fine.grp {br ok d i} (h : ∀ u ∈ Spec.uses (d == 123) (.at .none 0) i, ok u) : Fine br ok (.grp d i .nil) := by
  refine ⟨fun _ _ => rfl, fun c g _ => ⟨_, _, rfl, h⟩⟩

/-- Punctuation that does not join. -/
theorem Fine.op {br ok} {c : UInt8} (h : (c == 58 || c == 46 || c == 39 || c == 45) = false) :
    Fine br ok (.leaf (.op c) .nil) := by
  simp only [Bool.or_eq_false_iff, beq_eq_false_iff_ne] at h
  refine ⟨fun g _ => by simp [Forest.append, noColon, h.1.1.1], fun a g _ => ?_⟩
  have : next (.at a 0) (.op c) = .at (if c = 62 then .closed else .none) 0 := by
    simp only [next, if_neg h.1.1.1, if_neg h.1.1.2, if_neg h.1.2, if_neg h.2]
    split <;> rfl
  refine ⟨[], if c = 62 then .closed else .none, ?_, by simp⟩
  simp only [Forest.append, Spec.uses, this]

theorem Fine.word {br ok w} (h : ok (.path .here [w])) (hb : keywords.contains w = false) :
    Fine br ok (.leaf (.word w) .nil) := by
  refine ⟨fun g _ => rfl, fun a g _ => ?_⟩
  have hb' : binders.contains w = false := by
    cases hc : binders.contains w with
    | false => rfl
    | true =>
      have hk : ∀ x ∈ binders, keywords.contains x = true := by decide
      rw [hk w (by simpa using hc)] at hb
      cases hb
  refine ⟨useOf br (.at a 0) w g, if isNumber w then .none else .path .here [w], ?_, ?_⟩
  · simp only [Forest.append, Spec.uses, next, hb, hb']
    simp only [reduceCtorEq, if_false, Bool.false_eq_true]
    congr 2
    split <;> rfl
  · intro u hu
    simp only [useOf, reduceCtorEq, if_false] at hu
    split at hu
    · cases hu
    · simp only [pathOf] at hu
      simp at hu
      rw [hu]; exact h

/-! ### Format strings -/

/-- `ascribed`, whatever is filled in. -/
def ascSure : Forest → Bool
  | .leaf (.op a) x => a = 58 && match x with
    | .leaf (.op b) y => b ≠ 58 || (match y with
      | .leaf (.op c) _ => c = 58
      | _ => false)
    | .leaf (.word w) _ => (seqOf w).isNone
    | .leaf (.lit _) _ => true
    | .grp _ _ _ => true
    | .nil => false
  | _ => false

theorem ascribed_op {a} {t : Tok} {x} (ha : a = 58) (h : t ≠ .op 58) : ascribed (.leaf (.op a) (.leaf t x)) = true := by
  subst ha
  cases t with
  | op b =>
    have hb : b ≠ 58 := fun hb => h (by rw [hb])
    cases x <;> simp [ascribed, hb]
  | word w => cases x <;> rfl
  | lit w => cases x <;> rfl

theorem ascSure_sub {σ φ} {f : Forest} (h : ascSure f = true) (g : Forest) :
    ascribed ((subF σ φ f).append g) = true := by
  cases f with
  | nil => cases h
  | grp d i r => cases h
  | leaf t x =>
    cases t with
    | word w => cases h
    | lit b => cases h
    | op a =>
      simp only [ascSure, Bool.and_eq_true, decide_eq_true_eq] at h
      obtain ⟨ha, h⟩ := h
      cases x with
      | nil => cases h
      | grp d i r => subst ha; rfl
      | leaf t y =>
        cases t with
        | lit b => exact ascribed_op ha (by simp)
        | word w =>
          simp only [Option.isNone_iff_eq_none] at h
          simp only [subF, h]
          exact ascribed_op ha (by simp)
        | op b =>
          simp only [Bool.or_eq_true, decide_eq_true_eq, ne_eq] at h
          rcases h with h | h
          · exact ascribed_op ha (by simpa using h)
          · cases y with
            | nil => cases h
            | grp d i r => cases h
            | leaf t z =>
              cases t with
              | op c =>
                simp only [decide_eq_true_eq] at h
                subst h ha
                by_cases hb : b = 58
                · subst hb; rfl
                · exact ascribed_op rfl (by simpa using hb)
              | _ => cases h

section
variable (lit : Use → Bool) (ph : Bool → UInt8 → Bool) (nm nu : Bytes → Bool)

/-- Does not begin with a colon, whatever is filled in. -/
def startsOk (br : Bool) : Forest → Bool
  | .leaf (.word w) r => match seqOf w with
    | some h => ph br h && startsOk br r
    | none => true
  | .leaf (.op c) _ => c ≠ 58
  | _ => true

def is0 : Before → Bool
  | .at _ k => k = 0
  | _ => false

/-- The uses a path stands for are good. -/
def litOk (s : Before) (w : Bytes) : Bool :=
  match pathOf s w with
  | .path root ws => lit (.path root ws)
  | _ => true

/-- The use a plain word makes is good. -/
def plainOk (br : Bool) (s : Before) (w : Bytes) (r : Forest) : Bool :=
  if s = .quote then lit (.life w)
  else keywords.contains w || isNumber w || litNext r || (br && starts s && ascSure r) || litOk lit s w

/-- Walk over a format string, checking its names; what precedes at the end. -/
def tplRun (br : Bool) : Before → Forest → Option Before
  | s, .nil => some s
  | s, .leaf t r => match t with
    | .word w => match seqOf w with
      | some h => if is0 s && ph br h && startsOk ph br r then tplRun br (.at .none 0) r else none
      | none =>
        if plainW w then
          if plainOk lit br s w r then tplRun br (next s (.word w)) r else none
        else if s = .quote then none
        else if nm w then
          if (br && starts s && ascSure r) || litOk lit s w then tplRun br (.at (pathOf s w) 0) r else none
        else if nu w then tplRun br (.at .none 0) r
        else none
    | .op c => tplRun br (next s (.op c)) r
    | .lit b => tplRun br (next s (.lit b)) r
  | _, .grp d i r =>
    if (tplRun (d == 123) (.at .none 0) i).isSome then tplRun br (.at (if d = 123 then .none else .closed) 0) r else none

/-- What precedes in the format string, and in the text. -/
def RelB (σ : UInt8 → Bytes) (s s' : Before) (rest : Forest) : Prop :=
  s' = subBefore σ s ∨ (is0 s = true ∧ is0 s' = true ∧ noColon rest = true)

variable {lit ph nm nu}
variable {σ : UInt8 → Bytes} {φ : UInt8 → Forest} {ok : Use → Prop}

theorem startsOk_sub (hph : ∀ br h, ph br h = true → Fine br ok (φ h)) {f : Forest} {br : Bool} (h : startsOk ph br f = true) {g}
    (hg : noColon g = true) : noColon ((subF σ φ f).append g) = true := by
  induction f with
  | nil => exact hg
  | grp d i r _ _ => rfl
  | leaf t r ih =>
    cases t with
    | lit b => rfl
    | op c => exact h
    | word w =>
      simp only [startsOk] at h
      simp only [subF]
      cases hs : seqOf w with
      | none => rfl
      | some x =>
        rw [hs] at h
        simp only [Bool.and_eq_true] at h
        simp only [forest_append_assoc]
        exact (hph br x h.1).1 _ (ih h.2)

theorem is0_iff {s : Before} : is0 s = true ↔ ∃ c, s = .at c 0 := by
  constructor
  · intro h
    cases s with
    | «at» c k => simp only [is0, decide_eq_true_eq] at h; exact ⟨c, by rw [h]⟩
    | _ => cases h
  · rintro ⟨c, rfl⟩; rfl

theorem RelB.pathOf {s s' rest} (h : RelB σ s s' rest) (w : Bytes) :
    Spec.pathOf s' (w.flatMap σ) = subCur σ (Spec.pathOf s w) := by
  rcases h with rfl | ⟨h1, h2, _⟩
  · exact pathOf_sub σ s w
  · obtain ⟨c, rfl⟩ := is0_iff.1 h1
    obtain ⟨c', rfl⟩ := is0_iff.1 h2
    rfl

theorem RelB.starts {s s' rest} (h : RelB σ s s' rest) : Spec.starts s' = Spec.starts s := by
  rcases h with rfl | ⟨h1, h2, _⟩
  · exact starts_sub σ s
  · obtain ⟨c, rfl⟩ := is0_iff.1 h1
    obtain ⟨c', rfl⟩ := is0_iff.1 h2
    rfl

theorem RelB.same {s s' rest} (h : RelB σ s s' rest) (x : Before) (hx : ∀ c k, x ≠ .at c k) : s' = x ↔ s = x := by
  rcases h with rfl | ⟨h1, h2, _⟩
  · cases s with
    | «at» c k => exact ⟨fun h => absurd h.symm (hx _ _), fun h => absurd h.symm (hx _ _)⟩
    | _ => exact Iff.rfl
  · obtain ⟨c, rfl⟩ := is0_iff.1 h1
    obtain ⟨c', rfl⟩ := is0_iff.1 h2
    exact ⟨fun h => absurd h.symm (hx _ _), fun h => absurd h.symm (hx _ _)⟩

theorem binders_keywords {w : Bytes} (h : keywords.contains w = false) : binders.contains w = false := by
  cases hc : binders.contains w with
  | false => rfl
  | true =>
    have hk : ∀ x ∈ binders, keywords.contains x = true := by decide
    rw [hk w (by simpa using hc)] at h
    cases h

/-- The use of a word is good if the path it makes is. -/
theorem useOf_ok {br : Bool} {s s' : Before} {w : Bytes} {rest R : Forest} (hlit : ∀ u, lit u = true → ok (subUse σ u))
    (h : RelB σ s s' rest) (hq : s ≠ .quote)
    (hk : keywords.contains (w.flatMap σ) = true ∨ isNumber (w.flatMap σ) = true ∨ litNext R = true ∨
      (br = true ∧ Spec.starts s = true ∧ ascribed R = true) ∨ litOk lit s w = true) :
    ∀ u ∈ useOf br s' (w.flatMap σ) R, ok u := by
  intro u hu
  have hq' : s' ≠ .quote := fun hc => hq ((h.same .quote (by simp)).1 hc)
  unfold useOf at hu
  rw [if_neg hq', h.starts] at hu
  split at hu
  · cases hu
  · rename_i hn
    simp only [Bool.or_eq_true, Bool.and_eq_true, not_or] at hn
    rcases hk with hk | hk | hk | hk | hk
    · exact absurd hk hn.1.1.1
    · exact absurd hk hn.1.1.2
    · exact absurd hk hn.1.2
    · exact absurd ⟨⟨hk.1, hk.2.1⟩, hk.2.2⟩ hn.2
    · rw [h.pathOf] at hu
      unfold litOk at hk
      cases hp : Spec.pathOf s w with
      | none => rw [hp] at hu; cases hu
      | closed => rw [hp] at hu; cases hu
      | path r ws =>
        rw [hp] at hu hk
        simp only [subCur, List.mem_singleton] at hu
        rw [hu]
        exact hlit _ hk

theorem RelB.next_word {s s' rest} (h : RelB σ s s' rest) (w : Bytes) (hk : keywords.contains (w.flatMap σ) = keywords.contains w)
    (hb : binders.contains (w.flatMap σ) = binders.contains w) (hn : isNumber (w.flatMap σ) = isNumber w) :
    next s' (.word (w.flatMap σ)) = subBefore σ (next s (.word w)) := by
  simp only [next, hk, hb, hn, h.pathOf, h.same .quote (by simp), h.same .bind (by simp)]
  split
  · rfl
  · split
    · rfl
    · split
      · split <;> rfl
      · split <;> rfl

theorem RelB.next_op {s s' : Before} {c : UInt8} {r : Forest} (h : RelB σ s s' (.leaf (.op c) r)) :
    next s' (.op c) = subBefore σ (next s (.op c)) := by
  have key : ∀ x : Before, (∀ c k, x ≠ .at c k) → x ≠ .dash → subBefore σ x = x →
      next (subBefore σ x) (.op c) = subBefore σ (next x (.op c)) := by
    intro x hx hd hs
    rw [hs]
    cases x with
    | «at» c k => exact absurd rfl (hx _ _)
    | dash => exact absurd rfl hd
    | _ =>
      simp only [next]
      by_cases h1 : c = 58
      · simp only [if_pos h1]; rfl
      · by_cases h2 : c = 46
        · simp only [if_neg h1, if_pos h2]; rfl
        · by_cases h3 : c = 39
          · simp only [if_neg h1, if_neg h2, if_pos h3]; rfl
          · by_cases h4 : c = 45
            · simp only [if_neg h1, if_neg h2, if_neg h3, if_pos h4]; rfl
            · by_cases h5 : c = 62
              · simp only [if_neg h1, if_neg h2, if_neg h3, if_neg h4, if_pos h5, reduceCtorEq, if_false]; rfl
              · simp only [if_neg h1, if_neg h2, if_neg h3, if_neg h4, if_neg h5]; rfl
  rcases h with rfl | ⟨h1, h2, h3⟩
  · cases s with
    | «at» d k =>
      simp only [next, subBefore]
      split
      · rfl
      · split
        · rfl
        · split
          · rfl
          · split
            · rfl
            · split
              · simp
                rfl
              · rfl
    | dot => exact key .dot (by simp) (by simp) rfl
    | quote => exact key .quote (by simp) (by simp) rfl
    | bind => exact key .bind (by simp) (by simp) rfl
    | dash =>
      show next .dash (.op c) = subBefore σ (next .dash (.op c))
      simp only [next]
      by_cases h1 : c = 58
      · simp only [if_pos h1]; rfl
      · by_cases h2 : c = 46
        · simp only [if_neg h1, if_pos h2]; rfl
        · by_cases h3 : c = 39
          · simp only [if_neg h1, if_neg h2, if_pos h3]; rfl
          · by_cases h4 : c = 45
            · simp only [if_neg h1, if_neg h2, if_neg h3, if_pos h4]; rfl
            · by_cases h5 : c = 62
              · simp only [if_neg h1, if_neg h2, if_neg h3, if_neg h4, if_pos h5, if_true]; rfl
              · simp only [if_neg h1, if_neg h2, if_neg h3, if_neg h4, if_neg h5]; rfl
  · obtain ⟨d, rfl⟩ := is0_iff.1 h1
    obtain ⟨d', rfl⟩ := is0_iff.1 h2
    simp only [noColon, ne_eq, decide_eq_true_eq] at h3
    simp only [next, if_neg h3]
    (repeat' split) <;> first | rfl | simp_all

theorem next_at {s : Before} {w : Bytes} (hk : keywords.contains w = false) (hn : isNumber w = false) (hq : s ≠ .quote) :
    next s (.word w) = .at (Spec.pathOf s w) 0 := by
  simp only [next, if_neg hq, binders_keywords hk, hk, hn, if_false, Bool.false_eq_true]

theorem next_number {s : Before} {w : Bytes} (hn : isNumber w = true) (hq : s ≠ .quote) :
    next s (.word w) = .at .none 0 := by
  have hk : keywords.contains w = false := by
    cases hc : keywords.contains w with
    | false => rfl
    | true =>
      have hk : ∀ x ∈ keywords, isNumber x = false := by decide
      rw [hk w (by simpa using hc)] at hn
      cases hn
  simp only [next, if_neg hq, binders_keywords hk, hk, hn, if_false, Bool.false_eq_true, if_true]

theorem uses_run (hlow : ∀ c < 128, σ c = [c]) (hlit : ∀ u, lit u = true → ok (subUse σ u))
    (hph : ∀ br h, ph br h = true → Fine br ok (φ h))
    (hnm : ∀ w, nm w = true → keywords.contains (w.flatMap σ) = false ∧ isNumber (w.flatMap σ) = false)
    (hnu : ∀ w, nu w = true → isNumber (w.flatMap σ) = true) :
    ∀ (f : Forest) (br : Bool) (s e s' : Before) (g : Forest), tplRun lit ph nm nu br s f = some e →
      RelB σ s s' ((subF σ φ f).append g) → noColon g = true →
      ∃ us s'', uses br s' ((subF σ φ f).append g) = us ++ uses br s'' g ∧ (∀ u ∈ us, ok u) ∧ RelB σ e s'' g := by
  intro f
  induction f with
  | nil =>
    intro br s e s' g h hr hg
    simp only [tplRun, Option.some.injEq] at h
    subst h
    exact ⟨[], s', rfl, by simp, hr⟩
  | grp d i r ihi ih =>
    intro br s e s' g h hr hg
    simp only [tplRun] at h
    split at h
    · rename_i hi
      obtain ⟨ei, hi⟩ := Option.isSome_iff_exists.1 hi
      obtain ⟨us, s1, h1, h2, _⟩ := ihi (d == 123) _ _ (.at .none 0) .nil hi (Or.inl rfl) rfl
      obtain ⟨vs, s2, h3, h4, h5⟩ := ih br _ _ (.at (if d = 123 then .none else .closed) 0) g h
        (Or.inl (by split <;> rfl)) hg
      rw [forest_append_nil] at h1
      refine ⟨us ++ vs, s2, ?_, fun u hu => ?_, h5⟩
      · simp only [subF, Forest.append, uses]
        rw [h1, h3]
        simp [uses]
      · rcases List.mem_append.1 hu with hu | hu
        · exact h2 u hu
        · exact h4 u hu
    · cases h
  | leaf t r ih =>
    intro br s e s' g h hr hg
    cases t with
    | op c =>
      simp only [tplRun] at h
      simp only [subF, Forest.append] at hr ⊢
      obtain ⟨us, s1, h1, h2, h3⟩ := ih br _ _ _ g h (Or.inl hr.next_op) hg
      refine ⟨us, s1, ?_, h2, h3⟩
      simp only [uses, List.nil_append]
      exact h1
    | lit b =>
      simp only [tplRun] at h
      simp only [subF, Forest.append] at hr ⊢
      obtain ⟨us, s1, h1, h2, h3⟩ := ih br _ _ (next s' (.lit b)) g h (Or.inl rfl) hg
      refine ⟨us, s1, ?_, h2, h3⟩
      simp only [uses, List.nil_append]
      exact h1
    | word w =>
      simp only [tplRun] at h
      cases hs : seqOf w with
      | some x =>
        rw [hs] at h
        simp only at h
        split at h
        · rename_i hc
          simp only [Bool.and_eq_true] at hc
          obtain ⟨⟨h0, hp⟩, hst⟩ := hc
          simp only [subF, hs, forest_append_assoc] at hr ⊢
          have hnc := startsOk_sub (σ := σ) hph hst hg
          obtain ⟨c, rfl⟩ := is0_iff.1 h0
          have h0' : ∃ c', s' = .at c' 0 := by
            rcases hr with rfl | ⟨_, h2, _⟩
            · exact ⟨_, rfl⟩
            · exact is0_iff.1 h2
          obtain ⟨c', rfl⟩ := h0'
          obtain ⟨us, c1, h1, h2⟩ := (hph br x hp).2 c' _ hnc
          obtain ⟨vs, s2, h3, h4, h5⟩ := ih br _ _ (.at c1 0) g h (Or.inr ⟨rfl, rfl, hnc⟩) hg
          refine ⟨us ++ vs, s2, by rw [h1, h3, List.append_assoc], fun u hu => ?_, h5⟩
          rcases List.mem_append.1 hu with hu | hu
          · exact h2 u hu
          · exact h4 u hu
        · cases h
      | none =>
        rw [hs] at h
        simp only at h
        simp only [subF, hs, Forest.append] at hr ⊢
        have fin : ∀ q, tplRun lit ph nm nu br q r = some e → next s' (.word (w.flatMap σ)) = subBefore σ q →
            (∀ u ∈ useOf br s' (w.flatMap σ) ((subF σ φ r).append g), ok u) →
            ∃ us s'', uses br s' (.leaf (.word (w.flatMap σ)) ((subF σ φ r).append g)) = us ++ uses br s'' g ∧
              (∀ u ∈ us, ok u) ∧ RelB σ e s'' g := by
          intro q hq hn hu
          obtain ⟨us, s1, h1, h2, h3⟩ := ih br _ _ _ g hq (Or.inl hn) hg
          refine ⟨useOf br s' (w.flatMap σ) ((subF σ φ r).append g) ++ us, s1, ?_, fun u hu' => ?_, h3⟩
          · simp only [uses]
            rw [h1, List.append_assoc]
          · rcases List.mem_append.1 hu' with hu' | hu'
            · exact hu u hu'
            · exact h2 u hu'
        split at h
        · rename_i hp
          have hw := flatMap_plainW hlow hp
          split at h
          · rename_i hc
            unfold plainOk at hc
            refine fin _ h (hr.next_word w (by rw [hw]) (by rw [hw]) (by rw [hw])) ?_
            by_cases hq : s = .quote
            · rw [if_pos hq] at hc
              have hq' := (hr.same .quote (by simp)).2 hq
              intro u hu
              rw [hq', useOf, if_pos rfl, List.mem_singleton] at hu
              rw [hu]
              exact hlit _ hc
            · rw [if_neg hq] at hc
              simp only [Bool.or_eq_true, Bool.and_eq_true] at hc
              refine useOf_ok hlit hr hq ?_
              rw [hw]
              rcases hc with (((hc | hc) | hc) | hc) | hc
              · exact Or.inl hc
              · exact Or.inr (Or.inl hc)
              · refine Or.inr (Or.inr (Or.inl ?_))
                cases r with
                | leaf t r => cases t with
                  | lit b => rfl
                  | _ => cases hc
                | _ => cases hc
              · exact Or.inr (Or.inr (Or.inr (Or.inl ⟨hc.1.1, hc.1.2, ascSure_sub hc.2 g⟩)))
              · exact Or.inr (Or.inr (Or.inr (Or.inr hc)))
          · cases h
        · split at h
          · cases h
          · rename_i hq
            have hq' : s' ≠ .quote := fun hc => hq ((hr.same .quote (by simp)).1 hc)
            split at h
            · rename_i hm
              obtain ⟨k1, k2⟩ := hnm w hm
              split at h
              · rename_i hc
                simp only [Bool.or_eq_true, Bool.and_eq_true] at hc
                refine fin _ h (by rw [next_at k1 k2 hq', hr.pathOf]; rfl) (useOf_ok hlit hr hq ?_)
                rcases hc with hc | hc
                · exact Or.inr (Or.inr (Or.inr (Or.inl ⟨hc.1.1, hc.1.2, ascSure_sub hc.2 g⟩)))
                · exact Or.inr (Or.inr (Or.inr (Or.inr hc)))
              · cases h
            · split at h
              · rename_i hu
                refine fin _ h (next_number (hnu w hu) hq') (useOf_ok hlit hr hq (Or.inr (Or.inl (hnu w hu))))
              · cases h

/-- A filled-in format string whose names are good. -/
theorem uses_tpl (hlow : ∀ c < 128, σ c = [c]) (hlit : ∀ u, lit u = true → ok (subUse σ u))
    (hph : ∀ br h, ph br h = true → Fine br ok (φ h))
    (hnm : ∀ w, nm w = true → keywords.contains (w.flatMap σ) = false ∧ isNumber (w.flatMap σ) = false)
    (hnu : ∀ w, nu w = true → isNumber (w.flatMap σ) = true) {f : Forest} {br : Bool}
    (h : (tplRun lit ph nm nu br (.at .none 0) f).isSome = true) :
    ∀ u ∈ uses br (.at .none 0) (subF σ φ f), ok u := by
  obtain ⟨e, h⟩ := Option.isSome_iff_exists.1 h
  obtain ⟨us, s1, h1, h2, _⟩ := uses_run hlow hlit hph hnm hnu f br _ _ (.at .none 0) .nil h (Or.inl rfl) rfl
  rw [forest_append_nil] at h1
  rw [h1]
  simpa [uses] using h2

/-- The same as a part of others. -/
theorem fine_tpl (hlow : ∀ c < 128, σ c = [c]) (hlit : ∀ u, lit u = true → ok (subUse σ u))
    (hph : ∀ br h, ph br h = true → Fine br ok (φ h))
    (hnm : ∀ w, nm w = true → keywords.contains (w.flatMap σ) = false ∧ isNumber (w.flatMap σ) = false)
    (hnu : ∀ w, nu w = true → isNumber (w.flatMap σ) = true) {f : Forest} {br : Bool}
    (hs : startsOk ph br f = true) (h : ((tplRun lit ph nm nu br (.at .none 0) f).map is0) = some true) :
    Fine br ok (subF σ φ f) := by
  refine ⟨fun g hg => startsOk_sub hph hs hg, fun c g hg => ?_⟩
  cases he : tplRun lit ph nm nu br (.at .none 0) f with
  | none => rw [he] at h; cases h
  | some e =>
    rw [he] at h
    simp only [Option.map_some, Option.some.injEq] at h
    obtain ⟨us, s1, h1, h2, h3⟩ := uses_run hlow hlit hph hnm hnu f br _ _ (.at c 0) g he
      (Or.inr ⟨rfl, rfl, startsOk_sub hph hs hg⟩) hg
    have : ∃ c', s1 = .at c' 0 := by
      rcases h3 with rfl | ⟨_, h4, _⟩
      · obtain ⟨c', rfl⟩ := is0_iff.1 h
        exact ⟨_, rfl⟩
      · exact is0_iff.1 h4
    obtain ⟨c', rfl⟩ := this
    exact ⟨us, c', h1, h2⟩

end

/-! ### Names bound in a filled-in format string -/

theorem ascribed_append {f : Forest} (h : ascribed f = true) (g : Forest) : ascribed (f.append g) = true := by
  cases f with
  | nil => cases h
  | grp d i r => cases h
  | leaf t x =>
    cases t with
    | word w => cases x <;> cases h
    | lit b => cases x <;> cases h
    | op a =>
      cases x with
      | nil => cases h
      | grp d i r => exact h
      | leaf t y =>
        cases t with
        | word w => cases y <;> exact h
        | lit b => cases y <;> exact h
        | op b =>
          cases y with
          | leaf t z => exact h
          | nil =>
            simp only [ascribed, Bool.and_eq_true, decide_eq_true_eq, ne_eq] at h
            exact ascribed_op h.1 (by simpa using h.2)
          | grp d i r =>
            simp only [ascribed, Bool.and_eq_true, decide_eq_true_eq, ne_eq] at h
            exact ascribed_op h.1 (by simpa using h.2)

theorem params_append {f : Forest} (g : Forest) {w} (h : w ∈ params f ∨ w ∈ params g) : w ∈ params (f.append g) := by
  induction f with
  | nil => rcases h with h | h
           · cases h
           · exact h
  | grp d i r _ ih =>
    simp only [params, List.mem_append, Forest.append] at h ⊢
    rcases h with (h | h) | h
    · exact Or.inl h
    · exact Or.inr (ih (Or.inl h))
    · exact Or.inr (ih (Or.inr h))
  | leaf t r ih =>
    cases t with
    | op c => exact ih h
    | lit b => exact ih h
    | word x =>
      simp only [params, Forest.append] at h ⊢
      by_cases hx : (ascribed r || decide (x = fmt!"self")) = true
      · rw [if_pos hx] at h
        have hx' : (ascribed (r.append g) || decide (x = fmt!"self")) = true := by
          simp only [Bool.or_eq_true] at hx ⊢
          exact hx.imp (fun hx => ascribed_append hx g) id
        rw [if_pos hx']
        simp only [List.mem_cons] at h ⊢
        rcases h with (h | h) | h
        · exact Or.inl h
        · exact Or.inr (ih (Or.inl h))
        · exact Or.inr (ih (Or.inr h))
      · rw [if_neg hx] at h
        split
        · exact List.mem_cons_of_mem _ (ih h)
        · exact ih h

/-- Parameters a format string has for sure. -/
def paramsSure : Forest → List Bytes
  | .nil => []
  | .leaf (.word w) r => if plainW w && (ascSure r || w = fmt!"self") then w :: paramsSure r else paramsSure r
  | .leaf _ r => paramsSure r
  | .grp _ i r => paramsSure i ++ paramsSure r

/-- Placeholders in a format string. -/
def phsIn : Forest → List UInt8
  | .nil => []
  | .leaf (.word w) r => (seqOf w).toList ++ phsIn r
  | .leaf _ r => phsIn r
  | .grp _ i r => phsIn i ++ phsIn r

theorem params_sub {σ φ} (hlow : ∀ c < 128, σ c = [c]) {f : Forest} {w} (h : w ∈ paramsSure f) :
    w ∈ params (subF σ φ f) := by
  induction f with
  | nil => cases h
  | grp d i r ihi ih =>
    simp only [paramsSure, List.mem_append] at h
    simp only [subF, params, List.mem_append]
    exact h.imp ihi ih
  | leaf t r ih =>
    cases t with
    | op c => exact ih h
    | lit b => exact ih h
    | word x =>
      simp only [paramsSure] at h
      by_cases hp : plainW x = true
      · rw [subF_plain hlow hp]
        simp only [params]
        split at h
        · rename_i hc
          simp only [Bool.and_eq_true, Bool.or_eq_true] at hc
          have hx' : (ascribed (subF σ φ r) || decide (x = fmt!"self")) = true := by
            simp only [Bool.or_eq_true]
            refine hc.2.imp (fun hx => ?_) id
            have := ascSure_sub (σ := σ) (φ := φ) hx .nil
            rwa [forest_append_nil] at this
          rw [if_pos hx']
          simp only [List.mem_cons] at h ⊢
          exact h.imp id ih
        · split
          · exact List.mem_cons_of_mem _ (ih h)
          · exact ih h
      · rw [if_neg (by simp [hp])] at h
        have := ih h
        simp only [subF]
        split
        · exact params_append _ (Or.inr this)
        · simp only [params]
          split
          · exact List.mem_cons_of_mem _ this
          · exact this

theorem params_ph {σ φ} {f : Forest} {x : UInt8} (hx : x ∈ phsIn f) {w} (h : w ∈ params (φ x)) :
    w ∈ params (subF σ φ f) := by
  induction f with
  | nil => cases hx
  | grp d i r ihi ih =>
    simp only [phsIn, List.mem_append] at hx
    simp only [subF, params, List.mem_append]
    exact hx.imp ihi ih
  | leaf t r ih =>
    cases t with
    | op c => exact ih hx
    | lit b => exact ih hx
    | word y =>
      simp only [phsIn, List.mem_append, Option.mem_toList] at hx
      simp only [subF]
      cases hs : seqOf y with
      | some z =>
        rw [hs] at hx
        simp only
        rcases hx with hx | hx
        · cases hx
          exact params_append _ (Or.inl h)
        · exact params_append _ (Or.inr (ih hx))
      | none =>
        rw [hs] at hx
        simp only
        rcases hx with hx | hx
        · cases hx
        · simp only [params]
          split
          · exact List.mem_cons_of_mem _ (ih hx)
          · exact ih hx

/-- Names a format string gives for sure. -/
def nameSure : Forest → List Bytes
  | .leaf (.word w) r => if plainW w then (if w = fmt!"mut" then nameSure r else [w]) else []
  | _ => []

def boundSure (ks : List Bytes) : Forest → List Bytes
  | .nil => []
  | .leaf (.word w) r => if plainW w && ks.contains w then nameSure r ++ boundSure ks r else boundSure ks r
  | .leaf _ r => boundSure ks r
  | .grp _ i r => boundSure ks i ++ boundSure ks r

theorem boundName_sub {σ φ} (hlow : ∀ c < 128, σ c = [c]) {f : Forest} {w} (h : w ∈ nameSure f) :
    w ∈ boundName (subF σ φ f) := by
  induction f with
  | nil => cases h
  | grp d i r ihi ih => cases h
  | leaf t r ih =>
    cases t with
    | op c => cases h
    | lit b => cases h
    | word x =>
      simp only [nameSure] at h
      split at h
      · rename_i hp
        rw [subF_plain hlow hp]
        simp only [boundName]
        split at h
        · rename_i hm; rw [if_pos hm]; exact ih h
        · rename_i hm; rw [if_neg hm]; exact h
      · cases h

theorem bound_append (ks) (f g : Forest) {w} (h : w ∈ bound ks g) : w ∈ bound ks (f.append g) := by
  induction f with
  | nil => exact h
  | grp d i r _ ih => simp only [Forest.append, bound, List.mem_append]; exact Or.inr ih
  | leaf t r ih =>
    cases t with
    | op c => exact ih
    | lit b => exact ih
    | word x =>
      simp only [Forest.append, bound]
      split
      · exact List.mem_append.2 (Or.inr ih)
      · exact ih

theorem bound_sub {σ φ ks} (hlow : ∀ c < 128, σ c = [c]) {f : Forest} {w} (h : w ∈ boundSure ks f) :
    w ∈ bound ks (subF σ φ f) := by
  induction f with
  | nil => cases h
  | grp d i r ihi ih =>
    simp only [boundSure, List.mem_append] at h
    simp only [subF, bound, List.mem_append]
    exact h.imp ihi ih
  | leaf t r ih =>
    cases t with
    | op c => exact ih h
    | lit b => exact ih h
    | word x =>
      simp only [boundSure] at h
      by_cases hp : plainW x = true
      · rw [subF_plain hlow hp]
        simp only [bound]
        rw [hp, Bool.true_and] at h
        split at h
        · rename_i hc
          rw [if_pos hc]
          simp only [List.mem_append] at h ⊢
          exact h.imp (boundName_sub hlow) ih
        · rename_i hc
          rw [if_neg hc]
          exact ih h
      · rw [if_neg (by simp [hp])] at h
        have := ih h
        simp only [subF]
        split
        · exact bound_append _ _ _ this
        · simp only [bound]
          split
          · exact List.mem_append.2 (Or.inr this)
          · exact this

end GV.Props
