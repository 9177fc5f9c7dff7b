import Verif.Spec.RustText
/-
Reading a format string and filling in the placeholders afterwards gives the same as reading the filled-in
text, so that what a format string contributes can be computed once and for all.
-/
namespace GV.Props
open GV Spec

theorem forest_append_nil (f : Forest) : f.append .nil = f := by
  induction f with
  | nil => rfl
  | leaf t r ih => simp only [Forest.append, ih]
  | grp d i r _ ih => simp only [Forest.append, ih]

theorem forest_append_assoc (f g h : Forest) : (f.append g).append h = f.append (g.append h) := by
  induction f with
  | nil => rfl
  | leaf t r ih => simp only [Forest.append, ih]
  | grp d i r _ ih => simp only [Forest.append, ih]

theorem lexRun_append {a b : Bytes} {s ts s'} (h : lexRun s a = some (ts, s')) :
    lexRun s (a ++ b) = (lexRun s' b).map fun r => (ts ++ r.1, r.2) := by
  induction a generalizing s ts with
  | nil =>
    simp only [lexRun, Option.some.injEq, Prod.mk.injEq] at h
    obtain ⟨rfl, rfl⟩ := h
    cases h2 : lexRun s b <;> simp [h2]
  | cons c a ih =>
    simp only [List.cons_append, lexRun] at h ⊢
    cases h1 : lexStep s c with
    | none => rw [h1] at h; cases h
    | some r =>
      obtain ⟨t1, s1⟩ := r
      rw [h1] at h
      simp only at h ⊢
      cases h2 : lexRun s1 a with
      | none => rw [h2] at h; cases h
      | some q =>
        obtain ⟨t2, s2⟩ := q
        rw [h2] at h
        simp only [Option.map_some, Option.some.injEq, Prod.mk.injEq] at h
        obtain ⟨rfl, rfl⟩ := h
        rw [ih h2]
        cases lexRun s2 b <;> simp

/-- What the end of the text adds, where it may end. -/
def rest (s : LexSt) : List Tok := match s with
  | .word w => [.word w]
  | _ => []

/-- Between tokens or within a word. -/
def calm : LexSt → Prop
  | .idle | .word _ => True
  | _ => False

/-- The text consists of these tokens, and ends between tokens or in a word. -/
def Lexed (x : Bytes) (ts : List Tok) : Prop :=
  ∃ ts0 s, lexRun .idle x = some (ts0, s) ∧ calm s ∧ ts = ts0 ++ rest s

/-- The text consists of these tokens and ends between tokens. -/
def LexedC (x : Bytes) (ts : List Tok) : Prop := lexRun .idle x = some (ts, .idle)

theorem LexedC.lexed {x ts} (h : LexedC x ts) : Lexed x ts := ⟨ts, .idle, h, trivial, by simp [rest]⟩

theorem lexedC_append {a b ta tb} (ha : LexedC a ta) (hb : LexedC b tb) : LexedC (a ++ b) (ta ++ tb) := by
  unfold LexedC at *
  rw [lexRun_append ha, hb]
  rfl

theorem lexed_append {a b ta tb} (ha : LexedC a ta) (hb : Lexed b tb) : Lexed (a ++ b) (ta ++ tb) := by
  obtain ⟨t0, s, h, hs, rfl⟩ := hb
  refine ⟨ta ++ t0, s, ?_, hs, by simp⟩
  unfold LexedC at ha
  rw [lexRun_append ha, h]
  rfl

/-- A character that cannot continue a word ends one. -/
theorem lexStep_calm {s c} (hs : calm s) (hc : wordChar c = false) :
    lexStep s c = (lexIdle c).map fun r => (rest s ++ r.1, r.2) := by
  cases s with
  | idle => simp only [lexStep, rest]; cases lexIdle c <;> rfl
  | word w => simp only [lexStep, rest, hc]; cases lexIdle c <;> rfl
  | slash => cases hs
  | comment => cases hs
  | str b => cases hs
  | esc b => cases hs

theorem lexed_sep {a b c ta} (ha : Lexed a ta) (hc : wordChar c = false) :
    lexRun .idle (a ++ c :: b) = (lexRun .idle (c :: b)).map fun r => (ta ++ r.1, r.2) := by
  obtain ⟨t0, s, h, hs, rfl⟩ := ha
  rw [lexRun_append h]
  have hi : lexStep .idle c = lexIdle c := rfl
  simp only [lexRun, lexStep_calm hs hc, hi]
  cases lexIdle c with
  | none => rfl
  | some r =>
    simp only [Option.map_some]
    cases lexRun r.2 b <;> simp

theorem lexed_append_sep {a b c ta tb} (ha : Lexed a ta) (hc : wordChar c = false) (hb : Lexed (c :: b) tb) :
    Lexed (a ++ c :: b) (ta ++ tb) := by
  obtain ⟨t0, s, h, hs, rfl⟩ := hb
  refine ⟨ta ++ t0, s, ?_, hs, by simp⟩
  rw [lexed_sep ha hc, h]
  rfl

theorem lexedC_append_sep {a b c ta tb} (ha : Lexed a ta) (hc : wordChar c = false)
    (hb : LexedC (c :: b) tb) : LexedC (a ++ c :: b) (ta ++ tb) := by
  unfold LexedC at *
  rw [lexed_sep ha hc, hb]
  rfl

/-! ### Balanced tokens -/

/-- The tokens are a row of trees. -/
def Bal (ts : List Tok) (f : Forest) : Prop := ∀ st cur, pushToks ts (st, cur) = some (st, f.append cur)

theorem pushToks_append (a b : List Tok) (s) : pushToks (a ++ b) s = (pushToks b s).bind (pushToks a) := by
  induction a with
  | nil => simp only [List.nil_append, pushToks]; cases pushToks b s <;> rfl
  | cons t a ih =>
    simp only [List.cons_append, pushToks, ih]
    cases pushToks b s <;> rfl

theorem bal_nil : Bal [] .nil := fun _ _ => rfl

theorem bal_append {a b f g} (ha : Bal a f) (hb : Bal b g) : Bal (a ++ b) (f.append g) := by
  intro st cur
  rw [pushToks_append, hb]
  rw [Option.bind_some, ha, forest_append_assoc]

theorem bal_forest {ts f} (h : Bal ts f) : forest ts = some f := by
  unfold forest
  rw [h]
  simp only [forest_append_nil]

theorem bal_word (w : Bytes) : Bal [.word w] (.leaf (.word w) .nil) := fun _ _ => rfl

theorem bal_lit (w : Bytes) : Bal [.lit w] (.leaf (.lit w) .nil) := fun _ _ => rfl


/-- The text is a row of trees. -/
def Parses (x : Bytes) (f : Forest) : Prop := ∃ ts, Lexed x ts ∧ Bal ts f

/-- The text is a row of trees and does not end in a word. -/
def ParsesC (x : Bytes) (f : Forest) : Prop := ∃ ts, LexedC x ts ∧ Bal ts f

theorem ParsesC.parses {x f} (h : ParsesC x f) : Parses x f := let ⟨ts, a, b⟩ := h; ⟨ts, a.lexed, b⟩

theorem Parses.parseText {x f} (h : Parses x f) : parseText x = some f := by
  obtain ⟨ts, ⟨t0, s, h, hs, rfl⟩, hb⟩ := h
  have : lex x = some (t0 ++ rest s) := by
    unfold lex
    rw [h]
    cases s <;> first | rfl | cases hs
  unfold Spec.parseText
  rw [this]
  exact bal_forest hb

theorem parsesC_nil : ParsesC [] .nil := ⟨[], rfl, bal_nil⟩

theorem parsesC_append {a b f g} (ha : ParsesC a f) (hb : ParsesC b g) : ParsesC (a ++ b) (f.append g) := by
  obtain ⟨ta, la, ba⟩ := ha
  obtain ⟨tb, lb, bb⟩ := hb
  exact ⟨_, lexedC_append la lb, bal_append ba bb⟩

theorem parses_append {a b f g} (ha : ParsesC a f) (hb : Parses b g) : Parses (a ++ b) (f.append g) := by
  obtain ⟨ta, la, ba⟩ := ha
  obtain ⟨tb, lb, bb⟩ := hb
  exact ⟨_, lexed_append la lb, bal_append ba bb⟩

theorem parses_sep {a b c f g} (ha : Parses a f) (hc : wordChar c = false) (hb : Parses (c :: b) g) :
    Parses (a ++ c :: b) (f.append g) := by
  obtain ⟨ta, la, ba⟩ := ha
  obtain ⟨tb, lb, bb⟩ := hb
  exact ⟨_, lexed_append_sep la hc lb, bal_append ba bb⟩

theorem parsesC_sep {a b c f g} (ha : Parses a f) (hc : wordChar c = false) (hb : ParsesC (c :: b) g) :
    ParsesC (a ++ c :: b) (f.append g) := by
  obtain ⟨ta, la, ba⟩ := ha
  obtain ⟨tb, lb, bb⟩ := hb
  exact ⟨_, lexedC_append_sep la hc lb, bal_append ba bb⟩

/-! ### Filling in placeholders -/

/-- A placeholder for any stretch of code. -/
def isSeq (c : UInt8) : Bool := 192 ≤ c

/-- A placeholder within or for a word. -/
def isGlue (c : UInt8) : Bool := 128 ≤ c && c < 160

/-- A placeholder in a comment. -/
def isCom (c : UInt8) : Bool := 160 ≤ c && c < 192

/-- The character may follow. -/
def okAt (s : LexSt) (c : UInt8) : Bool :=
  if c < 128 then
    match s with
    | .word w => !(w.any isSeq) || !wordChar c
    | _ => true
  else if isSeq c then s == .idle
  else if isGlue c then
    match s with
    | .idle | .comment => true
    | .word w => !(w.any isSeq)
    | _ => false
  else s == .comment

/-- The placeholders of the text are where they may be. -/
def placed : LexSt → Bytes → Bool
  | _, [] => true
  | s, c :: cs => okAt s c && match lexStep s c with
    | none => false
    | some r => placed r.2 cs

/-- The word that a placeholder for code makes. -/
def seqOf : Bytes → Option UInt8
  | [c] => if isSeq c then some c else none
  | _ => none

/-- Fill in tokens: the code of placeholders for code is `τ`, the text of the others `σ`. -/
def subTok (σ : UInt8 → Bytes) (τ : UInt8 → List Tok) : Tok → List Tok
  | .word w => match seqOf w with
    | some h => τ h
    | none => [.word (w.flatMap σ)]
  | t => [t]

/-- Fill in trees. -/
def subF (σ : UInt8 → Bytes) (φ : UInt8 → Forest) : Forest → Forest
  | .nil => .nil
  | .leaf t r => match t with
    | .word w => match seqOf w with
      | some h => (φ h).append (subF σ φ r)
      | none => .leaf (.word (w.flatMap σ)) (subF σ φ r)
    | t => .leaf t (subF σ φ r)
  | .grp d i r => .grp d (subF σ φ i) (subF σ φ r)

/-- What may be filled in. -/
structure Fills (σ : UInt8 → Bytes) (τ : UInt8 → List Tok) : Prop where
  plain : ∀ c < 128, σ c = [c]
  glue : ∀ c, isGlue c = true → σ c ≠ [] ∧ ∀ x ∈ σ c, wordChar x = true
  com : ∀ c, isCom c = true → 10 ∉ σ c
  seq : ∀ c, isSeq c = true → Lexed (σ c) (τ c)

/-- How the readers of the format string and of the filled-in text stand to each other; the last argument is
    what the second has found already of what a placeholder stands for. -/
inductive Sim (σ : UInt8 → Bytes) : LexSt → LexSt → List Tok → Prop
  | idle : Sim σ .idle .idle []
  | word (w : Bytes) (h : w.any isSeq = false) : Sim σ (.word w) (.word (w.flatMap σ)) []
  | hole (h : UInt8) (hs : isSeq h = true) (ts s) (hr : lexRun .idle (σ h) = some (ts, s)) (hc : calm s) :
    Sim σ (.word [h]) s ts
  | slash : Sim σ .slash .slash []
  | comment : Sim σ .comment .comment []
  | str (b) : Sim σ (.str b) (.str b) []
  | esc (b) : Sim σ (.esc b) (.esc b) []

theorem seqOf_none {w : Bytes} (h : w.any isSeq = false) : seqOf w = none := by
  match w with
  | [] => rfl
  | [c] => simp only [List.any_cons, List.any_nil, Bool.or_false] at h; simp [seqOf, h]
  | _ :: _ :: _ => rfl

theorem lexRun_word {x : Bytes} (hx : ∀ c ∈ x, wordChar c = true) (w : Bytes) :
    lexRun (.word w) x = some ([], .word (w ++ x)) := by
  induction x generalizing w with
  | nil => simp [lexRun]
  | cons c x ih =>
    have hc := hx c (by simp)
    simp only [lexRun, lexStep, hc, if_true]
    rw [ih (fun d hd => hx d (by simp [hd]))]
    simp

theorem lexRun_comment {x : Bytes} (hx : 10 ∉ x) : lexRun .comment x = some ([], .comment) := by
  induction x with
  | nil => rfl
  | cons c x ih =>
    simp only [List.mem_cons, not_or] at hx
    simp only [lexRun, lexStep, if_neg (Ne.symm hx.1), ih hx.2, Option.map_some, List.append_nil]

theorem wordChar_glue : ∀ c, isGlue c = true → wordChar c = true := by
  intro c hc
  simp only [isGlue, Bool.and_eq_true, decide_eq_true_eq] at hc
  simp only [wordChar, Bool.or_eq_true, Bool.and_eq_true, decide_eq_true_eq, beq_iff_eq]
  exact Or.inr hc.1

theorem wordChar_seq : ∀ c, isSeq c = true → wordChar c = true := by
  intro c hc
  simp only [isSeq, decide_eq_true_eq] at hc
  simp only [wordChar, Bool.or_eq_true, Bool.and_eq_true, decide_eq_true_eq, beq_iff_eq]
  refine Or.inr ?_
  simp only [UInt8.le_iff_toNat_le] at *
  have h1 : (128 : UInt8).toNat = 128 := rfl
  have h2 : (192 : UInt8).toNat = 192 := rfl
  omega

theorem lexIdle_word {c} (h : wordChar c = true) : lexIdle c = some ([], .word [c]) := by
  have : spaceChar c = false := by
    cases hs : spaceChar c with
    | false => rfl
    | true =>
      simp only [spaceChar, Bool.or_eq_true, beq_iff_eq] at hs
      rcases hs with rfl | rfl <;> cases h
  simp only [lexIdle, this, h, if_true, Bool.false_eq_true, if_false]

theorem lexRun_idle_word {x : Bytes} (h0 : x ≠ []) (hx : ∀ c ∈ x, wordChar c = true) :
    lexRun .idle x = some ([], .word x) := by
  cases x with
  | nil => exact absurd rfl h0
  | cons c x =>
    simp only [lexRun, lexStep, lexIdle_word (hx c (by simp))]
    rw [lexRun_word (fun d hd => hx d (by simp [hd]))]
    simp

theorem lexRun_one {s c r} (h : lexStep s c = some r) : lexRun s [c] = some r := by
  simp only [lexRun, h, Option.map_some, List.append_nil]

theorem word_ne_newline {x : Bytes} (hx : ∀ c ∈ x, wordChar c = true) : 10 ∉ x := fun h => by
  have := hx 10 h
  cases this

/-- The tokens a plain character ends or makes contain no placeholder for code. -/
theorem lexIdle_sub {σ τ c r} (h : lexIdle c = some r) (hp : c < 128) (hs : σ c = [c]) :
    r.1.flatMap (subTok σ τ) = r.1 ∧ Sim σ r.2 r.2 [] := by
  unfold lexIdle at h
  have hnseq : isSeq c = false := by
    simp only [isSeq, decide_eq_false_iff_not, UInt8.not_le]
    exact UInt8.lt_trans hp (by decide)
  split at h
  · cases h; exact ⟨rfl, .idle⟩
  split at h
  · cases h
    refine ⟨rfl, ?_⟩
    have := Sim.word (σ := σ) [c] (by simp [hnseq])
    simpa [hs] using this
  split at h
  · cases h; exact ⟨rfl, .str _⟩
  split at h
  · cases h; exact ⟨rfl, .slash⟩
  split at h
  · cases h; exact ⟨rfl, .idle⟩
  · cases h

/-- One character of the format string. -/
theorem sim_step {σ τ} (F : Fills σ τ) {s s' pre c ts s1} (hs : Sim σ s s' pre) (hk : okAt s c = true)
    (hstep : lexStep s c = some (ts, s1)) :
    ∃ ts' s1' pre1, lexRun s' (σ c) = some (ts', s1') ∧ Sim σ s1 s1' pre1 ∧
      pre ++ ts' = ts.flatMap (subTok σ τ) ++ pre1 := by
  by_cases hp : c < 128
  · -- a plain character
    have hσ := F.plain c hp
    rw [hσ]
    cases hs with
    | idle =>
      have hstep' : lexIdle c = some (ts, s1) := hstep
      obtain ⟨h1, h2⟩ := lexIdle_sub (σ := σ) (τ := τ) hstep' hp hσ
      exact ⟨ts, s1, [], lexRun_one hstep, h2, by simp [h1]⟩
    | word w hw =>
      simp only [lexStep] at hstep
      cases hc : wordChar c with
      | true =>
        rw [hc] at hstep
        simp only [if_true, Option.some.injEq, Prod.mk.injEq] at hstep
        obtain ⟨rfl, rfl⟩ := hstep
        have hnseq : isSeq c = false := by
          simp only [isSeq, decide_eq_false_iff_not, UInt8.not_le]
          exact UInt8.lt_trans hp (by decide)
        refine ⟨[], .word (w.flatMap σ ++ [c]), [], lexRun_one (by simp [lexStep, hc]), ?_, rfl⟩
        have := Sim.word (σ := σ) (w ++ [c]) (by simp [hw, hnseq])
        simpa [hσ] using this
      | false =>
        rw [hc] at hstep
        cases hi : lexIdle c with
        | none => rw [hi] at hstep; cases hstep
        | some r =>
          rw [hi] at hstep
          simp only [Bool.false_eq_true, if_false, Option.map_some, Option.some.injEq, Prod.mk.injEq] at hstep
          obtain ⟨rfl, rfl⟩ := hstep
          obtain ⟨h1, h2⟩ := lexIdle_sub (σ := σ) (τ := τ) hi hp hσ
          refine ⟨.word (w.flatMap σ) :: r.1, r.2, [], lexRun_one (by simp [lexStep, hc, hi]), h2, ?_⟩
          simp [h1, subTok, seqOf_none hw]
    | hole h hsq t0 _ hr hcalm =>
      have hc : wordChar c = false := by
        simp only [okAt, hp, if_true, List.any_cons, hsq, Bool.true_or, Bool.not_true, Bool.false_or,
          Bool.not_eq_true'] at hk
        exact hk
      have hw : lexStep (.word [h]) c = (lexIdle c).map fun r => (.word [h] :: r.1, r.2) := by
        simp [lexStep, hc]
      rw [hw] at hstep
      cases hi : lexIdle c with
      | none => rw [hi] at hstep; cases hstep
      | some r =>
        rw [hi] at hstep
        simp only [Option.map_some, Option.some.injEq, Prod.mk.injEq] at hstep
        obtain ⟨rfl, rfl⟩ := hstep
        obtain ⟨h1, h2⟩ := lexIdle_sub (σ := σ) (τ := τ) hi hp hσ
        refine ⟨rest s' ++ r.1, r.2, [], lexRun_one (by rw [lexStep_calm hcalm hc, hi]; rfl), h2, ?_⟩
        obtain ⟨t1, s1, hr1, _, hτ⟩ := F.seq h hsq
        rw [hr] at hr1
        cases hr1
        simp [h1, subTok, seqOf, hsq, hτ]
    | slash =>
      simp only [lexStep] at hstep
      by_cases h47 : c = 47
      · subst h47
        simp only [if_true, Option.some.injEq, Prod.mk.injEq] at hstep
        obtain ⟨rfl, rfl⟩ := hstep
        exact ⟨[], .comment, [], rfl, .comment, rfl⟩
      · rw [if_neg h47] at hstep
        cases hi : lexIdle c with
        | none => rw [hi] at hstep; cases hstep
        | some r =>
          rw [hi] at hstep
          simp only [Option.map_some, Option.some.injEq, Prod.mk.injEq] at hstep
          obtain ⟨rfl, rfl⟩ := hstep
          obtain ⟨h1, h2⟩ := lexIdle_sub (σ := σ) (τ := τ) hi hp hσ
          exact ⟨.op 47 :: r.1, r.2, [], lexRun_one (by simp [lexStep, h47, hi]), h2, by simp [h1, subTok]⟩
    | comment =>
      simp only [lexStep, Option.some.injEq, Prod.mk.injEq] at hstep
      obtain ⟨rfl, rfl⟩ := hstep
      refine ⟨[], _, [], lexRun_one rfl, ?_, rfl⟩
      by_cases h : c = 10
      · rw [if_pos h]; exact .idle
      · rw [if_neg h]; exact .comment
    | str b =>
      simp only [lexStep] at hstep
      split at hstep
      · rename_i h
        cases hstep
        exact ⟨[.lit b], .idle, [], lexRun_one (by simp [lexStep, h]), .idle, rfl⟩
      · split at hstep
        · rename_i h0 h
          cases hstep
          exact ⟨[], .esc b, [], lexRun_one (by simp [lexStep, h]), .esc b, rfl⟩
        · rename_i h0 h
          cases hstep
          exact ⟨[], .str (b ++ [c]), [], lexRun_one (by simp [lexStep, h0, h]), .str _, rfl⟩
    | esc b =>
      simp only [lexStep] at hstep
      split at hstep
      · rename_i h
        cases hstep
        exact ⟨[], .str (b ++ [0]), [], lexRun_one (by simp [lexStep, h]), .str _, rfl⟩
      · cases hstep
  · simp only [okAt, hp, if_false] at hk
    cases hsq : isSeq c with
    | true =>
      -- a placeholder for code
      rw [hsq] at hk
      simp only [if_true, beq_iff_eq] at hk
      subst hk
      cases hs
      obtain ⟨t0, s0, hr, hc, hτ⟩ := F.seq c hsq
      have hstep' : lexIdle c = some (ts, s1) := hstep
      rw [lexIdle_word (wordChar_seq c hsq)] at hstep'
      simp only [Option.some.injEq, Prod.mk.injEq] at hstep'
      obtain ⟨rfl, rfl⟩ := hstep'
      exact ⟨t0, s0, t0, hr, .hole c hsq t0 s0 hr hc, rfl⟩
    | false =>
      rw [hsq] at hk
      simp only [Bool.false_eq_true, if_false] at hk
      cases hg : isGlue c with
      | true =>
        -- a placeholder for a word
        rw [hg] at hk
        simp only [if_true] at hk
        obtain ⟨hne, hall⟩ := F.glue c hg
        have hw := wordChar_glue c hg
        cases hs with
        | idle =>
          have hstep' : lexIdle c = some (ts, s1) := hstep
          rw [lexIdle_word hw] at hstep'
          simp only [Option.some.injEq, Prod.mk.injEq] at hstep'
          obtain ⟨rfl, rfl⟩ := hstep'
          refine ⟨[], .word (σ c), [], lexRun_idle_word hne hall, ?_, rfl⟩
          have := Sim.word (σ := σ) [c] (by simp [hsq])
          simpa using this
        | word w hws =>
          simp only [lexStep, hw, if_true, Option.some.injEq, Prod.mk.injEq] at hstep
          obtain ⟨rfl, rfl⟩ := hstep
          refine ⟨[], .word (w.flatMap σ ++ σ c), [], lexRun_word hall _, ?_, rfl⟩
          have := Sim.word (σ := σ) (w ++ [c]) (by simp [hws, hsq])
          simpa using this
        | hole h hsq' => simp [hsq'] at hk
        | slash => cases hk
        | comment =>
          simp only [lexStep, Option.some.injEq, Prod.mk.injEq] at hstep
          obtain ⟨rfl, rfl⟩ := hstep
          have : c ≠ 10 := fun h => hp (by rw [h]; decide)
          rw [if_neg this]
          exact ⟨[], .comment, [], lexRun_comment (word_ne_newline hall), .comment, rfl⟩
        | str b => cases hk
        | esc b => cases hk
      | false =>
        -- a placeholder in a comment
        rw [hg] at hk
        simp only [Bool.false_eq_true, if_false, beq_iff_eq] at hk
        subst hk
        cases hs
        simp only [lexStep, Option.some.injEq, Prod.mk.injEq] at hstep
        obtain ⟨rfl, rfl⟩ := hstep
        have : c ≠ 10 := fun h => hp (by rw [h]; decide)
        rw [if_neg this]
        have hcom : isCom c = true := by
          simp only [isCom, isGlue, isSeq, Bool.and_eq_true, Bool.and_eq_false_iff, decide_eq_true_eq,
            decide_eq_false_iff_not, UInt8.not_le, UInt8.not_lt] at *
          refine ⟨?_, hsq⟩
          rcases hg with h | h
          · exact absurd h (by simpa using hp)
          · exact h
        exact ⟨[], .comment, [], lexRun_comment (F.com c hcom), .comment, rfl⟩

/-- The whole format string. -/
theorem sim_run {σ τ} (F : Fills σ τ) : ∀ (T : Bytes) {s s' pre ts e}, Sim σ s s' pre → placed s T = true →
    lexRun s T = some (ts, e) →
    ∃ ts' e' pre', lexRun s' (T.flatMap σ) = some (ts', e') ∧ Sim σ e e' pre' ∧
      pre ++ ts' = ts.flatMap (subTok σ τ) ++ pre' := by
  intro T
  induction T with
  | nil =>
    intro s s' pre ts e hs _ h
    cases h
    exact ⟨[], s', pre, rfl, hs, by simp⟩
  | cons c T ih =>
    intro s s' pre ts e hs hk h
    simp only [placed, Bool.and_eq_true] at hk
    simp only [lexRun] at h
    cases h1 : lexStep s c with
    | none => rw [h1] at h; cases h
    | some r =>
      obtain ⟨t1, s1⟩ := r
      rw [h1] at h hk
      simp only at h hk
      cases h2 : lexRun s1 T with
      | none => rw [h2] at h; cases h
      | some q =>
        obtain ⟨t2, e2⟩ := q
        rw [h2] at h
        cases h
        obtain ⟨ta, sa, prea, ha, hsim, hta⟩ := sim_step F hs hk.1 h1
        obtain ⟨tb, eb, preb, hb, hsimb, htb⟩ := ih hsim hk.2 h2
        refine ⟨ta ++ tb, eb, preb, ?_, hsimb, ?_⟩
        · rw [List.flatMap_cons, lexRun_append ha, hb]; rfl
        · rw [← List.append_assoc, hta, List.append_assoc, htb, List.flatMap_append, List.append_assoc]

/-! ### Trees -/

/-- The state of the tree builder within something larger. -/
def framed (g : Forest → Forest) (stF : List (UInt8 × Forest)) (curF : Forest) :
    List (UInt8 × Forest) → Forest → List (UInt8 × Forest) × Forest
  | [], f => (stF, (g f).append curF)
  | (c, up) :: st, f => let r := framed g stF curF st up; ((c, r.2) :: r.1, g f)

theorem framed_leaf {g : Forest → Forest} {stF curF st f x} {k : Forest → Forest}
    (hg : g x = k (g f)) (hk : ∀ a b, (k a).append b = k (a.append b)) :
    framed g stF curF st x = ((framed g stF curF st f).1, k (framed g stF curF st f).2) := by
  cases st with
  | nil => simp only [framed, hg, hk]
  | cons p st => simp only [framed, hg]

theorem pushTok_sub {σ τ φ} (hb : ∀ h, isSeq h = true → Bal (τ h) (φ h)) {t stF curF st f st1 f1}
    (h : pushTok t (st, f) = some (st1, f1)) :
    pushToks (subTok σ τ t) (framed (subF σ φ) stF curF st f) = some (framed (subF σ φ) stF curF st1 f1) := by
  cases t with
  | word w =>
    simp only [pushTok, Option.some.injEq, Prod.mk.injEq] at h
    obtain ⟨rfl, rfl⟩ := h
    simp only [subTok]
    cases hw : seqOf w with
    | none =>
      rw [framed_leaf (x := .leaf (.word w) f) (k := .leaf (.word (w.flatMap σ))) (f := f) (by simp only [subF, hw]) (fun _ _ => rfl)]
      rfl
    | some c =>
      have hc : isSeq c = true := by
        match w, hw with
        | [d], hw =>
          simp only [seqOf] at hw
          split at hw
          · cases hw; assumption
          · cases hw
      rw [framed_leaf (x := .leaf (.word w) f) (k := (φ c).append) (f := f) (by simp only [subF, hw])
        (fun _ _ => forest_append_assoc _ _ _)]
      exact hb c hc _ _
  | lit b =>
    simp only [pushTok, Option.some.injEq, Prod.mk.injEq] at h
    obtain ⟨rfl, rfl⟩ := h
    rw [framed_leaf (x := .leaf (.lit b) f) (k := .leaf (.lit b)) (f := f) (by simp only [subF]) (fun _ _ => rfl)]
    rfl
  | op c =>
    simp only [subTok, pushToks, Option.bind_some]
    simp only [pushTok] at h ⊢
    split at h
    · rename_i hc
      rw [if_pos hc]
      cases h
      rfl
    · rename_i hc
      rw [if_neg hc]
      cases hcl : closing c with
      | none =>
        rw [hcl] at h
        cases h
        rw [framed_leaf (x := .leaf (.op c) f) (k := .leaf (.op c)) (f := f) (by simp only [subF]) (fun _ _ => rfl)]
      | some d =>
        rw [hcl] at h
        simp only at h ⊢
        cases st with
        | nil => cases h
        | cons p st =>
          obtain ⟨d', up⟩ := p
          simp only at h
          split at h
          · rename_i hd
            cases h
            rw [framed_leaf (x := .grp c f up) (k := .grp c (subF σ φ f)) (f := up) (by simp only [subF]) (fun _ _ => rfl)]
            simp only [framed, hd, if_true]
          · cases h

theorem pushToks_sub {σ τ φ} (hb : ∀ h, isSeq h = true → Bal (τ h) (φ h)) {stF curF} :
    ∀ (ts : List Tok) {st f st1 f1}, pushToks ts (st, f) = some (st1, f1) →
    pushToks (ts.flatMap (subTok σ τ)) (framed (subF σ φ) stF curF st f) =
      some (framed (subF σ φ) stF curF st1 f1) := by
  intro ts
  induction ts with
  | nil => intro st f st1 f1 h; cases h; rfl
  | cons t ts ih =>
    intro st f st1 f1 h
    simp only [pushToks] at h
    cases h1 : pushToks ts (st, f) with
    | none => rw [h1] at h; cases h
    | some r =>
      obtain ⟨st2, f2⟩ := r
      rw [h1] at h
      rw [List.flatMap_cons, pushToks_append, ih h1]
      exact pushTok_sub hb h

theorem bal_sub {σ τ φ} (hb : ∀ h, isSeq h = true → Bal (τ h) (φ h)) {ts f} (h : forest ts = some f) :
    Bal (ts.flatMap (subTok σ τ)) (subF σ φ f) := by
  intro st cur
  unfold forest at h
  cases h1 : pushToks ts ([], .nil) with
  | none => rw [h1] at h; cases h
  | some r =>
    obtain ⟨st1, f1⟩ := r
    rw [h1] at h
    cases st1 with
    | cons _ _ => cases h
    | nil =>
      cases h
      exact pushToks_sub hb (stF := st) (curF := cur) ts h1

/-- What may be filled in, down to trees. -/
structure FillsF (σ : UInt8 → Bytes) (φ : UInt8 → Forest) : Prop where
  plain : ∀ c < 128, σ c = [c]
  glue : ∀ c, isGlue c = true → σ c ≠ [] ∧ ∀ x ∈ σ c, wordChar x = true
  com : ∀ c, isCom c = true → 10 ∉ σ c
  seq : ∀ c, isSeq c = true → Parses (σ c) (φ c)

/-- The trees of a format string, and whether it ends between tokens. -/
def shape (T : Bytes) : Option (Forest × Bool) :=
  match placed .idle T, lexRun .idle T with
  | true, some (ts, .idle) => (forest ts).map fun f => (f, true)
  | true, some (ts, .word w) =>
    if w.any isSeq then none else (forest (ts ++ [.word w])).map fun f => (f, false)
  | _, _ => none

/-- Reading a filled-in format string. -/
theorem parses_fill {σ φ} (F : FillsF σ φ) {T f b} (h : shape T = some (f, b)) :
    Parses (fill σ T) (subF σ φ f) ∧ (b = true → ParsesC (fill σ T) (subF σ φ f)) := by
  have hτ : ∀ c, ∃ ts, isSeq c = true → Lexed (σ c) ts ∧ Bal ts (φ c) := by
    intro c
    cases hc : isSeq c with
    | false => exact ⟨[], by simp⟩
    | true => obtain ⟨ts, h⟩ := F.seq c hc; exact ⟨ts, fun _ => h⟩
  obtain ⟨τ, hτ⟩ : ∃ τ : UInt8 → List Tok, ∀ c, isSeq c = true → Lexed (σ c) (τ c) ∧ Bal (τ c) (φ c) :=
    ⟨fun c => (hτ c).choose, fun c => (hτ c).choose_spec⟩
  have F' : Fills σ τ := ⟨F.plain, F.glue, F.com, fun c hc => (hτ c hc).1⟩
  have hb : ∀ h, isSeq h = true → Bal (τ h) (φ h) := fun c hc => (hτ c hc).2
  unfold shape at h
  cases hp : placed .idle T with
  | false => rw [hp] at h; cases h
  | true =>
    rw [hp] at h
    cases hr : lexRun .idle T with
    | none => rw [hr] at h; cases h
    | some r =>
      obtain ⟨ts, e⟩ := r
      rw [hr] at h
      obtain ⟨ts', e', pre', h1, h2, h3⟩ := sim_run F' T Sim.idle hp hr
      cases e with
      | idle =>
        simp only at h
        cases hf : forest ts with
        | none => rw [hf] at h; cases h
        | some g =>
          rw [hf] at h
          cases h
          cases h2
          have hC : ParsesC (fill σ T) (subF σ φ f) :=
            ⟨_, h1, by rw [List.nil_append, List.append_nil] at h3; rw [h3]; exact bal_sub hb hf⟩
          exact ⟨hC.parses, fun _ => hC⟩
      | word w =>
        simp only at h
        cases hw : w.any isSeq with
        | true => rw [hw] at h; cases h
        | false =>
          rw [hw] at h
          simp only [Bool.false_eq_true, if_false] at h
          cases hf : forest (ts ++ [.word w]) with
          | none => rw [hf] at h; cases h
          | some g =>
            rw [hf] at h
            cases h
            refine ⟨?_, fun h => by cases h⟩
            cases h2 with
            | hole c hc => simp [hc] at hw
            | word _ _ =>
              refine ⟨_, ⟨ts', _, h1, trivial, rfl⟩, ?_⟩
              have := bal_sub (σ := σ) hb hf
              simp only [List.flatMap_append, List.flatMap_cons, List.flatMap_nil, subTok, seqOf_none hw] at this
              simp only [List.nil_append, List.append_nil] at h3
              rw [h3]
              simpa [rest] using this
      | slash => cases h
      | comment => cases h
      | str b => cases h
      | esc b => cases h

end GV.Props
