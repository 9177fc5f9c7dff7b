import Verif.Proofs.RustItems
import Verif.Spec.RustRead
import Verif.Props.C05_C09
/-
The pieces the emitted text is put together from: numbers, types, statements, calls, fields.
-/
namespace GV.Props
open GV Spec

/-! ### Numbers -/

theorem decLoop_digits : ∀ fuel n, ∀ c ∈ decLoop fuel n, 48 ≤ c ∧ c ≤ 57 := by
  intro fuel
  induction fuel with
  | zero => intro n c hc; cases hc
  | succ fuel ih =>
    intro n c hc
    have key : ∀ k < 10, 48 ≤ UInt8.ofNat (48 + k) ∧ UInt8.ofNat (48 + k) ≤ 57 := by decide
    simp only [decLoop] at hc
    split at hc
    · rename_i h
      simp only [List.mem_singleton] at hc
      rw [hc]
      exact key n h
    · simp only [List.mem_append, List.mem_singleton] at hc
      rcases hc with hc | hc
      · exact ih _ c hc
      · rw [hc]; exact key _ (Nat.mod_lt _ (by omega))

theorem decText_ne (n : Nat) : decText n ≠ [] := by
  simp only [decText, decLoop]
  split <;> simp

theorem wordChar_digit {c : UInt8} (h : 48 ≤ c ∧ c ≤ 57) : wordChar c = true := by
  simp only [wordChar, Bool.or_eq_true, Bool.and_eq_true, decide_eq_true_eq]
  exact Or.inl (Or.inl (Or.inr h))

theorem decText_word (n : Nat) : ∀ c ∈ decText n, wordChar c = true :=
  fun c hc => wordChar_digit (decLoop_digits _ _ c hc)

theorem digitsFrom_append (a b : Bytes) (acc : Nat) :
    digitsFrom acc (a ++ b) = (digitsFrom acc a).bind fun x => digitsFrom x b := by
  induction a generalizing acc with
  | nil => rfl
  | cons c a ih =>
    simp only [List.cons_append, digitsFrom]
    split
    · exact ih _
    · rfl

theorem digitsFrom_dec : ∀ fuel n acc, n < fuel → ∃ k, digitsFrom acc (decLoop fuel n) = some (acc * 10 ^ k + n) ∧
    n < 10 ^ k := by
  intro fuel
  induction fuel with
  | zero => intro n acc h; omega
  | succ fuel ih =>
    intro n acc h
    have key : ∀ k < 10, (UInt8.ofNat (48 + k)).toNat - 48 = k ∧
        (48 ≤ UInt8.ofNat (48 + k) ∧ UInt8.ofNat (48 + k) ≤ 57) := by decide
    simp only [decLoop]
    split
    · rename_i h10
      obtain ⟨k1, k2⟩ := key n h10
      refine ⟨1, ?_, by omega⟩
      simp only [digitsFrom, if_pos k2, k1]
      congr 1
      omega
    · rename_i h10
      obtain ⟨k, hk, hk2⟩ := ih (n / 10) acc (by omega)
      obtain ⟨k1, k2⟩ := key (n % 10) (Nat.mod_lt _ (by omega))
      refine ⟨k + 1, ?_, by rw [Nat.pow_succ]; omega⟩
      rw [digitsFrom_append, hk]
      simp only [Option.bind_some, digitsFrom, if_pos k2, k1]
      congr 1
      rw [Nat.pow_succ, ← Nat.mul_assoc]
      omega

theorem digitsFrom_decText (n : Nat) : digitsFrom 0 (decText n) = some n := by
  obtain ⟨k, h, _⟩ := digitsFrom_dec (n + 1) n 0 (by omega)
  simpa [decText] using h

/-- The word of a number. -/
def numF (n : Nat) : Forest := .leaf (.word (decText n)) .nil

theorem numeral_numF (n : Nat) : numeral (numF n) = some n := by
  have := digitsFrom_decText n
  have h0 := decText_ne n
  unfold numF
  cases h : decText n with
  | nil => exact absurd h h0
  | cons c cs => rw [h] at this; exact this

theorem parses_word {w : Bytes} (h0 : w ≠ []) (h : ∀ c ∈ w, wordChar c = true) :
    Parses w (.leaf (.word w) .nil) :=
  ⟨[.word w], ⟨[], .word w, lexRun_idle_word h0 h, trivial, rfl⟩, bal_word w⟩

theorem parses_dec (n : Nat) : Parses (decText n) (numF n) := parses_word (decText_ne n) (decText_word n)

theorem numbered_dec (pre : Bytes) (n : Nat) : numbered pre (pre ++ decText n) = some n := by
  have h : pre.isPrefixOf (pre ++ decText n) = true := by
    rw [List.isPrefixOf_iff_prefix]; exact List.prefix_append _ _
  have h2 : pre.length < (pre ++ decText n).length := by
    have := List.length_pos_iff.2 (decText_ne n)
    simp only [List.length_append]; omega
  unfold numbered
  rw [if_pos ⟨h, h2⟩, List.drop_left]
  exact digitsFrom_decText n

/-- The trees of an integer. -/
def intF (i : Int) : Forest := if i < 0 then .leaf (.op 45) (numF i.natAbs) else numF i.natAbs

theorem parses_int (i : Int) : Parses (intText i) (intF i) := by
  unfold intText intF
  split
  · have h : ParsesC [45] (.leaf (.op 45) .nil) := ⟨[.op 45], rfl, fun _ _ => rfl⟩
    exact parses_append h (parses_dec _)
  · exact parses_dec _

theorem integer_intF (i : Int) : integer (intF i) = some i := by
  unfold intF
  split
  · rename_i h
    simp only [integer, if_true, numeral_numF]
    show some (-(i.natAbs : Int)) = some i
    congr 1
    omega
  · have : ∀ n, integer (numF n) = (numeral (numF n)).map Int.ofNat := fun n => rfl
    rw [this, numeral_numF]
    simp only [Option.map_some]
    congr 1
    show (i.natAbs : Int) = i
    omega

/-- A constant text. -/
theorem parses_const {x : Bytes} (h : (shape x).isSome = true) (hp : plainW x = true) : Parses x (code x) ∧
    ((shape x).map (·.2) = some true → ParsesC x (code x)) := by
  have F : FillsF (fun c => [c]) (fun c => .leaf (.word [c]) .nil) :=
    ⟨fun _ _ => rfl, (fun c hc => ⟨by simp, fun x hx => by
      rw [List.mem_singleton] at hx; rw [hx]; exact wordChar_glue c hc⟩),
     (fun c hc h10 => by
      rw [List.mem_singleton] at h10
      rw [← h10] at hc
      cases hc),
     fun c hc => parses_word (by simp) fun x hx => by
      rw [List.mem_singleton] at hx; rw [hx]; exact wordChar_seq c hc⟩
  cases hs : shape x with
  | none => rw [hs] at h; cases h
  | some p =>
    obtain ⟨f, b⟩ := p
    obtain ⟨h1, h2⟩ := parses_fill F hs
    have hx : fill (fun c => [c]) x = x := by
      unfold fill
      induction x with
      | nil => rfl
      | cons c x ih => simp
    rw [hx] at h1 h2
    have hc : code x = subF (fun c => [c]) (fun c => .leaf (.word [c]) .nil) f := by
      unfold code
      rw [h1.parseText]
      rfl
    rw [hc]
    exact ⟨h1, fun h => h2 (by simpa using h)⟩

theorem constC {x : Bytes} (h : ((shape x).map (·.2) == some true && plainW x) = true) : ParsesC x (code x) := by
  simp only [Bool.and_eq_true, beq_iff_eq] at h
  refine (parses_const ?_ h.2).2 h.1
  cases hs : shape x with
  | none => rw [hs] at h; cases h.1
  | some p => rfl

theorem const {x : Bytes} (h : ((shape x).isSome && plainW x) = true) : Parses x (code x) := by
  simp only [Bool.and_eq_true] at h
  exact (parses_const h.1 h.2).1

/-- The trees of `Some(n)` and `None`. -/
def optF : Option Nat → Forest
  | none => code fmt!"None"
  | some n => .leaf (.word fmt!"Some") (.grp 40 (numF n) .nil)

theorem bal_grp {ts f} (h : Bal ts f) {c d : UInt8} (hc : closing c = some d)
    (hd : (d = 41 ∨ d = 93 ∨ d = 125) ∧ ¬(c = 41 ∨ c = 93 ∨ c = 125)) :
    Bal (.op c :: (ts ++ [.op d])) (.grp c f .nil) := by
  intro st cur
  simp only [pushToks, pushToks_append, Option.bind_some]
  have h1 : pushTok (.op d) (st, cur) = some ((d, cur) :: st, .nil) := by
    simp only [pushTok]
    rw [if_pos (by rcases hd.1 with h | h | h <;> simp [h])]
  rw [h1]
  simp only [Option.bind_some]
  rw [h]
  simp only [Option.bind_some, pushTok, forest_append_nil]
  rw [if_neg (by simpa [or_assoc] using hd.2), hc]
  simp [Forest.append]

theorem parsesC_grp {x : Bytes} {f} (h : Parses x f) {c d : UInt8} (hk : (c = 40 ∧ d = 41) ∨ (c = 91 ∧ d = 93) ∨
    (c = 123 ∧ d = 125)) : ParsesC (c :: (x ++ [d])) (.grp c f .nil) := by
  obtain ⟨ts, hl, hb⟩ := h
  have hop : ∀ e : UInt8, (e = 40 ∨ e = 41 ∨ e = 91 ∨ e = 93 ∨ e = 123 ∨ e = 125) →
      LexedC [e] [.op e] ∧ wordChar e = false := by
    rintro e (rfl | rfl | rfl | rfl | rfl | rfl) <;> exact ⟨rfl, rfl⟩
  have hc := hop c (by rcases hk with ⟨h, _⟩ | ⟨h, _⟩ | ⟨h, _⟩ <;> simp [h])
  have hd := hop d (by rcases hk with ⟨_, h⟩ | ⟨_, h⟩ | ⟨_, h⟩ <;> simp [h])
  refine ⟨.op c :: (ts ++ [.op d]), ?_, ?_⟩
  · have := lexedC_append hc.1 (lexedC_append_sep hl hd.2 hd.1)
    simpa using this
  · rcases hk with ⟨rfl, rfl⟩ | ⟨rfl, rfl⟩ | ⟨rfl, rfl⟩
    · exact bal_grp hb rfl (by decide)
    · exact bal_grp hb rfl (by decide)
    · exact bal_grp hb rfl (by decide)

theorem parses_opt (o : Option Nat) : Parses (optText o) (optF o) := by
  cases o with
  | none => exact const (by decide)
  | some n =>
    have h1 : Parses fmt!"Some" (.leaf (.word fmt!"Some") .nil) := parses_word (by decide) (by decide)
    have h2 := parsesC_grp (parses_dec n) (c := 40) (d := 41) (Or.inl ⟨rfl, rfl⟩)
    have := (parsesC_sep h1 (by decide) h2).parses
    simpa [optText, optF, Forest.append] using this

theorem optNumber_optF (o : Option Nat) : optNumber (optF o) = some o := by
  cases o with
  | none => decide
  | some n =>
    simp only [optF, optNumber]
    rw [if_pos (by simp), numeral_numF]
    rfl

/-- The word of a truth value. -/
theorem truth_boolText (b : Bool) : truth (.leaf (.word (boolText b)) .nil) = some b := by
  cases b <;> decide

theorem boolText_word (b : Bool) : boolText b ≠ [] ∧ ∀ c ∈ boolText b, wordChar c = true := by
  cases b <;> decide

/-! ### Names and types -/

theorem wordChar_ident (c : UInt8) (h : (isIdentifier.isLetter c || (48 ≤ c && c ≤ 57) || c == 95) = true) :
    wordChar c = true := by
  simp only [isIdentifier.isLetter, Bool.or_eq_true, Bool.and_eq_true, decide_eq_true_eq, beq_iff_eq] at h
  simp only [wordChar, Bool.or_eq_true, Bool.and_eq_true, decide_eq_true_eq, beq_iff_eq]
  rcases h with ((h | h) | h) | h
  · exact Or.inl (Or.inl (Or.inl (Or.inr h)))
  · exact Or.inl (Or.inl (Or.inl (Or.inl h)))
  · exact Or.inl (Or.inl (Or.inr h))
  · exact Or.inl (Or.inr h)

theorem escape_word (t : Ty) : ∀ c ∈ escape t.show, wordChar c = true := by
  intro c hc
  unfold escape at hc
  obtain ⟨d, hd, rfl⟩ := List.mem_map.1 hc
  have h := escape_byte d (show_bytes t d hd)
  refine wordChar_ident _ ?_
  simpa [escape] using h

theorem show_ne (t : Ty) : t.show ≠ [] := by
  cases t <;> simp [Ty.show]

theorem escape_ne (t : Ty) : escape t.show ≠ [] := by
  intro h
  exact show_ne t (List.map_eq_nil_iff.1 h)

theorem structName_eq (t : Ty) : structName t = fmt!"Structure" ++ escape t.show := rfl

theorem structName_word (t : Ty) : structName t ≠ [] ∧ ∀ c ∈ structName t, wordChar c = true := by
  refine ⟨by rw [structName_eq]; simp, fun c hc => ?_⟩
  rw [structName_eq, List.mem_append] at hc
  rcases hc with hc | hc
  · revert c; decide
  · exact escape_word t c hc

/-- Neither commas nor semicolons nor braces at the top. -/
def lone : Forest → Bool
  | .nil => true
  | .leaf t r => t ≠ .op 44 && t ≠ .op 59 && lone r
  | .grp d _ r => d ≠ 123 && lone r

theorem lone_append {f g : Forest} (hf : lone f = true) (hg : lone g = true) : lone (f.append g) = true := by
  induction f with
  | nil => exact hg
  | leaf t r ih =>
    simp only [lone, Bool.and_eq_true] at hf
    simp only [Forest.append, lone, Bool.and_eq_true]
    exact ⟨hf.1, ih hf.2⟩
  | grp d i r _ ih =>
    simp only [lone, Bool.and_eq_true] at hf
    simp only [Forest.append, lone, Bool.and_eq_true]
    exact ⟨hf.1, ih hf.2⟩

theorem lone_flat {f : Forest} (h : lone f = true) : flat f = true := by
  induction f with
  | nil => rfl
  | leaf t r ih =>
    simp only [lone, Bool.and_eq_true] at h
    simp only [flat, Bool.and_eq_true]
    exact ⟨h.1.2, ih h.2⟩
  | grp d i r _ ih =>
    simp only [lone, Bool.and_eq_true] at h
    simp only [flat, Bool.and_eq_true]
    exact ⟨h.1, ih h.2⟩

theorem trees_lone (t : RTy) : lone t.trees = true := by
  induction t with
  | slice e ih => rfl
  | nonFixedWidthArray e ih =>
    exact lone_append (by decide +kernel) (lone_append ih (by decide +kernel))
  | maybeNonFixedSize e ih =>
    exact lone_append (by decide +kernel) (lone_append ih (by decide +kernel))
  | maybeFixedSize e ih =>
    exact lone_append (by decide +kernel) (lone_append ih (by decide +kernel))
  | struct n => rfl
  | _ => decide +kernel

theorem trees_ne (t : RTy) : t.trees ≠ .nil := by
  have hne : ∀ {f g : Forest}, f ≠ .nil → f.append g ≠ .nil := by
    intro f g h
    cases f with
    | nil => exact absurd rfl h
    | leaf t r => intro h; cases h
    | grp d i r => intro h; cases h
  cases t with
  | slice e => intro h; cases h
  | nonFixedWidthArray e => exact hne (by decide +kernel)
  | maybeNonFixedSize e => exact hne (by decide +kernel)
  | maybeFixedSize e => exact hne (by decide +kernel)
  | struct n => intro h; cases h
  | _ => simp only [RTy.trees]; decide +kernel

theorem parses_marker : ∀ t : Ty, Parses (markerText t) (markerType t).trees
  | .B | .Y | .N | .Q | .I | .U | .X | .T | .D | .S | .O | .G | .V => by
    simp only [markerText, markerType, RTy.trees]
    exact const (by decide +kernel)
  | .A t => by
    have ih := parses_marker t
    simp only [markerText, markerType]
    cases GV.sizeOf t with
    | none =>
      simp only [RTy.trees, List.append_assoc]
      exact parses_append (constC (by decide +kernel)) (parses_sep ih (by decide) (const (by decide +kernel)))
    | some n =>
      simp only [RTy.trees]
      exact (parsesC_grp ih (c := 91) (d := 93) (Or.inr (Or.inl ⟨rfl, rfl⟩))).parses
  | .M t => by
    have ih := parses_marker t
    simp only [markerText, markerType]
    cases GV.sizeOf t with
    | none =>
      simp only [RTy.trees, List.append_assoc]
      exact parses_append (constC (by decide +kernel)) (parses_sep ih (by decide) (const (by decide +kernel)))
    | some n =>
      simp only [RTy.trees, List.append_assoc]
      exact parses_append (constC (by decide +kernel)) (parses_sep ih (by decide) (const (by decide +kernel)))
  | .tuple ts => by
    simp only [markerText, markerType, RTy.trees]
    exact parses_word (structName_word (.tuple ts)).1 (structName_word (.tuple ts)).2
  | .dict k v => by
    simp only [markerText, markerType, RTy.trees]
    exact parses_word (structName_word (.dict k v)).1 (structName_word (.dict k v)).2

/-! ### Format strings -/

/-- The trees of arguments. -/
def argsF (xs : List (UInt8 × Forest)) (c : UInt8) : Forest := (xs.lookup c).getD (.leaf (.word [c]) .nil)

/-- An argument that may stand for its placeholder. -/
def ArgOk (x : UInt8 × Bytes × Forest) : Prop :=
  128 ≤ x.1 ∧ (isGlue x.1 = true → x.2.1 ≠ [] ∧ ∀ c ∈ x.2.1, wordChar c = true) ∧
    (isCom x.1 = true → 10 ∉ x.2.1) ∧ (isSeq x.1 = true → Parses x.2.1 x.2.2)

theorem lookup_mem {β} {xs : List (UInt8 × β)} {c y} (h : xs.lookup c = some y) : (c, y) ∈ xs := by
  induction xs with
  | nil => cases h
  | cons x xs ih =>
    obtain ⟨a, b⟩ := x
    simp only [List.lookup] at h
    split at h
    · rename_i he
      have : c = a := by simpa using he
      subst this
      cases h
      simp
    · exact List.mem_cons_of_mem _ (ih h)

theorem lookup_map {β γ} (f : β → γ) (xs : List (UInt8 × β)) (c) :
    (xs.map fun x => (x.1, f x.2)).lookup c = (xs.lookup c).map f := by
  induction xs with
  | nil => rfl
  | cons x xs ih =>
    simp only [List.map_cons, List.lookup]
    split
    · rfl
    · exact ih

theorem fillsF_args {xs : List (UInt8 × Bytes × Forest)} (h : ∀ x ∈ xs, ArgOk x) :
    FillsF (args (xs.map fun x => (x.1, x.2.1))) (argsF (xs.map fun x => (x.1, x.2.2))) := by
  have hl : ∀ c, (args (xs.map fun x => (x.1, x.2.1)) c = [c] ∧
      argsF (xs.map fun x => (x.1, x.2.2)) c = .leaf (.word [c]) .nil) ∨
      ∃ x y, ArgOk (c, x, y) ∧ args (xs.map fun x => (x.1, x.2.1)) c = x ∧
        argsF (xs.map fun x => (x.1, x.2.2)) c = y := by
    intro c
    unfold args argsF
    rw [lookup_map (fun p => p.1) xs c, lookup_map (fun p => p.2) xs c]
    cases hx : xs.lookup c with
    | none => exact Or.inl ⟨rfl, rfl⟩
    | some p => exact Or.inr ⟨p.1, p.2, h _ (lookup_mem hx), rfl, rfl⟩
  refine ⟨fun c hc => ?_, fun c hc => ?_, fun c hc => ?_, fun c hc => ?_⟩
  · rcases hl c with ⟨h, _⟩ | ⟨x, y, hk, _⟩
    · exact h
    · exact absurd hc (by have := hk.1; simp only at this; exact UInt8.not_lt.2 this)
  · rcases hl c with ⟨h, _⟩ | ⟨x, y, hk, h, _⟩
    · rw [h]
      exact ⟨by simp, fun x hx => by rw [List.mem_singleton] at hx; rw [hx]; exact wordChar_glue c hc⟩
    · rw [h]; exact hk.2.1 hc
  · rcases hl c with ⟨h, _⟩ | ⟨x, y, hk, h, _⟩
    · rw [h]
      intro h10
      rw [List.mem_singleton] at h10
      rw [← h10] at hc
      cases hc
    · rw [h]; exact hk.2.2.1 hc
  · rcases hl c with ⟨h, h'⟩ | ⟨x, y, hk, h, h'⟩
    · rw [h, h']
      exact parses_word (by simp) fun x hx => by
        rw [List.mem_singleton] at hx; rw [hx]; exact wordChar_seq c hc
    · rw [h, h']; exact hk.2.2.2 hc

theorem argOk_glue {c : UInt8} {x : Bytes} (f : Forest) (hc : isGlue c = true) (h0 : x ≠ [])
    (h : ∀ c ∈ x, wordChar c = true) : ArgOk (c, x, f) := by
  have hc' := hc
  simp only [isGlue, Bool.and_eq_true, decide_eq_true_eq] at hc'
  refine ⟨hc'.1, fun _ => ⟨h0, h⟩, fun hk => ?_, fun hk => ?_⟩
  · simp only [isCom, Bool.and_eq_true, decide_eq_true_eq] at hk
    exact absurd hc'.2 (UInt8.not_lt.2 hk.1)
  · simp only [isSeq, decide_eq_true_eq] at hk
    exact absurd hc'.2 (UInt8.not_lt.2 (UInt8.le_trans (by decide) hk))

theorem argOk_dec {c : UInt8} (n : Nat) (f : Forest) (hc : isGlue c = true) : ArgOk (c, decText n, f) :=
  argOk_glue f hc (decText_ne n) (decText_word n)

theorem argOk_seq {c : UInt8} {x : Bytes} {f : Forest} (hc : isSeq c = true) (h : Parses x f) : ArgOk (c, x, f) := by
  have hc' := hc
  simp only [isSeq, decide_eq_true_eq] at hc'
  refine ⟨UInt8.le_trans (by decide) hc', fun hk => ?_, fun hk => ?_, fun _ => h⟩
  · simp only [isGlue, Bool.and_eq_true, decide_eq_true_eq] at hk
    exact absurd hk.2 (UInt8.not_lt.2 (UInt8.le_trans (by decide) hc'))
  · simp only [isCom, Bool.and_eq_true, decide_eq_true_eq] at hk
    exact absurd hk.2 (UInt8.not_lt.2 hc')

theorem argOk_com {c : UInt8} {x : Bytes} (f : Forest) (hc : isCom c = true) (h : 10 ∉ x) : ArgOk (c, x, f) := by
  have hc' := hc
  simp only [isCom, Bool.and_eq_true, decide_eq_true_eq] at hc'
  refine ⟨UInt8.le_trans (by decide) hc'.1, fun hk => ?_, fun _ => h, fun hk => ?_⟩
  · simp only [isGlue, Bool.and_eq_true, decide_eq_true_eq] at hk
    exact absurd hk.2 (UInt8.not_lt.2 hc'.1)
  · simp only [isSeq, decide_eq_true_eq] at hk
    exact absurd hc'.2 (UInt8.not_lt.2 hk)

/-- A filled-in format string that does not end in a word. -/
theorem parsesC_args {T : Bytes} {f : Forest} (xs : List (UInt8 × Bytes × Forest)) (h : ∀ x ∈ xs, ArgOk x)
    (hs : shape T = some (f, true)) :
    ParsesC (fill (args (xs.map fun x => (x.1, x.2.1))) T)
      (subF (args (xs.map fun x => (x.1, x.2.1))) (argsF (xs.map fun x => (x.1, x.2.2))) f) :=
  (parses_fill (fillsF_args h) hs).2 rfl

theorem parses_args {T : Bytes} {f : Forest} {b} (xs : List (UInt8 × Bytes × Forest)) (h : ∀ x ∈ xs, ArgOk x)
    (hs : shape T = some (f, b)) :
    Parses (fill (args (xs.map fun x => (x.1, x.2.1))) T)
      (subF (args (xs.map fun x => (x.1, x.2.1))) (argsF (xs.map fun x => (x.1, x.2.2))) f) :=
  (parses_fill (fillsF_args h) hs).1

/-- `flatMap` without the empty list at the end. -/
def subW (σ : UInt8 → Bytes) : Bytes → Bytes
  | [] => []
  | c :: cs => match cs with
    | [] => σ c
    | _ :: _ => σ c ++ subW σ cs

theorem subW_eq (σ : UInt8 → Bytes) (w : Bytes) : w.flatMap σ = subW σ w := by
  induction w with
  | nil => rfl
  | cons c cs ih =>
    cases cs with
    | nil => simp [subW]
    | cons d ds => rw [List.flatMap_cons, ih]; rfl

/-- `subF` with `subW`. -/
def subG (σ : UInt8 → Bytes) (φ : UInt8 → Forest) : Forest → Forest
  | .nil => .nil
  | .leaf t r => match t with
    | .word w => match seqOf w with
      | some h => (φ h).append (subG σ φ r)
      | none => .leaf (.word (subW σ w)) (subG σ φ r)
    | t => .leaf t (subG σ φ r)
  | .grp d i r => .grp d (subG σ φ i) (subG σ φ r)

theorem subF_eq (σ φ) (f : Forest) : subF σ φ f = subG σ φ f := by
  induction f with
  | nil => rfl
  | leaf t r ih =>
    cases t with
    | word w =>
      simp only [subF, subG, subW_eq, ih]
      cases seqOf w <;> rfl
    | op c => simp only [subF, subG, ih]
    | lit b => simp only [subF, subG, ih]
  | grp d i r ihi ih => simp only [subF, subG, ihi, ih]

/-- The trees of a format string. -/
def tplF (T : Bytes) : Forest := ((shape T).map (·.1)).getD .nil

/-- Piece of text from a format string. -/
theorem pieceC {T : Bytes} {g : Forest} (xs : List (UInt8 × Bytes × Forest)) (h : ∀ x ∈ xs, ArgOk x)
    (hs : (shape T).map (·.2) = some true)
    (hg : subG (args (xs.map fun x => (x.1, x.2.1))) (argsF (xs.map fun x => (x.1, x.2.2))) (tplF T) = g) :
    ParsesC (fill (args (xs.map fun x => (x.1, x.2.1))) T) g := by
  cases hT : shape T with
  | none => rw [hT] at hs; cases hs
  | some p =>
    obtain ⟨f, b⟩ := p
    rw [hT] at hs
    simp only [Option.map_some, Option.some.injEq] at hs
    subst hs
    have := parsesC_args xs h hT
    rw [subF_eq] at this
    have hf : tplF T = f := by unfold tplF; rw [hT]; rfl
    rw [hf] at hg
    rwa [hg] at this

/-- The same if it may end in a word. -/
theorem piece {T : Bytes} {g : Forest} (xs : List (UInt8 × Bytes × Forest)) (h : ∀ x ∈ xs, ArgOk x)
    (hs : (shape T).isSome = true)
    (hg : subG (args (xs.map fun x => (x.1, x.2.1))) (argsF (xs.map fun x => (x.1, x.2.2))) (tplF T) = g) :
    Parses (fill (args (xs.map fun x => (x.1, x.2.1))) T) g := by
  cases hT : shape T with
  | none => rw [hT] at hs; cases hs
  | some p =>
    obtain ⟨f, b⟩ := p
    have := parses_args xs h hT
    rw [subF_eq] at this
    have hf : tplF T = f := by unfold tplF; rw [hT]; rfl
    rw [hf] at hg
    rwa [hg] at this

/-! ### Rows of parts -/

/-- One after the other. -/
def concatF (fs : List Forest) : Forest := fs.foldr Forest.append .nil

/-- One after the other with something between. -/
def sepF (sep : Forest) : List Forest → Forest
  | [] => .nil
  | f :: fs => f.append (concatF (fs.map sep.append))

theorem parsesC_flatten {α} (l : List α) (x : α → Bytes) (f : α → Forest) (h : ∀ a ∈ l, ParsesC (x a) (f a)) :
    ParsesC (l.map x).flatten (concatF (l.map f)) := by
  induction l with
  | nil => exact parsesC_nil
  | cons a l ih =>
    exact parsesC_append (h a (by simp)) (ih fun b hb => h b (by simp [hb]))

theorem parses_flatMap_sep {α} {c : UInt8} {sep : Bytes} {sf : Forest} (hc : wordChar c = false)
    (hsep : ParsesC (c :: sep) sf) (l : List α) (x : α → Bytes) (f : α → Forest)
    (h : ∀ a ∈ l, Parses (x a) (f a)) {y : Bytes} {g : Forest} (hy : Parses y g) :
    Parses (y ++ (l.map x).flatMap ((c :: sep) ++ ·)) (g.append (concatF ((l.map f).map sf.append))) := by
  induction l generalizing y g with
  | nil => simpa [concatF, forest_append_nil] using hy
  | cons a l ih =>
    simp only [List.map_cons, List.flatMap_cons, concatF, List.foldr_cons]
    rw [← List.append_assoc, ← forest_append_assoc]
    refine ih (fun b hb => h b (by simp [hb])) ?_
    have := parses_sep hy hc (parses_append hsep (h a (by simp)))
    simpa using this

theorem parses_join {α} {c : UInt8} {sep : Bytes} {sf : Forest} (hc : wordChar c = false)
    (hsep : ParsesC (c :: sep) sf) (l : List α) (x : α → Bytes) (f : α → Forest)
    (h : ∀ a ∈ l, Parses (x a) (f a)) : Parses (join (c :: sep) (l.map x)) (sepF sf (l.map f)) := by
  cases l with
  | nil => exact parsesC_nil.parses
  | cons a l =>
    exact parses_flatMap_sep hc hsep l x f (fun b hb => h b (by simp [hb])) (h a (by simp))

theorem mapIdx_eq {α β} (f : Nat → α → β) (l : List α) : l.mapIdx f = l.zipIdx.map fun p => f p.2 p.1 := by
  apply List.ext_getElem <;> simp

end GV.Props
