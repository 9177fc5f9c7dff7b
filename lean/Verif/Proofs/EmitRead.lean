import Verif.Proofs.EmitParts
/-
The statements, calls and fields of the emitted text are read as what they were written from.
-/
namespace GV.Props
open GV Spec

theorem strip_append (f g : Forest) : f.strip (f.append g) = some g := by
  induction f with
  | nil => cases g <;> rfl
  | leaf t r ih => simp only [Forest.append, Forest.strip, if_true, ih]
  | grp d i r _ ih => simp only [Forest.append, Forest.strip, and_self, if_true, ih]

theorem strip_self (f : Forest) : f.strip f = some .nil := by
  have := strip_append f .nil
  rwa [forest_append_nil] at this

theorem dropEnd_append (t : Tok) (f : Forest) : dropEnd t (f.append (.leaf t .nil)) = some f := by
  induction f with
  | nil => simp [Forest.append, dropEnd]
  | leaf t' r ih =>
    cases r with
    | nil =>
      simp only [Forest.append, dropEnd, if_true, Option.map_some]
    | leaf t2 r2 =>
      simp only [Forest.append] at ih ⊢
      rw [dropEnd, ih]
      · rfl
      · intro h; cases h
    | grp d i r2 =>
      simp only [Forest.append] at ih ⊢
      rw [dropEnd, ih]
      · rfl
      · intro h; cases h
  | grp d i r _ ih =>
    simp only [Forest.append, dropEnd, ih, Option.map_some]

theorem atCommas_sep {g : Forest} (hg : lone g = true) (x : Forest) :
    atCommas (g.append (.leaf (.op 44) x)) = g :: atCommas x := by
  induction g with
  | nil => simp [Forest.append, atCommas]
  | leaf t r ih =>
    simp only [lone, Bool.and_eq_true, decide_eq_true_eq] at hg
    simp only [Forest.append, atCommas, if_neg hg.1.1, ih hg.2, prePart]
  | grp d i r _ ih =>
    simp only [lone, Bool.and_eq_true, decide_eq_true_eq] at hg
    simp only [Forest.append, atCommas, ih hg.2, prePart]

theorem atCommas_last {g : Forest} (hg : lone g = true) (h0 : g ≠ .nil) : atCommas g = [g] := by
  induction g with
  | nil => exact absurd rfl h0
  | leaf t r ih =>
    simp only [lone, Bool.and_eq_true, decide_eq_true_eq] at hg
    simp only [atCommas, if_neg hg.1.1]
    by_cases hr : r = .nil
    · subst hr; rfl
    · rw [ih hg.2 hr]; rfl
  | grp d i r _ ih =>
    simp only [lone, Bool.and_eq_true, decide_eq_true_eq] at hg
    simp only [atCommas]
    by_cases hr : r = .nil
    · subst hr; rfl
    · rw [ih hg.2 hr]; rfl

theorem items_semi {g : Forest} (hg : flat g = true) (x : Forest) :
    items (g.append (.leaf (.op 59) x)) = ⟨g, .semi⟩ :: items x := by
  rw [items_flat hg]
  simp only [items, if_true, preItem, forest_append_nil]

/-! ### Statements -/

/-- The trees of a statement before its semicolon. -/
def cmdF : Cmd → Forest
  | .zeros n => (code fmt!"f.write_all").append
      (.grp 40 (.leaf (.word fmt!"b") (.leaf (.lit (List.replicate n 0)) .nil)) (code fmt!"?"))
  | .addOff n => (code fmt!"off +=").append (numF n)
  | .writePadding al => (code fmt!"off += write_padding::<").append
      (.leaf (.word (fmt!"A" ++ decText al)) (code fmt!", _>(off, f)?"))
  | .child n => (code fmt!"self.").append (.leaf (.word (decText n)) (code fmt!".serialize(f)?"))
  | .childOff n => (code fmt!"off +=").append
      ((code fmt!"self.").append (.leaf (.word (decText n)) (code fmt!".serialize(f)?")))
  | .setFrame k => (code fmt!"framing_offsets").append (.grp 91 (numF k) (code fmt!"= off"))

theorem lexRun_zeros (n : Nat) (b : Bytes) :
    lexRun (.str b) (List.replicate n fmt!"\\0").flatten = some ([], .str (b ++ List.replicate n 0)) := by
  induction n generalizing b with
  | zero => simp [lexRun]
  | succ n ih =>
    rw [List.replicate_succ, List.flatten_cons]
    have h1 : lexRun (.str b) fmt!"\\0" = some ([], .str (b ++ [0])) := by
      simp [lexRun, lexStep]
    rw [lexRun_append h1, ih]
    simp [List.replicate_succ]

theorem parsesC_zeros (n : Nat) :
    ParsesC (cmdText (.zeros n)) ((cmdF (.zeros n)).append (.leaf (.op 59) .nil)) := by
  have h1 : lexRun .idle fmt!"f.write_all(b\"" = some
      ([.word fmt!"f", .op 46, .word fmt!"write_all", .op 40, .word fmt!"b"], .str []) := by decide +kernel
  have h3 : ∀ b, lexRun (.str b) fmt!"\")?;" = some ([.lit b, .op 41, .op 63, .op 59], .idle) := fun b => rfl
  refine ⟨[.word fmt!"f", .op 46, .word fmt!"write_all", .op 40, .word fmt!"b"] ++
    [.lit (List.replicate n 0), .op 41, .op 63, .op 59], ?_, ?_⟩
  · unfold LexedC cmdText
    simp only [List.append_assoc]
    rw [lexRun_append h1, lexRun_append (lexRun_zeros n []), List.nil_append, h3]
    rfl
  · intro st cur
    rfl

theorem parsesC_cmd : ∀ x : Cmd, ParsesC (cmdText x) ((cmdF x).append (.leaf (.op 59) .nil))
  | .zeros n => parsesC_zeros n
  | .addOff n => pieceC [(ph! "x", decText n, .nil)] (by simpa using argOk_dec n _ rfl) rfl rfl
  | .writePadding al => pieceC [(ph! "base", decText al, .nil)] (by simpa using argOk_dec al _ rfl) rfl rfl
  | .child n => pieceC [(ph! "n", decText n, .nil)] (by simpa using argOk_dec n _ rfl) rfl rfl
  | .childOff n => pieceC [(ph! "n", decText n, .nil)] (by simpa using argOk_dec n _ rfl) rfl rfl
  | .setFrame k => pieceC [(ph! "x", decText k, .nil)] (by simpa using argOk_dec k _ rfl) rfl rfl

theorem cmdF_lone (x : Cmd) : flat (cmdF x) = true := by
  cases x <;> rfl

theorem readZeros_zeros (n : Nat) : readZeros (cmdF (.zeros n)) = some (.zeros n) := by
  unfold readZeros
  rw [cmdF, strip_append]
  simp

theorem readWritePadding_eq (al : Nat) : readWritePadding (cmdF (.writePadding al)) = some (.writePadding al) := by
  unfold readWritePadding
  rw [cmdF, strip_append]
  simp only [if_true, numbered_dec, Option.map_some]

theorem numeral_word (n : Nat) : numeral (.leaf (.word (decText n)) .nil) = some n := numeral_numF n

theorem readChild_eq (n : Nat) : readChild ((code fmt!"self.").append (.leaf (.word (decText n)) (code fmt!".serialize(f)?")))
    = some n := by
  unfold readChild
  rw [strip_append]
  simp only [if_true, numeral_word]

theorem readSetFrame_eq (k : Nat) : readSetFrame (cmdF (.setFrame k)) = some (.setFrame k) := by
  unfold readSetFrame
  rw [cmdF, strip_append]
  simp only [if_true, and_self, numeral_numF, Option.map_some]

theorem readCmd_eq (x : Cmd) : readCmd (cmdF x) = some x := by
  cases x with
  | zeros n => unfold readCmd; rw [readZeros_zeros]
  | writePadding al =>
    have h1 : readZeros (cmdF (.writePadding al)) = none := rfl
    unfold readCmd; rw [readWritePadding_eq, h1]
  | child n =>
    have h1 : readZeros (cmdF (.child n)) = none := rfl
    have h2 : readWritePadding (cmdF (.child n)) = none := rfl
    have h3 : readChild (cmdF (.child n)) = some n := readChild_eq n
    unfold readCmd; rw [h1, h2, h3]
  | setFrame k =>
    have h1 : readZeros (cmdF (.setFrame k)) = none := rfl
    have h2 : readWritePadding (cmdF (.setFrame k)) = none := rfl
    have h3 : readChild (cmdF (.setFrame k)) = none := rfl
    unfold readCmd; rw [h1, h2, h3, readSetFrame_eq]
  | childOff n =>
    have h1 : readZeros (cmdF (.childOff n)) = none := rfl
    have h2 : readWritePadding (cmdF (.childOff n)) = none := rfl
    have h3 : readChild (cmdF (.childOff n)) = none := rfl
    have h4 : readSetFrame (cmdF (.childOff n)) = none := rfl
    unfold readCmd; rw [h1, h2, h3, h4, cmdF, strip_append]
    simp only [readChild_eq]
  | addOff n =>
    have h1 : readZeros (cmdF (.addOff n)) = none := rfl
    have h2 : readWritePadding (cmdF (.addOff n)) = none := by
      have hs : ∀ r : Forest, (Forest.leaf (.word fmt!"write_padding") (.leaf (.op 58) r)).strip (numF n) = none := by
        intro r
        simp only [numF, Forest.strip]
        split <;> rfl
      have : (code fmt!"off += write_padding::<").strip (cmdF (.addOff n)) = none := hs _
      unfold readWritePadding
      rw [this]
    have h3 : readChild (cmdF (.addOff n)) = none := rfl
    have h4 : readSetFrame (cmdF (.addOff n)) = none := rfl
    have h5 : readChild (numF n) = none := by
      unfold readChild numF
      have : (code fmt!"self.").strip (.leaf (.word (decText n)) .nil) = none := by
        have hc : code fmt!"self." = .leaf (.word fmt!"self") (.leaf (.op 46) .nil) := by decide +kernel
        rw [hc]
        simp only [Forest.strip]
        split <;> rfl
      rw [this]
    unfold readCmd; rw [h1, h2, h3, h4, cmdF, strip_append]
    simp only [h5, numeral_numF, Option.map_some]

/-- The statements in a row. -/
def cmdsF (cs : List Cmd) : Forest := sepF .nil (cs.map fun x => (cmdF x).append (.leaf (.op 59) .nil))

theorem parses_cmds (cs : List Cmd) : Parses (cmdsText cs) (cmdsF cs) :=
  parses_join (c := 10) (sep := []) (sf := .nil) rfl ⟨[], rfl, bal_nil⟩ cs cmdText _ fun x _ => (parsesC_cmd x).parses

theorem concatF_append_nil (fs : List Forest) : concatF (fs.map Forest.nil.append) = concatF fs := by
  induction fs with
  | nil => rfl
  | cons f fs ih => simp only [List.map_cons, concatF, List.foldr_cons, Forest.append] at ih ⊢; rw [ih]

theorem cmdsF_eq (cs : List Cmd) : cmdsF cs = concatF (cs.map fun x => (cmdF x).append (.leaf (.op 59) .nil)) := by
  unfold cmdsF
  cases cs with
  | nil => rfl
  | cons x cs => simp only [List.map_cons, sepF, concatF_append_nil]; rfl

theorem items_cmds (cs : List Cmd) (r : Forest) :
    items ((cmdsF cs).append r) = cs.map (fun x => ⟨cmdF x, .semi⟩) ++ items r := by
  rw [cmdsF_eq]
  induction cs with
  | nil => rfl
  | cons x cs ih =>
    simp only [List.map_cons, concatF, List.foldr_cons, forest_append_assoc, Forest.append, List.cons_append] at ih ⊢
    rw [items_semi (cmdF_lone x), ih]

theorem readCmds_eq (cs : List Cmd) {tail : List Item} (h : ∀ it ∈ tail, readCmd it.hdr = none) :
    readCmds tail (cs.map (fun x => ⟨cmdF x, .semi⟩) ++ tail) = some cs := by
  induction cs with
  | nil => cases tail <;> simp [readCmds]
  | cons x cs ih =>
    simp only [List.map_cons, List.cons_append, readCmds]
    rw [if_neg, readCmd_eq, ih]
    intro he
    have h1 := h ⟨cmdF x, .semi⟩ (by rw [← he]; simp)
    rw [readCmd_eq] at h1
    cases h1

end GV.Props
