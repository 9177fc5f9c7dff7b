import Verif.Model.Stream
/-
What statements about streams talk about.
-/
namespace GV.Spec

/-- The bytes a writer took in these calls. -/
def taken (log : List (Bytes × Took)) : Bytes :=
  (log.map fun m => match m.2 with
    | .took n => m.1.take n
    | _ => []).flatten

/-- The error that a call means for the one who wants everything written: taking nothing is one, being
    interrupted is none. -/
def failing : Bytes × Took → Option Nat
  | (b, .took n) => if n = 0 ∧ b ≠ [] then some writeZero else none
  | (_, .interrupted) => none
  | (_, .error e) => some e

/-- `content` says what is still to be read from `d` in each state: reads of at least one byte give it piece
    by piece, and end of file only at the end.  The reader may still fail. -/
def Delivers {σ : Type} (d : Feed σ) (content : σ → Bytes) : Prop :=
  ∀ s n, 0 < n → match d.read s n with
    | (s', .data b) => content s = b ++ content s' ∧ (b = [] → content s = [])
    | (s', .interrupted) => content s' = content s
    | (_, .error _) => True

/-- The reader never fails. -/
def NeverFails {σ : Type} (d : Feed σ) : Prop := ∀ s n e, (d.read s n).2 ≠ .error e

/-- The writer never fails, and takes something when given something. -/
def TakesAll {σ : Type} (d : Dev σ) : Prop :=
  ∀ s b, b ≠ [] → match (d.write s b).2 with
    | .took n => n ≠ 0
    | .interrupted => True
    | .error _ => False

end GV.Spec
