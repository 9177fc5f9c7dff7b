import Verif.Proofs.View
/-
Helper lemmas: a build with overflow checks either panics with an overflow or does the same as a build
without.
-/
namespace GV

/-- `x` is an overflow panic or the same as `y`. -/
def OvLe {α : Type} (x y : Res α) : Prop := x = .fail .overflow ∨ x = y

namespace OvLe

theorem refl {α : Type} (x : Res α) : OvLe x x := Or.inr rfl

theorem bind {α β : Type} {x y : Res α} {f g : α → Res β} (h : OvLe x y) (hf : ∀ a, OvLe (f a) (g a)) :
    OvLe (x >>= f) (y >>= g) := by
  rcases h with rfl | rfl
  · exact Or.inl rfl
  · cases x with
    | ok a => exact hf a
    | fail e => exact refl _

theorem traverse {α β : Type} {f g : α → Res β} (h : ∀ a, OvLe (f a) (g a)) :
    ∀ l, OvLe (Res.traverse f l) (Res.traverse g l)
  | [] => refl _
  | a :: l => (h a).bind fun _ => (traverse h l).bind fun _ => refl _

end OvLe

/-- The build with overflow checks set to `b`. -/
def Cfg.ovf (c : Cfg) (b : Bool) : Cfg := { c with overflowChecks := b }

section
variable (c : Cfg)

theorem uadd_ov (a b : Nat) : OvLe (uadd (c.ovf true) a b) (uadd (c.ovf false) a b) := by
  unfold uadd
  split
  · exact .refl _
  · exact Or.inl rfl
theorem umul_ov (a b : Nat) : OvLe (umul (c.ovf true) a b) (umul (c.ovf false) a b) := by
  unfold umul
  split
  · exact .refl _
  · exact Or.inl rfl
theorem usub_ov (a b : Nat) : OvLe (usub (c.ovf true) a b) (usub (c.ovf false) a b) := by
  unfold usub
  split
  · exact .refl _
  · exact Or.inl rfl

theorem alignOffset_ov (al i : Nat) : OvLe (alignOffset (c.ovf true) al i) (alignOffset (c.ovf false) al i) :=
  (uadd_ov c i al).bind fun x => (usub_ov c x 1).bind fun _ => .refl _

theorem readUint_ov (b : Bytes) (w n : Nat) : OvLe (readUint (c.ovf true) b w n) (readUint (c.ovf false) b w n) := by
  unfold readUint
  refine (umul_ov c n w).bind fun s => ?_
  split
  · exact .refl _
  · split
    · exact .refl _
    · exact (uadd_ov c s w).bind fun _ => .refl _

theorem readLast_ov (b : Bytes) :
    OvLe (readLastFrameOffset (c.ovf true) b) (readLastFrameOffset (c.ovf false) b) := by
  unfold readLastFrameOffset
  simp only
  split
  · exact .refl _
  · refine (usub_ov c _ _).bind fun p => ?_
    split
    · exact (readUint_ov c _ _ _).bind fun _ => .refl _
    · exact .refl _

theorem iterNext_ov (e : Ty) (it : ArrIter) : OvLe (iterNext (c.ovf true) e it) (iterNext (c.ovf false) e it) := by
  unfold iterNext
  split
  · exact .refl _
  · refine (alignOffset_ov c _ _).bind fun start => (readUint_ov c _ _ _).bind fun stop =>
      (uadd_ov c _ _).bind fun idx => ?_
    simp only
    split <;> exact .refl _

theorem collectIter_ov (e : Ty) (fuel : Nat) : ∀ it,
    OvLe (collectIter (c.ovf true) e fuel it) (collectIter (c.ovf false) e fuel it) := by
  induction fuel with
  | zero => intro it; exact .refl _
  | succ fuel ih =>
    intro it
    refine (iterNext_ov c e it).bind fun p => ?_
    obtain ⟨o, it'⟩ := p
    cases o with
    | none => exact .refl _
    | some r => exact (ih it').bind fun _ => .refl _

theorem arrRefs_ov (e : Ty) (s : Slice) : OvLe (arrRefs (c.ovf true) e s) (arrRefs (c.ovf false) e s) := by
  unfold arrRefs
  split
  · exact .refl _
  · refine OvLe.bind ?_ fun it => collectIter_ov c e _ it
    exact (readLast_ov c _).bind fun _ => .refl _

theorem toOption_ov (e : Ty) (s : Slice) : OvLe (toOption (c.ovf true) e s) (toOption (c.ovf false) e s) := by
  unfold toOption
  split
  · exact .refl _
  · split
    · exact .refl _
    · exact (usub_ov c _ _).bind fun _ => .refl _

theorem nthLast_ov (b : Bytes) (osz n : Nat) :
    OvLe (nthLastFrameOffset (c.ovf true) b osz n) (nthLastFrameOffset (c.ovf false) b osz n) := by
  unfold nthLastFrameOffset
  split
  · exact .refl _
  · refine (umul_ov c _ _).bind fun m => ?_
    split
    · exact (readUint_ov c _ _ _).bind fun _ => .refl _
    · exact .refl _

theorem calcOffsets_ov (al : Nat) (b : Bytes) (row : Row) (size : Option Nat) (last : Bool) (nfo : Nat) :
    OvLe (calcOffsets (c.ovf true) al b row size last nfo) (calcOffsets (c.ovf false) al b row size last nfo) := by
  unfold calcOffsets
  refine (nthLast_ov c _ _ _).bind fun o => ?_
  cases o with
  | none => exact .refl _
  | some fo =>
    refine (umul_ov c _ _).bind fun m => ?_
    cases checkedSub b.length m with
    | none => exact .refl _
    | some de =>
      refine (uadd_ov c _ _).bind fun x => (alignOffset_ov c _ _).bind fun y => (OvLe.refl _).bind fun z =>
        (uadd_ov c _ _).bind fun start => OvLe.bind ?_ fun stop => .refl _
      cases size with
      | some n => exact (uadd_ov c _ _).bind fun _ => .refl _
      | none =>
        simp only
        split
        · exact .refl _
        · exact nthLast_ov c _ _ _

theorem memberRefs_ov (s : Slice) (nfo : Nat) (ts : List Ty) : ∀ rows,
    OvLe (memberRefs (c.ovf true) s nfo ts rows) (memberRefs (c.ovf false) s nfo ts rows) := by
  induction ts with
  | nil => intro rows; exact .refl _
  | cons t ts ih =>
    intro rows
    cases rows with
    | nil => exact .refl _
    | cons row rows =>
      refine OvLe.bind ?_ fun r => (ih rows).bind fun _ => .refl _
      refine (calcOffsets_ov c _ _ _ _ _ _).bind fun o => ?_
      cases o <;> exact .refl _

theorem tupRefs_ov (gv : Ty) (ts : List Ty) (s : Slice) :
    OvLe (tupRefs (c.ovf true) gv ts s) (tupRefs (c.ovf false) gv ts s) := by
  unfold tupRefs
  split
  · exact .refl _
  · exact (OvLe.refl _).bind fun p => memberRefs_ov c s _ ts _

theorem viewAll_ov (ts : List Ty) :
    (∀ t ∈ ts, ∀ s, OvLe (view (c.ovf true) t s) (view (c.ovf false) t s)) →
    ∀ rs, OvLe (viewAll (c.ovf true) ts rs) (viewAll (c.ovf false) ts rs) := by
  induction ts with
  | nil => intro _ rs; cases rs <;> simp only [viewAll] <;> exact .refl _
  | cons t ts ih =>
    intro h rs
    cases rs with
    | nil => simp only [viewAll]; exact .refl _
    | cons r rs =>
      simp only [viewAll]
      exact (h t (by simp) r).bind fun _ => (ih (fun u hu => h u (by simp [hu])) rs).bind fun _ => .refl _

theorem view_ov (t : Ty) : ∀ s, OvLe (view (c.ovf true) t s) (view (c.ovf false) t s) := by
  induction t using Ty.ind with
  | a e ih =>
    intro s
    simp only [view]
    exact (arrRefs_ov c e s).bind fun rs => (OvLe.traverse ih rs).bind fun _ => .refl _
  | m e ih =>
    intro s
    simp only [view]
    refine (toOption_ov c e s).bind fun o => ?_
    cases o with
    | none => exact .refl _
    | some r => exact (ih r).bind fun _ => .refl _
  | tuple ts ih =>
    intro s
    simp only [view]
    exact (tupRefs_ov c _ ts s).bind fun rs => (viewAll_ov c ts ih rs).bind fun _ => .refl _
  | dict k v ihk ihv =>
    intro s
    simp only [view]
    refine (tupRefs_ov c _ [k, v] s).bind fun rs => ?_
    split
    · exact (ihk _).bind fun _ => (ihv _).bind fun _ => .refl _
    · exact .refl _
  | _ => intro s; simp only [view]; exact .refl _

theorem readAs_ov (t : Ty) (s : Slice) : OvLe (readAs (c.ovf true) t s) (readAs (c.ovf false) t s) :=
  (OvLe.refl _).bind fun r => view_ov c t r

end

end GV
