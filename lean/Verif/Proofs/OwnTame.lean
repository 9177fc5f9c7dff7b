import Verif.Model.OwnSer
import Verif.Proofs.Ser
/-
The container serializers around parts that may do anything.
-/
namespace GV
open Spec

variable {σ α β : Type}

/-- `m` only appends to what was written, panics only with a fault in `P` and returns only values
    in `Q`. -/
def Mild (P : Fault → Prop) (Q : α → Prop) (m : WM σ α) : Prop :=
  ∀ s, s.got <+: (m s).1.got ∧ (∀ a, (m s).2 = .ok a → Q a) ∧ ∀ f, (m s).2 = .panic f → P f

theorem Mild.bind {P : Fault → Prop} {Q : α → Prop} {R : β → Prop} {m : WM σ α} {f : α → WM σ β}
    (h : Mild P Q m) (h' : ∀ a, Q a → Mild P R (f a)) : Mild P R (m >>= f) := by
  intro s
  obtain ⟨h1, h2, h3⟩ := h s
  show _ ∧ (∀ a, (WM.bind m f s).2 = _ → _) ∧ (∀ a, (WM.bind m f s).2 = _ → _)
  have hb : (m >>= f) s = WM.bind m f s := rfl
  rw [hb]
  unfold WM.bind
  rcases hm : m s with ⟨s', a | e | _ | g⟩
  · obtain ⟨k1, k2, k3⟩ := h' a (h2 a (by rw [hm])) s'
    rw [hm] at h1
    exact ⟨h1.trans k1, k2, k3⟩
  · rw [hm] at h1; exact ⟨h1, by simp, by simp⟩
  · rw [hm] at h1; exact ⟨h1, by simp, by simp⟩
  · rw [hm] at h1 h3
    refine ⟨h1, by simp, fun f hf => ?_⟩
    simp only [Out.panic.injEq] at hf
    exact h3 f (by simp [hf])

theorem Mild.pure {P : Fault → Prop} {Q : α → Prop} {a : α} (h : Q a) :
    Mild P Q (Pure.pure a : WM σ α) := fun s =>
  ⟨List.prefix_refl _, fun b hb => by cases hb; exact h, fun f hf => by cases hf⟩

theorem Mild.write {P : Fault → Prop} (w : Writer σ) (b : Bytes) :
    Mild P (fun _ => True) (WM.write w b) := by
  intro s
  unfold WM.write
  rcases w.writeAll s.st b with ⟨st, _ | ⟨k, e⟩⟩ <;> exact ⟨List.prefix_append _ _, by simp, by simp⟩

theorem Mild.lift {P : Fault → Prop} {Q : α → Prop} {r : Res α} (h : ∀ a, r = .ok a → Q a)
    (h' : ∀ f, r = .fail f → P f) : Mild P Q (WM.lift r : WM σ α) := by
  intro s
  unfold WM.lift
  cases r with
  | ok a => exact ⟨List.prefix_refl _, fun b hb => by cases hb; exact h _ rfl, fun f hf => by cases hf⟩
  | fail f => exact ⟨List.prefix_refl _, fun b hb => (by cases hb), fun g hg => by cases hg; exact h' _ rfl⟩

theorem Mild.mono {P : Fault → Prop} {Q Q' : α → Prop} {m : WM σ α} (h : Mild P Q m)
    (hq : ∀ a, Q a → Q' a) : Mild P Q' m := fun s =>
  ⟨(h s).1, fun a ha => hq a ((h s).2.1 a ha), (h s).2.2⟩

variable {P : Fault → Prop} {c : Cfg}

theorem mild_uadd (hP : c.overflowChecks → P .overflow) (a b : Nat) :
    Mild P (· < usizeMod) (WM.lift (uadd c a b) : WM σ Nat) := by
  refine .lift ?_ ?_ <;> intro x hx <;> unfold uadd at hx
  · split at hx
    · cases hx; assumption
    · split at hx
      · cases hx
      · cases hx; exact Nat.mod_lt _ (by decide)
  · split at hx
    · cases hx
    · split at hx
      · cases hx; exact hP (by assumption)
      · cases hx

theorem mild_umul (hP : c.overflowChecks → P .overflow) (a b : Nat) :
    Mild P (fun _ => True) (WM.lift (umul c a b) : WM σ Nat) := by
  refine .lift (fun _ _ => trivial) ?_
  intro x hx
  unfold umul at hx
  split at hx
  · cases hx
  · split at hx
    · cases hx; exact hP (by assumption)
    · cases hx

/-- Rounding up and subtracting wraps around twice at worst, and never gives more than seven. -/
theorem pad_small (hP : c.overflowChecks → P .overflow) {al off : Nat} (hal : IsAl al)
    (ho : off < usizeMod) :
    (∀ f, alignOffset c al off = .fail f → P f) ∧
    ∀ a, alignOffset c al off = .ok a →
      (∀ f, usub c a off = .fail f → P f) ∧ ∀ n, usub c a off = .ok n → n ≤ 7 := by
  rw [alignOffset_eq hal ho]
  have hle := le_roundUp hal.pos off
  have hlt := roundUp_lt hal.pos off
  have h8 : al ≤ 8 := by rcases hal with h | h | h | h <;> omega
  constructor
  · intro f hf
    split at hf
    · cases hf
    · split at hf
      · cases hf; exact hP (by assumption)
      · cases hf
  · intro a ha
    split at ha
    · cases ha
      rw [usub_ok hle]
      refine ⟨fun f hf => (by cases hf), fun n hn => ?_⟩
      cases hn
      omega
    · split at ha
      · cases ha
      · rename_i h1 h2
        cases ha
        unfold usub
        by_cases hw : roundUp off al < usizeMod
        · rw [Nat.mod_eq_of_lt hw, if_pos hle]
          refine ⟨fun f hf => (by cases hf), fun n hn => ?_⟩
          cases hn; omega
        · have he : roundUp off al % usizeMod = roundUp off al - usizeMod := by
            have : (roundUp off al - usizeMod) < usizeMod := by unfold usizeMod at *; omega
            rw [Nat.mod_eq_sub_mod (by omega), Nat.mod_eq_of_lt this]
          rw [he]
          split
          · refine ⟨fun f hf => (by cases hf), fun n hn => ?_⟩
            cases hn
            omega
          · refine ⟨fun f hf => (by cases hf), fun n hn => ?_⟩
            cases hn
            rw [Nat.mod_eq_of_lt (by omega)]
            omega

theorem mild_padding (w : Writer σ) (hP : c.overflowChecks → P .overflow) {al off : Nat}
    (hal : IsAl al) (ho : off < usizeMod) :
    Mild P (fun _ => True) (writePadding w c al off : WM σ Nat) := by
  obtain ⟨h1, h2⟩ := pad_small (P := P) hP hal ho
  unfold writePadding
  refine Mild.bind (Q := fun a => alignOffset c al off = .ok a) (.lift (fun a ha => ha) h1) fun a ha => ?_
  obtain ⟨h3, h4⟩ := h2 a ha
  refine Mild.bind (Q := (· ≤ 7)) (.lift h4 h3) fun n hn => ?_
  refine Mild.bind (Q := fun _ => True) (.lift (fun _ _ => trivial) ?_) fun z _ => ?_
  · intro f hf; simp [zeroSlice, hn] at hf
  · exact Mild.bind (.write w z) fun _ _ => .pure trivial

theorem mild_offsetLoop (w : Writer σ) (k : Nat) (os : List Nat) :
    Mild P (fun _ => True) (offsetLoop w k os : WM σ Unit) := by
  induction os with
  | nil => exact .pure trivial
  | cons o os ih => exact Mild.bind (.write w _) fun _ _ => ih

theorem mild_writeOffsets (w : Writer σ) (hP : c.overflowChecks → P .overflow) (bw : Nat)
    (offs : List Nat) : Mild P (· < usizeMod) (writeOffsets w c bw offs : WM σ Nat) := by
  unfold writeOffsets
  refine Mild.bind (mild_uadd hP _ _) fun x hx => ?_
  split
  · exact Mild.bind (mild_offsetLoop w 1 offs) fun _ _ => .pure hx
  · refine Mild.bind (mild_umul hP _ _) fun m _ => ?_
    refine Mild.bind (mild_uadd hP _ _) fun x hx => ?_
    split
    · exact Mild.bind (mild_offsetLoop w 2 offs) fun _ _ => .pure hx
    · refine Mild.bind (mild_umul hP _ _) fun m _ => ?_
      refine Mild.bind (mild_uadd hP _ _) fun x hx => ?_
      split
      · exact Mild.bind (mild_offsetLoop w 4 offs) fun _ _ => .pure hx
      · refine Mild.bind (mild_umul hP _ _) fun m _ => ?_
        refine Mild.bind (mild_uadd hP _ _) fun x hx => ?_
        exact Mild.bind (mild_offsetLoop w 8 offs) fun _ _ => .pure hx

theorem mild_fixedLoop (w : Writer σ) (hP : c.overflowChecks → P .overflow) (ms : List (WM σ Nat))
    (h : ∀ m ∈ ms, Mild P (· < usizeMod) m) :
    ∀ bw, bw < usizeMod → Mild P (· < usizeMod) (fixedLoop w c bw ms) := by
  induction ms with
  | nil => exact fun bw hb => .pure hb
  | cons m ms ih =>
    intro bw _
    exact Mild.bind (h m (by simp)) fun n _ => Mild.bind (mild_uadd hP _ _) fun x hx =>
      ih (fun y hy => h y (by simp [hy])) x hx

theorem mild_elemLoop (w : Writer σ) (hP : c.overflowChecks → P .overflow) (e : Ty)
    (ms : List (WM σ Nat)) (h : ∀ m ∈ ms, Mild P (· < usizeMod) m) :
    ∀ bw offs, Mild P (fun _ => True) (elemLoop w c e bw offs ms) := by
  induction ms with
  | nil => exact fun bw offs => .pure trivial
  | cons m ms ih =>
    intro bw offs
    refine Mild.bind (h m (by simp)) fun n _ => Mild.bind (mild_uadd hP _ _) fun x hx => ?_
    have hal : IsAl (alignOf e) := by rw [alignOf_eq]; exact specAlign_isAl e
    obtain ⟨h1, h2⟩ := pad_small (P := P) hP hal hx
    refine Mild.bind (Q := fun a => alignOffset c (alignOf e) x = .ok a) (.lift (fun a ha => ha) h1)
      fun a ha => ?_
    obtain ⟨h3, h4⟩ := h2 a ha
    refine Mild.bind (Q := (· ≤ 7)) (.lift h4 h3) fun n hn => ?_
    refine Mild.bind (Q := fun _ => True) (.lift (fun _ _ => trivial) ?_) fun z _ => ?_
    · intro f hf; simp [zeroSlice, hn] at hf
    · exact Mild.bind (.write w z) fun _ _ => Mild.bind (mild_uadd hP _ _) fun y _ =>
        ih (fun y hy => h y (by simp [hy])) _ _

theorem mild_arrOf (w : Writer σ) (hP : c.overflowChecks → P .overflow) (e : Ty)
    (ms : List (WM σ Nat)) (h : ∀ m ∈ ms, Mild P (· < usizeMod) m) :
    Mild P (· < usizeMod) (arrOf w c e ms) := by
  unfold arrOf
  split
  · exact mild_fixedLoop w hP ms h 0 (by decide)
  · exact Mild.bind (mild_elemLoop w hP e ms h 0 []) fun r _ => mild_writeOffsets w hP r.1 r.2

theorem mild_maybeOf (w : Writer σ) (hP : c.overflowChecks → P .overflow) (e : Ty)
    (o : Option (WM σ Nat)) (h : ∀ m ∈ o, Mild P (· < usizeMod) m) :
    Mild P (· < usizeMod) (maybeOf w c e o) := by
  cases o with
  | none => exact .pure (by decide)
  | some m =>
    simp only [maybeOf]
    split
    · exact h m rfl
    · exact Mild.bind (h m rfl) fun _ _ => Mild.bind (.write w _) fun _ _ => mild_uadd hP _ _

theorem mild_wrapOf (w : Writer σ) (hP : c.overflowChecks → P .overflow) (u : Ty) (m : WM σ Nat)
    (h : Mild P (· < usizeMod) m) : Mild P (· < usizeMod) (wrapOf w c u m) :=
  Mild.bind h fun _ _ => Mild.bind (.write w _) fun _ _ => Mild.bind (.write w _) fun _ _ =>
    Mild.bind (mild_uadd hP _ _) fun _ _ => mild_uadd hP _ _

/-! ### Structures -/

/-- The command refers to existing members and framing offsets. -/
def cmdOk (len nfo : Nat) : Cmd → Prop
  | .child k | .childOff k => k < len
  | .setFrame k => k < nfo
  | .writePadding al => IsAl al
  | _ => True

theorem mild_runCmds (w : Writer σ) (hP : c.overflowChecks → P .overflow) {ms : List (WM σ Nat)}
    (h : ∀ m ∈ ms, Mild P (· < usizeMod) m) {nfo : Nat} (cs : List Cmd)
    (hc : ∀ x ∈ cs, cmdOk ms.length nfo x) :
    ∀ off fr, off < usizeMod → fr.length = nfo →
      Mild P (fun r => r.1 < usizeMod) (runCmds w c ms cs off fr) := by
  induction cs with
  | nil => exact fun off fr ho _ => .pure ho
  | cons x cs ih =>
    intro off fr ho hf
    have ih' := ih fun y hy => hc y (by simp [hy])
    have hx := hc x (by simp)
    cases x with
    | zeros n => exact Mild.bind (.write w _) fun _ _ => ih' off fr ho hf
    | addOff n => exact Mild.bind (mild_uadd hP _ _) fun y hy => ih' y fr hy hf
    | writePadding al =>
      exact Mild.bind (mild_padding w hP hx ho) fun n _ => Mild.bind (mild_uadd hP _ _) fun y hy =>
        ih' y fr hy hf
    | child k =>
      simp only [cmdOk] at hx
      simp only [runCmds, List.getElem?_eq_getElem hx]
      exact Mild.bind (h _ (List.getElem_mem hx)) fun _ _ => ih' off fr ho hf
    | childOff k =>
      simp only [cmdOk] at hx
      simp only [runCmds, List.getElem?_eq_getElem hx]
      exact Mild.bind (h _ (List.getElem_mem hx)) fun _ _ => Mild.bind (mild_uadd hP _ _) fun y hy =>
        ih' y fr hy hf
    | setFrame k =>
      simp only [cmdOk] at hx
      simp only [runCmds, hf, hx, if_true]
      exact ih' off _ ho (by simpa using hf)

theorem packCmds_ok {nfo : Nat} (ts : List Ty) : ∀ n pos len, n + ts.length ≤ len →
    ∀ x ∈ packCmds n pos ts, cmdOk len nfo x := by
  induction ts with
  | nil => simp [packCmds]
  | cons t ts ih =>
    intro n pos len hl x hx
    simp only [List.length_cons] at hl
    simp only [packCmds, List.mem_append, List.mem_cons] at hx
    rcases hx with hx | rfl | hx
    · split at hx
      · simp only [List.mem_cons, List.not_mem_nil, or_false] at hx
        subst hx; trivial
      · simp at hx
    · show n < len; omega
    · exact ih _ _ len (by omega) x hx

theorem serLoop_cmdOk {nfo : Nat} (ts : List Ty) : ∀ n base offset nth len cmds, n + ts.length ≤ len →
    serLoop nfo n base offset nth ts = .ok cmds → ∀ x ∈ cmds, cmdOk len nfo x := by
  induction ts with
  | nil =>
    intro n base offset nth len cmds _ h
    simp only [serLoop, Res.ok.injEq] at h
    subst h; simp
  | cons t ts ih =>
    intro n base offset nth len cmds hl h
    simp only [List.length_cons] at hl
    simp only [serLoop] at h
    have hpre : ∃ pre base' offset', (if alignOf t ≤ base then
          (if align offset (alignOf t) - offset > 0 then
            [Cmd.zeros (align offset (alignOf t) - offset),
              Cmd.addOff (align offset (alignOf t) - offset)] else [], base,
            align offset (alignOf t))
        else ([Cmd.writePadding (alignOf t)], alignOf t, 0)) = (pre, base', offset') ∧
        ∀ x ∈ pre, cmdOk len nfo x := by
      by_cases hle : alignOf t ≤ base
      · refine ⟨_, _, _, if_pos hle, ?_⟩
        intro x hx
        split at hx
        · simp only [List.mem_cons, List.not_mem_nil, or_false] at hx
          rcases hx with rfl | rfl <;> trivial
        · simp at hx
      · refine ⟨_, _, _, if_neg hle, ?_⟩
        intro x hx
        simp only [List.mem_cons, List.not_mem_nil, or_false] at hx
        subst hx
        show IsAl _
        rw [alignOf_eq]; exact specAlign_isAl t
    obtain ⟨pre, base', offset', hp, hpo⟩ := hpre
    rw [hp] at h
    simp only at h
    cases hs : sizeOf t with
    | some k =>
      simp only [hs] at h
      obtain ⟨tl, htl, h⟩ := Res.bind_eq_ok.1 h
      simp only [Res.pure_eq, Res.ok.injEq] at h
      subst h
      intro x hx
      simp only [List.mem_append, List.mem_cons, List.not_mem_nil, or_false] at hx
      rcases hx with (hx | rfl | rfl) | hx
      · exact hpo x hx
      · show n < len; omega
      · trivial
      · exact ih _ _ _ _ len tl (by omega) htl x hx
    | none =>
      simp only [hs] at h
      split at h
      · obtain ⟨tl, htl, h⟩ := Res.bind_eq_ok.1 h
        simp only [Res.pure_eq, Res.ok.injEq] at h
        subst h
        intro x hx
        simp only [List.mem_append, List.mem_cons, List.not_mem_nil, or_false] at hx
        rcases hx with (hx | rfl) | hx
        · exact hpo x hx
        · show n < len; omega
        · exact ih _ _ _ _ len tl (by omega) htl x hx
      · split at h
        · rename_i hn
          obtain ⟨tl, htl, h⟩ := Res.bind_eq_ok.1 h
          simp only [Res.pure_eq, Res.ok.injEq] at h
          subst h
          intro x hx
          simp only [List.mem_append, List.mem_cons, List.not_mem_nil, or_false] at hx
          rcases hx with (hx | rfl | rfl) | hx
          · exact hpo x hx
          · show n < len; omega
          · show nfo - nth - 1 < nfo; omega
          · exact ih _ _ _ _ len tl (by omega) htl x hx
        · cases h

theorem mild_struct (w : Writer σ) (hP : c.overflowChecks → P .overflow) {gv : Ty} {ts : List Ty}
    (hgv : size gv = size (.tuple ts)) (hx : Expands gv) {d : StructDef}
    (hd : generateTuple gv ts = .ok d) {ms : List (WM σ Nat)} (hl : ms.length = ts.length)
    (hz : ∀ n, size gv = some n → n < usizeMod)
    (h : ∀ m ∈ ms, Mild P (· < usizeMod) m) :
    Mild P (· < usizeMod) (serStruct w c gv ts ms) := by
  unfold serStruct
  rw [hd]
  refine Mild.bind (Q := fun x => x = d) (.lift (fun a ha => by cases ha; rfl) (fun f hf => by cases hf)) ?_
  intro d' hd'
  rw [hd']
  clear hd' d'
  cases hs : size gv with
  | some n =>
    obtain ⟨p, hp, rfl⟩ := generateTuple_packed hs hd
    obtain ⟨_, hcm⟩ := writePackedStruct_ok hgv hs hp
    simp only [hcm]
    refine Mild.bind (mild_runCmds w hP h (nfo := 0) _ ?_ 0 [] (by decide) rfl) fun _ _ => ?_
    · intro x hx
      rcases List.mem_append.1 hx with hx | hx
      · exact packCmds_ok ts 0 0 _ (by omega) x hx
      · split at hx
        · simp only [List.mem_cons, List.not_mem_nil, or_false] at hx
          subst hx; trivial
        · simp at hx
    · rw [rustLayout_ok gv n hs hx]
      refine Mild.bind (Q := fun x => x = (n, Spec.align gv)) (.lift (fun a ha => by cases ha; rfl)
        (fun f hf => by cases hf)) ?_
      rintro _ rfl
      exact .pure (hz n hs)
  | none =>
    have : ∃ p, writeNonFixedSizeStructure ts = .ok p ∧ d = ⟨gv, structName gv, ts, .nonFixed p⟩ := by
      unfold generateTuple at hd
      rw [sizeOf_eq, hs] at hd
      simp only [Option.isSome_none, Bool.false_eq_true, if_false] at hd
      obtain ⟨p, hp, hd⟩ := Res.bind_eq_ok.1 hd
      simp at hd
      exact ⟨p, hp, hd.symm⟩
    obtain ⟨p, hp, rfl⟩ := this
    unfold writeNonFixedSizeStructure at hp
    obtain ⟨cmds, hc, hp⟩ := Res.bind_eq_ok.1 hp
    simp only [Res.pure_eq, Res.ok.injEq] at hp
    subst hp
    exact Mild.bind (mild_runCmds w hP h (nfo := nFrameOffsets ts) cmds
      (serLoop_cmdOk ts 0 8 0 0 _ cmds (by omega) hc) 0 _ (by decide) (by simp)) fun r _ =>
        mild_writeOffsets w hP r.1 r.2

end GV
