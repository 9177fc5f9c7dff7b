import Verif.Model.Ser
import Verif.Proofs.EncLen
import Verif.Proofs.Generate
import Verif.Proofs.View
/-
What the serializer writes: for every writer, a sequence of `write_all` calls that together are the
encoding, up to the first error.
-/
namespace GV
open Spec

variable {σ α β : Type}

/-! ### Traces -/

/-- Call `write_all` on each piece until one fails. -/
def runAll (w : Writer σ) : List Bytes → Sink σ → Sink σ × Option Nat
  | [], s => (s, none)
  | b :: bs, s =>
    match w.writeAll s.st b with
    | (st, none) => runAll w bs ⟨st, s.got ++ b⟩
    | (st, some (k, e)) => (⟨st, s.got ++ b.take k⟩, some e)

/-- `m` does nothing but write these pieces, and then results in `r`. -/
def Tr (w : Writer σ) (m : WM σ α) (ws : List Bytes) (r : Out α) : Prop :=
  ∀ s, m s = match runAll w ws s with
    | (s', none) => (s', r)
    | (s', some e) => (s', .io e)

theorem runAll_append (w : Writer σ) (as bs : List Bytes) : ∀ s, runAll w (as ++ bs) s =
    match runAll w as s with
    | (s', none) => runAll w bs s'
    | (s', some e) => (s', some e) := by
  induction as with
  | nil => intro s; rfl
  | cons a as ih =>
    intro s
    simp only [List.cons_append, runAll]
    rcases w.writeAll s.st a with ⟨st, _ | ⟨k, e⟩⟩
    · exact ih _
    · rfl

theorem Tr.bind {w : Writer σ} {m : WM σ α} {f : α → WM σ β} {ws ws' : List Bytes} {a : α}
    {r : Out β} (h : Tr w m ws (.ok a)) (h' : Tr w (f a) ws' r) : Tr w (m >>= f) (ws ++ ws') r := by
  intro s
  rw [runAll_append]
  show WM.bind m f s = _
  unfold WM.bind
  rw [h s]
  rcases runAll w ws s with ⟨s', _ | e⟩
  · exact h' s'
  · rfl

theorem Tr.bind_bad {w : Writer σ} {m : WM σ α} {f : α → WM σ β} {ws : List Bytes}
    (h : Tr w m ws .badInput) : Tr w (m >>= f) ws .badInput := by
  intro s
  show WM.bind m f s = _
  unfold WM.bind
  rw [h s]
  rcases runAll w ws s with ⟨s', _ | e⟩ <;> rfl

theorem Tr.write (w : Writer σ) (b : Bytes) : Tr w (WM.write w b) [b] (.ok ()) := by
  intro s
  unfold WM.write
  simp only [runAll]
  rcases w.writeAll s.st b with ⟨st, _ | ⟨k, e⟩⟩ <;> rfl

theorem Tr.pure (w : Writer σ) (a : α) : Tr w (pure a : WM σ α) [] (.ok a) := fun _ => rfl

theorem Tr.lift (w : Writer σ) {r : Res α} {a : α} (h : r = .ok a) :
    Tr w (WM.lift r : WM σ α) [] (.ok a) := by subst h; exact fun _ => rfl

/-- Unless `bad`, `m` writes `b` and returns `a`; if `bad`, it writes only a beginning of `b` and
    returns an `InvalidInput` error. -/
def Half (w : Writer σ) (bad : Prop) (m : WM σ α) (b : Bytes) (a : α) : Prop :=
  (¬ bad ∧ ∃ ws, ws.flatten = b ∧ Tr w m ws (.ok a)) ∨
  (bad ∧ ∃ ws, ws.flatten <+: b ∧ Tr w m ws .badInput)

theorem Half.congr {w : Writer σ} {bad bad' : Prop} {m : WM σ α} {b b' : Bytes} {a a' : α}
    (h : Half w bad m b a) (h1 : bad ↔ bad') (h2 : b = b') (h3 : a = a') : Half w bad' m b' a' := by
  subst h2; subst h3
  unfold Half
  rw [← h1]; exact h

theorem Half.bind {w : Writer σ} {bad bad' : Prop} {m : WM σ α} {f : α → WM σ β} {b b' : Bytes}
    {a : α} {a' : β} (h : Half w bad m b a) (h' : Half w bad' (f a) b' a') :
    Half w (bad ∨ bad') (m >>= f) (b ++ b') a' := by
  rcases h with ⟨hb, ws, rfl, ht⟩ | ⟨hb, ws, hp, ht⟩
  · rcases h' with ⟨hb', ws', rfl, ht'⟩ | ⟨hb', ws', hp', ht'⟩
    · exact .inl ⟨by simp [hb, hb'], ws ++ ws', by simp, ht.bind ht'⟩
    · refine .inr ⟨.inr hb', ws ++ ws', ?_, ht.bind ht'⟩
      rw [List.flatten_append]
      exact (List.prefix_append_right_inj _).2 hp'
  · exact .inr ⟨.inl hb, ws, hp.trans (List.prefix_append _ _), ht.bind_bad⟩

theorem Half.pure {w : Writer σ} {a : α} : Half w False (Pure.pure a : WM σ α) [] a :=
  .inl ⟨id, [], rfl, Tr.pure w a⟩

theorem Half.lift_end {w : Writer σ} {r : Res α} {a : α} (h : r = .ok a) :
    Half w False (WM.lift r) [] a := .inl ⟨id, [], rfl, Tr.lift w h⟩

theorem Half.lift {w : Writer σ} {bad : Prop} {r : Res α} {x : α} {f : α → WM σ β} {b : Bytes} {a : β}
    (hr : r = .ok x) (h : Half w bad (f x) b a) : Half w bad (WM.lift r >>= f) b a :=
  ((Half.lift_end hr).bind h).congr (by simp) (by simp) rfl

theorem Half.write {w : Writer σ} {bad : Prop} {p b : Bytes} {f : Unit → WM σ β} {a : β}
    (h : Half w bad (f ()) b a) : Half w bad (WM.write w p >>= f) (p ++ b) a :=
  ((show Half w False (WM.write w p) p () from .inl ⟨id, [p], by simp, Tr.write w p⟩).bind h).congr
    (by simp) rfl rfl

theorem Half.then_pure {w : Writer σ} {bad : Prop} {m : WM σ α} {b : Bytes} {a : α} {r : α → β}
    (h : Half w bad m b a) : Half w bad (m >>= fun x => Pure.pure (r x)) b (r a) :=
  (h.bind (.pure (a := r a))).congr (by simp) (by simp) rfl

theorem Half.write_end {w : Writer σ} {b : Bytes} : Half w False (WM.write w b) b () :=
  .inl ⟨id, [b], by simp, Tr.write w b⟩

/-! ### Padding and framing offsets -/

theorem toLe_eq (w n : Nat) : toLe w n = leBytes w n := by
  induction w generalizing n with
  | zero => rfl
  | succ w ih => simp [toLe, leBytes, ih]

theorem toNe_eq (c : Cfg) (w n : Nat) : toNe c w n = numBytes c.bigEndian w n := by
  simp [toNe, numBytes, toLe_eq]

theorem leBytes_mod (w n : Nat) : leBytes w (n % 256 ^ w) = leBytes w n := by
  induction w generalizing n with
  | zero => rfl
  | succ w ih =>
    simp only [leBytes]
    have h1 : n % 256 ^ (w + 1) % 256 = n % 256 := by
      rw [Nat.pow_succ, Nat.mul_comm, Nat.mod_mul_right_mod]
    have h2 : n % 256 ^ (w + 1) / 256 = n / 256 % 256 ^ w := by
      rw [Nat.pow_succ, Nat.mul_comm, Nat.mod_mul_right_div_self]
    rw [h1, h2, ih]

theorem padding_ok {al n : Nat} (h : IsAl al) : roundUp n al - n ≤ 7 := by
  have := roundUp_lt h.pos n
  rcases h with rfl | rfl | rfl | rfl <;> omega

theorem roundUp_bound {al n m : Nat} (h : IsAl al) (hn : n < 2 ^ 63) (hm : roundUp n al = m) :
    m < usizeMod := by
  have := roundUp_lt h.pos n
  unfold usizeMod
  rcases h with rfl | rfl | rfl | rfl <;> omega

theorem writePadding_half {w : Writer σ} {c : Cfg} {al off : Nat} (h : IsAl al) (ho : off < 2 ^ 63) :
    Half w False (writePadding w c al off) (zeros (roundUp off al - off)) (roundUp off al - off) := by
  have hle := le_roundUp h.pos off
  unfold writePadding
  refine .lift (alignOffset_ok h (by unfold usizeMod; rcases h with rfl | rfl | rfl | rfl <;> omega)) ?_
  refine .lift (usub_ok hle) ?_
  refine .lift (x := zeros (roundUp off al - off)) (by simp [zeroSlice, padding_ok h, zeros]) ?_
  exact Half.write_end.then_pure

theorem offsetLoop_half {w : Writer σ} (k : Nat) (offs : List Nat) :
    Half w False (offsetLoop w k offs) ((offs.map (leBytes k)).flatten) () := by
  induction offs with
  | nil => exact .pure
  | cons o os ih =>
    rw [offsetLoop, toLe_eq, leBytes_mod]
    exact .write ih

theorem frameWidth_eq (body n : Nat) : frameWidth body n =
    if body + n ≤ 0xff then 1 else if body + n * 2 ≤ 0xffff then 2
    else if body + n * 4 ≤ 0xffffffff then 4 else 8 := by
  have key : ∀ {x w : Nat}, w = 1 ∨ w = 2 ∨ w = 4 → (offsetWidth x ≤ w ↔ x < 256 ^ w) := by
    intro x w hw
    unfold offsetWidth
    rcases hw with rfl | rfl | rfl <;> simp only [Nat.reducePow] <;> repeat' split
    all_goals omega
  have k1 := key (x := body + n * 1) (.inl rfl)
  have k2 := key (x := body + n * 2) (.inr (.inl rfl))
  have k4 := key (x := body + n * 4) (.inr (.inr rfl))
  simp only [Nat.mul_one, Nat.reducePow] at k1 k2 k4
  unfold frameWidth
  simp only [List.find?_cons, List.find?_nil, Nat.mul_one]
  by_cases h1 : body + n ≤ 255
  · rw [if_pos h1, decide_eq_true (k1.2 (by omega))]; rfl
  · rw [if_neg h1, decide_eq_false (fun h => h1 (by have := k1.1 h; omega))]
    by_cases h2 : body + n * 2 ≤ 65535
    · rw [if_pos h2, decide_eq_true (k2.2 (by omega))]; rfl
    · rw [if_neg h2, decide_eq_false (fun h => h2 (by have := k2.1 h; omega))]
      by_cases h4 : body + n * 4 ≤ 4294967295
      · rw [if_pos h4, decide_eq_true (k4.2 (by omega))]; rfl
      · rw [if_neg h4, decide_eq_false (fun h => h4 (by have := k4.1 h; omega))]; rfl

theorem writeOffsets_half {w : Writer σ} {c : Cfg} {body : Nat} {offs : List Nat}
    (h : body + (frames body offs).length < 2 ^ 64) :
    Half w False (writeOffsets w c body offs) (frames body offs)
      (body + (frames body offs).length) := by
  rw [frames_length] at h ⊢
  rw [frames]
  have hw := frameWidth_eq body offs.length
  generalize frameWidth body offs.length = k at *
  unfold writeOffsets
  have hn : body + offs.length < usizeMod := by
    unfold usizeMod
    have : offs.length ≤ offs.length * k :=
      Nat.le_mul_of_pos_right _ (by rw [hw]; (repeat' split) <;> decide)
    omega
  refine .lift (uadd_ok hn) ?_
  by_cases h1 : body + offs.length ≤ 0xff
  · rw [if_pos h1] at hw ⊢
    subst hw
    exact (offsetLoop_half 1 offs).then_pure.congr Iff.rfl rfl (by simp)
  · rw [if_neg h1] at hw ⊢
    by_cases h2 : body + offs.length * 2 ≤ 0xffff
    · rw [if_pos h2] at hw
      subst hw
      refine .lift (umul_ok (by unfold usizeMod; omega)) ?_
      refine .lift (uadd_ok (by unfold usizeMod; omega)) ?_
      rw [if_pos h2]
      exact (offsetLoop_half 2 offs).then_pure
    · rw [if_neg h2] at hw
      have hk : offs.length * 4 ≤ offs.length * k :=
        Nat.mul_le_mul_left _ (by rw [hw]; split <;> decide)
      refine .lift (umul_ok (by unfold usizeMod; omega)) ?_
      refine .lift (uadd_ok (by unfold usizeMod; omega)) ?_
      rw [if_neg h2]
      refine .lift (umul_ok (by unfold usizeMod; omega)) ?_
      refine .lift (uadd_ok (by unfold usizeMod; omega)) ?_
      by_cases h4 : body + offs.length * 4 ≤ 0xffffffff
      · rw [if_pos h4] at hw ⊢
        subst hw
        exact (offsetLoop_half 4 offs).then_pure
      · rw [if_neg h4] at hw ⊢
        subst hw
        refine .lift (umul_ok (by unfold usizeMod; omega)) ?_
        refine .lift (uadd_ok (by unfold usizeMod; omega)) ?_
        exact (offsetLoop_half 8 offs).then_pure

/-! ### Structures -/

/-- What is known of a member: type, encoding, whether its serializer fails, and the serializer. -/
structure Member (σ : Type) where
  t : Ty
  b : Bytes
  bad : Prop
  m : WM σ Nat

/-- The member's serializer does what is expected. -/
def Member.Good (w : Writer σ) (x : Member σ) : Prop :=
  Half w x.bad x.m x.b x.b.length ∧ ∀ n, size x.t = some n → x.b.length = n

/-- One of the serializers fails. -/
def anyBad (L : List (Member σ)) : Prop := ∃ x ∈ L, x.bad

theorem anyBad_cons {x : Member σ} {L : List (Member σ)} : anyBad (x :: L) ↔ x.bad ∨ anyBad L := by
  simp [anyBad]

/-- Types and encodings. -/
def pairs (L : List (Member σ)) : List (Ty × Bytes) := L.map fun x => (x.t, x.b)

theorem runCmds_zeros {w : Writer σ} {c : Cfg} {ms : List (WM σ Nat)} {n : Nat} {cs : List Cmd}
    {off : Nat} {fr : List Nat} {bad : Prop} {b : Bytes} {r : Nat × List Nat}
    (h : Half w bad (runCmds w c ms cs off fr) b r) :
    Half w bad (runCmds w c ms ((if n > 0 then [Cmd.zeros n] else []) ++ cs) off fr) (zeros n ++ b) r := by
  split
  · simp only [List.cons_append, List.nil_append, runCmds]
    exact .write h
  · have : n = 0 := by omega
    subst this; simpa [zeros] using h

theorem packCmds_half {w : Writer σ} {c : Cfg} {ms : List (WM σ Nat)} {tl : List Cmd} {badT : Prop}
    {bT : Bytes} {off : Nat} {fr : List Nat} {r : Nat × List Nat}
    (hT : Half w badT (runCmds w c ms tl off fr) bT r) (L : List (Member σ)) :
    ∀ n pos, ms.drop n = L.map (·.m) → (∀ x ∈ L, x.Good w) → (∀ x ∈ L, (size x.t).isSome) →
    Half w (anyBad L ∨ badT) (runCmds w c ms (packCmds n pos (L.map (·.t)) ++ tl) off fr)
      (laid pos (pairs L) ++ bT) r := by
  induction L with
  | nil => intro n pos _ _ _; exact hT.congr (by simp [anyBad]) (by simp [laid, pairs]) rfl
  | cons x L ih =>
    intro n pos hd hg hs
    have hk : ms[n]? = some x.m := by
      have := congrArg (·[0]?) hd
      simpa using this
    obtain ⟨k, hk'⟩ := Option.isSome_iff_exists.1 (hs x (by simp))
    have hx := hg x (by simp)
    have hlen := hx.2 k hk'
    have ih' := ih (n + 1) (roundUp pos (Spec.align x.t) + x.b.length)
      (by have := congrArg (List.drop 1) hd
          simpa [List.drop_drop] using this)
      (fun y hy => hg y (by simp [hy])) (fun y hy => hs y (by simp [hy]))
    simp only [List.map_cons, packCmds, hk', Option.getD_some, List.append_assoc, List.cons_append]
    rw [← hlen]
    have h1 : Half w (x.bad ∨ (anyBad L ∨ badT)) (runCmds w c ms
        (.child n :: (packCmds (n + 1) (roundUp pos (Spec.align x.t) + x.b.length) (L.map (·.t)) ++ tl))
        off fr) (x.b ++ (laid (roundUp pos (Spec.align x.t) + x.b.length) (pairs L) ++ bT)) r := by
      rw [runCmds, hk]
      exact hx.1.bind ih'
    refine (runCmds_zeros h1).congr ?_ ?_ rfl
    · rw [anyBad_cons, or_assoc]
    · simp [pairs, laid]

theorem serLoop_half {w : Writer σ} {c : Cfg} {ms : List (WM σ Nat)} {nfo : Nat}
    (L : List (Member σ)) : ∀ (n base offset nth off : Nat) (done : List Nat) (cmds : List Cmd),
    ms.drop n = L.map (·.m) → (∀ x ∈ L, x.Good w) → IsAl base → base ∣ off - offset → offset ≤ off →
    nth + framesLeft (L.map (·.t)) = nfo → done.length = nth →
    serLoop nfo n base offset nth (L.map (·.t)) = .ok cmds →
    off + (laid off (pairs L)).length < 2 ^ 63 →
    Half w (anyBad L) (runCmds w c ms cmds off (List.replicate (nfo - nth) 0 ++ done))
      (laid off (pairs L))
      (off + (laid off (pairs L)).length, (frameEnds off (pairs L)).reverse ++ done) := by
  induction L with
  | nil =>
    intro n base offset nth off done cmds _ _ _ _ _ hf _ hc _
    simp only [List.map_nil, serLoop, Res.ok.injEq] at hc
    subst hc
    simp only [List.map_nil, framesLeft, Nat.add_zero] at hf
    subst hf
    exact Half.pure.congr (by simp [anyBad]) (by simp [pairs, laid]) (by simp [pairs, laid, frameEnds])
  | cons x L ih =>
    intro n base offset nth off done cmds hd hg hb hdv hle hf hdl hc hlt
    have hk : ms[n]? = some x.m := by
      have := congrArg (·[0]?) hd
      simpa using this
    have hd' : ms.drop (n + 1) = L.map (·.m) := by
      have := congrArg (List.drop 1) hd
      simpa [List.drop_drop] using this
    have hg' : ∀ y ∈ L, y.Good w := fun y hy => hg y (by simp [hy])
    have hx := hg x (by simp)
    have hal := specAlign_isAl x.t
    have hpos := le_roundUp hal.pos off
    have hlen : off + (laid off (pairs (x :: L))).length =
        (roundUp off (Spec.align x.t) + x.b.length) +
          (laid (roundUp off (Spec.align x.t) + x.b.length) (pairs L)).length :=
      laid_cons_length off x.t x.b (pairs L)
    simp only [List.map_cons, serLoop, alignOf_eq, sizeOf_eq] at hc
    -- the padding commands bring `off` to the start of the member
    have hpad : ∃ pre base' offset', (if Spec.align x.t ≤ base then
          (if align offset (Spec.align x.t) - offset > 0 then
            [Cmd.zeros (align offset (Spec.align x.t) - offset),
              Cmd.addOff (align offset (Spec.align x.t) - offset)] else [], base,
            align offset (Spec.align x.t))
        else ([Cmd.writePadding (Spec.align x.t)], Spec.align x.t, 0)) = (pre, base', offset') ∧
        IsAl base' ∧ base' ∣ roundUp off (Spec.align x.t) - offset' ∧
        offset' ≤ roundUp off (Spec.align x.t) ∧
        ∀ {bad b r cs fr}, Half w bad (runCmds w c ms cs (roundUp off (Spec.align x.t)) fr) b r →
          Half w bad (runCmds w c ms (pre ++ cs) off fr)
            (zeros (roundUp off (Spec.align x.t) - off) ++ b) r := by
      by_cases hle' : Spec.align x.t ≤ base
      · have hdiv := hal.dvd hb hle'
        have hr : roundUp off (Spec.align x.t) = (off - offset) + roundUp offset (Spec.align x.t) := by
          have h1 := roundUp_add_dvd (m := offset) hal.pos (Nat.dvd_trans hdiv hdv)
          rwa [Nat.sub_add_cancel hle] at h1
        have hro := le_roundUp hal.pos offset
        refine ⟨_, _, _, if_pos hle', hb, ?_, ?_, ?_⟩
        · rw [align_eq hal, hr, Nat.add_sub_cancel]; exact hdv
        · rw [align_eq hal]; omega
        · intro bad b r cs fr h
          rw [align_eq hal]
          have hp : roundUp offset (Spec.align x.t) - offset = roundUp off (Spec.align x.t) - off := by
            omega
          rw [hp]
          split
          · simp only [List.cons_append, List.nil_append, runCmds]
            refine .write ?_
            refine .lift (x := roundUp off (Spec.align x.t)) ?_ h
            have he : off + (roundUp off (Spec.align x.t) - off) = roundUp off (Spec.align x.t) := by
              omega
            rw [uadd_ok (by unfold usizeMod; omega), he]
          · have h0 : roundUp off (Spec.align x.t) - off = 0 := by omega
            have he : roundUp off (Spec.align x.t) = off := by omega
            rw [h0]; rw [he] at h; simpa [zeros] using h
      · refine ⟨_, _, _, if_neg hle', hal, roundUp_dvd _ _, Nat.zero_le _, ?_⟩
        intro bad b r cs fr h
        simp only [List.cons_append, List.nil_append, runCmds]
        refine ((writePadding_half hal (by omega)).bind (?_ : Half w bad _ b r)).congr (by simp) rfl rfl
        refine .lift (x := roundUp off (Spec.align x.t)) ?_ h
        have he : off + (roundUp off (Spec.align x.t) - off) = roundUp off (Spec.align x.t) := by omega
        rw [uadd_ok (by unfold usizeMod; omega), he]
    obtain ⟨pre, base', offset', hpre, hb', hdv', hle2, hrun⟩ := hpad
    rw [hpre] at hc
    simp only at hc
    have hL : (L.map (·.t)).isEmpty = L.isEmpty := by cases L <;> rfl
    simp only [List.map_cons, framesLeft] at hf
    rw [hlen]
    cases hs : size x.t with
    | some k =>
      have hxl := hx.2 k hs
      simp only [hs] at hc
      rw [Res.bind_eq_ok] at hc
      obtain ⟨tl, htl, hc⟩ := hc
      simp only [Res.pure_eq, Res.ok.injEq] at hc
      subst hc
      simp only [hs, Option.isNone_some, Bool.false_eq_true, false_and, if_false, Nat.zero_add] at hf
      have ih' := ih (n + 1) base' (offset' + k) nth (roundUp off (Spec.align x.t) + x.b.length) done tl
        hd' hg' hb' (by rw [hxl, Nat.add_sub_add_right]; exact hdv') (by omega) hf hdl htl (by omega)
      have hstep : Half w (x.bad ∨ anyBad L) (runCmds w c ms ([.child n, .addOff k] ++ tl)
          (roundUp off (Spec.align x.t)) (List.replicate (nfo - nth) 0 ++ done))
          (x.b ++ laid (roundUp off (Spec.align x.t) + x.b.length) (pairs L))
          (roundUp off (Spec.align x.t) + x.b.length +
            (laid (roundUp off (Spec.align x.t) + x.b.length) (pairs L)).length,
            (frameEnds (roundUp off (Spec.align x.t) + x.b.length) (pairs L)).reverse ++ done) := by
        simp only [List.cons_append, List.nil_append, runCmds, hk]
        refine hx.1.bind ?_
        refine .lift (x := roundUp off (Spec.align x.t) + x.b.length) ?_ ih'
        rw [← hxl, uadd_ok (by unfold usizeMod; omega)]
      rw [List.append_assoc]
      refine (hrun hstep).congr anyBad_cons.symm ?_ ?_
      · simp [pairs, laid]
      · simp [pairs, frameEnds, hs]
    | none =>
      simp only [hs, hL] at hc
      cases hLe : L with
      | nil =>
        subst hLe
        simp only [List.isEmpty_nil, if_true, List.map_nil, serLoop, Res.bind_ok, Res.pure_eq,
          Res.ok.injEq] at hc
        subst hc
        simp only [List.map_nil, ne_eq, not_true_eq_false, and_false, if_false, framesLeft,
          Nat.add_zero] at hf
        subst hf
        have hstep : Half w (x.bad ∨ False) (runCmds w c ms ([.childOff n] ++ [])
            (roundUp off (Spec.align x.t)) (List.replicate (nth - nth) 0 ++ done))
            (x.b ++ []) (roundUp off (Spec.align x.t) + x.b.length, done) := by
          simp only [List.cons_append, List.nil_append, runCmds, hk]
          refine hx.1.bind ?_
          rw [hlen] at hlt
          refine .lift (uadd_ok (by unfold usizeMod; omega)) ?_
          simpa using Half.pure
        rw [List.append_assoc]
        refine (hrun hstep).congr ?_ ?_ ?_
        · rw [anyBad_cons]; simp [anyBad]
        · simp [pairs, laid]
        · simp [pairs, frameEnds, laid]
      | cons y L' =>
        rw [← hLe]
        have hne : L ≠ [] := by rw [hLe]; simp
        have hemp : L.isEmpty = false := by rw [hLe]; rfl
        simp only [hemp, Bool.false_eq_true, if_false] at hc
        have hone : (if (size x.t).isNone ∧ L.map (·.t) ≠ [] then 1 else 0) = 1 := by
          simp [hs, hne]
        rw [hone] at hf
        rw [if_pos (by omega)] at hc
        rw [Res.bind_eq_ok] at hc
        obtain ⟨tl, htl, hc⟩ := hc
        simp only [Res.pure_eq, Res.ok.injEq] at hc
        subst hc
        have ih' := ih (n + 1) 1 0 (nth + 1) (roundUp off (Spec.align x.t) + x.b.length)
          ((roundUp off (Spec.align x.t) + x.b.length) :: done) tl hd' hg' (.inl rfl)
          (Nat.one_dvd _) (Nat.zero_le _) (by omega) (by simp [hdl]) htl (by omega)
        have hset : (List.replicate (nfo - nth) 0 ++ done).set (nfo - nth - 1)
            (roundUp off (Spec.align x.t) + x.b.length) =
            List.replicate (nfo - (nth + 1)) 0 ++
              ((roundUp off (Spec.align x.t) + x.b.length) :: done) := by
          have h1 : nfo - nth = (nfo - (nth + 1)) + 1 := by omega
          rw [h1, List.replicate_succ', Nat.add_sub_cancel, List.append_assoc]
          rw [List.set_append_right _ _ (by simp)]
          simp
        have hstep : Half w (x.bad ∨ anyBad L)
            (runCmds w c ms ([.childOff n, .setFrame (nfo - nth - 1)] ++ tl)
              (roundUp off (Spec.align x.t)) (List.replicate (nfo - nth) 0 ++ done))
            (x.b ++ laid (roundUp off (Spec.align x.t) + x.b.length) (pairs L))
            (roundUp off (Spec.align x.t) + x.b.length +
              (laid (roundUp off (Spec.align x.t) + x.b.length) (pairs L)).length,
              (frameEnds (roundUp off (Spec.align x.t) + x.b.length) (pairs L)).reverse ++
                ((roundUp off (Spec.align x.t) + x.b.length) :: done)) := by
          simp only [List.cons_append, List.nil_append, runCmds, hk]
          refine hx.1.bind ?_
          refine .lift (uadd_ok (by unfold usizeMod; omega)) ?_
          rw [if_pos (by simp; omega), hset]
          exact ih'
        rw [List.append_assoc]
        refine (hrun hstep).congr anyBad_cons.symm ?_ ?_
        · simp [pairs, laid]
        · have hpne : pairs L ≠ [] := by simp [pairs, hne]
          have : pairs (x :: L) = (x.t, x.b) :: pairs L := rfl
          rw [this]
          simp [frameEnds, hs, hpne]

theorem serStruct_half {w : Writer σ} {c : Cfg} {gv : Ty} {L : List (Member σ)}
    (hgv : size gv = size (.tuple (L.map (·.t)))) (hx : Expands gv) {d : StructDef}
    (hd : generateTuple gv (L.map (·.t)) = .ok d) (hg : ∀ x ∈ L, x.Good w)
    (hlt : (encStruct (size gv) (pairs L)).length < 2 ^ 63) :
    Half w (anyBad L) (serStruct w c gv (L.map (·.t)) (L.map (·.m))) (encStruct (size gv) (pairs L))
      (encStruct (size gv) (pairs L)).length := by
  have ht : (pairs L).map (·.1) = L.map (·.t) := by simp [pairs]
  unfold serStruct
  refine .lift hd ?_
  cases hs : size gv with
  | some n =>
    obtain ⟨p, hp, rfl⟩ := generateTuple_packed hs hd
    obtain ⟨_, hcm⟩ := writePackedStruct_ok hgv hs hp
    simp only [hcm]
    have hfl := encStruct_fixed_length (ms := pairs L) ht (by
      intro m hm k hk
      obtain ⟨x, hxm, rfl⟩ := List.mem_map.1 hm
      exact (hg x hxm).2 k hk) (hgv ▸ hs)
    rw [hfl.1]
    have hall : ∀ x ∈ L, (size x.t).isSome := by
      intro x hxm
      have := hfl.2.1 (x.t, x.b) (List.mem_map.2 ⟨x, hxm, rfl⟩)
      simp only at this
      simp [this]
    have hend := laid_fixed_length hfl.2.1 0
    rw [ht, Nat.zero_add] at hend
    have hT : Half w False (runCmds w c (L.map (·.m))
        (if tailPad (L.map (·.t)) n > 0 then [Cmd.zeros (tailPad (L.map (·.t)) n)] else []) 0 [])
        (zeros (n - (laid 0 (pairs L)).length)) (0, []) := by
      have := runCmds_zeros (w := w) (c := c) (ms := L.map (·.m)) (n := tailPad (L.map (·.t)) n)
        (cs := []) (off := 0) (fr := []) (by rw [runCmds]; exact Half.pure)
      simpa [tailPad, hend] using this
    have hrun := packCmds_half hT L 0 0 (by simp) hg hall
    refine (hrun.bind (b' := []) (a' := n) (bad' := False) ?_).congr (by simp) (by simp [encStruct]) rfl
    exact .lift (rustLayout_ok gv n hs hx) .pure
  | none =>
    have : ∃ p, writeNonFixedSizeStructure (L.map (·.t)) = .ok p ∧
        d = ⟨gv, structName gv, L.map (·.t), .nonFixed p⟩ := by
      unfold generateTuple at hd
      rw [sizeOf_eq, hs] at hd
      simp only [Option.isSome_none, Bool.false_eq_true, if_false] at hd
      rw [Res.bind_eq_ok] at hd
      obtain ⟨p, hp, hd⟩ := hd
      simp at hd
      exact ⟨p, hp, hd.symm⟩
    obtain ⟨p, hp, rfl⟩ := this
    unfold writeNonFixedSizeStructure at hp
    rw [Res.bind_eq_ok] at hp
    obtain ⟨cmds, hc, hp⟩ := hp
    simp only [Res.pure_eq, Res.ok.injEq] at hp
    subst hp
    simp only [hs, encStruct, List.length_append] at hlt
    have hrun := serLoop_half (w := w) (c := c) (ms := L.map (·.m)) L 0 8 0 0 0 [] cmds (by simp) hg
      isAl8 (Nat.dvd_zero _) (Nat.le_refl _) (by rw [nFrameOffsets_eq]; omega) rfl hc (by omega)
    simp only [Nat.sub_zero, List.append_nil, Nat.zero_add] at hrun
    refine (hrun.bind (writeOffsets_half (by simp only; omega))).congr (by simp) (by simp [encStruct])
      (by simp [encStruct])

end GV
