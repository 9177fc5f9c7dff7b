import Verif.Proofs.Layout
/- The addressing table (C09) and the packed struct generator (C07). -/
namespace GV

/-- What a table row means at run time: `align::<B>(frame_offset + a) + c`. -/
def rowStart (frame : Int → Nat) (r : Row) : Nat := Spec.roundUp (frame r.i + r.a) r.b + r.c

/-- `frame_offset[i]` for the table's `i`: 0 before the first framing offset. -/
def frameAt (ends : Nat → Nat) (i : Int) : Nat := if i < 0 then 0 else ends i.toNat

theorem tableLoop_start (ends : Nat → Nat) (ts : List Ty) : ∀ (k a b c : Nat), IsAl b →
    (tableLoop ⟨(k : Int) - 1, a, b, c⟩ ts).map (rowStart (frameAt ends)) =
    Spec.memberStarts ends (Spec.roundUp (frameAt ends ((k : Int) - 1) + a) b + c) k ts := by
  induction ts with
  | nil => intro k a b c _; simp [tableLoop, Spec.memberStarts]
  | cons t ts ih =>
    intro k a b c hb
    have hal := specAlign_isAl t
    -- the new state describes the start of `t`
    have key : ∃ a' b' c', IsAl b' ∧
        (if alignOf t ≤ b then (⟨(k : Int) - 1, a, b, align c (alignOf t)⟩ : Row)
          else ⟨(k : Int) - 1, a + align c b, alignOf t, 0⟩) = ⟨(k : Int) - 1, a', b', c'⟩ ∧
        Spec.roundUp (frameAt ends ((k : Int) - 1) + a') b' + c' =
          Spec.roundUp (Spec.roundUp (frameAt ends ((k : Int) - 1) + a) b + c) (Spec.align t) := by
      rw [alignOf_eq]
      by_cases hle : Spec.align t ≤ b
      · refine ⟨a, b, Spec.roundUp c (Spec.align t), hb, ?_, ?_⟩
        · simp [hle, align_eq hal]
        · rw [roundUp_add_dvd hal.pos (Nat.dvd_trans (hal.dvd hb hle) (roundUp_dvd _ _))]
      · refine ⟨a + Spec.roundUp c b, Spec.align t, 0, hal, ?_, ?_⟩
        · simp [hle, align_eq hb]
        · have hd : b ∣ Spec.align t := hb.dvd hal (by omega)
          rw [← roundUp_roundUp (n := _ + c) hb.pos hal.pos hd,
            roundUp_add_dvd hb.pos (roundUp_dvd _ _), ← Nat.add_assoc, Nat.add_zero,
            ← roundUp_roundUp (n := _ + Spec.roundUp c b) hb.pos hal.pos hd,
            Nat.add_comm _ (Spec.roundUp c b), roundUp_add_dvd hb.pos (roundUp_dvd _ _),
            Nat.add_comm (Spec.roundUp c b)]
    obtain ⟨a', b', c', hb', hst, hpos⟩ := key
    simp only [tableLoop, hst, List.map_cons, Spec.memberStarts]
    rw [List.cons.injEq]
    refine ⟨by simpa [rowStart] using hpos, ?_⟩
    rw [sizeOf_eq]
    cases Spec.size t with
    | some n =>
      have := ih k a' b' (c' + n) hb'
      simp only [this, ← hpos, Nat.add_assoc]
    | none =>
      have hk : (k : Int) - 1 + 1 = ((k + 1 : Nat) : Int) - 1 := by omega
      have := ih (k + 1) 0 1 0 (Or.inl rfl)
      simp only [hk, this]
      congr 1
      have h0 : ¬ ((k + 1 : Nat) : Int) - 1 < 0 := by omega
      have h1 : (((k + 1 : Nat) : Int) - 1).toNat = k := by omega
      simp only [frameAt, h0, if_false, h1, Spec.roundUp]
      omega

/-- Postconditions of `generate_table` (generate_impl.rs:365-367). -/
theorem tableLoop_aligned (ts : List Ty) : ∀ (st : Row), IsAl st.b →
    (tableLoop st ts).length = ts.length ∧
    ∀ p ∈ ts.zip (tableLoop st ts), IsAl p.2.b ∧ alignOf p.1 ≤ p.2.b ∧ alignOf p.1 ∣ p.2.c := by
  induction ts with
  | nil => intro st _; simp [tableLoop]
  | cons t ts ih =>
    intro st hb
    have hal := alignOf_isAl t
    simp only [tableLoop, List.length_cons, List.zip_cons_cons, List.mem_cons]
    constructor
    · split
      · rw [(ih _ (by simp only; split <;> assumption)).1]
      · rw [(ih _ (Or.inl rfl)).1]
    · rintro p (rfl | hp)
      · simp only
        split
        · rename_i hle
          exact ⟨hb, hle, by simp only [align_eq hal]; exact roundUp_dvd _ _⟩
        · exact ⟨hal, Nat.le_refl _, Nat.dvd_zero _⟩
      · split at hp
        · exact (ih _ (by simp only; split <;> assumption)).2 p hp
        · exact (ih _ (Or.inl rfl)).2 p hp

theorem generateTable_length (ts : List Ty) : (generateTable ts).length = ts.length :=
  (tableLoop_aligned ts _ (Or.inl rfl)).1

/-- Rows of a state `i`: the table's `i` is at least the state's. -/
theorem tableLoop_i (ts : List Ty) : ∀ (st : Row) (r : Row), r ∈ tableLoop st ts → st.i ≤ r.i := by
  induction ts with
  | nil => intro st r h; simp [tableLoop] at h
  | cons t ts ih =>
    intro st r h
    simp only [tableLoop, List.mem_cons] at h
    rcases h with rfl | h
    · split <;> simp
    · have := ih _ _ h
      revert this
      split <;> (simp only; split <;> simp <;> omega)

/-! ### The packed struct generator -/

theorem or_add_and (x c : Nat) : (x ||| c) + (x &&& c) = x + c := by
  induction x using Nat.strongRecOn generalizing c with
  | ind x ih =>
    by_cases hx : x = 0
    · subst hx; simp
    · have h := ih (x / 2) (by omega) (c / 2)
      rw [← Nat.or_div_two, ← Nat.and_div_two] at h
      have h1 := @Nat.or_mod_two_eq_one x c
      have h2 := @Nat.and_mod_two_eq_one x c
      generalize (x ||| c) = o at *
      generalize (x &&& c) = n at *
      omega

theorem or_eq_add {x c : Nat} (h : x &&& c = 0) : x ||| c = x + c := by
  have := or_add_and x c; omega

theorem and_ge {b x c : Nat} (hb : IsAl b) (hx : b ∣ x) (h : x &&& c ≠ 0) : b ≤ x &&& c := by
  have hd : b ∣ x &&& c := by
    have hmod : (x &&& c) % b = 0 := by
      have hx0 : x % b = 0 := Nat.mod_eq_zero_of_dvd hx
      rcases hb with rfl | rfl | rfl | rfl
      · omega
      · have := @Nat.and_mod_two_pow x c 1; simp at this; simp [hx0] at this; exact this
      · have := @Nat.and_mod_two_pow x c 2; simp at this; simp [hx0] at this; exact this
      · have := @Nat.and_mod_two_pow x c 3; simp at this; simp [hx0] at this; exact this
    exact Nat.dvd_of_mod_eq_zero hmod
  exact Nat.le_of_dvd (Nat.pos_of_ne_zero h) hd

/-- The fields a correct generator emits for members `ts` from position `pos`, numbering from `n`. -/
def packFields : Nat → Nat → List Ty → List Field
  | _, _, [] => []
  | n, pos, t :: ts =>
    let st := Spec.roundUp pos (Spec.align t)
    (if st - pos > 0 then [.pad (st - pos)] else []) ++
      .mem n :: packFields (n + 1) (st + (Spec.size t).getD 0) ts

/-- The serialize commands for the same members. -/
def packCmds : Nat → Nat → List Ty → List Cmd
  | _, _, [] => []
  | n, pos, t :: ts =>
    let st := Spec.roundUp pos (Spec.align t)
    (if st - pos > 0 then [.zeros (st - pos)] else []) ++
      .child n :: packCmds (n + 1) (st + (Spec.size t).getD 0) ts

/-- No row of the table needs `|` to carry. -/
def noCarry (r : Row) : Prop := align r.a r.b &&& r.c = 0

instance (r : Row) : Decidable (noCarry r) := inferInstanceAs (Decidable (_ = 0))

theorem packedLoop_ok (ts : List Ty) : ∀ (i : Int) (a b c n : Nat), IsAl b →
    (∀ t ∈ ts, (Spec.size t).isSome) →
    ((∃ r, packedLoop n (Spec.roundUp a b + c) (ts.zip (tableLoop ⟨i, a, b, c⟩ ts)) = .ok r) ↔
      ∀ r ∈ tableLoop ⟨i, a, b, c⟩ ts, noCarry r) ∧
    (∀ out e, packedLoop n (Spec.roundUp a b + c) (ts.zip (tableLoop ⟨i, a, b, c⟩ ts)) = .ok (out, e) →
      Spec.endAfter (Spec.roundUp a b + c) ts = some e ∧
      out = ⟨packFields n (Spec.roundUp a b + c) ts, packCmds n (Spec.roundUp a b + c) ts⟩) := by
  induction ts with
  | nil =>
    intro i a b c n _ _
    simp [tableLoop, packedLoop, Spec.endAfter, packFields, packCmds]
  | cons t ts ih =>
    intro i a b c n hb hsz
    have hal := specAlign_isAl t
    obtain ⟨sz, hszt⟩ := Option.isSome_iff_exists.1 (hsz t (by simp))
    have hsz' : ∀ t ∈ ts, (Spec.size t).isSome := fun u hu => hsz u (by simp [hu])
    -- new state
    have key : ∃ a' b' c', IsAl b' ∧
        (if alignOf t ≤ b then (⟨i, a, b, align c (alignOf t)⟩ : Row)
          else ⟨i, a + align c b, alignOf t, 0⟩) = ⟨i, a', b', c'⟩ ∧
        Spec.roundUp a' b' + c' = Spec.roundUp (Spec.roundUp a b + c) (Spec.align t) ∧
        (c' = 0 ∨ Spec.align t ≤ b') := by
      rw [alignOf_eq]
      by_cases hle : Spec.align t ≤ b
      · refine ⟨a, b, Spec.roundUp c (Spec.align t), hb, ?_, ?_, Or.inr hle⟩
        · simp [hle, align_eq hal]
        · rw [roundUp_add_dvd hal.pos (Nat.dvd_trans (hal.dvd hb hle) (roundUp_dvd _ _))]
      · refine ⟨a + Spec.roundUp c b, Spec.align t, 0, hal, ?_, ?_, Or.inl rfl⟩
        · simp [hle, align_eq hb]
        · have hd : b ∣ Spec.align t := hb.dvd hal (by omega)
          rw [← roundUp_roundUp (n := _ + c) hb.pos hal.pos hd,
            roundUp_add_dvd hb.pos (roundUp_dvd _ _), Nat.add_zero,
            ← roundUp_roundUp (n := _ + Spec.roundUp c b) hb.pos hal.pos hd,
            Nat.add_comm _ (Spec.roundUp c b), roundUp_add_dvd hb.pos (roundUp_dvd _ _),
            Nat.add_comm (Spec.roundUp c b)]
    obtain ⟨a', b', c', hb', hst, hpos, hcb⟩ := key
    have hszt' : sizeOf t = some sz := by rw [sizeOf_eq]; exact hszt
    have hstart : align a' b' = Spec.roundUp a' b' := align_eq hb' a'
    have hrest := ih i a' b' (c' + sz) (n + 1) hb' hsz'
    rw [← Nat.add_assoc, hpos] at hrest
    obtain ⟨hr1, hr2⟩ := hrest
    have hle := le_roundUp hal.pos (Spec.roundUp a b + c)
    have hlt := roundUp_lt hal.pos (Spec.roundUp a b + c)
    simp only [tableLoop, hst, hszt', List.zip_cons_cons, packedLoop, hstart, Res.unwrap_some,
      Res.bind_ok, List.mem_cons, forall_eq_or_imp]
    by_cases hc : Spec.roundUp a' b' &&& c' = 0
    · have hor := or_eq_add hc
      rw [hor, hpos]
      have hnc : noCarry ⟨i, a', b', c'⟩ := by simpa [noCarry, hstart] using hc
      constructor
      · rw [if_neg (by omega)]
        constructor
        · rintro ⟨r, hr⟩
          refine ⟨hnc, hr1.1 ?_⟩
          rw [Res.bind_eq_ok] at hr
          obtain ⟨x, hx, _⟩ := hr
          exact ⟨x, hx⟩
        · rintro ⟨_, hall⟩
          obtain ⟨⟨o, e⟩, hx⟩ := hr1.2 hall
          rw [hx]
          simp only [Res.bind_ok]
          split <;> exact ⟨_, rfl⟩
      · intro out e h
        rw [if_neg (by omega)] at h
        rw [Res.bind_eq_ok] at h
        obtain ⟨⟨o, e'⟩, hx, h⟩ := h
        obtain ⟨he, ho⟩ := hr2 o e' hx
        have hend : Spec.endAfter (Spec.roundUp a b + c) (t :: ts) = some e' := by
          simp only [Spec.endAfter, hszt]; exact he
        simp only [packFields, packCmds, hszt, Option.getD_some]
        split at h
        · rename_i hp
          simp at h; obtain ⟨rfl, rfl⟩ := h
          refine ⟨hend, ?_⟩
          simp [ho, hp]
        · rename_i hp
          simp at h; obtain ⟨rfl, rfl⟩ := h
          refine ⟨hend, ?_⟩
          have : ¬ (0 < Spec.roundUp (Spec.roundUp a b + c) (Spec.align t) - (Spec.roundUp a b + c)) := hp
          simp [ho, this]
    · have hge := and_ge hb' (roundUp_dvd a' b') hc
      have hsum := or_add_and (Spec.roundUp a' b') c'
      have hcb' : Spec.align t ≤ b' := by
        rcases hcb with rfl | h
        · simp at hc
        · exact h
      have hlow : (Spec.roundUp a' b' ||| c') < Spec.roundUp a b + c := by omega
      rw [if_pos hlow]
      have hnc : ¬ noCarry ⟨i, a', b', c'⟩ := by simpa [noCarry, hstart] using hc
      constructor
      · constructor
        · rintro ⟨r, hr⟩; simp at hr
        · rintro ⟨h, _⟩; exact absurd h hnc
      · intro out e h; simp at h

end GV
