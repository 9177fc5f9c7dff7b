import Verif.Model.Str
import Verif.Spec.Str
/-
Helper lemmas about UTF-8, `Str` and `GString`.
-/
namespace GV

theorem utf8Valid_1 {a : UInt8} {r : Bytes} (h : a < 0x80) : utf8Valid (a :: r) = utf8Valid r := by
  rw [utf8Valid.eq_def]; simp only [h, if_true]

theorem utf8Valid_2 {a b : UInt8} {r : Bytes} (h : ¬ a < 0x80) (h2 : utf8Two a b = true) :
    utf8Valid (a :: b :: r) = utf8Valid r := by
  rw [utf8Valid.eq_def]; simp only [h, h2, if_true, if_false]

theorem utf8Valid_3 {a b c : UInt8} {r : Bytes} (h : ¬ a < 0x80) (h2 : ¬ utf8Two a b = true)
    (h3 : utf8Three a b c = true) : utf8Valid (a :: b :: c :: r) = utf8Valid r := by
  rw [utf8Valid.eq_def]; simp only [h, h2, h3, if_true, if_false, Bool.false_eq_true]

theorem utf8Valid_4 {a b c d : UInt8} {r : Bytes} (h : ¬ a < 0x80) (h2 : ¬ utf8Two a b = true)
    (h3 : ¬ utf8Three a b c = true) :
    utf8Valid (a :: b :: c :: d :: r) = (utf8Four a b c d && utf8Valid r) := by
  rw [utf8Valid.eq_def]; simp only [h, h2, h3, if_false, Bool.false_eq_true]

theorem utf8Valid_append {a b : Bytes} (h : utf8Valid a = true) : utf8Valid (a ++ b) = utf8Valid b := by
  fun_induction utf8Valid a with
  | case1 => rfl
  | case2 _ _ h1 ih => rw [List.cons_append, utf8Valid_1 h1]; exact ih h
  | case3 => cases h
  | case4 _ h1 _ _ h2 ih => rw [List.cons_append, List.cons_append, utf8Valid_2 h1 h2]; exact ih h
  | case5 => cases h
  | case6 _ h1 _ h2 _ _ h3 ih =>
    rw [List.cons_append, List.cons_append, List.cons_append, utf8Valid_3 h1 h2 h3]; exact ih h
  | case7 => cases h
  | case8 _ h1 _ h2 _ h3 _ _ ih =>
    rw [List.cons_append, List.cons_append, List.cons_append, List.cons_append, utf8Valid_4 h1 h2 h3]
    simp only [Bool.and_eq_true] at h
    rw [h.1, Bool.true_and]
    exact ih h.2

theorem isCont_zero : isCont 0 = false := by decide

theorem utf8Valid_append_zero (a : Bytes) : utf8Valid (a ++ [0]) = utf8Valid a := by
  fun_induction utf8Valid a with
  | case1 => rfl
  | case2 _ _ h1 ih => rw [List.cons_append, utf8Valid_1 h1]; exact ih
  | case3 a h1 =>
    rw [utf8Valid.eq_def]
    have : utf8Two a 0 = false := by simp [utf8Two, isCont_zero]
    simp only [List.cons_append, List.nil_append, h1, this, if_false, Bool.false_eq_true]
  | case4 _ h1 _ _ h2 ih => rw [List.cons_append, List.cons_append, utf8Valid_2 h1 h2]; exact ih
  | case5 a h1 b h2 =>
    rw [utf8Valid.eq_def]
    have : utf8Three a b 0 = false := by simp [utf8Three, isCont_zero]
    simp only [List.cons_append, List.nil_append, h1, h2, this, if_false, Bool.false_eq_true]
  | case6 _ h1 _ h2 _ _ h3 ih =>
    rw [List.cons_append, List.cons_append, List.cons_append, utf8Valid_3 h1 h2 h3]; exact ih
  | case7 a h1 b h2 c h3 =>
    have : utf8Four a b c 0 = false := by simp [utf8Four, isCont_zero]
    simp only [List.cons_append, List.nil_append]
    rw [utf8Valid_4 h1 h2 h3, this, Bool.false_and]
  | case8 _ h1 _ h2 _ h3 _ _ ih =>
    rw [List.cons_append, List.cons_append, List.cons_append, List.cons_append, utf8Valid_4 h1 h2 h3, ih]

/-! ### UTF-8 validity is being an encoding -/

theorem u8lt (a : UInt8) : a.toNat < 256 := a.toNat_lt

theorem u8_toNat_ofNat (n : Nat) : (UInt8.ofNat n).toNat = n % 256 := UInt8.toNat_ofNat'

theorem u8_eq_ofNat {a : UInt8} {n : Nat} (h : a.toNat = n) : UInt8.ofNat n = a := by
  subst h; simp

theorem isCont_iff (b : UInt8) : isCont b = true ↔ 0x80 ≤ b.toNat ∧ b.toNat ≤ 0xbf := by
  simp only [isCont, Bool.and_eq_true, decide_eq_true_eq, UInt8.le_iff_toNat_le]
  rfl

theorem utf8Two_iff (a b : UInt8) : utf8Two a b = true ↔
    (0xc2 ≤ a.toNat ∧ a.toNat ≤ 0xdf) ∧ 0x80 ≤ b.toNat ∧ b.toNat ≤ 0xbf := by
  simp only [utf8Two, Bool.and_eq_true, decide_eq_true_eq, UInt8.le_iff_toNat_le, isCont_iff]
  rfl

theorem u8_beq {a b : UInt8} : (a == b) = true ↔ a.toNat = b.toNat := by
  rw [beq_iff_eq, UInt8.toNat_inj]

theorem utf8Three_iff (a b c : UInt8) : utf8Three a b c = true ↔
    ((a.toNat = 0xe0 ∧ 0xa0 ≤ b.toNat ∧ b.toNat ≤ 0xbf) ∨
     (0xe1 ≤ a.toNat ∧ a.toNat ≤ 0xec ∧ 0x80 ≤ b.toNat ∧ b.toNat ≤ 0xbf) ∨
     (a.toNat = 0xed ∧ 0x80 ≤ b.toNat ∧ b.toNat ≤ 0x9f) ∨
     (0xee ≤ a.toNat ∧ a.toNat ≤ 0xef ∧ 0x80 ≤ b.toNat ∧ b.toNat ≤ 0xbf)) ∧
    0x80 ≤ c.toNat ∧ c.toNat ≤ 0xbf := by
  simp only [utf8Three, Bool.and_eq_true, Bool.or_eq_true, decide_eq_true_eq, UInt8.le_iff_toNat_le,
    isCont_iff, u8_beq, and_assoc, or_assoc]
  rfl

theorem utf8Four_iff (a b c d : UInt8) : utf8Four a b c d = true ↔
    ((a.toNat = 0xf0 ∧ 0x90 ≤ b.toNat ∧ b.toNat ≤ 0xbf) ∨
     (0xf1 ≤ a.toNat ∧ a.toNat ≤ 0xf3 ∧ 0x80 ≤ b.toNat ∧ b.toNat ≤ 0xbf) ∨
     (a.toNat = 0xf4 ∧ 0x80 ≤ b.toNat ∧ b.toNat ≤ 0x8f)) ∧
    (0x80 ≤ c.toNat ∧ c.toNat ≤ 0xbf) ∧ 0x80 ≤ d.toNat ∧ d.toNat ≤ 0xbf := by
  simp only [utf8Four, Bool.and_eq_true, Bool.or_eq_true, decide_eq_true_eq, UInt8.le_iff_toNat_le,
    isCont_iff, u8_beq, and_assoc, or_assoc]
  rfl

theorem lt80 (a : UInt8) : a < 0x80 ↔ a.toNat < 0x80 := by
  rw [UInt8.lt_iff_toNat_lt]; rfl

/-- A valid string starts with the encoding of a scalar value. -/
theorem utf8Valid_of_encode (x : Nat) (hx : Spec.Scalar x) (r : Bytes) :
    utf8Valid (Spec.utf8Encode x ++ r) = utf8Valid r := by
  unfold Spec.utf8Encode Spec.Scalar at *
  split
  · exact utf8Valid_1 (by rw [lt80, u8_toNat_ofNat]; omega)
  · split
    · refine utf8Valid_2 ?_ ?_
      · rw [lt80, u8_toNat_ofNat]; omega
      · rw [utf8Two_iff, u8_toNat_ofNat, u8_toNat_ofNat]; omega
    · split
      · refine utf8Valid_3 ?_ ?_ ?_
        · rw [lt80, u8_toNat_ofNat]; omega
        · rw [utf8Two_iff, u8_toNat_ofNat, u8_toNat_ofNat]; omega
        · rw [utf8Three_iff, u8_toNat_ofNat, u8_toNat_ofNat, u8_toNat_ofNat]; omega
      · show utf8Valid (_ :: _ :: _ :: _ :: r) = _
        rw [utf8Valid_4, (utf8Four_iff _ _ _ _).2, Bool.true_and]
        · rw [u8_toNat_ofNat, u8_toNat_ofNat, u8_toNat_ofNat, u8_toNat_ofNat]; omega
        · rw [lt80, u8_toNat_ofNat]; omega
        · rw [utf8Two_iff, u8_toNat_ofNat, u8_toNat_ofNat]; omega
        · rw [utf8Three_iff, u8_toNat_ofNat, u8_toNat_ofNat, u8_toNat_ofNat]; omega

theorem utf8Valid_iff (b : Bytes) : utf8Valid b = true ↔ Spec.Utf8 b := by
  constructor
  · intro h
    fun_induction utf8Valid b with
    | case1 => exact ⟨[], by simp, rfl⟩
    | case2 a r h1 ih =>
      obtain ⟨cs, h2, rfl⟩ := ih h
      rw [lt80] at h1
      refine ⟨a.toNat :: cs, ?_, ?_⟩
      · simp only [List.mem_cons, forall_eq_or_imp]; exact ⟨Or.inl (by omega), h2⟩
      · simp only [List.flatMap_cons, Spec.utf8Encode, if_pos h1, u8_eq_ofNat rfl, List.cons_append,
          List.nil_append]
    | case3 => cases h
    | case4 a h1 b r h2 ih =>
      obtain ⟨cs, h3, rfl⟩ := ih h
      rw [utf8Two_iff] at h2
      refine ⟨((a.toNat - 0xc0) * 64 + (b.toNat - 0x80)) :: cs, ?_, ?_⟩
      · simp only [List.mem_cons, forall_eq_or_imp]
        exact ⟨Or.inl (by omega), h3⟩
      · simp only [List.flatMap_cons, Spec.utf8Encode]
        rw [if_neg (by omega), if_pos (by omega), u8_eq_ofNat (a := a) (by omega), u8_eq_ofNat (a := b) (by omega)]
        rfl
    | case5 => cases h
    | case6 a h1 b h2 c r h4 ih =>
      obtain ⟨cs, h3, rfl⟩ := ih h
      rw [utf8Three_iff] at h4
      refine ⟨((a.toNat - 0xe0) * 4096 + (b.toNat - 0x80) * 64 + (c.toNat - 0x80)) :: cs, ?_, ?_⟩
      · simp only [List.mem_cons, forall_eq_or_imp]
        refine ⟨?_, h3⟩
        unfold Spec.Scalar; omega
      · simp only [List.flatMap_cons, Spec.utf8Encode]
        rw [if_neg (by omega), if_neg (by omega), if_pos (by omega), u8_eq_ofNat (a := a) (by omega),
          u8_eq_ofNat (a := b) (by omega), u8_eq_ofNat (a := c) (by omega)]
        rfl
    | case7 => cases h
    | case8 a h1 b h2 c h3 d r ih =>
      simp only [Bool.and_eq_true] at h
      obtain ⟨cs, h5, rfl⟩ := ih h.2
      have h4 := (utf8Four_iff _ _ _ _).1 h.1
      refine ⟨((a.toNat - 0xf0) * 262144 + (b.toNat - 0x80) * 4096 + (c.toNat - 0x80) * 64 + (d.toNat - 0x80)) :: cs, ?_, ?_⟩
      · simp only [List.mem_cons, forall_eq_or_imp]
        refine ⟨?_, h5⟩
        unfold Spec.Scalar; omega
      · simp only [List.flatMap_cons, Spec.utf8Encode]
        rw [if_neg (by omega), if_neg (by omega), if_neg (by omega), u8_eq_ofNat (a := a) (by omega),
          u8_eq_ofNat (a := b) (by omega), u8_eq_ofNat (a := c) (by omega), u8_eq_ofNat (a := d) (by omega)]
        rfl
  · rintro ⟨cs, h, rfl⟩
    induction cs with
    | nil => rfl
    | cons x cs ih =>
      rw [List.flatMap_cons, utf8Valid_of_encode x (h x (by simp))]
      exact ih fun y hy => h y (by simp [hy])

/-! ### Str -/

theorem asBytesNC_append (s : Bytes) : asBytesNC (s ++ [0]) = s := by
  simp [asBytesNC]

theorem asBytesNC_of_not {d : Bytes} (h : ∀ s, d ≠ s ++ [0]) : asBytesNC d = [] := by
  unfold asBytesNC
  split
  · rename_i hl
    obtain ⟨s, hs⟩ := List.getLast?_eq_some_iff.1 hl
    exact absurd hs (h s)
  · rfl

theorem contains_zero {b : Bytes} : b.contains 0 = true ↔ (0 : UInt8) ∈ b := by simp

theorem toStr_text {s : Bytes} (h : Spec.Text s) : toStr (s ++ [0]) = s := by
  have h1 : s.contains 0 = false := by
    rw [Bool.eq_false_iff]; intro h'; exact h.2 (contains_zero.1 h')
  simp only [toStr, asBytesNC_append, h1, (utf8Valid_iff s).2 h.1, if_true, Bool.false_eq_true, if_false]

theorem toStr_is_text (d : Bytes) : Spec.Text (toStr d) := by
  simp only [toStr]
  have h0 : Spec.Text [] := ⟨⟨[], by simp, rfl⟩, by simp⟩
  split
  · exact h0
  · rename_i h1
    split
    · rename_i h2
      exact ⟨(utf8Valid_iff _).1 h2, fun h => h1 (contains_zero.2 h)⟩
    · exact h0

theorem toStr_of_not {d : Bytes} (h : ∀ s, Spec.Text s → d ≠ s ++ [0]) : toStr d = [] := by
  simp only [toStr]
  split
  · rfl
  · rename_i h1
    split
    · rename_i h2
      by_cases he : ∃ s, d = s ++ [0]
      · obtain ⟨s, rfl⟩ := he
        rw [asBytesNC_append] at *
        exact absurd rfl (h s ⟨(utf8Valid_iff _).1 h2, fun h => h1 (contains_zero.2 h)⟩)
      · exact asBytesNC_of_not fun s hs => he ⟨s, hs⟩
    · rfl

theorem strEq_iff (a b : Bytes) : strEq a b = true ↔ toStr a = toStr b := by
  simp only [strEq, Bool.or_eq_true, beq_iff_eq]
  constructor
  · rintro (h | h)
    · unfold toStr; rw [h]
    · exact h
  · exact Or.inr

/-! ### GString -/

theorem popChar_zero (t : Bytes) : popChar (t ++ [0]) = t := by
  simp [popChar, isCont_zero]

theorem utf8_append {a b : Bytes} (ha : Spec.Utf8 a) (hb : Spec.Utf8 b) : Spec.Utf8 (a ++ b) := by
  obtain ⟨x, hx, rfl⟩ := ha
  obtain ⟨y, hy, rfl⟩ := hb
  refine ⟨x ++ y, ?_, by simp⟩
  intro z hz
  rcases List.mem_append.1 hz with h | h
  · exact hx _ h
  · exact hy _ h

theorem text_append {a b : Bytes} (ha : Spec.Text a) (hb : Spec.Text b) : Spec.Text (a ++ b) := by
  refine ⟨utf8_append ha.1 hb.1, ?_⟩
  intro h
  rcases List.mem_append.1 h with h | h
  · exact ha.2 h
  · exact hb.2 h

theorem capReserve_ge (extra : Nat → Nat) (len cap n : Nat) (h : len ≤ cap) :
    len + n ≤ capReserve extra len cap n := by
  unfold capReserve; split <;> omega

end GV
