import Verif.Proofs.Array
/-
Indices so large that the position of their framing offset wraps round.
-/
namespace GV

theorem umul_wrap {c : Cfg} (hov : c.overflowChecks = false) (a b : Nat) : umul c a b = .ok (a * b % usizeMod) := by
  unfold umul
  split
  · rename_i h; rw [Nat.mod_eq_of_lt h]
  · simp [hov]

theorem uadd_wrap {c : Cfg} (hov : c.overflowChecks = false) (a b : Nat) : uadd c a b = .ok ((a + b) % usizeMod) := by
  unfold uadd
  split
  · rename_i h; rw [Nat.mod_eq_of_lt h]
  · simp [hov]

theorem readUint_wrap {c : Cfg} (hov : c.overflowChecks = false) {data : Bytes} {w : Nat} (hw : IsWidth w) (i : Nat) :
    readUint c data w i = readUint c data w (i % (usizeMod / w)) := by
  have h : i % (usizeMod / w) * w % usizeMod = i * w % usizeMod := by
    have hd : usizeMod / w * w = usizeMod := by
      unfold usizeMod
      rcases hw with h | h | h | h <;> subst h <;> decide
    have h1 := Nat.mul_mod_mul_right w i (usizeMod / w)
    rw [hd] at h1
    rw [← h1, Nat.mod_mod]
  unfold readUint
  rw [umul_wrap hov, umul_wrap hov, h]

theorem readUint_oob' {c : Cfg} (hov : c.overflowChecks = false) {data : Bytes} {w n : Nat} (hw : IsWidth w)
    (hn : n * w + w ≤ usizeMod) (hl : data.length < usizeMod) (h : data.length < n * w + w) :
    readUint c data w n = .fail .bounds := by
  by_cases hlt : n * w + w < usizeMod
  · exact readUint_oob hw hlt h
  have he : n * w + w = usizeMod := by omega
  have hwp := hw.pos
  unfold readUint
  rw [umul_ok (by omega)]
  simp only [Res.bind_ok]
  rw [if_neg (by omega)]
  by_cases h1 : w = 1
  · subst h1
    rw [if_pos rfl, List.getElem?_eq_none (by omega)]
  · rw [if_neg h1, uadd_wrap hov, he]
    simp only [Res.bind_ok, Nat.mod_self]
    rw [if_neg]
    have hw8 : w ≤ 8 := by rcases hw with h | h | h | h <;> omega
    have : 8 < usizeMod := by decide
    omega

/-- Indexing with any index beyond the end in builds without overflow checks. -/
theorem arrIndex_wrap {c : Cfg} {e : Ty} {s : Slice} (hl : s.len < 2 ^ 63) (hov : c.overflowChecks = false) {i : Nat}
    (hi : (Spec.arrFrame s.bytes).2.length ≤ i) (hi2 : i < usizeMod) :
    arrIndex c e s i =
      if 0 < i % (usizeMod / arrW s.bytes) ∧ i % (usizeMod / arrW s.bytes) < (Spec.arrFrame s.bytes).2.length
      then arrIndex c e s (i % (usizeMod / arrW s.bytes)) else .fail .bounds := by
  have hb := arrFrame_body_le s.bytes
  have hww := arrW_isWidth s.bytes
  have hc := arrFrame_count s.bytes
  have hl' : s.bytes.length < 2 ^ 63 := hl
  have hlm : s.bytes.length < usizeMod := by unfold usizeMod; omega
  have hQ : usizeMod / arrW s.bytes * arrW s.bytes = usizeMod := by
    unfold usizeMod
    rcases hww with h | h | h | h <;> rw [h]
  have hwp := hww.pos
  generalize hw : arrW s.bytes = w at *
  generalize hq : usizeMod / w = q at *
  have hq0 : 0 < q := by
    rcases Nat.eq_zero_or_pos q with h | h
    · rw [h] at hQ; simp [usizeMod] at hQ
    · exact h
  have hj : i % q < q := Nat.mod_lt _ hq0
  have hjw : i % q * w + w ≤ usizeMod := by
    rw [← hQ, ← Nat.succ_mul]
    exact Nat.mul_le_mul_right _ hj
  have hr : ∀ d k, readUint c d w k = readUint c d w (k % q) := by
    intro d k; rw [readUint_wrap hov hww, hq]
  by_cases h1 : i % q < (Spec.arrFrame s.bytes).2.length
  · by_cases h0 : i % q = 0
    · rw [if_neg (by omega)]
      have hn0 : i ≠ 0 := by
        rintro rfl
        omega
      have hp : (i - 1) % q = q - 1 := by
        have h2 := Nat.div_add_mod i q
        rw [h0] at h2
        have h3 : 0 < i / q := by
          rcases Nat.eq_zero_or_pos (i / q) with h | h
          · rw [h] at h2; simp at h2; omega
          · exact h
        have h4 : i - 1 = q - 1 + q * (i / q - 1) := by
          have : q * (i / q) = q * (i / q - 1) + q := by
            rw [← Nat.mul_succ]; congr 1; omega
          omega
        rw [h4, Nat.add_mul_mod_self_left, Nat.mod_eq_of_lt (by omega)]
      unfold arrIndex
      simp only [readLast_ok hl, Res.bind_ok, hw]
      rw [if_pos (show (Spec.arrFrame s.bytes).1 ≤ s.len from hb)]
      rw [if_neg hn0, hr _ (i - 1), hp]
      rw [readUint_oob' hov hww (n := q - 1)]
      · have hcw : w ≤ (Spec.arrFrame s.bytes).2.length * w := Nat.le_mul_of_pos_left _ (by omega)
        rw [hr _ i, h0, readUint_ok hww (by simp only [List.length_drop]; omega) (by simp only [List.length_drop]; omega)]
        rfl
      · rw [← Nat.succ_mul]; have : (q - 1).succ = q := by omega
        rw [this, hQ]; exact Nat.le_refl _
      · simp only [List.length_drop]; omega
      · rw [← Nat.succ_mul]; have : (q - 1).succ = q := by omega
        rw [this, hQ]; simp only [List.length_drop]; omega
    · rw [if_pos ⟨by omega, h1⟩]
      have hp : (i - 1) % q = (i % q - 1) % q := by
        have h2 := Nat.div_add_mod i q
        have h4 : i - 1 = (i % q - 1) + q * (i / q) := by omega
        rw [h4, Nat.add_mul_mod_self_left]
      have hn0 : i ≠ 0 := by
        rintro rfl
        simp at h0
      unfold arrIndex
      simp only [readLast_ok hl, Res.bind_ok, hw]
      rw [if_neg hn0, if_neg h0, hr _ (i - 1), hp, ← hr _ (i % q - 1), hr _ i]
  · rw [if_neg (by omega)]
    unfold arrIndex
    simp only [readLast_ok hl, Res.bind_ok, hw]
    rw [if_pos (show (Spec.arrFrame s.bytes).1 ≤ s.len from hb), hr _ i, readUint_oob' hov hww hjw]
    · rfl
    · simp only [List.length_drop]; omega
    · simp only [List.length_drop]
      have := Nat.mul_le_mul_right w (Nat.le_of_not_lt h1)
      omega

end GV
