import Verif.Proofs.SerRun
import Verif.Spec.Stream
/-
Writing and reading one call at a time.
-/
namespace GV
open Spec

variable {σ : Type}

theorem taken_append (a b : List (Bytes × Took)) : taken (a ++ b) = taken a ++ taken b := by
  simp [taken]

theorem writeAll_nil (d : Dev σ) (s : σ) : d.writeAll s [] = (s, none) := by
  rw [Dev.writeAll, dif_pos rfl]

theorem writeAll_interrupted {d : Dev σ} {s s' : σ} {b : Bytes} (hb : b ≠ [])
    (h : d.write s b = (s', .interrupted)) : d.writeAll s b = d.writeAll s' b := by
  conv => lhs; rw [Dev.writeAll, dif_neg hb]
  split <;> rename_i h' <;> rw [h] at h' <;> simp at h'
  rw [h']

theorem writeAll_error {d : Dev σ} {s s' : σ} {b : Bytes} {e : Nat} (hb : b ≠ [])
    (h : d.write s b = (s', .error e)) : d.writeAll s b = (s', some (0, e)) := by
  rw [Dev.writeAll, dif_neg hb]
  split <;> rename_i h' <;> rw [h] at h' <;> simp at h'
  rw [h'.1, h'.2]

theorem writeAll_zero {d : Dev σ} {s s' : σ} {b : Bytes} (hb : b ≠ [])
    (h : d.write s b = (s', .took 0)) : d.writeAll s b = (s', some (0, writeZero)) := by
  rw [Dev.writeAll, dif_neg hb]
  split <;> rename_i h' <;> rw [h] at h' <;> simp at h'
  rw [h']

theorem writeAll_took {d : Dev σ} {s s' : σ} {b : Bytes} {n : Nat} (hb : b ≠ [])
    (h : d.write s b = (s', .took (n + 1))) : d.writeAll s b =
      match d.writeAll s' (b.drop (n + 1)) with
      | (t, none) => (t, none)
      | (t, some (k, e)) => (t, some (n + 1 + k, e)) := by
  conv => lhs; rw [Dev.writeAll, dif_neg hb]
  split <;> rename_i h' <;> rw [h] at h' <;> simp at h'
  obtain ⟨rfl, rfl⟩ := h'
  rfl

/-- What one `write_all` adds to the log. -/
theorem recording_writeAll (d : Dev σ) (s : σ × List (Bytes × Took)) (b : Bytes) :
    ∃ log, (d.recording.writeAll s b).1.2 = s.2 ++ log ∧
      (match (d.recording.writeAll s b).2 with
      | none => taken log = b ∧ ∀ m ∈ log, failing m = none
      | some (k, e) => taken log = b.take k ∧ ∃ ok m, log = ok ++ [m] ∧ (∀ m ∈ ok, failing m = none) ∧
          failing m = some e) := by
  induction s, b using Dev.writeAll.induct (d := d.recording) with
  | case1 s =>
    refine ⟨[], ?_⟩
    rw [writeAll_nil]; simp [taken]
  | case2 s b hb s' h ih =>
    obtain ⟨log, h1, h2⟩ := ih
    have he := writeAll_interrupted hb h
    have hs : s'.2 = s.2 ++ [(b, .interrupted)] := by
      simp only [Dev.recording, Prod.mk.injEq] at h
      rw [← h.1, h.2]
    refine ⟨(b, .interrupted) :: log, by rw [he, h1, hs]; simp, ?_⟩
    rw [he]
    have hf : failing (b, .interrupted) = none := rfl
    have ht : taken ((b, .interrupted) :: log) = taken log := by simp [taken]
    rw [ht]
    generalize (d.recording.writeAll s' b).2 = r at h2 ⊢
    rcases r with _ | ⟨k, e⟩
    · refine ⟨h2.1, ?_⟩
      intro m hm
      rcases List.mem_cons.1 hm with rfl | hm
      · exact hf
      · exact h2.2 m hm
    · obtain ⟨h2, ok, m, rfl, h3, h4⟩ := h2
      refine ⟨h2, (b, .interrupted) :: ok, m, rfl, ?_, h4⟩
      intro m hm
      rcases List.mem_cons.1 hm with rfl | hm
      · exact hf
      · exact h3 m hm
  | case3 s b hb s' e h =>
    have he := writeAll_error hb h
    have hs : s'.2 = s.2 ++ [(b, .error e)] := by
      simp only [Dev.recording, Prod.mk.injEq] at h
      rw [← h.1, h.2]
    refine ⟨[(b, .error e)], by rw [he, hs], ?_⟩
    rw [he]
    exact ⟨by simp [taken], [], _, rfl, by simp, rfl⟩
  | case4 s b hb s' h =>
    have he := writeAll_zero hb h
    have hs : s'.2 = s.2 ++ [(b, .took 0)] := by
      simp only [Dev.recording, Prod.mk.injEq] at h
      rw [← h.1, h.2]
    refine ⟨[(b, .took 0)], by rw [he, hs], ?_⟩
    rw [he]
    exact ⟨by simp [taken], [], _, rfl, by simp, by simp [failing, hb]⟩
  | case5 s b hb s' n h t heq ih =>
    have he := writeAll_took hb h
    rw [heq] at he
    replace he : d.recording.writeAll s b = (t, none) := he
    have hs : s'.2 = s.2 ++ [(b, .took (n + 1))] := by
      simp only [Dev.recording, Prod.mk.injEq] at h
      rw [← h.1, h.2]
    obtain ⟨log, h1, h2⟩ := ih
    rw [heq] at h1 h2
    refine ⟨(b, .took (n + 1)) :: log, by rw [he]; simp only at h1 ⊢; rw [h1, hs]; simp, ?_⟩
    rw [he]
    refine ⟨?_, ?_⟩
    · have : taken ((b, .took (n + 1)) :: log) = b.take (n + 1) ++ taken log := by simp [taken]
      rw [this, h2.1, List.take_append_drop]
    · intro m hm
      rcases List.mem_cons.1 hm with rfl | hm
      · simp [failing]
      · exact h2.2 m hm
  | case6 s b hb s' n h t k e heq ih =>
    have he := writeAll_took hb h
    rw [heq] at he
    replace he : d.recording.writeAll s b = (t, some (n + 1 + k, e)) := he
    have hs : s'.2 = s.2 ++ [(b, .took (n + 1))] := by
      simp only [Dev.recording, Prod.mk.injEq] at h
      rw [← h.1, h.2]
    obtain ⟨log, h1, h2⟩ := ih
    rw [heq] at h1 h2
    obtain ⟨h2, ok, m, rfl, h3, h4⟩ := h2
    refine ⟨(b, .took (n + 1)) :: (ok ++ [m]), by rw [he]; simp only at h1 ⊢; rw [h1, hs]; simp, ?_⟩
    rw [he]
    refine ⟨?_, (b, .took (n + 1)) :: ok, m, rfl, ?_, h4⟩
    · have : taken ((b, .took (n + 1)) :: (ok ++ [m])) = b.take (n + 1) ++ taken (ok ++ [m]) := by
        simp [taken]
      rw [this, h2, ← List.take_add]
    · intro m hm
      rcases List.mem_cons.1 hm with rfl | hm
      · simp [failing]
      · exact h3 m hm

/-- What a run adds to the log. -/
theorem runAll_recording (d : Dev σ) (ws : List Bytes) : ∀ s : Sink (σ × List (Bytes × Took)),
    ∃ log p, (runAll d.recording.writer ws s).1.st.2 = s.st.2 ++ log ∧
      (runAll d.recording.writer ws s).1.got = s.got ++ p ∧ taken log = p ∧ p <+: ws.flatten ∧
      match (runAll d.recording.writer ws s).2 with
      | none => (∀ m ∈ log, failing m = none) ∧ p = ws.flatten
      | some e => ∃ ok m, log = ok ++ [m] ∧ (∀ m ∈ ok, failing m = none) ∧ failing m = some e := by
  induction ws with
  | nil => intro s; exact ⟨[], [], by simp [runAll], by simp [runAll], rfl, by simp, by simp [runAll]⟩
  | cons b ws ih =>
    intro s
    obtain ⟨l1, h1, h2⟩ := recording_writeAll d s.st b
    simp only [runAll]
    have hw : d.recording.writer.writeAll s.st b = d.recording.writeAll s.st b := rfl
    rw [hw]
    rcases h : d.recording.writeAll s.st b with ⟨st, _ | ⟨k, e⟩⟩
    · rw [h] at h1 h2
      simp only at h1 h2 ⊢
      obtain ⟨l2, p, g1, g2, g3, g4, g5⟩ := ih ⟨st, s.got ++ b⟩
      refine ⟨l1 ++ l2, b ++ p, by rw [g1]; simp [h1], by rw [g2]; simp, by rw [taken_append, h2.1, g3], ?_, ?_⟩
      · rw [List.flatten_cons]; exact (List.prefix_append_right_inj _).2 g4
      · rcases hr : (runAll d.recording.writer ws ⟨st, s.got ++ b⟩).2 with _ | e
        · rw [hr] at g5
          simp only at g5 ⊢
          refine ⟨?_, by rw [g5.2]; simp⟩
          intro m hm
          rcases List.mem_append.1 hm with hm | hm
          · exact h2.2 m hm
          · exact g5.1 m hm
        · rw [hr] at g5
          simp only at g5 ⊢
          obtain ⟨ok, m, rfl, g6, g7⟩ := g5
          refine ⟨l1 ++ ok, m, by simp, ?_, g7⟩
          intro m hm
          rcases List.mem_append.1 hm with hm | hm
          · exact h2.2 m hm
          · exact g6 m hm
    · rw [h] at h1 h2
      simp only at h1 h2 ⊢
      obtain ⟨h2, h3⟩ := h2
      refine ⟨l1, b.take k, h1, rfl, h2, ?_, h3⟩
      rw [List.flatten_cons]
      exact (List.take_prefix k b).trans (List.prefix_append _ _)

/-- A writer that takes everything does not fail. -/
theorem writeAll_takesAll {d : Dev σ} (hd : TakesAll d) (s : σ) (b : Bytes) : (d.writeAll s b).2 = none := by
  induction s, b using Dev.writeAll.induct (d := d) with
  | case1 s => rw [writeAll_nil]
  | case2 s b hb s' h ih =>
    rw [writeAll_interrupted hb h, ih]
  | case3 s b hb s' e h => have := hd s b hb; rw [h] at this; exact this.elim
  | case4 s b hb s' h => have := hd s b hb; rw [h] at this; exact (this rfl).elim
  | case5 s b hb s' n h t heq ih =>
    rw [writeAll_took hb h, heq]
  | case6 s b hb s' n h t k e heq ih => rw [heq] at ih; simp at ih

theorem slice_writeAll (k : Nat) (b : Bytes) : Dev.slice.writeAll k b =
    if b.length ≤ k then (k - b.length, none) else (0, some (k, writeZero)) := by
  by_cases hb : b = []
  · subst hb; rw [writeAll_nil]; simp
  have hlb := List.length_pos_iff.2 hb
  have hw : Dev.slice.write k b = (k - min k b.length, .took (min k b.length)) := rfl
  rw [Dev.writeAll, dif_neg hb]
  by_cases hk : k = 0
  · subst hk
    split <;> rename_i h' <;> rw [hw] at h' <;> simp at h'
    rw [if_neg (by omega), ← h']
  · obtain ⟨j, hj⟩ : ∃ j, min k b.length = j + 1 := ⟨min k b.length - 1, by omega⟩
    split <;> rename_i h' <;> rw [hw, hj] at h' <;> simp at h'
    obtain ⟨rfl, rfl⟩ := h'
    by_cases hle : b.length ≤ k
    · rw [if_pos hle]
      have hd : b.drop (j + 1) = [] := List.drop_eq_nil_of_le (by omega)
      rw [hd, writeAll_nil]
      simp only [Prod.mk.injEq, and_true]; omega
    · rw [if_neg hle]
      have hz : k - (j + 1) = 0 := by omega
      have hd : b.drop (j + 1) ≠ [] := by
        intro h
        have := congrArg List.length h
        simp only [List.length_drop, List.length_nil] at this; omega
      rw [hz]
      have : Dev.slice.writeAll 0 (b.drop (j + 1)) = (0, some (0, writeZero)) :=
        writeAll_zero hd (by simp [Dev.slice])
      rw [this]
      simp only [Prod.mk.injEq, true_and, Option.some.injEq, and_true]; omega

theorem runAll_slice (ws : List Bytes) : ∀ s : Sink Nat, runAll Dev.slice.writer ws s =
    if ws.flatten.length ≤ s.st then (⟨s.st - ws.flatten.length, s.got ++ ws.flatten⟩, none)
    else (⟨0, s.got ++ ws.flatten.take s.st⟩, some writeZero) := by
  induction ws with
  | nil => intro s; simp [runAll]
  | cons b ws ih =>
    intro s
    have hw : Dev.slice.writer.writeAll s.st b = Dev.slice.writeAll s.st b := rfl
    simp only [runAll, hw, slice_writeAll, List.flatten_cons, List.length_append]
    by_cases h : b.length ≤ s.st
    · simp only [h, if_true]
      rw [ih]
      by_cases h2 : ws.flatten.length ≤ s.st - b.length
      · have h3 : b.length + ws.flatten.length ≤ s.st := by omega
        simp only [h2, h3, if_true, List.append_assoc]
        rw [show s.st - (b.length + ws.flatten.length) = s.st - b.length - ws.flatten.length by omega]
      · have h3 : ¬ b.length + ws.flatten.length ≤ s.st := by omega
        simp only [h2, h3, if_false, List.append_assoc]
        rw [List.take_append, List.take_of_length_le h]
    · have h3 : ¬ b.length + ws.flatten.length ≤ s.st := by omega
      simp only [h, h3, if_false]
      rw [List.take_append_of_le_length (by omega)]

/-! ### Reading -/

theorem readToEnd_content {d : Feed σ} {content : σ → Bytes} (hd : Delivers d content) {room : Bytes → Nat}
    (hr : ∀ b, 0 < room b) (s : σ) (acc : Bytes) :
    (d.readToEnd room s acc).2 = .ok (acc ++ content s) ∨
      (∃ e s' n, (d.readToEnd room s acc).2 = .error e ∧ (d.read s' n).2 = .error e) := by
  induction s, acc using Feed.readToEnd.induct (d := d) (room := room) with
  | case1 s acc s' h ih =>
    have := hd s (room acc) (hr acc)
    rw [h] at this
    have he : d.readToEnd room s acc = d.readToEnd room s' acc := by
      rw [Feed.readToEnd]
      split <;> rename_i h' <;> rw [h] at h' <;> simp at h'
      rw [h']
    rw [he]
    simp only at this
    rw [← this]; exact ih
  | case2 s acc s' e h =>
    right
    refine ⟨e, s, room acc, ?_, by rw [h]⟩
    rw [Feed.readToEnd]
    split <;> rename_i h' <;> rw [h] at h' <;> simp at h'
    rw [h'.2]
  | case3 s acc s' h =>
    have := hd s (room acc) (hr acc)
    rw [h] at this
    left
    rw [Feed.readToEnd]
    split <;> rename_i h' <;> rw [h] at h' <;> simp at h'
    rw [this.2 rfl]; simp
  | case4 s acc s' x xs h ih =>
    have := hd s (room acc) (hr acc)
    rw [h] at this
    have he : d.readToEnd room s acc = d.readToEnd room s' (acc ++ x :: xs) := by
      conv => lhs; rw [Feed.readToEnd]
      split <;> rename_i h' <;> rw [h] at h' <;> simp at h'
      obtain ⟨rfl, rfl, rfl⟩ := h'
      rfl
    rw [he, this.1, ← List.append_assoc]
    exact ih

end GV
