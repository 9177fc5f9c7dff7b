import Verif.Proofs.SerAll
import Verif.Proofs.RoundTrip
import Verif.Spec.Run
/-
Running the serializer against writers.
-/
namespace GV
open Spec

variable {σ α : Type}

theorem runAll_vec (ws : List Bytes) : ∀ s, runAll vecWriter ws s = (⟨(), s.got ++ ws.flatten⟩, none) := by
  induction ws with
  | nil => intro s; simp [runAll]
  | cons b ws ih =>
    intro s
    simp only [runAll, vecWriter]
    have := ih ⟨(), s.got ++ b⟩
    simp only [vecWriter] at this
    rw [this]; simp

theorem runAll_got (w : Writer σ) (ws : List Bytes) : ∀ s, ∃ p, p <+: ws.flatten ∧
    (runAll w ws s).1.got = s.got ++ p ∧ ((runAll w ws s).2 = none → p = ws.flatten) := by
  induction ws with
  | nil => intro s; exact ⟨[], by simp, by simp [runAll], by simp⟩
  | cons b ws ih =>
    intro s
    simp only [runAll]
    rcases w.writeAll s.st b with ⟨st, _ | ⟨k, e⟩⟩
    · obtain ⟨p, h1, h2, h3⟩ := ih ⟨st, s.got ++ b⟩
      refine ⟨b ++ p, ?_, ?_, ?_⟩
      · rw [List.flatten_cons]; exact (List.prefix_append_right_inj _).2 h1
      · rw [h2]; simp
      · intro h; rw [h3 h]; simp
    · refine ⟨b.take k, ?_, rfl, fun h => by cases h⟩
      rw [List.flatten_cons]
      exact (List.take_prefix k b).trans (List.prefix_append _ _)

/-- What a log of a run looks like: successes, and if the run failed one failing call at the end. -/
theorem runAll_logged (w : Writer σ) (ws : List Bytes) : ∀ (s : Sink (σ × List (Bytes × Option (Nat × Nat)))),
    ∃ log, (runAll (logged w) ws s).1.st.2 = s.st.2 ++ log ∧
      (log.map (·.1)).flatten <+: ws.flatten ∧
      match (runAll (logged w) ws s).2 with
      | none => (∀ m ∈ log, m.2 = none) ∧ (log.map (·.1)).flatten = ws.flatten
      | some e => ∃ ok b k, log = ok ++ [(b, some (k, e))] ∧ ∀ m ∈ ok, m.2 = none := by
  induction ws with
  | nil => intro s; exact ⟨[], by simp [runAll], by simp, by simp [runAll]⟩
  | cons b ws ih =>
    intro s
    simp only [runAll, logged]
    rcases h : w.writeAll s.st.1 b with ⟨st, _ | ⟨k, e⟩⟩
    · simp only
      obtain ⟨log, h1, h2, h3⟩ := ih ⟨(st, s.st.2 ++ [(b, none)]), s.got ++ b⟩
      simp only [logged] at h1 h3
      refine ⟨(b, none) :: log, ?_, ?_, ?_⟩
      · rw [h1]; simp
      · simp only [List.map_cons, List.flatten_cons]
        exact (List.prefix_append_right_inj _).2 h2
      · split at h3
        · rename_i he
          refine ⟨?_, by simp [h3.2]⟩
          intro m hm
          rcases List.mem_cons.1 hm with rfl | hm
          · rfl
          · exact h3.1 m hm
        · rename_i e he
          obtain ⟨ok, b', k, rfl, h4⟩ := h3
          refine ⟨(b, none) :: ok, b', k, by simp, ?_⟩
          intro m hm
          rcases List.mem_cons.1 hm with rfl | hm
          · rfl
          · exact h4 m hm
    · refine ⟨[(b, some (k, e))], rfl, by simp, [], b, k, by simp, by simp⟩

/-- Serializing without NULs. -/
theorem ser_good {w : Writer σ} {c : Cfg} {t : Ty} {x : Src} (h : Serializable t x) (hn : ¬ HasNul x)
    (hl : (bytesOf c t x).length < 2 ^ 63) :
    ∃ ws, ws.flatten = bytesOf c t x ∧ Tr w (ser w c t x) ws (.ok (bytesOf c t x).length) := by
  have hf : ∀ b : Bytes, Text ((fun _ => []) b) := fun _ => ⟨⟨[], by simp⟩, by simp⟩
  have ht : target (.crate c.bigEndian) (fun _ => []) t x = bytesOf c t x := by
    unfold target bytesOf; rw [mend_meaning x hn t]
  rcases ser_half (w := w) (c := c) hf x t h.acc h.ex h.inner (by rw [ht]; exact hl) with ⟨_, h⟩ | ⟨h, _⟩
  · rw [ht] at h; exact h
  · exact absurd h hn

/-- Serializing with NULs. -/
theorem ser_bad {w : Writer σ} {c : Cfg} {t : Ty} {x : Src} (h : Serializable t x) (hn : HasNul x)
    {f : Bytes → Bytes} (hf : ∀ b, Text (f b)) (hl : (bytesOf c t (mend f x)).length < 2 ^ 63) :
    ∃ ws, ws.flatten <+: bytesOf c t (mend f x) ∧ Tr w (ser w c t x) ws .badInput := by
  rcases ser_half (w := w) (c := c) hf x t h.acc h.ex h.inner hl with ⟨h, _⟩ | ⟨_, h⟩
  · exact absurd hn h
  · exact h

theorem vec_good {c : Cfg} {t : Ty} {x : Src} (h : Serializable t x) (hn : ¬ HasNul x)
    (hl : (bytesOf c t x).length < 2 ^ 63) : serializeToVec c t x = .ok (bytesOf c t x) := by
  obtain ⟨ws, h1, h2⟩ := ser_good (w := vecWriter) h hn hl
  unfold serializeToVec serialize
  rw [h2, runAll_vec]
  simp [h1]

theorem vec_bad {c : Cfg} {t : Ty} {x : Src} (h : Serializable t x) (hn : HasNul x)
    {f : Bytes → Bytes} (hf : ∀ b, Text (f b)) (hl : (bytesOf c t (mend f x)).length < 2 ^ 63) :
    serializeToVec c t x = .fail .unwrap := by
  obtain ⟨ws, h1, h2⟩ := ser_bad (w := vecWriter) h hn hf hl
  unfold serializeToVec serialize
  rw [h2, runAll_vec]

theorem bytesOf_fits {c : Cfg} {t : Ty} {x : Src} (h : Serializable t x) (hn : ¬ HasNul x) :
    Fits t (meaning (.crate c.bigEndian) t x) := fits_meaning _ x t h.acc hn

theorem toStr_length_le (d : Bytes) : (toStr d).length ≤ d.length := by
  have h : (asBytesNC d).length ≤ d.length := by
    unfold asBytesNC
    split
    · simp
    · simp
  simp only [toStr]
  split
  · simp
  · split
    · exact h
    · simp

theorem text_nil : Text [] := ⟨⟨[], by simp⟩, by simp⟩

theorem bounded_iff {c : Cfg} {t : Ty} {x : Src} (hn : ¬ HasNul x) :
    Bounded c t x ↔ (bytesOf c t x).length < 2 ^ 63 := by
  unfold Bounded bytesOf
  rw [mend_meaning x hn t]

theorem traverse_map {α β : Type} {f : α → Res β} {g : α → β} {l : List α}
    (h : ∀ a ∈ l, f a = .ok (g a)) : Res.traverse f l = .ok (l.map g) := by
  induction l with
  | nil => rfl
  | cons a l ih =>
    simp only [Res.traverse, h a (by simp), ih fun b hb => h b (by simp [hb]), Res.bind_ok, Res.pure_eq,
      List.map_cons]

theorem bytesOf_seq {c : Cfg} {e : Ty} {xs : List Src} : bytesOf c (.A e) (.seq xs) =
    if (size e).isSome then (xs.map (bytesOf c e)).flatten
    else encArr (.crate c.bigEndian) e (xs.map (bytesOf c e)) := by
  unfold bytesOf
  simp only [meaning, meaningEach_eq, enc, List.map_map]
  rfl

theorem encAll_meaningAll {c : Cfg} {ts : List Ty} : ∀ {xs : List Src},
    encAll (.crate c.bigEndian) ts (meaningAll (.crate c.bigEndian) ts xs) =
      List.zipWith (fun t x => (t, bytesOf c t x)) ts xs := by
  induction ts with
  | nil => intro xs; simp [meaningAll, encAll]
  | cons t ts ih =>
    intro xs
    cases xs with
    | nil => simp [meaningAll, encAll]
    | cons x xs => simp [meaningAll, encAll, ih, bytesOf]

theorem bytesOf_tup {c : Cfg} {ts : List Ty} {xs : List Src} : bytesOf c (.tuple ts) (.tup xs) =
    encStruct (size (.tuple ts)) (List.zipWith (fun t x => (t, bytesOf c t x)) ts xs) := by
  rw [← encAll_meaningAll]
  unfold bytesOf
  simp only [meaning, enc]

end GV
