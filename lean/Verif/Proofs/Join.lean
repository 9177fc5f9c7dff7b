import Verif.Proofs.SerRun
import Verif.Proofs.Extent
import Verif.Proofs.View
import Verif.Proofs.Clean
import Verif.Proofs.Faults
/-
Helper lemmas: arrays of fixed-size items.
-/
namespace GV
open Spec

theorem nestedFixed_fixed (t : Ty) : (size t).isSome → nestedFixed t = false := by
  have tup : ∀ ts : List Ty, (∀ t ∈ ts, (size t).isSome → nestedFixed t = false) → (∀ t ∈ ts, (size t).isSome) →
      nestedFixedAny ts = false := by
    intro ts
    induction ts with
    | nil => intro _ _; rfl
    | cons t ts ih =>
      intro h1 h2
      simp [nestedFixedAny, h1 t (by simp) (h2 t (by simp)), ih (fun u hu => h1 u (by simp [hu])) fun u hu => h2 u (by simp [hu])]
  induction t using Ty.ind with
  | a e _ => intro h; simp [size] at h
  | m e _ => intro h; simp [size] at h
  | tuple ts ih =>
    intro h
    obtain ⟨n, hn⟩ := Option.isSome_iff_exists.1 h
    obtain ⟨_, _, hsz, _⟩ := size_tuple_members hn
    simp only [nestedFixed]
    exact tup ts ih hsz
  | dict k v ihk ihv =>
    intro h
    obtain ⟨n, hn⟩ := Option.isSome_iff_exists.1 h
    rw [size_dict_eq] at hn
    obtain ⟨_, _, hsz, _⟩ := size_tuple_members hn
    simp only [nestedFixed, Bool.or_eq_false_iff]
    exact ⟨ihk (hsz k (by simp)), ihv (hsz v (by simp))⟩
  | _ => intro _; rfl

/-- Reading such an array never fails, and cuts the bytes into items. -/
theorem readAs_pieces {c : Cfg} {e : Ty} {n : Nat} {s : Slice} (hn : size e = some n) (hx : Expands (.A e))
    (hsm : Small (.A e)) (ha : Spec.align e ∣ s.addr) (hl : s.len < 2 ^ 63) :
    readAs c (.A e) s = .ok (.arr (if s.bytes.length % n = 0 then
      (chunks n s.bytes).map (dec (.crate c.bigEndian) e) else [])) := by
  have hch : arrChildren (.crate c.bigEndian) e s.bytes =
      if s.bytes.length % n = 0 then (chunks n s.bytes).map some else [] := by
    simp only [arrChildren, hn]
  have ht : Tame (.crate c.bigEndian) (.A e) s.bytes := by
    rw [Tame]
    exact ⟨fun h => (by rw [hn] at h; cases h), fun x _ => tame_fixed _ e n hn x⟩
  have ha' : Spec.align (.A e) ∣ s.addr := by simpa [Spec.align] using ha
  have hr := readAs_tame hx hsm ha' (fun _ => hl) ht
  rw [hr]
  split
  · rename_i h
    rw [if_pos h] at hr
    rcases readAs_fault hx hsm ha' hl hr with h' | h'
    · have he : fixedArr e = false := by cases e <;> simp [fixedArr, size] at hn ⊢
      have := h'.2
      simp [nestedFixed, he, nestedFixed_fixed e (by simp [hn])] at this
    · cases h'.1
  · rw [dec_A, hch]
    split
    · simp [decChild, List.map_map, Function.comp_def]
    · rfl

/-- Pieces of what is joined. -/
theorem chunks_append {n : Nat} (hn : 0 < n) {a b : Bytes} (h : a.length % n = 0) :
    chunks n (a ++ b) = chunks n a ++ chunks n b := by
  obtain ⟨k, hk⟩ := Nat.dvd_of_mod_eq_zero h
  rw [Nat.mul_comm] at hk
  have h1 : (a ++ b).length / n = k + b.length / n := by
    rw [List.length_append, hk, Nat.add_comm, Nat.add_mul_div_right _ _ hn, Nat.add_comm]
  have h2 : a.length / n = k := by rw [hk, Nat.mul_div_cancel _ hn]
  simp only [chunks, h1, h2, List.range_add, List.map_append, List.map_map]
  congr 1
  · apply List.map_congr_left
    intro i hi
    have hi := List.mem_range.1 hi
    have : (i + 1) * n ≤ k * n := Nat.mul_le_mul_right _ hi
    rw [Nat.succ_mul] at this
    exact sub_suffix _ _ (by omega)
  · apply List.map_congr_left
    intro i _
    simp only [Function.comp_apply, Nat.add_mul, Nat.add_assoc]
    exact sub_prefix _ _ hk

/-- What can be given for a fixed-size type has no strings in it. -/
theorem noNul_fixed (x : Src) : ∀ t, Accepts t x → (size t).isSome → ¬ HasNul x := by
  induction x using Src.ind with
  | str b => intro t h hs; simp only [Accepts] at h; cases t <;> simp [isStr, size] at h hs
  | wrap u x ih => intro t h hs; simp only [Accepts] at h; rw [h.1] at hs; simp [size] at hs
  | seq xs ih => intro t h hs; cases t <;> simp [Accepts, size] at h hs
  | just x ih => intro t h hs; cases t <;> simp [Accepts, size] at h hs
  | iter xs ih => intro t h hs; cases t <;> simp [Accepts, size] at h hs
  | tup xs ih =>
    have key : ∀ (ts : List Ty) (xs : List Src), AcceptsAll ts xs → (∀ t ∈ ts, (size t).isSome) →
        (∀ x ∈ xs, ∀ t, Accepts t x → (size t).isSome → ¬ HasNul x) → ¬ HasNulAny xs := by
      intro ts
      induction ts with
      | nil => intro xs h _ _; cases xs <;> simp [AcceptsAll, HasNulAny] at h ⊢
      | cons t ts iht =>
        intro xs h hs hall
        cases xs with
        | nil => simp [HasNulAny]
        | cons x xs =>
          simp only [AcceptsAll] at h
          simp only [HasNulAny, not_or]
          exact ⟨hall x (by simp) t h.1 (hs t (by simp)),
            iht xs h.2 (fun u hu => hs u (by simp [hu])) fun y hy => hall y (by simp [hy])⟩
    intro t h hs
    obtain ⟨n, hn⟩ := Option.isSome_iff_exists.1 hs
    simp only [HasNul]
    cases t with
    | tuple ts =>
      obtain ⟨_, _, hsz, _⟩ := size_tuple_members hn
      exact key ts xs (by simpa [Accepts] using h) hsz ih
    | dict k v =>
      rw [size_dict_eq] at hn
      obtain ⟨_, _, hsz, _⟩ := size_tuple_members hn
      exact key [k, v] xs (by simpa [Accepts] using h) hsz ih
    | _ => simp [Accepts] at h
  | _ => intros; simp [HasNul]

theorem wm_bind {σ α β : Type} (m : WM σ α) (f : α → WM σ β) (s : Sink σ) : (m >>= f) s = match m s with
    | (s', .ok a) => f a s'
    | (s', .io e) => (s', .io e)
    | (s', .badInput) => (s', .badInput)
    | (s', .panic e) => (s', .panic e) := rfl

/-- The loop from `bw` on is the loop from 0 on, with `bw` more in the end. -/
theorem serFixed_shift {σ : Type} {w : Writer σ} {c : Cfg} {e : Ty} {n : Nat} (hn : size e = some n) :
    ∀ (xs : List Src) (bw : Nat) (s : Sink σ), (∀ x ∈ xs, Serializable e x) → bw + xs.length * n < 2 ^ 63 →
      serFixed w c e bw xs s = (serFixed w c e 0 xs >>= fun a => pure (bw + a)) s := by
  intro xs
  induction xs with
  | nil => intro bw s _ _; rfl
  | cons x xs ih =>
    intro bw s hx hl
    rw [List.length_cons, Nat.succ_mul] at hl
    have h1 := hx x (by simp)
    have hnn := noNul_fixed x e h1.acc (by simp [hn])
    have hlen : (bytesOf c e x).length = n := enc_length _ e _ n (bytesOf_fits (c := c) h1 hnn) hn
    obtain ⟨ws, _, h2⟩ := ser_good (w := w) (c := c) h1 hnn (by omega)
    have h2 := h2 s
    rw [hlen] at h2
    have hxs : ∀ y ∈ xs, Serializable e y := fun y hy => hx y (by simp [hy])
    have u1 : uadd c bw n = .ok (bw + n) := uadd_ok (by simp only [usizeMod]; omega)
    have u2 : uadd c 0 n = .ok (0 + n) := uadd_ok (by simp only [usizeMod]; omega)
    have h3 : ∀ k, uadd c k n = .ok (k + n) → (serFixed w c e k (x :: xs)) s =
        match runAll w ws s with
        | (s', none) => serFixed w c e (k + n) xs s'
        | (s', some er) => (s', .io er) := by
      intro k hk
      simp only [serFixed]
      show WM.bind (ser w c e x) _ s = _
      unfold WM.bind
      rw [h2]
      generalize runAll w ws s = r
      obtain ⟨s', o⟩ := r
      cases o with
      | some er => rfl
      | none =>
        show WM.bind (WM.lift (uadd c k n)) _ s' = _
        rw [hk]
        rfl
    show _ = WM.bind (serFixed w c e 0 (x :: xs)) _ s
    unfold WM.bind
    rw [h3 bw u1, h3 0 u2]
    generalize runAll w ws s = r
    obtain ⟨s', o⟩ := r
    cases o with
    | some er => rfl
    | none =>
      simp only
      rw [ih (bw + n) s' hxs (by omega), ih (0 + n) s' hxs (by omega)]
      simp only [wm_bind]
      generalize serFixed w c e 0 xs s' = r
      obtain ⟨s2, o2⟩ := r
      cases o2 with
      | ok a => show (s2, Out.ok _) = (s2, Out.ok _); congr 2; omega
      | _ => rfl

/-- Items joined are written as those before, then those after. -/
theorem serFixed_append {σ : Type} {w : Writer σ} {c : Cfg} {e : Ty} {n : Nat} (hn : size e = some n) (ys : List Src)
    (hy : ∀ y ∈ ys, Serializable e y) :
    ∀ (xs : List Src) (bw : Nat) (s : Sink σ), (∀ x ∈ xs, Serializable e x) → bw + (xs.length + ys.length) * n < 2 ^ 63 →
      serFixed w c e bw (xs ++ ys) s = (serFixed w c e bw xs >>= fun a => serFixed w c e a ys) s := by
  intro xs
  induction xs with
  | nil => intro bw s _ _; rfl
  | cons x xs ih =>
    intro bw s hx hl
    rw [List.length_cons, Nat.add_right_comm, Nat.succ_mul] at hl
    have h1 := hx x (by simp)
    have hnn := noNul_fixed x e h1.acc (by simp [hn])
    have hlen : (bytesOf c e x).length = n := enc_length _ e _ n (bytesOf_fits (c := c) h1 hnn) hn
    obtain ⟨ws, _, h2⟩ := ser_good (w := w) (c := c) h1 hnn (by omega)
    have h2 := h2 s
    rw [hlen] at h2
    have u1 : uadd c bw n = .ok (bw + n) := uadd_ok (by simp only [usizeMod]; omega)
    simp only [List.cons_append, serFixed]
    simp only [wm_bind]
    rw [h2]
    generalize runAll w ws s = r
    obtain ⟨s', o⟩ := r
    cases o with
    | some er => rfl
    | none =>
      simp only [u1, WM.lift]
      exact ih (bw + n) s' (fun y hy' => hx y (by simp [hy'])) (by omega)

end GV
