import Verif.Proofs.Join
import Verif.Props.C39_C44
/-
C96: arrays of fixed-size items join and split as their bytes do.
-/
namespace GV.Props
open GV Spec

theorem items_ok {e : Ty} {xs : List Src} (h : Serializable (.A e) (.seq xs)) : ∀ x ∈ xs, Serializable e x := by
  intro x hx
  refine ⟨acceptsEach_iff.1 (by simpa [Accepts] using h.acc) x hx, expands_A.1 h.ex, fun u hu => h.inner u ?_⟩
  simp only [wraps]
  exact mem_wrapsAll.2 ⟨x, hx, hu⟩

theorem bytesOf_items {c : Cfg} {e : Ty} {n : Nat} (hn : size e = some n) (xs : List Src) :
    bytesOf c (.A e) (.seq xs) = (xs.map (bytesOf c e)).flatten := by
  simp only [bytesOf, meaning, meaningEach_eq, enc, hn, Option.isSome_some, if_true, List.map_map]
  rfl

theorem bytesOf_items_length {c : Cfg} {e : Ty} {n : Nat} (hn : size e = some n) {xs : List Src}
    (h : ∀ x ∈ xs, Serializable e x) : (bytesOf c (.A e) (.seq xs)).length = xs.length * n := by
  rw [bytesOf_items hn, flatten_length (w := n), List.length_map]
  intro b hb
  obtain ⟨x, hx, rfl⟩ := List.mem_map.1 hb
  have h1 := h x hx
  exact enc_length _ e _ n (bytesOf_fits (c := c) h1 (noNul_fixed x e h1.acc (by simp [hn]))) hn

theorem noNul_items {e : Ty} {n : Nat} (hn : size e = some n) {xs : List Src} (h : ∀ x ∈ xs, Serializable e x) :
    ¬ HasNul (.seq xs) := by
  simp only [HasNul, hasNulAny_iff, not_exists, not_and]
  exact fun x hx => noNul_fixed x e (h x hx).acc (by simp [hn])

theorem tidyArrays_fixed (t : Ty) : (size t).isSome → tidyArrays t = true := by
  have tup : ∀ ts : List Ty, (∀ t ∈ ts, (size t).isSome → tidyArrays t = true) → (∀ t ∈ ts, (size t).isSome) →
      tidyArraysAll ts = true := by
    intro ts
    induction ts with
    | nil => intro _ _; rfl
    | cons t ts ih =>
      intro h1 h2
      simp [tidyArraysAll, h1 t (by simp) (h2 t (by simp)), ih (fun u hu => h1 u (by simp [hu])) fun u hu => h2 u (by simp [hu])]
  induction t using Ty.ind with
  | a e _ => intro h; simp [size] at h
  | m e _ => intro h; simp [size] at h
  | tuple ts ih =>
    intro h
    obtain ⟨n, hn⟩ := Option.isSome_iff_exists.1 h
    obtain ⟨_, _, hsz, _⟩ := size_tuple_members hn
    simp only [tidyArrays]
    exact tup ts ih hsz
  | dict k v ihk ihv =>
    intro h
    obtain ⟨n, hn⟩ := Option.isSome_iff_exists.1 h
    rw [size_dict_eq] at hn
    obtain ⟨_, _, hsz, _⟩ := size_tuple_members hn
    simp only [tidyArrays, Bool.and_eq_true]
    exact ⟨ihk (hsz k (by simp)), ihv (hsz v (by simp))⟩
  | _ => intro _; rfl

theorem items_join {e : Ty} {xs ys : List Src} (hx : Serializable (.A e) (.seq xs))
    (hy : Serializable (.A e) (.seq ys)) : Serializable (.A e) (.seq (xs ++ ys)) := by
  refine ⟨?_, hx.ex, fun u hu => ?_⟩
  · simp only [Accepts]
    refine acceptsEach_iff.2 fun x h => ?_
    rcases List.mem_append.1 h with h | h
    · exact (items_ok hx x h).acc
    · exact (items_ok hy x h).acc
  · simp only [wraps] at hu
    obtain ⟨x, h, hu⟩ := mem_wrapsAll.1 hu
    rcases List.mem_append.1 h with h | h
    · exact (items_ok hx x h).inner u hu
    · exact (items_ok hy x h).inner u hu

/-- The bytes of two arrays of fixed-size items one after the other are those of the array of all the items, and
    are read as that, at any aligned address. -/
theorem c96_join (c : Cfg) (e : Ty) (n : Nat) (xs ys : List Src) (hn : size e = some n)
    (hx : Serializable (.A e) (.seq xs)) (hy : Serializable (.A e) (.seq ys)) (hsm : Small (.A e))
    (hl : (xs.length + ys.length) * n < 2 ^ 63) :
    ∃ b b', serializeToVec c (.A e) (.seq xs) = .ok b ∧ serializeToVec c (.A e) (.seq ys) = .ok b' ∧
      serializeToVec c (.A e) (.seq (xs ++ ys)) = .ok (b ++ b') ∧
      b.length = xs.length * n ∧ b'.length = ys.length * n ∧
      ∀ addr, Spec.align e ∣ addr → readAs c (.A e) ⟨addr, b ++ b'⟩ =
        .ok (.arr ((xs ++ ys).map (meaning (.crate c.bigEndian) e))) := by
  have h1 := bytesOf_items_length (c := c) hn (items_ok hx)
  have h2 := bytesOf_items_length (c := c) hn (items_ok hy)
  have h3 := bytesOf_items_length (c := c) hn (items_ok (items_join hx hy))
  have e1 := Nat.add_mul xs.length ys.length n
  have hj : bytesOf c (.A e) (.seq (xs ++ ys)) = bytesOf c (.A e) (.seq xs) ++ bytesOf c (.A e) (.seq ys) := by
    simp [bytesOf_items hn]
  rw [List.length_append] at h3
  refine ⟨_, _, vec_good hx (noNul_items hn (items_ok hx)) (by omega),
    vec_good hy (noNul_items hn (items_ok hy)) (by omega), ?_, h1, h2, fun addr ha => ?_⟩
  · rw [← hj]
    exact vec_good (items_join hx hy) (noNul_items hn (items_ok (items_join hx hy))) (by omega)
  · obtain ⟨b, hb, hr⟩ := c40_types_partial c (.A e) (.seq (xs ++ ys)) addr (items_join hx hy)
      (noNul_items hn (items_ok (items_join hx hy))) hsm (by simpa [Spec.align] using ha) (by omega)
      (by simp [tidyArrays, hn, tidyArrays_fixed e])
    rw [vec_good (items_join hx hy) (noNul_items hn (items_ok (items_join hx hy))) (by omega)] at hb
    rw [← hj, Res.ok.inj hb, hr]
    simp [meaning, meaningEach_eq]

/-- The same for whatever bytes: with whole items in front, reading what is joined gives the items of both parts. -/
theorem c96_read (c : Cfg) (e : Ty) (n : Nat) (a b : Slice) (vs ws : List Val) (hn : size e = some n)
    (hx : Expands (.A e)) (hsm : Small (.A e)) (ha : Spec.align e ∣ a.addr) (hb : Spec.align e ∣ b.addr)
    (hl : a.len + b.len < 2 ^ 63) (hna : n ∣ a.len) (hnb : n ∣ b.len)
    (h1 : readAs c (.A e) a = .ok (.arr vs)) (h2 : readAs c (.A e) b = .ok (.arr ws)) :
    readAs c (.A e) ⟨a.addr, a.bytes ++ b.bytes⟩ = .ok (.arr (vs ++ ws)) := by
  have hp : 0 < n := (size_pos_dvd e n hn).1
  simp only [Slice.len] at hl hna hnb
  rw [readAs_pieces hn hx hsm ha (by simp only [Slice.len]; omega), if_pos (Nat.mod_eq_zero_of_dvd hna)] at h1
  rw [readAs_pieces hn hx hsm hb (by simp only [Slice.len]; omega), if_pos (Nat.mod_eq_zero_of_dvd hnb)] at h2
  rw [readAs_pieces hn hx hsm (s := ⟨a.addr, a.bytes ++ b.bytes⟩) ha
    (by simp only [Slice.len, List.length_append]; exact hl), if_pos]
  · simp only [Res.ok.injEq, Val.arr.injEq] at h1 h2 ⊢
    rw [chunks_append hp (Nat.mod_eq_zero_of_dvd hna), List.map_append, h1, h2]
  · simp only [List.length_append]
    exact Nat.mod_eq_zero_of_dvd (Nat.dvd_add hna hnb)

/-- Cutting between two items gives two arrays, where they are, with the items before and after. -/
theorem c96_split (c : Cfg) (e : Ty) (n k : Nat) (s : Slice) (vs : List Val) (hn : size e = some n)
    (hx : Expands (.A e)) (hsm : Small (.A e)) (ha : Spec.align e ∣ s.addr) (hl : s.len < 2 ^ 63)
    (h : readAs c (.A e) s = .ok (.arr vs)) (hk : k ≤ vs.length) :
    readAs c (.A e) ⟨s.addr, s.bytes.take (k * n)⟩ = .ok (.arr (vs.take k)) ∧
      readAs c (.A e) ⟨s.addr + k * n, s.bytes.drop (k * n)⟩ = .ok (.arr (vs.drop k)) := by
  have hp : 0 < n := (size_pos_dvd e n hn).1
  rw [readAs_pieces hn hx hsm ha hl] at h
  simp only [Res.ok.injEq, Val.arr.injEq] at h
  by_cases hk0 : k = 0
  · subst hk0
    simp only [Nat.zero_mul, List.take_zero, List.drop_zero, Nat.add_zero]
    refine ⟨?_, by rw [readAs_pieces hn hx hsm ha hl, h]⟩
    rw [readAs_pieces hn hx hsm (s := ⟨s.addr, []⟩) ha (by simp [Slice.len])]
    simp [chunks]
  have hd : s.bytes.length % n = 0 := by
    by_contra hd
    rw [if_neg hd] at h
    subst h
    simp at hk
    exact hk0 hk
  rw [if_pos hd] at h
  have hlen : vs.length = s.bytes.length / n := by rw [← h]; simp [chunks]
  have hle : k * n ≤ s.bytes.length := by
    rw [hlen] at hk
    exact Nat.le_trans (Nat.mul_le_mul_right n hk) (Nat.div_mul_le_self _ _)
  have ht : (s.bytes.take (k * n)).length = k * n := by rw [List.length_take]; omega
  have htm : (s.bytes.take (k * n)).length % n = 0 := by rw [ht]; exact Nat.mul_mod_left _ _
  have hdm : (s.bytes.drop (k * n)).length % n = 0 := by
    rw [List.length_drop]
    exact Nat.mod_eq_zero_of_dvd (Nat.dvd_sub (Nat.dvd_of_mod_eq_zero hd) (Nat.dvd_mul_left n k))
  have hc := chunks_append hp (b := s.bytes.drop (k * n)) htm
  rw [List.take_append_drop] at hc
  have hcl : ((chunks n (s.bytes.take (k * n))).map (dec (.crate c.bigEndian) e)).length = k := by
    simp only [List.length_map, chunks, List.length_range, ht]
    exact Nat.mul_div_cancel _ hp
  rw [hc, List.map_append] at h
  rw [readAs_pieces hn hx hsm (s := ⟨s.addr, s.bytes.take (k * n)⟩) ha
      (by simp only [Slice.len, ht] at hl ⊢; omega), if_pos htm,
    readAs_pieces hn hx hsm (s := ⟨s.addr + k * n, s.bytes.drop (k * n)⟩)
      (Nat.dvd_add ha (Nat.dvd_mul_left_of_dvd (size_pos_dvd e n hn).2 k))
      (by simp only [Slice.len, List.length_drop] at hl ⊢; omega), if_pos hdm]
  rw [← h, List.take_left' hcl, List.drop_left' hcl]
  exact ⟨rfl, rfl⟩

/-- But a part of an item after whole items makes all of them disappear. -/
theorem c96_torn (c : Cfg) (e : Ty) (n : Nat) (s : Slice) (part : Bytes) (hn : size e = some n)
    (hx : Expands (.A e)) (hsm : Small (.A e)) (ha : Spec.align e ∣ s.addr) (hl : s.len + part.length < 2 ^ 63)
    (hs : n ∣ s.len) (hp : ¬ n ∣ part.length) :
    readAs c (.A e) ⟨s.addr, s.bytes ++ part⟩ = .ok (.arr []) := by
  rw [readAs_pieces hn hx hsm (s := ⟨s.addr, s.bytes ++ part⟩) ha
    (by simp only [Slice.len, List.length_append] at hl ⊢; exact hl), if_neg]
  intro h
  rw [List.length_append] at h
  exact hp ((Nat.dvd_add_right hs).1 (Nat.dvd_of_mod_eq_zero h))

/-- Writing the items in two goes into the same writer is, call by call, the same as writing them in one, whatever
    the writer does, errors included; the lengths add up. -/
theorem c96_stream {σ : Type} (w : Writer σ) (c : Cfg) (e : Ty) (n : Nat) (xs ys : List Src) (s : Sink σ)
    (hn : size e = some n) (hx : Serializable (.A e) (.seq xs)) (hy : Serializable (.A e) (.seq ys))
    (hl : (xs.length + ys.length) * n < 2 ^ 63) :
    ser w c (.A e) (.seq (xs ++ ys)) s = (do
      let k ← ser w c (.A e) (.seq xs)
      let m ← ser w c (.A e) (.seq ys)
      pure (k + m)) s := by
  have e1 := Nat.add_mul xs.length ys.length n
  have h1 : ∀ zs, ser w c (.A e) (.seq zs) = serFixed w c e 0 zs := by
    intro zs
    rw [ser]
    simp only [sizeOf_eq, hn]
  simp only [h1]
  rw [serFixed_append hn ys (items_ok hy) xs 0 s (items_ok hx) (by omega)]
  obtain ⟨ws, _, h2⟩ := ser_good (w := w) (c := c) hx (noNul_items hn (items_ok hx))
    (by rw [bytesOf_items_length hn (items_ok hx)]; omega)
  have h2 := h2 s
  rw [h1, bytesOf_items_length hn (items_ok hx)] at h2
  simp only [wm_bind, h2]
  generalize runAll w ws s = r
  obtain ⟨s', o⟩ := r
  cases o with
  | some er => rfl
  | none =>
    simp only
    rw [serFixed_shift hn ys (xs.length * n) s' (items_ok hy) (by omega)]
    rfl

-- [1, 513] and [7] of type `aq`, then of type `a(yu)`
example : Serializable (.A .Q) (.seq [.num 1, .num 513]) ∧ size .Q = some 2 ∧ Small (.A .Q) :=
  ⟨⟨⟨⟨2, rfl, by decide⟩, ⟨2, rfl, by decide⟩, trivial⟩, by decide, by simp [wraps, wrapsAll]⟩, rfl, by decide⟩
example : serializeToVec dbg (.A .Q) (.seq [.num 1, .num 513]) = .ok [1, 0, 1, 2] ∧
    serializeToVec dbg (.A .Q) (.seq [.num 7]) = .ok [7, 0] ∧
    serializeToVec dbg (.A .Q) (.seq [.num 1, .num 513, .num 7]) = .ok [1, 0, 1, 2, 7, 0] := by decide
example : readAs dbg (.A .Q) ⟨64, [1, 0, 1, 2, 7, 0]⟩ = .ok (.arr [.num 1, .num 513, .num 7]) ∧
    readAs dbg (.A .Q) ⟨66, [1, 2, 7, 0]⟩ = .ok (.arr [.num 513, .num 7]) ∧
    readAs dbg (.A .Q) ⟨64, [1, 0, 1, 2, 7]⟩ = .ok (.arr []) := ⟨rfl, rfl, rfl⟩

/-- Nothing like it holds for items of variable size: two arrays of one string each, joined, are read as four strings, none of them
    the second one. -/
theorem c96_variable : serializeToVec dbg (.A .S) (.seq [.str [97]]) = .ok [97, 0, 2] ∧
    serializeToVec dbg (.A .S) (.seq [.str [98]]) = .ok [98, 0, 2] ∧
    readAs dbg (.A .S) ⟨64, [97, 0, 2, 98, 0, 2]⟩ = .ok (.arr [.str [97], .str [], .str [], .str [97]]) := by
  refine ⟨by decide, by decide, rfl⟩

end GV.Props
