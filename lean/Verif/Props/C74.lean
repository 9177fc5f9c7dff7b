import Verif.Proofs.Visits
import Verif.Props.C72_C73
import Verif.Props.C54_C56
import Verif.Props.C19_C48
/-
C74: how much there is to read.
-/
namespace GV.Props
open GV Spec

/-- What is to be shown of each type. -/
def FewParts (c : Cfg) (root : Slice) (t : Ty) : Prop :=
  ∀ r v, Good c root t r → view c t r = .ok v → parts v ≤ types t * (r.len + 1) ^ arrayDepth t

theorem depth_fixed (t : Ty) : ∀ n, Spec.size t = some n → arrayDepth t = 0 := by
  induction t using Ty.ind with
  | a e _ => intro n h; simp [Spec.size] at h
  | m e _ => intro n h; simp [Spec.size] at h
  | tuple ts ih =>
    intro n h
    replace h := (size_tuple_members h).choose_spec.2.1
    simp only [arrayDepth]
    clear n
    induction ts with
    | nil => rfl
    | cons t ts iht =>
      obtain ⟨n, hn⟩ := Option.isSome_iff_exists.1 (h t (by simp))
      simp only [arrayDepths, ih t (by simp) n hn,
        iht (fun u hu => ih u (by simp [hu])) fun u hu => h u (by simp [hu])]
      rfl
  | dict k v ihk ihv =>
    intro n h
    simp only [Spec.size] at h
    split at h
    · rename_i m n' h1 h2
      simp [arrayDepth, ihk _ h1, ihv _ h2]
    · cases h
  | _ => intro _ _; rfl

/-- A child is no longer than what it is a child of, unless its type is fixed-size. -/
theorem FewParts.child {c : Cfg} {root : Slice} {t : Ty} (h : FewParts c root t) {r : Slice} {v : Val} {n : Nat}
    (hg : Good c root t r) (hv : view c t r = .ok v) (hn : Spec.size t = none → r.len ≤ n) :
    parts v ≤ types t * (n + 1) ^ arrayDepth t := by
  have h1 := h r v hg hv
  cases hs : Spec.size t with
  | some m => rw [depth_fixed t m hs] at h1 ⊢; simpa using h1
  | none => exact Nat.le_trans h1 (Nat.mul_le_mul_left _ (Nat.pow_le_pow_left (by have := hn hs; omega) _))

theorem partOf_le {s r : Slice} (h : PartOf s r) : r.len ≤ s.len := by
  obtain ⟨lo, hi, h1, h2, _, h3⟩ := h
  simp only [Slice.len, h3, List.length_take, List.length_drop]
  omega

theorem arrRefs_few {c : Cfg} {root s : Slice} {e : Ty} {rs : List Slice} (hg : Good c root (.A e) s)
    (h : arrRefs c e s = .ok rs) :
    rs.length ≤ s.len ∧ (Spec.size e = none → ∀ r ∈ rs, r.len ≤ s.len) := by
  have hx : Expands e := expands_A.1 hg.ex
  cases hs : Spec.size e with
  | some n =>
    refine ⟨?_, fun h => by cases h⟩
    simp only [arrRefs, sizeOf_eq, hs] at h
    obtain ⟨⟨n', a⟩, h1, h2⟩ := Res.bind_eq_ok.1 h
    simp only [Res.pure_eq, Res.ok.injEq] at h2
    rw [← h2]
    simp only [sliceElems, List.length_map, List.length_range]
    exact Nat.div_le_self _ _
  | none =>
    obtain ⟨h1, h2, _, _⟩ := c30_ends c e s rs hg.al hg.len hs h
    constructor
    · have h3 := arrLen_ok (c := c) hg.len
      rw [h1] at h3
      have h4 := arrFrame_count s.bytes
      have h5 := Nat.le_mul_of_pos_right (Spec.arrFrame s.bytes).2.length (arrW_isWidth s.bytes).pos
      simp only [Res.ok.injEq] at h3
      simp only [Slice.len]
      omega
    · intro _ r hr
      obtain ⟨i, hi, rfl⟩ := List.getElem_of_mem hr
      rcases c32_in_body c e s i _ _ hx hg.al hg.len h1 hi (h2 i hi) with h | ⟨a, b, _, _, _, _, h⟩
      · simp [Slice.len, h]
      · rw [h]
        simp only [Slice.len, Spec.sub, List.length_drop, List.length_take]
        omega

theorem toOption_few {c : Cfg} {root s r : Slice} {e : Ty} (hg : Good c root (.M e) s)
    (h : toOption c e s = .ok (some r)) : Spec.size e = none → r.len ≤ s.len := by
  intro hs
  have hx : Expands e := expands_M.1 hg.ex
  have := toOption_ok (c := c) hx hg.al (Nat.lt_trans hg.len (by decide))
  cases hm : Spec.maybeChild e s.bytes with
  | none => rw [hm] at this; rw [this] at h; cases h
  | some x =>
    rw [hm] at this
    cases hb : Spec.badSize e x with
    | true => rw [this.1 hb] at h; cases h
    | false =>
      obtain ⟨r', h1, _, h2, _⟩ := this.2 hb
      rw [h1] at h
      simp only [Res.ok.injEq, Option.some.injEq] at h
      subst h
      have := maybeChild_mem hm
      simp only [Slice.len, h2, Option.getD_some, castBytes_eq hs hb]
      exact this

theorem members_few {c : Cfg} {root s : Slice} {gv : Ty} {ts : List Ty} {rs : List Slice} (hm : HasMembers gv ts)
    (hg : Good c root gv s) (h : tupRefs c gv ts s = .ok rs) (i : Nat) (h1 : i < ts.length) (h2 : i < rs.length) :
    Spec.size ts[i] = none → rs[i].len ≤ s.len := by
  intro hs
  have hn : Spec.size gv = none := by
    cases hgv : Spec.size gv with
    | none => rfl
    | some n =>
      have : Spec.size (.tuple ts) = some n := by
        rcases hm with rfl | ⟨k, v, rfl, rfl⟩
        · exact hgv
        · rw [← size_dict_eq]; exact hgv
      obtain ⟨_, _, h, _⟩ := size_tuple_members this
      have := h ts[i] (List.getElem_mem _)
      rw [hs] at this; cases this
  obtain ⟨_, h3⟩ := c47_in_body c gv ts s rs hm hg.ex hg.sm hn hg.al hg.len h
  rcases h3 i ts[i] rs[i] (List.getElem?_eq_getElem h1) (List.getElem?_eq_getElem h2) with ⟨e, _, hp⟩ | hd | hd
  · refine Nat.le_trans (partOf_le hp) ?_
    simp only [Slice.len, List.length_take]; omega
  · simp [Slice.len, hd.2, hs]
  · simp [Slice.len, hd.2.2]

theorem pow_pos' (n d : Nat) : 1 ≤ (n + 1) ^ d := Nat.one_le_pow _ _ (by omega)

/-- The members of a structure together. -/
theorem members_sum {c : Cfg} {root : Slice} {n : Nat} : ∀ (ts : List Ty) (rs : List Slice) (vs : List Val),
    (∀ t ∈ ts, FewParts c root t) → List.Forall₂ (Good c root) ts rs → viewAll c ts rs = .ok vs →
    (∀ i (h1 : i < ts.length) (h2 : i < rs.length), Spec.size ts[i] = none → rs[i].len ≤ n) →
    partsAll vs ≤ typesAll ts * (n + 1) ^ arrayDepths ts
  | [], [], vs, _, _, h, _ => by
    simp only [viewAll, Res.ok.injEq] at h; subst h; simp [partsAll]
  | t :: ts, r :: rs, vs, ih, hg, h, hl => by
    simp only [viewAll] at h
    obtain ⟨v, h1, h⟩ := Res.bind_eq_ok.1 h
    obtain ⟨ws, h2, h⟩ := Res.bind_eq_ok.1 h
    simp only [Res.pure_eq, Res.ok.injEq] at h
    subst h
    cases hg with
    | cons hg hgs =>
      have h3 := (ih t (by simp)).child hg h1 (n := n) (hl 0 (by simp) (by simp))
      have h4 := members_sum ts rs ws (fun u hu => ih u (by simp [hu])) hgs h2 fun i a b hi =>
        hl (i + 1) (by simpa using a) (by simpa using b) (by simpa using hi)
      have h5 := Nat.mul_le_mul_left (types t) (pow_le_max (n := n) (Nat.le_max_left (arrayDepth t) (arrayDepths ts)))
      have h6 := Nat.mul_le_mul_left (typesAll ts) (pow_le_max (n := n) (Nat.le_max_right (arrayDepth t) (arrayDepths ts)))
      simp only [partsAll, typesAll, arrayDepths, Nat.add_mul]
      omega
  | [], _ :: _, _, _, hg, _, _ => nomatch hg
  | _ :: _, [], _, _, hg, _, _ => nomatch hg

theorem few_parts (c : Cfg) (root : Slice) (t : Ty) : FewParts c root t := by
  induction t using Ty.ind with
  | a e ih =>
    intro s v hg hv
    obtain ⟨rs, vs, h1, h2, rfl⟩ := view_arr hv
    obtain ⟨hc, hm⟩ := arrRefs_few hg h1
    have hgs := (arrRefs_good hg).1 rs h1
    obtain ⟨hlen, hget⟩ := traverse_get h2
    have hsum : ∀ vs : List Val, (∀ v ∈ vs, parts v ≤ types e * (s.len + 1) ^ arrayDepth e) →
        partsAll vs ≤ vs.length * (types e * (s.len + 1) ^ arrayDepth e) := by
      intro vs
      induction vs with
      | nil => simp [partsAll]
      | cons v vs ih =>
        intro h
        have := h v (by simp)
        have := ih fun w hw => h w (by simp [hw])
        simp only [partsAll, List.length_cons, Nat.succ_mul]
        omega
    have h3 := hsum vs fun v hv => by
      obtain ⟨i, hi, rfl⟩ := List.getElem_of_mem hv
      have hi' : i < rs.length := by omega
      exact ih.child (hgs _ (List.getElem_mem hi')) (hget i hi' hi) fun hs => hm hs _ (List.getElem_mem hi')
    have h4 : vs.length * (types e * (s.len + 1) ^ arrayDepth e) ≤ s.len * (types e * (s.len + 1) ^ arrayDepth e) :=
      Nat.mul_le_mul_right _ (by omega)
    have h5 := pow_pos' s.len (arrayDepth e + 1)
    simp only [parts, types, arrayDepth, Nat.add_mul, Nat.one_mul]
    have h6 : s.len * (types e * (s.len + 1) ^ arrayDepth e) ≤ types e * (s.len + 1) ^ (arrayDepth e + 1) := by
      rw [Nat.pow_succ, Nat.mul_left_comm, Nat.mul_comm ((s.len + 1) ^ arrayDepth e)]
      exact Nat.mul_le_mul_left _ (Nat.mul_le_mul_right _ (by omega))
    omega
  | m e ih =>
    intro s v hg hv
    have h5 := pow_pos' s.len (arrayDepth e)
    rcases view_just hv with ⟨_, rfl⟩ | ⟨r, w, h1, h2, rfl⟩
    · simp only [parts, types, arrayDepth, Nat.add_mul, Nat.one_mul]; omega
    · have h3 := ih.child ((toOption_good hg).1 r h1) h2 (toOption_few hg h1)
      simp only [parts, types, arrayDepth, Nat.add_mul, Nat.one_mul]; omega
  | tuple ts ih =>
    intro s v hg hv
    obtain ⟨rs, vs, h1, h2, rfl⟩ := view_tuple hv
    have h3 := members_sum ts rs vs ih (tuple_forall hg h1) h2 fun i a b =>
      members_few (.inl rfl) hg h1 i a b
    have h5 := pow_pos' s.len (arrayDepths ts)
    simp only [parts, types, arrayDepth, Nat.add_mul, Nat.one_mul]; omega
  | dict k v ihk ihv =>
    intro s w hg hv
    obtain ⟨rs, vs, h1, h2, rfl⟩ := view_dict hv
    have h3 := members_sum [k, v] rs vs (by
      intro t ht
      simp only [List.mem_cons, List.not_mem_nil, or_false] at ht
      rcases ht with rfl | rfl <;> assumption) (dict_forall hg h1) h2 fun i a b =>
      members_few (.inr ⟨k, v, rfl, rfl⟩) hg h1 i a b
    have h5 := pow_pos' s.len (max (arrayDepth k) (arrayDepth v))
    simp only [typesAll, arrayDepths, Nat.max_zero, Nat.add_zero] at h3
    simp only [parts, types, arrayDepth, Nat.add_mul, Nat.one_mul] at h3 ⊢; omega
  | v =>
    intro s v _ hv
    obtain ⟨_, _, _, rfl⟩ := view_variant hv
    simp [parts, types, arrayDepth]
  | _ => intro s v _ hv; simp only [view, Res.ok.injEq] at hv; subst hv; simp [parts, types, arrayDepth]

/-- Reading everything in `n` bytes comes upon at most `types t * (n + 1) ^ arrayDepth t` values. -/
theorem c74_bound (c : Cfg) (t : Ty) (s : Slice) (v : Val) (hx : Expands t) (hsm : Small t)
    (ha : Spec.align t ∣ s.addr) (hl : s.len < 2 ^ 63) (hv : readAs c t s = .ok v) :
    parts v ≤ types t * (s.len + 1) ^ arrayDepth t := by
  obtain ⟨r, h1, hg⟩ := cast_good (c := c) hx hsm ha hl
  obtain ⟨r', h1', h2, h3, h4⟩ := fromAligned_ok (c := c) hx ha
  rw [h1] at h1'
  simp only [Res.ok.injEq] at h1'
  subst h1'
  unfold readAs at hv
  rw [h1, Res.bind_ok] at hv
  refine (few_parts c s t).child hg hv fun hs => ?_
  rcases h4 with rfl | h4
  · exact Nat.le_refl _
  · simp [Slice.len, h4.1, dfltBytes, hs]

/-- The exponent cannot be lowered: for any `k` there is data of at most `1 + 16 * k * d` bytes for arrays
    nested `d` deep in which there are at least `k ^ d` values, because elements may overlap at each level. -/
theorem c74_attained (c : Cfg) (k d addr : Nat) (hl : 1 + 16 * k * d < 2 ^ 32) (hd : d < 2 ^ 39) :
    ∃ (b : Bytes) (v : Val), b.length ≤ 1 + 16 * k * d ∧ arrayDepth (nest d) = d ∧
      readAs c (nest d) ⟨addr, b⟩ = .ok v ∧ k ^ d ≤ parts v := by
  have h1 := pile_length 0 k d
  simp only [Nat.zero_add] at h1
  refine ⟨pile 0 k d, dec (.crate c.bigEndian) (nest d) (pile 0 k d), h1, nest_arrayDepth d, ?_,
    pile_parts _ _ _ _ (by omega)⟩
  rw [readAs_ok' (nest_expands d) (by unfold Small; rw [nest_show]; omega) (by rw [nest_align]; exact Nat.one_dvd _)
    (fun _ => by show (pile 0 k d).length < _; omega), nest_ragged]
  simp

example : types (.A (.tuple [.S, .A .I])) = 5 ∧ arrayDepth (.A (.tuple [.S, .A .I])) = 2 := by decide

/-- Three levels with two overlapping elements each, in thirteen bytes: 29 values. -/
example : (pile 0 2 3).length = 13 ∧
    (match readAs dbg (.A (.A (.A .S))) ⟨64, pile 0 2 3⟩ with | .ok v => parts v | .fail _ => 0) = 29 := by
  decide +kernel

/-- In normal form, where elements do not overlap, there are at most proportionally many. -/
theorem c74_normal (c : Cfg) (t : Ty) (s : Slice) (v : Val) (hx : Expands t) (hsm : Small t)
    (ha : Spec.align t ∣ s.addr) (hl : s.len < 2 ^ 63) (hn : Normal c.bigEndian t s.bytes)
    (hv : readAs c t s = .ok v) : parts v ≤ types t * (s.len + 1) := by
  obtain ⟨h1, h2, h3⟩ := c54_agree c t s hx hsm ha hl hn
  rw [h1] at hv
  simp only [Res.ok.injEq] at hv
  subst hv
  have h4 := ((h3 _).2 rfl).2
  have h5 := parts_enc (.pdf c.bigEndian) t _ h2
  rw [h4] at h5
  exact h5

example : Normal false (.A (.A .S)) [120, 0, 2, 3] ∧
    readAs dbg (.A (.A .S)) ⟨64, [120, 0, 2, 3]⟩ = .ok (.arr [.arr [.str [120]]]) :=
  ⟨⟨.arr [.arr [.str [120]]], by simpa [Fits] using utf8_xs 1, rfl⟩, rfl⟩

end GV.Props
