import Verif.Proofs.Spot
import Verif.Proofs.Faults
import Verif.Props.C72_C73
import Verif.Props.C54_C56
/-
Helper lemmas: going to a part of data in normal form, and where parts lie.
-/
namespace GV.Props
open GV Spec

theorem enc_A_laid {be : Bool} {e : Ty} {vs : List Val} (hf : ∀ v ∈ vs, Fits e v) :
    ∃ suf, enc (.pdf be) (.A e) (.arr vs) = laid 0 (vs.map fun v => (e, enc (.pdf be) e v)) ++ suf := by
  have hms : (vs.map (enc (.pdf be) e)).map (fun b => (e, b)) = vs.map fun v => (e, enc (.pdf be) e v) := by
    simp
  cases hs : size e with
  | none =>
    refine ⟨frames (laid 0 (vs.map fun v => (e, enc (.pdf be) e v))).length
      (layEnds 0 (vs.map fun v => (e, enc (.pdf be) e v))), ?_⟩
    simp only [enc, hs, Option.isSome_none, Bool.false_eq_true, if_false, encArr, hms]
    simp [Enc.pdf, zeros]
  | some n =>
    refine ⟨[], ?_⟩
    rw [← hms, (laid_flatten (size_pos_dvd e n hs).2 (vs.map (enc (.pdf be) e)) ?_ 0 (Nat.dvd_zero _)).1]
    · simp [enc, hs]
    · intro b hb
      obtain ⟨v, hv, rfl⟩ := List.mem_map.1 hb
      exact enc_length _ e v n (hf v hv) hs

theorem encStruct_laid (sz : Option Nat) (ms : List (Ty × Bytes)) : ∃ suf, encStruct sz ms = laid 0 ms ++ suf := by
  cases sz <;> exact ⟨_, rfl⟩

theorem encAll_get {E : Enc} : ∀ {ts : List Ty} {vs : List Val}, FitsAll ts vs →
    ts.length = vs.length ∧ (encAll E ts vs).length = ts.length ∧
      ∀ i (h : i < ts.length) (h' : i < vs.length) (h'' : i < (encAll E ts vs).length),
        Fits ts[i] vs[i] ∧ (encAll E ts vs)[i] = (ts[i], enc E ts[i] vs[i])
  | [], [], _ => ⟨rfl, rfl, fun i h => absurd h (by simp)⟩
  | [], _ :: _, h => by simp [FitsAll] at h
  | _ :: _, [], h => by simp [FitsAll] at h
  | t :: ts, v :: vs, h => by
    simp only [FitsAll] at h
    obtain ⟨h1, h2, h3⟩ := encAll_get (E := E) h.2
    refine ⟨by simp [h1], by simp [encAll, h2], ?_⟩
    intro i hi hi' hi''
    cases i with
    | zero => exact ⟨h.1, by simp [encAll]⟩
    | succ i =>
      simp only [encAll, List.getElem_cons_succ]
      exact h3 i (by simpa using hi) (by simpa using hi') (by simpa [encAll] using hi'')

theorem fitsAll_two {k x : Ty} {vs : List Val} (h : Fits (.dict k x) (.tup vs)) :
    FitsAll [k, x] vs ∧ ∀ E, enc E (.dict k x) (.tup vs) = encStruct (size (.tuple [k, x])) (encAll E [k, x] vs) := by
  match vs, h with
  | [a, b], h =>
    simp only [Fits] at h
    refine ⟨by simp [FitsAll, h.1, h.2], fun E => ?_⟩
    rw [← size_dict_eq]
    simp [enc, encAll]
  | [], h => simp [Fits] at h
  | [_], h => simp [Fits] at h
  | _ :: _ :: _ :: _, h => simp [Fits] at h

/-- What a path leads to has its place within the encoding of the whole. -/
theorem spot_sub {be : Bool} {rd : Ty → Bytes → Option Val} (hrd : ReadsNormal be rd) :
    ∀ (p : List Step) (t : Ty) (v : Val) (u : Ty) (w : Val), Fits t v → follow rd t v p = some (u, w) →
    Fits u w ∧ ∃ o, spot (.pdf be) rd t v p = some o ∧ o + (enc (.pdf be) u w).length ≤ (enc (.pdf be) t v).length ∧
      sub (enc (.pdf be) t v) o (o + (enc (.pdf be) u w).length) = enc (.pdf be) u w := by
  intro p
  induction p with
  | nil =>
    intro t v u w hf h
    simp only [follow, Option.some.injEq, Prod.mk.injEq] at h
    obtain ⟨rfl, rfl⟩ := h
    exact ⟨hf, 0, by simp [spot], by omega, by rw [Nat.zero_add]; exact sub_all _ rfl⟩
  | cons x p ih =>
    intro t v u w hf h
    -- one step to a piece of a layout, then the rest
    have step : ∀ (ms : List (Ty × Bytes)) (suf : Bytes) (i : Nat) (t' : Ty) (v' : Val) (hi : i < ms.length)
        (hi' : i < (laidAt 0 ms).length), enc (.pdf be) t v = laid 0 ms ++ suf → ms[i] = (t', enc (.pdf be) t' v') →
        Fits t' v' → follow rd t' v' p = some (u, w) →
        spot (.pdf be) rd t v (x :: p) = (spot (.pdf be) rd t' v' p).map ((laidAt 0 ms)[i] + ·) →
        Fits u w ∧ ∃ o, spot (.pdf be) rd t v (x :: p) = some o ∧
          o + (enc (.pdf be) u w).length ≤ (enc (.pdf be) t v).length ∧
          sub (enc (.pdf be) t v) o (o + (enc (.pdf be) u w).length) = enc (.pdf be) u w := by
      intro ms suf i t' v' hi hi' henc hmi hf' hw hsp
      obtain ⟨k1, o, k2, k3, k4⟩ := ih t' v' u w hf' hw
      obtain ⟨_, j2, _, j4⟩ := laidAt_sub ms [] suf 0 rfl i hi hi'
      rw [List.nil_append, ← henc, hmi] at j4
      rw [hmi] at j2
      simp only at j2 j4
      have hlen : (laid 0 ms).length ≤ (enc (.pdf be) t v).length := by rw [henc]; simp
      refine ⟨k1, (laidAt 0 ms)[i] + o, by rw [hsp, k2]; rfl, by omega, ?_⟩
      rw [← j4, sub_sub _ _ _ _ _ (by omega)] at k4
      rw [Nat.add_assoc, k4]
    unfold follow at h
    split at h
    · simp at *
    · rename_i e vs i q heq
      obtain ⟨rfl, rfl⟩ := List.cons.inj heq
      obtain ⟨y, h1, h2⟩ := Option.bind_eq_some_iff.1 h
      obtain ⟨hi, rfl⟩ := List.getElem?_eq_some_iff.1 h1
      simp only [Fits] at hf
      obtain ⟨suf, hs⟩ := enc_A_laid (be := be) hf
      have hi2 : i < (laidAt 0 (vs.map fun v => (e, enc (.pdf be) e v))).length := by
        rw [laidAt_length]; simpa using hi
      refine step _ suf i e vs[i] (by simpa using hi) hi2 hs (by simp) (hf _ (List.getElem_mem _)) h2 ?_
      simp only [spot, h1, Option.bind_some, List.getElem?_eq_getElem hi2]
    · rename_i e y q heq
      obtain ⟨rfl, rfl⟩ := List.cons.inj heq
      simp only [Fits] at hf
      obtain ⟨k1, o, k2, k3, k4⟩ := ih e y u w hf h
      refine ⟨k1, o, by simpa [spot] using k2, ?_, ?_⟩
      · simp only [enc, List.length_append]; omega
      · simp only [enc]
        rw [sub_suffix _ _ k3, k4]
    · rename_i ts vs i q heq
      obtain ⟨rfl, rfl⟩ := List.cons.inj heq
      obtain ⟨t', h1, h⟩ := Option.bind_eq_some_iff.1 h
      obtain ⟨y, h2, h⟩ := Option.bind_eq_some_iff.1 h
      obtain ⟨hi, rfl⟩ := List.getElem?_eq_some_iff.1 h1
      obtain ⟨hi', rfl⟩ := List.getElem?_eq_some_iff.1 h2
      simp only [Fits] at hf
      obtain ⟨l1, l2, l3⟩ := encAll_get (E := .pdf be) hf
      obtain ⟨l4, l5⟩ := l3 i hi hi' (by omega)
      obtain ⟨suf, hs⟩ := encStruct_laid (size (.tuple ts)) (encAll (.pdf be) ts vs)
      have hi2 : i < (laidAt 0 (encAll (.pdf be) ts vs)).length := by rw [laidAt_length]; omega
      refine step _ suf i _ _ (by omega) hi2 (by rw [enc]; exact hs) l5 l4 h ?_
      simp only [spot, h1, h2, Option.bind_some, List.getElem?_eq_getElem hi2]
    · rename_i k l vs i q heq
      obtain ⟨rfl, rfl⟩ := List.cons.inj heq
      obtain ⟨t', h1, h⟩ := Option.bind_eq_some_iff.1 h
      obtain ⟨y, h2, h⟩ := Option.bind_eq_some_iff.1 h
      obtain ⟨hi, rfl⟩ := List.getElem?_eq_some_iff.1 h1
      obtain ⟨hi', rfl⟩ := List.getElem?_eq_some_iff.1 h2
      obtain ⟨hf', henc⟩ := fitsAll_two hf
      obtain ⟨l1, l2, l3⟩ := encAll_get (E := .pdf be) hf'
      obtain ⟨l4, l5⟩ := l3 i hi hi' (by omega)
      obtain ⟨suf, hs⟩ := encStruct_laid (size (.tuple [k, l])) (encAll (.pdf be) [k, l] vs)
      have hi2 : i < (laidAt 0 (encAll (.pdf be) [k, l] vs)).length := by rw [laidAt_length]; omega
      refine step _ suf i _ _ (by omega) hi2 (by rw [henc]; exact hs) l5 l4 h ?_
      simp only [spot, h1, h2, Option.bind_some, List.getElem?_eq_getElem hi2]
    · rename_i ty d u' q heq
      obtain ⟨rfl, rfl⟩ := List.cons.inj heq
      split at h
      · rename_i hty
        obtain ⟨y, h1, h2⟩ := Option.bind_eq_some_iff.1 h
        obtain ⟨hy, hd⟩ := hrd u' d y h1
        obtain ⟨k1, o, k2, k3, k4⟩ := ih u' y u w hy h2
        subst hd
        refine ⟨k1, o, ?_, ?_, ?_⟩
        · simp only [spot, if_pos hty, h1, Option.bind_some, k2]
        · simp only [enc, List.length_append]; omega
        · simp only [enc]
          rw [List.append_assoc, sub_suffix _ _ k3, k4]
      · cases h
    · cases h

/-- Going to a part of data in normal form ends at the place of the part. -/
theorem walk_spot {c : Cfg} {rd : Ty → Bytes → Option Val} (hrd : ReadsNormal c.bigEndian rd) :
    ∀ (p : List Step) (t : Ty) (v : Val) (u : Ty) (w : Val) (a : Nat), Proper p → Expands t → Small t →
    Spec.align t ∣ a → Fits t v → (enc (.pdf c.bigEndian) t v).length < 2 ^ 63 → follow rd t v p = some (u, w) →
    ∃ o, spot (.pdf c.bigEndian) rd t v p = some o ∧
      walk c t ⟨a, enc (.pdf c.bigEndian) t v⟩ p = .ok (some (u, ⟨a + o, enc (.pdf c.bigEndian) u w⟩)) ∧
      Spec.align u ∣ a + o := by
  intro p
  induction p with
  | nil =>
    intro t v u w a _ _ _ ha _ _ h
    simp only [follow, Option.some.injEq, Prod.mk.injEq] at h
    obtain ⟨rfl, rfl⟩ := h
    exact ⟨0, by simp [spot], by simp [walk], ha⟩
  | cons x p ih =>
    intro t v u w a hp hx hsm ha hf hl h
    have hp' : Proper p := fun u hu => hp u (by simp [hu])
    have step : ∀ (ms : List (Ty × Bytes)) (suf : Bytes) (i : Nat) (t' : Ty) (v' : Val) (hi : i < ms.length)
        (hi' : i < (laidAt 0 ms).length), enc (.pdf c.bigEndian) t v = laid 0 ms ++ suf →
        ms[i] = (t', enc (.pdf c.bigEndian) t' v') → Expands t' → Small t' → Spec.align t' ∣ a →
        Fits t' v' → follow rd t' v' p = some (u, w) →
        spot (.pdf c.bigEndian) rd t v (x :: p) = (spot (.pdf c.bigEndian) rd t' v' p).map ((laidAt 0 ms)[i] + ·) →
        walk c t ⟨a, enc (.pdf c.bigEndian) t v⟩ (x :: p) =
          walk c t' ⟨a + (laidAt 0 ms)[i], enc (.pdf c.bigEndian) t' v'⟩ p →
        ∃ o, spot (.pdf c.bigEndian) rd t v (x :: p) = some o ∧
          walk c t ⟨a, enc (.pdf c.bigEndian) t v⟩ (x :: p) =
            .ok (some (u, ⟨a + o, enc (.pdf c.bigEndian) u w⟩)) ∧ Spec.align u ∣ a + o := by
      intro ms suf i t' v' hi hi' henc hmi hx' hsm' ha' hf' hw hsp hwk
      obtain ⟨_, j2, j3, _⟩ := laidAt_sub ms [] suf 0 rfl i hi hi'
      rw [hmi] at j2 j3
      simp only at j2 j3
      have hlen : (laid 0 ms).length ≤ (enc (.pdf c.bigEndian) t v).length := by rw [henc]; simp
      obtain ⟨o, k1, k2, k3⟩ := ih t' v' u w (a + (laidAt 0 ms)[i]) hp' hx' hsm' (Nat.dvd_add ha' j3) hf' (by omega) hw
      exact ⟨_, by rw [hsp, k1]; rfl, by rw [hwk, k2, Nat.add_assoc], by rw [← Nat.add_assoc]; exact k3⟩
    unfold follow at h
    split at h
    · simp at *
    · rename_i e vs i q heq
      obtain ⟨rfl, rfl⟩ := List.cons.inj heq
      obtain ⟨y, h1, h2⟩ := Option.bind_eq_some_iff.1 h
      obtain ⟨hi, rfl⟩ := List.getElem?_eq_some_iff.1 h1
      simp only [Fits] at hf
      obtain ⟨suf, hs⟩ := enc_A_laid (be := c.bigEndian) hf
      have hi2 : i < (laidAt 0 (vs.map fun v => (e, enc (.pdf c.bigEndian) e v))).length := by
        rw [laidAt_length]; simpa using hi
      have hxe : Expands e := expands_A.1 hx
      have hae : Spec.align e ∣ a := by simpa [Spec.align] using ha
      refine step _ suf i e vs[i] (by simpa using hi) hi2 hs (by simp) hxe hsm.A hae
        (hf _ (List.getElem_mem _)) h2 ?_ ?_
      · simp only [spot, h1, Option.bind_some, List.getElem?_eq_getElem hi2]
      · simp only [walk, sizeOf_eq]
        cases hse : Spec.size e with
        | none => simp only [arrIndex_enc hxe hse hae hf hl hi hi2, Res.bind_ok]
        | some n =>
          have hb : ∀ b ∈ vs.map (enc (.pdf c.bigEndian) e), b.length = n := by
            intro b hb
            obtain ⟨v, hv, rfl⟩ := List.mem_map.1 hb
            exact enc_length _ e v n (hf v hv) hse
          obtain ⟨hn, hd⟩ := size_pos_dvd e n hse
          have hms : (vs.map (enc (.pdf c.bigEndian) e)).map (fun b => (e, b)) =
              vs.map fun v => (e, enc (.pdf c.bigEndian) e v) := by simp
          have hat := (laid_flatten hd (vs.map (enc (.pdf c.bigEndian) e)) hb 0 (Nat.dvd_zero _)).2 i
            (by rw [hms]; exact hi2)
          simp only [hms, Nat.zero_add] at hat
          obtain ⟨_, j2, _, j4⟩ := laidAt_sub (vs.map fun v => (e, enc (.pdf c.bigEndian) e v)) [] suf 0 rfl i
            (by simpa using hi) hi2
          rw [List.nil_append, ← hs, hat] at j4
          rw [hat] at j2
          have hlen : (laid 0 (vs.map fun v => (e, enc (.pdf c.bigEndian) e v))).length ≤
            (enc (.pdf c.bigEndian) (.A e) (.arr vs)).length := by rw [hs]; simp
          have hmi : (enc (.pdf c.bigEndian) e vs[i]).length = n := enc_length _ e _ n (hf _ (List.getElem_mem _)) hse
          simp only [List.getElem_map, hmi] at j2 j4
          have hcount : i < (enc (.pdf c.bigEndian) (.A e) (.arr vs)).length / n := by
            rw [Nat.lt_div_iff_mul_lt hn]
            omega
          simp only [rustLayout_ok e n hse hxe, Res.bind_ok, sliceElems, Slice.len]
          rw [List.getElem?_map, List.getElem?_range hcount]
          simp only [Option.map_some, hat]
          congr 2
          rw [← j4]
          simp [Spec.sub, List.drop_take]
    · rename_i e y q heq
      obtain ⟨rfl, rfl⟩ := List.cons.inj heq
      simp only [Fits] at hf
      have hxe : Expands e := expands_M.1 hx
      have hae : Spec.align e ∣ a := by simpa [Spec.align] using ha
      have hle : (enc (.pdf c.bigEndian) e y).length < 2 ^ 63 := by
        simp only [enc, List.length_append] at hl; omega
      obtain ⟨o, k2, k3, k4⟩ := ih e y u w a hp' hxe hsm.M hae hf hle h
      refine ⟨o, by simpa [spot] using k2, ?_, k4⟩
      have hopt : toOption c e ⟨a, enc (.pdf c.bigEndian) (.M e) (.just y)⟩ = .ok (some ⟨a, enc (.pdf c.bigEndian) e y⟩) := by
        unfold toOption
        rw [sizeOf_eq]
        cases hse : Spec.size e with
        | some n =>
          simp only [enc, hse, Option.isSome_some, if_true, List.append_nil]
          rw [tryFromAligned_ok (s := ⟨a, enc (.pdf c.bigEndian) e y⟩) hxe hae,
            if_pos (Or.inl ⟨castBytes_enc hf, by simp [hse]⟩)]
        | none =>
          simp only [enc, hse, Option.isSome_none, Bool.false_eq_true, if_false]
          have he' : (enc (.pdf c.bigEndian) e y ++ [0]).isEmpty = false := by simp
          simp only [he', Bool.false_eq_true, if_false, alignOf_eq]
          rw [usub_ok (by simp [Slice.len])]
          have hw : idxTo c (Spec.align e) ⟨a, enc (.pdf c.bigEndian) e y ++ [0]⟩
              ((⟨a, enc (.pdf c.bigEndian) e y ++ [0]⟩ : Slice).len - 1) = .ok ⟨a, enc (.pdf c.bigEndian) e y⟩ := by
            unfold idxTo Slice.to
            rw [if_pos (by omega)]
            rw [Res.bind_ok, unchecked_ok (Or.inr hae)]
            simp [Slice.len]
          simp only [Res.bind_ok, hw]
          rw [tryFromAligned_ok (s := ⟨a, enc (.pdf c.bigEndian) e y⟩) hxe hae,
            if_pos (Or.inr ⟨by simp [hse], badSize_enc hf⟩)]
          rfl
      simp only [walk, hopt, Res.bind_ok]
      exact k3
    · rename_i ts vs i q heq
      obtain ⟨rfl, rfl⟩ := List.cons.inj heq
      obtain ⟨t', h1, h⟩ := Option.bind_eq_some_iff.1 h
      obtain ⟨y, h2, h⟩ := Option.bind_eq_some_iff.1 h
      obtain ⟨hi, rfl⟩ := List.getElem?_eq_some_iff.1 h1
      obtain ⟨hi', rfl⟩ := List.getElem?_eq_some_iff.1 h2
      simp only [Fits] at hf
      obtain ⟨hxs, d, hd⟩ := expands_tuple.1 hx
      obtain ⟨l1, l2, l3⟩ := encAll_get (E := .pdf c.bigEndian) hf
      obtain ⟨l4, l5⟩ := l3 i hi hi' (by omega)
      obtain ⟨suf, hs⟩ := encStruct_laid (size (.tuple ts)) (encAll (.pdf c.bigEndian) ts vs)
      have hi2 : i < (laidAt 0 (encAll (.pdf c.bigEndian) ts vs)).length := by rw [laidAt_length]; omega
      have ha0 : Spec.alignMax ts ∣ a := by simpa [Spec.align] using ha
      have ha1 : Spec.align ts[i] ∣ a :=
        Nat.dvd_trans ((specAlign_isAl _).dvd (alignMax_isAl ts) (alignMax_ge (List.getElem_mem hi))) ha0
      refine step _ suf i _ _ (by omega) hi2 (by rw [enc]; exact hs) l5 (hxs _ (List.getElem_mem _))
        (Nat.lt_of_le_of_lt (shows_ge (List.getElem_mem _)) hsm.shows) ha1 l4 h ?_ ?_
      · simp only [spot, h1, h2, Option.bind_some, List.getElem?_eq_getElem hi2]
      · have hr := tupRefs_laid (c := c) (gv := .tuple ts) (a := a) rfl hxs hd hsm.shows ha0
          (encAll_types (E := .pdf c.bigEndian) hf) (by
            intro m hm
            obtain ⟨t, _, v, _, hv, rfl⟩ := encAll_mem hf m hm
            exact ⟨fun n hn => enc_length _ t v n hv hn, badSize_enc hv⟩) (by rw [enc] at hl; exact hl)
        simp only [walk, enc, hr, Res.bind_ok, List.getElem?_eq_getElem hi, placed_get a _ 0 i (by omega) hi2, l5]
    · rename_i k l vs i q heq
      obtain ⟨rfl, rfl⟩ := List.cons.inj heq
      obtain ⟨t', h1, h⟩ := Option.bind_eq_some_iff.1 h
      obtain ⟨y, h2, h⟩ := Option.bind_eq_some_iff.1 h
      obtain ⟨hi, rfl⟩ := List.getElem?_eq_some_iff.1 h1
      obtain ⟨hi', rfl⟩ := List.getElem?_eq_some_iff.1 h2
      obtain ⟨hf', henc⟩ := fitsAll_two hf
      obtain ⟨⟨hk, hv⟩, d, hd⟩ := expands_dict.1 hx
      have hxs : ∀ t ∈ [k, l], Expands t := by
        intro t ht
        simp only [List.mem_cons, List.not_mem_nil, or_false] at ht
        rcases ht with rfl | rfl <;> assumption
      obtain ⟨l1, l2, l3⟩ := encAll_get (E := .pdf c.bigEndian) hf'
      obtain ⟨l4, l5⟩ := l3 i hi hi' (by omega)
      obtain ⟨suf, hs⟩ := encStruct_laid (size (.tuple [k, l])) (encAll (.pdf c.bigEndian) [k, l] vs)
      have hi2 : i < (laidAt 0 (encAll (.pdf c.bigEndian) [k, l] vs)).length := by rw [laidAt_length]; omega
      have ha0 : Spec.alignMax [k, l] ∣ a := by rw [align_dict_eq] at ha; simpa [Spec.align] using ha
      have ha1 : Spec.align [k, l][i] ∣ a :=
        Nat.dvd_trans ((specAlign_isAl _).dvd (alignMax_isAl [k, l]) (alignMax_ge (List.getElem_mem hi))) ha0
      refine step _ suf i _ _ (by omega) hi2 (by rw [henc]; exact hs) l5 (hxs _ (List.getElem_mem _))
        (Nat.lt_of_le_of_lt (shows_ge (List.getElem_mem _)) hsm.dict) ha1 l4 h ?_ ?_
      · simp only [spot, h1, h2, Option.bind_some, List.getElem?_eq_getElem hi2]
      · have hr := tupRefs_laid (c := c) (gv := .dict k l) (a := a) (size_dict_eq k l) hxs hd hsm.dict ha0
          (encAll_types (E := .pdf c.bigEndian) hf') (by
            intro m hm
            obtain ⟨t, _, v, _, hv, rfl⟩ := encAll_mem hf' m hm
            exact ⟨fun n hn => enc_length _ t v n hv hn, badSize_enc hv⟩) (by rw [henc] at hl; exact hl)
        simp only [walk, henc, hr, Res.bind_ok, List.getElem?_eq_getElem hi, placed_get a _ 0 i (by omega) hi2, l5]
    · rename_i ty d u' q heq
      obtain ⟨rfl, rfl⟩ := List.cons.inj heq
      split at h
      · rename_i hty
        obtain ⟨y, h1, h2⟩ := Option.bind_eq_some_iff.1 h
        obtain ⟨hy, hd⟩ := hrd u' d y h1
        obtain ⟨hxu, hsu⟩ := hp u' (by simp)
        subst hd hty
        have h8 : 8 ∣ a := by simpa [Spec.align] using ha
        have hau : Spec.align u' ∣ a := Nat.dvd_trans (align_dvd_8 u') h8
        have hlu : (enc (.pdf c.bigEndian) u' y).length < 2 ^ 63 := by
          simp only [enc, List.length_append] at hl; omega
        obtain ⟨o, k2, k3, k4⟩ := ih u' y u w a hp' hxu hsu hau hy hlu h2
        have hsp : split c ⟨a, enc (.pdf c.bigEndian) .V (.variant u'.show (enc (.pdf c.bigEndian) u' y))⟩ =
            .ok (u'.show, ⟨a, enc (.pdf c.bigEndian) u' y⟩) := by
          obtain ⟨ty, d, g1, _, g3, _⟩ := c27_split c
            ⟨a, enc (.pdf c.bigEndian) .V (.variant u'.show (enc (.pdf c.bigEndian) u' y))⟩ (.inr h8)
          obtain ⟨rfl, rfl⟩ := g3 (enc (.pdf c.bigEndian) u' y) u'.show (by simp [enc]) (show_noNul u')
          exact g1
        refine ⟨o, ?_, ?_, k4⟩
        · simp only [spot, if_true, h1, Option.bind_some, k2]
        · simp only [walk, variantGet, hsp, Res.bind_ok, if_true, fromAligned_enc hxu hau hy, Res.pure_eq, k3]
      · cases h
    · cases h

theorem follow_append {rd : Ty → Bytes → Option Val} : ∀ (r : List Step) (t : Ty) (v : Val) (p : List Step) {u w},
    follow rd t v (r ++ p) = some (u, w) → ∃ t' v', follow rd t v r = some (t', v') ∧ follow rd t' v' p = some (u, w) := by
  intro r
  induction r with
  | nil => intro t v p u w h; exact ⟨t, v, by simp [follow], h⟩
  | cons x r ih =>
    intro t v p u w h
    rw [List.cons_append] at h
    unfold follow at h
    split at h
    · simp at *
    · rename_i e vs i q heq
      obtain ⟨rfl, rfl⟩ := List.cons.inj heq
      obtain ⟨y, h1, h2⟩ := Option.bind_eq_some_iff.1 h
      obtain ⟨t', v', k1, k2⟩ := ih _ _ _ h2
      exact ⟨t', v', by simp only [follow, h1, Option.bind_some, k1], k2⟩
    · rename_i e y q heq
      obtain ⟨rfl, rfl⟩ := List.cons.inj heq
      obtain ⟨t', v', k1, k2⟩ := ih _ _ _ h
      exact ⟨t', v', by simp only [follow, k1], k2⟩
    · rename_i ts vs i q heq
      obtain ⟨rfl, rfl⟩ := List.cons.inj heq
      obtain ⟨t', h1, h⟩ := Option.bind_eq_some_iff.1 h
      obtain ⟨y, h2, h⟩ := Option.bind_eq_some_iff.1 h
      obtain ⟨t', v', k1, k2⟩ := ih _ _ _ h
      exact ⟨t', v', by simp only [follow, h1, h2, Option.bind_some, k1], k2⟩
    · rename_i k l vs i q heq
      obtain ⟨rfl, rfl⟩ := List.cons.inj heq
      obtain ⟨t', h1, h⟩ := Option.bind_eq_some_iff.1 h
      obtain ⟨y, h2, h⟩ := Option.bind_eq_some_iff.1 h
      obtain ⟨t', v', k1, k2⟩ := ih _ _ _ h
      exact ⟨t', v', by simp only [follow, h1, h2, Option.bind_some, k1], k2⟩
    · rename_i ty d u' q heq
      obtain ⟨rfl, rfl⟩ := List.cons.inj heq
      split at h
      · rename_i hty
        obtain ⟨y, h1, h2⟩ := Option.bind_eq_some_iff.1 h
        obtain ⟨t', v', k1, k2⟩ := ih _ _ _ h2
        exact ⟨t', v', by simp only [follow, if_pos hty, h1, Option.bind_some, k1], k2⟩
      · cases h
    · cases h

theorem spot_append {E : Enc} {rd : Ty → Bytes → Option Val} : ∀ (r : List Step) (t : Ty) (v : Val) (p : List Step) {t' v' o},
    follow rd t v r = some (t', v') → spot E rd t v (r ++ p) = some o →
    ∃ o1 o2, spot E rd t v r = some o1 ∧ spot E rd t' v' p = some o2 ∧ o = o1 + o2 := by
  intro r
  induction r with
  | nil =>
    intro t v p t' v' o h hs
    simp only [follow, Option.some.injEq, Prod.mk.injEq] at h
    obtain ⟨rfl, rfl⟩ := h
    exact ⟨0, o, by simp [spot], hs, by omega⟩
  | cons x r ih =>
    intro t v p t' v' o h hs
    rw [List.cons_append] at hs
    unfold follow at h
    split at h
    · simp at *
    · rename_i e vs i q heq
      obtain ⟨rfl, rfl⟩ := List.cons.inj heq
      obtain ⟨y, h1, h2⟩ := Option.bind_eq_some_iff.1 h
      simp only [spot, h1, Option.bind_some] at hs
      obtain ⟨o', h3, hs⟩ := Option.bind_eq_some_iff.1 hs
      obtain ⟨o'', h4, rfl⟩ := Option.map_eq_some_iff.1 hs
      obtain ⟨o1, o2, k1, k2, rfl⟩ := ih _ _ _ h2 h4
      exact ⟨o' + o1, o2, by simp only [spot, h1, h3, k1, Option.bind_some, Option.map_some], k2, by omega⟩
    · rename_i e y q heq
      obtain ⟨rfl, rfl⟩ := List.cons.inj heq
      simp only [spot] at hs
      obtain ⟨o1, o2, k1, k2, rfl⟩ := ih _ _ _ h hs
      exact ⟨o1, o2, by simp only [spot, k1], k2, rfl⟩
    · rename_i ts vs i q heq
      obtain ⟨rfl, rfl⟩ := List.cons.inj heq
      obtain ⟨t', h1, h⟩ := Option.bind_eq_some_iff.1 h
      obtain ⟨y, h2, h⟩ := Option.bind_eq_some_iff.1 h
      simp only [spot, h1, h2, Option.bind_some] at hs
      obtain ⟨o', h3, hs⟩ := Option.bind_eq_some_iff.1 hs
      obtain ⟨o'', h4, rfl⟩ := Option.map_eq_some_iff.1 hs
      obtain ⟨o1, o2, k1, k2, rfl⟩ := ih _ _ _ h h4
      exact ⟨o' + o1, o2, by simp only [spot, h1, h2, h3, k1, Option.bind_some, Option.map_some], k2, by omega⟩
    · rename_i k l vs i q heq
      obtain ⟨rfl, rfl⟩ := List.cons.inj heq
      obtain ⟨t', h1, h⟩ := Option.bind_eq_some_iff.1 h
      obtain ⟨y, h2, h⟩ := Option.bind_eq_some_iff.1 h
      simp only [spot, h1, h2, Option.bind_some] at hs
      obtain ⟨o', h3, hs⟩ := Option.bind_eq_some_iff.1 hs
      obtain ⟨o'', h4, rfl⟩ := Option.map_eq_some_iff.1 hs
      obtain ⟨o1, o2, k1, k2, rfl⟩ := ih _ _ _ h h4
      exact ⟨o' + o1, o2, by simp only [spot, h1, h2, h3, k1, Option.bind_some, Option.map_some], k2, by omega⟩
    · rename_i ty d u' q heq
      obtain ⟨rfl, rfl⟩ := List.cons.inj heq
      split at h
      · rename_i hty
        obtain ⟨y, h1, h2⟩ := Option.bind_eq_some_iff.1 h
        simp only [spot, if_pos hty, h1, Option.bind_some] at hs
        obtain ⟨o1, o2, k1, k2, rfl⟩ := ih _ _ _ h2 hs
        exact ⟨o1, o2, by simp only [spot, if_pos hty, h1, Option.bind_some, k1], k2, rfl⟩
      · cases h
    · cases h

/-- The step to the `i`-th element or member. -/
def stepAt : Ty → Nat → Step
  | .A _, i => .elem i
  | _, i => .member i

/-- The first step leads to the `i`-th of some pieces laid out one after the other. -/
def StepTo (be : Bool) (rd : Ty → Bytes → Option Val) (t : Ty) (v : Val) (x : Step) (i : Nat) (ms : List (Ty × Bytes)) : Prop :=
  x = stepAt t i ∧ ∃ (hi : i < ms.length) (hi' : i < (laidAt 0 ms).length) (t' : Ty) (v' : Val),
    ms[i] = (t', enc (.pdf be) t' v') ∧ Fits t' v' ∧
    (∀ p, follow rd t v (x :: p) = follow rd t' v' p) ∧
    ∀ p, spot (.pdf be) rd t v (x :: p) = (spot (.pdf be) rd t' v' p).map ((laidAt 0 ms)[i] + ·)

/-- How a value is laid out, if at all: its elements or members one after the other. -/
def pieces (be : Bool) : Ty → Val → List (Ty × Bytes)
  | .A e, .arr vs => vs.map fun v => (e, enc (.pdf be) e v)
  | .tuple ts, .tup vs => encAll (.pdf be) ts vs
  | .dict k x, .tup vs => encAll (.pdf be) [k, x] vs
  | _, _ => []

theorem step_cases {be : Bool} {rd : Ty → Bytes → Option Val} {t : Ty} {v : Val} {x : Step} {p : List Step} {u w}
    (hf : Fits t v) (h : follow rd t v (x :: p) = some (u, w)) :
    (∃ i, StepTo be rd t v x i (pieces be t v)) ∨ (x = .content ∧ ∃ e, t = .M e) ∨
      (∃ u' d, x = .inside u' ∧ t = .V ∧ v = .variant u'.show d) := by
  unfold follow at h
  split at h
  · simp at *
  · rename_i e vs i q heq
    obtain ⟨rfl, rfl⟩ := List.cons.inj heq
    obtain ⟨y, h1, h2⟩ := Option.bind_eq_some_iff.1 h
    obtain ⟨hi, rfl⟩ := List.getElem?_eq_some_iff.1 h1
    simp only [Fits] at hf
    have hi2 : i < (laidAt 0 (vs.map fun v => (e, enc (.pdf be) e v))).length := by
      rw [laidAt_length]; simpa using hi
    refine Or.inl ⟨i, rfl, by simpa [pieces] using hi, hi2, e, vs[i], by simp [pieces],
      hf _ (List.getElem_mem _), fun p => by simp [follow, h1], fun p => ?_⟩
    simp only [spot, h1, Option.bind_some, List.getElem?_eq_getElem hi2, pieces]
  · rename_i e y q heq
    obtain ⟨rfl, rfl⟩ := List.cons.inj heq
    exact Or.inr (Or.inl ⟨rfl, e, rfl⟩)
  · rename_i ts vs i q heq
    obtain ⟨rfl, rfl⟩ := List.cons.inj heq
    obtain ⟨t', h1, h⟩ := Option.bind_eq_some_iff.1 h
    obtain ⟨y, h2, h⟩ := Option.bind_eq_some_iff.1 h
    obtain ⟨hi, rfl⟩ := List.getElem?_eq_some_iff.1 h1
    obtain ⟨hi', rfl⟩ := List.getElem?_eq_some_iff.1 h2
    simp only [Fits] at hf
    obtain ⟨l1, l2, l3⟩ := encAll_get (E := .pdf be) hf
    obtain ⟨l4, l5⟩ := l3 i hi hi' (by omega)
    have hi2 : i < (laidAt 0 (encAll (.pdf be) ts vs)).length := by rw [laidAt_length]; omega
    refine Or.inl ⟨i, rfl, by simp only [pieces]; omega, hi2, ts[i], vs[i], by simpa [pieces] using l5, l4,
      fun p => by simp only [follow, h1, h2, Option.bind_some], fun p => ?_⟩
    simp only [spot, h1, h2, Option.bind_some, List.getElem?_eq_getElem hi2, pieces]
  · rename_i k l vs i q heq
    obtain ⟨rfl, rfl⟩ := List.cons.inj heq
    obtain ⟨t', h1, h⟩ := Option.bind_eq_some_iff.1 h
    obtain ⟨y, h2, h⟩ := Option.bind_eq_some_iff.1 h
    obtain ⟨hi, rfl⟩ := List.getElem?_eq_some_iff.1 h1
    obtain ⟨hi', rfl⟩ := List.getElem?_eq_some_iff.1 h2
    obtain ⟨hf', _⟩ := fitsAll_two hf
    obtain ⟨l1, l2, l3⟩ := encAll_get (E := .pdf be) hf'
    obtain ⟨l4, l5⟩ := l3 i hi hi' (by omega)
    have hi2 : i < (laidAt 0 (encAll (.pdf be) [k, l] vs)).length := by rw [laidAt_length]; omega
    refine Or.inl ⟨i, rfl, by simp only [pieces]; omega, hi2, [k, l][i], vs[i], by simpa [pieces] using l5, l4,
      fun p => by simp only [follow, h1, h2, Option.bind_some], fun p => ?_⟩
    simp only [spot, h1, h2, Option.bind_some, List.getElem?_eq_getElem hi2, pieces]
  · rename_i ty d u' q heq
    obtain ⟨rfl, rfl⟩ := List.cons.inj heq
    split at h
    · rename_i hty
      subst hty
      exact Or.inr (Or.inr ⟨u', d, rfl, rfl, rfl⟩)
    · cases h
  · cases h

/-- Paths that part lead to places that do not overlap. -/
theorem spot_apart {be : Bool} {rd : Ty → Bytes → Option Val} (hrd : ReadsNormal be rd) {t : Ty} {v : Val}
    (hf : Fits t v) {p q : List Step} {u w u' w' o o'} (hp : follow rd t v p = some (u, w))
    (hq : follow rd t v q = some (u', w')) (hs : spot (.pdf be) rd t v p = some o)
    (hs' : spot (.pdf be) rd t v q = some o') (h : Parting p q) :
    o + (enc (.pdf be) u w).length ≤ o' ∨ o' + (enc (.pdf be) u' w').length ≤ o := by
  obtain ⟨r, x, y, p', q', rfl, rfl, hne⟩ := h
  obtain ⟨t1, v1, h1, h2⟩ := follow_append r t v _ hp
  obtain ⟨t1', v1', h1', h2'⟩ := follow_append r t v _ hq
  rw [h1] at h1'
  simp only [Option.some.injEq, Prod.mk.injEq] at h1'
  obtain ⟨rfl, rfl⟩ := h1'
  obtain ⟨o1, o2, k1, k2, rfl⟩ := spot_append r t v _ h1 hs
  obtain ⟨o1', o2', k1', k2', rfl⟩ := spot_append r t v _ h1 hs'
  rw [k1] at k1'
  cases k1'
  have hf1 := (spot_sub hrd r t v t1 v1 hf h1).1
  rcases step_cases (be := be) hf1 h2 with ⟨i, hx, hi, hi', ti, vi, e1, e2, e3, e4⟩ | ⟨rfl, e, rfl⟩ | ⟨z, d, rfl, rfl, rfl⟩
  · rcases step_cases (be := be) hf1 h2' with ⟨j, hy, hj, hj', tj, vj, g1, g2, g3, g4⟩ | ⟨rfl, e, rfl⟩ | ⟨z, d, rfl, rfl, rfl⟩
    · rw [e4] at k2
      rw [g4] at k2'
      obtain ⟨b, m1, rfl⟩ := Option.map_eq_some_iff.1 k2
      obtain ⟨b', m1', rfl⟩ := Option.map_eq_some_iff.1 k2'
      rw [e3] at h2
      rw [g3] at h2'
      obtain ⟨_, b2, n1, n2, _⟩ := spot_sub hrd p' ti vi u w e2 h2
      obtain ⟨_, b2', n1', n2', _⟩ := spot_sub hrd q' tj vj u' w' g2 h2'
      rw [m1] at n1; cases n1
      rw [m1'] at n1'; cases n1'
      have hij : i ≠ j := by
        rintro rfl
        exact hne (hx.trans hy.symm)
      rcases Nat.lt_or_gt_of_ne hij with hij | hij
      · have := laidAt_order _ 0 i j hi hi' hj' hij
        rw [e1] at this
        simp only at this
        left; omega
      · have := laidAt_order _ 0 j i hj hj' hi' hij
        rw [g1] at this
        simp only at this
        right; omega
    · simp [pieces] at hi
    · simp [pieces] at hi
  · rcases step_cases (be := be) hf1 h2' with ⟨j, hy, hj, _⟩ | ⟨rfl, _⟩ | ⟨z, d, rfl, h, _⟩
    · simp [pieces] at hj
    · exact absurd rfl hne
    · cases h
  · rcases step_cases (be := be) hf1 h2' with ⟨j, hy, hj, _⟩ | ⟨_, _, h⟩ | ⟨z', d', rfl, _, h⟩
    · simp [pieces] at hj
    · cases h
    · simp only [Val.variant.injEq] at h
      rw [c01_show_injective _ _ h.1] at hne
      exact absurd rfl hne

theorem follow_same {rd rd' : Ty → Bytes → Option Val} : ∀ (p : List Step), (∀ u, Step.inside u ∉ p) → ∀ t v,
    follow rd t v p = follow rd' t v p := by
  intro p
  induction p with
  | nil => intros; simp [follow]
  | cons x p ih =>
    intro hp t v
    have ih := ih fun u hu => hp u (by simp [hu])
    cases x with
    | inside u => exact absurd (by simp) (hp u)
    | _ => cases t <;> cases v <;> simp [follow, ih]

theorem evenEnds_get {E : Enc} : ∀ {ts : List Ty} {vs : List Val} {i : Nat} {t : Ty} {v : Val}, EvenEndsAll E ts vs →
    ts[i]? = some t → vs[i]? = some v → EvenEnds E t v
  | [], _, _, _, _, _, h, _ => by simp at h
  | _ :: _, [], _, _, _, _, _, h => by simp at h
  | t :: ts, v :: vs, 0, _, _, h, h1, h2 => by
    simp only [List.getElem?_cons_zero, Option.some.injEq] at h1 h2
    subst h1 h2
    simp only [EvenEndsAll] at h
    exact h.1
  | t :: ts, v :: vs, i + 1, _, _, h, h1, h2 => by
    simp only [EvenEndsAll] at h
    exact evenEnds_get h.2 (by simpa using h1) (by simpa using h2)

theorem fits_get : ∀ {ts : List Ty} {vs : List Val} {i : Nat} {t : Ty} {v : Val}, FitsAll ts vs →
    ts[i]? = some t → vs[i]? = some v → Fits t v
  | [], _, _, _, _, _, h, _ => by simp at h
  | _ :: _, [], _, _, _, _, _, h => by simp at h
  | t :: ts, v :: vs, 0, _, _, h, h1, h2 => by
    simp only [List.getElem?_cons_zero, Option.some.injEq] at h1 h2
    subst h1 h2
    simp only [FitsAll] at h
    exact h.1
  | t :: ts, v :: vs, i + 1, _, _, h, h1, h2 => by
    simp only [FitsAll] at h
    exact fits_get h.2 (by simpa using h1) (by simpa using h2)

theorem evenEnds_follow {E : Enc} {rd : Ty → Bytes → Option Val} : ∀ (p : List Step), (∀ u, Step.inside u ∉ p) → ∀ t v u w,
    Fits t v → EvenEnds E t v → follow rd t v p = some (u, w) → EvenEnds E u w := by
  intro p
  induction p with
  | nil =>
    intro _ t v u w _ he h
    simp only [follow, Option.some.injEq, Prod.mk.injEq] at h
    obtain ⟨rfl, rfl⟩ := h
    exact he
  | cons x p ih =>
    intro hp t v u w hf he h
    have ih := ih fun u hu => hp u (by simp [hu])
    unfold follow at h
    split at h
    · simp at *
    · rename_i e vs i q heq
      obtain ⟨rfl, rfl⟩ := List.cons.inj heq
      obtain ⟨y, h1, h2⟩ := Option.bind_eq_some_iff.1 h
      simp only [EvenEnds] at he
      simp only [Fits] at hf
      exact ih _ _ _ _ (hf y (List.mem_of_getElem? h1)) (he.1 y (List.mem_of_getElem? h1)) h2
    · rename_i e y q heq
      obtain ⟨rfl, rfl⟩ := List.cons.inj heq
      simp only [EvenEnds] at he
      simp only [Fits] at hf
      exact ih _ _ _ _ hf he h
    · rename_i ts vs i q heq
      obtain ⟨rfl, rfl⟩ := List.cons.inj heq
      obtain ⟨t', h1, h⟩ := Option.bind_eq_some_iff.1 h
      obtain ⟨y, h2, h⟩ := Option.bind_eq_some_iff.1 h
      simp only [EvenEnds] at he
      simp only [Fits] at hf
      exact ih _ _ _ _ (fits_get hf h1 h2) (evenEnds_get he h1 h2) h
    · rename_i k l vs i q heq
      obtain ⟨rfl, rfl⟩ := List.cons.inj heq
      obtain ⟨t', h1, h⟩ := Option.bind_eq_some_iff.1 h
      obtain ⟨y, h2, h⟩ := Option.bind_eq_some_iff.1 h
      obtain ⟨hf', _⟩ := fitsAll_two hf
      refine ih _ _ _ _ (fits_get hf' h1 h2) (evenEnds_get (ts := [k, l]) (vs := vs) ?_ h1 h2) h
      match vs, hf' with
      | [a, b], _ => simpa [EvenEnds, EvenEndsAll] using he
      | [], h => simp [FitsAll] at h
      | [_], h => simp [FitsAll] at h
      | _ :: _ :: _ :: _, h => simp [FitsAll] at h
    · rename_i ty d u' q heq
      obtain ⟨rfl, rfl⟩ := List.cons.inj heq
      exact absurd (by simp) (hp u')
    · cases h

end GV.Props
