import Verif.Model.Packed
import Verif.Proofs.EncLen
import Verif.Proofs.Rust
import Verif.Proofs.View
import Verif.Proofs.Reach
import Verif.Spec.Update
/-
The memory of fixed-size structures.
-/
namespace GV
open Spec

theorem store_end {done b : Bytes} {k : Nat} (hk : b.length ≤ k) :
    Mem.store (done.map some ++ List.replicate k none) done.length b =
      (done ++ b).map some ++ List.replicate (k - b.length) none := by
  simp only [Mem.store, List.map_append, List.append_assoc]
  rw [List.take_append_of_le_length (by simp), List.take_of_length_le (by simp)]
  congr 2
  rw [List.drop_append, List.drop_eq_nil_of_le (by simp)]
  simp

theorem init_pack (all : List Bytes) (fs : List Field) (os : List Nat) (ms : List (Ty × Bytes)) :
    (∀ m ∈ ms, size m.1 = some m.2.length) → ∀ (n : Nat) (done : Bytes) (k : Nat),
    all.drop n = ms.map (·.2) → (laid done.length ms).length ≤ k →
    initFields all (packFields n done.length (ms.map (·.1)) ++ fs)
      ((reprCLoop done.length (packLays done.length (ms.map (·.1)))).1 ++ os)
      (done.map some ++ List.replicate k none) =
    initFields all fs os ((done ++ laid done.length ms).map some ++
      List.replicate (k - (laid done.length ms).length) none) := by
  induction ms with
  | nil => intro _ n done k _ _; simp [packFields, packLays, reprCLoop, laid]
  | cons m ms ih =>
    intro hms n done k hall hk
    obtain ⟨t, b⟩ := m
    have hs : size t = some b.length := hms (t, b) (by simp)
    have hal := specAlign_isAl t
    have hle := le_roundUp hal.pos done.length
    have hself : Spec.roundUp (Spec.roundUp done.length (Spec.align t)) (Spec.align t) =
        Spec.roundUp done.length (Spec.align t) := roundUp_of_dvd hal.pos (roundUp_dvd _ _)
    have hn : all[n]? = some b := by
      have := congrArg (fun l => l[0]?) hall
      simpa using this
    have hd : all.drop (n + 1) = ms.map (·.2) := by
      have := congrArg List.tail hall
      simpa using this
    simp only [laid, List.length_append, zeros_length] at hk
    simp only [List.map_cons, packFields, packLays, hs, Option.getD_some, lay, laid]
    generalize hst : Spec.roundUp done.length (Spec.align t) = st at *
    have key : ∀ d2 : Bytes, d2 = done ++ zeros (st - done.length) ++ b → ∀ k2, k2 = k - (st - done.length) - b.length →
        initFields all (packFields (n + 1) (st + b.length) (ms.map (·.1)) ++ fs)
          ((reprCLoop (st + b.length) (packLays (st + b.length) (ms.map (·.1)))).1 ++ os)
          (d2.map some ++ List.replicate k2 none) =
        initFields all fs os ((done ++ (zeros (st - done.length) ++ b ++ laid (st + b.length) ms)).map some ++
          List.replicate (k - (zeros (st - done.length) ++ b ++ laid (st + b.length) ms).length) none) := by
      intro d2 hd2 k2 hk2
      have hlen : d2.length = st + b.length := by subst hd2; simp; omega
      have := ih (fun m hm => hms m (List.mem_cons_of_mem _ hm)) (n + 1) d2 k2 hd (by rw [hlen]; omega)
      rw [hlen] at this
      rw [this]
      subst hd2 hk2
      simp only [List.append_assoc, List.length_append, zeros_length]
      congr 3
      omega
    by_cases hp : st - done.length > 0
    · simp only [hp, if_true, List.cons_append, List.nil_append, reprCLoop, initFields, fieldValue, Res.bind_ok,
        Nat.add_sub_cancel, Nat.div_one, Nat.mul_one, hn, Res.unwrap_some]
      rw [store_end (by simp; omega)]
      have e1 : done.length + (st - done.length) = st := by omega
      have e2 : (st + Spec.align t - 1) / Spec.align t * Spec.align t = st := hself
      simp only [e1, e2]
      have h2 := store_end (done := done ++ List.replicate (st - done.length) 0) (b := b)
        (k := k - (st - done.length)) (by omega)
      have e3 : (done ++ List.replicate (st - done.length) 0).length = st := by simp; omega
      rw [e3] at h2
      simp only [List.length_replicate]
      rw [h2]
      exact key _ rfl _ rfl
    · have e0 : st = done.length := by omega
      simp only [hp, if_false, List.nil_append, List.cons_append, reprCLoop, initFields, fieldValue, Res.bind_ok,
        hn, Res.unwrap_some]
      have e2 : (done.length + Spec.align t - 1) / Spec.align t * Spec.align t = st := hst
      rw [e2]
      have h2 := store_end (done := done) (b := b) (k := k) (by omega)
      rw [← e0] at h2
      rw [h2]
      refine key _ ?_ _ ?_
      · simp [e0, zeros]
      · omega

theorem read_some (b : Bytes) : Mem.read (b.map some) = .ok b := by
  induction b with
  | nil => rfl
  | cons x b ih => simp [Mem.read, ih]

/-- What `new` makes. -/
theorem structNew_ok {gv : Ty} {ms : List (Ty × Bytes)} {n : Nat}
    (hgv : Spec.size gv = Spec.size (.tuple (ms.map (·.1)))) (hn : Spec.size gv = some n)
    (hms : ∀ m ∈ ms, size m.1 = some m.2.length)
    (hx : ∀ t ∈ ms.map (·.1), Expands t) {d} (hd : generateTuple gv (ms.map (·.1)) = .ok d) :
    structNew gv (ms.map (·.1)) (ms.map (·.2)) = .ok ((encStruct (some n) ms).map some) := by
  obtain ⟨p, hp, _⟩ := generateTuple_packed hn hd
  obtain ⟨fs, h1, h2, h3, h4⟩ := packed_layout hgv hn hp
  obtain ⟨e, he, hsz, _⟩ := size_tuple_members (hgv ▸ hn)
  have hls : rustLayouts (ms.map (·.1)) = .ok ((ms.map (·.1)).map lay) := rustLayouts_ok fun t ht => by
    obtain ⟨m, hm⟩ := Option.isSome_iff_exists.1 (hsz t ht)
    rw [rustLayout_ok t m hm (hx t ht), lay, hm]; rfl
  have hsf : structFields gv (ms.map (·.1)) = .ok fs := by
    simp only [structFields, hp, hls, h1, Res.bind_ok]
  obtain ⟨hf, _⟩ := writePackedStruct_ok hgv hn hp
  have hle := endAfter_le_size (hgv ▸ hn) he
  have hle2 := laid_fixed_length hms 0
  rw [he] at hle2
  have hlen : (laid 0 ms).length = e := by simpa using hle2.symm
  have htp : tailPad (ms.map (·.1)) n = n - e := by simp [tailPad, he]
  simp only [structNew, hp, hsf, Res.bind_ok, h2]
  have hr2 := (reprC_pack (ms.map (·.1)) 0 0 hsz).2
  rw [he] at hr2
  have hr2' : (reprCLoop 0 (packLays 0 (ms.map (·.1)))).2 = e := by simpa using hr2.symm
  rw [hf, fieldLayouts_append, fieldLayouts_pack (ms.map (·.1)) (ms.map (·.1)) 0 0 (by simp), htp] at h1
  rw [hf, htp]
  have hini := fun fs os => init_pack (ms.map (·.2)) fs os ms hms 0 [] n (by simp) (by simp; omega)
  simp only [List.length_nil, List.map_nil, List.nil_append] at hini
  by_cases hpd : n - e > 0
  · simp only [hpd, if_true, fieldLayouts, Res.bind_ok, Res.pure_eq] at h1 ⊢
    cases h1
    rw [reprCLoop_append, hr2']
    simp only [hini, reprCLoop, initFields, fieldValue, Res.bind_ok, Nat.add_sub_cancel, Nat.div_one, Nat.mul_one]
    rw [← hlen, store_end (by simp)]
    simp only [encStruct, List.length_replicate, Nat.sub_self, List.replicate_zero, List.append_nil]
    rfl
  · simp only [hpd, if_false, fieldLayouts, Res.bind_ok, List.append_nil] at h1 ⊢
    cases h1
    have := hini [] []
    simp only [List.append_nil] at this
    rw [this]
    have e0 : n - (laid 0 ms).length = 0 := by omega
    simp only [initFields, encStruct, e0, List.replicate_zero, List.append_nil, zeros]


/-- The members of a fixed-size structure are decoded from their places. -/
theorem decAll_fixed (R : Rules) (b : Bytes) (eo : Option Nat) (ts : List Ty) : ∀ pos e k,
    endAfter pos ts = some e → e ≤ b.length →
    decAll R ts (membersFrom b b.length eo (some pos) k ts) =
      List.zipWith (fun t o => dec R t (sub b o (o + (size t).getD 0))) ts (startsFrom pos ts) := by
  induction ts with
  | nil => intro pos e k _ _; simp [membersFrom, decAll]
  | cons t ts ih =>
    intro pos e k he hle
    simp only [endAfter] at he
    cases hs : size t with
    | none => simp [hs] at he
    | some n =>
      simp only [hs] at he
      have hge := endAfter_ge he
      simp only [membersFrom, hs, Option.map_some, Option.bind_some, place, startsFrom, Option.getD_some,
        List.zipWith_cons_cons]
      rw [if_pos ⟨by omega, by omega⟩, decAll_cons, ih _ e k he hle]
      rfl

theorem dec_struct_fixed {R : Rules} {ts : List Ty} {n : Nat} {b : Bytes} (hn : size (.tuple ts) = some n)
    (hb : b.length = n) : dec R (.tuple ts) b =
      .tup (List.zipWith (fun t o => dec R t (sub b o (o + (size t).getD 0))) ts (startsFrom 0 ts)) := by
  obtain ⟨e, he, hsz, _⟩ := size_tuple_members hn
  have hle := endAfter_le_size hn he
  rw [dec, memberChildren, hn]
  simp only [hb, if_true]
  rw [← hb, decAll_fixed R b _ ts 0 e 0 he (by omega)]

theorem startsFrom_length (ts : List Ty) : ∀ pos, (startsFrom pos ts).length = ts.length := by
  induction ts with
  | nil => intro pos; rfl
  | cons t ts ih => intro pos; simp [startsFrom, ih]

theorem startsFrom_ge (ts : List Ty) : ∀ (pos j o : Nat), (startsFrom pos ts)[j]? = some o → pos ≤ o := by
  induction ts with
  | nil => intro pos j o h; simp [startsFrom] at h
  | cons t ts ih =>
    intro pos j o h
    have := le_roundUp (specAlign_isAl t).pos pos
    cases j with
    | zero => simp [startsFrom] at h; omega
    | succ j =>
      simp only [startsFrom, List.getElem?_cons_succ] at h
      have := ih _ j o h
      omega

theorem startsFrom_end (ts : List Ty) : ∀ pos e, endAfter pos ts = some e →
    ∀ (j o : Nat) (t : Ty), (startsFrom pos ts)[j]? = some o → ts[j]? = some t → o + (size t).getD 0 ≤ e := by
  induction ts with
  | nil => intro pos e _ j o t h; simp [startsFrom] at h
  | cons u ts ih =>
    intro pos e he j o t h ht
    simp only [endAfter] at he
    cases hs : size u with
    | none => simp [hs] at he
    | some n =>
      simp only [hs] at he
      have hge := endAfter_ge he
      cases j with
      | zero => simp [startsFrom] at h ht; subst h ht; simp [hs]; omega
      | succ j =>
        simp only [startsFrom, List.getElem?_cons_succ, hs, Option.getD_some] at h ht
        exact ih _ e he j o t h ht

theorem startsFrom_sep (ts : List Ty) : ∀ (pos i j o p : Nat) (t : Ty), i < j → (startsFrom pos ts)[i]? = some o →
    (startsFrom pos ts)[j]? = some p → ts[i]? = some t → o + (size t).getD 0 ≤ p := by
  induction ts with
  | nil => intro pos i j o p t _ h; simp [startsFrom] at h
  | cons u ts ih =>
    intro pos i j o p t hij h h' ht
    cases j with
    | zero => omega
    | succ j =>
      simp only [startsFrom, List.getElem?_cons_succ] at h'
      cases i with
      | zero =>
        simp [startsFrom] at h ht
        subst h ht
        exact startsFrom_ge ts _ j p h'
      | succ i =>
        simp only [startsFrom, List.getElem?_cons_succ] at h ht
        exact ih _ i j o p t (by omega) h h' ht

theorem overlay_length {b x : Bytes} {o : Nat} (h : o + x.length ≤ b.length) : (overlay b o x).length = b.length := by
  simp [overlay]; omega

theorem overlay_getElem? {b x : Bytes} {o : Nat} (h : o + x.length ≤ b.length) (i : Nat) :
    (overlay b o x)[i]? = if o ≤ i ∧ i < o + x.length then x[i - o]? else b[i]? := by
  unfold overlay
  by_cases h1 : i < o
  · rw [if_neg (by omega), List.append_assoc, List.getElem?_append_left (by simp; omega)]
    simp [h1]
  · by_cases h2 : i < o + x.length
    · rw [if_pos (by omega), List.append_assoc, List.getElem?_append_right (by simp; omega),
        List.getElem?_append_left (by simp; omega)]
      congr 1
      simp; omega
    · rw [if_neg (by omega), List.getElem?_append_right (by simp; omega), List.getElem?_drop]
      congr 1
      simp; omega

theorem sub_getElem?' (b : Bytes) (lo hi i : Nat) : (sub b lo hi)[i]? = if lo + i < hi then b[lo + i]? else none := by
  simp only [sub, List.getElem?_drop, List.getElem?_take]

/-- A part beside the overlay stays, the part containing it has it. -/
theorem sub_overlay_out {b x : Bytes} {o lo hi : Nat} (h : o + x.length ≤ b.length)
    (hout : hi ≤ o ∨ o + x.length ≤ lo) : sub (overlay b o x) lo hi = sub b lo hi := by
  apply List.ext_getElem?
  intro i
  rw [sub_getElem?', sub_getElem?', overlay_getElem? h]
  split
  · rw [if_neg (by omega)]
  · rfl

theorem sub_overlay_in {b x : Bytes} {o lo hi : Nat} (hb : lo + o + x.length ≤ hi) (hhi : hi ≤ b.length) :
    sub (overlay b (lo + o) x) lo hi = overlay (sub b lo hi) o x := by
  apply List.ext_getElem?
  intro i
  have hl : (sub b lo hi).length = hi - lo := by rw [sub_length hhi]
  rw [sub_getElem?', overlay_getElem? (by omega), overlay_getElem? (by omega), sub_getElem?']
  by_cases h1 : lo + i < hi
  · simp only [h1, if_true]
    by_cases h2 : o ≤ i ∧ i < o + x.length
    · rw [if_pos (by omega), if_pos h2]; congr 1; omega
    · rw [if_neg (by omega), if_neg h2]
  · rw [if_neg h1, if_neg (by omega), if_neg h1]

theorem size_members {t : Ty} {n : Nat} (hs : isStruct t = true) (hn : size t = some n) :
    size (.tuple (members t)) = some n := by
  cases t <;> simp [isStruct] at hs
  case tuple => exact hn
  case dict => rw [size_dict_eq] at hn; exact hn

theorem dec_members {R : Rules} {t : Ty} (hs : isStruct t = true) (b : Bytes) :
    dec R t b = dec R (.tuple (members t)) b := by
  cases t <;> simp [isStruct] at hs
  case tuple => rfl
  case dict => exact dec_dict ..

theorem typeAt_struct {t u : Ty} {k : Nat} {p : List Nat} (h : typeAt t (k :: p) = some u) :
    isStruct t = true ∧ ∃ w, (members t)[k]? = some w ∧ typeAt w p = some u := by
  simp only [typeAt, Option.bind_eq_some_iff] at h
  refine ⟨?_, h⟩
  cases t <;> first | rfl | simp [members] at h

/-- Size and place of the part at a path. -/
theorem startAt_fits (p : List Nat) : ∀ (t u : Ty) (n : Nat), size t = some n → typeAt t p = some u →
    ∃ m, size u = some m ∧ startAt t p + m ≤ n := by
  induction p with
  | nil => intro t u n hn h; simp [typeAt] at h; subst h; exact ⟨n, hn, by simp [startAt]⟩
  | cons k p ih =>
    intro t u n hn h
    obtain ⟨hs, w, hw, hu⟩ := typeAt_struct h
    have hsz := size_members hs hn
    obtain ⟨e, he, hall, _⟩ := size_tuple_members hsz
    have hle := endAfter_le_size hsz he
    obtain ⟨l, hl⟩ := Option.isSome_iff_exists.1 (hall w (List.mem_of_getElem? hw))
    obtain ⟨m, hm, hb⟩ := ih w u l hl hu
    have hk : k < (startsFrom 0 (members t)).length := by
      rw [startsFrom_length]; exact (List.getElem?_eq_some_iff.1 hw).1
    have := startsFrom_end _ 0 e he k _ w (List.getElem?_eq_getElem hk) hw
    refine ⟨m, hm, ?_⟩
    simp only [startAt, List.getD_eq_getElem?_getD, List.getElem?_eq_getElem hk, hw, Option.getD_some]
    rw [hl] at this
    simp at this
    omega

/-- Writing at a path replaces the part there. -/
theorem dec_overlay (R : Rules) (p : List Nat) : ∀ (t u : Ty) (n : Nat) (b x : Bytes), size t = some n →
    typeAt t p = some u → b.length = n → size u = some x.length →
    dec R t (overlay b (startAt t p) x) = replaceAt (dec R t b) p (dec R u x) := by
  induction p with
  | nil =>
    intro t u n b x hn h hb hx
    simp [typeAt] at h; subst h
    rw [hx] at hn
    simp only [Option.some.injEq] at hn
    have : overlay b 0 x = x := by simp [overlay]; omega
    simp only [startAt, this, replaceAt]
  | cons k p ih =>
    intro t u n b x hn h hb hx
    obtain ⟨m, hm, hfit⟩ := startAt_fits (k :: p) t u n hn h
    rw [hx] at hm; cases hm
    obtain ⟨hs, w, hw, hu⟩ := typeAt_struct h
    have hsz := size_members hs hn
    obtain ⟨e, he, hall, _⟩ := size_tuple_members hsz
    have hle := endAfter_le_size hsz he
    obtain ⟨l, hl⟩ := Option.isSome_iff_exists.1 (hall w (List.mem_of_getElem? hw))
    obtain ⟨m', hm', hfit'⟩ := startAt_fits p w u l hl hu
    rw [hx] at hm'; cases hm'
    have hk : k < (startsFrom 0 (members t)).length := by
      rw [startsFrom_length]; exact (List.getElem?_eq_some_iff.1 hw).1
    obtain ⟨o, ho⟩ : ∃ o, (startsFrom 0 (members t))[k]? = some o := ⟨_, List.getElem?_eq_getElem hk⟩
    have hend := startsFrom_end _ 0 e he k o w ho hw
    have hst : startAt t (k :: p) = o + startAt w p := by
      simp [startAt, List.getD_eq_getElem?_getD, ho, hw]
    rw [hl] at hend
    simp only [Option.getD_some] at hend
    rw [hst] at hfit ⊢
    rw [dec_members hs, dec_members hs, dec_struct_fixed hsz (by rw [overlay_length (by omega)]; exact hb),
      dec_struct_fixed hsz hb, replaceAt]
    congr 1
    apply List.ext_getElem?
    intro j
    rw [List.getElem?_modify]
    by_cases hj : k = j
    · subst hj
      simp only [List.getElem?_zipWith, hw, ho, if_true, Option.map_some, hl, Option.getD_some]
      rw [sub_overlay_in (by omega) (by omega)]
      have := ih w u l (sub b o (o + l)) x hl hu (by rw [sub_length (by omega)]; omega) hx
      rw [this]
      rfl
    · simp only [List.getElem?_zipWith, hj, if_false]
      cases hw' : (members t)[j]? with
      | none => simp
      | some w' =>
        cases ho' : (startsFrom 0 (members t))[j]? with
        | none => simp
        | some o' =>
          have hout : o' + (size w').getD 0 ≤ o + startAt w p ∨ o + startAt w p + x.length ≤ o' := by
            rcases Nat.lt_or_gt_of_ne hj with h1 | h1
            · have := startsFrom_sep _ 0 k j o o' w h1 ho ho' hw
              rw [hl] at this
              simp only [Option.getD_some] at this
              right; omega
            · have := startsFrom_sep _ 0 j k o' o w' h1 ho' ho hw'
              left; omega
          simp only [sub_overlay_out (show o + startAt w p + x.length ≤ b.length by omega) hout]
          rfl

theorem fieldOffsets_members {t : Ty} {n : Nat} (hs : isStruct t = true) (hn : size t = some n) (hx : Expands t) :
    fieldOffsets t (members t) = .ok (startsFrom 0 (members t)) ∧ ∀ u ∈ members t, Expands u := by
  cases t <;> simp [isStruct] at hs
  case tuple ts =>
    obtain ⟨hc, d, hd⟩ := expands_tuple.1 hx
    exact ⟨fieldOffsets_ok rfl hn hc hd, hc⟩
  case dict k v =>
    obtain ⟨⟨hk, hv⟩, d, hd⟩ := expands_dict.1 hx
    have hm : ∀ u ∈ members (.dict k v), Expands u := by
      intro u hu
      simp only [members, List.mem_cons, List.not_mem_nil, or_false] at hu
      rcases hu with rfl | rfl <;> assumption
    exact ⟨fieldOffsets_ok (size_dict_eq k v) hn hm hd, hm⟩

theorem placeOf_cons {t : Ty} (hs : isStruct t = true) (k : Nat) (p : List Nat) : placeOf t (k :: p) = (do
    let offs ← fieldOffsets t (members t)
    let off ← Res.unwrap offs[k]?
    let u ← Res.unwrap (members t)[k]?
    let (o, v) ← placeOf u p
    pure (off + o, v)) := by
  cases t <;> simp [isStruct] at hs
  case tuple ts => rfl
  case dict k v => rfl

theorem placeOf_ok (p : List Nat) : ∀ (t u : Ty) (n : Nat), size t = some n → Expands t → typeAt t p = some u →
    placeOf t p = .ok (startAt t p, u) := by
  induction p with
  | nil => intro t u n _ _ h; simp [typeAt] at h; subst h; cases t <;> rfl
  | cons k p ih =>
    intro t u n hn hx h
    obtain ⟨hs, w, hw, hu⟩ := typeAt_struct h
    obtain ⟨hoff, hxs⟩ := fieldOffsets_members hs hn hx
    have hsz := size_members hs hn
    obtain ⟨e, he, hall, _⟩ := size_tuple_members hsz
    obtain ⟨l, hl⟩ := Option.isSome_iff_exists.1 (hall w (List.mem_of_getElem? hw))
    have hk : k < (startsFrom 0 (members t)).length := by
      rw [startsFrom_length]; exact (List.getElem?_eq_some_iff.1 hw).1
    obtain ⟨o, ho⟩ : ∃ o, (startsFrom 0 (members t))[k]? = some o := ⟨_, List.getElem?_eq_getElem hk⟩
    rw [placeOf_cons hs, hoff]
    simp only [Res.bind_ok, ho, hw, Res.unwrap_some, ih w u l hl (hxs w (List.mem_of_getElem? hw)) hu, Res.pure_eq]
    simp [startAt, List.getD_eq_getElem?_getD, ho, hw]

/-- What `new` makes, for any structure type. -/
theorem structNew_members {t : Ty} {n : Nat} {ms : List (Ty × Bytes)} (hs : isStruct t = true)
    (hn : size t = some n) (hx : Expands t) (ht : ms.map (·.1) = members t)
    (hms : ∀ m ∈ ms, size m.1 = some m.2.length) :
    structNew t (members t) (ms.map (·.2)) = .ok ((encStruct (some n) ms).map some) := by
  have hxs := (fieldOffsets_members hs hn hx).2
  rw [← ht] at hxs ⊢
  cases t <;> simp [isStruct] at hs
  case tuple ts =>
    obtain ⟨hc, d, hd⟩ := expands_tuple.1 hx
    have e : ms.map (·.1) = ts := ht
    exact structNew_ok (by rw [e]) hn hms hxs (by rw [e]; exact hd)
  case dict k v =>
    obtain ⟨⟨hk, hv⟩, d, hd⟩ := expands_dict.1 hx
    have e : ms.map (·.1) = [k, v] := ht
    exact structNew_ok (by rw [e]; exact size_dict_eq k v) hn hms hxs (by rw [e]; exact hd)

theorem laid_zeros (ms : List (Ty × Bytes)) : (∀ m ∈ ms, m.2 = zeros m.2.length) → ∀ pos,
    laid pos ms = zeros (laid pos ms).length := by
  induction ms with
  | nil => intro _ pos; rfl
  | cons m ms ih =>
    intro h pos
    obtain ⟨t, b⟩ := m
    have hb := h (t, b) (by simp)
    simp only at hb
    have hi := ih (fun m hm => h m (List.mem_cons_of_mem _ hm)) (roundUp pos (Spec.align t) + b.length)
    generalize hL : laid (roundUp pos (Spec.align t) + b.length) ms = L at hi
    simp only [laid, hL]
    rw [hi, hb]
    simp [zeros, ← List.replicate_add]

theorem encStruct_zeros {ms : List (Ty × Bytes)} {n : Nat} (h : ∀ m ∈ ms, m.2 = zeros m.2.length)
    (hl : (laid 0 ms).length ≤ n) : encStruct (some n) ms = zeros n := by
  simp only [encStruct]
  rw [laid_zeros ms h 0]
  simp only [zeros, List.length_replicate, ← List.replicate_add]
  congr 1
  omega

/-- Field references of a freshly made struct. -/
theorem fieldRefs_laid (addr : Nat) (post : Bytes) (ms : List (Ty × Bytes)) :
    (∀ m ∈ ms, size m.1 = some m.2.length) → ∀ (pre : Bytes),
    (fieldRefs ⟨addr, pre ++ laid pre.length ms ++ post⟩ (startsFrom pre.length (ms.map (·.1)))
      (ms.map (·.2.length))).map (·.bytes) = ms.map (·.2) := by
  induction ms with
  | nil => intro _ pre; rfl
  | cons m ms ih =>
    intro hms pre
    obtain ⟨t, b⟩ := m
    have hs : size t = some b.length := hms (t, b) (by simp)
    have hle := le_roundUp (specAlign_isAl t).pos pre.length
    have := ih (fun m hm => hms m (List.mem_cons_of_mem _ hm)) (pre ++ zeros (roundUp pre.length (Spec.align t) - pre.length) ++ b)
    have hlen : (pre ++ zeros (roundUp pre.length (Spec.align t) - pre.length) ++ b).length =
        roundUp pre.length (Spec.align t) + b.length := by simp; omega
    rw [hlen] at this
    simp only [laid, List.map_cons, startsFrom, hs, Option.getD_some, fieldRefs]
    have e : pre ++ (zeros (roundUp pre.length (Spec.align t) - pre.length) ++ b ++
        laid (roundUp pre.length (Spec.align t) + b.length) ms) ++ post =
        pre ++ zeros (roundUp pre.length (Spec.align t) - pre.length) ++ b ++
          laid (roundUp pre.length (Spec.align t) + b.length) ms ++ post := by simp
    rw [e, this]
    congr 1
    have e2 : (pre ++ zeros (roundUp pre.length (Spec.align t) - pre.length)).length =
        roundUp pre.length (Spec.align t) := by simp; omega
    simp only [List.append_assoc]
    rw [← List.append_assoc pre, List.drop_append_of_le_length (by omega), List.drop_of_length_le (by omega)]
    simp

mutual
theorem defaultMem_ok : (t : Ty) → ∀ n, size t = some n → Expands t → ¬ Component .B t →
    defaultMem t = .ok (zeros n)
  | .B, _, _, _, hb => absurd (.refl _) hb
  | .Y, _, hn, _, _ | .N, _, hn, _, _ | .Q, _, hn, _, _ | .I, _, hn, _, _ | .U, _, hn, _, _
  | .X, _, hn, _, _ | .T, _, hn, _, _ | .D, _, hn, _, _ => by simp [size] at hn; subst hn; rfl
  | .S, _, hn, _, _ | .O, _, hn, _, _ | .G, _, hn, _, _ | .V, _, hn, _, _
  | .A _, _, hn, _, _ | .M _, _, hn, _, _ => by simp [size] at hn
  | .tuple ts, n, hn, hx, hb => by
    obtain ⟨e, he, hall, _⟩ := size_tuple_members hn
    have hxs := (fieldOffsets_members (t := .tuple ts) rfl hn hx).2
    have hds := defaultMems_ok ts hall hxs (fun t ht hc => hb (.member hc ht))
    let ms : List (Ty × Bytes) := ts.map fun t => (t, zeros ((size t).getD 0))
    have h1 : ms.map (·.1) = ts := by simp only [ms, List.map_map]; exact List.map_id ts
    have hms : ∀ m ∈ ms, size m.1 = some m.2.length := by
      intro m hm
      obtain ⟨t, ht, rfl⟩ := List.mem_map.1 hm
      obtain ⟨k, hk⟩ := Option.isSome_iff_exists.1 (hall t ht)
      simp [hk]
    have hnew := structNew_members (t := .tuple ts) rfl hn hx h1 hms
    have h2 : ms.map (·.2) = ts.map fun t => zeros ((size t).getD 0) := by simp [ms]
    have hle := laid_fixed_length hms 0
    rw [h1, he] at hle
    have := endAfter_le_size hn he
    rw [h2] at hnew
    have hnew' : structNew (.tuple ts) ts (ts.map fun t => zeros ((size t).getD 0)) =
      .ok ((encStruct (some n) ms).map some) := hnew
    simp only [defaultMem, hds, Res.bind_ok, hnew', read_some]
    rw [encStruct_zeros]
    · intro m hm
      obtain ⟨t, ht, rfl⟩ := List.mem_map.1 hm
      simp
    · simp at hle; omega
  | .dict k v, n, hn, hx, hb => by
    have hs := size_members (t := .dict k v) rfl hn
    obtain ⟨e, he, hall, _⟩ := size_tuple_members hs
    have hxs := (fieldOffsets_members (t := .dict k v) rfl hn hx).2
    obtain ⟨a, ha⟩ := Option.isSome_iff_exists.1 (hall k (by simp [members]))
    obtain ⟨b, hb'⟩ := Option.isSome_iff_exists.1 (hall v (by simp [members]))
    have hk := defaultMem_ok k a ha (hxs k (by simp [members])) (fun hc => hb (.key hc))
    have hv := defaultMem_ok v b hb' (hxs v (by simp [members])) (fun hc => hb (.value hc))
    have hms : ∀ m ∈ [(k, zeros a), (v, zeros b)], size m.1 = some m.2.length := by
      intro m hm
      simp only [List.mem_cons, List.not_mem_nil, or_false] at hm
      rcases hm with rfl | rfl <;> simp [ha, hb']
    have hnew := structNew_members (t := .dict k v) (ms := [(k, zeros a), (v, zeros b)]) rfl hn hx rfl hms
    have hnew' : structNew (.dict k v) [k, v] [zeros a, zeros b] =
      .ok ((encStruct (some n) [(k, zeros a), (v, zeros b)]).map some) := hnew
    have hle := laid_fixed_length hms 0
    have he' : endAfter 0 ([(k, zeros a), (v, zeros b)].map (·.1)) = some e := he
    rw [he'] at hle
    have := endAfter_le_size hs he
    simp only [defaultMem, hk, hv, Res.bind_ok, hnew', read_some]
    rw [encStruct_zeros]
    · intro m hm
      simp only [List.mem_cons, List.not_mem_nil, or_false] at hm
      rcases hm with rfl | rfl <;> simp
    · simp only [Option.some.injEq] at hle; omega
theorem defaultMems_ok : (ts : List Ty) → (∀ t ∈ ts, (size t).isSome) → (∀ t ∈ ts, Expands t) →
    (∀ t ∈ ts, ¬ Component .B t) → defaultMems ts = .ok (ts.map fun t => zeros ((size t).getD 0))
  | [], _, _, _ => rfl
  | t :: ts, hs, hx, hb => by
    obtain ⟨n, hn⟩ := Option.isSome_iff_exists.1 (hs t (by simp))
    have h1 := defaultMem_ok t n hn (hx t (by simp)) (hb t (by simp))
    have h2 := defaultMems_ok ts (fun t h => hs t (by simp [h])) (fun t h => hx t (by simp [h]))
      (fun t h => hb t (by simp [h]))
    simp [defaultMems, h1, h2, hn]
end

/-- A slicing program selects the same window of any two slices at the same place. -/
theorem runSlices_same (c : Cfg) (ops : List SliceOp) : ∀ (al : Nat) (s s₂ : Slice) (al' : Nat) (w : Slice),
    IsAl al → typedSlices al ops → al ∣ s.addr → s.len < 2 ^ 63 → s₂.addr = s.addr → s₂.len = s.len →
    runSlices c al s ops = .ok (al', w) →
    ∃ lo hi, lo ≤ hi ∧ hi ≤ s.len ∧ w = ⟨s.addr + lo, sub s.bytes lo hi⟩ ∧
      runSlices c al s₂ ops = .ok (al', ⟨s.addr + lo, sub s₂.bytes lo hi⟩) := by
  induction ops with
  | nil =>
    intro al s s₂ al' w _ _ _ _ h1 h2 h
    cases h
    refine ⟨0, s.len, Nat.zero_le _, Nat.le_refl _, ?_, ?_⟩
    · cases s; simp [sub, Slice.len]
    · cases s; cases s₂; simp only at h1; subst h1
      simp only [Slice.len] at h2
      simp [runSlices, sub, Slice.len, ← h2]
  | cons op ops ih =>
    intro al s s₂ al' w hal ht hp hlen e1 e2 h
    obtain ⟨⟨al1, s1⟩, h1, h2⟩ := Res.bind_eq_ok.1 h
    obtain ⟨rfl, lo, hi, hs, hr⟩ := (run_eq hal ht.1 (Or.inr hp) hlen al1 s1).1 h1
    obtain ⟨h3, h4, rfl⟩ := range_ok.1 hr
    have hp1 : op.tag al ∣ s.addr + lo :=
      Nat.dvd_add (Nat.dvd_trans (tag_dvd hal ht.1) hp) (window_dvd hal ht.1 hs)
    have hr2 : op.run c al s₂ = .ok (op.tag al, ⟨s.addr + lo, sub s₂.bytes lo hi⟩) := by
      refine (run_eq hal ht.1 (Or.inr (by rw [e1]; exact hp)) (by omega) _ _).2 ⟨rfl, lo, hi, by rw [e2]; exact hs, ?_⟩
      exact range_ok.2 ⟨h3, by omega, by rw [e1]⟩
    have hl1 : (sub s.bytes lo hi).length = hi - lo := sub_length h4
    have hl2 : (sub s₂.bytes lo hi).length = hi - lo := sub_length (by simp only [Slice.len] at e2 h4; omega)
    obtain ⟨lo', hi', h5, h6, rfl, h8⟩ := ih _ ⟨s.addr + lo, sub s.bytes lo hi⟩ ⟨s.addr + lo, sub s₂.bytes lo hi⟩ al' w
      (tag_isAl hal ht.1) ht.2 hp1 (by simp only [Slice.len, hl1] at *; omega) rfl
      (by simp only [Slice.len, hl1, hl2]) h2
    simp only [Slice.len, hl1] at h6
    refine ⟨lo + lo', lo + hi', by omega, by omega, ?_, ?_⟩
    · rw [sub_sub _ _ _ _ _ (by omega)]; simp [Nat.add_assoc]
    · simp only [runSlices, hr2, Res.bind_ok, h8]
      rw [sub_sub _ _ _ _ _ (by omega)]; simp [Nat.add_assoc]

end GV
