import Verif.Proofs.Packed
import Verif.Proofs.Safe
import Verif.Spec.Session
/-
Helper lemmas: what a program holds stays in order, step by step.
-/
namespace GV
open Spec (Op Obs)

/-- Something held that is in order, borrowed from memory `m`. -/
inductive HeldIn (c : Cfg) (m : Slice) : Held → Prop
  | ref {t : Ty} {r : Slice} : Good c m t r → HeldIn c m (.ref t r)
  | iter {e : Ty} {it : ArrIter} (s : Slice) (j : Nat) : IterAt c m e it s j → HeldIn c m (.iter e it)
  | items {e : Ty} {rs : List Slice} : (∀ r ∈ rs, Good c m e r) → HeldIn c m (.items e rs)

/-- A call on number `i` ends in an orderly way, and what is held then is what was held before, but for number
    `i`, and more, all borrowed from `m`. -/
def Keeps (c : Cfg) (m : Slice) (hs : List Held) (i : Nat) (r : Res (Obs × List Held)) : Prop :=
  Calm r ∧ ∀ o hs', r = .ok (o, hs') → ∃ x' new, hs' = hs.set i x' ++ new ∧ HeldIn c m x' ∧ ∀ y ∈ new, HeldIn c m y

theorem Keeps.bind {c : Cfg} {m : Slice} {hs : List Held} {i : Nat} {α : Type} {r : Res α} {k : α → Res (Obs × List Held)}
    (h : Calm r) (hk : ∀ a, r = .ok a → Keeps c m hs i (k a)) : Keeps c m hs i (r >>= k) := by
  refine ⟨h.bind fun a ha => (hk a ha).1, fun o hs' ho => ?_⟩
  obtain ⟨a, ha, ho⟩ := Res.bind_eq_ok.1 ho
  exact (hk a ha).2 o hs' ho

theorem Keeps.push {c : Cfg} {m : Slice} {hs new : List Held} {i : Nat} {x : Held} (hx : hs[i]? = some x)
    (h : HeldIn c m x) (hn : ∀ y ∈ new, HeldIn c m y) (o : Obs) : Keeps c m hs i (.ok (o, hs ++ new)) := by
  refine ⟨.ok _, ?_⟩
  rintro o' hs' ⟨⟩
  refine ⟨x, new, ?_, h, hn⟩
  obtain ⟨hlt, he⟩ := List.getElem?_eq_some_iff.1 hx
  rw [← he, List.set_getElem_self hlt]

theorem Keeps.same {c : Cfg} {m : Slice} {hs : List Held} {i : Nat} {x : Held} (hx : hs[i]? = some x)
    (h : HeldIn c m x) (o : Obs) : Keeps c m hs i (.ok (o, hs)) := by
  have := Keeps.push (new := []) hx h (by simp) o
  rwa [List.append_nil] at this

theorem Keeps.option {c : Cfg} {m : Slice} {hs : List Held} {i : Nat} {x : Held} (hx : hs[i]? = some x)
    (h : HeldIn c m x) {t : Ty} {o : Option Slice} (ho : ∀ r, o = some r → Good c m t r) :
    Keeps c m hs i (.ok (gotOption hs t o)) := by
  cases o with
  | none => exact .same hx h _
  | some r => exact .push hx h (by simpa using .ref (ho r rfl)) _

theorem zipWith_in {c : Cfg} {m : Slice} : ∀ {ts : List Ty} {rs : List Slice}, List.Forall₂ (Good c m) ts rs →
    ∀ y ∈ ts.zipWith .ref rs, HeldIn c m y
  | [], _, .nil => by simp
  | t :: ts, r :: rs, .cons h hs => by
    intro y hy
    simp only [List.zipWith_cons_cons, List.mem_cons] at hy
    rcases hy with rfl | hy
    · exact .ref h
    · exact zipWith_in hs y hy

theorem lenAt_calm {c : Cfg} {m s : Slice} {e : Ty} (hg : Good c m (.A e) s) : Calm (lenAt c e s) := by
  simp only [lenAt, sizeOf_eq]
  cases hs : Spec.size e with
  | none => simp only [arrLen_ok hg.len]; exact .ok _
  | some n => simp only [(slice_good hg hs).1, Res.bind_ok]; exact .pure _

theorem index_calm {c : Cfg} {m s : Slice} {e : Ty} (hg : Good c m (.A e) s) (hs : Spec.size e = none) (i : Nat) :
    Calm (arrIndex c e s i) ∧ ∀ r, arrIndex c e s i = .ok r → Good c m e r := by
  obtain ⟨h1, h2⟩ := arrIndex_safe (c := c) (expands_A.1 hg.ex) hs hg.al hg.len i
  refine ⟨fun f hf => orderly_panic (h2 f hf), fun r hr => ?_⟩
  obtain ⟨a1, a2, a3⟩ := h1 r hr
  exact hg.child (expands_A.1 hg.ex) hg.sm.A a1 a2 a3

theorem indexAt_calm {c : Cfg} {m s : Slice} {e : Ty} (hg : Good c m (.A e) s) (i : Nat) :
    Calm (indexAt c e s i) ∧ ∀ r, indexAt c e s i = .ok r → Good c m e r := by
  simp only [indexAt, sizeOf_eq]
  cases hs : Spec.size e with
  | none => exact index_calm hg hs i
  | some n =>
    obtain ⟨h1, h2⟩ := slice_good hg hs
    simp only [h1, Res.bind_ok]
    split
    · rename_i r hr
      exact ⟨.pure _, fun r' h => by cases h; exact h2 _ (List.mem_of_getElem? hr)⟩
    · exact ⟨.fail ⟨nofun, nofun⟩, fun r' h => by cases h⟩

theorem firstAt_calm {c : Cfg} {m s : Slice} {e : Ty} (hg : Good c m (.A e) s) :
    Calm (firstAt c e s) ∧ ∀ o, firstAt c e s = .ok o → ∀ r, o = some r → Good c m e r := by
  simp only [firstAt, sizeOf_eq]
  cases hs : Spec.size e with
  | none =>
    simp only [arrFirst, arrLen_ok hg.len, Res.bind_ok]
    split
    · exact ⟨.pure _, fun o h => by cases h; nofun⟩
    · obtain ⟨h1, h2⟩ := index_calm hg hs 0
      refine ⟨h1.bind fun _ _ => .pure _, fun o h => ?_⟩
      obtain ⟨x, hx, h⟩ := Res.bind_eq_ok.1 h
      cases h
      rintro _ ⟨⟩
      exact h2 x hx
  | some n =>
    obtain ⟨h1, h2⟩ := slice_good hg hs
    simp only [h1, Res.bind_ok]
    refine ⟨.pure _, fun o h => ?_⟩
    cases h
    intro r hr
    exact h2 r (List.mem_of_mem_head? hr)

theorem lastAt_calm {c : Cfg} {m s : Slice} {e : Ty} (hg : Good c m (.A e) s) :
    Calm (lastAt c e s) ∧ ∀ o, lastAt c e s = .ok o → ∀ r, o = some r → Good c m e r := by
  simp only [lastAt, sizeOf_eq]
  cases hs : Spec.size e with
  | none =>
    simp only [arrLast, arrLen_ok hg.len, Res.bind_ok]
    split
    · exact ⟨.pure _, fun o h => by cases h; nofun⟩
    · refine ⟨(usub_calm c _ _).bind fun _ _ => (index_calm hg hs _).1.bind fun _ _ => .pure _, fun o h => ?_⟩
      obtain ⟨i, _, h⟩ := Res.bind_eq_ok.1 h
      obtain ⟨x, hx, h⟩ := Res.bind_eq_ok.1 h
      cases h
      rintro _ ⟨⟩
      exact (index_calm hg hs i).2 x hx
  | some n =>
    obtain ⟨h1, h2⟩ := slice_good hg hs
    simp only [h1, Res.bind_ok]
    refine ⟨.pure _, fun o h => ?_⟩
    cases h
    intro r hr
    exact h2 r (List.mem_of_getLast? hr)

theorem iterAt_calm {c : Cfg} {m s : Slice} {e : Ty} (hg : Good c m (.A e) s) :
    Calm (iterAt c e s) ∧ ∀ x, iterAt c e s = .ok x → HeldIn c m x := by
  simp only [iterAt, sizeOf_eq]
  cases hs : Spec.size e with
  | none =>
    obtain ⟨it, h1, h2⟩ := iter_start hg hs
    simp only [h1, Res.bind_ok]
    exact ⟨.pure _, fun x h => by cases h; exact .iter _ _ h2⟩
  | some n =>
    obtain ⟨h1, h2⟩ := slice_good hg hs
    simp only [h1, Res.bind_ok]
    exact ⟨.pure _, fun x h => by cases h; exact .items h2⟩

theorem lookAt_calm {c : Cfg} {m s : Slice} {t : Ty} (hg : Good c m t s) : Calm (lookAt c t s) := by
  cases t with
  | V => simp only [lookAt]; exact (split_calm hg).bind fun _ _ => .pure _
  | _ => simp only [lookAt]; exact .ok _

theorem call_keeps {c : Cfg} {P : CoreFmt} {p : Places} {hs : List Held} {op : Op} {x y : Held} {m m' : Slice}
    (hx : hs[opOn op]? = some x) (hy : hs[opWith op]? = some y) (h : HeldIn c m x) (h' : HeldIn c m' y)
    (hop : ∀ h u, op = .get h u → Expands u ∧ Small u) (hnc : ∀ h, op ≠ .copy h) :
    Keeps c m hs (opOn op) (callStep c P p hs op) := by
  have same : ∀ o, Keeps c m hs (opOn op) (.ok (o, hs)) := fun o => .same hx h o
  cases op with
  | look h0 =>
    simp only [opOn] at hx same ⊢
    simp only [callStep, hx]
    cases h with
    | ref hg => exact .bind (lookAt_calm hg) fun _ _ => same _
    | iter => exact same _
    | items => exact same _
  | len h0 =>
    simp only [opOn] at hx same ⊢
    simp only [callStep, hx]
    cases h with
    | @ref t r hg =>
      cases t with
      | A e => exact .bind (lenAt_calm hg) fun _ _ => same _
      | _ => exact same _
    | @iter e it s j hi =>
      obtain ⟨_, _, hj, rfl⟩ := hi
      simp only [sizeHint_ok hj, Res.bind_ok]
      exact same _
    | items => exact same _
  | index h0 i =>
    simp only [opOn] at hx same ⊢
    simp only [callStep, hx]
    cases h with
    | @ref t r hg =>
      cases t with
      | A e =>
        obtain ⟨h1, h2⟩ := indexAt_calm hg i
        exact .bind h1 fun q hq => .push hx (.ref hg) (by simpa using .ref (h2 q hq)) _
      | _ => exact same _
    | iter => exact same _
    | items => exact same _
  | first h0 =>
    simp only [opOn] at hx same ⊢
    simp only [callStep, hx]
    cases h with
    | @ref t r hg =>
      cases t with
      | A e =>
        obtain ⟨h1, h2⟩ := firstAt_calm hg
        exact .bind h1 fun o ho => .option hx (.ref hg) (h2 o ho)
      | _ => exact same _
    | iter => exact same _
    | items => exact same _
  | last h0 =>
    simp only [opOn] at hx same ⊢
    simp only [callStep, hx]
    cases h with
    | @ref t r hg =>
      cases t with
      | A e =>
        obtain ⟨h1, h2⟩ := lastAt_calm hg
        exact .bind h1 fun o ho => .option hx (.ref hg) (h2 o ho)
      | _ => exact same _
    | iter => exact same _
    | items => exact same _
  | iter h0 =>
    simp only [opOn] at hx same ⊢
    simp only [callStep, hx]
    cases h with
    | @ref t r hg =>
      cases t with
      | A e =>
        obtain ⟨h1, h2⟩ := iterAt_calm hg
        exact .bind h1 fun q hq => .push hx (.ref hg) (by simpa using h2 q hq) _
      | _ => exact same _
    | iter => exact same _
    | items => exact same _
  | next h0 =>
    simp only [opOn] at hx same ⊢
    simp only [callStep, hx]
    cases h with
    | ref => exact same _
    | @iter e it s j hi =>
      obtain ⟨h1, h2⟩ := iter_step hi
      refine .bind h1 ?_
      rintro ⟨o, it'⟩ ho
      obtain ⟨⟨j', hj'⟩, hr⟩ := h2 o it' ho
      refine ⟨.ok _, ?_⟩
      intro o' hs' ho'
      cases o with
      | none => cases ho'; exact ⟨.iter e it', [], by simp, .iter s j' hj', by simp⟩
      | some r => cases ho'; exact ⟨.iter e it', [.ref e r], rfl, .iter s j' hj', by simpa using .ref (hr r rfl)⟩
    | @items e rs hg =>
      cases rs with
      | nil => exact same _
      | cons r rs =>
        refine ⟨.ok _, ?_⟩
        rintro o' hs' ⟨⟩
        exact ⟨.items e rs, [.ref e r], rfl, .items fun q hq => hg q (by simp [hq]), by simpa using .ref (hg r (by simp))⟩
  | option h0 =>
    simp only [opOn] at hx same ⊢
    simp only [callStep, hx]
    cases h with
    | @ref t r hg =>
      cases t with
      | M e =>
        refine .bind (toOption_calm hg) fun o ho => .option hx (.ref hg) ?_
        rintro q rfl
        exact (toOption_good hg).1 q ho
      | _ => exact same _
    | iter => exact same _
    | items => exact same _
  | members h0 =>
    simp only [opOn] at hx same ⊢
    simp only [callStep, hx]
    cases h with
    | @ref t r hg =>
      cases t with
      | tuple ts =>
        exact .bind (tuple_calm hg) fun rs hrs => .push hx (.ref hg) (zipWith_in (Props.tuple_forall hg hrs)) _
      | dict k v =>
        exact .bind (dict_calm hg) fun rs hrs => .push hx (.ref hg) (zipWith_in (Props.dict_forall hg hrs)) _
      | _ => exact same _
    | iter => exact same _
    | items => exact same _
  | get h0 u =>
    simp only [opOn] at hx same ⊢
    simp only [callStep, hx]
    obtain ⟨hxu, hsu⟩ := hop h0 u rfl
    cases h with
    | @ref t r hg =>
      cases t with
      | V =>
        obtain ⟨h1, h2⟩ := Props.variantGet_cases hg hxu hsu
        refine .bind (fun f hf => absurd hf (h2 f)) fun o ho => .option hx (.ref hg) ?_
        rintro q rfl
        exact h1 q ho
      | _ => exact same _
    | iter => exact same _
    | items => exact same _
  | eq h0 k0 =>
    simp only [opOn, opWith] at hx hy same ⊢
    simp only [callStep, hx, hy]
    cases h with
    | @ref t r hg =>
      cases h' with
      | @ref t' r' hg' =>
        simp only
        split
        · rename_i he
          subst he
          exact .bind (veq_calm t r r' hg hg') fun _ _ => same _
        · exact same _
      | iter => exact same _
      | items => exact same _
    | iter => exact same _
    | items => exact same _
  | order h0 k0 =>
    simp only [opOn, opWith] at hx hy same ⊢
    simp only [callStep, hx, hy]
    cases h with
    | @ref t r hg =>
      cases t with
      | M e =>
        cases h' with
        | @ref t' r' hg' =>
          cases t' with
          | M e' =>
            simp only
            split
            · rename_i he
              obtain ⟨rfl, _⟩ := he
              refine .bind ?_ fun _ _ => same _
              exact (toOption_calm hg).bind fun _ _ => (toOption_calm hg').bind fun _ _ => .pure _
            · exact same _
          | _ => exact same _
        | iter => exact same _
        | items => exact same _
      | _ => exact same _
    | iter => exact same _
    | items => exact same _
  | print h0 =>
    simp only [opOn] at hx same ⊢
    simp only [callStep, hx]
    cases h with
    | ref hg => exact .bind (debug_calm P _ _ hg) fun _ _ => same _
    | iter => exact same _
    | items => exact same _
  | write h0 =>
    simp only [opOn] at hx same ⊢
    simp only [callStep, hx]
    cases h with
    | @ref t r hg =>
      obtain ⟨h1, h2⟩ := source_quiet vecWriter c m t r hg
      exact .bind h1 fun x hx => .bind (toVec_calm (h2 x hx)) fun _ _ => same _
    | iter => exact same _
    | items => exact same _
  | copy h0 => exact absurd rfl (hnc h0)

/-! ### Copies -/

theorem copy_in {c : Cfg} {p : Places} {m r : Slice} {t : Ty} (hp : p.vecs.Valid) (hpa : 8 ∣ p.addr)
    (hl : m.len ≤ 2 ^ 62) (hg : Good c m t r) (h : Spec.plainCopy t = true ∨ r.bytes ≠ [] ∨ Spec.align t = 1) :
    ∃ o q m', toOwned c p t r = .ok o ∧ o.borrow c t = .ok q ∧ (Cell.owned t o).mem c = .ok m' ∧ m'.len ≤ 2 ^ 62 ∧
      Good c m' t q := by
  have hrl := Props.good_len62 hl hg
  have hal : Spec.align t ∣ p.addr := Nat.dvd_trans (align_dvd_8 t) hpa
  have hgq : Good c ⟨p.addr, r.bytes⟩ t ⟨p.addr, r.bytes⟩ := ⟨hg.ex, hg.sm, hal, hg.cast, hg.len, Or.inl (.refl _)⟩
  -- a copy in a buffer
  have hbuf : Spec.plainCopy t = false → ∃ b q m', ownedFromBytes c p r.bytes = .ok b ∧
      (OwnedVal.buf b).borrow c t = .ok q ∧ (Cell.owned t (.buf b)).mem c = .ok m' ∧ m'.len ≤ 2 ^ 62 ∧ Good c m' t q := by
    intro hnp
    obtain ⟨hvv, hvb⟩ := ofSlice_valid hp hrl
    obtain ⟨w, h1, h2, h3⟩ := alignVec_ok (c := c) hp hvv
    have hd := deref_ok (c := c) h2
    rw [h3, hvb] at hd
    have ha8 : Spec.align t ∣ (if w.bytes = [] then w.addr else w.addr + gap 8 w.addr) := by
      split
      · rename_i he
        rcases h with h | h | h
        · rw [hnp] at h; cases h
        · refine absurd ?_ h
          rw [← hvb, ← h3]; simp [AlignedBuf.vis, he]
        · rw [h]; exact Nat.one_dvd _
      · exact Nat.dvd_trans (align_dvd_8 t) (gap_dvd isAl8 _)
    obtain ⟨q, h4, hgq⟩ := cast_good (c := c) (s := ⟨_, r.bytes⟩) hg.ex hg.sm ha8 hg.len
    refine ⟨⟨w⟩, q, _, ?_, ?_, hd, hrl, hgq⟩
    · simp only [ownedFromBytes, AlignedBuf.fromVec, h1, Res.bind_ok, Res.pure_eq]
    · simp only [OwnedVal.borrow, hd, Res.bind_ok]
      exact h4
  unfold toOwned
  rw [sizeOf_eq]
  cases hs : Spec.size t with
  | some n => exact ⟨_, _, _, rfl, rfl, rfl, hrl, hgq⟩
  | none =>
    have hstr : Spec.isStr t = true → ∃ o q m', (Res.ok (.gstring p.addr (strToOwned p.extra r.bytes)) : Res OwnedVal) = .ok o ∧
        o.borrow c t = .ok q ∧ (Cell.owned t o).mem c = .ok m' ∧ m'.len ≤ 2 ^ 62 ∧ Good c m' t q := by
      intro ht
      have hb : (strToOwned p.extra r.bytes).data = toStr r.bytes ++ [0] := by
        simp [strToOwned, GString.fromStrUnchecked, GString.append]
      have hlen : (toStr r.bytes ++ [0]).length ≤ 2 ^ 62 := by
        have : (toStr r.bytes).length + 1 ≤ max 1 r.bytes.length := by
          by_cases hx : ∃ s, Spec.Text s ∧ r.bytes = s ++ [0]
          · obtain ⟨s, h1, h2⟩ := hx
            rw [h2, toStr_text h1]; simp
          · rw [Props.c20_to_str_otherwise _ hx, List.length_nil]; omega
        simp only [Slice.len] at hrl
        simp only [List.length_append, List.length_singleton]
        omega
      have hgq : Good c ⟨p.addr, toStr r.bytes ++ [0]⟩ t ⟨p.addr, toStr r.bytes ++ [0]⟩ := by
        refine ⟨hg.ex, hg.sm, hal, ?_, Nat.lt_of_le_of_lt hlen (by decide), Or.inl (.refl _)⟩
        cases t <;> simp [Spec.isStr] at ht <;> rfl
      refine ⟨_, ⟨p.addr, toStr r.bytes ++ [0]⟩, ⟨p.addr, toStr r.bytes ++ [0]⟩, rfl, ?_, ?_, hlen, hgq⟩
      · cases t <;> simp [Spec.isStr] at ht <;>
          simp [OwnedVal.borrow, tryFromAligned, sizeOf_eq, Spec.size, GString.deref, hb, Res.unwrap]
      · simp only [Cell.mem, GString.deref, hb]
    cases t with
    | S => exact hstr rfl
    | O => exact hstr rfl
    | G => exact hstr rfl
    | A e =>
      simp only [sizeOf_eq]
      cases he : Spec.size e with
      | some n => exact ⟨_, _, _, rfl, rfl, rfl, hrl, hgq⟩
      | none =>
        obtain ⟨b, q, m', h1, h2⟩ := hbuf (by simp [Spec.plainCopy, he])
        exact ⟨.buf b, q, m', by simp only [h1, Res.bind_ok, Res.pure_eq], h2⟩
    | _ =>
      obtain ⟨b, q, m', h1, h2⟩ := hbuf (by simp [Spec.plainCopy, hs, Spec.isStr])
      exact ⟨.buf b, q, m', by simp only [h1, Res.bind_ok, Res.pure_eq], h2⟩

/-! ### Borrow rules -/

section
variable {α β : Type}

theorem kill_some {i j k : Nat} {x : β} {l : List (Option (Nat × β))} (h : (kill i l)[j]? = some (some (k, x))) :
    l[j]? = some (some (k, x)) ∧ k ≠ i := by
  simp only [kill, List.getElem?_map] at h
  cases hl : l[j]? with
  | none => rw [hl] at h; cases h
  | some o =>
    cases o with
    | none => rw [hl] at h; simp at h
    | some y =>
      obtain ⟨k', x'⟩ := y
      rw [hl] at h
      simp only [Option.map_some, Option.some.injEq] at h
      split at h
      · cases h
      · cases h
        exact ⟨rfl, by assumption⟩

theorem prune_some {cells : List (Option α)} {j k : Nat} {x : β} {l : List (Option (Nat × β))}
    (h : (prune cells l)[j]? = some (some (k, x))) :
    l[j]? = some (some (k, x)) ∧ ∃ y, cells[k]? = some (some y) := by
  simp only [prune, List.getElem?_map] at h
  cases hl : l[j]? with
  | none => rw [hl] at h; cases h
  | some o =>
    cases o with
    | none => rw [hl] at h; simp at h
    | some y =>
      obtain ⟨k', x'⟩ := y
      rw [hl] at h
      simp only [Option.map_some, Option.some.injEq] at h
      split at h
      · rename_i hc
        cases h
        exact ⟨rfl, _, hc⟩
      · cases h

theorem shut_some {par : α → Option Nat} {i j : Nat} {x : α} {cells : List (Option α)}
    (h : (shut par i cells)[j]? = some (some x)) : cells[j]? = some (some x) := by
  simp only [shut, List.getElem?_map, List.getElem?_set] at h
  split at h
  · split at h
    · cases h
    · cases h
  · cases hl : cells[j]? with
    | none => rw [hl] at h; cases h
    | some o =>
      cases o with
      | none => rw [hl] at h; cases h
      | some y =>
        rw [hl] at h
        simp only [Option.map_some, Option.some.injEq] at h
        split at h
        · cases h
        · cases h; rfl

theorem rehold_live {o : Nat} {d : β} {new : List β} (l : List (Option (Nat × β))) :
    rehold o l (live d l ++ new) = l ++ new.map fun h => some (o, h) := by
  induction l with
  | nil => simp [live, rehold]
  | cons a l ih =>
    cases a with
    | none => simpa [live, rehold] using ih
    | some y => simpa [live, rehold] using ih

theorem rehold_eq {o k i : Nat} {x x' d : β} {new : List β} : ∀ {l : List (Option (Nat × β))},
    l[i]? = some (some (k, x)) →
    rehold o l ((live d l).set i x' ++ new) = l.set i (some (k, x')) ++ new.map fun h => some (o, h) := by
  induction i with
  | zero =>
    intro l h
    cases l with
    | nil => cases h
    | cons a l =>
      simp only [List.getElem?_cons_zero, Option.some.injEq] at h
      subst h
      simpa [live, rehold] using rehold_live l
  | succ i ih =>
    intro l h
    cases l with
    | nil => cases h
    | cons a l =>
      simp only [List.getElem?_cons_succ] at h
      have := ih h
      cases a with
      | none => simpa [live, rehold] using this
      | some y => simpa [live, rehold] using this

theorem live_some {k i : Nat} {x d : β} {l : List (Option (Nat × β))} (h : l[i]? = some (some (k, x))) :
    (live d l)[i]? = some x := by
  simp [live, h]

end

/-! ### Sessions -/

/-- A cell is in order. -/
def CellOk (c : Cfg) : Cell → Prop
  | .buffer b => b.Inv ∧ b.vis.length ≤ 2 ^ 62
  | .owned t o => ∃ m, (Cell.owned t o).mem c = .ok m
  | .lent s => s.len ≤ 2 ^ 62
  | .cow i w => ∃ m, (Cell.cow i w).mem c = .ok m

/-- Something is held in order: it is borrowed from a cell that is there, from the bytes that are there now. -/
def HeldOk (c : Cfg) (cells : List (Option Cell)) (k : Nat) (x : Held) : Prop :=
  ∃ cell m, cells[k]? = some (some cell) ∧ cell.mem c = .ok m ∧ m.len ≤ 2 ^ 62 ∧ HeldIn c m x

/-- All is in order. -/
structure Sane (c : Cfg) (σ : Session) : Prop where
  cells : ∀ (i : Nat) x, σ.cells[i]? = some (some x) → CellOk c x
  held : ∀ (j : Nat) k x, σ.held[j]? = some (some (k, x)) → HeldOk c σ.cells k x

theorem HeldOk.push {c : Cfg} {cells new : List (Option Cell)} {k : Nat} {x : Held} (h : HeldOk c cells k x) :
    HeldOk c (cells ++ new) k x := by
  obtain ⟨cell, m, h1, h2⟩ := h
  refine ⟨cell, m, ?_, h2⟩
  rw [List.getElem?_append_left (List.getElem?_eq_some_iff.1 h1).1]
  exact h1

theorem HeldOk.set {c : Cfg} {cells : List (Option Cell)} {k i : Nat} {x : Held} {y : Option Cell} (h : HeldOk c cells k x)
    (hne : k ≠ i) : HeldOk c (cells.set i y) k x := by
  obtain ⟨cell, m, h1, h2⟩ := h
  exact ⟨cell, m, by rw [List.getElem?_set_ne (Ne.symm hne)]; exact h1, h2⟩

/-- A new cell. -/
theorem Sane.cell {c : Cfg} {σ : Session} (h : Sane c σ) {x : Cell} (hx : CellOk c x) :
    Sane c { σ with cells := σ.cells ++ [some x] } := by
  refine ⟨fun i y hy => ?_, fun j k x hx => (h.held j k x hx).push⟩
  simp only [List.getElem?_append, List.getElem?_singleton] at hy
  split at hy
  · exact h.cells i y hy
  · split at hy
    · cases hy; exact hx
    · cases hy

/-- Something more is held. -/
theorem Sane.hold {c : Cfg} {σ : Session} (h : Sane c σ) {k : Nat} {x : Held} (hx : HeldOk c σ.cells k x) :
    Sane c { σ with held := σ.held ++ [some (k, x)] } := by
  refine ⟨h.cells, fun j k' x' hx' => ?_⟩
  simp only [List.getElem?_append, List.getElem?_singleton] at hx'
  split at hx'
  · exact h.held j k' x' hx'
  · split at hx'
    · cases hx'; exact hx
    · cases hx'

/-- A cell is gone, and those borrowed from it. -/
theorem Sane.drop {c : Cfg} {σ : Session} (h : Sane c σ) (i : Nat) :
    Sane c ⟨shut Cell.parent i σ.cells, prune (shut Cell.parent i σ.cells) σ.held⟩ := by
  refine ⟨fun j x hx => h.cells j x (shut_some hx), fun j k x hx => ?_⟩
  obtain ⟨h1, y, h2⟩ := prune_some hx
  obtain ⟨cell, m, h3, h4⟩ := h.held j k x h1
  have := shut_some h2
  rw [h3] at this
  cases this
  exact ⟨_, m, h2, h4⟩

/-- A cell is changed. -/
theorem Sane.change {c : Cfg} {σ : Session} (h : Sane c σ) (i : Nat) {y : Cell} (hy : CellOk c y) :
    Sane c ⟨σ.cells.set i (some y), kill i σ.held⟩ := by
  refine ⟨fun j x hx => ?_, fun j k x hx => ?_⟩
  · simp only [List.getElem?_set] at hx
    split at hx
    · split at hx
      · cases hx; exact hy
      · cases hx
    · exact h.cells j x hx
  · obtain ⟨h1, h2⟩ := kill_some hx
    exact (h.held j k x h1).set h2

theorem alter_ok {c : Cfg} {a : Alloc} {b : AlignedBuf} {f : RVec → RVec} (ha : a.Valid) (hb : b.Inv)
    (hl : b.vis.length ≤ 2 ^ 62) (hf : ∀ v, v.Valid → v.bytes = b.vis → (f v).Valid) :
    ∃ b' v, b.withVec c a f = .ok b' ∧ b'.Inv ∧ v.bytes = b.vis ∧ b'.vis = (f v).bytes ∧ b'.vis.length ≤ 2 ^ 62 := by
  obtain ⟨u, hu, hub, hua, huc⟩ := unalignVec_ok (c := c) hb
  have huv : u.Valid := by
    refine ⟨?_, by rw [hua, huc]; exact hb.2.1, by rw [hub]; exact hl⟩
    rw [hub, huc]
    have := hb.1
    simp only [AlignedBuf.vis, List.length_drop]
    omega
  obtain ⟨w, hw, hi, hv⟩ := alignVec_ok (c := c) ha (hf u huv hub)
  refine ⟨⟨w⟩, u, by simp only [AlignedBuf.withVec, hu, hw, Res.bind_ok, Res.pure_eq], hi, hub, hv, ?_⟩
  rw [hv]
  exact (hf u huv hub).2.2

theorem poke_ok {c : Cfg} {b : AlignedBuf} (hb : b.Inv) (hl : b.vis.length ≤ 2 ^ 62) (j : Nat) (x : UInt8) :
    Calm (b.setAt c j x) ∧ ∀ b', b.setAt c j x = .ok b' → b'.Inv ∧ b'.vis.length ≤ 2 ^ 62 := by
  obtain ⟨h1, h2⟩ := Props.bufStep_ok (c := c) (e := ⟨Props.oddAlloc, fun _ => (0, 0)⟩) (op := .set j x) hb hl trivial
  simp only [bufStep, Spec.VecOp.onBytes] at h1 h2
  by_cases hj : j < b.vis.length
  · simp only [hj, if_true] at h1 h2
    obtain ⟨b', h3, h4, h5⟩ := h1 _ rfl
    rw [h3]
    refine ⟨.ok _, ?_⟩
    rintro _ ⟨⟩
    exact ⟨h4, by rw [h5]; simpa using hl⟩
  · simp only [hj, if_false] at h1 h2
    rw [h2 trivial]
    exact ⟨.fail ⟨nofun, nofun⟩, fun b' h => by cases h⟩

theorem bufMem_aligned {b : AlignedBuf} {t : Ty} (h : b.vis ≠ [] ∨ Spec.align t = 1) :
    Spec.align t ∣ (if b.data.bytes = [] then b.data.addr else b.data.addr + gap 8 b.data.addr) := by
  split
  · rename_i he
    rcases h with h | h
    · exact absurd (by simp [AlignedBuf.vis, he]) h
    · rw [h]; exact Nat.one_dvd _
  · exact Nat.dvd_trans (align_dvd_8 t) (gap_dvd isAl8 _)

/-- A cast of data of any alignment, if it is aligned or of a fixed size which the data has not. -/
theorem cast_any {c : Cfg} {t : Ty} {s : Slice} (hx : Expands t) (hsm : Small t) (hl : s.len ≤ 2 ^ 62)
    (ha : Spec.align t ∣ s.addr ∨ s.bytes = [] ∧ (Spec.size t).isSome) :
    ∃ r, fromAligned c t s = .ok r ∧ Good c s t r ∧ r.bytes = castBytes t s.bytes := by
  by_cases hal : Spec.align t ∣ s.addr
  · obtain ⟨r, h1, h2⟩ := cast_good (c := c) hx hsm hal (by omega)
    obtain ⟨r', h3, _, h4, _⟩ := fromAligned_ok (c := c) hx hal
    rw [h1] at h3; cases h3
    exact ⟨r, h1, h2, h4⟩
  · obtain ⟨hb, hn⟩ := ha.resolve_left hal
    obtain ⟨n, hn⟩ := Option.isSome_iff_exists.1 hn
    have hne : s.len ≠ n := by
      have := (size_pos_dvd t n hn).1
      simp only [Slice.len, hb, List.length_nil]; omega
    obtain ⟨r, h1, h2, h3⟩ := defaultRef_ok (c := c) hx
    refine ⟨r, ?_, ⟨hx, hsm, h2, ?_, ?_, Or.inr ⟨t, r, hsm, h3, .refl r⟩⟩, ?_⟩
    · simp only [fromAligned, tryFromAligned, sizeOf_eq, hn, tryCastSliceTo, rustLayout_ok t n hn hx, Res.bind_ok,
        if_neg (Ne.symm hne), Res.pure_eq, h1]
    · rw [h3.1]
      simp [castBytes, hn, dfltBytes]
    · simp only [Slice.len, h3.1]; exact dfltBytes_len hsm
    · rw [h3.1]
      have : ¬ s.bytes.length = n := hne
      simp [castBytes, hn, dfltBytes, this]

/-- The bytes of a buffer can be cast with care. -/
theorem castBuf_ok {c : Cfg} {b : AlignedBuf} {t : Ty} (hx : Expands t) (hsm : Small t) (hb : b.Inv)
    (hl : b.vis.length ≤ 2 ^ 62) (h : b.vis ≠ [] ∨ Spec.align t = 1 ∨ (Spec.size t).isSome) :
    ∃ m r, b.deref c = .ok m ∧ m.bytes = b.vis ∧ m.len ≤ 2 ^ 62 ∧ fromAligned c t m = .ok r ∧ Good c m t r ∧
      r.bytes = castBytes t m.bytes := by
  have hd := deref_ok (c := c) hb
  have hc : Spec.align t ∣ (if b.data.bytes = [] then b.data.addr else b.data.addr + gap 8 b.data.addr) ∨
      b.vis = [] ∧ (Spec.size t).isSome := by
    by_cases hv : b.vis = []
    · rcases h with h | h | h
      · exact absurd hv h
      · exact Or.inl (bufMem_aligned (Or.inr h))
      · exact Or.inr ⟨hv, h⟩
    · exact Or.inl (bufMem_aligned (Or.inl hv))
  obtain ⟨r, h1, h2⟩ := cast_any (c := c) hx hsm (s := ⟨_, b.vis⟩) hl hc
  exact ⟨_, r, hd, rfl, hl, h1, h2⟩

/-- `copy_to_align` and a cast, with care. -/
theorem settle_ok {c : Cfg} {p : Places} {s : Slice} {t : Ty} (hp : Spec.ProperPlace p) (hx : Expands t) (hsm : Small t)
    (hl : s.len ≤ 2 ^ 62) (h : s.bytes ≠ [] ∨ Spec.align t ∣ s.addr ∨ (Spec.size t).isSome) :
    ∃ w m r, copyToAlign c p.vecs (alignOf t) s = .ok w ∧ w.asRef c = .ok m ∧ m.bytes = s.bytes ∧ m.len ≤ 2 ^ 62 ∧
      fromAligned c t m = .ok r ∧ Good c m t r ∧ r.bytes = castBytes t m.bytes := by
  by_cases hal : Spec.align t ∣ s.addr
  · obtain ⟨r, h1, h2⟩ := cast_any (c := c) hx hsm hl (Or.inl hal)
    refine ⟨.borrowed s, s, r, ?_, rfl, rfl, hl, h1, h2⟩
    have := isAligned_iff.2 hal
    rw [← alignOf_eq] at this
    simp [copyToAlign, this, tryAsAligned, Res.unwrap]
  · obtain ⟨hvv, hvb⟩ := ofSlice_valid hp.1 hl
    obtain ⟨w, h1, h2, h3⟩ := alignVec_ok (c := c) hp.1 hvv
    rw [hvb] at h3
    obtain ⟨m, r, h4, h5, h6, h7, h8⟩ := castBuf_ok (c := c) hx hsm h2 (by rw [h3]; exact hl)
      (by rw [h3]; exact h.elim Or.inl fun h' => Or.inr (Or.inr (h'.resolve_left hal)))
    refine ⟨.owned ⟨w⟩, m, r, ?_, h4, by rw [h5, h3], h6, h7, h8⟩
    have : ¬ s.isAligned (alignOf t) = true := by rw [alignOf_eq]; exact fun h' => hal (isAligned_iff.1 h')
    simp [copyToAlign, this, AlignedBuf.fromVec, h1]

/-! ### Parts of buffers -/

theorem runSlices_tag {c : Cfg} : ∀ {ops : List SliceOp} {al al' : Nat} {s w : Slice},
    runSlices c al s ops = .ok (al', w) → al' = Spec.lastTag al ops := by
  intro ops
  induction ops with
  | nil => intro al al' s w h; cases h; rfl
  | cons op ops ih =>
    intro al al' s w h
    obtain ⟨⟨al1, s1⟩, h1, h2⟩ := Res.bind_eq_ok.1 h
    have : al1 = op.tag al := by
      cases op <;> simp only [SliceOp.run] at h1
      all_goals
        first
        | (cases h1; rfl)
        | (obtain ⟨_, _, h1⟩ := Res.bind_eq_ok.1 h1; cases h1; rfl)
        | (obtain ⟨_, _, h1⟩ := Res.bind_eq_ok.1 h1; obtain ⟨_, _, h1⟩ := Res.bind_eq_ok.1 h1; cases h1; rfl)
        | (obtain ⟨_, _, h1⟩ := Res.bind_eq_ok.1 h1; obtain ⟨_, _, h1⟩ := Res.bind_eq_ok.1 h1
           obtain ⟨_, _, h1⟩ := Res.bind_eq_ok.1 h1; cases h1; rfl)
    subst this
    exact ih h2

/-- Slicing never is undefined behaviour. -/
def NoUb {α : Type} (r : Res α) : Prop := r ≠ .fail .ub

theorem NoUb.bind {α β : Type} {r : Res α} {k : α → Res β} (h : NoUb r) (hk : ∀ a, NoUb (k a)) : NoUb (r >>= k) := by
  intro h'
  rcases Res.bind_eq_fail.1 h' with h' | ⟨a, _, h'⟩
  · exact h h'
  · exact hk a h'

theorem runSlices_noUb {c : Cfg} : ∀ (ops : List SliceOp) (al : Nat) (s : Slice), NoUb (runSlices c al s ops) := by
  have hp : ∀ {α : Type} (a : α), NoUb (Res.ok a) := fun a h => by cases h
  have hunc : ∀ al s, NoUb (unchecked c al s) := by
    intro al s h; unfold unchecked at h; split at h <;> cases h
  have hadd : ∀ x y, NoUb (uadd c x y) := by
    intro x y h; unfold uadd at h; split at h
    · cases h
    · split at h <;> cases h
  have hsub : ∀ x y, NoUb (usub c x y) := by
    intro x y h; unfold usub at h; split at h
    · cases h
    · split at h <;> cases h
  have hrange : ∀ (s : Slice) (a b : Nat), NoUb (s.range a b) := by
    intro s a b h; unfold Slice.range at h; split at h <;> cases h
  have hincl : ∀ (s : Slice) (a b : Nat), NoUb (s.rangeIncl a b) := by
    intro s a b; unfold Slice.rangeIncl; split
    · exact hrange _ _ _
    · exact fun h => by cases h
  have hfrom : ∀ (s : Slice) (a : Nat), NoUb (s.from_ a) := by
    intro s a h; unfold Slice.from_ at h; split at h <;> cases h
  have hto : ∀ (s : Slice) (a : Nat), NoUb (s.to a) := by
    intro s a h; unfold Slice.to at h; split at h <;> cases h
  have heval : ∀ e : OffExpr, NoUb (e.eval c) := by
    intro e
    induction e with
    | tryNew => exact hp _
    | alignOffset al i => exact (NoUb.bind (hadd _ _) fun _ => NoUb.bind (hsub _ _) fun _ => hp _).bind fun _ => hp _
    | bor x y ihx ihy =>
      refine NoUb.bind ihx fun a => ?_
      cases a with
      | none => exact hp _
      | some a =>
        refine NoUb.bind ihy fun b => ?_
        cases b <;> exact hp _
    | add x y ihx ihy =>
      refine NoUb.bind ihx fun a => ?_
      cases a with
      | none => exact hp _
      | some a =>
        refine NoUb.bind ihy fun b => ?_
        cases b with
        | none => exact hp _
        | some b => exact (hadd _ _).bind fun _ => hp _
    | narrow al x ih => exact ih
  have harg : ∀ e : OffExpr, NoUb (offArg c e) := by
    intro e
    refine (heval e).bind fun v => ?_
    cases v
    · exact fun h => by cases h
    · exact hp _
  have hstep : ∀ (op : SliceOp) al s, NoUb (op.run c al s) := by
    intro op al s
    cases op with
    | «to» b => exact ((hto _ _).bind fun _ => hunc _ _).bind fun _ => hp _
    | toIncl b => exact ((hincl _ _ _).bind fun _ => hunc _ _).bind fun _ => hp _
    | range a b => exact ((hrange _ _ _).bind fun _ => hunc _ _).bind fun _ => hp _
    | rangeIncl a b => exact ((hincl _ _ _).bind fun _ => hunc _ _).bind fun _ => hp _
    | from_ a => exact ((hfrom _ _).bind fun _ => hunc _ _).bind fun _ => hp _
    | full => exact hp _
    | aRange a b => exact (harg _).bind fun _ => (harg _).bind fun _ => ((hrange _ _ _).bind fun _ => hunc _ _).bind fun _ => hp _
    | aRangeIncl a b => exact (harg _).bind fun _ => (harg _).bind fun _ => ((hincl _ _ _).bind fun _ => hunc _ _).bind fun _ => hp _
    | aFrom a => exact (harg _).bind fun _ => ((hfrom _ _).bind fun _ => hunc _ _).bind fun _ => hp _
    | splitFst m =>
      refine NoUb.bind ?_ fun _ => hp _
      unfold splitAt; split
      · exact (hunc _ _).bind fun _ => hp _
      · exact fun h => by cases h
    | splitSnd m =>
      refine NoUb.bind ?_ fun _ => hp _
      unfold splitAt; split
      · exact (hunc _ _).bind fun _ => hp _
      · exact fun h => by cases h
    | narrow n => exact hp _
  intro ops
  induction ops with
  | nil => intro al s; exact hp _
  | cons op ops ih => exact fun al s => (hstep op al s).bind fun _ => ih _ _

theorem bufMem_promise {b : AlignedBuf} :
    Slice.Promise 8 ⟨if b.data.bytes = [] then b.data.addr else b.data.addr + gap 8 b.data.addr, b.vis⟩ := by
  by_cases hv : b.vis = []
  · exact Or.inl hv
  · right
    have hne : b.data.bytes ≠ [] := fun h => hv (by simp [AlignedBuf.vis, h])
    simp only [hne, if_false]
    exact gap_dvd isAl8 _

/-- A part of a buffer can be cast with care. -/
theorem part_ok {c : Cfg} {b : AlignedBuf} {t : Ty} {ops : List SliceOp} (hx : Expands t) (hsm : Small t) (hb : b.Inv)
    (hl : b.vis.length ≤ 2 ^ 62) (h : b.vis ≠ [] ∨ Spec.align t = 1 ∨ (Spec.size t).isSome)
    (hs : Spec.ProperSlices ops t) :
    ∃ m, b.deref c = .ok m ∧ m.bytes = b.vis ∧ m.len ≤ 2 ^ 62 ∧ Calm (runSlices c 8 m ops) ∧
      ∀ al w, runSlices c 8 m ops = .ok (al, w) → w.len ≤ 2 ^ 62 ∧
        ∃ r, fromAligned c t w = .ok r ∧ Good c w t r ∧ Good c m t r ∧ r.bytes = castBytes t w.bytes := by
  have hd := deref_ok (c := c) hb
  have hlen : b.vis.length < 2 ^ 63 := by omega
  refine ⟨_, hd, rfl, hl, fun f hf => ⟨?_, ?_⟩, fun al w hw => ?_⟩
  · rintro rfl; exact runSlices_noUb _ _ _ hf
  · rintro rfl; exact Props.c13_no_assertion c ops 8 _ isAl8 hs.1 bufMem_promise hlen hf
  · obtain ⟨hp, lo, hi, h1, h2, hweq⟩ := Props.c13_program_window c ops 8 _ al w isAl8 hs.1 bufMem_promise hlen hw
    have hin : Inside _ w := ⟨lo, hi, h1, h2, hweq⟩
    have hwl : w.len ≤ 2 ^ 62 := Nat.le_trans hin.len_le hl
    have htag := runSlices_tag hw
    have hal : Spec.align t ∣ w.addr ∨ w.bytes = [] ∧ (Spec.size t).isSome := by
      by_cases hv : b.vis = []
      · rcases h with h | h | h
        · exact absurd hv h
        · left; rw [h]; exact Nat.one_dvd _
        · right
          refine ⟨?_, h⟩
          rw [hweq, hv]
          simp [Spec.sub]
      · left
        have hne : b.data.bytes ≠ [] := fun h => hv (by simp [AlignedBuf.vis, h])
        refine Nat.dvd_trans (htag ▸ hs.2) (Props.c13_program_aligned c ops 8 ⟨_, b.vis⟩ al w isAl8 hs.1 ?_ hlen hw)
        simp only [hne, if_false]
        exact gap_dvd isAl8 _
    obtain ⟨r, h3, h4, h5⟩ := cast_any (c := c) hx hsm hwl hal
    refine ⟨hwl, r, h3, h4, { h4 with loc := ?_ }, h5⟩
    exact h4.loc.imp_left fun h' => hin.trans h'

/-- Assigning within a part of a buffer. -/
theorem store_at {c : Cfg} {b : AlignedBuf} {m w : Slice} {t u : Ty} {ops : List SliceOp} {path : List Nat} {x : Bytes}
    {al n : Nat} (hx : Expands t) (hb : b.Inv) (hl : b.vis.length ≤ 2 ^ 62) (hn : Spec.size t = some n)
    (hu : Spec.typeAt t path = some u) (hxl : Spec.size u = some x.length) (hs : Spec.ProperSlices ops t)
    (hd : b.deref c = .ok m) (hr : runSlices c 8 m ops = .ok (al, w)) :
    (w.len ≠ n ∧ poke c b ops t path x = .ok none) ∨
    ∃ lo b', lo + n ≤ b.vis.length ∧ w = ⟨m.addr + lo, Spec.sub b.vis lo (lo + n)⟩ ∧
      poke c b ops t path x = .ok (some b') ∧ b'.Inv ∧ b'.vis = Spec.overlay b.vis (lo + Spec.startAt t path) x := by
  have hm := hd
  rw [deref_ok hb] at hm
  cases hm
  have hlen : b.vis.length < 2 ^ 63 := by omega
  have hnpos := (size_pos_dvd t n hn).1
  obtain ⟨k, hk, hfit⟩ := startAt_fits path t u n hn hu
  rw [hxl] at hk; cases hk
  obtain ⟨hp, lo, hi, h1, h2, hweq⟩ := Props.c13_program_window c ops 8 _ al w isAl8 hs.1 bufMem_promise hlen hr
  simp only [Slice.len] at h2
  have hwl : w.len = hi - lo := by rw [hweq]; simp only [Slice.len, sub_length h2]
  by_cases hwn : w.len = n
  · right
    have hv : b.vis ≠ [] := by
      intro h0
      rw [h0, List.length_nil] at h2
      omega
    have hne : b.data.bytes ≠ [] := fun h => hv (by simp [AlignedBuf.vis, h])
    have hal : Spec.align t ∣ w.addr := by
      refine Nat.dvd_trans (runSlices_tag hr ▸ hs.2)
        (Props.c13_program_aligned c ops 8 ⟨_, b.vis⟩ al w isAl8 hs.1 ?_ hlen hr)
      simp only [hne, if_false]
      exact gap_dvd isAl8 _
    have hhi : hi = lo + n := by omega
    subst hhi
    have hmut : tryFromAlignedMut c t w = .ok (some w) := by
      have h := tryFromAligned_ok (c := c) hx hal
      have h2' : tryFromAlignedMut c t w = tryFromAligned c t w := by
        simp only [tryFromAlignedMut, tryFromAligned, sizeOf_eq, hn]
      rw [h2', h, if_pos]
      left
      simp only [Slice.len] at hwn
      simp [castBytes, hn, hwn]
    obtain ⟨hi1, hi2, hi3, hi4⟩ := hb
    have hgl : gap 8 b.data.addr < b.data.bytes.length := hi4.resolve_left hne
    have hvis : b.data.bytes.drop (gap 8 b.data.addr) = b.vis := rfl
    have hdl : b.data.bytes.length = gap 8 b.data.addr + b.vis.length := by rw [← hvis, List.length_drop]; omega
    simp only [hne, if_false] at hweq hr hd
    have hii : w.addr + Spec.startAt t path - b.data.addr = gap 8 b.data.addr + (lo + Spec.startAt t path) := by
      rw [hweq]; simp only; omega
    have hol : (Spec.overlay b.data.bytes (gap 8 b.data.addr + (lo + Spec.startAt t path)) x).length = b.data.bytes.length :=
      overlay_length (by omega)
    refine ⟨lo, ⟨{ b.data with bytes := Spec.overlay b.data.bytes (gap 8 b.data.addr + (lo + Spec.startAt t path)) x }⟩,
      h2, by simp only [hne, if_false]; exact hweq, ?_, ⟨?_, hi2, ?_, Or.inr ?_⟩, ?_⟩
    · simp only [poke, hd, Res.bind_ok, hr, hmut, placeOf_ok path t u n hn hx hu, Res.pure_eq, hii]
      rfl
    · simp only [hol]; exact hi1
    · simp only [hol]; exact hi3
    · simp only [hol]; exact hgl
    · simp only [AlignedBuf.vis]
      apply List.ext_getElem?
      intro k
      rw [List.getElem?_drop, overlay_getElem? (by omega), hvis, overlay_getElem? (by omega), ← hvis, List.getElem?_drop]
      by_cases hk : lo + Spec.startAt t path ≤ k ∧ k < lo + Spec.startAt t path + x.length
      · rw [if_pos (by omega), if_pos hk]; congr 1; omega
      · rw [if_neg (by omega), if_neg hk]
  · left
    refine ⟨hwn, ?_⟩
    have hmut : tryFromAlignedMut c t w = .ok none := by
      simp only [tryFromAlignedMut, sizeOf_eq, hn, tryCastSliceTo, rustLayout_ok t n hn hx, Res.bind_ok,
        if_neg (Ne.symm hwn), Res.pure_eq]
    simp only [poke, hd, Res.bind_ok, hr, hmut, Res.pure_eq]

theorem store_ok {c : Cfg} {b : AlignedBuf} {t u : Ty} {ops : List SliceOp} {path : List Nat} {x : Bytes}
    (hx : Expands t) (hb : b.Inv) (hl : b.vis.length ≤ 2 ^ 62) (hn : (Spec.size t).isSome)
    (hu : Spec.typeAt t path = some u) (hxl : Spec.size u = some x.length) (hs : Spec.ProperSlices ops t) :
    Calm (poke c b ops t path x) ∧ ∀ b', poke c b ops t path x = .ok (some b') → b'.Inv ∧ b'.vis.length ≤ 2 ^ 62 := by
  obtain ⟨n, hn⟩ := Option.isSome_iff_exists.1 hn
  have hd := deref_ok (c := c) hb
  have hlen : b.vis.length < 2 ^ 63 := by omega
  cases hr : runSlices c 8 ⟨if b.data.bytes = [] then b.data.addr else b.data.addr + gap 8 b.data.addr, b.vis⟩ ops with
  | fail f =>
    have : poke c b ops t path x = .fail f := by simp only [poke, hd, Res.bind_ok, hr, Res.bind_fail]
    rw [this]
    refine ⟨.fail ⟨?_, ?_⟩, fun b' h => by cases h⟩
    · rintro rfl; exact runSlices_noUb _ _ _ hr
    · rintro rfl; exact Props.c13_no_assertion c ops 8 _ isAl8 hs.1 bufMem_promise hlen hr
  | ok a =>
    obtain ⟨al, w⟩ := a
    obtain ⟨k, hk, hfit⟩ := startAt_fits path t u n hn hu
    rw [hxl] at hk; cases hk
    rcases store_at hx hb hl hn hu hxl hs hd hr with ⟨_, h⟩ | ⟨lo, b', h1, _, h2, h3, h4⟩
    · rw [h]; exact ⟨.ok _, fun b' h => by cases h⟩
    · rw [h2]
      refine ⟨.ok _, ?_⟩
      rintro _ ⟨⟩
      exact ⟨h3, by rw [h4, overlay_length (by omega)]; exact hl⟩

theorem Sane.kill {c : Cfg} {σ : Session} (h : Sane c σ) (i : Nat) : Sane c { σ with held := GV.kill i σ.held } :=
  ⟨h.cells, fun j k x hx => h.held j k x (kill_some hx).1⟩

theorem act_sane {c : Cfg} {P : CoreFmt} {p : Places} {σ : Session} {a : Act} (h : Sane c σ)
    (hp : Spec.ProperPlace p) (ha : Spec.ProperAct a) (hc : Spec.Careful c σ a) :
    Calm (act c P p σ a) ∧ ∀ o σ', act c P p σ a = .ok (o, σ') → Sane c σ' := by
  have done : ∀ o σ', Sane c σ' → Calm (Res.ok (o, σ')) ∧ ∀ (o' : Obs) σ'', Res.ok (o, σ') = .ok (o', σ'') → Sane c σ'' :=
    fun o σ' h' => ⟨.ok _, fun o' σ'' h'' => by cases h''; exact h'⟩
  have same := fun o => done o σ h
  cases a with
  | make v =>
    obtain ⟨w, h1, h2, h3⟩ := alignVec_ok (c := c) hp.1 ha
    simp only [act, AlignedBuf.fromVec, h1, Res.bind_ok, Res.pure_eq]
    exact done _ _ (h.cell ⟨h2, by rw [h3]; exact ha.2.2⟩)
  | lend s => exact done _ _ (h.cell ha)
  | alter i f =>
    simp only [act]
    split
    · rename_i b hb
      obtain ⟨hi, hl⟩ := h.cells i _ hb
      obtain ⟨b', _, h1, h2, _, _, h3⟩ := alter_ok (c := c) hp.1 hi hl fun v hv _ => ha v hv
      simp only [h1, Res.bind_ok, Res.pure_eq]
      exact done _ _ (h.change i ⟨h2, h3⟩)
    · exact same _
  | poke i j x =>
    simp only [act]
    split
    · rename_i b hb
      obtain ⟨hi, hl⟩ := h.cells i _ hb
      obtain ⟨h1, h2⟩ := poke_ok (c := c) hi hl j x
      refine ⟨h1.bind fun _ _ => .pure _, fun o σ' h' => ?_⟩
      obtain ⟨b', hb', h'⟩ := Res.bind_eq_ok.1 h'
      cases h'
      exact h.change i (h2 b' hb')
    · exact same _
  | peek i =>
    simp only [act]
    split
    · rename_i b hb
      obtain ⟨hi, hl⟩ := h.cells i _ hb
      simp only [deref_ok hi, Res.bind_ok, Res.pure_eq]
      exact same _
    · exact same _
    · exact same _
  | store i ops t path x =>
    obtain ⟨⟨hx, hsm⟩, hs, hn, u, hu, hxl⟩ := ha
    simp only [act]
    split
    · rename_i b hb
      obtain ⟨hi, hl⟩ := h.cells i _ hb
      obtain ⟨h1, h2⟩ := store_ok (c := c) hx hi hl hn hu hxl hs
      refine ⟨h1.bind fun a _ => ?_, fun o σ' h' => ?_⟩
      · cases a <;> exact .pure _
      · obtain ⟨a, ha', h'⟩ := Res.bind_eq_ok.1 h'
        cases a with
        | none => cases h'; exact h.kill i
        | some b' => cases h'; exact h.change i (h2 b' ha')
    · exact same _
  | free i => exact done _ _ (h.drop i)
  | unwrap i =>
    simp only [act]
    split
    · rename_i b hb
      obtain ⟨hi, hl⟩ := h.cells i _ hb
      obtain ⟨v, h1, _⟩ := unalignVec_ok (c := c) hi
      simp only [AlignedBuf.intoVec, h1, Res.bind_ok, Res.pure_eq]
      exact done _ _ (h.drop i)
    · exact same _
  | part i ops t =>
    obtain ⟨⟨hx, hsm⟩, hs⟩ := ha
    simp only [act]
    split
    · rename_i b hb
      obtain ⟨hi, hl⟩ := h.cells i _ hb
      obtain ⟨m, h1, h2, h3, h4, h5⟩ := part_ok (c := c) hx hsm hi hl (hc b _ hb (deref_ok hi)) hs
      simp only [h1, Res.bind_ok]
      refine ⟨h4.bind fun a ha' => ?_, fun o σ' h' => ?_⟩
      · obtain ⟨_, r, h6, _⟩ := h5 a.1 a.2 ha'
        simp only [asAligned, h6, Res.bind_ok]
        exact .pure _
      · obtain ⟨a, ha', h'⟩ := Res.bind_eq_ok.1 h'
        obtain ⟨_, r, h6, _, h7, _⟩ := h5 a.1 a.2 ha'
        simp only [asAligned, h6, Res.bind_ok, Res.pure_eq] at h'
        cases h'
        exact h.hold ⟨_, m, hb, h1, h3, .ref h7⟩
    · exact same _
  | cast i t =>
    obtain ⟨hx, hsm⟩ := ha
    simp only [act]
    split
    · rename_i b hb
      obtain ⟨hi, hl⟩ := h.cells i _ hb
      have hcare := hc.1 b _ hb (deref_ok hi)
      obtain ⟨m, r, h1, h2, h3, h4, h5, _⟩ := castBuf_ok (c := c) hx hsm hi hl hcare
      simp only [h1, asAligned, h4, Res.bind_ok, Res.pure_eq]
      exact done _ _ (h.hold ⟨_, m, hb, h1, h3, .ref h5⟩)
    · rename_i s hb
      have hl := h.cells i _ hb
      simp only [tryAsAligned, markerAlign, ge_iff_le, Nat.le_refl, decide_true, Bool.true_or, if_true]
      obtain ⟨r, h1, h2, _⟩ := cast_any (c := c) hx hsm hl (hc.2 s hb)
      simp only [h1, Res.bind_ok, Res.pure_eq]
      exact done _ _ (h.hold ⟨_, s, hb, rfl, hl, .ref h2⟩)
    · exact same _
  | settle i t =>
    obtain ⟨hx, hsm⟩ := ha
    simp only [act]
    split
    · rename_i s hb
      obtain ⟨w, m, r, h1, h2, _, h3, h4, h5, _⟩ := settle_ok (c := c) hp hx hsm (h.cells i _ hb) (hc s hb)
      simp only [h1, h2, h4, Res.bind_ok, Res.pure_eq]
      refine done _ _ ((h.cell (x := .cow i w) ⟨m, h2⟩).hold ⟨.cow i w, m, ?_, h2, h3, .ref h5⟩)
      simp
    · exact same _
  | read op =>
    by_cases hcp : ∃ h0, op = .copy h0
    · obtain ⟨h0, rfl⟩ := hcp
      simp only [act]
      split
      · rename_i k t r hr
        obtain ⟨cell, m, _, _, hl, hin⟩ := h.held _ _ _ hr
        cases hin with
        | ref hg =>
          obtain ⟨o, q, m', h1, h2, h3, h4, h5⟩ := copy_in (c := c) hp.1 hp.2 hl hg (hc k t r hr)
          simp only [h1, h2, Res.bind_ok, Res.pure_eq]
          refine done _ _ ((h.cell (x := .owned t o) ⟨m', h3⟩).hold ⟨.owned t o, m', ?_, h3, h4, .ref h5⟩)
          simp
      · exact same _
    · have hnc : ∀ h0, op ≠ .copy h0 := fun h0 h' => hcp ⟨h0, h'⟩
      rw [act]
      · split
        · rename_i k x y hx hy
          obtain ⟨k', y⟩ := y
          obtain ⟨cell, m, hc1, hc2, hc3, hin⟩ := h.held _ _ _ hx
          obtain ⟨_, m', _, _, _, hin'⟩ := h.held _ _ _ hy
          have hk := call_keeps (P := P) (p := p) (live_some (d := .items .Y []) hx) (live_some hy) hin hin'
            (by rintro h0 u rfl; exact ha) hnc
          refine ⟨hk.1.bind fun _ _ => .pure _, fun o σ' h' => ?_⟩
          obtain ⟨⟨o, hs'⟩, ho, h'⟩ := Res.bind_eq_ok.1 h'
          cases h'
          obtain ⟨x', new, rfl, hx', hnew⟩ := hk.2 o hs' ho
          rw [rehold_eq hx]
          refine ⟨h.cells, fun j k2 x2 h2 => ?_⟩
          have key : ∀ z, HeldIn c m z → HeldOk c σ.cells k z := fun z hz => ⟨cell, m, hc1, hc2, hc3, hz⟩
          simp only [List.getElem?_append, List.getElem?_set, List.getElem?_map, List.length_set] at h2
          split at h2
          · split at h2
            · split at h2
              · cases h2; exact key _ hx'
              · cases h2
            · exact h.held j k2 x2 h2
          · cases hn : new[j - σ.held.length]? with
            | none => rw [hn] at h2; cases h2
            | some z =>
              rw [hn] at h2
              cases h2
              exact key _ (hnew _ (List.mem_of_getElem? hn))
        · exact same _
      · exact hnc

end GV
