import Verif.Model.Client
import Verif.Proofs.Debug
import Verif.Props.C20_C25
import Verif.Props.C49_C52
import Verif.Props.C72_C73
/-
Helper lemmas: each call of a program on references that show values goes as the values say.
-/
namespace GV.Props
open GV Spec

/-- What a program holds shows a value (or the values yet to come). -/
inductive Shows (c : Cfg) : Held → Seen → Prop
  | ref {t : Ty} {r : Slice} {v : Val} (root : Slice) : root.len ≤ 2 ^ 62 → Good c root t r → view c t r = .ok v →
      Shows c (.ref t r) (.val t v)
  | iter {e : Ty} {s : Slice} {rs : List Slice} {vs : List Val} (root : Slice) (j : Nat) : root.len ≤ 2 ^ 62 →
      Good c root (.A e) s → Spec.size e = none → arrRefs c e s = .ok rs → Res.traverse (view c e) rs = .ok vs →
      j ≤ rs.length → Shows c (.iter e (iterState s j (prevStop s.bytes j))) (.rest e (vs.drop j))
  | items {e : Ty} {rs : List Slice} {vs : List Val} (root : Slice) : root.len ≤ 2 ^ 62 →
      (∀ r ∈ rs, Good c root e r) → Res.traverse (view c e) rs = .ok vs → Shows c (.items e rs) (.rest e vs)

theorem forall₂_lookup {α β : Type} {R : α → β → Prop} {as : List α} {bs : List β} (h : List.Forall₂ R as bs)
    (i : Nat) : (as[i]? = none ∧ bs[i]? = none) ∨ ∃ a b, as[i]? = some a ∧ bs[i]? = some b ∧ R a b := by
  have hl := h.length_eq
  by_cases hi : i < as.length
  · exact Or.inr ⟨as[i], bs[i], List.getElem?_eq_getElem hi, List.getElem?_eq_getElem (by omega),
      forall₂_get h i hi (by omega)⟩
  · exact Or.inl ⟨List.getElem?_eq_none (by omega), List.getElem?_eq_none (by omega)⟩

theorem forall₂_push {α β : Type} {R : α → β → Prop} {as as' : List α} {bs bs' : List β}
    (h : List.Forall₂ R as bs) (h' : List.Forall₂ R as' bs') : List.Forall₂ R (as ++ as') (bs ++ bs') := by
  induction h with
  | nil => exact h'
  | cons h _ ih => exact .cons h ih

theorem forall₂_set {α β : Type} {R : α → β → Prop} {as : List α} {bs : List β} (h : List.Forall₂ R as bs)
    {a : α} {b : β} (hab : R a b) : ∀ i, List.Forall₂ R (as.set i a) (bs.set i b) := by
  induction h with
  | nil => intro i; exact .nil
  | cons h hs ih =>
    intro i
    cases i with
    | zero => exact .cons hab hs
    | succ i => exact .cons h (ih i)

/-- Data within a root of at most 2^62 bytes is of at most 2^62 bytes. -/
theorem good_len62 {c : Cfg} {root r : Slice} {t : Ty} (hl : root.len ≤ 2 ^ 62) (h : Good c root t r) :
    r.len ≤ 2 ^ 62 := by
  rcases h.loc with hi | ⟨t', d, hs, hd, hi⟩
  · exact Nat.le_trans hi.len_le hl
  · refine Nat.le_trans hi.len_le ?_
    simp only [Slice.len, hd.1, dfltBytes]
    cases hn : Spec.size t' with
    | none => simp
    | some n =>
      have := size_bound t' n hn
      unfold Small at hs
      simp only [List.length_replicate]
      omega

/-- A copy shows what the original shows. -/
theorem copy_shows {c : Cfg} {p : Places} {root r : Slice} {t : Ty} {v : Val} (hp : p.vecs.Valid) (hpa : 8 ∣ p.addr)
    (hl : root.len ≤ 2 ^ 62) (hg : Good c root t r) (hv : view c t r = .ok v)
    (h : plainCopy t = true ∨ v ≠ dflt t) :
    ∃ o q, toOwned c p t r = .ok o ∧ o.borrow c t = .ok q ∧ Shows c (.ref t q) (.val t v) := by
  have hrl := good_len62 hl hg
  have hal : Spec.align t ∣ p.addr := Nat.dvd_trans (align_dvd_8 t) hpa
  -- a plain copy
  have hpl : Shows c (.ref t ⟨p.addr, r.bytes⟩) (.val t v) := by
    have hgq : Good c ⟨p.addr, r.bytes⟩ t ⟨p.addr, r.bytes⟩ :=
      ⟨hg.ex, hg.sm, hal, hg.cast, hg.len, Or.inl (.refl _)⟩
    exact .ref ⟨p.addr, r.bytes⟩ hrl hgq (by rw [← view_same t r _ hg hgq rfl]; exact hv)
  -- a copy in a buffer
  have hbuf : Spec.size t = none → plainCopy t = false → ∃ b q, ownedFromBytes c p r.bytes = .ok b ∧
      (OwnedVal.buf b).borrow c t = .ok q ∧ Shows c (.ref t q) (.val t v) := by
    intro hs hnp
    have hv' : v ≠ dflt t := by rcases h with h | h; · rw [hnp] at h; cases h
                                · exact h
    have hne : r.bytes ≠ [] := by
      intro he
      apply hv'
      have h1 := view_readAs (c := c) hg.ex hg.sm hg.al hg.len hg.cast
      have h2 : readAs c t r = .ok (dflt t) := by
        have : r = ⟨r.addr, []⟩ := by cases r; simp only at he; simp [he]
        rw [this]
        exact readAs_nil hg.ex hg.sm hg.al
      rw [hv, h2] at h1
      exact Res.ok.inj h1
    obtain ⟨hvv, hvb⟩ := ofSlice_valid hp hrl
    obtain ⟨w, h1, h2, h3⟩ := alignVec_ok (c := c) hp hvv
    have hd := deref_ok (c := c) h2
    rw [h3, hvb] at hd
    have hwne : w.bytes ≠ [] := by
      intro he
      apply hne
      have h3' := h3
      rw [hvb] at h3'
      rw [← h3']; simp [AlignedBuf.vis, he]
    rw [if_neg hwne] at hd
    have ha8 : Spec.align t ∣ w.addr + gap 8 w.addr := Nat.dvd_trans (align_dvd_8 t) (gap_dvd isAl8 _)
    obtain ⟨q, h4, hgq⟩ := cast_good (c := c) (s := ⟨w.addr + gap 8 w.addr, r.bytes⟩) hg.ex hg.sm ha8 hg.len
    obtain ⟨q', h5, _, h6, _⟩ := fromAligned_ok (c := c) (s := ⟨w.addr + gap 8 w.addr, r.bytes⟩) hg.ex ha8
    rw [h4] at h5; cases h5
    refine ⟨⟨w⟩, q, ?_, ?_, .ref _ (show (⟨w.addr + gap 8 w.addr, r.bytes⟩ : Slice).len ≤ 2 ^ 62 from hrl) hgq ?_⟩
    · simp only [ownedFromBytes, AlignedBuf.fromVec, h1, Res.bind_ok, Res.pure_eq]
    · simp only [OwnedVal.borrow, hd, Res.bind_ok, h4]
    · rw [← view_same t r q hg hgq (by rw [SameB, h6]; exact hg.cast.symm)]; exact hv
  unfold toOwned
  rw [sizeOf_eq]
  cases hs : Spec.size t with
  | some n => exact ⟨_, _, rfl, rfl, hpl⟩
  | none =>
    have hstr : isStr t = true → ∃ o q, (Res.ok (.gstring p.addr (strToOwned p.extra r.bytes)) : Res OwnedVal) = .ok o ∧
        o.borrow c t = .ok q ∧ Shows c (.ref t q) (.val t v) := by
      intro ht
      have hb : (strToOwned p.extra r.bytes).data = toStr r.bytes ++ [0] := by
        simp [strToOwned, GString.fromStrUnchecked, GString.append]
      have hlen : (toStr r.bytes ++ [0]).length ≤ 2 ^ 62 := by
        have : (toStr r.bytes).length + 1 ≤ max 1 r.bytes.length := by
          by_cases hx : ∃ s, Spec.Text s ∧ r.bytes = s ++ [0]
          · obtain ⟨s, h1, h2⟩ := hx
            rw [h2, toStr_text h1]; simp
          · rw [c20_to_str_otherwise _ hx, List.length_nil]; omega
        simp only [Slice.len] at hrl
        simp only [List.length_append, List.length_singleton]
        omega
      have hgq : Good c ⟨p.addr, toStr r.bytes ++ [0]⟩ t ⟨p.addr, toStr r.bytes ++ [0]⟩ := by
        refine ⟨hg.ex, hg.sm, hal, ?_, Nat.lt_of_le_of_lt hlen (by decide), Or.inl (.refl _)⟩
        cases t <;> simp [isStr] at ht <;> rfl
      refine ⟨_, ⟨p.addr, toStr r.bytes ++ [0]⟩, rfl, ?_, .ref ⟨p.addr, toStr r.bytes ++ [0]⟩ hlen hgq ?_⟩
      · cases t <;> simp [isStr] at ht <;>
          simp [OwnedVal.borrow, tryFromAligned, sizeOf_eq, Spec.size, GString.deref, hb, Res.unwrap]
      · rw [← hv]
        cases t <;> simp [isStr] at ht <;> simp only [view, toStr_text (toStr_is_text _)]
    cases t with
    | S => exact hstr rfl
    | O => exact hstr rfl
    | G => exact hstr rfl
    | A e =>
      simp only [sizeOf_eq]
      cases he : Spec.size e with
      | some n => exact ⟨_, _, rfl, rfl, hpl⟩
      | none =>
        obtain ⟨b, q, h1, h2, h3⟩ := hbuf hs (by simp [plainCopy, he])
        exact ⟨.buf b, q, by simp only [h1, Res.bind_ok, Res.pure_eq], h2, h3⟩
    | _ =>
      obtain ⟨b, q, h1, h2, h3⟩ := hbuf hs (by simp [plainCopy, hs, isStr])
      exact ⟨.buf b, q, by simp only [h1, Res.bind_ok, Res.pure_eq], h2, h3⟩

/-- The interface of arrays in terms of the references that iterating yields. -/
theorem array_refs {c : Cfg} {root s : Slice} {e : Ty} {rs : List Slice} (hg : Good c root (.A e) s)
    (h : arrRefs c e s = .ok rs) : lenAt c e s = .ok rs.length ∧
      (∀ i (h : i < rs.length), indexAt c e s i = .ok rs[i]) ∧
      (∀ i, rs.length ≤ i → i < 2 ^ 61 - 1 → ∃ f, indexAt c e s i = .fail f) ∧
      firstAt c e s = .ok rs.head? ∧ lastAt c e s = .ok rs.getLast? := by
  cases hs : Spec.size e with
  | none =>
    obtain ⟨h1, h2, h3, h4⟩ := c30_ends c e s rs hg.al hg.len hs h
    simp only [lenAt, indexAt, firstAt, lastAt, sizeOf_eq, hs]
    refine ⟨h1, h2, fun i hi hlt => ?_, h3, h4⟩
    obtain ⟨f, hf, _⟩ := c31_past_end_partial c e s i _ hg.len h1 hi (Or.inr (by omega))
    exact ⟨f, hf⟩
  | some n =>
    simp only [arrRefs, sizeOf_eq, hs] at h
    obtain ⟨⟨n', a⟩, h1, h2⟩ := Res.bind_eq_ok.1 h
    simp only [Res.pure_eq, Res.ok.injEq] at h2
    simp only [lenAt, indexAt, firstAt, lastAt, sizeOf_eq, hs, h1, Res.bind_ok, h2, Res.pure_eq]
    refine ⟨trivial, fun i hi => ?_, fun i hi _ => ?_, trivial, trivial⟩
    · rw [List.getElem?_eq_getElem hi]
    · rw [List.getElem?_eq_none hi]; exact ⟨_, rfl⟩

theorem iter_shows {c : Cfg} {root s : Slice} {e : Ty} {rs : List Slice} {vs : List Val} (hl : root.len ≤ 2 ^ 62)
    (hg : Good c root (.A e) s) (h : arrRefs c e s = .ok rs) (hv : Res.traverse (view c e) rs = .ok vs) :
    ∃ x, iterAt c e s = .ok x ∧ Shows c x (.rest e vs) := by
  cases hs : Spec.size e with
  | none =>
    refine ⟨_, by simp only [iterAt, sizeOf_eq, hs, intoIter_ok (e := e) hg.al hg.len, Res.bind_ok, Res.pure_eq]; rfl, ?_⟩
    exact Shows.iter root 0 hl hg hs h hv (Nat.zero_le _)
  | some n =>
    have hgs := (arrRefs_good hg).1 rs h
    simp only [arrRefs, sizeOf_eq, hs] at h
    obtain ⟨⟨n', a⟩, h1, h2⟩ := Res.bind_eq_ok.1 h
    simp only [Res.pure_eq, Res.ok.injEq] at h2
    exact ⟨.items e rs, by simp only [iterAt, sizeOf_eq, hs, h1, Res.bind_ok, h2, Res.pure_eq], .items root hl hgs hv⟩

theorem arrRefs_count {c : Cfg} {root s : Slice} {e : Ty} {rs : List Slice} (hg : Good c root (.A e) s)
    (hs : Spec.size e = none) (h : arrRefs c e s = .ok rs) : (Spec.arrFrame s.bytes).2.length = rs.length := by
  have := (c30_ends c e s rs hg.al hg.len hs h).1
  rw [arrLen_ok hg.len] at this
  exact Res.ok.inj this

theorem next_shows {c : Cfg} {root s : Slice} {e : Ty} {rs : List Slice} {vs : List Val} {j : Nat}
    (hl : root.len ≤ 2 ^ 62) (hg : Good c root (.A e) s) (hs : Spec.size e = none) (h : arrRefs c e s = .ok rs)
    (hv : Res.traverse (view c e) rs = .ok vs) (hj : j ≤ rs.length) :
    (vs.drop j = [] → iterNext c e (iterState s j (prevStop s.bytes j)) =
      .ok (none, iterState s j (prevStop s.bytes j))) ∧
    ∀ w ws, vs.drop j = w :: ws → ∃ r it, iterNext c e (iterState s j (prevStop s.bytes j)) = .ok (some r, it) ∧
      Shows c (.ref e r) (.val e w) ∧ Shows c (.iter e it) (.rest e ws) := by
  have hc := arrRefs_count hg hs h
  obtain ⟨hlen, hget⟩ := traverse_get hv
  refine ⟨fun he => iterNext_end (by have := List.drop_eq_nil_iff.1 he; omega), fun w ws he => ?_⟩
  have hlt : j < vs.length := by
    by_contra hn
    rw [List.drop_eq_nil_iff.2 (by omega)] at he
    cases he
  rw [List.drop_eq_getElem_cons hlt] at he
  obtain ⟨rfl, rfl⟩ := List.cons.inj he
  have hi := (c30_ends c e s rs hg.al hg.len hs h).2.1 j (by omega)
  have hraw := iterNext_raw (c := c) (e := e) hg.al hg.len (k := j) (by omega) (prevStop_lt s.bytes j)
  rw [arrIndex_raw (e := e) hg.al hg.len (by omega)] at hi
  rw [hi, Res.bind_ok, ← prevStop_succ (by omega)] at hraw
  refine ⟨_, _, hraw, .ref root hl ((arrRefs_good hg).1 rs h _ (List.getElem_mem _)) (hget j (by omega) hlt), ?_⟩
  exact Shows.iter root (j + 1) hl hg hs h hv (by omega)

theorem members_show {c : Cfg} {root : Slice} (hl : root.len ≤ 2 ^ 62) : ∀ {ts : List Ty} {rs : List Slice} {vs : List Val},
    List.Forall₂ (Good c root) ts rs → viewAll c ts rs = .ok vs →
    List.Forall₂ (Shows c) (ts.zipWith .ref rs) (ts.zipWith .val vs)
  | [], [], vs, _, h => by simp only [viewAll, Res.ok.injEq] at h; subst h; exact .nil
  | t :: ts, r :: rs, vs, hg, h => by
    simp only [viewAll] at h
    obtain ⟨v, h1, h⟩ := Res.bind_eq_ok.1 h
    obtain ⟨ws, h2, h⟩ := Res.bind_eq_ok.1 h
    simp only [Res.pure_eq, Res.ok.injEq] at h
    subst h
    cases hg with
    | cons hg hgs => exact .cons (.ref root hl hg h1) (members_show hl hgs h2)

/-- A call goes as the values say. -/
def Goes (c : Cfg) (r : Res (Obs × List Held)) : Outcome → Prop
  | .went o vs => ∃ hs, r = .ok (o, hs) ∧ List.Forall₂ (Shows c) hs vs
  | .panicked => ∃ f, r = .fail f
  | .unknown => True

theorem push_shows {c : Cfg} {hs : List Held} {vs : List Seen} (h : List.Forall₂ (Shows c) hs vs) {x : Held} {y : Seen}
    (hxy : Shows c x y) : List.Forall₂ (Shows c) (hs ++ [x]) (vs ++ [y]) :=
  forall₂_push h (.cons hxy .nil)

theorem maybe_number {c : Cfg} {root r : Slice} {e : Ty} {v : Val} {w : Nat} (hw : numWidth e = some w)
    (hg : Good c root (.M e) r) (hv : view c (.M e) r = .ok v) :
    ∃ o : Option Nat, v = optVal o ∧ readAs c (.M e) r = .ok (optVal o) := by
  have h1 := view_readAs (c := c) hg.ex hg.sm hg.al hg.len hg.cast
  obtain ⟨o, _, h2, _⟩ := c49_order c e w r r hw hg.al hg.al
  rw [h1, h2] at hv
  exact ⟨o, (Res.ok.inj hv).symm, h2⟩

theorem call_goes {c : Cfg} {P : CoreFmt} {p : Places} (hp : p.vecs.Valid) (hpa : 8 ∣ p.addr) {hs : List Held}
    {vs : List Seen} (hr : List.Forall₂ (Shows c) hs vs) (op : Op)
    (hop : ∀ h u, op = .get h u → Expands u ∧ Small u) :
    Goes c (callStep c P p hs op) (call (readOut c) (.crate c.bigEndian) P vs op) := by
  have wrong : Goes c (.ok (.wrong, hs)) (.went .wrong vs) := ⟨hs, rfl, hr⟩
  cases op with
  | look h =>
    rcases forall₂_lookup hr h with ⟨h1, h2⟩ | ⟨x, y, h1, h2, hxy⟩
    · simp only [callStep, call, h1, h2]; exact wrong
    · cases hxy with
      | @ref t r v root hl hg hv =>
        simp only [callStep, call, h1, h2]
        cases t with
        | A e => obtain ⟨_, ws, _, _, rfl⟩ := view_arr hv; exact wrong
        | M e => rcases view_just hv with ⟨_, rfl⟩ | ⟨_, _, _, _, rfl⟩ <;> exact wrong
        | tuple ts => obtain ⟨_, ws, _, _, rfl⟩ := view_tuple hv; exact wrong
        | dict k x => obtain ⟨_, ws, _, _, rfl⟩ := view_dict hv; exact wrong
        | V =>
          obtain ⟨ty, d, h3, rfl⟩ := view_variant hv
          exact ⟨hs, by simp only [lookAt, h3, Res.bind_ok, Res.pure_eq], hr⟩
        | _ =>
          simp only [view, Res.ok.injEq] at hv
          subst hv
          exact ⟨hs, rfl, hr⟩
      | iter => simp only [callStep, call, h1, h2]; exact wrong
      | items => simp only [callStep, call, h1, h2]; exact wrong
  | len h =>
    rcases forall₂_lookup hr h with ⟨h1, h2⟩ | ⟨x, y, h1, h2, hxy⟩
    · simp only [callStep, call, h1, h2]; exact wrong
    · cases hxy with
      | @ref t r v root hl hg hv =>
        simp only [callStep, call, h1, h2]
        cases t with
        | A e =>
          obtain ⟨rs, ws, h3, h4, rfl⟩ := view_arr hv
          refine ⟨hs, ?_, hr⟩
          simp only [(array_refs hg h3).1, Res.bind_ok, Res.pure_eq, traverse_length h4]
        | _ => exact wrong
      | @iter e s rs ws root j hl hg hsz h3 h4 hj =>
        simp only [callStep, call, h1, h2]
        refine ⟨hs, ?_, hr⟩
        have hc := arrRefs_count hg hsz h3
        rw [sizeHint_ok (by omega)]
        simp only [Res.bind_ok, Res.pure_eq, List.length_drop, traverse_length h4, hc]
      | @items e rs ws root hl hg h4 =>
        simp only [callStep, call, h1, h2]
        exact ⟨hs, by rw [traverse_length h4], hr⟩
  | index h i =>
    rcases forall₂_lookup hr h with ⟨h1, h2⟩ | ⟨x, y, h1, h2, hxy⟩
    · simp only [callStep, call, h1, h2]; exact wrong
    · cases hxy with
      | @ref t r v root hl hg hv =>
        simp only [callStep, call, h1, h2]
        cases t with
        | A e =>
          obtain ⟨rs, ws, h3, h4, rfl⟩ := view_arr hv
          obtain ⟨_, a1, a2, _⟩ := array_refs hg h3
          obtain ⟨hlen, hget⟩ := traverse_get h4
          simp only
          by_cases hbig : 2 ^ 61 - 1 ≤ i
          · rw [if_pos hbig]; exact trivial
          · rw [if_neg hbig]
            by_cases hi : i < ws.length
            · rw [List.getElem?_eq_getElem hi, a1 i (by omega), Res.bind_ok]
              exact ⟨_, rfl, push_shows hr (.ref root hl ((arrRefs_good hg).1 rs h3 _ (List.getElem_mem _))
                (hget i (by omega) hi))⟩
            · rw [List.getElem?_eq_none (by omega)]
              obtain ⟨f, hf⟩ := a2 i (by omega) (by omega)
              exact ⟨f, by rw [hf]; rfl⟩
        | _ => exact wrong
      | iter => simp only [callStep, call, h1, h2]; exact wrong
      | items => simp only [callStep, call, h1, h2]; exact wrong
  | first h =>
    rcases forall₂_lookup hr h with ⟨h1, h2⟩ | ⟨x, y, h1, h2, hxy⟩
    · simp only [callStep, call, h1, h2]; exact wrong
    · cases hxy with
      | @ref t r v root hl hg hv =>
        simp only [callStep, call, h1, h2]
        cases t with
        | A e =>
          obtain ⟨rs, ws, h3, h4, rfl⟩ := view_arr hv
          obtain ⟨_, _, _, a3, _⟩ := array_refs hg h3
          obtain ⟨hlen, hget⟩ := traverse_get h4
          simp only [a3, Res.bind_ok, Res.pure_eq]
          match rs, ws, hlen, hget with
          | [], [], _, _ => exact ⟨hs, rfl, hr⟩
          | r' :: rs, w :: ws, _, hget =>
            exact ⟨_, rfl, push_shows hr (.ref root hl ((arrRefs_good hg).1 _ h3 _ (List.mem_cons_self ..))
              (hget 0 (by simp) (by simp)))⟩
        | _ => exact wrong
      | iter => simp only [callStep, call, h1, h2]; exact wrong
      | items => simp only [callStep, call, h1, h2]; exact wrong
  | last h =>
    rcases forall₂_lookup hr h with ⟨h1, h2⟩ | ⟨x, y, h1, h2, hxy⟩
    · simp only [callStep, call, h1, h2]; exact wrong
    · cases hxy with
      | @ref t r v root hl hg hv =>
        simp only [callStep, call, h1, h2]
        cases t with
        | A e =>
          obtain ⟨rs, ws, h3, h4, rfl⟩ := view_arr hv
          obtain ⟨_, _, _, _, a4⟩ := array_refs hg h3
          obtain ⟨hlen, hget⟩ := traverse_get h4
          simp only [a4, Res.bind_ok, Res.pure_eq]
          by_cases he : ws.length = 0
          · obtain rfl : ws = [] := List.eq_nil_of_length_eq_zero he
            obtain rfl : rs = [] := List.eq_nil_of_length_eq_zero (by omega)
            exact ⟨hs, rfl, hr⟩
          · rw [List.getLast?_eq_getElem?, List.getLast?_eq_getElem?,
              List.getElem?_eq_getElem (show rs.length - 1 < rs.length by omega),
              List.getElem?_eq_getElem (show ws.length - 1 < ws.length by omega)]
            refine ⟨_, rfl, push_shows hr (.ref root hl ((arrRefs_good hg).1 rs h3 _ (List.getElem_mem _)) ?_)⟩
            have := hget (ws.length - 1) (by omega) (by omega)
            simpa only [hlen] using this
        | _ => exact wrong
      | iter => simp only [callStep, call, h1, h2]; exact wrong
      | items => simp only [callStep, call, h1, h2]; exact wrong
  | iter h =>
    rcases forall₂_lookup hr h with ⟨h1, h2⟩ | ⟨x, y, h1, h2, hxy⟩
    · simp only [callStep, call, h1, h2]; exact wrong
    · cases hxy with
      | @ref t r v root hl hg hv =>
        simp only [callStep, call, h1, h2]
        cases t with
        | A e =>
          obtain ⟨rs, ws, h3, h4, rfl⟩ := view_arr hv
          obtain ⟨x, h5, h6⟩ := iter_shows hl hg h3 h4
          exact ⟨_, by simp only [h5, Res.bind_ok, Res.pure_eq], push_shows hr h6⟩
        | _ => exact wrong
      | iter => simp only [callStep, call, h1, h2]; exact wrong
      | items => simp only [callStep, call, h1, h2]; exact wrong
  | next h =>
    rcases forall₂_lookup hr h with ⟨h1, h2⟩ | ⟨x, y, h1, h2, hxy⟩
    · simp only [callStep, call, h1, h2]; exact wrong
    · cases hxy with
      | ref => simp only [callStep, call, h1, h2]; exact wrong
      | @iter e s rs ws root j hl hg hsz h3 h4 hj =>
        simp only [callStep, call, h1, h2]
        obtain ⟨n1, n2⟩ := next_shows hl hg hsz h3 h4 hj
        cases hd : ws.drop j with
        | nil =>
          refine ⟨_, by simp only [n1 hd, Res.bind_ok, Res.pure_eq, gotOption]; rfl, ?_⟩
          have hset := forall₂_set hr (Shows.iter root j hl hg hsz h3 h4 hj) h
          have : vs.set h (.rest e (ws.drop j)) = vs := by
            obtain ⟨hlt, he⟩ := List.getElem?_eq_some_iff.1 h2
            rw [← he]; exact List.set_getElem_self hlt
          rwa [this] at hset
        | cons w ws' =>
          obtain ⟨r, it, h5, h6, h7⟩ := n2 w ws' hd
          exact ⟨_, by simp only [h5, Res.bind_ok, Res.pure_eq, gotOption],
            push_shows (forall₂_set hr h7 h) h6⟩
      | @items e rs ws root hl hg h4 =>
        simp only [callStep, call, h1, h2]
        match rs, ws, traverse_length h4, h4 with
        | [], [], _, _ => exact ⟨hs, rfl, hr⟩
        | r' :: rs, w :: ws, _, h4 =>
          simp only [Res.traverse, Res.pure_eq] at h4
          obtain ⟨w', h5, h4⟩ := Res.bind_eq_ok.1 h4
          obtain ⟨ws', h6, h4⟩ := Res.bind_eq_ok.1 h4
          simp only [Res.ok.injEq, List.cons.injEq] at h4
          obtain ⟨rfl, rfl⟩ := h4
          exact ⟨_, rfl, push_shows (forall₂_set hr (.items root hl (fun r hr => hg r (by simp [hr])) h6) h)
            (.ref root hl (hg _ (by simp)) h5)⟩
  | option h =>
    rcases forall₂_lookup hr h with ⟨h1, h2⟩ | ⟨x, y, h1, h2, hxy⟩
    · simp only [callStep, call, h1, h2]; exact wrong
    · cases hxy with
      | @ref t r v root hl hg hv =>
        simp only [callStep, call, h1, h2]
        cases t with
        | M e =>
          rcases view_just hv with ⟨h3, rfl⟩ | ⟨q, w, h3, h4, rfl⟩
          · exact ⟨hs, by simp only [h3, Res.bind_ok, Res.pure_eq, gotOption], hr⟩
          · exact ⟨_, by simp only [h3, Res.bind_ok, Res.pure_eq, gotOption],
              push_shows hr (.ref root hl ((toOption_good hg).1 q h3) h4)⟩
        | _ => exact wrong
      | iter => simp only [callStep, call, h1, h2]; exact wrong
      | items => simp only [callStep, call, h1, h2]; exact wrong
  | members h =>
    rcases forall₂_lookup hr h with ⟨h1, h2⟩ | ⟨x, y, h1, h2, hxy⟩
    · simp only [callStep, call, h1, h2]; exact wrong
    · cases hxy with
      | @ref t r v root hl hg hv =>
        simp only [callStep, call, h1, h2]
        cases t with
        | tuple ts =>
          obtain ⟨rs, ws, h3, h4, rfl⟩ := view_tuple hv
          exact ⟨_, by simp only [h3, Res.bind_ok, Res.pure_eq],
            forall₂_push hr (members_show hl (tuple_forall hg h3) h4)⟩
        | dict k x =>
          obtain ⟨rs, ws, h3, h4, rfl⟩ := view_dict hv
          exact ⟨_, by simp only [h3, Res.bind_ok, Res.pure_eq],
            forall₂_push hr (members_show hl (dict_forall hg h3) h4)⟩
        | _ => exact wrong
      | iter => simp only [callStep, call, h1, h2]; exact wrong
      | items => simp only [callStep, call, h1, h2]; exact wrong
  | get h u =>
    rcases forall₂_lookup hr h with ⟨h1, h2⟩ | ⟨x, y, h1, h2, hxy⟩
    · simp only [callStep, call, h1, h2]; exact wrong
    · cases hxy with
      | @ref t r v root hl hg hv =>
        simp only [callStep, call, h1, h2]
        cases t with
        | V =>
          obtain ⟨ty, d, h3, rfl⟩ := view_variant hv
          obtain ⟨hx, hsm⟩ := hop h u rfl
          simp only
          by_cases hty : ty = u.show
          · rw [if_pos hty]
            cases hro : readOut c u d.bytes with
            | none => exact trivial
            | some w =>
              obtain ⟨q, h4, h5, h6⟩ := inside_view hg hx hsm h3 hty hro
              exact ⟨_, by simp only [h4, Res.bind_ok, Res.pure_eq, gotOption],
                push_shows hr (.ref root hl h5 h6)⟩
          · rw [if_neg hty]
            refine ⟨hs, ?_, hr⟩
            simp only [variantGet, h3, Res.bind_ok, hty, if_false, Res.pure_eq, gotOption]
        | _ => exact wrong
      | iter => simp only [callStep, call, h1, h2]; exact wrong
      | items => simp only [callStep, call, h1, h2]; exact wrong
  | eq h k =>
    rcases forall₂_lookup hr h with ⟨h1, h2⟩ | ⟨x, y, h1, h2, hxy⟩
    · simp only [callStep, call, h1, h2]; exact wrong
    rcases forall₂_lookup hr k with ⟨k1, k2⟩ | ⟨x', y', k1, k2, hxy'⟩
    · simp only [callStep, call, k1, k2]
      cases hxy <;> simp only [h1, h2] <;> exact wrong
    cases hxy with
    | @ref t r v root hl hg hv =>
      cases hxy' with
      | @ref t' r' v' root' hl' hg' hv' =>
        simp only [callStep, call, h1, h2, k1, k2]
        by_cases ht : t = t'
        · subst ht
          rw [if_pos rfl, if_pos rfl]
          obtain ⟨b, h3, h4⟩ := eq_ok c t root root' r r' v v' hg hg' hv hv'
          refine ⟨hs, ?_, hr⟩
          simp only [h3, Res.bind_ok, Res.pure_eq]
          congr 3
          rw [Bool.eq_iff_iff, h4]
          exact (@decide_eq_true_iff _ (_)).symm
        · rw [if_neg ht, if_neg ht]; exact wrong
      | iter => simp only [callStep, call, h1, h2, k1, k2]; exact wrong
      | items => simp only [callStep, call, h1, h2, k1, k2]; exact wrong
    | iter => simp only [callStep, call, h1, h2, k1, k2]; exact wrong
    | items => simp only [callStep, call, h1, h2, k1, k2]; exact wrong
  | order h k =>
    rcases forall₂_lookup hr h with ⟨h1, h2⟩ | ⟨x, y, h1, h2, hxy⟩
    · simp only [callStep, call, h1, h2]; exact wrong
    rcases forall₂_lookup hr k with ⟨k1, k2⟩ | ⟨x', y', k1, k2, hxy'⟩
    · simp only [callStep, call, k1, k2]
      cases hxy with
      | @ref t r v root hl hg hv => cases t <;> simp only [h1, h2] <;> exact wrong
      | iter => simp only [h1, h2]; exact wrong
      | items => simp only [h1, h2]; exact wrong
    cases hxy with
    | @ref t r v root hl hg hv =>
      simp only [callStep, call, h1, h2, k1, k2]
      cases t with
      | M e =>
        cases hxy' with
        | @ref t' r' v' root' hl' hg' hv' =>
          cases t' with
          | M e' =>
            simp only
            by_cases ht : e = e' ∧ (numWidth e).isSome
            · rw [if_pos ht, if_pos ht]
              obtain ⟨rfl, hw⟩ := ht
              obtain ⟨w, hw⟩ := Option.isSome_iff_exists.1 hw
              obtain ⟨o, rfl, h3⟩ := maybe_number hw hg hv
              obtain ⟨o', rfl, h3'⟩ := maybe_number hw hg' hv'
              obtain ⟨a, a', h4, h4', _, h5⟩ := c49_order c e w r r' hw hg.al hg'.al
              rw [h3] at h4
              rw [h3'] at h4'
              obtain rfl := optVal_inj.1 (Res.ok.inj h4)
              obtain rfl := optVal_inj.1 (Res.ok.inj h4')
              have him : ∀ o : Option Nat, inMaybe (optVal o) = some o := by intro o; cases o <;> rfl
              simp only [him]
              exact ⟨hs, by simp only [h5, Res.bind_ok, Res.pure_eq], hr⟩
            · rw [if_neg ht, if_neg ht]; exact wrong
          | _ => exact wrong
        | iter => exact wrong
        | items => exact wrong
      | _ => cases hxy' <;> exact wrong
    | iter => simp only [callStep, call, h1, h2, k1, k2]; exact wrong
    | items => simp only [callStep, call, h1, h2, k1, k2]; exact wrong
  | print h =>
    rcases forall₂_lookup hr h with ⟨h1, h2⟩ | ⟨x, y, h1, h2, hxy⟩
    · simp only [callStep, call, h1, h2]; exact wrong
    · cases hxy with
      | @ref t r v root hl hg hv =>
        simp only [callStep, call, h1, h2]
        have h3 := (debug_iff P c t r (print P t v)).2 ⟨v, hv, rfl⟩
        exact ⟨hs, by simp only [h3, Res.bind_ok, Res.pure_eq], hr⟩
      | iter => simp only [callStep, call, h1, h2]; exact wrong
      | items => simp only [callStep, call, h1, h2]; exact wrong
  | write h =>
    rcases forall₂_lookup hr h with ⟨h1, h2⟩ | ⟨x, y, h1, h2, hxy⟩
    · simp only [callStep, call, h1, h2]; exact wrong
    · cases hxy with
      | @ref t r v root hl hg hv =>
        simp only [callStep, call, h1, h2]
        split
        · rename_i hle
          obtain ⟨x, h3, st⟩ := source_ok c root t r v hg hv
          have hb : bytesOf c t x = enc (.crate c.bigEndian) t v := by unfold bytesOf; rw [st.means]
          have h4 := vec_good (c := c) ⟨st.acc, hg.ex, by simp [st.noWrap]⟩ st.noNul (by rw [hb]; exact hle)
          exact ⟨hs, by simp only [h3, h4, hb, Res.bind_ok, Res.pure_eq], hr⟩
        · exact trivial
      | iter => simp only [callStep, call, h1, h2]; exact wrong
      | items => simp only [callStep, call, h1, h2]; exact wrong
  | copy h =>
    rcases forall₂_lookup hr h with ⟨h1, h2⟩ | ⟨x, y, h1, h2, hxy⟩
    · simp only [callStep, call, h1, h2]; exact wrong
    · cases hxy with
      | @ref t r v root hl hg hv =>
        simp only [callStep, call, h1, h2]
        split
        · rename_i hc
          obtain ⟨o, q, h3, h4, h5⟩ := copy_shows hp hpa hl hg hv hc
          exact ⟨_, by simp only [h3, h4, Res.bind_ok, Res.pure_eq], push_shows hr h5⟩
        · exact trivial
      | iter => simp only [callStep, call, h1, h2]; exact wrong
      | items => simp only [callStep, call, h1, h2]; exact wrong

/-- All that a program sees is what the values say. -/
theorem run_shows {c : Cfg} {P : CoreFmt} {places : Nat → Places} {client : Client}
    (hp : ∀ n, (places n).vecs.Valid ∧ 8 ∣ (places n).addr)
    (hc : ∀ tr h u, client tr = some (.get h u) → Expands u ∧ Small u) : ∀ (n : Nat) (hs : List Held) (vs : List Seen)
    (tr out : List Obs), List.Forall₂ (Shows c) hs vs →
    session (readOut c) (.crate c.bigEndian) P client n vs tr = some out →
    runClient c P places client n hs tr = out := by
  intro n
  induction n with
  | zero => intro hs vs tr out _ h; simpa [session, runClient] using h
  | succ n ih =>
    intro hs vs tr out hr h
    simp only [session] at h
    simp only [runClient]
    cases hcl : client tr with
    | none => rw [hcl] at h; simpa using h
    | some op =>
      rw [hcl] at h
      have hg := call_goes (P := P) (hp n).1 (hp n).2 hr op (fun k u hop => hc tr k u (by rw [hcl, hop]))
      simp only at h ⊢
      cases hcall : call (readOut c) (.crate c.bigEndian) P vs op with
      | went o vs' =>
        rw [hcall] at h hg
        obtain ⟨hs', h1, h2⟩ := hg
        rw [h1]
        exact ih hs' vs' (tr ++ [o]) out h2 h
      | panicked =>
        rw [hcall] at h hg
        obtain ⟨f, h1⟩ := hg
        rw [h1]
        simpa using h
      | unknown => rw [hcall] at h; simp at h

end GV.Props
