import Verif.Model.Walk
import Verif.Proofs.Owned
import Verif.Props.C19_C48
import Verif.Props.C27_C32
import Verif.Props.C33_C36
/-
C72: going straight to a part gives that part of the value.  C73: parts can be copied out.
-/
namespace GV.Props
open GV Spec

/-! ### C72 -/

theorem view_arr {c : Cfg} {e : Ty} {s : Slice} {v : Val} (h : view c (.A e) s = .ok v) :
    ∃ rs vs, arrRefs c e s = .ok rs ∧ Res.traverse (view c e) rs = .ok vs ∧ v = .arr vs := by
  simp only [view] at h
  obtain ⟨rs, h1, h⟩ := Res.bind_eq_ok.1 h
  obtain ⟨vs, h2, h⟩ := Res.bind_eq_ok.1 h
  simp only [Res.pure_eq, Res.ok.injEq] at h
  exact ⟨rs, vs, h1, h2, h.symm⟩

theorem view_just {c : Cfg} {e : Ty} {s : Slice} {v : Val} (h : view c (.M e) s = .ok v) :
    (toOption c e s = .ok none ∧ v = .nothing) ∨
      ∃ r w, toOption c e s = .ok (some r) ∧ view c e r = .ok w ∧ v = .just w := by
  simp only [view] at h
  obtain ⟨o, h1, h⟩ := Res.bind_eq_ok.1 h
  cases o with
  | none => simp only [Res.pure_eq, Res.ok.injEq] at h; exact Or.inl ⟨h1, h.symm⟩
  | some r =>
    obtain ⟨w, h2, h⟩ := Res.bind_eq_ok.1 h
    simp only [Res.pure_eq, Res.ok.injEq] at h
    exact Or.inr ⟨r, w, h1, h2, h.symm⟩

theorem viewAll_get {c : Cfg} : ∀ {ts : List Ty} {rs : List Slice} {vs : List Val}, viewAll c ts rs = .ok vs →
    ts.length = rs.length ∧ vs.length = ts.length ∧
      ∀ i (h : i < ts.length) (h' : i < rs.length) (h'' : i < vs.length), view c ts[i] rs[i] = .ok vs[i]
  | [], [], vs, h => by
    simp only [viewAll, Res.ok.injEq] at h; subst h
    exact ⟨rfl, rfl, fun i h => absurd h (by simp)⟩
  | [], _ :: _, _, h => by simp [viewAll] at h
  | _ :: _, [], _, h => by simp [viewAll] at h
  | t :: ts, r :: rs, vs, h => by
    simp only [viewAll] at h
    obtain ⟨v, h1, h⟩ := Res.bind_eq_ok.1 h
    obtain ⟨ws, h2, h⟩ := Res.bind_eq_ok.1 h
    simp only [Res.pure_eq, Res.ok.injEq] at h
    subst h
    obtain ⟨l1, l2, h3⟩ := viewAll_get h2
    refine ⟨by simp [l1], by simp [l2], ?_⟩
    intro i hi hi' hi''
    cases i with
    | zero => exact h1
    | succ i => exact h3 i (by simpa using hi) (by simpa using hi') (by simpa using hi'')

theorem view_tuple {c : Cfg} {ts : List Ty} {s : Slice} {v : Val} (h : view c (.tuple ts) s = .ok v) :
    ∃ rs vs, tupRefs c (.tuple ts) ts s = .ok rs ∧ viewAll c ts rs = .ok vs ∧ v = .tup vs := by
  simp only [view] at h
  obtain ⟨rs, h1, h⟩ := Res.bind_eq_ok.1 h
  obtain ⟨vs, h2, h⟩ := Res.bind_eq_ok.1 h
  simp only [Res.pure_eq, Res.ok.injEq] at h
  exact ⟨rs, vs, h1, h2, h.symm⟩

theorem view_dict {c : Cfg} {k x : Ty} {s : Slice} {v : Val} (h : view c (.dict k x) s = .ok v) :
    ∃ rs vs, tupRefs c (.dict k x) [k, x] s = .ok rs ∧ viewAll c [k, x] rs = .ok vs ∧ v = .tup vs := by
  simp only [view] at h
  obtain ⟨rs, h1, h⟩ := Res.bind_eq_ok.1 h
  split at h
  · rename_i rk rv
    obtain ⟨a, h2, h⟩ := Res.bind_eq_ok.1 h
    obtain ⟨b, h3, h⟩ := Res.bind_eq_ok.1 h
    simp only [Res.pure_eq, Res.ok.injEq] at h
    exact ⟨_, [a, b], h1, by simp [viewAll, h2, h3], h.symm⟩
  · cases h

theorem view_variant {c : Cfg} {s : Slice} {v : Val} (h : view c .V s = .ok v) :
    ∃ ty d, split c s = .ok (ty, d) ∧ v = .variant ty d.bytes := by
  simp only [view] at h
  obtain ⟨⟨ty, d⟩, h1, h⟩ := Res.bind_eq_ok.1 h
  simp only [Res.pure_eq, Res.ok.injEq] at h
  exact ⟨ty, d, h1, h.symm⟩

/-- One element, got directly, is the one that iterating gives. -/
theorem walk_elem {c : Cfg} {e : Ty} {s : Slice} {rs : List Slice} {root : Slice} (hg : Good c root (.A e) s)
    (h : arrRefs c e s = .ok rs) (i : Nat) (p : List Step) (hi : i < rs.length) :
    walk c (.A e) s (.elem i :: p) = walk c e rs[i] p := by
  simp only [walk]
  cases hs : Spec.size e with
  | none =>
    simp only [sizeOf_eq, hs]
    rw [(c30_ends c e s rs hg.al hg.len hs h).2.1 i hi, Res.bind_ok]
  | some n =>
    have h' := h
    simp only [arrRefs, sizeOf_eq, hs] at h'
    obtain ⟨⟨n', a⟩, h1, h2⟩ := Res.bind_eq_ok.1 h'
    simp only [Res.pure_eq, Res.ok.injEq] at h2
    simp only [sizeOf_eq, hs, h1, Res.bind_ok]
    rw [h2, List.getElem?_eq_getElem hi]

/-- What the bytes in a variant stand for: what they are read as when cast by themselves. -/
def readOut (c : Cfg) (u : Ty) (d : Bytes) : Option Val :=
  match readAs c u ⟨0, d⟩ with
  | .ok w => some w
  | .fail _ => none

/-- The types that a path asks variants for are such as `gv!` can be given. -/
def Proper (p : List Step) : Prop := ∀ u, Step.inside u ∈ p → Expands u ∧ Small u

theorem inside_view {c : Cfg} {root s d : Slice} {u : Ty} {ty : Bytes} {w : Val} (hg : Good c root .V s)
    (hx : Expands u) (hsm : Small u) (h1 : split c s = .ok (ty, d)) (ht : ty = u.show)
    (hw : readOut c u d.bytes = some w) :
    ∃ r, variantGet c u s = .ok (some r) ∧ Good c root u r ∧ view c u r = .ok w := by
  obtain ⟨d', h1', h8, _, hin⟩ := split_ok (c := c) (s := s) hg.al
  rw [h1] at h1'
  simp only [Res.ok.injEq, Prod.mk.injEq] at h1'
  obtain ⟨_, rfl⟩ := h1'
  have hdl : d.len < 2 ^ 63 := by
    rcases hin with hin | rfl
    · obtain ⟨lo, hi, h, hle, rfl⟩ := hin
      have := hg.len
      simp only [Slice.len, Spec.sub, List.length_drop, List.length_take] at this ⊢
      omega
    · simp [Slice.len]
  have ha : Spec.align u ∣ d.addr := Nat.dvd_trans (align_dvd_8 u) h8
  have hr : readAs c u d = .ok w := by
    have h0 : readAs c u d = readAs c u ⟨0, d.bytes⟩ := readAs_same hx hsm ha (Nat.dvd_zero _) hdl rfl
    rw [h0]
    unfold readOut at hw
    split at hw
    · rename_i h; cases hw; exact h
    · cases hw
  unfold readAs at hr
  obtain ⟨r, h2, h3⟩ := Res.bind_eq_ok.1 hr
  have hv : variantGet c u s = .ok (some r) := by
    unfold variantGet
    simp only [h1, Res.bind_ok, ht, if_true, h2, Res.pure_eq]
  exact ⟨r, hv, (variantGet_cases hg hx hsm).1 r hv, h3⟩

theorem tuple_forall {c : Cfg} {root s : Slice} {ts : List Ty} {rs : List Slice} (hg : Good c root (.tuple ts) s)
    (h : tupRefs c (.tuple ts) ts s = .ok rs) : List.Forall₂ (Good c root) ts rs := by
  obtain ⟨hx, d, hd⟩ := expands_tuple.1 hg.ex
  exact (tuple_good hg rfl rfl rfl hx hd hg.sm.shows).1 _ h

theorem dict_forall {c : Cfg} {root s : Slice} {k v : Ty} {rs : List Slice} (hg : Good c root (.dict k v) s)
    (h : tupRefs c (.dict k v) [k, v] s = .ok rs) : List.Forall₂ (Good c root) [k, v] rs := by
  obtain ⟨⟨hk, hv⟩, d, hd⟩ := expands_dict.1 hg.ex
  refine (tuple_good (ts := [k, v]) hg (size_dict_eq k v) (align_dict_eq k v)
    (castBytes_dict k v _) ?_ hd hg.sm.dict).1 _ h
  intro t ht
  simp only [List.mem_cons, List.not_mem_nil, or_false] at ht
  rcases ht with rfl | rfl <;> assumption

theorem forall₂_get {α β : Type} {R : α → β → Prop} {as : List α} {bs : List β} (h : List.Forall₂ R as bs)
    (i : Nat) (h1 : i < as.length) (h2 : i < bs.length) : R as[i] bs[i] :=
  forall₂_zip h (by
    have : (as.zip bs)[i]'(by simp; omega) = (as[i], bs[i]) := by simp
    rw [← this]; exact List.getElem_mem _)

theorem walk_ok {c : Cfg} {root : Slice} : ∀ (p : List Step) (t : Ty) (s : Slice) (v : Val) (u : Ty) (w : Val),
    Proper p → Good c root t s → view c t s = .ok v → follow (readOut c) t v p = some (u, w) →
    ∃ r, walk c t s p = .ok (some (u, r)) ∧ Good c root u r ∧ view c u r = .ok w := by
  intro p
  induction p with
  | nil =>
    intro t s v u w _ hg hv hf
    simp only [follow, Option.some.injEq, Prod.mk.injEq] at hf
    obtain ⟨rfl, rfl⟩ := hf
    exact ⟨s, by simp [walk], hg, hv⟩
  | cons x p ih =>
    intro t s v u w hp hg hv hf
    have hp' : Proper p := fun u hu => hp u (by simp [hu])
    unfold follow at hf
    split at hf
    · simp at *
    · rename_i e vs i q heq
      obtain ⟨rfl, rfl⟩ := List.cons.inj heq
      obtain ⟨y, h1, h2⟩ := Option.bind_eq_some_iff.1 hf
      obtain ⟨rs, vs', hr, ht, he⟩ := view_arr hv
      cases he
      obtain ⟨hl, hget⟩ := traverse_get ht
      obtain ⟨hi, rfl⟩ := List.getElem?_eq_some_iff.1 h1
      rw [walk_elem hg hr i p (by omega)]
      exact ih e _ _ u w hp' ((arrRefs_good hg).1 rs hr _ (List.getElem_mem _)) (hget i (by omega) hi) h2
    · rename_i e y q heq
      obtain ⟨rfl, rfl⟩ := List.cons.inj heq
      rcases view_just hv with ⟨_, h⟩ | ⟨r, z, h1, h2, h3⟩
      · cases h
      · cases h3
        simp only [walk, h1, Res.bind_ok]
        exact ih e r _ u w hp' ((toOption_good hg).1 r h1) h2 hf
    · rename_i ts vs i q heq
      obtain ⟨rfl, rfl⟩ := List.cons.inj heq
      obtain ⟨t', h1, hf⟩ := Option.bind_eq_some_iff.1 hf
      obtain ⟨y, h2, hf⟩ := Option.bind_eq_some_iff.1 hf
      obtain ⟨rs, vs', hr, ha, he⟩ := view_tuple hv
      cases he
      obtain ⟨l1, l2, hget⟩ := viewAll_get ha
      obtain ⟨hi, rfl⟩ := List.getElem?_eq_some_iff.1 h1
      obtain ⟨hi', rfl⟩ := List.getElem?_eq_some_iff.1 h2
      simp only [walk, hr, Res.bind_ok, List.getElem?_eq_getElem hi,
        List.getElem?_eq_getElem (show i < rs.length by omega)]
      exact ih _ _ _ u w hp' (forall₂_get (tuple_forall hg hr) i hi (by omega)) (hget i hi (by omega) hi') hf
    · rename_i k x vs i q heq
      obtain ⟨rfl, rfl⟩ := List.cons.inj heq
      obtain ⟨t', h1, hf⟩ := Option.bind_eq_some_iff.1 hf
      obtain ⟨y, h2, hf⟩ := Option.bind_eq_some_iff.1 hf
      obtain ⟨rs, vs', hr, ha, he⟩ := view_dict hv
      cases he
      obtain ⟨l1, l2, hget⟩ := viewAll_get ha
      obtain ⟨hi, rfl⟩ := List.getElem?_eq_some_iff.1 h1
      obtain ⟨hi', rfl⟩ := List.getElem?_eq_some_iff.1 h2
      simp only [walk, hr, Res.bind_ok, List.getElem?_eq_getElem hi,
        List.getElem?_eq_getElem (show i < rs.length by omega)]
      exact ih _ _ _ u w hp' (forall₂_get (dict_forall hg hr) i hi (by omega)) (hget i hi (by omega) hi') hf
    · rename_i ty d u' q heq
      obtain ⟨rfl, rfl⟩ := List.cons.inj heq
      split at hf
      · rename_i hty
        obtain ⟨y, h1, hf2⟩ := Option.bind_eq_some_iff.1 hf
        obtain ⟨ty', d', hs, he⟩ := view_variant hv
        cases he
        obtain ⟨hx, hsm⟩ := hp u' (by simp)
        obtain ⟨r, h2, h3, h4⟩ := inside_view hg hx hsm hs hty h1
        simp only [walk, h2, Res.bind_ok]
        exact ih u' r y u w hp' h3 h4 hf2
      · cases hf
    · cases hf

/-- Whatever can be read as a whole, each part of it can be got directly: the reference that the path
    leads to shows the part of the value that the path leads to. -/
theorem c72_part (c : Cfg) (t : Ty) (s : Slice) (v : Val) (p : List Step) (u : Ty) (w : Val) (hx : Expands t)
    (hsm : Small t) (ha : Spec.align t ∣ s.addr) (hl : s.len < 2 ^ 63) (hp : Proper p)
    (hv : readAs c t s = .ok v) (hf : follow (readOut c) t v p = some (u, w)) :
    ∃ r, walkFrom c t s p = .ok (some (u, r)) ∧ view c u r = .ok w := by
  unfold readAs at hv
  obtain ⟨r, h1, h2⟩ := Res.bind_eq_ok.1 hv
  obtain ⟨r', h1', hg⟩ := cast_good (c := c) hx hsm ha hl
  rw [h1] at h1'; cases h1'
  obtain ⟨q, h3, _, h4⟩ := walk_ok p t r v u w hp hg h2 hf
  exact ⟨q, by unfold walkFrom; rw [h1, Res.bind_ok, h3], h4⟩

/-- Somewhere on the path is a variant of the type asked for whose data cannot be read as a whole (it
    panics). -/
def Unreadable (c : Cfg) (t : Ty) (v : Val) (p : List Step) : Prop :=
  ∃ q u rest d, p = q ++ .inside u :: rest ∧ follow (readOut c) t v q = some (.V, .variant u.show d) ∧
    readOut c u d = none

/-- Builds with overflow checks, or no index so large that eight times it does not fit. -/
def SmallIndices (c : Cfg) (p : List Step) : Prop :=
  c.overflowChecks = true ∨ ∀ i, Step.elem i ∈ p → (i + 1) * 8 < 2 ^ 64

theorem walk_only {c : Cfg} {root : Slice} : ∀ (p : List Step) (t : Ty) (s : Slice) (v : Val) (u : Ty) (r : Slice),
    Proper p → SmallIndices c p → Good c root t s → view c t s = .ok v → walk c t s p = .ok (some (u, r)) →
    (∃ w, follow (readOut c) t v p = some (u, w) ∧ view c u r = .ok w) ∨ Unreadable c t v p := by
  intro p
  induction p with
  | nil =>
    intro t s v u r _ _ hg hv hw
    simp only [walk, Res.ok.injEq, Option.some.injEq, Prod.mk.injEq] at hw
    obtain ⟨rfl, rfl⟩ := hw
    exact Or.inl ⟨v, by simp [follow], hv⟩
  | cons x p ih =>
    intro t s v u r hp hi hg hv hw
    have hp' : Proper p := fun u hu => hp u (by simp [hu])
    have hi' : SmallIndices c p := hi.imp id fun h i hm => h i (by simp [hm])
    -- one step of the path, then the rest
    have step : ∀ (t' : Ty) (s' : Slice) (v' : Val), Good c root t' s' → view c t' s' = .ok v' →
        walk c t' s' p = .ok (some (u, r)) → (∀ q, follow (readOut c) t v (x :: q) = follow (readOut c) t' v' q) →
        (∃ w, follow (readOut c) t v (x :: p) = some (u, w) ∧ view c u r = .ok w) ∨ Unreadable c t v (x :: p) := by
      intro t' s' v' hg' hv' hw' hf
      rcases ih t' s' v' u r hp' hi' hg' hv' hw' with ⟨w, h1, h2⟩ | ⟨q, u', rest, d, h1, h2, h3⟩
      · exact Or.inl ⟨w, by rw [hf, h1], h2⟩
      · exact Or.inr ⟨x :: q, u', rest, d, by rw [h1]; rfl, by rw [hf, h2], h3⟩
    unfold walk at hw
    split at hw
    · simp at *
    · rename_i e i q heq
      obtain ⟨rfl, rfl⟩ := List.cons.inj heq
      obtain ⟨rs, vs, hr, ht, rfl⟩ := view_arr hv
      obtain ⟨hl, hget⟩ := traverse_get ht
      by_cases hlt : i < rs.length
      · refine step e rs[i] vs[i] ((arrRefs_good hg).1 rs hr _ (List.getElem_mem _)) (hget i hlt (by omega)) ?_ ?_
        · rw [← walk_elem hg hr i p hlt]
          unfold walk; exact hw
        · intro q; simp [follow, List.getElem?_eq_getElem (show i < vs.length by omega)]
      · exfalso
        cases hs : Spec.size e with
        | none =>
          simp only [sizeOf_eq, hs] at hw
          obtain ⟨f, hf, _⟩ := c31_past_end_partial c e _ i rs.length hg.len
            (c30_ends c e _ rs hg.al hg.len hs hr).1 (by omega)
            (hi.imp id fun h => h i (by simp))
          rw [hf] at hw; cases hw
        | some n =>
          simp only [arrRefs, sizeOf_eq, hs] at hr
          obtain ⟨⟨n', a⟩, h1, h2⟩ := Res.bind_eq_ok.1 hr
          simp only [Res.pure_eq, Res.ok.injEq] at h2
          simp only [sizeOf_eq, hs, h1, Res.bind_ok] at hw
          rw [h2, List.getElem?_eq_none (by omega)] at hw
          cases hw
    · rename_i e q heq
      obtain ⟨rfl, rfl⟩ := List.cons.inj heq
      rcases view_just hv with ⟨h1, _⟩ | ⟨r', z, h1, h2, rfl⟩
      · rw [h1] at hw; cases hw
      · rw [h1, Res.bind_ok] at hw
        exact step e r' z ((toOption_good hg).1 r' h1) h2 hw fun q => by simp [follow]
    · rename_i ts i q heq
      obtain ⟨rfl, rfl⟩ := List.cons.inj heq
      obtain ⟨rs, vs, hr, ha, rfl⟩ := view_tuple hv
      obtain ⟨l1, l2, hget⟩ := viewAll_get ha
      rw [hr, Res.bind_ok] at hw
      split at hw
      · rename_i t' r' h1 h2
        obtain ⟨hlt, rfl⟩ := List.getElem?_eq_some_iff.1 h1
        obtain ⟨hlt', rfl⟩ := List.getElem?_eq_some_iff.1 h2
        refine step _ _ vs[i] (forall₂_get (tuple_forall hg hr) i hlt hlt') (hget i hlt hlt' (by omega)) hw ?_
        intro q
        simp [follow, List.getElem?_eq_getElem hlt, List.getElem?_eq_getElem (show i < vs.length by omega)]
      · cases hw
    · rename_i k x i q heq
      obtain ⟨rfl, rfl⟩ := List.cons.inj heq
      obtain ⟨rs, vs, hr, ha, rfl⟩ := view_dict hv
      obtain ⟨l1, l2, hget⟩ := viewAll_get ha
      rw [hr, Res.bind_ok] at hw
      split at hw
      · rename_i t' r' h1 h2
        obtain ⟨hlt, rfl⟩ := List.getElem?_eq_some_iff.1 h1
        obtain ⟨hlt', rfl⟩ := List.getElem?_eq_some_iff.1 h2
        refine step _ _ vs[i] (forall₂_get (dict_forall hg hr) i hlt hlt') (hget i hlt hlt' (by omega)) hw ?_
        intro q
        simp only [follow, List.getElem?_eq_getElem hlt, List.getElem?_eq_getElem (show i < vs.length by omega),
          Option.bind_some]
      · cases hw
    · rename_i u' q heq
      obtain ⟨rfl, rfl⟩ := List.cons.inj heq
      obtain ⟨ty, d, hs, rfl⟩ := view_variant hv
      obtain ⟨hx, hsm⟩ := hp u' (by simp)
      by_cases hty : ty = u'.show
      · cases hro : readOut c u' d.bytes with
        | none =>
          subst hty
          exact Or.inr ⟨[], u', p, d.bytes, rfl, by simp [follow], hro⟩
        | some y =>
          obtain ⟨r', h2, h3, h4⟩ := inside_view hg hx hsm hs hty hro
          rw [h2, Res.bind_ok] at hw
          exact step u' r' y h3 h4 hw fun q => by simp [follow, hty, hro]
      · unfold variantGet at hw
        simp only [hs, Res.bind_ok, hty, if_false, Res.pure_eq] at hw
        cases hw
    · cases hw

/-- And nothing else is got: if going along a path gives a reference, then the path leads to a part of
    the value, which is what the reference shows; unless there is a variant on the way whose data
    cannot be read as a whole.  (A build without overflow checks may find something at huge indices, see
    C31.) -/
theorem c72_only (c : Cfg) (t : Ty) (s : Slice) (v : Val) (p : List Step) (u : Ty) (r : Slice) (hx : Expands t)
    (hsm : Small t) (ha : Spec.align t ∣ s.addr) (hl : s.len < 2 ^ 63) (hp : Proper p) (hi : SmallIndices c p)
    (hv : readAs c t s = .ok v) (hw : walkFrom c t s p = .ok (some (u, r))) :
    (∃ w, follow (readOut c) t v p = some (u, w) ∧ view c u r = .ok w) ∨ Unreadable c t v p := by
  unfold readAs at hv
  obtain ⟨q, h1, h2⟩ := Res.bind_eq_ok.1 hv
  obtain ⟨q', h1', hg⟩ := cast_good (c := c) hx hsm ha hl
  rw [h1] at h1'; cases h1'
  unfold walkFrom at hw
  rw [h1, Res.bind_ok] at hw
  exact walk_only p t q v u r hp hi hg h2 hw

/-- Somewhere on the path is an index past the end of an array. -/
def PastEnd (c : Cfg) (t : Ty) (v : Val) (p : List Step) : Prop :=
  ∃ q i rest e vs, p = q ++ .elem i :: rest ∧ follow (readOut c) t v q = some (.A e, .arr vs) ∧ vs.length ≤ i

theorem walk_panic {c : Cfg} {root : Slice} : ∀ (p : List Step) (t : Ty) (s : Slice) (v : Val) (f : Fault),
    Proper p → Good c root t s → view c t s = .ok v → walk c t s p = .fail f →
    PastEnd c t v p ∨ Unreadable c t v p := by
  intro p
  induction p with
  | nil => intro t s v f _ _ _ hw; simp [walk] at hw
  | cons x p ih =>
    intro t s v f hp hg hv hw
    have hp' : Proper p := fun u hu => hp u (by simp [hu])
    have step : ∀ (t' : Ty) (s' : Slice) (v' : Val), Good c root t' s' → view c t' s' = .ok v' →
        walk c t' s' p = .fail f → (∀ q, follow (readOut c) t v (x :: q) = follow (readOut c) t' v' q) →
        PastEnd c t v (x :: p) ∨ Unreadable c t v (x :: p) := by
      intro t' s' v' hg' hv' hw' hf
      rcases ih t' s' v' f hp' hg' hv' hw' with ⟨q, i, rest, e, vs, h1, h2, h3⟩ | ⟨q, u', rest, d, h1, h2, h3⟩
      · exact Or.inl ⟨x :: q, i, rest, e, vs, by rw [h1]; rfl, by rw [hf, h2], h3⟩
      · exact Or.inr ⟨x :: q, u', rest, d, by rw [h1]; rfl, by rw [hf, h2], h3⟩
    unfold walk at hw
    split at hw
    · simp at *
    · rename_i e i q heq
      obtain ⟨rfl, rfl⟩ := List.cons.inj heq
      obtain ⟨rs, vs, hr, ht, rfl⟩ := view_arr hv
      obtain ⟨hl, hget⟩ := traverse_get ht
      by_cases hlt : i < rs.length
      · refine step e rs[i] vs[i] ((arrRefs_good hg).1 rs hr _ (List.getElem_mem _)) (hget i hlt (by omega)) ?_ ?_
        · rw [← walk_elem hg hr i p hlt]
          unfold walk; exact hw
        · intro q; simp [follow, List.getElem?_eq_getElem (show i < vs.length by omega)]
      · exact Or.inl ⟨[], i, p, e, vs, rfl, by simp [follow], by omega⟩
    · rename_i e q heq
      obtain ⟨rfl, rfl⟩ := List.cons.inj heq
      rcases view_just hv with ⟨h1, _⟩ | ⟨r', z, h1, h2, rfl⟩
      · rw [h1] at hw; cases hw
      · rw [h1, Res.bind_ok] at hw
        exact step e r' z ((toOption_good hg).1 r' h1) h2 hw fun q => by simp [follow]
    · rename_i ts i q heq
      obtain ⟨rfl, rfl⟩ := List.cons.inj heq
      obtain ⟨rs, vs, hr, ha, rfl⟩ := view_tuple hv
      obtain ⟨l1, l2, hget⟩ := viewAll_get ha
      rw [hr, Res.bind_ok] at hw
      split at hw
      · rename_i t' r' h1 h2
        obtain ⟨hlt, rfl⟩ := List.getElem?_eq_some_iff.1 h1
        obtain ⟨hlt', rfl⟩ := List.getElem?_eq_some_iff.1 h2
        refine step _ _ vs[i] (forall₂_get (tuple_forall hg hr) i hlt hlt') (hget i hlt hlt' (by omega)) hw ?_
        intro q
        simp [follow, List.getElem?_eq_getElem hlt, List.getElem?_eq_getElem (show i < vs.length by omega)]
      · cases hw
    · rename_i k x i q heq
      obtain ⟨rfl, rfl⟩ := List.cons.inj heq
      obtain ⟨rs, vs, hr, ha, rfl⟩ := view_dict hv
      obtain ⟨l1, l2, hget⟩ := viewAll_get ha
      rw [hr, Res.bind_ok] at hw
      split at hw
      · rename_i t' r' h1 h2
        obtain ⟨hlt, rfl⟩ := List.getElem?_eq_some_iff.1 h1
        obtain ⟨hlt', rfl⟩ := List.getElem?_eq_some_iff.1 h2
        refine step _ _ vs[i] (forall₂_get (dict_forall hg hr) i hlt hlt') (hget i hlt hlt' (by omega)) hw ?_
        intro q
        simp only [follow, List.getElem?_eq_getElem hlt, List.getElem?_eq_getElem (show i < vs.length by omega),
          Option.bind_some]
      · cases hw
    · rename_i u' q heq
      obtain ⟨rfl, rfl⟩ := List.cons.inj heq
      obtain ⟨ty, d, hs, rfl⟩ := view_variant hv
      obtain ⟨hx, hsm⟩ := hp u' (by simp)
      by_cases hty : ty = u'.show
      · cases hro : readOut c u' d.bytes with
        | none =>
          subst hty
          exact Or.inr ⟨[], u', p, d.bytes, rfl, by simp [follow], hro⟩
        | some y =>
          obtain ⟨r', h2, h3, h4⟩ := inside_view hg hx hsm hs hty hro
          rw [h2, Res.bind_ok] at hw
          exact step u' r' y h3 h4 hw fun q => by simp [follow, hty, hro]
      · unfold variantGet at hw
        simp only [hs, Res.bind_ok, hty, if_false, Res.pure_eq] at hw
        cases hw
    · cases hw

/-- What is absent is reported as absent: going along a path panics only for an index past the end of an array (or
    at a variant whose data cannot be read as a whole). -/
theorem c72_panic (c : Cfg) (t : Ty) (s : Slice) (v : Val) (p : List Step) (f : Fault) (hx : Expands t)
    (hsm : Small t) (ha : Spec.align t ∣ s.addr) (hl : s.len < 2 ^ 63) (hp : Proper p)
    (hv : readAs c t s = .ok v) (hw : walkFrom c t s p = .fail f) : PastEnd c t v p ∨ Unreadable c t v p := by
  unfold readAs at hv
  obtain ⟨q, h1, h2⟩ := Res.bind_eq_ok.1 hv
  obtain ⟨q', h1', hg⟩ := cast_good (c := c) hx hsm ha hl
  rw [h1] at h1'; cases h1'
  unfold walkFrom at hw
  rw [h1, Res.bind_ok] at hw
  exact walk_panic p t q v f hp hg h2 hw

/-- `a{sv}` with the entry `"k" → <int32 7>`: the number in the variant that is the value of entry 0. -/
def sampleDict : Slice := ⟨64, [107, 0, 0, 0, 0, 0, 0, 0, 7, 0, 0, 0, 0, 105, 2, 15]⟩

example : readAs dbg (.A (.dict .S .V)) sampleDict = .ok (.arr [.tup [.str [107], .variant [105] [7, 0, 0, 0]]]) ∧
    follow (readOut dbg) (.A (.dict .S .V)) (.arr [.tup [.str [107], .variant [105] [7, 0, 0, 0]]])
      [.elem 0, .member 1, .inside .I] = some (.I, .num 7) ∧
    walkFrom dbg (.A (.dict .S .V)) sampleDict [.elem 0, .member 1, .inside .I] =
      .ok (some (.I, ⟨72, [7, 0, 0, 0]⟩)) ∧
    Proper [.elem 0, .member 1, .inside .I] ∧ SmallIndices dbg [.elem 0, .member 1, .inside .I] :=
  ⟨rfl, rfl, rfl, fun u hu => by simp at hu; subst hu; exact ⟨by decide, by decide⟩, Or.inl rfl⟩

/-- The content of a nothing is absent; an element past the end is not to be had. -/
example : walkFrom dbg (.A (.M .S)) ⟨64, [0]⟩ [.elem 0, .content] = .ok none ∧
    walkFrom dbg (.A (.M .S)) ⟨64, [0]⟩ [.elem 1, .content] = .fail .bounds ∧
    readAs dbg (.A (.M .S)) ⟨64, [0]⟩ = .ok (.arr [.nothing]) := ⟨rfl, rfl, rfl⟩

/-! ### C73 -/

/-- Whatever reference is reached, an owned copy made with `to_owned` reads as the same value. -/
def C73_full : Prop := ∀ (c : Cfg) (p : Places) (t0 t : Ty) (root r : Slice), Expands t0 → Small t0 →
  p.vecs.Valid → Spec.align t ∣ p.addr → Spec.align t0 ∣ root.addr → root.len ≤ 2 ^ 62 → Reach c t0 root t r →
  (toOwned c p t r >>= fun o => o.borrow c t >>= fun q => view c t q) = view c t r

/-- False for an empty part: `to_owned` of an empty `(ais)` reads nothing at an odd address. -/
theorem c73_full_false : ¬ C73_full := by
  intro h
  have := h dbg oddPlaces (.A (.tuple [.A .I, .S])) (.tuple [.A .I, .S]) ⟨64, [0]⟩ ⟨64, []⟩
    (by decide) (by decide) oddAlloc_valid (by decide) (by decide) (by decide)
    (.index 0 (.cast rfl) rfl rfl)
  have h1 : (toOwned dbg oddPlaces (.tuple [.A .I, .S]) ⟨64, []⟩ >>= fun o =>
      o.borrow dbg (.tuple [.A .I, .S]) >>= fun q => view dbg (.tuple [.A .I, .S]) q) = .fail .debugAssert := by rfl
  have h2 : view dbg (.tuple [.A .I, .S]) ⟨64, []⟩ = .ok (.tup [.arr [], .str []]) := by rfl
  rw [h1, h2] at this
  cases this

/-- A reference that is reached is read as its bytes are read, copied to wherever and cast to the same
    type by themselves; if it panics, then likewise. -/
theorem c73_alone (c : Cfg) (t0 t : Ty) (root r : Slice) (addr : Nat) (hx : Expands t0) (hsm : Small t0)
    (ha : Spec.align t0 ∣ root.addr) (hl : root.len < 2 ^ 63) (h : Reach c t0 root t r)
    (had : Spec.align t ∣ addr) : readAs c t ⟨addr, r.bytes⟩ = view c t r := by
  have hg := reach_good hx hsm ha hl h
  have h1 : readAs c t ⟨addr, r.bytes⟩ = readAs c t r :=
    readAs_same hg.ex hg.sm had hg.al (show r.bytes.length < 2 ^ 63 from hg.len) rfl
  obtain ⟨q, h2, hq⟩ := cast_good (c := c) hg.ex hg.sm hg.al hg.len
  obtain ⟨q', h2', _, h3, _⟩ := fromAligned_ok (c := c) hg.ex hg.al
  rw [h2] at h2'; cases h2'
  rw [hg.cast] at h3
  rw [h1]; unfold readAs
  rw [h2, Res.bind_ok]
  exact view_same t _ _ hq hg h3

/-- Two references of the same type to the same bytes show the same, wherever they come from. -/
theorem c73_bytes (c : Cfg) (t0 t1 t : Ty) (root root' r r' : Slice) (hx : Expands t0) (hsm : Small t0)
    (ha : Spec.align t0 ∣ root.addr) (hl : root.len < 2 ^ 63) (hx' : Expands t1) (hsm' : Small t1)
    (ha' : Spec.align t1 ∣ root'.addr) (hl' : root'.len < 2 ^ 63) (h : Reach c t0 root t r)
    (h' : Reach c t1 root' t r') (hb : r.bytes = r'.bytes) : view c t r = view c t r' := by
  rw [← c73_alone c t0 t root r 0 hx hsm ha hl h (Nat.dvd_zero _), hb,
    c73_alone c t1 t root' r' 0 hx' hsm' ha' hl' h' (Nat.dvd_zero _)]

/-- An owned copy reads as the same value, unless the part is empty and asks for an array of items with
    alignment above 1.  Missing: those. -/
theorem c73_owned_partial (c : Cfg) (p : Places) (t0 t : Ty) (root r : Slice) (hx : Expands t0) (hsm : Small t0)
    (hp : p.vecs.Valid) (hpa : Spec.align t ∣ p.addr) (ha : Spec.align t0 ∣ root.addr) (hl : root.len < 2 ^ 63)
    (hr : r.len ≤ 2 ^ 62) (h : Reach c t0 root t r) (he : r.bytes ≠ [] ∨ Spec.emptySafe 1 t = true) :
    (toOwned c p t r >>= fun o => o.borrow c t >>= fun q => view c t q) = view c t r := by
  have hg := reach_good hx hsm ha hl h
  rw [owned_read hg.ex hg.sm hp hpa hr hg.cast.symm he]
  exact c73_alone c t0 t root r 0 hx hsm ha hl h (Nat.dvd_zero _)

-- Non-vacuity: the inner `(ai)` of `sampleNested` (see C34) copied to address 1000.
example : view dbg (.A .I) ⟨68, [1, 0, 0, 0, 2, 0, 0, 0]⟩ = .ok (.arr [.num 1, .num 2]) ∧
    Reach dbg (.tuple [.S, .A (.A .I)]) sampleNested (.A .I) ⟨68, [1, 0, 0, 0, 2, 0, 0, 0]⟩ := by
  have h1 : Reach dbg (.tuple [.S, .A (.A .I)]) sampleNested (.tuple [.S, .A (.A .I)]) sampleNested :=
    .cast rfl
  have h2 : Reach dbg (.tuple [.S, .A (.A .I)]) sampleNested (.A (.A .I))
      ⟨68, [1, 0, 0, 0, 2, 0, 0, 0, 8]⟩ :=
    .member (rs := [⟨64, [104, 105, 0]⟩, ⟨68, [1, 0, 0, 0, 2, 0, 0, 0, 8]⟩]) h1 rfl (by simp)
  exact ⟨rfl, .index 0 h2 rfl rfl⟩

end GV.Props
