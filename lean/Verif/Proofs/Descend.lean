import Verif.Model.Descend
import Verif.Spec.Chain
import Verif.Proofs.Tree
import Verif.Proofs.SetPart
import Verif.Proofs.Visits
import Verif.Props.C74
/-
Going from variants to the variants in them.
-/
namespace GV
open Spec Props

/-- The two parts of a variant: either there is a zero byte and they are what is before and after, or not. -/
theorem variantParts_total (b : Bytes) :
    (b.length = (variantParts b).2.length + 1 + (variantParts b).1.length) ∨ variantParts b = ([40, 41], []) := by
  unfold variantParts
  have h := congrArg List.length (List.takeWhile_append_dropWhile (p := (· ≠ (0 : UInt8))) (l := b.reverse))
  rw [List.length_append, List.length_reverse] at h
  split
  · right; rfl
  · rename_i x d hd
    rw [hd] at h
    left
    simp only [List.length_reverse, List.length_cons] at *
    omega

theorem size_V : Spec.size .V = none := rfl
theorem expands_AV : Expands (.A .V) := by decide
theorem small_AV : Small (.A .V) := by decide

/-- Asking a variant for an array of variants. -/
theorem get_av {c : Cfg} {s : Slice} (ha : 8 ∣ s.addr) :
    ((variantParts s.bytes).1 ≠ [97, 118] → variantGet c (.A .V) s = .ok none) ∧
    ((variantParts s.bytes).1 = [97, 118] → ∃ a, variantGet c (.A .V) s = .ok (some a) ∧ 8 ∣ a.addr ∧
      a.bytes = (variantParts s.bytes).2 ∧ s.len = a.len + 3) := by
  obtain ⟨d, h1, h8, h2, _⟩ := split_ok (c := c) (s := s) ha
  have hsh : Ty.show (.A .V) = [97, 118] := rfl
  constructor
  · intro h
    unfold variantGet
    simp only [h1, Res.bind_ok, hsh, if_neg h, Res.pure_eq]
  · intro h
    obtain ⟨r, h3, h4, h5, _⟩ := fromAligned_ok (c := c) (t := .A .V) (s := d) expands_AV h8
    refine ⟨r, ?_, h4, ?_, ?_⟩
    · unfold variantGet
      simp only [h1, Res.bind_ok, hsh, if_pos h, h3, Res.pure_eq]
    · rw [h5, ← h2]; exact castBytes_eq rfl rfl
    · rcases variantParts_total s.bytes with h' | h'
      · have : r.bytes = (variantParts s.bytes).2 := by rw [h5, ← h2]; exact castBytes_eq rfl rfl
        simp only [Slice.len, this]
        rw [h] at h'
        simpa using h'
      · rw [h'] at h; cases h

/-- What the program does with a variant, by its parts. -/
theorem descend_leaf {c : Cfg} {s : Slice} (ha : 8 ∣ s.addr) (h : (variantParts s.bytes).1 ≠ [97, 118]) (f : Nat) :
    descend c (f + 1) s = .ok 1 := by
  simp only [descend, (get_av ha).1 h, Res.bind_ok, Res.pure_eq]

theorem good_av {c : Cfg} {a : Slice} (h8 : 8 ∣ a.addr) (hl : a.len < 2 ^ 63) : Good c a (.A .V) a :=
  ⟨expands_AV, small_AV, h8, castBytes_eq rfl rfl, hl, Or.inl (Inside.refl a)⟩

/-- The elements of an array of variants: together with their number they are not longer than the array. -/
theorem refs_av {c : Cfg} {a : Slice} {rs : List Slice} (h8 : 8 ∣ a.addr) (hl : a.len < 2 ^ 63)
    (h : arrRefs c .V a = .ok rs) : ∀ r ∈ rs, 8 ∣ r.addr ∧ r.len + rs.length ≤ a.len := by
  intro r hr
  have hg := good_av (c := c) h8 hl
  refine ⟨((arrRefs_good hg).1 rs h r hr).al, ?_⟩
  obtain ⟨h1, h2, _, _⟩ := c30_ends c .V a rs h8 hl rfl h
  have h3 := arrLen_ok (c := c) hl
  rw [h1] at h3
  simp only [Res.ok.injEq] at h3
  have h4 := arrFrame_count a.bytes
  have h5 := Nat.le_mul_of_pos_right (Spec.arrFrame a.bytes).2.length (arrW_isWidth a.bytes).pos
  obtain ⟨i, hi, rfl⟩ := List.getElem_of_mem hr
  simp only [Slice.len] at *
  rcases c32_in_body c .V a i _ _ (by decide) h8 hl h1 hi (h2 i hi) with h | ⟨p, q, _, hpq, _, hq, h⟩
  · rw [h]; simp only [List.length_nil]; omega
  · rw [h]
    simp only [Spec.sub, List.length_drop, List.length_take]
    have := arrFrame_body_le a.bytes
    omega

theorem descend_bound {c : Cfg} : ∀ (f : Nat) (s : Slice) (n : Nat), 8 ∣ s.addr → s.len < 2 ^ 63 →
    descend c f s = .ok n → n ≤ 2 ^ s.len := by
  intro f
  induction f with
  | zero => intro s n _ _ h; cases h
  | succ f ih =>
    intro s n ha hl h
    by_cases hp : (variantParts s.bytes).1 = [97, 118]
    · obtain ⟨a, h1, h8, _, hlen⟩ := (get_av (c := c) ha).2 hp
      simp only [descend, h1, Res.bind_ok] at h
      obtain ⟨rs, h2, h⟩ := Res.bind_eq_ok.1 h
      obtain ⟨ns, h3, h⟩ := Res.bind_eq_ok.1 h
      simp only [Res.pure_eq, Res.ok.injEq] at h
      subst h
      have hal : a.len < 2 ^ 63 := by omega
      have hr := refs_av h8 hal h2
      obtain ⟨hln, hget⟩ := traverse_get h3
      have hsum : ∀ (l : List Nat) (B : Nat), (∀ x ∈ l, x ≤ B) → l.sum ≤ l.length * B := by
        intro l B
        induction l with
        | nil => simp
        | cons x l ihl =>
          intro h
          have h1 := h x (by simp)
          have h2 := ihl fun y hy => h y (by simp [hy])
          simp only [List.sum_cons, List.length_cons, Nat.succ_mul]
          omega
      have hB : ∀ x ∈ ns, x ≤ 2 ^ (a.len - rs.length) := by
        intro x hx
        obtain ⟨i, hi, rfl⟩ := List.getElem_of_mem hx
        have hm := hr _ (List.getElem_mem (l := rs) (n := i) (by omega))
        exact Nat.le_trans (ih _ _ hm.1 (by omega) (hget i (by omega) hi))
          (Nat.pow_le_pow_right (by decide) (by omega))
      have h4 := hsum ns _ hB
      rw [hln] at h4
      have h5 : rs.length * 2 ^ (a.len - rs.length) ≤ 2 ^ a.len := by
        cases hz : rs with
        | nil => simp
        | cons r0 _ =>
          have := (hr r0 (by simp [hz])).2
          rw [← hz]
          calc rs.length * 2 ^ (a.len - rs.length) ≤ 2 ^ rs.length * 2 ^ (a.len - rs.length) :=
                Nat.mul_le_mul_right _ (Nat.le_of_lt Nat.lt_two_pow_self)
            _ = 2 ^ a.len := by rw [← Nat.pow_add]; congr 1; omega
      have h6 : 2 ^ s.len = 8 * 2 ^ a.len := by rw [hlen, Nat.pow_add]; omega
      have h7 : 0 < 2 ^ a.len := Nat.pow_pos (by decide)
      omega
    · rw [descend_leaf ha hp] at h
      cases h
      exact Nat.pow_pos (by decide)

theorem traverse_fuel {α β : Type} (f : Nat → α → Res β) (L : Nat) : ∀ rs : List α,
    (∀ r ∈ rs, ∃ n, ∀ k, L < k → f k r = .ok n) → ∃ ns, ∀ k, L < k → Res.traverse (f k) rs = .ok ns := by
  intro rs
  induction rs with
  | nil => intro _; exact ⟨[], fun _ _ => rfl⟩
  | cons r rs ih =>
    intro h
    obtain ⟨n, hn⟩ := h r (by simp)
    obtain ⟨ns, hns⟩ := ih fun x hx => h x (by simp [hx])
    exact ⟨n :: ns, fun k hk => by simp [Res.traverse, hn k hk, hns k hk]⟩

theorem descend_total {c : Cfg} : ∀ (m : Nat) (s : Slice), s.len ≤ m → 8 ∣ s.addr → s.len < 2 ^ 32 →
    ∃ n, ∀ k, s.len < k → descend c k s = .ok n := by
  intro m
  induction m using Nat.strongRecOn with
  | ind m ih =>
    intro s hm ha hl
    by_cases hp : (variantParts s.bytes).1 = [97, 118]
    · obtain ⟨a, h1, h8, _, hlen⟩ := (get_av (c := c) ha).2 hp
      have hal : a.len < 2 ^ 32 := by omega
      obtain ⟨rs, h2, _⟩ := (arrRefs_ok (c := c) (e := .V) (s := a) (by decide) h8 (castBytes_eq rfl rfl)
        (fun _ => hal)).2 (by
          rw [List.any_eq_false]
          intro o _
          cases o <;> simp [badChild, Spec.badSize])
      have hr := refs_av h8 (by omega) h2
      obtain ⟨ns, hns⟩ := traverse_fuel (descend c) a.len rs fun r hr' => by
        obtain ⟨g1, g2⟩ := hr r hr'
        obtain ⟨n, hn⟩ := ih a.len (by omega) r (by omega) g1 (by omega)
        exact ⟨n, fun k hk => hn k (by omega)⟩
      refine ⟨1 + ns.sum, fun k hk => ?_⟩
      obtain ⟨k, rfl⟩ : ∃ j, k = j + 1 := ⟨k - 1, by omega⟩
      simp only [descend, h1, Res.bind_ok, h2, hns k (by omega), Res.pure_eq]
    · refine ⟨1, fun k hk => ?_⟩
      obtain ⟨k, rfl⟩ : ∃ j, k = j + 1 := ⟨k - 1, by omega⟩
      exact descend_leaf ha hp k

/-! ### Arrays whose elements overlap, in each other -/

/-- A variant that holds an array of two variants that are the same bytes, with an empty one between; in each
    of the two the same again, and so on. -/
def bomb : Nat → Bytes
  | 0 => []
  | n + 1 => (bomb n ++ frames (bomb n).length [(bomb n).length, 0, (bomb n).length]) ++ 0 :: [97, 118]

def bombCount : Nat → Nat
  | 0 => 1
  | n + 1 => 2 * bombCount n + 2

theorem bomb_length (n : Nat) : (bomb n).length ≤ 27 * n ∧ n ≤ (bomb n).length := by
  induction n with
  | zero => simp [bomb]
  | succ n ih =>
    have h1 := width_le (bomb n).length 3
    have h2 : (frames (bomb n).length [(bomb n).length, 0, (bomb n).length]).length =
        3 * frameWidth (bomb n).length 3 := frames_length _ _
    simp only [bomb, List.length_append, h2, List.length_cons, List.length_nil]
    omega

theorem bombCount_ge (n : Nat) : 2 ^ n ≤ bombCount n := by
  induction n with
  | zero => decide
  | succ n ih => simp only [bombCount, Nat.pow_succ]; omega

theorem bomb_descend {c : Cfg} : ∀ (n f : Nat) (s : Slice), n < f → 8 ∣ s.addr → s.bytes = bomb n → s.len < 2 ^ 63 →
    descend c f s = .ok (bombCount n) := by
  have leaf : ∀ (f : Nat) (s : Slice), 8 ∣ s.addr → s.bytes = [] → descend c (f + 1) s = .ok 1 := by
    intro f s ha hb
    refine descend_leaf ha ?_ f
    rw [hb]; decide
  intro n
  induction n with
  | zero =>
    intro f s hf ha hb _
    obtain ⟨f, rfl⟩ : ∃ j, f = j + 1 := ⟨f - 1, by omega⟩
    exact leaf f s ha hb
  | succ n ih =>
    intro f s hf ha hb hl
    obtain ⟨f, rfl⟩ : ∃ j, f = j + 1 := ⟨f - 1, by omega⟩
    have hparts : variantParts s.bytes =
        ([97, 118], bomb n ++ frames (bomb n).length [(bomb n).length, 0, (bomb n).length]) := by
      rw [hb]; exact variantParts_append (by decide)
    obtain ⟨a, h1, h8, hab, hlen⟩ := (get_av (c := c) ha).2 (by rw [hparts])
    rw [hparts] at hab
    simp only at hab
    have hal : a.len < 2 ^ 63 := by omega
    have hE : (bomb n).length ≤ a.len := by
      simp only [Slice.len, hab, List.length_append]; omega
    have hfr : arrFrame a.bytes = ((bomb n).length, [(bomb n).length, 0, (bomb n).length]) := by
      rw [hab]
      refine arrFrame_enc (by simp) ?_ ?_ rfl
      · intro o ho
        simp only [List.mem_cons, List.not_mem_nil, or_false] at ho
        omega
      · rw [← hab]; simp only [Slice.len] at hal; omega
    have htake : Spec.sub a.bytes 0 (bomb n).length = bomb n := by
      rw [hab]; simp [Spec.sub]
    have hch : ∃ o : Option Bytes, o.getD [] = [] ∧
        arrChildren (.crate c.bigEndian) .V a.bytes = [some (bomb n), o, some (bomb n)] := by
      have h0 : roundUp 0 8 = 0 := rfl
      have hlast : place a.bytes (bomb n).length 0 (bomb n).length = some (bomb n) := by
        simp [place, htake]
      refine ⟨place a.bytes (bomb n).length (roundUp (bomb n).length 8) 0, ?_, ?_⟩
      · unfold place
        split
        · rename_i h; simp [Spec.sub]
        · rfl
      · simp [arrChildren, Spec.size, hfr, Spec.align, Rules.crate, elemsFrom, h0, hlast]
    obtain ⟨o, ho, hch⟩ := hch
    obtain ⟨rs, h2, h3⟩ := (arrRefs_tame (c := c) (e := .V) (s := a) (by decide) h8 (castBytes_eq rfl rfl)
      (fun _ => hal) (fun _ x hx => by
        rw [hfr] at hx
        simp only [List.mem_cons, List.not_mem_nil, or_false] at hx
        omega)).2 (by
          rw [List.any_eq_false]
          intro o _
          cases o <;> simp [badChild, Spec.badSize])
    rw [hch] at h3
    cases h3 with
    | @cons _ r1 _ rs' g1 h3 =>
      cases h3 with
      | @cons _ r2 _ rs'' g2 h3 =>
        cases h3 with
        | @cons _ r3 _ rs''' g3 h3 =>
          cases h3
          have hd : dfltBytes .V = [] := rfl
          have b1 : r1.bytes = bomb n := by rw [g1.2.1]; exact castBytes_eq rfl rfl
          have b3 : r3.bytes = bomb n := by rw [g3.2.1]; exact castBytes_eq rfl rfl
          have b2 : r2.bytes = [] := by
            rw [g2.2.1, hd, ho]; exact castBytes_eq rfl rfl
          have e1 := ih f r1 (by omega) g1.1 b1 (by simp only [Slice.len, b1]; omega)
          have e3 := ih f r3 (by omega) g3.1 b3 (by simp only [Slice.len, b3]; omega)
          obtain ⟨f, rfl⟩ : ∃ j, f = j + 1 := ⟨f - 1, by omega⟩
          have e2 := leaf f r2 g2.1 b2
          rw [descend]
          simp only [h1, Res.bind_ok, h2, Res.traverse, e1, e2, e3, Res.pure_eq, Res.ok.injEq, bombCount]
          simp only [List.sum_cons, List.sum_nil]
          omega

/-! ### Paths -/

theorem inside_le {s r : Slice} (h : Inside s r) : r.len ≤ s.len := by
  obtain ⟨lo, hi, h1, h2, rfl⟩ := h
  simp only [Slice.len, Spec.sub, List.length_drop, List.length_take]
  omega

/-- The most variants that there are to go into. -/
def atMost (t : Ty) (n : Nat) : Nat := if (Spec.size t).isSome then 0 else n / 2 + 1

theorem atMost_mono {t u : Ty} {m n : Nat} (ht : Spec.size t = none) (h : Spec.size u = none → m ≤ n) :
    atMost u m ≤ atMost t n := by
  unfold atMost
  rw [ht]
  cases hu : Spec.size u with
  | some k => simp
  | none => have := h hu; simp only [Option.isSome_none, Bool.false_eq_true, if_false]; omega

theorem members_none {gv : Ty} {ts : List Ty} (hm : HasMembers gv ts) {t : Ty} (ht : t ∈ ts) (hs : Spec.size t = none) :
    Spec.size gv = none := by
  cases hgv : Spec.size gv with
  | none => rfl
  | some n =>
    have : Spec.size (.tuple ts) = some n := by
      rcases hm with rfl | ⟨k, v, rfl, rfl⟩
      · exact hgv
      · rw [← size_dict_eq]; exact hgv
    obtain ⟨_, _, h, _⟩ := size_tuple_members this
    have := h t ht
    rw [hs] at this; cases this

theorem member_atMost {c : Cfg} {root s : Slice} {gv : Ty} {ts : List Ty} {rs : List Slice} (hm : HasMembers gv ts)
    (hg : Good c root gv s) (h : tupRefs c gv ts s = .ok rs) (i : Nat) (h1 : i < ts.length) (h2 : i < rs.length) :
    atMost ts[i] rs[i].len ≤ atMost gv s.len := by
  cases hs : Spec.size ts[i] with
  | some k => simp [atMost, hs]
  | none => exact atMost_mono (members_none hm (List.getElem_mem _) hs) (members_few hm hg h i h1 h2)

theorem inside_atMost {c : Cfg} {s r : Slice} {u : Ty} (ha : 8 ∣ s.addr) (hx : Expands u)
    (h : variantGet c u s = .ok (some r)) : atMost u r.len + 1 ≤ s.len / 2 + 1 := by
  obtain ⟨d, h1, h8, h2, _⟩ := split_ok (c := c) (s := s) ha
  obtain ⟨r', h3, _, h4, _⟩ := fromAligned_ok (c := c) (t := u) (s := d) hx (Nat.dvd_trans (align_dvd_8 u) h8)
  unfold variantGet at h
  simp only [h1, Res.bind_ok] at h
  split at h
  · rename_i hty
    rw [h3] at h
    cases h
    cases hs : Spec.size u with
    | some k => simp [atMost, hs]
    | none =>
      have hp := show_pos u
      have hr : r.len ≤ (variantParts s.bytes).2.length := by
        simp only [Slice.len, h4, castBytes, hs, ← h2]
        split <;> simp
      rcases variantParts_total s.bytes with h' | h'
      · rw [hty] at h'
        simp only [atMost, hs, Option.isSome_none, Bool.false_eq_true, if_false]
        simp only [Slice.len] at *
        omega
      · rw [h'] at hty
        exfalso
        have : u = .tuple [] := by
          have h0 : Ty.show (.tuple []) = [40, 41] := rfl
          exact c01_show_injective _ _ (by rw [h0]; exact hty.symm)
        subst this
        cases hs
  · cases h

theorem walk_insides {c : Cfg} {root : Slice} : ∀ (p : List Step) (t : Ty) (s : Slice) (x : Ty × Slice),
    Proper p → Good c root t s → walk c t s p = .ok (some x) → insides p ≤ atMost t s.len := by
  intro p
  induction p with
  | nil => intros; simp [insides]
  | cons y p ih =>
    intro t s x hp hg hw
    have hp' : Proper p := fun u hu => hp u (by simp [hu])
    unfold walk at hw
    split at hw
    · simp at *
    · rename_i e i q heq
      obtain ⟨rfl, rfl⟩ := List.cons.inj heq
      cases hs : Spec.size e with
      | none =>
        simp only [sizeOf_eq, hs] at hw
        obtain ⟨r, h1, h2⟩ := Res.bind_eq_ok.1 hw
        refine Nat.le_trans (ih e r x hp' (Good.index hg (by rw [sizeOf_eq, hs]) h1) h2) (atMost_mono rfl fun _ => ?_)
        rcases ((arrIndex_safe (c := c) (expands_A.1 hg.ex) hs hg.al hg.len i).1 r h1).2.2 with h | h
        · exact inside_le h
        · simp [Slice.len, h.1, dfltBytes, hs]
      | some n =>
        simp only [sizeOf_eq, hs] at hw
        obtain ⟨⟨n', a⟩, h1, h2⟩ := Res.bind_eq_ok.1 hw
        simp only at h2
        split at h2
        · rename_i r hr
          have hrs : ∀ s, arrRefs c e s = .ok (sliceElems n' s) := by
            intro s
            simp only [arrRefs, sizeOf_eq, hs, h1, Res.bind_ok, Res.pure_eq]
          have hg' := (arrRefs_good hg).1 _ (hrs _) r (List.mem_of_getElem? hr)
          exact Nat.le_trans (ih e r x hp' hg' h2) (atMost_mono rfl fun h => by rw [hs] at h; cases h)
        · cases h2
    · rename_i e q heq
      obtain ⟨rfl, rfl⟩ := List.cons.inj heq
      obtain ⟨o, h1, h2⟩ := Res.bind_eq_ok.1 hw
      cases o with
      | none => cases h2
      | some r => exact Nat.le_trans (ih e r x hp' ((toOption_good hg).1 r h1) h2) (atMost_mono rfl (toOption_few hg h1))
    · rename_i ts i q heq
      obtain ⟨rfl, rfl⟩ := List.cons.inj heq
      obtain ⟨rs, h1, h2⟩ := Res.bind_eq_ok.1 hw
      split at h2
      · rename_i t' r' g1 g2
        obtain ⟨hlt, rfl⟩ := List.getElem?_eq_some_iff.1 g1
        obtain ⟨hlt', rfl⟩ := List.getElem?_eq_some_iff.1 g2
        exact Nat.le_trans (ih _ _ x hp' (forall₂_get (tuple_forall hg h1) i hlt hlt') h2)
          (member_atMost (Or.inl rfl) hg h1 i hlt hlt')
      · cases h2
    · rename_i k v i q heq
      obtain ⟨rfl, rfl⟩ := List.cons.inj heq
      obtain ⟨rs, h1, h2⟩ := Res.bind_eq_ok.1 hw
      split at h2
      · rename_i t' r' g1 g2
        obtain ⟨hlt, rfl⟩ := List.getElem?_eq_some_iff.1 g1
        obtain ⟨hlt', rfl⟩ := List.getElem?_eq_some_iff.1 g2
        exact Nat.le_trans (ih _ _ x hp' (forall₂_get (dict_forall hg h1) i hlt hlt') h2)
          (member_atMost (Or.inr ⟨k, v, rfl, rfl⟩) hg h1 i hlt hlt')
      · cases h2
    · rename_i u q heq
      obtain ⟨rfl, rfl⟩ := List.cons.inj heq
      obtain ⟨o, h1, h2⟩ := Res.bind_eq_ok.1 hw
      cases o with
      | none => cases h2
      | some r =>
        obtain ⟨hx, hsm⟩ := hp u (by simp)
        have g1 := ih u r x hp' ((variantGet_cases hg hx hsm).1 r h1) h2
        have g2 := inside_atMost hg.al hx h1
        simp only [insides]
        simp only [atMost, Spec.size, Option.isSome_none, Bool.false_eq_true, if_false] at g1 g2 ⊢
        omega
    · cases hw

/-! ### Normal form -/

theorem chainedAll_eq (xs : List Tree) : chainedAll xs = (xs.map chained).sum := by
  induction xs with
  | nil => rfl
  | cons x xs ih => simp [chainedAll, ih]

theorem chained_other {u : Ty} (h : u ≠ .A .V) (x : Tree) : chained (.variant u x) = 1 := by
  cases u with
  | A e =>
    cases e with
    | V => exact (h rfl).elim
    | _ => simp [chained]
  | _ => simp [chained]

theorem placed_mem (a : Nat) (ms : List (Ty × Bytes)) : ∀ pos, (∀ m ∈ ms, m.1 = .V) → 8 ∣ a →
    List.Forall₂ (fun m r => 8 ∣ r.addr ∧ r.bytes = m.2) ms (GV.placed a pos ms) := by
  induction ms with
  | nil => intro _ _ _; exact .nil
  | cons m ms ih =>
    intro pos h ha
    obtain ⟨t, b⟩ := m
    have : t = .V := h (t, b) (by simp)
    subst this
    refine .cons ⟨?_, rfl⟩ (ih _ (fun m hm => h m (by simp [hm])) ha)
    exact Nat.dvd_add ha (roundUp_dvd _ _)

/-- What is to be shown of each variant. -/
def Chains (c : Cfg) (x : Tree) : Prop :=
  x.Fits .V → 2 * chained x ≤ (x.enc (.pdf c.bigEndian) .V).length ∧ ∀ f s, 8 ∣ s.addr → s.len < 2 ^ 63 →
    s.bytes = x.enc (.pdf c.bigEndian) .V → s.len < f → descend c f s = .ok (chained x)

theorem descend_all {c : Cfg} {f L : Nat} (hf : L < f) (hL : L < 2 ^ 63) : ∀ (xs : List Tree) (rs : List Slice),
    (∀ x ∈ xs, x.Fits .V ∧ Chains c x) →
    List.Forall₂ (fun x r => 8 ∣ r.addr ∧ r.len ≤ L ∧ r.bytes = Tree.enc (.pdf c.bigEndian) .V x) xs rs →
    Res.traverse (descend c f) rs = .ok (xs.map chained) := by
  intro xs
  induction xs with
  | nil => intro rs _ h; cases h; rfl
  | cons x xs ih =>
    intro rs hx h
    cases h with
    | @cons _ r _ rs h1 h2 =>
      obtain ⟨g1, g2⟩ := hx x (by simp)
      have e1 := (g2 g1).2 f r h1.1 (by omega) h1.2.2 (by omega)
      have e2 := ih rs (fun y hy => hx y (by simp [hy])) h2
      simp [Res.traverse, e1, e2]

theorem chains_all (c : Cfg) (x : Tree) : Chains c x ∧ ∀ xs, x = .arr xs → ∀ y ∈ xs, Chains c y := by
  have none' : ∀ x : Tree, ¬ x.Fits .V → (∀ xs, x ≠ .arr xs) →
      Chains c x ∧ ∀ xs, x = .arr xs → ∀ y ∈ xs, Chains c y :=
    fun x h h' => ⟨fun hf => (h hf).elim, fun xs he => (h' xs he).elim⟩
  induction x using Tree.ind with
  | bool b => exact none' _ (by simp [Tree.Fits]) (by simp)
  | num n => exact none' _ (by simp [Tree.Fits, numWidth]) (by simp)
  | str b => exact none' _ (by simp [Tree.Fits, isStr]) (by simp)
  | nothing => exact none' _ (by simp [Tree.Fits]) (by simp)
  | just x _ => exact none' _ (by simp [Tree.Fits]) (by simp)
  | tup xs _ => exact none' _ (by simp [Tree.Fits]) (by simp)
  | arr xs ih =>
    refine ⟨fun hf => ?_, fun ys he y hy => ?_⟩
    · simp [Tree.Fits] at hf
    · cases he; exact (ih y hy).1
  | variant u x ih =>
    refine ⟨fun hf => ?_, fun xs he => by cases he⟩
    have hen : (Tree.variant u x).enc (.pdf c.bigEndian) .V = x.enc (.pdf c.bigEndian) u ++ 0 :: u.show := by
      simp [Tree.enc, Tree.flat, Spec.enc]
    rw [hen]
    have hu := show_pos u
    by_cases hav : u = .A .V
    · subst hav
      have hsh : Ty.show (.A .V) = [97, 118] := rfl
      simp only [Tree.Fits, true_and] at hf
      cases x with
      | arr xs =>
        have hc := ih.2 xs rfl
        simp only [Tree.Fits] at hf
        have hfe := fitsEach_iff.1 hf
        have hb : (Tree.arr xs).enc (.pdf c.bigEndian) (.A .V) =
            encArr (.pdf c.bigEndian) .V (xs.map fun y => y.enc (.pdf c.bigEndian) .V) := by
          simp [Tree.enc, Tree.flat, Spec.enc, Spec.size, flatAll_eq, List.map_map, Function.comp_def]
        have hcount := encArr_count (.pdf c.bigEndian) .V (xs.map fun y => y.enc (.pdf c.bigEndian) .V)
        rw [← hb] at hcount
        have hsum : ∀ l : List Tree, (∀ y ∈ l, y ∈ xs) →
            2 * chainedAll l ≤ ((l.map fun y => y.enc (.pdf c.bigEndian) .V).map List.length).sum := by
          intro l
          induction l with
          | nil => intro _; simp [chainedAll]
          | cons y l ihl =>
            intro h
            have h1 := (hc y (h y (by simp)) (hfe y (h y (by simp)))).1
            have h2 := ihl fun z hz => h z (by simp [hz])
            simp only [chainedAll, List.map_cons, List.sum_cons]
            omega
        have hs := hsum xs fun _ h => h
        refine ⟨?_, ?_⟩
        · simp only [chained, List.length_append, hsh, List.length_cons, List.length_nil]
          omega
        · intro f s ha hl hsb hlf
          obtain ⟨f, rfl⟩ : ∃ j, f = j + 1 := ⟨f - 1, by omega⟩
          have hparts : variantParts s.bytes = ([97, 118], (Tree.arr xs).enc (.pdf c.bigEndian) (.A .V)) := by
            rw [hsb]; exact variantParts_append (by decide)
          obtain ⟨a, h1, h8, hab, hlen⟩ := (get_av (c := c) ha).2 (by rw [hparts])
          rw [hparts] at hab
          simp only at hab
          have hal : a.len < 2 ^ 63 := by omega
          have hrefs := arrRefs_laid (c := c) (be := c.bigEndian) (e := .V)
            (bs := xs.map fun y => y.enc (.pdf c.bigEndian) .V) (a := a.addr) (by decide) rfl h8
            (by intros; rfl) (by rw [← hb, ← hab]; exact hal)
          rw [← hb, ← hab] at hrefs
          have hpl := placed_mem a.addr ((xs.map fun y => y.enc (.pdf c.bigEndian) .V).map fun b => (Ty.V, b)) 0
            (by simp) h8
          have hfew := refs_av h8 hal hrefs
          have hall : List.Forall₂ (fun x r => 8 ∣ r.addr ∧ r.len ≤ a.len ∧ r.bytes = Tree.enc (.pdf c.bigEndian) .V x)
              xs (GV.placed a.addr 0 ((xs.map fun y => y.enc (.pdf c.bigEndian) .V).map fun b => (Ty.V, b))) := by
            rw [List.map_map, List.forall₂_map_left_iff] at hpl
            rw [List.map_map] at hfew ⊢
            rw [List.forall₂_iff_get] at hpl ⊢
            refine ⟨hpl.1, fun i h1 h2 => ?_⟩
            have := hpl.2 i h1 h2
            have g := hfew _ (List.get_mem _ ⟨i, h2⟩)
            exact ⟨this.1, by omega, this.2⟩
          have htr := descend_all (c := c) (f := f) (L := a.len) (by omega) hal xs _
            (fun y hy => ⟨hfe y hy, hc y hy⟩) hall
          simp only [descend, h1, Res.bind_ok, hrefs, htr, Res.pure_eq, chained, chainedAll_eq]
      | _ => simp [Tree.Fits, numWidth, isStr] at hf
    · have hch : chained (.variant u x) = 1 := chained_other hav x
      rw [hch]
      refine ⟨by simp only [List.length_append, List.length_cons]; omega, ?_⟩
      intro f s ha hl hsb hlf
      obtain ⟨f, rfl⟩ : ∃ j, f = j + 1 := ⟨f - 1, by omega⟩
      refine descend_leaf ha ?_ f
      rw [hsb, variantParts_append (show_noNul u)]
      intro h
      exact hav (c01_show_injective _ _ h)

end GV
