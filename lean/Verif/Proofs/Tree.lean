import Verif.Spec.Tree
import Verif.Props.C75
import Verif.Props.C77
/-
Lemmas on values in which variants hold values.
-/
namespace GV.Props
open GV Spec

/-- Induction over such values. -/
theorem Tree.ind {P : Tree → Prop} (bool : ∀ b, P (.bool b)) (num : ∀ n, P (.num n)) (str : ∀ b, P (.str b))
    (variant : ∀ u x, P x → P (.variant u x)) (arr : ∀ xs, (∀ x ∈ xs, P x) → P (.arr xs)) (nothing : P .nothing)
    (just : ∀ x, P x → P (.just x)) (tup : ∀ xs, (∀ x ∈ xs, P x) → P (.tup xs)) (x : Tree) : P x :=
  Tree.rec (motive_1 := P) (motive_2 := fun xs => ∀ x ∈ xs, P x) bool num str variant arr nothing just tup
    (by simp) (by intro h tl ph ptl e he; simp at he; rcases he with rfl | he
                  · exact ph
                  · exact ptl e he) x

/-- Induction over values. -/
theorem Val.ind {P : Val → Prop} (bool : ∀ b, P (.bool b)) (num : ∀ n, P (.num n)) (str : ∀ b, P (.str b))
    (variant : ∀ ty d, P (.variant ty d)) (arr : ∀ xs, (∀ x ∈ xs, P x) → P (.arr xs)) (nothing : P .nothing)
    (just : ∀ x, P x → P (.just x)) (tup : ∀ xs, (∀ x ∈ xs, P x) → P (.tup xs)) (x : Val) : P x :=
  Val.rec (motive_1 := P) (motive_2 := fun xs => ∀ x ∈ xs, P x) bool num str variant arr nothing just tup
    (by simp) (by intro h tl ph ptl e he; simp at he; rcases he with rfl | he
                  · exact ph
                  · exact ptl e he) x

theorem flatAll_eq (E : Enc) (xs : List Tree) : Tree.flatAll E xs = xs.map (Tree.flat E) := by
  induction xs with
  | nil => rfl
  | cons x xs ih => simp [Tree.flatAll, ih]

theorem fitsEach_iff {e : Ty} {xs : List Tree} : Tree.FitsEach e xs ↔ ∀ x ∈ xs, Tree.Fits e x := by
  induction xs with
  | nil => simp [Tree.FitsEach]
  | cons x xs ih => simp [Tree.FitsEach, ih]

theorem treeFitsAll_get : ∀ {ts : List Ty} {xs : List Tree}, Tree.FitsAll ts xs →
    ∀ {i : Nat} {t : Ty} {x : Tree}, ts[i]? = some t → xs[i]? = some x → Tree.Fits t x
  | [], [], _, _, _, _, h, _ => by simp at h
  | [], _ :: _, h, _, _, _, _, _ => by simp [Tree.FitsAll] at h
  | _ :: _, [], h, _, _, _, _, _ => by simp [Tree.FitsAll] at h
  | t :: ts, x :: xs, h, 0, _, _, h1, h2 => by
    simp only [List.getElem?_cons_zero, Option.some.injEq] at h1 h2
    subst h1 h2
    exact h.1
  | t :: ts, x :: xs, h, i + 1, _, _, h1, h2 => by
    simp only [List.getElem?_cons_succ] at h1 h2
    exact treeFitsAll_get h.2 h1 h2

/-- Flattening keeps the type. -/
theorem flat_fits (E : Enc) (x : Tree) : ∀ t, Tree.Fits t x → Fits t (x.flat E) := by
  have hAll : ∀ (xs : List Tree), (∀ x ∈ xs, ∀ t, Tree.Fits t x → Fits t (x.flat E)) →
      ∀ ts, Tree.FitsAll ts xs → FitsAll ts (Tree.flatAll E xs) := by
    intro xs
    induction xs with
    | nil => intro _ ts h; cases ts <;> simp_all [Tree.FitsAll, Tree.flatAll, FitsAll]
    | cons x xs ih =>
      intro h ts hf
      cases ts with
      | nil => simp [Tree.FitsAll] at hf
      | cons t ts =>
        simp only [Tree.FitsAll] at hf
        simp only [Tree.flatAll, FitsAll]
        exact ⟨h x (by simp) t hf.1, ih (fun y hy => h y (by simp [hy])) ts hf.2⟩
  induction x using Tree.ind with
  | bool b => intro t h; simp only [Tree.Fits] at h; subst h; simp [Tree.flat, Fits]
  | num n =>
    intro t h
    simp only [Tree.Fits] at h
    obtain ⟨w, hw, hn⟩ := h
    cases t <;> simp only [numWidth, Option.some.injEq, reduceCtorEq] at hw <;> subst hw <;>
      simp only [Tree.flat, Fits] <;> simpa using hn
  | str b =>
    intro t h
    simp only [Tree.Fits] at h
    obtain ⟨hs, ht⟩ := h
    cases t <;> simp [isStr] at hs <;> simpa [Tree.flat, Fits] using ht
  | variant u x _ =>
    intro t h
    simp only [Tree.Fits] at h
    obtain ⟨rfl, _⟩ := h
    simp only [Tree.flat, Fits]
    exact show_noNul u
  | arr xs ih =>
    intro t h
    cases t <;> simp only [Tree.Fits] at h
    simp only [Tree.flat, Fits, flatAll_eq, List.mem_map]
    rintro v ⟨x, hx, rfl⟩
    exact ih x hx _ (fitsEach_iff.1 h x hx)
  | nothing => intro t h; cases t <;> simp only [Tree.Fits] at h; simp [Tree.flat, Fits]
  | just x ih =>
    intro t h
    cases t <;> simp only [Tree.Fits] at h
    simp only [Tree.flat, Fits]
    exact ih _ h
  | tup xs ih =>
    intro t h
    cases t <;> simp only [Tree.Fits] at h
    · simp only [Tree.flat, Fits]
      exact hAll xs ih _ h
    · have := hAll xs ih _ h
      simp only [Tree.flat]
      generalize Tree.flatAll E xs = vs at this
      match vs, this with
      | [a, b], this => simpa [FitsAll, Fits] using this

/-- A step into a value is a step into the flattened value, if `rd` reads what variants hold. -/
theorem child_flat {E : Enc} {rd : Ty → Bytes → Option Val} {t u : Ty} {x y : Tree} {s : Step}
    (hf : x.Fits t) (h : x.child t s = some (u, y))
    (hr : ∀ w, s = .inside w → rd u (enc E u (y.flat E)) = some (y.flat E)) :
    y.Fits u ∧ Spec.follow rd t (x.flat E) [s] = some (u, y.flat E) := by
  unfold Tree.child at h
  split at h
  · rename_i e xs i
    simp only [Option.map_eq_some_iff, Prod.mk.injEq] at h
    obtain ⟨z, hz, rfl, rfl⟩ := h
    simp only [Tree.Fits] at hf
    refine ⟨fitsEach_iff.1 hf z (List.mem_of_getElem? hz), ?_⟩
    simp [Tree.flat, flatAll_eq, Spec.follow, hz]
  · simp only [Option.some.injEq, Prod.mk.injEq] at h
    obtain ⟨rfl, rfl⟩ := h
    simp only [Tree.Fits] at hf
    exact ⟨hf, by simp [Tree.flat, Spec.follow]⟩
  · rename_i ts xs i
    simp only [Option.bind_eq_some_iff, Option.map_eq_some_iff, Prod.mk.injEq] at h
    obtain ⟨t', ht, z, hz, rfl, rfl⟩ := h
    simp only [Tree.Fits] at hf
    exact ⟨treeFitsAll_get hf ht hz, by simp [Tree.flat, flatAll_eq, Spec.follow, hz, ht]⟩
  · rename_i k v xs i
    simp only [Option.bind_eq_some_iff, Option.map_eq_some_iff, Prod.mk.injEq] at h
    obtain ⟨t', ht, z, hz, rfl, rfl⟩ := h
    simp only [Tree.Fits] at hf
    exact ⟨treeFitsAll_get hf ht hz, by simp [Tree.flat, flatAll_eq, Spec.follow, hz, ht]⟩
  · rename_i u' z u''
    split at h
    · rename_i he
      subst he
      simp only [Option.some.injEq, Prod.mk.injEq] at h
      obtain ⟨rfl, rfl⟩ := h
      simp only [Tree.Fits] at hf
      refine ⟨hf.2, ?_⟩
      simp [Tree.flat, Spec.follow, hr _ rfl]
    · cases h
  · cases h

theorem follow_cons {rd : Ty → Bytes → Option Val} {t : Ty} {v : Val} {s : Step} {p : List Step} :
    Spec.follow rd t v (s :: p) = (Spec.follow rd t v [s]).bind fun (u, w) => Spec.follow rd u w p := by
  cases s with
  | elem i =>
    cases t with
    | A e => cases v with
      | arr vs => simp only [Spec.follow]; cases vs[i]? <;> simp
      | _ => simp [Spec.follow]
    | _ => simp [Spec.follow]
  | content =>
    cases t with
    | M e => cases v with
      | just w => simp only [Spec.follow]; simp
      | _ => simp [Spec.follow]
    | _ => simp [Spec.follow]
  | member i =>
    cases t with
    | tuple ts => cases v with
      | tup vs => simp only [Spec.follow]; cases ts[i]? <;> cases vs[i]? <;> simp
      | _ => simp [Spec.follow]
    | dict k x => cases v with
      | tup vs => simp only [Spec.follow]; cases [k, x][i]? <;> cases vs[i]? <;> simp
      | _ => simp [Spec.follow]
    | _ => simp [Spec.follow]
  | inside u =>
    cases t with
    | V => cases v with
      | variant ty d =>
        simp only [Spec.follow]
        split
        · cases rd u d <;> simp
        · simp
      | _ => simp [Spec.follow]
    | _ => simp [Spec.follow]

/-- The bytes of a part are part of the bytes. -/
theorem child_length {be : Bool} {t u : Ty} {x y : Tree} {s : Step} (hf : x.Fits t) (h : x.child t s = some (u, y)) :
    (y.enc (.pdf be) u).length ≤ (x.enc (.pdf be) t).length := by
  classical
  let rd : Ty → Bytes → Option Val := fun u' d => if u' = u ∧ d = enc (.pdf be) u (y.flat (.pdf be)) then some (y.flat (.pdf be)) else none
  have hc := child_flat (E := .pdf be) (rd := rd) hf h (fun w _ => by simp [rd])
  have hrd : ReadsNormal be rd := by
    intro u' d w hw
    simp only [rd] at hw
    split at hw
    · rename_i hc'
      obtain ⟨rfl, rfl⟩ := hc'
      cases hw
      exact ⟨flat_fits _ y _ hc.1, rfl⟩
    · cases hw
  obtain ⟨_, o, _, ho, _⟩ := spot_sub hrd [s] t _ u _ (flat_fits (.pdf be) x t hf) hc.2
  unfold Tree.enc
  omega

/-- `rd` reads the encodings of all values of types that `gv!` can be given. -/
def Opens (be : Bool) (rd : Ty → Bytes → Option Val) : Prop :=
  ∀ u w, Expands u → Small u → Fits u w → (enc (.pdf be) u w).length < 2 ^ 63 → rd u (enc (.pdf be) u w) = some w

/-- A path into a value is a path into the flattened value. -/
theorem follow_flat {be : Bool} {rd : Ty → Bytes → Option Val} (hr : Opens be rd) : ∀ (p : List Step) (t u : Ty)
    (x y : Tree), Proper p → x.Fits t → (x.enc (.pdf be) t).length < 2 ^ 63 → x.follow t p = some (u, y) →
    y.Fits u ∧ Spec.follow rd t (x.flat (.pdf be)) p = some (u, y.flat (.pdf be)) := by
  intro p
  induction p with
  | nil =>
    intro t u x y _ hf _ h
    simp only [Tree.follow, Option.some.injEq, Prod.mk.injEq] at h
    obtain ⟨rfl, rfl⟩ := h
    exact ⟨hf, by simp [Spec.follow]⟩
  | cons s p ih =>
    intro t u x y hp hf hl h
    simp only [Tree.follow, Option.bind_eq_some_iff, Prod.exists] at h
    obtain ⟨t', z, hz, h⟩ := h
    have hl' := child_length (be := be) hf hz
    have hzf : z.Fits t' := (child_flat (E := .pdf be) (rd := fun _ _ => some (z.flat (.pdf be))) hf hz
      (fun _ _ => rfl)).1
    have hc := child_flat (E := .pdf be) (rd := rd) hf hz (fun w hw => by
      subst hw
      have hu : t' = w := by
        unfold Tree.child at hz
        split at hz <;> simp_all
      subst hu
      have := hp t' (by simp)
      exact hr t' _ this.1 this.2 (flat_fits _ z _ hzf) (by unfold Tree.enc at hl'; unfold Tree.enc at hl; omega))
    have := ih t' u z y (fun w hw => hp w (by simp [hw])) hc.1 (by omega) h
    refine ⟨this.1, ?_⟩
    rw [follow_cons, hc.2]
    exact this.2

/-- And a path into the flattened value is a path into the value. -/
theorem flat_follow {be : Bool} {rd : Ty → Bytes → Option Val} (hr : Opens be rd) : ∀ (p : List Step) (t u : Ty)
    (x : Tree) (w : Val), Proper p → x.Fits t → (x.enc (.pdf be) t).length < 2 ^ 63 →
    Spec.follow rd t (x.flat (.pdf be)) p = some (u, w) → ∃ y, x.follow t p = some (u, y) ∧ w = y.flat (.pdf be) := by
  intro p
  induction p with
  | nil =>
    intro t u x w _ _ _ h
    simp only [Spec.follow, Option.some.injEq, Prod.mk.injEq] at h
    obtain ⟨rfl, rfl⟩ := h
    exact ⟨x, by simp [Tree.follow], rfl⟩
  | cons s p ih =>
    intro t u x w hp hf hl h
    rw [follow_cons, Option.bind_eq_some_iff] at h
    obtain ⟨⟨t', v⟩, hv, h⟩ := h
    have key : ∃ z, x.child t s = some (t', z) ∧ v = z.flat (.pdf be) := by
      cases s with
      | elem i =>
        cases t <;> cases x <;> simp only [Tree.flat, Spec.follow, reduceCtorEq] at hv
        simp only [flatAll_eq, List.getElem?_map, Option.bind_eq_some_iff, Option.map_eq_some_iff,
          Option.some.injEq, Prod.mk.injEq] at hv
        obtain ⟨_, ⟨z, hz, rfl⟩, rfl, rfl⟩ := hv
        exact ⟨z, by simp [Tree.child, hz], rfl⟩
      | content =>
        cases t <;> cases x <;> simp only [Tree.flat, Spec.follow, reduceCtorEq] at hv
        simp only [Option.some.injEq, Prod.mk.injEq] at hv
        obtain ⟨rfl, rfl⟩ := hv
        exact ⟨_, rfl, rfl⟩
      | member i =>
        cases t <;> cases x <;> simp only [Tree.flat, Spec.follow, reduceCtorEq] at hv
        all_goals
          simp only [flatAll_eq, List.getElem?_map, Option.bind_eq_some_iff, Option.map_eq_some_iff,
            Option.some.injEq, Prod.mk.injEq] at hv
          obtain ⟨_, ht, _, ⟨z, hz, rfl⟩, rfl, rfl⟩ := hv
          exact ⟨z, by simp [Tree.child, hz, ht], rfl⟩
      | inside w' =>
        cases t <;> cases x <;> simp only [Tree.flat, Spec.follow, reduceCtorEq] at hv
        rename_i u' z
        split at hv
        · rename_i he
          have := c01_show_injective _ _ he
          subst this
          simp only [Tree.Fits] at hf
          have hpu := hp u' (by simp)
          have hz := child_length (be := be) (s := .inside u') (y := z) (u := u') (x := .variant u' z) (t := .V)
            (by simp [Tree.Fits, hf.2]) (by simp [Tree.child])
          rw [hr u' _ hpu.1 hpu.2 (flat_fits _ z _ hf.2) (by unfold Tree.enc at hz hl; omega)] at hv
          simp only [Option.bind_some, Option.some.injEq, Prod.mk.injEq] at hv
          obtain ⟨rfl, rfl⟩ := hv
          exact ⟨z, by simp [Tree.child], rfl⟩
        · cases hv
    obtain ⟨z, hz, rfl⟩ := key
    have hl' := child_length (be := be) hf hz
    have hzf : z.Fits t' := (child_flat (E := .pdf be) (rd := fun _ _ => some (z.flat (.pdf be))) hf hz
      (fun _ _ => rfl)).1
    obtain ⟨y, hy, rfl⟩ := ih t' u z w (fun w hw => hp w (by simp [hw])) hzf (by omega) h
    exact ⟨y, by simp [Tree.follow, hz, hy], rfl⟩

/-- A variant in a value is at the end of some path. -/
theorem mem_variantsIn (v : Val) : ∀ (t : Ty) (ty d : Bytes), Fits t v → (ty, d) ∈ variantsIn v →
    ∃ p : List Step, (∀ u, Step.inside u ∉ p) ∧ ∀ rd, Spec.follow rd t v p = some (.V, .variant ty d) := by
  have hget : ∀ (vs : List Val) (ty d : Bytes), (ty, d) ∈ variantsInAll vs → ∃ (i : Nat) (v : Val), vs[i]? = some v ∧
      (ty, d) ∈ variantsIn v := by
    intro vs ty d
    induction vs with
    | nil => intro h; simp [variantsInAll] at h
    | cons v vs ih =>
      intro h
      simp only [variantsInAll, List.mem_append] at h
      rcases h with h | h
      · exact ⟨0, v, rfl, h⟩
      · obtain ⟨i, w, h1, h2⟩ := ih h
        exact ⟨i + 1, w, by simpa using h1, h2⟩
  induction v using Val.ind with
  | variant ty' d' =>
    intro t ty d hf h
    simp only [variantsIn, List.mem_singleton, Prod.mk.injEq] at h
    obtain ⟨rfl, rfl⟩ := h
    cases t <;> simp only [Fits] at hf
    exact ⟨[], by simp, fun rd => by simp [Spec.follow]⟩
  | arr vs ih =>
    intro t ty d hf h
    cases t <;> simp only [Fits] at hf
    rename_i e
    obtain ⟨i, w, h1, h2⟩ := hget vs ty d (by simpa [variantsIn] using h)
    have hm := List.mem_of_getElem? h1
    obtain ⟨p, hp, hpf⟩ := ih w hm e ty d (hf w hm) h2
    exact ⟨.elem i :: p, by simpa using hp, fun rd => by simp [Spec.follow, h1, hpf]⟩
  | just w ih =>
    intro t ty d hf h
    cases t <;> simp only [Fits] at hf
    obtain ⟨p, hp, hpf⟩ := ih _ ty d hf (by simpa [variantsIn] using h)
    exact ⟨.content :: p, by simpa using hp, fun rd => by simp [Spec.follow, hpf]⟩
  | tup vs ih =>
    intro t ty d hf h
    obtain ⟨i, w, h1, h2⟩ := hget vs ty d (by simpa [variantsIn] using h)
    have hm := List.mem_of_getElem? h1
    have hlen : ∀ {ts : List Ty} {vs : List Val}, FitsAll ts vs → ts.length = vs.length := by
      intro ts
      induction ts with
      | nil => intro vs h; cases vs <;> simp [FitsAll] at h ⊢
      | cons t ts ih => intro vs h; cases vs <;> simp [FitsAll] at h ⊢; exact ih h.2
    obtain ⟨ts, hts, hff⟩ : ∃ ts, FitsAll ts vs ∧ ∀ rd p, Spec.follow rd t (.tup vs) (.member i :: p) =
        ts[i]?.bind fun t => vs[i]?.bind fun w => Spec.follow rd t w p := by
      cases t <;> first | (exfalso; simp only [Fits] at hf; done) | skip
      · simp only [Fits] at hf
        exact ⟨_, hf, fun rd p => by simp [Spec.follow]⟩
      · exact ⟨_, (fitsAll_two hf).1, fun rd p => by simp only [Spec.follow]⟩
    have hi : i < vs.length := (List.getElem?_eq_some_iff.1 h1).1
    obtain ⟨t', ht⟩ : ∃ t', ts[i]? = some t' := ⟨_, List.getElem?_eq_getElem (by rw [hlen hts]; exact hi)⟩
    obtain ⟨p, hp, hpf⟩ := ih w hm t' ty d (fits_get hts ht h1) h2
    exact ⟨.member i :: p, by simpa using hp, fun rd => by rw [hff]; simp [ht, h1, hpf]⟩
  | _ => intro t ty d _ h; simp [variantsIn] at h

/-- The data of a variant in a value is shorter than the encoding of the value. -/
theorem variantsIn_length {be : Bool} {t : Ty} {v : Val} {ty d : Bytes} (hf : Fits t v)
    (h : (ty, d) ∈ variantsIn v) : d.length < (enc (.pdf be) t v).length := by
  obtain ⟨p, _, hp⟩ := mem_variantsIn v t ty d hf h
  obtain ⟨_, o, _, ho, _⟩ := spot_sub (be := be) (rd := fun _ _ => none) (fun _ _ _ h => by cases h) p t v _ _ hf
    (hp _)
  simp [enc] at ho
  omega

/-- What variants hold in a flattened value. -/
theorem variantsIn_flat {be : Bool} {t : Ty} {x : Tree} {ty d : Bytes} (hf : x.Fits t)
    (hl : (x.enc (.pdf be) t).length < 2 ^ 63) (h : (ty, d) ∈ variantsIn (x.flat (.pdf be))) :
    ∃ (u : Ty) (y : Tree), ty = u.show ∧ y.Fits u ∧ y.enc (.pdf be) u = d := by
  obtain ⟨p, hp, hpf⟩ := mem_variantsIn _ t ty d (flat_fits (.pdf be) x t hf) h
  have hop := (c75_variants { dbg with bigEndian := be }).2
  obtain ⟨y, hy, he⟩ := flat_follow (be := be) hop p t _ x _ (fun u hu => absurd hu (hp u)) hf hl (hpf _)
  have hyf := (follow_flat hop p t _ x y (fun u hu => absurd hu (hp u)) hf hl hy).1
  cases y <;> simp only [Tree.Fits, Tree.flat, Val.variant.injEq, reduceCtorEq] at hyf he
  exact ⟨_, _, he.1, hyf.2, he.2.symm⟩

/-- A value whose variants hold encodings is flattened from one. -/
theorem tree_of_flat {E : Enc} (v : Val) : ∀ t, Fits t v →
    (∀ ty d, (ty, d) ∈ variantsIn v → ∃ (u : Ty) (y : Tree), ty = u.show ∧ y.Fits u ∧ y.enc E u = d) →
    ∃ x : Tree, x.Fits t ∧ x.flat E = v := by
  have hall : ∀ (vs : List Val), (∀ v ∈ vs, ∀ t, Fits t v →
      (∀ ty d, (ty, d) ∈ variantsIn v → ∃ (u : Ty) (y : Tree), ty = u.show ∧ y.Fits u ∧ y.enc E u = d) →
      ∃ x : Tree, x.Fits t ∧ x.flat E = v) → ∀ ts, FitsAll ts vs →
      (∀ ty d, (ty, d) ∈ variantsInAll vs → ∃ (u : Ty) (y : Tree), ty = u.show ∧ y.Fits u ∧ y.enc E u = d) →
      ∃ xs : List Tree, Tree.FitsAll ts xs ∧ Tree.flatAll E xs = vs := by
    intro vs
    induction vs with
    | nil =>
      intro _ ts hf _
      cases ts <;> simp only [FitsAll] at hf
      exact ⟨[], by simp [Tree.FitsAll], rfl⟩
    | cons v vs ih =>
      intro h ts hf hv
      cases ts <;> simp only [FitsAll] at hf
      obtain ⟨x, hx, rfl⟩ := h v (by simp) _ hf.1 (fun ty d hd => hv ty d (by simp [variantsInAll, hd]))
      obtain ⟨xs, hxs, rfl⟩ := ih (fun w hw => h w (by simp [hw])) _ hf.2
        (fun ty d hd => hv ty d (by simp [variantsInAll, hd]))
      exact ⟨x :: xs, by simp [Tree.FitsAll, hx, hxs], by simp [Tree.flatAll]⟩
  induction v using Val.ind with
  | bool b =>
    intro t hf _
    refine ⟨.bool b, ?_, rfl⟩
    cases t <;> simp only [Fits] at hf
    simp [Tree.Fits]
  | num n =>
    intro t hf _
    refine ⟨.num n, ?_, rfl⟩
    cases t <;> simp only [Fits] at hf <;> simpa [Tree.Fits, numWidth] using hf
  | str b =>
    intro t hf _
    refine ⟨.str b, ?_, rfl⟩
    cases t <;> simp only [Fits] at hf <;> simpa [Tree.Fits, isStr] using hf
  | variant ty d =>
    intro t hf hv
    cases t <;> simp only [Fits] at hf
    obtain ⟨u, y, rfl, hy, rfl⟩ := hv ty d (by simp [variantsIn])
    exact ⟨.variant u y, by simp [Tree.Fits, hy], rfl⟩
  | arr vs ih =>
    intro t hf hv
    cases t <;> simp only [Fits] at hf
    rename_i e
    obtain ⟨xs, hxs, hfl⟩ : ∃ xs : List Tree, (∀ x ∈ xs, x.Fits e) ∧ xs.map (Tree.flat E) = vs := by
      simp only [variantsIn] at hv
      clear hall
      induction vs with
      | nil => exact ⟨[], by simp, rfl⟩
      | cons v vs ih' =>
        obtain ⟨x, hx, rfl⟩ := ih v (by simp) e (hf v (by simp)) (fun ty d hd => hv ty d (by simp [variantsInAll, hd]))
        obtain ⟨xs, hxs, rfl⟩ := ih' (fun w hw => ih w (by simp [hw])) (fun ty d hd => hv ty d (by simp [variantsInAll, hd]))
          (fun w hw => hf w (by simp [hw]))
        exact ⟨x :: xs, by simpa using ⟨hx, hxs⟩, by simp⟩
    exact ⟨.arr xs, by simpa [Tree.Fits, fitsEach_iff] using hxs, by simp [Tree.flat, flatAll_eq, hfl]⟩
  | nothing =>
    intro t hf _
    refine ⟨.nothing, ?_, rfl⟩
    cases t <;> simp only [Fits] at hf
    simp [Tree.Fits]
  | just v ih =>
    intro t hf hv
    cases t <;> simp only [Fits] at hf
    obtain ⟨x, hx, rfl⟩ := ih _ hf (fun ty d hd => hv ty d (by simpa [variantsIn] using hd))
    exact ⟨.just x, by simpa [Tree.Fits] using hx, rfl⟩
  | tup vs ih =>
    intro t hf hv
    simp only [variantsIn] at hv
    cases t <;> first | (exfalso; simp only [Fits] at hf; done) | skip
    · simp only [Fits] at hf
      obtain ⟨xs, hxs, rfl⟩ := hall vs ih _ hf hv
      exact ⟨.tup xs, by simpa [Tree.Fits] using hxs, rfl⟩
    · obtain ⟨xs, hxs, rfl⟩ := hall vs ih _ (fitsAll_two hf).1 hv
      exact ⟨.tup xs, by simpa [Tree.Fits] using hxs, rfl⟩

/-- The check for normal form to any depth is exact. -/
theorem cleanTo_iff (be : Bool) : ∀ n t b, b.length < 2 ^ 63 → b.length < n →
    (cleanTo be n t b = true ↔ DeepNormal be t b) := by
  intro n
  induction n with
  | zero => intro t b _ h; omega
  | succ n ih =>
    intro t b hl hn
    have hdec : ∀ v, Fits t v → enc (.pdf be) t v = b → dec (.pdf be) t b = v := by
      rintro v hf rfl
      exact (trip (R := .pdf be) (E := .pdf be) rfl t v hf (by omega)).1.2 (fun h => by cases h)
    simp only [cleanTo, Bool.and_eq_true, List.all_eq_true, Prod.forall]
    rw [clean_iff be t b (by omega)]
    constructor
    · rintro ⟨⟨v, hf, rfl⟩, hv⟩
      rw [hdec v hf rfl] at hv
      obtain ⟨x, hx, rfl⟩ := tree_of_flat (E := .pdf be) v t hf (fun ty d hd => by
        have h1 := hv ty d hd
        have h2 := variantsIn_length (be := be) hf hd
        split at h1
        · rename_i u hu
          rw [ih u d (by omega) (by omega)] at h1
          obtain ⟨y, hy, hd⟩ := h1
          exact ⟨u, y, (one_eq_some_iff _ _).1 hu, hy, hd⟩
        · cases h1)
      exact ⟨x, hx, rfl⟩
    · rintro ⟨x, hx, rfl⟩
      have hf := flat_fits (.pdf be) x t hx
      refine ⟨⟨_, hf, rfl⟩, ?_⟩
      rw [hdec _ hf rfl]
      intro ty d hd
      obtain ⟨u, y, rfl, hy, rfl⟩ := variantsIn_flat (be := be) hx hl hd
      have h2 := variantsIn_length (be := be) hf hd
      have h3 : (enc (.pdf be) t (x.flat (.pdf be))).length = (x.enc (.pdf be) t).length := rfl
      rw [c01_parse_show]
      exact (ih u _ (by omega) (by omega)).2 ⟨y, hy, rfl⟩

/-- Opening all variants gives back the value. -/
theorem treeTo_flat {be : Bool} {rd : Ty → Bytes → Option Val} {P : Ty → Prop}
    (hr : ∀ u w, P u → Fits u w → (enc (.pdf be) u w).length < 2 ^ 63 → rd u (enc (.pdf be) u w) = some w) (x : Tree) :
    ∀ t n, x.Fits t → (∀ u ∈ x.types, P u) → (x.enc (.pdf be) t).length < 2 ^ 63 → (x.enc (.pdf be) t).length ≤ n →
    treeTo rd n (x.flat (.pdf be)) = some x := by
  have hall : ∀ (xs : List Tree) (n : Nat), (∀ x ∈ xs, treeTo rd n (x.flat (.pdf be)) = some x) →
      treesTo rd n (Tree.flatAll (.pdf be) xs) = some xs := by
    intro xs n
    induction xs with
    | nil => intro _; simp [Tree.flatAll, treesTo]
    | cons x xs ih =>
      intro h
      simp [Tree.flatAll, treesTo, h x (by simp), ih fun y hy => h y (by simp [hy])]
  have htypes : ∀ (xs : List Tree) u, u ∈ Tree.typesAll xs ↔ ∃ x ∈ xs, u ∈ x.types := by
    intro xs u
    induction xs with
    | nil => simp [Tree.typesAll]
    | cons x xs ih => simp [Tree.typesAll, ih]
  induction x using Tree.ind with
  | bool b => intro t n _ _ _ _; cases n <;> simp [Tree.flat, treeTo]
  | num b => intro t n _ _ _ _; cases n <;> simp [Tree.flat, treeTo]
  | str b => intro t n _ _ _ _; cases n <;> simp [Tree.flat, treeTo]
  | nothing => intro t n _ _ _ _; cases n <;> simp [Tree.flat, treeTo]
  | variant u x ih =>
    intro t n hf hP hl hn
    simp only [Tree.Fits] at hf
    obtain ⟨rfl, hf⟩ := hf
    have he : (Tree.enc (.pdf be) .V (.variant u x)).length = (x.enc (.pdf be) u).length + 1 + u.show.length := by
      simp [Tree.enc, Tree.flat, enc]
      omega
    cases n with
    | zero => omega
    | succ n =>
      simp only [Tree.flat, treeTo, c01_parse_show]
      have h1 := hr u _ (hP u (by simp [Tree.types])) (flat_fits (.pdf be) x u hf) (by unfold Tree.enc at he hl; omega)
      simp [h1, ih u n hf (fun w hw => hP w (by simp [Tree.types, hw])) (by omega) (by omega)]
  | arr xs ih =>
    intro t n hf hP hl hn
    have : treesTo rd n (Tree.flatAll (.pdf be) xs) = some xs := by
      refine hall xs n fun x hx => ?_
      cases t <;> simp only [Tree.Fits] at hf
      rename_i e
      obtain ⟨i, hi, rfl⟩ := List.getElem_of_mem hx
      have hc : (Tree.arr xs).child (.A e) (.elem i) = some (e, xs[i]) := by simp [Tree.child, hi]
      have hl' := child_length (be := be) (by simpa [Tree.Fits] using hf) hc
      exact ih _ hx e n (fitsEach_iff.1 hf _ hx) (fun u hu => hP u (by
        simp only [Tree.types, htypes]; exact ⟨_, hx, hu⟩)) (by omega) (by omega)
    cases n <;> simp [Tree.flat, treeTo, this]
  | just x ih =>
    intro t n hf hP hl hn
    cases t <;> simp only [Tree.Fits] at hf
    rename_i e
    have hc : (Tree.just x).child (.M e) .content = some (e, x) := by simp [Tree.child]
    have hl' := child_length (be := be) (by simpa [Tree.Fits] using hf) hc
    have := ih e n hf (fun u hu => hP u (by simpa [Tree.types] using hu)) (by omega) (by omega)
    cases n <;> simp [Tree.flat, treeTo, this]
  | tup xs ih =>
    intro t n hf hP hl hn
    have : treesTo rd n (Tree.flatAll (.pdf be) xs) = some xs := by
      refine hall xs n fun x hx => ?_
      have hlen : ∀ {ts : List Ty} {vs : List Tree}, Tree.FitsAll ts vs → ts.length = vs.length := by
        intro ts
        induction ts with
        | nil => intro vs h; cases vs <;> simp [Tree.FitsAll] at h ⊢
        | cons t ts ih => intro vs h; cases vs <;> simp [Tree.FitsAll] at h ⊢; exact ih h.2
      obtain ⟨ts, hts, hch⟩ : ∃ ts, Tree.FitsAll ts xs ∧ ∀ i, (Tree.tup xs).child t (.member i) =
          ts[i]?.bind fun t => xs[i]?.map fun x => (t, x) := by
        cases t <;> simp only [Tree.Fits] at hf <;> exact ⟨_, hf, fun i => rfl⟩
      obtain ⟨i, hi, rfl⟩ := List.getElem_of_mem hx
      have hi' : i < ts.length := by rw [hlen hts]; exact hi
      have hc : (Tree.tup xs).child t (.member i) = some (ts[i], xs[i]) := by simp [hch, hi, hi']
      have hl' := child_length (be := be) hf hc
      exact ih _ hx ts[i] n (treeFitsAll_get hts (List.getElem?_eq_getElem hi') (List.getElem?_eq_getElem hi))
        (fun u hu => hP u (by simp only [Tree.types, htypes]; exact ⟨_, hx, hu⟩)) (by omega) (by omega)
    cases n <;> simp [Tree.flat, treeTo, this]

/-- Values of a type with the same encoding are the same. -/
theorem treeEnc_inj {be : Bool} {t : Ty} {x y : Tree} (hx : x.Fits t) (hy : y.Fits t)
    (hl : (x.enc (.pdf be) t).length < 2 ^ 63) (h : x.enc (.pdf be) t = y.enc (.pdf be) t) : x = y := by
  have hr : ∀ u w, True → Fits u w → (enc (.pdf be) u w).length < 2 ^ 63 →
      (fun u d => some (dec (.pdf be) u d)) u (enc (.pdf be) u w) = some w := by
    intro u w _ hf hl
    exact congrArg some ((trip (R := .pdf be) (E := .pdf be) rfl u w hf (by omega)).1.2 (fun h => by cases h))
  have he := enc_inj (.pdf be) t _ _ (flat_fits _ x t hx) (flat_fits _ y t hy) (by unfold Tree.enc at hl; omega) h
  have h1 := treeTo_flat (rd := fun u d => some (dec (.pdf be) u d)) hr x t _ hx (fun _ _ => trivial) hl (Nat.le_refl _)
  have h2 := treeTo_flat (rd := fun u d => some (dec (.pdf be) u d)) hr y t _ hy (fun _ _ => trivial) (h ▸ hl) (Nat.le_refl _)
  rw [he, h] at h1
  rw [h1] at h2
  exact Option.some.inj h2

theorem wrapOnlyAll_iff {xs : List Src} : WrapOnlyAll xs ↔ ∀ x ∈ xs, WrapOnly x := by
  induction xs with
  | nil => simp [WrapOnlyAll]
  | cons x xs ih => simp [WrapOnlyAll, ih]

theorem sourceTreeEach_eq (e : Ty) (xs : List Src) : sourceTreeEach e xs = xs.map (sourceTree e) := by
  induction xs with
  | nil => rfl
  | cons x xs ih => simp [sourceTreeEach, ih]

/-- The value that a source stands for, flattened, is its meaning. -/
theorem sourceTree_flat (E : Enc) (x : Src) : ∀ t, WrapOnly x → (sourceTree t x).flat E = meaning E t x := by
  have hAll : ∀ (xs : List Src), (∀ x ∈ xs, ∀ t, WrapOnly x → (sourceTree t x).flat E = meaning E t x) →
      ∀ ts, (∀ x ∈ xs, WrapOnly x) → Tree.flatAll E (sourceTreeAll ts xs) = meaningAll E ts xs := by
    intro xs
    induction xs with
    | nil => intro _ ts _; cases ts <;> simp [sourceTreeAll, meaningAll, Tree.flatAll]
    | cons x xs ih =>
      intro h ts hp
      cases ts with
      | nil => simp [sourceTreeAll, meaningAll, Tree.flatAll]
      | cons t ts =>
        simp only [sourceTreeAll, meaningAll, Tree.flatAll]
        rw [h x (by simp) t (hp x (by simp)), ih (fun y hy => h y (by simp [hy])) ts fun y hy => hp y (by simp [hy])]
  induction x using Src.ind with
  | wrap u x ih =>
    intro t hp
    simp only [sourceTree, meaning, Tree.flat]
    rw [ih u (by simpa [WrapOnly] using hp)]
  | variantRef a b => intro t hp; simp [WrapOnly] at hp
  | seq xs ih =>
    intro t hp
    simp only [WrapOnly, wrapOnlyAll_iff] at hp
    cases t <;> simp only [sourceTree, meaning, Tree.flat]
    rw [flatAll_eq, sourceTreeEach_eq, meaningEach_eq, List.map_map]
    congr 1
    exact List.map_congr_left fun x hx => ih x hx _ (hp x hx)
  | just x ih =>
    intro t hp
    simp only [WrapOnly] at hp
    cases t <;> simp only [sourceTree, meaning, Tree.flat]
    rw [ih _ hp]
  | iter xs ih =>
    intro t hp
    simp only [WrapOnly, wrapOnlyAll_iff] at hp
    cases xs with
    | nil => cases t <;> simp only [sourceTree, meaning, Tree.flat]
    | cons x xs =>
      cases t <;> simp only [sourceTree, meaning, Tree.flat]
      rw [ih x (by simp) _ (hp x (by simp))]
  | tup xs ih =>
    intro t hp
    simp only [WrapOnly, wrapOnlyAll_iff] at hp
    cases t <;> simp only [sourceTree, meaning, Tree.flat]
    · rw [hAll xs ih _ hp]
    · rw [hAll xs ih _ hp]
  | _ => intro t _; simp only [sourceTree, meaning, Tree.flat]

theorem sourceTree_fits (x : Src) : ∀ t, Accepts t x → WrapOnly x → ¬ HasNul x → (sourceTree t x).Fits t := by
  have hAll : ∀ (xs : List Src), (∀ x ∈ xs, ∀ t, Accepts t x → WrapOnly x → ¬ HasNul x → (sourceTree t x).Fits t) →
      ∀ ts, AcceptsAll ts xs → (∀ x ∈ xs, WrapOnly x) → (∀ x ∈ xs, ¬ HasNul x) → Tree.FitsAll ts (sourceTreeAll ts xs) := by
    intro xs
    induction xs with
    | nil => intro _ ts h _ _; cases ts <;> simp_all [sourceTreeAll, Tree.FitsAll, AcceptsAll]
    | cons x xs ih =>
      intro h ts ha hp hn
      cases ts with
      | nil => simp [AcceptsAll] at ha
      | cons t ts =>
        simp only [AcceptsAll] at ha
        simp only [sourceTreeAll, Tree.FitsAll]
        exact ⟨h x (by simp) t ha.1 (hp x (by simp)) (hn x (by simp)),
          ih (fun y hy => h y (by simp [hy])) ts ha.2 (fun y hy => hp y (by simp [hy])) fun y hy => hn y (by simp [hy])⟩
  induction x using Src.ind with
  | num n => intro t h _ _; simpa [sourceTree, Tree.Fits, Accepts] using h
  | bool b => intro t h _ _; simpa [sourceTree, Tree.Fits, Accepts] using h
  | boolRef b => intro t h _ _; simpa [sourceTree, Tree.Fits, Accepts] using h
  | str b =>
    intro t h hp hn
    have hf := fits_meaning (.pdf false) (.str b) t h hn
    simp only [Accepts] at h
    simp only [sourceTree, Tree.Fits]
    refine ⟨h.1, ?_⟩
    have h1 := h.1
    cases t <;> simp [isStr] at h1 <;> simpa [meaning, Fits] using hf
  | strRef b =>
    intro t h hp hn
    have hf := fits_meaning (.pdf false) (.strRef b) t h hn
    simp only [Accepts] at h
    simp only [sourceTree, Tree.Fits]
    refine ⟨h, ?_⟩
    cases t <;> simp [isStr] at h <;> simpa [meaning, Fits] using hf
  | variantRef a b => intro t _ hp; simp [WrapOnly] at hp
  | wrap u x ih =>
    intro t h hp hn
    simp only [Accepts] at h
    simp only [sourceTree, Tree.Fits]
    exact ⟨h.1, ih u h.2 (by simpa [WrapOnly] using hp) (by simpa [HasNul] using hn)⟩
  | seq xs ih =>
    intro t h hp hn
    simp only [WrapOnly, wrapOnlyAll_iff] at hp
    simp only [HasNul, hasNulAny_iff, not_exists, not_and] at hn
    cases t <;> simp only [Accepts] at h
    simp only [sourceTree, Tree.Fits, fitsEach_iff, sourceTreeEach_eq, List.mem_map]
    rintro _ ⟨x, hx, rfl⟩
    exact ih x hx _ (acceptsEach_iff.1 h x hx) (hp x hx) (hn x hx)
  | nothing => intro t h _ _; cases t <;> simp only [Accepts] at h; simp [sourceTree, Tree.Fits]
  | just x ih =>
    intro t h hp hn
    cases t <;> simp only [Accepts] at h
    simp only [sourceTree, Tree.Fits]
    exact ih _ h (by simpa [WrapOnly] using hp) (by simpa [HasNul] using hn)
  | iter xs ih =>
    intro t h hp hn
    simp only [WrapOnly, wrapOnlyAll_iff] at hp
    cases t <;> simp only [Accepts] at h
    cases xs with
    | nil => simp [sourceTree, Tree.Fits]
    | cons x xs =>
      simp only [sourceTree, Tree.Fits]
      exact ih x (by simp) _ (acceptsEach_iff.1 h.2 x (by simp)) (hp x (by simp)) (by simpa [HasNul] using hn)
  | tup xs ih =>
    intro t h hp hn
    simp only [WrapOnly, wrapOnlyAll_iff] at hp
    simp only [HasNul, hasNulAny_iff, not_exists, not_and] at hn
    cases t <;> simp only [Accepts] at h <;> simp only [sourceTree, Tree.Fits]
    · exact hAll xs ih _ h hp hn
    · exact hAll xs ih _ h hp hn

/-- The types named in variants are those of the `gv!`s. -/
theorem sourceTree_types (x : Src) : ∀ t, ∀ u ∈ (sourceTree t x).types, u ∈ wraps x := by
  have htypes : ∀ (xs : List Tree) u, u ∈ Tree.typesAll xs ↔ ∃ x ∈ xs, u ∈ x.types := by
    intro xs u
    induction xs with
    | nil => simp [Tree.typesAll]
    | cons x xs ih => simp [Tree.typesAll, ih]
  have hAll : ∀ (xs : List Src), (∀ x ∈ xs, ∀ t, ∀ u ∈ (sourceTree t x).types, u ∈ wraps x) →
      ∀ ts, ∀ u ∈ Tree.typesAll (sourceTreeAll ts xs), u ∈ wrapsAll xs := by
    intro xs
    induction xs with
    | nil => intro _ ts u h; cases ts <;> simp [sourceTreeAll, Tree.typesAll] at h
    | cons x xs ih =>
      intro h ts u hu
      cases ts with
      | nil => simp [sourceTreeAll, Tree.typesAll] at hu
      | cons t ts =>
        simp only [sourceTreeAll, Tree.typesAll, List.mem_append] at hu
        simp only [wrapsAll, List.mem_append]
        exact hu.imp (h x (by simp) t u) (ih (fun y hy => h y (by simp [hy])) ts u)
  induction x using Src.ind with
  | wrap w x ih =>
    intro t u h
    simp only [sourceTree, Tree.types, List.mem_cons] at h
    simp only [wraps, List.mem_cons]
    exact h.imp id (ih w u)
  | seq xs ih =>
    intro t u h
    cases t <;> simp only [sourceTree, Tree.types, List.not_mem_nil] at h
    rw [sourceTreeEach_eq, htypes] at h
    simp only [wraps, mem_wrapsAll]
    obtain ⟨_, hy, hu⟩ := h
    obtain ⟨x, hx, rfl⟩ := List.mem_map.1 hy
    exact ⟨x, hx, ih x hx _ u hu⟩
  | just x ih =>
    intro t u h
    cases t <;> simp only [sourceTree, Tree.types, List.not_mem_nil] at h
    exact ih _ u h
  | iter xs ih =>
    intro t u h
    cases xs with
    | nil => cases t <;> simp [sourceTree, Tree.types] at h
    | cons x xs =>
      cases t <;> simp only [sourceTree, Tree.types, List.not_mem_nil] at h
      simp only [wraps, wrapsAll, List.mem_append]
      exact .inl (ih x (by simp) _ u h)
  | tup xs ih =>
    intro t u h
    cases t <;> simp only [sourceTree, Tree.types, List.not_mem_nil] at h
    · exact hAll xs ih _ u h
    · exact hAll xs ih _ u h
  | _ => intro t u h; simp [sourceTree, Tree.types] at h

end GV.Props
