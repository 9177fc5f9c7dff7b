import Verif.Spec.Source
import Verif.Proofs.RustLayout
import Verif.Proofs.Str
/-
Lengths of encodings, and which sources stand for which values.
-/
namespace GV
open Spec

theorem leBytes_length (w n : Nat) : (leBytes w n).length = w := by
  induction w generalizing n with
  | zero => rfl
  | succ w ih => simp [leBytes, ih]

theorem numBytes_length (be : Bool) (w n : Nat) : (numBytes be w n).length = w := by
  unfold numBytes; split <;> simp [leBytes_length]

@[simp] theorem zeros_length (n : Nat) : (zeros n).length = n := by simp [zeros]

theorem frames_length (body : Nat) (offs : List Nat) :
    (frames body offs).length = offs.length * frameWidth body offs.length := by
  unfold frames
  generalize frameWidth body offs.length = w
  induction offs with
  | nil => simp
  | cons o os ih =>
    simp only [List.map_cons, List.flatten_cons, List.length_append, ih, leBytes_length,
      List.length_cons, Nat.succ_mul]
    omega

/-- Members placed from `pos` on end at `pos + length`. -/
theorem laid_cons_length (pos : Nat) (t : Ty) (b : Bytes) (ms : List (Ty × Bytes)) :
    pos + (laid pos ((t, b) :: ms)).length =
      (roundUp pos (Spec.align t) + b.length) + (laid (roundUp pos (Spec.align t) + b.length) ms).length := by
  have := le_roundUp (specAlign_isAl t).pos pos
  simp only [laid, List.length_append, zeros_length]
  omega

theorem laid_mem_length {ms : List (Ty × Bytes)} : ∀ {pos : Nat}, ∀ m ∈ ms,
    m.2.length ≤ (laid pos ms).length := by
  induction ms with
  | nil => simp
  | cons m ms ih =>
    intro pos m' hm'
    obtain ⟨t, b⟩ := m
    simp only [laid, List.length_append, zeros_length]
    rcases List.mem_cons.1 hm' with rfl | h
    · simp only; omega
    · have := ih (pos := roundUp pos (Spec.align t) + b.length) _ h; omega

/-- Fixed-size members end where `endAfter` says. -/
theorem laid_fixed_length {ms : List (Ty × Bytes)}
    (h : ∀ m ∈ ms, size m.1 = some m.2.length) : ∀ pos,
    endAfter pos (ms.map (·.1)) = some (pos + (laid pos ms).length) := by
  induction ms with
  | nil => intro pos; simp [endAfter, laid]
  | cons m ms ih =>
    intro pos
    obtain ⟨t, b⟩ := m
    rw [laid_cons_length]
    have hb := h _ List.mem_cons_self
    simp only at hb
    simp only [List.map_cons, endAfter, hb]
    exact ih (fun m hm => h m (List.mem_cons_of_mem _ hm)) _

theorem encStruct_fixed_length {ts : List Ty} {ms : List (Ty × Bytes)} {n : Nat}
    (ht : ms.map (·.1) = ts) (h : ∀ m ∈ ms, ∀ k, size m.1 = some k → m.2.length = k)
    (hn : size (.tuple ts) = some n) :
    (encStruct (some n) ms).length = n ∧ (∀ m ∈ ms, size m.1 = some m.2.length) ∧
      (laid 0 ms).length ≤ n := by
  obtain ⟨e, he, hsz, _⟩ := size_tuple_members hn
  have hall : ∀ m ∈ ms, size m.1 = some m.2.length := by
    intro m hm
    obtain ⟨k, hk⟩ := Option.isSome_iff_exists.1 (hsz m.1 (ht ▸ List.mem_map_of_mem hm))
    rw [hk, h m hm k hk]
  have := laid_fixed_length hall 0
  rw [ht, he] at this
  have hle := endAfter_le_size hn he
  simp only [Option.some.injEq, Nat.zero_add] at this
  refine ⟨?_, hall, by omega⟩
  simp only [encStruct, List.length_append, zeros_length]
  omega

theorem encAll_types {ts : List Ty} : ∀ {vs : List Val} {E : Enc}, FitsAll ts vs →
    (encAll E ts vs).map (·.1) = ts := by
  induction ts with
  | nil => intro vs E _; cases vs <;> simp [encAll]
  | cons t ts ih =>
    intro vs E h
    cases vs with
    | nil => simp [FitsAll] at h
    | cons v vs => simp only [FitsAll] at h; simp [encAll, ih h.2]

theorem encAll_mem {ts : List Ty} : ∀ {vs : List Val} {E : Enc}, FitsAll ts vs →
    ∀ m ∈ encAll E ts vs, ∃ t ∈ ts, ∃ v ∈ vs, Fits t v ∧ m = (t, enc E t v) := by
  induction ts with
  | nil => intro vs E _ m hm; cases vs <;> simp [encAll] at hm
  | cons t ts ih =>
    intro vs E h m hm
    cases vs with
    | nil => simp [FitsAll] at h
    | cons v vs =>
      simp only [FitsAll] at h
      simp only [encAll, List.mem_cons] at hm
      rcases hm with rfl | hm
      · exact ⟨t, by simp, v, by simp, h.1, rfl⟩
      · obtain ⟨u, hu, x, hx, hf, he⟩ := ih h.2 m hm
        exact ⟨u, by simp [hu], x, by simp [hx], hf, he⟩

/-- Values of a fixed-size type have encodings of that size. -/
theorem enc_length (E : Enc) (t : Ty) : ∀ v n, Fits t v → size t = some n →
    (enc E t v).length = n := by
  induction t using Ty.ind with
  | tuple ts ih =>
    intro v n hf hn
    cases v with
    | tup vs =>
      simp only [Fits] at hf
      rw [enc, hn]
      refine (encStruct_fixed_length (encAll_types hf) ?_ hn).1
      intro m hm k hk
      obtain ⟨t, ht, v, _, hv, rfl⟩ := encAll_mem hf m hm
      exact ih t ht v k hv hk
    | _ => simp [Fits] at hf
  | dict k w ihk ihw =>
    intro v n hf hn
    cases v with
    | tup vs =>
      match vs, hf with
      | [x, y], hf =>
        simp only [Fits] at hf
        rw [enc, hn]
        rw [size_dict_eq] at hn
        refine (encStruct_fixed_length (ts := [k, w]) rfl ?_ hn).1
        intro m hm j hj
        simp only [List.mem_cons, List.not_mem_nil, or_false] at hm
        rcases hm with rfl | rfl
        · exact ihk x j hf.1 hj
        · exact ihw y j hf.2 hj
      | [], hf => simp [Fits] at hf
      | [_], hf => simp [Fits] at hf
      | _ :: _ :: _ :: _, hf => simp [Fits] at hf
    | _ => simp [Fits] at hf
  | s | o | g | v => intro v n _ hn; simp [size] at hn
  | a e _ => intro v n _ hn; simp [size] at hn
  | m e _ => intro v n _ hn; simp [size] at hn
  | _ =>
    intro v n hf hn
    simp only [size, Option.some.injEq] at hn
    cases v <;> simp [Fits] at hf <;> subst hn <;> simp [enc, numBytes_length]

/-! ### Sources -/

/-- Induction over sources. -/
theorem Src.ind {P : Src → Prop} (num : ∀ n, P (.num n)) (bool : ∀ b, P (.bool b))
    (boolRef : ∀ x, P (.boolRef x)) (str : ∀ b, P (.str b)) (strRef : ∀ b, P (.strRef b))
    (variantRef : ∀ a b, P (.variantRef a b)) (wrap : ∀ u x, P x → P (.wrap u x))
    (seq : ∀ xs, (∀ x ∈ xs, P x) → P (.seq xs)) (nothing : P .nothing)
    (just : ∀ x, P x → P (.just x)) (iter : ∀ xs, (∀ x ∈ xs, P x) → P (.iter xs))
    (tup : ∀ xs, (∀ x ∈ xs, P x) → P (.tup xs)) (x : Src) : P x :=
  Src.rec (motive_1 := P) (motive_2 := fun xs => ∀ x ∈ xs, P x)
    num bool boolRef str strRef variantRef wrap seq nothing just iter tup
    (by simp) (by intro h tl ph ptl e he; simp at he; rcases he with rfl | he
                  · exact ph
                  · exact ptl e he) x

theorem acceptsEach_iff {e : Ty} {xs : List Src} : AcceptsEach e xs ↔ ∀ x ∈ xs, Accepts e x := by
  induction xs with
  | nil => simp [AcceptsEach]
  | cons x xs ih => simp [AcceptsEach, ih]

theorem hasNulAny_iff {xs : List Src} : HasNulAny xs ↔ ∃ x ∈ xs, HasNul x := by
  induction xs with
  | nil => simp [HasNulAny]
  | cons x xs ih => simp [HasNulAny, ih]

theorem mendAll_eq (f : Bytes → Bytes) (xs : List Src) : mendAll f xs = xs.map (mend f) := by
  induction xs with
  | nil => rfl
  | cons x xs ih => simp [mendAll, ih]

theorem meaningEach_eq (E : Enc) (e : Ty) (xs : List Src) : meaningEach E e xs = xs.map (meaning E e) := by
  induction xs with
  | nil => rfl
  | cons x xs ih => simp [meaningEach, ih]

theorem mem_wrapsAll {u : Ty} {xs : List Src} : u ∈ wrapsAll xs ↔ ∃ x ∈ xs, u ∈ wraps x := by
  induction xs with
  | nil => simp [wrapsAll]
  | cons x xs ih => simp [wrapsAll, ih]

theorem acceptsAll_length {ts : List Ty} : ∀ {xs : List Src}, AcceptsAll ts xs → ts.length = xs.length := by
  induction ts with
  | nil => intro xs h; cases xs <;> simp [AcceptsAll] at h ⊢
  | cons t ts ih => intro xs h; cases xs <;> simp [AcceptsAll] at h ⊢; exact ih h.2

theorem acceptsAll_mend {f : Bytes → Bytes} {ts : List Ty} : ∀ {xs : List Src},
    (∀ x ∈ xs, ∀ t, Accepts t x → Accepts t (mend f x)) → AcceptsAll ts xs →
    AcceptsAll ts (xs.map (mend f)) := by
  induction ts with
  | nil => intro xs _ h; cases xs <;> simp [AcceptsAll] at h ⊢
  | cons t ts ih =>
    intro xs hx h
    cases xs with
    | nil => simp [AcceptsAll] at h
    | cons x xs =>
      simp only [AcceptsAll, List.map_cons] at h ⊢
      exact ⟨hx x (by simp) t h.1, ih (fun y hy => hx y (by simp [hy])) h.2⟩

theorem accepts_mend {f : Bytes → Bytes} (hf : ∀ b, Text (f b)) (x : Src) : ∀ t, Accepts t x →
    Accepts t (mend f x) := by
  induction x using Src.ind with
  | str b =>
    intro t h
    simp only [mend, Accepts] at h ⊢
    refine ⟨h.1, ?_⟩
    split
    · exact (hf b).1
    · exact h.2
  | wrap u x ih => intro t h; simp only [mend, Accepts] at h ⊢; exact ⟨h.1, ih u h.2⟩
  | seq xs ih =>
    intro t h
    simp only [mend, mendAll_eq]
    cases t with
    | A e =>
      simp only [Accepts, acceptsEach_iff, List.mem_map] at h ⊢
      rintro _ ⟨x, hx, rfl⟩
      exact ih x hx e (h x hx)
    | _ => simp [Accepts] at h
  | just x ih =>
    intro t h
    cases t with
    | M e => simp only [mend, Accepts] at h ⊢; exact ih e h
    | _ => simp [Accepts] at h
  | iter xs ih =>
    intro t h
    simp only [mend, mendAll_eq]
    cases t with
    | M e =>
      simp only [Accepts, acceptsEach_iff, List.mem_map] at h ⊢
      refine ⟨h.1, ?_⟩
      rintro _ ⟨x, hx, rfl⟩
      exact ih x hx e (h.2 x hx)
    | _ => simp [Accepts] at h
  | tup xs ih =>
    intro t h
    simp only [mend, mendAll_eq]
    cases t with
    | tuple ts => simp only [Accepts] at h ⊢; exact acceptsAll_mend ih h
    | dict k v => simp only [Accepts] at h ⊢; exact acceptsAll_mend ih h
    | _ => simp [Accepts] at h
  | _ => intro t h; simpa [mend] using h

theorem noNul_mend {f : Bytes → Bytes} (hf : ∀ b, Text (f b)) (x : Src) : ¬ HasNul (mend f x) := by
  induction x using Src.ind with
  | str b =>
    simp only [mend, HasNul]
    split
    · exact (hf b).2
    · assumption
  | wrap u x ih => simpa [mend, HasNul] using ih
  | seq xs ih =>
    simp only [mend, mendAll_eq, HasNul, hasNulAny_iff, List.mem_map]
    rintro ⟨_, ⟨x, hx, rfl⟩, h⟩
    exact ih x hx h
  | just x ih => simpa [mend, HasNul] using ih
  | iter xs ih =>
    cases xs with
    | nil => simp [mend, mendAll, HasNul]
    | cons x xs => simpa [mend, mendAll, HasNul] using ih x (by simp)
  | tup xs ih =>
    simp only [mend, mendAll_eq, HasNul, hasNulAny_iff, List.mem_map]
    rintro ⟨_, ⟨x, hx, rfl⟩, h⟩
    exact ih x hx h
  | _ => simp [mend, HasNul]

theorem mend_meaning {f : Bytes → Bytes} {E : Enc} (x : Src) : ¬ HasNul x → ∀ t,
    meaning E t (mend f x) = meaning E t x := by
  have hAll : ∀ (xs : List Src), (∀ x ∈ xs, ¬ HasNul x → ∀ t, meaning E t (mend f x) = meaning E t x) →
      (¬ ∃ x ∈ xs, HasNul x) → ∀ ts, meaningAll E ts (xs.map (mend f)) = meaningAll E ts xs := by
    intro xs
    induction xs with
    | nil => intro _ _ ts; cases ts <;> simp [meaningAll]
    | cons x xs ihx =>
      intro ih h ts
      cases ts with
      | nil => simp [meaningAll]
      | cons t ts =>
        simp only [List.map_cons, meaningAll]
        rw [ih x (by simp) (fun hx => h ⟨x, by simp, hx⟩) t,
          ihx (fun y hy => ih y (by simp [hy])) (fun ⟨y, hy, hn⟩ => h ⟨y, by simp [hy], hn⟩) ts]
  induction x using Src.ind with
  | str b => intro h t; simp only [HasNul] at h; simp [mend, h]
  | wrap u x ih => intro h t; simp only [HasNul] at h; simp only [mend, meaning, ih h u]
  | seq xs ih =>
    intro h t
    simp only [HasNul, hasNulAny_iff] at h
    cases t with
    | A e =>
      simp only [mend, mendAll_eq, meaning, meaningEach_eq, List.map_map, Val.arr.injEq]
      exact List.map_congr_left fun x hx => ih x hx (fun hn => h ⟨x, hx, hn⟩) e
    | _ => simp [mend, meaning]
  | just x ih =>
    intro h t
    simp only [HasNul] at h
    cases t with
    | M e => simp only [mend, meaning, ih h e]
    | _ => simp [mend, meaning]
  | iter xs ih =>
    intro h t
    cases xs with
    | nil => simp [mend, mendAll]
    | cons x xs =>
      simp only [HasNul] at h
      cases t with
      | M e => simp only [mend, mendAll, meaning, ih x (by simp) h e]
      | _ => simp [mend, meaning]
  | tup xs ih =>
    intro h t
    simp only [HasNul, hasNulAny_iff] at h
    cases t with
    | tuple ts => simp only [mend, mendAll_eq, meaning, hAll xs ih h ts]
    | dict k v => simp only [mend, mendAll_eq, meaning, hAll xs ih h [k, v]]
    | _ => simp [mend, meaning]
  | _ => intro _ t; rfl

theorem fitsAll_meaning {E : Enc} {xs : List Src}
    (ih : ∀ x ∈ xs, ∀ t, Accepts t x → ¬ HasNul x → Fits t (meaning E t x)) :
    (¬ ∃ x ∈ xs, HasNul x) → ∀ ts, AcceptsAll ts xs → FitsAll ts (meaningAll E ts xs) := by
  induction xs with
  | nil => intro _ ts h; cases ts <;> simp [AcceptsAll, FitsAll, meaningAll] at h ⊢
  | cons x xs ihx =>
    intro h ts ha
    cases ts with
    | nil => simp [AcceptsAll] at ha
    | cons t ts =>
      simp only [AcceptsAll] at ha
      simp only [meaningAll, FitsAll]
      exact ⟨ih x (by simp) t ha.1 fun hn => h ⟨x, by simp, hn⟩,
        ihx (fun y hy => ih y (by simp [hy])) (fun ⟨y, hy, hn⟩ => h ⟨y, by simp [hy], hn⟩) ts ha.2⟩

theorem variantParts_noNul (b : Bytes) : (0 : UInt8) ∉ (variantParts b).1 := by
  unfold variantParts
  split
  · simp
  · simp only [List.mem_reverse]
    intro h
    have := List.all_takeWhile (p := (· ≠ (0 : UInt8))) (l := b.reverse)
    rw [List.all_eq_true] at this
    simpa using this 0 h

theorem shows_noNul {ts : List Ty} (h : ∀ t ∈ ts, (0 : UInt8) ∉ t.show) : (0 : UInt8) ∉ Ty.shows ts := by
  induction ts with
  | nil => simp [Ty.shows]
  | cons t ts ih =>
    simp only [Ty.shows, List.mem_append, not_or]
    exact ⟨h t (by simp), ih fun u hu => h u (by simp [hu])⟩

theorem show_noNul (t : Ty) : (0 : UInt8) ∉ t.show := by
  induction t using Ty.ind with
  | tuple ts ih => simp [Ty.show, shows_noNul ih]
  | dict k v ihk ihv => simp [Ty.show, ihk, ihv]
  | a e ih => simp [Ty.show, ih]
  | m e ih => simp [Ty.show, ih]
  | _ => simp [Ty.show]

/-- A source that type-checks and contains no NUL stands for a value of the type. -/
theorem fits_meaning (E : Enc) (x : Src) : ∀ t, Accepts t x → ¬ HasNul x →
    Fits t (meaning E t x) := by
  induction x using Src.ind with
  | num n =>
    intro t ⟨w, hw, hn⟩ _
    cases t <;> simp [numWidth] at hw <;> subst hw <;> simpa [meaning, Fits] using hn
  | bool b => intro t h _; simp only [Accepts] at h; subst h; simp [meaning, Fits]
  | boolRef b => intro t h _; simp only [Accepts] at h; subst h; simp [meaning, Fits]
  | str b =>
    intro t ⟨h, hu⟩ hn
    simp only [HasNul] at hn
    have : Text b := ⟨hu, hn⟩
    cases t <;> simp [isStr] at h <;> simpa [meaning, Fits] using this
  | strRef b =>
    intro t h _
    have : Text (text (Rules.crate false) b) := by
      unfold text
      split
      · simp only [Rules.crate, if_true]
        split
        · rename_i h; exact ⟨(utf8Valid_iff _).1 h.1, h.2⟩
        · exact ⟨⟨[], by simp, rfl⟩, by simp⟩
      · exact ⟨⟨[], by simp, rfl⟩, by simp⟩
    simp only [Accepts] at h
    cases t <;> simp [isStr] at h <;> simpa [meaning, Fits] using this
  | variantRef a b =>
    intro t h _
    simp only [Accepts] at h
    rw [h.1]
    simpa [meaning, Fits] using variantParts_noNul b
  | wrap u x ih =>
    intro t h _
    simp only [Accepts] at h
    rw [h.1]
    simpa [meaning, Fits] using show_noNul u
  | seq xs ih =>
    intro t h hn
    cases t with
    | A e =>
      simp only [Accepts, acceptsEach_iff] at h
      simp only [HasNul, hasNulAny_iff] at hn
      simp only [meaning, Fits, meaningEach_eq, List.mem_map]
      rintro _ ⟨x, hx, rfl⟩
      exact ih x hx e (h x hx) fun hh => hn ⟨x, hx, hh⟩
    | _ => simp [Accepts] at h
  | nothing => intro t h _; cases t <;> simp [Accepts] at h; simp [meaning, Fits]
  | just x ih =>
    intro t h hn
    cases t with
    | M e =>
      simp only [Accepts] at h
      simp only [HasNul] at hn
      simpa [meaning, Fits] using ih e h hn
    | _ => simp [Accepts] at h
  | iter xs ih =>
    intro t h hn
    cases t with
    | M e =>
      simp only [Accepts, acceptsEach_iff] at h
      cases xs with
      | nil => simp [meaning, Fits]
      | cons x xs =>
        simp only [HasNul] at hn
        simpa [meaning, Fits] using ih x (by simp) e (h.2 x (by simp)) hn
    | _ => simp [Accepts] at h
  | tup xs ih =>
    intro t h hn
    simp only [HasNul, hasNulAny_iff] at hn
    cases t with
    | tuple ts =>
      simp only [Accepts] at h
      simpa [meaning, Fits] using fitsAll_meaning ih hn ts h
    | dict k v =>
      simp only [Accepts] at h
      have := fitsAll_meaning ih hn [k, v] h
      match xs, h with
      | [x, y], _ => simpa [meaning, Fits, meaningAll, FitsAll] using this
      | [], h => simp [AcceptsAll] at h
      | [_], h => simp [AcceptsAll] at h
      | _ :: _ :: _ :: _, h => simp [AcceptsAll] at h
    | _ => simp [Accepts] at h

end GV
