import Verif.Model.Pretty
import Verif.Proofs.Print
/-
Printing with flags prints the value that reading gives, laid out as in the specification.
-/
namespace GV
open Spec

/-! ### Indentation -/

theorem pad_blanks : ∀ (k : Nat) (z : Bytes), blanks k ++ z ≠ [] →
    padAdapter true (blanks k ++ z) = blanks (k + 4) ++ padAdapter false z := by
  intro k z h
  cases k with
  | zero =>
    cases z with
    | nil => simp [blanks] at h
    | cons x z => rfl
  | succ k =>
    have hk : ∀ k, padAdapter false (blanks k ++ z) = blanks k ++ padAdapter false z := by
      intro k
      induction k with
      | zero => rfl
      | succ k ih =>
        simp only [blanks, List.replicate_succ, List.cons_append, padAdapter] at ih ⊢
        rw [← ih]; rfl
    have := hk k
    simp only [blanks, List.replicate_succ, List.cons_append, padAdapter] at this ⊢
    simp only [show ((32 : UInt8) = 10) = False from by simp, decide_false, this, List.nil_append]

/-- In a line that has begun, `a` comes out as `b`. -/
def Shift (a b : Bytes) : Prop := ∀ y, padAdapter false (a ++ y) = b ++ padAdapter false y

theorem Shift.append {a b a' b' : Bytes} (h : Shift a b) (h' : Shift a' b') : Shift (a ++ a') (b ++ b') := by
  intro y
  rw [List.append_assoc, h, h', List.append_assoc]

theorem shift_line : ∀ {a : Bytes}, 10 ∉ a → Shift a a := by
  intro a
  induction a with
  | nil => intro _ y; rfl
  | cons x a ih =>
    intro h y
    simp only [List.mem_cons, not_or] at h
    have hx : ¬ x = 10 := fun e => h.1 e.symm
    simp only [List.cons_append, padAdapter, hx, decide_false, ih h.2 y]

/-- Texts one by one. -/
inductive ShiftAll : List Bytes → List Bytes → Prop
  | nil : ShiftAll [] []
  | cons {a b : Bytes} {as bs : List Bytes} : Shift a b → ShiftAll as bs → ShiftAll (a :: as) (b :: bs)

theorem shift_lines {d : Nat} {as bs : List Bytes} (h : ShiftAll as bs) (y : Bytes) (hy : y ≠ []) :
    padAdapter true ((as.map fun x => blanks (4 * (d + 1)) ++ x ++ [44, 10]).flatten ++ blanks (4 * d) ++ y) =
      (bs.map fun x => blanks (4 * (d + 1 + 1)) ++ x ++ [44, 10]).flatten ++ blanks (4 * (d + 1)) ++
        padAdapter false y := by
  induction h with
  | nil =>
    simp only [List.map_nil, List.flatten_nil, List.nil_append]
    rw [pad_blanks _ _ (by simp [hy])]
    rfl
  | @cons a b as bs h _ ih =>
    simp only [List.map_cons, List.flatten_cons, List.append_assoc] at ih ⊢
    rw [pad_blanks _ _ (by simp [blanks, Nat.mul_add, List.replicate_succ]), h]
    have : ∀ z, padAdapter false ([44, 10] ++ z) = [44, 10] ++ padAdapter true z := fun z => rfl
    rw [this, ih]
    rfl

theorem shift_block {d : Nat} {l r : UInt8} {as bs : List Bytes} (hl : l ≠ 10) (hr : r ≠ 10) (h : ShiftAll as bs) :
    Shift (block d l r as) (block (d + 1) l r bs) := by
  intro y
  have hl' : ¬ l = 10 := hl
  have hr' : ¬ r = 10 := hr
  cases h with
  | nil => simp [block, padAdapter, hl', hr']
  | @cons a b as bs h1 h2 =>
    have h := ShiftAll.cons h1 h2
    simp only [block, List.cons_ne_nil, if_false]
    have := shift_lines (d := d) h ([r] ++ y) (by simp)
    simp only [List.append_assoc] at this ⊢
    have h0 : ∀ z, padAdapter false ([l, 10] ++ z) = [l, 10] ++ padAdapter true z := by
      intro z; simp [padAdapter, hl']
    rw [h0, this]
    simp [padAdapter, hr']

theorem altEntries_eq {as bs : List Bytes} (h : ShiftAll as bs) :
    altEntries as = (bs.map fun x => blanks 4 ++ x ++ [44, 10]).flatten := by
  induction h with
  | nil => rfl
  | @cons a b as bs h _ ih =>
    simp only [altEntries, List.map_cons, List.flatten_cons, ih]
    have h1 := pad_blanks 0 (a ++ [44, 10]) (by simp [blanks])
    have h2 : blanks 0 ++ (a ++ [44, 10]) = a ++ [44, 10] := rfl
    rw [h2, h] at h1
    rw [h1]
    simp [padAdapter]

/-! ### Texts without line breaks -/

theorem commas_line : ∀ xs : List Bytes, (∀ x ∈ xs, 10 ∉ x) → 10 ∉ commas xs := by
  intro xs
  induction xs with
  | nil => simp [commas]
  | cons x xs ih =>
    intro h
    cases xs with
    | nil => simpa [commas] using h
    | cons y ys =>
      simp only [commas, List.mem_append, not_or]
      exact ⟨⟨h x (by simp), by decide⟩, ih fun z hz => h z (by simp [hz])⟩

theorem brackets_line {xs : List Bytes} (h : ∀ x ∈ xs, 10 ∉ x) : 10 ∉ brackets xs := by
  simp only [brackets, List.mem_append, not_or]
  exact ⟨⟨by decide, commas_line xs h⟩, by decide⟩

theorem parens_line {xs : List Bytes} (h : ∀ x ∈ xs, 10 ∉ x) : 10 ∉ parens xs := by
  unfold parens
  split
  · simp only [List.mem_append, not_or]
    exact ⟨⟨by decide, h _ (by simp)⟩, by decide⟩
  · simp only [List.mem_append, not_or]
    exact ⟨⟨by decide, commas_line xs h⟩, by decide⟩

theorem loose_line {xs : List Bytes} (h : ∀ x ∈ xs, 10 ∉ x) : 10 ∉ looseBrackets xs := by
  simp only [looseBrackets, List.mem_append, not_or]
  refine ⟨⟨by decide, ?_⟩, by decide⟩
  intro hm
  obtain ⟨y, hy, h10⟩ := List.mem_flatten.1 hm
  obtain ⟨x, hx, rfl⟩ := List.mem_map.1 hy
  simp only [List.mem_append] at h10
  rcases h10 with h10 | h10
  · exact h x hx h10
  · revert h10; decide

theorem printAll_line {P : CoreFmt} : ∀ (ts : List Ty) (vs : List Val), (∀ t ∈ ts, ∀ v, 10 ∉ print P t v) →
    ∀ x ∈ printAll P ts vs, 10 ∉ x := by
  intro ts
  induction ts with
  | nil => intro vs _ x hx; simp [printAll] at hx
  | cons t ts ih =>
    intro vs h x hx
    cases vs with
    | nil => simp [printAll] at hx
    | cons v vs =>
      simp only [printAll, List.mem_cons] at hx
      rcases hx with rfl | hx
      · exact h t (by simp) v
      · exact ih vs (fun u hu => h u (by simp [hu])) x hx

theorem print_line {P : CoreFmt} (hn : ∀ t n, 10 ∉ P.num t n) (hs : ∀ b, 10 ∉ P.str b) (t : Ty) :
    ∀ v, 10 ∉ print P t v := by
  induction t using Ty.ind with
  | b => intro v; cases v <;> simp only [print] <;> first | exact hn _ _ | exact hs _ | (rename_i b; cases b <;> decide) | simp
  | y => intro v; cases v <;> simp only [print] <;> first | exact hn _ _ | exact hs _ | simp
  | n => intro v; cases v <;> simp only [print] <;> first | exact hn _ _ | exact hs _ | simp
  | q => intro v; cases v <;> simp only [print] <;> first | exact hn _ _ | exact hs _ | simp
  | i => intro v; cases v <;> simp only [print] <;> first | exact hn _ _ | exact hs _ | simp
  | u => intro v; cases v <;> simp only [print] <;> first | exact hn _ _ | exact hs _ | simp
  | x => intro v; cases v <;> simp only [print] <;> first | exact hn _ _ | exact hs _ | simp
  | t => intro v; cases v <;> simp only [print] <;> first | exact hn _ _ | exact hs _ | simp
  | d => intro v; cases v <;> simp only [print] <;> first | exact hn _ _ | exact hs _ | simp
  | s => intro v; cases v <;> simp only [print] <;> first | exact hn _ _ | exact hs _ | simp
  | o => intro v; cases v <;> simp only [print] <;> first | exact hn _ _ | exact hs _ | simp
  | g => intro v; cases v <;> simp only [print] <;> first | exact hn _ _ | exact hs _ | simp
  | v =>
    intro v
    cases v with
    | variant ty d =>
      simp only [print, List.mem_append, not_or]
      refine ⟨⟨⟨⟨by decide, ?_⟩, by decide⟩, brackets_line ?_⟩, by decide⟩
      · unfold printType
        split
        · exact hs _
        · split
          · exact hs _
          · decide
      · intro x hx
        obtain ⟨k, _, rfl⟩ := List.mem_map.1 hx
        exact hn _ _
    | _ => simp only [print] <;> first | exact hn _ _ | exact hs _ | simp
  | a e ih =>
    intro v
    cases v with
    | arr vs =>
      simp only [print]
      have h : ∀ x ∈ vs.map (print P e), 10 ∉ x := by
        intro x hx
        obtain ⟨w, _, rfl⟩ := List.mem_map.1 hx
        exact ih w
      split
      · exact brackets_line h
      · exact loose_line h
    | _ => simp only [print] <;> first | exact hn _ _ | exact hs _ | simp
  | m e ih =>
    intro v
    cases v with
    | just x =>
      simp only [print, List.mem_append, not_or]
      exact ⟨⟨by decide, ih x⟩, by decide⟩
    | _ => simp only [print]; decide
  | tuple ts ih =>
    intro v
    cases v with
    | tup vs => simp only [print]; exact parens_line (printAll_line ts vs ih)
    | _ => simp only [print] <;> first | exact hn _ _ | exact hs _ | simp
  | dict k l ihk ihl =>
    intro v
    cases v with
    | tup vs =>
      match vs with
      | [x, y] =>
        simp only [print]
        refine parens_line fun z hz => ?_
        simp only [List.mem_cons, List.not_mem_nil, or_false] at hz
        rcases hz with rfl | rfl
        · exact ihk x
        · exact ihl y
      | [] | [_] | _ :: _ :: _ :: _ => simp [print]
    | _ => simp only [print] <;> first | exact hn _ _ | exact hs _ | simp

/-! ### What is inside brackets is indented by four more spaces -/

theorem shift_map {p q : Val → Bytes} (h : ∀ v, Shift (p v) (q v)) (vs : List Val) : ShiftAll (vs.map p) (vs.map q) := by
  induction vs with
  | nil => exact .nil
  | cons v vs ih => exact .cons (h v) ih

theorem shift_members {F : FlagFmt} {P : CoreFmt} {d d' : Nat} : ∀ (ts : List Ty) (vs : List Val),
    (∀ t ∈ ts, ∀ v, Shift (pretty F P d t v) (pretty F P d' t v)) →
    ShiftAll (prettyAll F P d ts vs) (prettyAll F P d' ts vs) := by
  intro ts
  induction ts with
  | nil => intro vs _; simp only [prettyAll]; exact .nil
  | cons t ts ih =>
    intro vs h
    cases vs with
    | nil => simp only [prettyAll]; exact .nil
    | cons v vs =>
      simp only [prettyAll]
      exact .cons (h t (by simp) v) (ih vs fun u hu => h u (by simp [hu]))

theorem shift_pretty {F : FlagFmt} {P : CoreFmt} (hF : F.alt = true) (h1 : OneLine F P) (t : Ty) :
    ∀ d v, Shift (pretty F P d t v) (pretty F P (d + 1) t v) := by
  have hs : ∀ b, Shift (F.str b) (F.str b) := fun b => shift_line (h1.str b)
  have hn : ∀ t n, Shift (F.num t n) (F.num t n) := fun t n => shift_line (h1.num t n)
  have hb : ∀ b, Shift (F.bool b) (F.bool b) := fun b => shift_line (h1.bool b)
  have he : Shift [] [] := fun _ => rfl
  have hp : ∀ t v, Shift (print P t v) (print P t v) := fun t v => shift_line (print_line h1.num' h1.str' t v)
  induction t using Ty.ind with
  | b => intro d v; cases v <;> simp only [pretty] <;> first | exact hb _ | exact hn _ _ | exact hs _ | exact he
  | y => intro d v; cases v <;> simp only [pretty] <;> first | exact hn _ _ | exact hs _ | exact he
  | n => intro d v; cases v <;> simp only [pretty] <;> first | exact hn _ _ | exact hs _ | exact he
  | q => intro d v; cases v <;> simp only [pretty] <;> first | exact hn _ _ | exact hs _ | exact he
  | i => intro d v; cases v <;> simp only [pretty] <;> first | exact hn _ _ | exact hs _ | exact he
  | u => intro d v; cases v <;> simp only [pretty] <;> first | exact hn _ _ | exact hs _ | exact he
  | x => intro d v; cases v <;> simp only [pretty] <;> first | exact hn _ _ | exact hs _ | exact he
  | t => intro d v; cases v <;> simp only [pretty] <;> first | exact hn _ _ | exact hs _ | exact he
  | d => intro d v; cases v <;> simp only [pretty] <;> first | exact hn _ _ | exact hs _ | exact he
  | s => intro d v; cases v <;> simp only [pretty] <;> first | exact hn _ _ | exact hs _ | exact he
  | o => intro d v; cases v <;> simp only [pretty] <;> first | exact hn _ _ | exact hs _ | exact he
  | g => intro d v; cases v <;> simp only [pretty] <;> first | exact hn _ _ | exact hs _ | exact he
  | v => intro d v; simp only [pretty]; exact hp _ _
  | a e ih =>
    intro d v
    cases v with
    | arr vs =>
      simp only [pretty]
      split
      · rw [if_pos hF, if_pos hF]
        exact shift_block (by decide) (by decide) (shift_map (fun v => ih (d + 1) v) vs)
      · exact hp _ _
    | _ => simp only [pretty] <;> first | exact hn _ _ | exact hs _ | exact he
  | m e ih =>
    intro d v
    cases v with
    | just x =>
      simp only [pretty, if_pos hF]
      exact (shift_line (by decide)).append (shift_block (by decide) (by decide) (.cons (ih (d + 1) x) .nil))
    | _ => simp only [pretty]; exact shift_line (by decide)
  | tuple ts ih =>
    intro d v
    cases v with
    | tup vs =>
      cases ts with
      | nil => simp only [pretty]; exact shift_line h1.unit
      | cons t ts =>
        simp only [pretty, if_pos hF]
        exact shift_block (by decide) (by decide) (shift_members (t :: ts) vs fun u hu v => ih u hu (d + 1) v)
    | _ => simp only [pretty] <;> first | exact hn _ _ | exact hs _ | exact he
  | dict k l ihk ihl =>
    intro d v
    cases v with
    | tup vs =>
      match vs with
      | [x, y] =>
        simp only [pretty, if_pos hF]
        exact shift_block (by decide) (by decide) (.cons (ihk (d + 1) x) (.cons (ihl (d + 1) y) .nil))
      | [] | [_] | _ :: _ :: _ :: _ => simp only [pretty]; exact he
    | _ => simp only [pretty] <;> first | exact hn _ _ | exact hs _ | exact he

/-! ### Printing prints the value that reading gives -/

theorem fmtTuple_flat (name : Bytes) (x : Bytes) (xs : List Bytes) : name = [] →
    fmtTuple false name (x :: xs) = parens (x :: xs) := by
  rintro rfl
  cases xs with
  | nil => simp [fmtTuple, parens, moreEntries]
  | cons y ys => simp [fmtTuple, parens, commas_eq]

theorem fmtTuple_alt {name x y : Bytes} {xs ys : List Bytes} (h : ShiftAll (x :: xs) (y :: ys)) :
    fmtTuple true name (x :: xs) = name ++ block 0 40 41 (y :: ys) := by
  simp only [fmtTuple, altEntries_eq h, block, List.cons_ne_nil, if_false, List.append_assoc]
  rfl

theorem fmtList_flat (xs : List Bytes) : fmtList false xs = brackets xs := by
  cases xs with
  | nil => rfl
  | cons x xs => simp [fmtList, brackets, commas_eq]

theorem fmtList_alt {xs ys : List Bytes} (h : ShiftAll xs ys) : fmtList true xs = block 0 91 93 ys := by
  cases h with
  | nil => rfl
  | @cons x y xs ys h1 h2 =>
    simp only [fmtList, altEntries_eq (ShiftAll.cons h1 h2), block, List.cons_ne_nil, if_false, List.append_assoc]
    rfl

/-- Printing a reference with flags succeeds exactly if reading it does, and prints the value. -/
def FlagsOk (F : FlagFmt) (P : CoreFmt) (c : Cfg) (t : Ty) : Prop := ∀ s b,
  debugWith F P c t s = .ok b ↔ ∃ v, view c t s = .ok v ∧ b = pretty F P 0 t v

theorem traverse_flags {F : FlagFmt} {P : CoreFmt} {c : Cfg} {e : Ty} (ih : FlagsOk F P c e) :
    ∀ (rs : List Slice) (xs : List Bytes), Res.traverse (debugWith F P c e) rs = .ok xs ↔
      ∃ vs, Res.traverse (view c e) rs = .ok vs ∧ xs = vs.map (pretty F P 0 e) := by
  intro rs
  induction rs with
  | nil => intro xs; simp only [Res.traverse]; constructor
           · intro h; cases h; exact ⟨[], rfl, rfl⟩
           · rintro ⟨vs, h, rfl⟩; cases h; rfl
  | cons r rs ihr =>
    intro xs
    simp only [Res.traverse, Res.bind_eq_ok]
    constructor
    · rintro ⟨b, h1, bs, h2, h3⟩
      cases h3
      obtain ⟨v, hv, rfl⟩ := (ih r b).1 h1
      obtain ⟨vs, hvs, rfl⟩ := (ihr bs).1 h2
      exact ⟨v :: vs, ⟨v, hv, vs, hvs, rfl⟩, rfl⟩
    · rintro ⟨_, ⟨v, hv, vs, hvs, h⟩, rfl⟩
      cases h
      exact ⟨_, (ih r _).2 ⟨v, hv, rfl⟩, _, (ihr _).2 ⟨vs, hvs, rfl⟩, rfl⟩

theorem debugWithAll_iff {F : FlagFmt} {P : CoreFmt} {c : Cfg} (ts : List Ty) : (∀ t ∈ ts, FlagsOk F P c t) →
    ∀ (rs : List Slice) (xs : List Bytes),
    debugWithAll F P c ts rs = .ok xs ↔ ∃ vs, viewAll c ts rs = .ok vs ∧ xs = prettyAll F P 0 ts vs := by
  induction ts with
  | nil =>
    intro _ rs xs
    cases rs with
    | nil =>
      simp only [debugWithAll, viewAll]
      constructor
      · intro h; cases h; exact ⟨[], rfl, rfl⟩
      · rintro ⟨vs, h, rfl⟩; cases h; rfl
    | cons r rs => simp [debugWithAll, viewAll]
  | cons t ts iht =>
    intro ih rs xs
    cases rs with
    | nil => simp [debugWithAll, viewAll]
    | cons r rs =>
      have ih1 := ih t (by simp)
      have ih2 := iht (fun u hu => ih u (by simp [hu])) rs
      simp only [debugWithAll, viewAll, Res.bind_eq_ok]
      constructor
      · rintro ⟨b, h1, bs, h2, h3⟩
        cases h3
        obtain ⟨v, hv, rfl⟩ := (ih1 r b).1 h1
        obtain ⟨vs, hvs, rfl⟩ := (ih2 bs).1 h2
        exact ⟨v :: vs, ⟨v, hv, vs, hvs, rfl⟩, by simp [prettyAll]⟩
      · rintro ⟨_, ⟨v, hv, vs, hvs, h⟩, rfl⟩
        cases h
        exact ⟨_, (ih1 r _).2 ⟨v, hv, rfl⟩, _, (ih2 _).2 ⟨vs, hvs, rfl⟩, by simp [prettyAll]⟩

theorem flags_leaf {F : FlagFmt} {P : CoreFmt} {c : Cfg} {t : Ty} {f : Bytes → Val} {g : Bytes → Bytes}
    (hv : ∀ s, view c t s = .ok (f s.bytes)) (hd : ∀ s, debugWith F P c t s = .ok (g s.bytes))
    (h : ∀ b, g b = pretty F P 0 t (f b)) : FlagsOk F P c t := by
  intro s b
  rw [hv, hd]
  constructor
  · intro h1; cases h1; exact ⟨_, rfl, h _⟩
  · rintro ⟨v, h1, rfl⟩; cases h1; rw [h]

theorem array_text {F : FlagFmt} {P : CoreFmt} (h1 : OneLine F P) {e : Ty} {n : Nat} (hs : Spec.size e = some n)
    (vs : List Val) : fmtList F.alt (vs.map (pretty F P 0 e)) = pretty F P 0 (.A e) (.arr vs) := by
  simp only [pretty, hs]
  cases hF : F.alt with
  | false => simp [fmtList_flat]
  | true =>
    simp only [if_true]
    exact fmtList_alt (shift_map (fun v => shift_pretty hF h1 e 0 v) vs)

theorem tuple_text {F : FlagFmt} {P : CoreFmt} (h1 : OneLine F P) {ts : List Ty} {vs : List Val} {x : Bytes}
    {xs : List Bytes} (hx : prettyAll F P 0 ts vs = x :: xs) :
    fmtTuple F.alt [] (x :: xs) = pretty F P 0 (.tuple ts) (.tup vs) := by
  cases ts with
  | nil => simp [prettyAll] at hx
  | cons t ts =>
    cases vs with
    | nil => simp [prettyAll] at hx
    | cons v vs =>
      simp only [pretty]
      cases hF : F.alt with
      | false => simp only [Bool.false_eq_true, if_false, hx]; exact fmtTuple_flat [] x xs rfl
      | true =>
        have := shift_members (d := 0) (d' := 1) (t :: ts) (v :: vs) fun u _ v => shift_pretty hF h1 u 0 v
        rw [hx] at this
        simp only [prettyAll] at this ⊢
        rw [fmtTuple_alt this]
        simp

theorem flags_iff {F : FlagFmt} {P : CoreFmt} (h1 : OneLine F P) (c : Cfg) (t : Ty) : FlagsOk F P c t := by
  induction t using Ty.ind with
  | b => exact flags_leaf (f := fun b => .bool (toBool b)) (g := fun b => F.bool (toBool b)) (fun _ => rfl) (fun _ => rfl) fun b => by simp [pretty]
  | y => exact flags_leaf (f := fun b => .num (fromNe c b)) (g := fun b => F.num .Y (fromNe c b)) (fun _ => rfl) (fun _ => rfl) fun b => by simp [pretty]
  | n => exact flags_leaf (f := fun b => .num (fromNe c b)) (g := fun b => F.num .N (fromNe c b)) (fun _ => rfl) (fun _ => rfl) fun b => by simp [pretty]
  | q => exact flags_leaf (f := fun b => .num (fromNe c b)) (g := fun b => F.num .Q (fromNe c b)) (fun _ => rfl) (fun _ => rfl) fun b => by simp [pretty]
  | i => exact flags_leaf (f := fun b => .num (fromNe c b)) (g := fun b => F.num .I (fromNe c b)) (fun _ => rfl) (fun _ => rfl) fun b => by simp [pretty]
  | u => exact flags_leaf (f := fun b => .num (fromNe c b)) (g := fun b => F.num .U (fromNe c b)) (fun _ => rfl) (fun _ => rfl) fun b => by simp [pretty]
  | x => exact flags_leaf (f := fun b => .num (fromNe c b)) (g := fun b => F.num .X (fromNe c b)) (fun _ => rfl) (fun _ => rfl) fun b => by simp [pretty]
  | t => exact flags_leaf (f := fun b => .num (fromNe c b)) (g := fun b => F.num .T (fromNe c b)) (fun _ => rfl) (fun _ => rfl) fun b => by simp [pretty]
  | d => exact flags_leaf (f := fun b => .num (fromNe c b)) (g := fun b => F.num .D (fromNe c b)) (fun _ => rfl) (fun _ => rfl) fun b => by simp [pretty]
  | s => exact flags_leaf (f := fun b => .str (toStr b)) (g := fun b => F.str (toStr b)) (fun _ => rfl) (fun _ => rfl) fun b => by simp [pretty]
  | o => exact flags_leaf (f := fun b => .str (toStr b)) (g := fun b => F.str (toStr b)) (fun _ => rfl) (fun _ => rfl) fun b => by simp [pretty]
  | g => exact flags_leaf (f := fun b => .str (toStr b)) (g := fun b => F.str (toStr b)) (fun _ => rfl) (fun _ => rfl) fun b => by simp [pretty]
  | v =>
    intro s b
    simp only [debugWith, pretty]
    exact debug_iff P c .V s b
  | a e ih =>
    intro s b
    simp only [debugWith]
    cases hs : Spec.size e with
    | some n =>
      simp only [view, arrRefs, sizeOf_eq, hs, Res.bind_eq_ok]
      constructor
      · rintro ⟨⟨n, _⟩, h3, xs, h2, h4⟩
        cases h4
        obtain ⟨vs, hvs, rfl⟩ := (traverse_flags ih _ _).1 h2
        exact ⟨_, ⟨_, ⟨_, h3, rfl⟩, vs, hvs, rfl⟩, array_text h1 hs vs⟩
      · rintro ⟨_, ⟨_, ⟨⟨n, _⟩, h3, h2⟩, vs, hvs, h4⟩, rfl⟩
        cases h2; cases h4
        refine ⟨_, h3, _, (traverse_flags ih _ _).2 ⟨vs, hvs, rfl⟩, ?_⟩
        rw [← array_text h1 hs vs]
        rfl
    | none =>
      simp only [sizeOf_eq, hs]
      rw [debug_iff P c (.A e) s b]
      constructor
      · rintro ⟨v, hv, rfl⟩
        refine ⟨v, hv, ?_⟩
        simp only [view, Res.bind_eq_ok] at hv
        obtain ⟨_, _, vs, _, h⟩ := hv
        cases h
        simp only [pretty, hs]
      · rintro ⟨v, hv, rfl⟩
        refine ⟨v, hv, ?_⟩
        simp only [view, Res.bind_eq_ok] at hv
        obtain ⟨_, _, vs, _, h⟩ := hv
        cases h
        simp only [pretty, hs]
  | m e ih =>
    have hj : ∀ v, fmtTuple F.alt [83, 111, 109, 101] [pretty F P 0 e v] = pretty F P 0 (.M e) (.just v) := by
      intro v
      simp only [pretty]
      cases hF : F.alt with
      | false => simp [fmtTuple, moreEntries]
      | true =>
        rw [fmtTuple_alt (.cons (shift_pretty hF h1 e 0 v) .nil)]
        simp
    intro s b
    simp only [debugWith, view, Res.bind_eq_ok]
    constructor
    · rintro ⟨o, h1, h2⟩
      cases o with
      | none => cases h2; exact ⟨_, ⟨none, h1, rfl⟩, by simp [pretty]⟩
      | some r =>
        obtain ⟨x, h3, h2⟩ := Res.bind_eq_ok.1 h2
        cases h2
        obtain ⟨v, hv, rfl⟩ := (ih r x).1 h3
        exact ⟨.just v, ⟨some r, h1, by simp [hv]⟩, hj v⟩
    · rintro ⟨_, ⟨o, h1, h2⟩, rfl⟩
      cases o with
      | none => cases h2; exact ⟨none, h1, by simp [pretty]⟩
      | some r =>
        obtain ⟨v, hv, h2⟩ := Res.bind_eq_ok.1 h2
        cases h2
        exact ⟨some r, h1, by simp [(ih r _).2 ⟨v, hv, rfl⟩, hj]⟩
  | tuple ts ih =>
    have hj : ∀ xs vs, viewAll c ts xs = .ok vs → (match prettyAll F P 0 ts vs with
        | [] => pure F.unit
        | xs => pure (fmtTuple F.alt [] xs) : Res Bytes) = .ok (pretty F P 0 (.tuple ts) (.tup vs)) := by
      intro rs vs hvs
      cases hx : prettyAll F P 0 ts vs with
      | nil =>
        cases ts with
        | nil => simp [pretty]
        | cons t ts =>
          cases vs with
          | nil =>
            cases rs with
            | nil => simp [viewAll] at hvs
            | cons r rs =>
              simp only [viewAll, Res.bind_eq_ok] at hvs
              obtain ⟨_, _, _, _, h⟩ := hvs
              cases h
          | cons v vs => simp [prettyAll] at hx
      | cons x xs => simp only [tuple_text h1 hx, Res.pure_eq]
    intro s b
    simp only [debugWith, view, Res.bind_eq_ok]
    constructor
    · rintro ⟨rs, h1, xs, h2, h3⟩
      obtain ⟨vs, hvs, rfl⟩ := (debugWithAll_iff ts ih _ _).1 h2
      cases (hj rs vs hvs).symm.trans h3
      exact ⟨_, ⟨rs, h1, vs, hvs, rfl⟩, rfl⟩
    · rintro ⟨_, ⟨rs, h1, vs, hvs, h3⟩, rfl⟩
      cases h3
      exact ⟨rs, h1, _, (debugWithAll_iff ts ih _ _).2 ⟨vs, hvs, rfl⟩, hj rs vs hvs⟩
  | dict k v ihk ihv =>
    have hj : ∀ x y, fmtTuple F.alt [] [pretty F P 0 k x, pretty F P 0 v y] = pretty F P 0 (.dict k v) (.tup [x, y]) := by
      intro x y
      simp only [pretty]
      cases hF : F.alt with
      | false => simp only [Bool.false_eq_true, if_false]; exact fmtTuple_flat [] _ _ rfl
      | true =>
        rw [fmtTuple_alt (.cons (shift_pretty hF h1 k 0 x) (.cons (shift_pretty hF h1 v 0 y) .nil))]
        simp
    intro s b
    simp only [debugWith, view]
    cases tupRefs c (.dict k v) [k, v] s with
    | fail f => simp
    | ok rs =>
      match rs with
      | [] | [_] | _ :: _ :: _ :: _ => simp
      | [rk, rv] =>
        simp only [Res.bind_ok, Res.bind_eq_ok]
        constructor
        · rintro ⟨x, hx, y, hy, h3⟩
          cases h3
          obtain ⟨a, ha, rfl⟩ := (ihk rk x).1 hx
          obtain ⟨d, hd, rfl⟩ := (ihv rv y).1 hy
          exact ⟨_, ⟨a, ha, d, hd, rfl⟩, hj a d⟩
        · rintro ⟨_, ⟨a, ha, d, hd, h3⟩, rfl⟩
          cases h3
          refine ⟨_, (ihk rk _).2 ⟨a, ha, rfl⟩, _, (ihv rv _).2 ⟨d, hd, rfl⟩, ?_⟩
          rw [hj]; rfl

end GV
