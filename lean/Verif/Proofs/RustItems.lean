import Verif.Proofs.RustText
/-
Splitting into items, finding structures, implementations and functions: before or after filling in.
-/
namespace GV.Props
open GV Spec

theorem subF_append (σ φ) (f g : Forest) : subF σ φ (f.append g) = (subF σ φ f).append (subF σ φ g) := by
  induction f with
  | nil => rfl
  | leaf t r ih =>
    cases t with
    | word w =>
      simp only [Forest.append, subF]
      cases seqOf w with
      | none => simp only [ih, Forest.append]
      | some h => simp only [ih, forest_append_assoc]
    | op c => simp only [Forest.append, subF, ih]
    | lit b => simp only [Forest.append, subF, ih]
  | grp d i r _ ih => simp only [Forest.append, subF, ih]

/-- No semicolon and no braces. -/
def flat : Forest → Bool
  | .nil => true
  | .leaf t r => t ≠ .op 59 && flat r
  | .grp d _ r => d ≠ 123 && flat r

theorem flat_append {f g : Forest} (hf : flat f = true) (hg : flat g = true) : flat (f.append g) = true := by
  induction f with
  | nil => exact hg
  | leaf t r ih =>
    simp only [flat, Bool.and_eq_true] at hf
    simp only [Forest.append, flat, Bool.and_eq_true]
    exact ⟨hf.1, ih hf.2⟩
  | grp d i r _ ih =>
    simp only [flat, Bool.and_eq_true] at hf
    simp only [Forest.append, flat, Bool.and_eq_true]
    exact ⟨hf.1, ih hf.2⟩

theorem preItem_leaf (t g its) : preItem (.leaf t .nil) (preItem g its) = preItem (.leaf t g) its := by
  cases its with
  | nil =>
    by_cases h : g = .nil
    · subst h; rfl
    · simp [preItem, h, Forest.append]
  | cons it its => rfl

theorem preItem_grp (d i g its) : preItem (.grp d i .nil) (preItem g its) = preItem (.grp d i g) its := by
  cases its with
  | nil =>
    by_cases h : g = .nil
    · subst h; rfl
    · simp [preItem, h, Forest.append]
  | cons it its => rfl

theorem preItem_nil (its) : preItem .nil its = its := by
  cases its <;> rfl

theorem items_flat {g : Forest} (hg : flat g = true) (x : Forest) :
    items (g.append x) = preItem g (items x) := by
  induction g with
  | nil => exact (preItem_nil _).symm
  | leaf t r ih =>
    simp only [flat, Bool.and_eq_true, decide_eq_true_eq] at hg
    simp only [Forest.append, items, if_neg hg.1, ih hg.2, preItem_leaf]
  | grp d i r _ ih =>
    simp only [flat, Bool.and_eq_true, decide_eq_true_eq] at hg
    simp only [Forest.append, items, if_neg hg.1, ih hg.2, preItem_grp]

/-- Fill in an item. -/
def subItem (σ : UInt8 → Bytes) (φ : UInt8 → Forest) (it : Item) : Item :=
  ⟨subF σ φ it.hdr, match it.stop with
    | .body b => .body (subF σ φ b)
    | .semi => .semi
    | .eof => .eof⟩

/-- The placeholders for code among the trees stand for no items and do not come last. -/
def topOk (clean : UInt8 → Bool) : Forest → Bool
  | .nil => true
  | .leaf (.word w) r =>
    (match seqOf w with
      | some h => clean h && r ≠ .nil
      | none => true) && topOk clean r
  | .leaf _ r => topOk clean r
  | .grp _ _ r => topOk clean r

theorem items_nil {f : Forest} (h : items f = []) : f = .nil := by
  cases f with
  | nil => rfl
  | leaf t r =>
    simp only [items] at h
    split at h
    · cases h
    · cases hr : items r <;> rw [hr] at h <;> simp [preItem] at h
  | grp d i r =>
    simp only [items] at h
    split at h
    · cases h
    · cases hr : items r <;> rw [hr] at h <;> simp [preItem] at h

theorem subItem_pre {σ φ} {t : Tok} {its : List Item} (x : Forest) (h : its ≠ [] ∨ x ≠ .nil)
    (hx : subF σ φ (.leaf t .nil) = x) :
    (preItem (.leaf t .nil) its).map (subItem σ φ) = preItem x (its.map (subItem σ φ)) := by
  cases its with
  | nil =>
    rcases h with h | h
    · exact absurd rfl h
    · simp [preItem, subItem, hx, h]
  | cons it its =>
    have : subF σ φ ((Forest.leaf t .nil).append it.hdr) = x.append (subF σ φ it.hdr) := by
      rw [subF_append, hx]
    simp only [preItem, List.map_cons, subItem, this]

theorem items_sub {σ φ clean} (hc : ∀ h, clean h = true → flat (φ h) = true) :
    ∀ {f : Forest}, topOk clean f = true → items (subF σ φ f) = (items f).map (subItem σ φ) := by
  intro f
  induction f with
  | nil => intro _; rfl
  | leaf t r ih =>
    intro hk
    cases t with
    | word w =>
      simp only [topOk, Bool.and_eq_true] at hk
      simp only [subF]
      cases hw : seqOf w with
      | some h =>
        rw [hw] at hk
        simp only [Bool.and_eq_true, decide_eq_true_eq] at hk
        simp only [items]
        rw [items_flat (hc h hk.1.1), ih hk.2, if_neg (by simp)]
        refine (subItem_pre _ (Or.inl fun h0 => hk.1.2 (items_nil h0)) ?_).symm
        simp only [subF, hw, forest_append_nil]
      | none =>
        simp only [items]
        rw [if_neg (by simp), if_neg (by simp), ih hk.2]
        exact (subItem_pre _ (Or.inr (by simp)) (by simp only [subF, hw])).symm
    | op c =>
      simp only [topOk] at hk
      simp only [subF, items]
      split
      · simp [ih hk, subItem, subF]
      · rw [ih hk]
        exact (subItem_pre _ (Or.inr (by simp)) (by simp only [subF])).symm
    | lit b =>
      simp only [topOk] at hk
      simp only [subF, items]
      rw [if_neg (by simp), if_neg (by simp), ih hk]
      exact (subItem_pre _ (Or.inr (by simp)) (by simp only [subF])).symm
  | grp d i r _ ih =>
    intro hk
    simp only [topOk] at hk
    simp only [subF, items]
    split
    · simp [ih hk, subItem, subF]
    · rw [ih hk]
      cases items r with
      | nil => simp [preItem, subItem, subF]
      | cons it its => simp [preItem, subItem, subF, Forest.append]

theorem filterMap_congr_mem {α β} {l : List α} {f g : α → Option β} (h : ∀ a ∈ l, f a = g a) :
    l.filterMap f = l.filterMap g := by
  induction l with
  | nil => rfl
  | cons a l ih =>
    rw [List.filterMap_cons, List.filterMap_cons, h a (by simp), ih fun b hb => h b (by simp [hb])]

/-- No placeholder in the word. -/
def plainW (w : Bytes) : Bool := w.all (· < 128)

theorem flatMap_plainW {σ : UInt8 → Bytes} (hp : ∀ c < 128, σ c = [c]) {w : Bytes} (h : plainW w = true) :
    w.flatMap σ = w := by
  induction w with
  | nil => rfl
  | cons c w ih =>
    simp only [plainW, List.all_cons, Bool.and_eq_true, decide_eq_true_eq] at h
    rw [List.flatMap_cons, hp c h.1, ih h.2]
    rfl

theorem seqOf_plainW {w : Bytes} (h : plainW w = true) : seqOf w = none := by
  refine seqOf_none ?_
  rw [List.any_eq_false]
  intro c hc
  simp only [plainW, List.all_eq_true, decide_eq_true_eq] at h
  have := h c hc
  simp only [isSeq, decide_eq_true_eq, UInt8.not_le]
  exact UInt8.lt_trans this (by decide)

theorem subF_plain {σ φ} (hp : ∀ c < 128, σ c = [c]) {w : Bytes} (h : plainW w = true) (r) :
    subF σ φ (.leaf (.word w) r) = .leaf (.word w) (subF σ φ r) := by
  simp only [subF, seqOf_plainW h, flatMap_plainW hp h]

def implOk : Forest → Bool
  | .leaf (.word w) r => plainW w && (w ≠ fmt!"unsafe" || implOk r)
  | _ => true

theorem isImpl_sub {σ φ} (hp : ∀ c < 128, σ c = [c]) : ∀ {f}, implOk f = true →
    isImpl (subF σ φ f) = isImpl f := by
  intro f
  induction f with
  | nil => intro _; rfl
  | leaf t r ih =>
    intro h
    cases t with
    | word w =>
      simp only [implOk, Bool.and_eq_true, Bool.or_eq_true, decide_eq_true_eq] at h
      rw [subF_plain hp h.1]
      simp only [isImpl]
      by_cases hu : w = fmt!"unsafe"
      · rw [ih (by rcases h.2 with h | h; exact absurd hu h; exact h)]
      · simp [hu]
    | op c => rfl
    | lit b => rfl
  | grp d i r _ _ => intro _; rfl

/-- The next tree is no placeholder for code. -/
def nextOk : Forest → Bool
  | .leaf (.word w) _ => (seqOf w).isNone
  | _ => true

def fnOk : Forest → Bool
  | .leaf (.word w) r => plainW w && (if w = fmt!"fn" then
      (match r with
        | .leaf (.word n) _ => plainW n
        | _ => true)
    else if w = fmt!"pub" || w = fmt!"const" || w = fmt!"unsafe" then fnOk r else true)
  | _ => true

theorem fnName_sub {σ φ} (hp : ∀ c < 128, σ c = [c]) : ∀ {f}, fnOk f = true →
    fnName (subF σ φ f) = fnName f := by
  intro f
  induction f with
  | nil => intro _; rfl
  | leaf t r ih =>
    intro h
    cases t with
    | word w =>
      simp only [fnOk, Bool.and_eq_true] at h
      rw [subF_plain hp h.1]
      simp only [fnName]
      by_cases hf : w = fmt!"fn"
      · rw [if_pos hf] at h
        rw [if_pos hf, if_pos hf]
        cases r with
        | nil => rfl
        | leaf t2 r2 =>
          cases t2 with
          | word n => rw [subF_plain hp h.2]
          | op c => rfl
          | lit b => rfl
        | grp d i r2 => rfl
      · rw [if_neg hf] at h
        rw [if_neg hf, if_neg hf]
        split
        · rename_i hq
          rw [if_pos hq] at h
          exact ih h.2
        · rfl
    | op c => rfl
    | lit b => rfl
  | grp d i r _ _ => intro _; rfl

def structOk : Forest → Bool
  | .leaf (.op _) (.grp _ _ r) => structOk r
  | .leaf (.op _) r => nextOk r
  | .leaf (.word w) (.grp _ _ r) => plainW w && structOk r
  | .leaf (.word w) (.leaf (.word n) .nil) => plainW w && (seqOf n).isNone
  | .leaf (.word w) _ => plainW w && (w ≠ fmt!"struct" && w ≠ fmt!"pub")
  | _ => true

theorem structHead_sub {σ φ} (hp : ∀ c < 128, σ c = [c]) : ∀ {f}, structOk f = true →
    structHead (subF σ φ f) = (structHead f).map fun p => (p.1.map (subF σ φ), p.2.flatMap σ) := by
  intro f
  fun_induction structOk f with
  | case1 c d i r ih =>
    intro h
    simp only [subF, structHead]
    by_cases hc : c = 35 ∧ d = 91
    · rw [if_pos hc, if_pos hc, ih h]
      cases structHead r <;> rfl
    · rw [if_neg hc, if_neg hc]; rfl
  | case2 c r hr =>
    intro h
    cases r with
    | nil => rfl
    | grp d i r2 => exact absurd rfl (hr d i r2)
    | leaf t r2 =>
      cases t with
      | word w =>
        simp only [nextOk, Option.isNone_iff_eq_none] at h
        simp only [subF, h, structHead, Option.map_none]
      | op c => rfl
      | lit b => rfl
  | case3 w d i r ih =>
    intro h
    simp only [Bool.and_eq_true] at h
    rw [subF_plain hp h.1]
    simp only [subF, structHead]
    by_cases hc : w = fmt!"pub" ∧ d = 40
    · rw [if_pos hc, if_pos hc, ih h.2]
    · rw [if_neg hc, if_neg hc]; rfl
  | case4 w n =>
    intro h
    simp only [Bool.and_eq_true, Option.isNone_iff_eq_none] at h
    rw [subF_plain hp h.1]
    simp only [subF, h.2, structHead]
    split <;> rfl
  | case5 w r h1 h2 =>
    intro h
    simp only [Bool.and_eq_true, decide_eq_true_eq] at h
    rw [subF_plain hp h.1]
    have key : ∀ x, structHead (.leaf (.word w) x) = none := by
      intro x
      cases x with
      | nil => rfl
      | leaf t y =>
        cases t with
        | word n =>
          cases y with
          | nil => simp only [structHead, if_neg h.2.1]
          | leaf _ _ => rfl
          | grp _ _ _ => rfl
        | op _ => rfl
        | lit _ => rfl
      | grp d i y => simp only [structHead, h.2.2, false_and, if_false]
    rw [key, key]
    rfl
  | case6 f _ h1 _ _ h2 =>
    intro _
    cases f with
    | nil => rfl
    | leaf t r =>
      cases t with
      | word w => exact absurd rfl (h2 w r)
      | op c => exact absurd rfl (h1 c r)
      | lit b => rfl
    | grp d i r => rfl

def typeOk : Forest → Bool
  | .leaf (.word w) r => plainW w && (w ≠ fmt!"type" || match r with
    | .leaf (.word n) (.leaf (.op _) _) => plainW n
    | _ => false)
  | _ => true

theorem typeDef_sub {σ φ name} (hp : ∀ c < 128, σ c = [c]) {f} (h : typeOk f = true) :
    typeDef name (subF σ φ f) = (typeDef name f).map (subF σ φ) := by
  cases f with
  | nil => rfl
  | grp d i r => rfl
  | leaf t r =>
    cases t with
    | op c => rfl
    | lit b => rfl
    | word w =>
      simp only [typeOk, Bool.and_eq_true, Bool.or_eq_true, decide_eq_true_eq] at h
      rw [subF_plain hp h.1]
      by_cases hw : w = fmt!"type"
      · rcases h.2 with h2 | h2
        · exact absurd hw h2
        · split at h2
          · rename_i n e r2
            rw [subF_plain hp h2]
            simp only [subF, typeDef]
            split <;> rfl
          · cases h2
      · have key : ∀ x, typeDef name (.leaf (.word w) x) = none := by
          intro x
          unfold typeDef
          split
          · rename_i heq
            cases heq
            rw [if_neg (fun h => hw h.1)]
          · rfl
        rw [key, key]
        rfl

/-- The words that readers look at contain no placeholders. -/
def ready (clean : UInt8 → Bool) (f : Forest) : Bool :=
  topOk clean f && (items f).all fun it =>
    structOk it.hdr && implOk it.hdr && (!isImpl it.hdr || match it.stop with
      | .body b => topOk clean b && (items b).all fun it => fnOk it.hdr && typeOk it.hdr
      | _ => true)

theorem structs_sub {σ φ clean} (hp : ∀ c < 128, σ c = [c]) (hc : ∀ h, clean h = true → flat (φ h) = true)
    {f} (h : ready clean f = true) :
    structs (subF σ φ f) = (structs f).map fun p => (p.1.map (subF σ φ), p.2.1.flatMap σ, subF σ φ p.2.2) := by
  simp only [ready, Bool.and_eq_true, List.all_eq_true] at h
  unfold structs
  rw [items_sub hc h.1, List.filterMap_map, List.map_filterMap]
  refine filterMap_congr_mem fun it hit => ?_
  have hk := (h.2 it hit).1.1
  simp only [Function.comp, subItem, structHead_sub hp hk]
  cases structHead it.hdr with
  | none => cases it.stop <;> rfl
  | some p => cases it.stop <;> rfl

/-- Fill in an implementation. -/
def subImpl (σ : UInt8 → Bytes) (φ : UInt8 → Forest) (p : Forest × List Item) : Forest × List Item := (subF σ φ p.1, p.2.map (subItem σ φ))

theorem impls_sub {σ φ clean} (hp : ∀ c < 128, σ c = [c]) (hc : ∀ h, clean h = true → flat (φ h) = true)
    {f} (h : ready clean f = true) : impls (subF σ φ f) = (impls f).map (subImpl σ φ) := by
  simp only [ready, Bool.and_eq_true, List.all_eq_true] at h
  unfold impls
  rw [items_sub hc h.1, List.filterMap_map, List.map_filterMap]
  refine filterMap_congr_mem fun it hit => ?_
  have hk := h.2 it hit
  simp only [Function.comp, subItem, isImpl_sub hp hk.1.2]
  cases hi : isImpl it.hdr with
  | false => cases it.stop <;> rfl
  | true =>
    rw [hi] at hk
    cases hs : it.stop with
    | semi => rfl
    | eof => rfl
    | body b =>
      rw [hs] at hk
      simp only [Bool.not_true, Bool.false_or, Bool.and_eq_true] at hk
      simp only [items_sub hc hk.2.1, subImpl, Option.map_some]

theorem impls_ready {clean f} (h : ready clean f = true) {p} (hp : p ∈ impls f) {it} (hit : it ∈ p.2) :
    fnOk it.hdr = true ∧ typeOk it.hdr = true := by
  simp only [ready, Bool.and_eq_true, List.all_eq_true] at h
  unfold impls at hp
  rw [List.mem_filterMap] at hp
  obtain ⟨it0, h0, hm⟩ := hp
  have hk := h.2 it0 h0
  cases hi : isImpl it0.hdr with
  | false => rw [hi] at hm; cases it0.stop <;> cases hm
  | true =>
    rw [hi] at hm hk
    cases hs : it0.stop with
    | semi => rw [hs] at hm; cases hm
    | eof => rw [hs] at hm; cases hm
    | body b =>
      rw [hs] at hm hk
      cases hm
      simp only [Bool.not_true, Bool.false_or, Bool.and_eq_true, List.all_eq_true] at hk
      exact hk.2.2 it hit

theorem flatMap_congr_mem {α β} {l : List α} {f g : α → List β} (h : ∀ a ∈ l, f a = g a) :
    l.flatMap f = l.flatMap g := by
  induction l with
  | nil => rfl
  | cons a l ih =>
    rw [List.flatMap_cons, List.flatMap_cons, h a (by simp), ih fun b hb => h b (by simp [hb])]

theorem fns_sub {σ φ clean} (hp : ∀ c < 128, σ c = [c]) (hc : ∀ h, clean h = true → flat (φ h) = true)
    {f} (h : ready clean f = true) (name) :
    fns name (subF σ φ f) = (fns name f).map fun p => (subF σ φ p.1, subF σ φ p.2.1, subF σ φ p.2.2) := by
  unfold fns
  rw [impls_sub hp hc h, List.flatMap_map, List.map_flatMap]
  refine flatMap_congr_mem fun p hpm => ?_
  simp only [subImpl, List.filterMap_map, List.map_filterMap]
  refine filterMap_congr_mem fun it hit => ?_
  have hk := (impls_ready h hpm hit).1
  simp only [Function.comp, subItem]
  cases it.stop with
  | semi => rfl
  | eof => rfl
  | body b =>
    simp only [fnName_sub hp hk]
    split <;> rfl

theorem typeDefs_sub {σ φ clean} (hp : ∀ c < 128, σ c = [c]) (hc : ∀ h, clean h = true → flat (φ h) = true)
    {f} (h : ready clean f = true) (name) :
    typeDefs name (subF σ φ f) = (typeDefs name f).map fun p => (subF σ φ p.1, subF σ φ p.2) := by
  unfold typeDefs
  rw [impls_sub hp hc h, List.flatMap_map, List.map_flatMap]
  refine flatMap_congr_mem fun p hpm => ?_
  simp only [subImpl, List.filterMap_map, List.map_filterMap]
  refine filterMap_congr_mem fun it hit => ?_
  have hk := (impls_ready h hpm hit).2
  simp only [Function.comp, subItem]
  cases it.stop with
  | body b => rfl
  | eof => rfl
  | semi =>
    simp only [typeDef_sub hp hk]
    cases typeDef name it.hdr <;> rfl

end GV.Props
