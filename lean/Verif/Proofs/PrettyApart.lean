import Verif.Proofs.Pretty
/-
Values printed with flags can be told apart.
-/
namespace GV
open Spec

/-- Each member, printed somehow. -/
def texts (q : Ty → Val → Bytes) : List Ty → List Val → List Bytes
  | t :: ts, v :: vs => q t v :: texts q ts vs
  | _, _ => []

theorem prettyAll_texts (F : FlagFmt) (P : CoreFmt) (d : Nat) : ∀ ts vs, prettyAll F P d ts vs = texts (pretty F P d) ts vs := by
  intro ts
  induction ts with
  | nil => intro vs; simp [prettyAll, texts]
  | cons t ts ih => intro vs; cases vs <;> simp [prettyAll, texts, ih]

/-- What a value is assumed to be. -/
abbrev Shown (t : Ty) (v : Val) : Prop := Fits t v ∧ Legible t v

theorem texts_more {q : Ty → Val → Bytes} {ts : List Ty} : (∀ t ∈ ts, Clear (q t) (Shown t)) →
    ∀ (vs ws : List Val) (x y : Bytes), FitsAll ts vs → LegibleAll ts vs → FitsAll ts ws → LegibleAll ts ws →
    Term x → Term y → moreEntries (texts q ts vs) ++ x = moreEntries (texts q ts ws) ++ y → vs = ws ∧ x = y := by
  induction ts with
  | nil =>
    intro _ vs ws x y hv _ hw _ _ _ h
    cases vs <;> cases ws <;> simp_all [FitsAll, texts, moreEntries]
  | cons t ts ih =>
    intro hu vs ws x y hv hlv hw hlw hx hy h
    cases vs with
    | nil => simp [FitsAll] at hv
    | cons v vs =>
    cases ws with
    | nil => simp [FitsAll] at hw
    | cons w ws =>
      simp only [FitsAll, LegibleAll] at hv hlv hw hlw
      simp only [texts, moreEntries, List.append_assoc, List.append_cancel_left_eq] at h
      obtain ⟨h1, h2⟩ := hu t (by simp) v w _ _ ⟨hv.1, hlv.1⟩ ⟨hw.1, hlw.1⟩ (more_term _ hx) (more_term _ hy) h
      obtain ⟨h3, h4⟩ := ih (fun u hu' => hu u (by simp [hu'])) vs ws x y hv.2 hlv.2 hw.2 hlw.2 hx hy h2
      exact ⟨by rw [h1, h3], h4⟩

theorem texts_parens {q : Ty → Val → Bytes} {ts : List Ty} (hu : ∀ t ∈ ts, Clear (q t) (Shown t)) {vs ws : List Val}
    {x y : Bytes} (hv : FitsAll ts vs) (hlv : LegibleAll ts vs) (hw : FitsAll ts ws) (hlw : LegibleAll ts ws)
    (h : parens (texts q ts vs) ++ x = parens (texts q ts ws) ++ y) : vs = ws ∧ x = y := by
  cases ts with
  | nil => cases vs <;> cases ws <;> simp_all [FitsAll, texts]
  | cons t ts =>
    cases vs with
    | nil => simp [FitsAll] at hv
    | cons v vs =>
    cases ws with
    | nil => simp [FitsAll] at hw
    | cons w ws =>
      simp only [FitsAll, LegibleAll] at hv hlv hw hlw
      simp only [texts, parens_cons, List.append_assoc, List.append_cancel_left_eq] at h
      have ht : ∀ (zs : List Bytes) (r : Bytes), Term ((if zs = [] then [44, 41] else [41]) ++ r) := by
        intro zs r
        split
        · exact Term.cons (.inl rfl)
        · exact Term.cons (.inr (.inl rfl))
      obtain ⟨h1, h2⟩ := hu t (by simp) v w _ _ ⟨hv.1, hlv.1⟩ ⟨hw.1, hlw.1⟩ (more_term _ (ht _ _))
        (more_term _ (ht _ _)) h
      obtain ⟨h3, h4⟩ := texts_more (fun u hu' => hu u (by simp [hu'])) vs ws _ _ hv.2 hlv.2 hw.2 hlw.2 (ht _ _)
        (ht _ _) h2
      subst h3
      exact ⟨by rw [h1], by simpa using h4⟩

/-- The lines of a block. -/
def lines (d : Nat) (xs : List Bytes) : Bytes := (xs.map fun x => blanks (4 * (d + 1)) ++ x ++ [44, 10]).flatten

theorem lines_cons (d : Nat) (x : Bytes) (xs : List Bytes) (y : Bytes) :
    lines d (x :: xs) ++ y = blanks (4 * (d + 1)) ++ (x ++ (44 :: 10 :: (lines d xs ++ y))) := by
  simp [lines]

theorem texts_lines {q : Ty → Val → Bytes} {d : Nat} {ts : List Ty} : (∀ t ∈ ts, Clear (q t) (Shown t)) →
    ∀ (vs ws : List Val) (x y : Bytes), FitsAll ts vs → LegibleAll ts vs → FitsAll ts ws → LegibleAll ts ws →
    lines d (texts q ts vs) ++ x = lines d (texts q ts ws) ++ y → vs = ws ∧ x = y := by
  induction ts with
  | nil =>
    intro _ vs ws x y hv _ hw _ h
    cases vs <;> cases ws <;> simp_all [FitsAll, texts, lines]
  | cons t ts ih =>
    intro hu vs ws x y hv hlv hw hlw h
    cases vs with
    | nil => simp [FitsAll] at hv
    | cons v vs =>
    cases ws with
    | nil => simp [FitsAll] at hw
    | cons w ws =>
      simp only [FitsAll, LegibleAll] at hv hlv hw hlw
      simp only [texts, lines_cons, List.append_cancel_left_eq] at h
      obtain ⟨h1, h2⟩ := hu t (by simp) v w _ _ ⟨hv.1, hlv.1⟩ ⟨hw.1, hlw.1⟩ (Term.cons (.inl rfl))
        (Term.cons (.inl rfl)) h
      obtain ⟨h3, h4⟩ := ih (fun u hu' => hu u (by simp [hu'])) vs ws x y hv.2 hlv.2 hw.2 hlw.2
        (by simpa using h2)
      exact ⟨by rw [h1, h3], h4⟩

theorem block_cons (d : Nat) (l r : UInt8) (x : Bytes) (xs : List Bytes) (y : Bytes) :
    block d l r (x :: xs) ++ y = [l, 10] ++ (lines d (x :: xs) ++ (blanks (4 * d) ++ r :: y)) := by
  simp [block, lines]

theorem texts_block {q : Ty → Val → Bytes} {d : Nat} {l r : UInt8} {ts : List Ty}
    (hu : ∀ t ∈ ts, Clear (q t) (Shown t)) {vs ws : List Val} {x y : Bytes} (hv : FitsAll ts vs)
    (hlv : LegibleAll ts vs) (hw : FitsAll ts ws) (hlw : LegibleAll ts ws)
    (h : block d l r (texts q ts vs) ++ x = block d l r (texts q ts ws) ++ y) : vs = ws ∧ x = y := by
  cases ts with
  | nil => cases vs <;> cases ws <;> simp_all [FitsAll, texts]
  | cons t ts =>
    cases vs with
    | nil => simp [FitsAll] at hv
    | cons v vs =>
    cases ws with
    | nil => simp [FitsAll] at hw
    | cons w ws =>
      simp only [texts, block_cons, List.append_cancel_left_eq] at h
      obtain ⟨h1, h2⟩ := texts_lines (d := d) hu (v :: vs) (w :: ws) _ _ hv hlv hw hlw (by simpa only [texts] using h)
      exact ⟨h1, by simpa using h2⟩

theorem lines_clear {p : Val → Bytes} {U : Val → Prop} {d : Nat} {r : UInt8} (hr : r ≠ 32) (hc : Clear p U) :
    ∀ (l m : List Val) (x y : Bytes), (∀ v ∈ l, U v) → (∀ v ∈ m, U v) →
    lines d (l.map p) ++ (blanks (4 * d) ++ r :: x) = lines d (m.map p) ++ (blanks (4 * d) ++ r :: y) →
    l = m ∧ x = y := by
  have hb : ∀ z, blanks (4 * (d + 1)) ++ z = blanks (4 * d) ++ (32 :: 32 :: 32 :: 32 :: z) := by
    intro z
    simp only [blanks, Nat.mul_add, Nat.mul_one, List.replicate_add, List.append_assoc]
    rfl
  intro l
  induction l with
  | nil =>
    intro m x y _ hm h
    cases m with
    | nil => simpa [lines] using h
    | cons w m =>
      rw [List.map_cons, lines_cons, hb] at h
      simp only [List.map_nil, lines, List.flatten_nil, List.nil_append, List.append_cancel_left_eq,
        List.cons.injEq] at h
      exact absurd h.1 hr
  | cons v l ih =>
    intro m x y hl hm h
    cases m with
    | nil =>
      rw [List.map_cons, lines_cons, hb] at h
      simp only [List.map_nil, lines, List.flatten_nil, List.nil_append, List.append_cancel_left_eq,
        List.cons.injEq] at h
      exact absurd h.1.symm hr
    | cons w m =>
      simp only [List.map_cons, lines_cons, List.append_cancel_left_eq] at h
      obtain ⟨h1, h2⟩ := hc v w _ _ (hl v (by simp)) (hm w (by simp)) (Term.cons (.inl rfl)) (Term.cons (.inl rfl)) h
      obtain ⟨h3, h4⟩ := ih m x y (fun a ha => hl a (by simp [ha])) (fun a ha => hm a (by simp [ha]))
        (by simpa using h2)
      exact ⟨by rw [h1, h3], h4⟩

theorem block_clear {p : Val → Bytes} {U : Val → Prop} {d : Nat} {l r : UInt8} (hr : r ≠ 32) (hr' : r ≠ 10)
    (hc : Clear p U) (a b : List Val) (x y : Bytes) (ha : ∀ v ∈ a, U v) (hb : ∀ v ∈ b, U v)
    (h : block d l r (a.map p) ++ x = block d l r (b.map p) ++ y) : a = b ∧ x = y := by
  cases a with
  | nil =>
    cases b with
    | nil => simpa [block] using h
    | cons w b =>
      rw [List.map_cons, block_cons] at h
      simp only [List.map_nil, block, if_true, List.cons_append, List.nil_append, List.cons.injEq, true_and] at h
      exact absurd h.1 hr'
  | cons v a =>
    cases b with
    | nil =>
      rw [List.map_cons, block_cons] at h
      simp only [List.map_nil, block, if_true, List.cons_append, List.nil_append, List.cons.injEq, true_and] at h
      exact absurd h.1.symm hr'
    | cons w b =>
      simp only [List.map_cons, block_cons, List.append_cancel_left_eq] at h
      exact lines_clear hr hc (v :: a) (w :: b) x y ha hb (by simpa only [List.map_cons] using h)

variable {F : FlagFmt} {P : CoreFmt}

theorem flag_num_starts (hF : LawfulFlags F) (t : Ty) (n : Nat) : ∃ h r, F.num t n = h :: r ∧ h ≠ 93 := by
  cases hn : F.num t n with
  | nil => exact absurd hn (hF.num_ne t n)
  | cons h r => exact ⟨h, r, rfl, (hF.num_clean t n h (by simp [hn])).2.2⟩

theorem pretty_starts (hF : LawfulFlags F) (hP : Lawful P) (d : Nat) (t : Ty) :
    ∀ v, Shown t v → ∃ h r, pretty F P d t v = h :: r ∧ h ≠ 93 := by
  intro v ⟨hf, hl⟩
  obtain hq := hF.str_quote
  have hb : ∀ (d : Nat) (l r : UInt8) (xs : List Bytes), l ≠ 93 → ∃ h z, block d l r xs = h :: z ∧ h ≠ 93 := by
    intro d l r xs hl
    unfold block
    split <;> exact ⟨_, _, rfl, hl⟩
  have hp : ∀ xs : List Bytes, ∃ h z, parens xs = h :: z ∧ h ≠ 93 := by
    intro xs
    unfold parens
    split <;> exact ⟨_, _, rfl, by decide⟩
  have htup : ∀ ts vs, ∃ h r, pretty F P d (.tuple ts) (.tup vs) = h :: r ∧ h ≠ 93 := by
    intro ts vs
    cases ts with
    | nil => simp only [pretty]; exact hF.unit_start
    | cons t ts =>
      simp only [pretty]
      split
      · exact hb _ _ _ _ (by decide)
      · exact hp _
  cases t
  case tuple ts =>
    obtain ⟨vs, rfl⟩ := fits_tuple hf
    exact htup ts vs
  all_goals cases v <;> simp only [Fits] at hf <;> simp only [pretty]
  case B.bool b =>
    cases hn : F.bool b with
    | nil => exact absurd hn (hF.bool_ne b)
    | cons h r => exact ⟨h, r, rfl, (hF.bool_clean b h (by simp [hn])).2.2⟩
  case S.str b => obtain ⟨r, hr⟩ := hq b; exact ⟨_, _, hr, by decide⟩
  case O.str b => obtain ⟨r, hr⟩ := hq b; exact ⟨_, _, hr, by decide⟩
  case G.str b => obtain ⟨r, hr⟩ := hq b; exact ⟨_, _, hr, by decide⟩
  case V.variant => exact ⟨_, _, rfl, by decide⟩
  case A.arr e vs =>
    cases hs : size e with
    | none => exact print_starts hP (.A e) (.arr vs) (by simpa only [Fits] using hf) hl
    | some n =>
      simp only
      split
      · exact hb _ _ _ _ (by decide)
      · exact ⟨_, _, rfl, by decide⟩
  case M.nothing => exact ⟨_, _, rfl, by decide⟩
  case M.just => exact ⟨_, _, rfl, by decide⟩
  case dict.tup k l vs =>
    match vs, hf with
    | [x, y], _ =>
      simp only
      split
      · exact hb _ _ _ _ (by decide)
      · exact hp _
  all_goals exact flag_num_starts hF _ _

theorem apart_num (hF : LawfulFlags F) (d : Nat) (t : Ty) (w : Nat) (ht : t ≠ .D) (hw : numWidth t = some w)
    (hf : ∀ v, Fits t v → ∃ n, v = .num n ∧ n < 256 ^ w) (hp : ∀ n, pretty F P d t (.num n) = F.num t n) :
    Clear (pretty F P d t) (Shown t) := by
  intro v v' x y hv hv' hx hy h
  obtain ⟨n, rfl, hn⟩ := hf v hv.1
  obtain ⟨m, rfl, hm⟩ := hf v' hv'.1
  rw [hp, hp] at h
  obtain ⟨h1, h2⟩ := clean_split _ _ _ _ (hF.num_clean t n) (hF.num_clean t m) hx hy h
  exact ⟨by rw [hF.num_inj t w n m ht hw hn hm h1], h2⟩

theorem apart_str (hF : LawfulFlags F) (d : Nat) (t : Ty) (hf : ∀ v, Fits t v → ∃ b, v = .str b ∧ Text b)
    (hp : ∀ b, pretty F P d t (.str b) = F.str b) : Clear (pretty F P d t) (Shown t) := by
  intro v v' x y hv hv' hx hy h
  obtain ⟨a, rfl, ha⟩ := hf v hv.1
  obtain ⟨b, rfl, hb⟩ := hf v' hv'.1
  rw [hp, hp] at h
  obtain ⟨h1, h2⟩ := hF.str_delim a b x y ha.1 hb.1 h
  exact ⟨by rw [h1], h2⟩

theorem apart (hF : LawfulFlags F) (hP : Lawful P) (t : Ty) :
    ¬ Component .D t → ∀ d, Clear (pretty F P d t) (Shown t) := by
  induction t using Ty.ind with
  | b =>
    intro _ d v w x y hv hw hx hy h
    obtain ⟨a, rfl⟩ := fits_B hv.1
    obtain ⟨b, rfl⟩ := fits_B hw.1
    simp only [pretty] at h
    obtain ⟨h1, h2⟩ := clean_split _ _ _ _ (hF.bool_clean a) (hF.bool_clean b) hx hy h
    refine ⟨?_, h2⟩
    cases a <;> cases b
    · rfl
    · exact absurd h1.symm hF.bool_inj
    · exact absurd h1 hF.bool_inj
    · rfl
  | y => intro _ d; exact apart_num hF d .Y 1 (by simp) rfl (by intro v h; cases v <;> simp_all [Fits]) fun _ => by simp [pretty]
  | n => intro _ d; exact apart_num hF d .N 2 (by simp) rfl (by intro v h; cases v <;> simp_all [Fits]) fun _ => by simp [pretty]
  | q => intro _ d; exact apart_num hF d .Q 2 (by simp) rfl (by intro v h; cases v <;> simp_all [Fits]) fun _ => by simp [pretty]
  | i => intro _ d; exact apart_num hF d .I 4 (by simp) rfl (by intro v h; cases v <;> simp_all [Fits]) fun _ => by simp [pretty]
  | u => intro _ d; exact apart_num hF d .U 4 (by simp) rfl (by intro v h; cases v <;> simp_all [Fits]) fun _ => by simp [pretty]
  | x => intro _ d; exact apart_num hF d .X 8 (by simp) rfl (by intro v h; cases v <;> simp_all [Fits]) fun _ => by simp [pretty]
  | t => intro _ d; exact apart_num hF d .T 8 (by simp) rfl (by intro v h; cases v <;> simp_all [Fits]) fun _ => by simp [pretty]
  | d => intro h; exact absurd (Component.refl _) h
  | s => intro _ d; exact apart_str hF d .S (by intro v h; cases v <;> simp_all [Fits]) fun _ => by simp [pretty]
  | o => intro _ d; exact apart_str hF d .O (by intro v h; cases v <;> simp_all [Fits]) fun _ => by simp [pretty]
  | g => intro _ d; exact apart_str hF d .G (by intro v h; cases v <;> simp_all [Fits]) fun _ => by simp [pretty]
  | v =>
    intro _ d v w x y hv hw hx hy h
    simp only [pretty] at h
    exact unamb_V hP v w x y hv hw hx hy h
  | a e ih =>
    intro hc d v w x y hv hw hx hy h
    have hce : ¬ Component .D e := fun h => hc (.array h)
    obtain ⟨vs, rfl⟩ := fits_A hv.1
    obtain ⟨ws, rfl⟩ := fits_A hw.1
    cases hsz : size e with
    | none =>
      simp only [pretty, hsz] at h
      exact unamb_A hP (unamb hP e hce) _ _ x y hv hw hx hy h
    | some n =>
      simp only [Shown, Fits, Legible] at hv hw
      have hvs : ∀ v ∈ vs, Shown e v := fun v h => ⟨hv.1 v h, hv.2 v h⟩
      have hws : ∀ v ∈ ws, Shown e v := fun v h => ⟨hw.1 v h, hw.2 v h⟩
      simp only [pretty, hsz] at h
      split at h
      · obtain ⟨h1, h2⟩ := block_clear (by decide) (by decide) (ih hce (d + 1)) vs ws x y hvs hws h
        exact ⟨by rw [h1], h2⟩
      · obtain ⟨h1, h2⟩ := brackets_clear (ih hce d) (fun v hv => pretty_starts hF hP d e v hv) vs ws x y hvs hws h
        exact ⟨by rw [h1], h2⟩
  | m e ih =>
    intro hc d v w x y hv hw hx hy h
    have hce : ¬ Component .D e := fun h => hc (.maybe h)
    rcases fits_M hv.1 with rfl | ⟨v, rfl⟩ <;> rcases fits_M hw.1 with rfl | ⟨w, rfl⟩
    · exact ⟨rfl, by simpa [pretty] using h⟩
    · simp [pretty] at h
    · simp [pretty] at h
    · simp only [Shown, Fits, Legible] at hv hw
      simp only [pretty, List.append_assoc, List.append_cancel_left_eq] at h
      split at h
      · obtain ⟨h1, h2⟩ := block_clear (by decide) (by decide) (ih hce (d + 1)) [v] [w] x y (by simpa using hv)
          (by simpa using hw) h
        exact ⟨by rw [(List.cons.inj h1).1], h2⟩
      · simp only [List.append_assoc, List.append_cancel_left_eq] at h
        obtain ⟨h1, h2⟩ := ih hce d v w _ _ hv hw (Term.cons (.inr (.inl rfl))) (Term.cons (.inr (.inl rfl))) h
        exact ⟨by rw [h1], by simpa using h2⟩
  | tuple ts ih =>
    intro hc d v w x y hv hw hx hy h
    have ih' : ∀ d, ∀ t ∈ ts, Clear (pretty F P d t) (Shown t) := fun d t ht => ih t ht (fun h => hc (.member h ht)) d
    obtain ⟨vs, rfl⟩ := fits_tuple hv.1
    obtain ⟨ws, rfl⟩ := fits_tuple hw.1
    simp only [Shown, Fits, Legible] at hv hw
    cases ts with
    | nil =>
      cases vs <;> cases ws <;> simp_all [FitsAll, pretty]
    | cons t ts =>
      simp only [pretty, prettyAll_texts] at h
      split at h
      · obtain ⟨h1, h2⟩ := texts_block (ih' (d + 1)) hv.1 hv.2 hw.1 hw.2 h
        exact ⟨by rw [h1], h2⟩
      · obtain ⟨h1, h2⟩ := texts_parens (ih' d) hv.1 hv.2 hw.1 hw.2 h
        exact ⟨by rw [h1], h2⟩
  | dict k l ihk ihl =>
    intro hc d v w x y hv hw hx hy h
    have ih' : ∀ d, ∀ t ∈ [k, l], Clear (pretty F P d t) (Shown t) := by
      intro d t ht
      simp only [List.mem_cons, List.not_mem_nil, or_false] at ht
      rcases ht with rfl | rfl
      · exact ihk (fun h => hc (.key h)) d
      · exact ihl (fun h => hc (.value h)) d
    obtain ⟨a, b, rfl⟩ := fits_dict hv.1
    obtain ⟨a', b', rfl⟩ := fits_dict hw.1
    simp only [Shown, Fits, Legible] at hv hw
    simp only [pretty] at h
    have e : ∀ d a b, [pretty F P d k a, pretty F P d l b] = texts (pretty F P d) [k, l] [a, b] := by
      intro d a b; simp [texts]
    simp only [e] at h
    split at h
    · obtain ⟨h1, h2⟩ := texts_block (ih' (d + 1)) (vs := [a, b]) (ws := [a', b'])
        ⟨hv.1.1, hv.1.2, trivial⟩ ⟨hv.2.1, hv.2.2, trivial⟩ ⟨hw.1.1, hw.1.2, trivial⟩ ⟨hw.2.1, hw.2.2, trivial⟩ h
      exact ⟨by rw [h1], h2⟩
    · obtain ⟨h1, h2⟩ := texts_parens (ih' d) (vs := [a, b]) (ws := [a', b'])
        ⟨hv.1.1, hv.1.2, trivial⟩ ⟨hv.2.1, hv.2.2, trivial⟩ ⟨hw.1.1, hw.1.2, trivial⟩ ⟨hw.2.1, hw.2.2, trivial⟩ h
      exact ⟨by rw [h1], h2⟩

end GV
