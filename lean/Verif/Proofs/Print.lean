import Verif.Proofs.Debug
import Verif.Proofs.Str
/-
Printed values can be told apart.
-/
namespace GV
open Spec

/-- What can follow a printed value. -/
def Term (x : Bytes) : Prop := x = [] ∨ ∃ h r, x = h :: r ∧ (h = 44 ∨ h = 41 ∨ h = 93)

theorem Term.cons {h : UInt8} {r : Bytes} (hh : h = 44 ∨ h = 41 ∨ h = 93) : Term (h :: r) := .inr ⟨h, r, rfl, hh⟩

theorem clean_split : ∀ (a b x y : Bytes), (∀ z ∈ a, z ≠ 44 ∧ z ≠ 41 ∧ z ≠ 93) → (∀ z ∈ b, z ≠ 44 ∧ z ≠ 41 ∧ z ≠ 93) →
    Term x → Term y → a ++ x = b ++ y → a = b ∧ x = y := by
  intro a
  induction a with
  | nil =>
    intro b x y _ hb hx _ h
    cases b with
    | nil => exact ⟨rfl, h⟩
    | cons z b =>
      exfalso
      rcases hx with rfl | ⟨k, r, rfl, hk⟩
      · simp at h
      · simp only [List.nil_append, List.cons_append, List.cons.injEq] at h
        have := hb z (by simp)
        rw [h.1] at hk
        tauto
  | cons k a ih =>
    intro b x y ha hb hx hy h
    cases b with
    | nil =>
      exfalso
      rcases hy with rfl | ⟨z, r, rfl, hk⟩
      · simp at h
      · simp only [List.nil_append, List.cons_append, List.cons.injEq] at h
        have := ha k (by simp)
        rw [← h.1] at hk
        tauto
    | cons z b =>
      simp only [List.cons_append, List.cons.injEq] at h
      obtain ⟨h1, h2⟩ := ih b x y (fun w hw => ha w (by simp [hw])) (fun w hw => hb w (by simp [hw])) hx hy h.2
      exact ⟨by rw [h.1, h1], h2⟩

/-- Texts of things in `U` determine them whatever follows. -/
def Clear {α : Type} (p : α → Bytes) (U : α → Prop) : Prop := ∀ v w x y, U v → U w → Term x → Term y →
  p v ++ x = p w ++ y → v = w ∧ x = y

theorem more_term (xs : List Bytes) {x : Bytes} (h : Term x) : Term (moreEntries xs ++ x) := by
  cases xs with
  | nil => exact h
  | cons y ys => exact Term.cons (.inl rfl)

theorem more_clear {α : Type} {p : α → Bytes} {U : α → Prop} (hc : Clear p U) : ∀ (l m : List α) (x y : Bytes),
    (∀ v ∈ l, U v) → (∀ v ∈ m, U v) →
    moreEntries (l.map p) ++ 93 :: x = moreEntries (m.map p) ++ 93 :: y → l = m ∧ x = y := by
  intro l
  induction l with
  | nil =>
    intro m x y _ _ h
    cases m with
    | nil => simpa [moreEntries] using h
    | cons w m => simp [moreEntries] at h
  | cons v l ih =>
    intro m x y hl hm h
    cases m with
    | nil => simp [moreEntries] at h
    | cons w m =>
      simp only [List.map_cons, moreEntries, List.append_assoc, List.cons_append, List.nil_append,
        List.cons.injEq, true_and] at h
      obtain ⟨h1, h2⟩ := hc v w _ _ (hl v (by simp)) (hm w (by simp)) (more_term _ (Term.cons (.inr (.inr rfl))))
        (more_term _ (Term.cons (.inr (.inr rfl)))) h
      obtain ⟨h3, h4⟩ := ih m x y (fun a ha => hl a (by simp [ha])) (fun a ha => hm a (by simp [ha])) h2
      exact ⟨by rw [h1, h3], h4⟩

/-- Texts that begin like an element. -/
def Starts {α : Type} (p : α → Bytes) (U : α → Prop) : Prop := ∀ v, U v → ∃ h r, p v = h :: r ∧ h ≠ 93

theorem brackets_clear {α : Type} {p : α → Bytes} {U : α → Prop} (hc : Clear p U) (hs : Starts p U)
    (l m : List α) (x y : Bytes) (hl : ∀ v ∈ l, U v) (hm : ∀ v ∈ m, U v)
    (h : brackets (l.map p) ++ x = brackets (m.map p) ++ y) : l = m ∧ x = y := by
  unfold brackets at h
  cases l with
  | nil =>
    cases m with
    | nil => simpa [commas] using h
    | cons w m =>
      obtain ⟨k, r, hk, hk'⟩ := hs w (hm w (by simp))
      simp only [List.map_cons, commas_eq, List.map_nil, commas, hk] at h
      simp at h
      exact absurd h.1.symm hk'
  | cons v l =>
    cases m with
    | nil =>
      obtain ⟨k, r, hk, hk'⟩ := hs v (hl v (by simp))
      simp only [List.map_cons, commas_eq, List.map_nil, commas, hk] at h
      simp at h
      exact absurd h.1 hk'
    | cons w m =>
      simp only [List.map_cons, commas_eq, List.append_assoc, List.cons_append, List.nil_append, List.cons.injEq,
        true_and] at h
      obtain ⟨h1, h2⟩ := hc v w _ _ (hl v (by simp)) (hm w (by simp)) (more_term _ (Term.cons (.inr (.inr rfl))))
        (more_term _ (Term.cons (.inr (.inr rfl)))) h
      obtain ⟨h3, h4⟩ := more_clear hc l m x y (fun a ha => hl a (by simp [ha])) (fun a ha => hm a (by simp [ha])) h2
      exact ⟨by rw [h1, h3], h4⟩

theorem loose_clear {α : Type} {p : α → Bytes} {U : α → Prop} (hc : Clear p U) (hs : Starts p U) :
    ∀ (l m : List α) (x y : Bytes), (∀ v ∈ l, U v) → (∀ v ∈ m, U v) →
    ((l.map p).map (· ++ [44, 32])).flatten ++ 93 :: x = ((m.map p).map (· ++ [44, 32])).flatten ++ 93 :: y →
    l = m ∧ x = y := by
  intro l
  induction l with
  | nil =>
    intro m x y _ hm h
    cases m with
    | nil => simpa using h
    | cons w m =>
      obtain ⟨k, r, hk, hk'⟩ := hs w (hm w (by simp))
      simp [hk] at h
      exact absurd h.1.symm hk'
  | cons v l ih =>
    intro m x y hl hm h
    cases m with
    | nil =>
      obtain ⟨k, r, hk, hk'⟩ := hs v (hl v (by simp))
      simp [hk] at h
      exact absurd h.1 hk'
    | cons w m =>
      simp only [List.map_cons, List.flatten_cons, List.append_assoc] at h
      obtain ⟨h1, h2⟩ := hc v w _ _ (hl v (by simp)) (hm w (by simp)) (Term.cons (.inl rfl)) (Term.cons (.inl rfl)) h
      obtain ⟨h3, h4⟩ := ih m x y (fun a ha => hl a (by simp [ha])) (fun a ha => hm a (by simp [ha]))
        (List.append_cancel_left (as := [44, 32]) h2)
      exact ⟨by rw [h1, h3], h4⟩

variable {P : CoreFmt}

theorem num_clear (hP : Lawful P) {t : Ty} {w : Nat} (ht : t ≠ .D) (hw : numWidth t = some w) {a b : Nat} {x y : Bytes}
    (ha : a < 256 ^ w) (hb : b < 256 ^ w) (hx : Term x) (hy : Term y) (h : P.num t a ++ x = P.num t b ++ y) :
    a = b ∧ x = y := by
  obtain ⟨h1, h2⟩ := clean_split _ _ _ _ (hP.num_clean t a) (hP.num_clean t b) hx hy h
  exact ⟨hP.num_inj t w a b ht hw ha hb h1, h2⟩

theorem byte_clear (hP : Lawful P) : Clear (fun x : UInt8 => P.num .Y x.toNat) (fun _ => True) := by
  intro v w x y _ _ hx hy h
  obtain ⟨h1, h2⟩ := num_clear hP (t := .Y) (w := 1) (by simp) rfl (by have := v.toNat_lt; simpa using this)
    (by have := w.toNat_lt; simpa using this) hx hy h
  exact ⟨UInt8.toNat_inj.1 h1, h2⟩

theorem num_starts (hP : Lawful P) (t : Ty) (n : Nat) : ∃ h r, P.num t n = h :: r ∧ h ≠ 93 := by
  cases hn : P.num t n with
  | nil => exact absurd hn (hP.num_ne t n)
  | cons h r => exact ⟨h, r, rfl, (hP.num_clean t n h (by simp [hn])).2.2⟩

theorem printType_eq (hP : Lawful P) {b : Bytes} (h : Utf8 b) : printType P b = P.str b := by
  unfold printType
  rw [hP.lossy b h, (utf8Valid_iff b).2 h]
  cases P.alloc <;> simp

theorem print_starts (hP : Lawful P) (t : Ty) : ∀ v, Fits t v → Legible t v → ∃ h r, print P t v = h :: r ∧ h ≠ 93 := by
  intro v hf hl
  obtain hq := hP.str_quote
  cases t <;> cases v <;> simp only [Fits] at hf <;> simp only [print]
  case B.bool b => cases b <;> exact ⟨_, _, rfl, by decide⟩
  case S.str b => obtain ⟨r, hr⟩ := hq b; exact ⟨_, _, hr, by decide⟩
  case O.str b => obtain ⟨r, hr⟩ := hq b; exact ⟨_, _, hr, by decide⟩
  case G.str b => obtain ⟨r, hr⟩ := hq b; exact ⟨_, _, hr, by decide⟩
  case V.variant => exact ⟨_, _, rfl, by decide⟩
  case A.arr e vs => cases size e <;> exact ⟨_, _, rfl, by decide⟩
  case M.nothing => exact ⟨_, _, rfl, by decide⟩
  case M.just => exact ⟨_, _, rfl, by decide⟩
  case tuple.tup ts vs =>
    unfold parens
    split <;> exact ⟨_, _, rfl, by decide⟩
  case dict.tup k l vs =>
    match vs, hf with
    | [x, y], _ => exact ⟨_, _, rfl, by decide⟩
  all_goals exact num_starts hP _ _

/-- Printed values of the type can be told apart, whatever follows. -/
def Unamb (P : CoreFmt) (t : Ty) : Prop := Clear (print P t) fun v => Fits t v ∧ Legible t v

theorem moreAll_clear {ts : List Ty} : (∀ t ∈ ts, Unamb P t) → ∀ (vs ws : List Val) (x y : Bytes),
    FitsAll ts vs → LegibleAll ts vs → FitsAll ts ws → LegibleAll ts ws → Term x → Term y →
    moreEntries (printAll P ts vs) ++ x = moreEntries (printAll P ts ws) ++ y → vs = ws ∧ x = y := by
  induction ts with
  | nil =>
    intro _ vs ws x y hv _ hw _ _ _ h
    cases vs <;> cases ws <;> simp_all [FitsAll, printAll, moreEntries]
  | cons t ts ih =>
    intro hu vs ws x y hv hlv hw hlw hx hy h
    cases vs with
    | nil => simp [FitsAll] at hv
    | cons v vs =>
    cases ws with
    | nil => simp [FitsAll] at hw
    | cons w ws =>
      simp only [FitsAll, LegibleAll] at hv hlv hw hlw
      simp only [printAll, moreEntries, List.append_assoc, List.append_cancel_left_eq] at h
      obtain ⟨h1, h2⟩ := hu t (by simp) v w _ _ ⟨hv.1, hlv.1⟩ ⟨hw.1, hlw.1⟩ (more_term _ hx) (more_term _ hy) h
      obtain ⟨h3, h4⟩ := ih (fun u hu' => hu u (by simp [hu'])) vs ws x y hv.2 hlv.2 hw.2 hlw.2 hx hy h2
      exact ⟨by rw [h1, h3], h4⟩

theorem parens_cons (x : Bytes) (xs : List Bytes) :
    parens (x :: xs) = [40] ++ x ++ (moreEntries xs ++ if xs = [] then [44, 41] else [41]) := by
  cases xs with
  | nil => simp [parens, moreEntries]
  | cons y ys => simp [parens, commas_eq]

theorem parensAll_clear {ts : List Ty} (hu : ∀ t ∈ ts, Unamb P t) {vs ws : List Val} {x y : Bytes}
    (hv : FitsAll ts vs) (hlv : LegibleAll ts vs) (hw : FitsAll ts ws) (hlw : LegibleAll ts ws)
    (h : parens (printAll P ts vs) ++ x = parens (printAll P ts ws) ++ y) : vs = ws ∧ x = y := by
  cases ts with
  | nil =>
    cases vs <;> cases ws <;> simp_all [FitsAll, printAll]
  | cons t ts =>
    cases vs with
    | nil => simp [FitsAll] at hv
    | cons v vs =>
    cases ws with
    | nil => simp [FitsAll] at hw
    | cons w ws =>
      simp only [FitsAll, LegibleAll] at hv hlv hw hlw
      simp only [printAll, parens_cons, List.append_assoc, List.append_cancel_left_eq] at h
      have ht : ∀ (zs : List Bytes) (r : Bytes), Term ((if zs = [] then [44, 41] else [41]) ++ r) := by
        intro zs r
        split
        · exact Term.cons (.inl rfl)
        · exact Term.cons (.inr (.inl rfl))
      obtain ⟨h1, h2⟩ := hu t (by simp) v w _ _ ⟨hv.1, hlv.1⟩ ⟨hw.1, hlw.1⟩ (more_term _ (ht _ _))
        (more_term _ (ht _ _)) h
      obtain ⟨h3, h4⟩ := moreAll_clear (fun u hu' => hu u (by simp [hu'])) vs ws _ _ hv.2 hlv.2 hw.2 hlw.2 (ht _ _)
        (ht _ _) h2
      subst h3
      exact ⟨by rw [h1], by simpa using h4⟩

theorem unamb_num (hP : Lawful P) (t : Ty) (w : Nat) (ht : t ≠ .D) (hw : numWidth t = some w)
    (hf : ∀ v, Fits t v → ∃ n, v = .num n ∧ n < 256 ^ w) (hp : ∀ n, print P t (.num n) = P.num t n) : Unamb P t := by
  intro v v' x y hv hv' hx hy h
  obtain ⟨n, rfl, hn⟩ := hf v hv.1
  obtain ⟨m, rfl, hm⟩ := hf v' hv'.1
  rw [hp, hp] at h
  obtain ⟨h1, h2⟩ := num_clear hP ht hw hn hm hx hy h
  exact ⟨by rw [h1], h2⟩

theorem unamb_str (hP : Lawful P) (t : Ty) (hf : ∀ v, Fits t v → ∃ b, v = .str b ∧ Text b)
    (hp : ∀ b, print P t (.str b) = P.str b) : Unamb P t := by
  intro v v' x y hv hv' hx hy h
  obtain ⟨a, rfl, ha⟩ := hf v hv.1
  obtain ⟨b, rfl, hb⟩ := hf v' hv'.1
  rw [hp, hp] at h
  obtain ⟨h1, h2⟩ := hP.str_delim a b x y ha.1 hb.1 h
  exact ⟨by rw [h1], h2⟩

theorem fits_V {v : Val} (h : Fits .V v) : ∃ ty d, v = .variant ty d := by
  cases v <;> simp_all [Fits]
theorem fits_B {v : Val} (h : Fits .B v) : ∃ b, v = .bool b := by
  cases v <;> simp_all [Fits]
theorem fits_A {e : Ty} {v : Val} (h : Fits (.A e) v) : ∃ vs, v = .arr vs := by
  cases v <;> simp_all [Fits]
theorem fits_M {e : Ty} {v : Val} (h : Fits (.M e) v) : v = .nothing ∨ ∃ x, v = .just x := by
  cases v <;> simp_all [Fits]
theorem fits_tuple {ts : List Ty} {v : Val} (h : Fits (.tuple ts) v) : ∃ vs, v = .tup vs := by
  cases v <;> simp_all [Fits]
theorem fits_dict {k l : Ty} {v : Val} (h : Fits (.dict k l) v) : ∃ x y, v = .tup [x, y] := by
  cases v <;> try (simp [Fits] at h; done)
  rename_i vs
  match vs, h with
  | [x, y], _ => exact ⟨x, y, rfl⟩

theorem unamb_B : Unamb P .B := by
  intro v w x y hv hw hx hy h
  obtain ⟨a, rfl⟩ := fits_B hv.1
  obtain ⟨b, rfl⟩ := fits_B hw.1
  cases a <;> cases b <;> simp_all [print]

theorem unamb_V (hP : Lawful P) : Unamb P .V := by
  intro v w x y hv hw hx hy h
  obtain ⟨ty, d, rfl⟩ := fits_V hv.1
  obtain ⟨ty', d', rfl⟩ := fits_V hw.1
  have h1 : Utf8 ty := by simpa [Legible] using hv.2
  have h2 : Utf8 ty' := by simpa [Legible] using hw.2
  simp only [print, printType_eq hP h1, printType_eq hP h2, List.append_assoc] at h
  obtain ⟨h3, h4⟩ := hP.str_delim _ _ _ _ h1 h2 (List.append_cancel_left h)
  obtain ⟨h5, h6⟩ := brackets_clear (byte_clear hP) (fun v _ => num_starts hP .Y v.toNat) d d' _ _
    (fun _ _ => trivial) (fun _ _ => trivial) (List.append_cancel_left h4)
  exact ⟨by rw [h3, h5], List.append_cancel_left h6⟩

theorem unamb_A (hP : Lawful P) {e : Ty} (ih : Unamb P e) : Unamb P (.A e) := by
  intro v w x y hv hw hx hy h
  obtain ⟨vs, rfl⟩ := fits_A hv.1
  obtain ⟨ws, rfl⟩ := fits_A hw.1
  simp only [Fits, Legible] at hv hw
  have hst : Starts (print P e) fun v => Fits e v ∧ Legible e v := fun v hv => print_starts hP e v hv.1 hv.2
  have hvs : ∀ v ∈ vs, Fits e v ∧ Legible e v := fun v h => ⟨hv.1 v h, hv.2 v h⟩
  have hws : ∀ v ∈ ws, Fits e v ∧ Legible e v := fun v h => ⟨hw.1 v h, hw.2 v h⟩
  simp only [print] at h
  cases hsz : size e with
  | some n =>
    simp only [hsz] at h
    obtain ⟨h1, h2⟩ := brackets_clear ih hst vs ws x y hvs hws h
    exact ⟨by rw [h1], h2⟩
  | none =>
    simp only [hsz, looseBrackets, List.append_assoc] at h
    obtain ⟨h1, h2⟩ := loose_clear ih hst vs ws x y hvs hws (List.append_cancel_left h)
    exact ⟨by rw [h1], h2⟩

theorem unamb_M {e : Ty} (ih : Unamb P e) : Unamb P (.M e) := by
  intro v w x y hv hw hx hy h
  rcases fits_M hv.1 with rfl | ⟨v, rfl⟩ <;> rcases fits_M hw.1 with rfl | ⟨w, rfl⟩
  · exact ⟨rfl, by simpa [print] using h⟩
  · simp [print] at h
  · simp [print] at h
  · simp only [Fits, Legible] at hv hw
    simp only [print, List.append_assoc] at h
    obtain ⟨h1, h2⟩ := ih v w _ _ hv hw (Term.cons (.inr (.inl rfl))) (Term.cons (.inr (.inl rfl)))
      (List.append_cancel_left h)
    exact ⟨by rw [h1], List.append_cancel_left (as := [41]) h2⟩

theorem unamb_tuple {ts : List Ty} (ih : ∀ t ∈ ts, Unamb P t) : Unamb P (.tuple ts) := by
  intro v w x y hv hw hx hy h
  obtain ⟨vs, rfl⟩ := fits_tuple hv.1
  obtain ⟨ws, rfl⟩ := fits_tuple hw.1
  simp only [Fits, Legible] at hv hw
  simp only [print] at h
  obtain ⟨h1, h2⟩ := parensAll_clear ih hv.1 hv.2 hw.1 hw.2 h
  exact ⟨by rw [h1], h2⟩

theorem unamb_dict {k l : Ty} (ihk : Unamb P k) (ihl : Unamb P l) : Unamb P (.dict k l) := by
  intro v w x y hv hw hx hy h
  obtain ⟨a, b, rfl⟩ := fits_dict hv.1
  obtain ⟨a', b', rfl⟩ := fits_dict hw.1
  simp only [Fits, Legible] at hv hw
  simp only [print] at h
  have := parensAll_clear (P := P) (ts := [k, l]) (vs := [a, b]) (ws := [a', b']) (x := x) (y := y)
    (by
      intro t ht
      simp only [List.mem_cons, List.not_mem_nil, or_false] at ht
      rcases ht with rfl | rfl
      · exact ihk
      · exact ihl)
    ⟨hv.1.1, hv.1.2, trivial⟩ ⟨hv.2.1, hv.2.2, trivial⟩ ⟨hw.1.1, hw.1.2, trivial⟩ ⟨hw.2.1, hw.2.2, trivial⟩
    (by simpa only [printAll] using h)
  exact ⟨by rw [this.1], this.2⟩

theorem unamb (hP : Lawful P) (t : Ty) : ¬ Component .D t → Unamb P t := by
  induction t using Ty.ind with
  | b => intro _; exact unamb_B
  | y => intro _; exact unamb_num hP .Y 1 (by simp) rfl (by intro v h; cases v <;> simp_all [Fits]) fun _ => by simp [print]
  | n => intro _; exact unamb_num hP .N 2 (by simp) rfl (by intro v h; cases v <;> simp_all [Fits]) fun _ => by simp [print]
  | q => intro _; exact unamb_num hP .Q 2 (by simp) rfl (by intro v h; cases v <;> simp_all [Fits]) fun _ => by simp [print]
  | i => intro _; exact unamb_num hP .I 4 (by simp) rfl (by intro v h; cases v <;> simp_all [Fits]) fun _ => by simp [print]
  | u => intro _; exact unamb_num hP .U 4 (by simp) rfl (by intro v h; cases v <;> simp_all [Fits]) fun _ => by simp [print]
  | x => intro _; exact unamb_num hP .X 8 (by simp) rfl (by intro v h; cases v <;> simp_all [Fits]) fun _ => by simp [print]
  | t => intro _; exact unamb_num hP .T 8 (by simp) rfl (by intro v h; cases v <;> simp_all [Fits]) fun _ => by simp [print]
  | d => intro h; exact absurd (Component.refl _) h
  | s => intro _; exact unamb_str hP .S (by intro v h; cases v <;> simp_all [Fits]) fun _ => by simp [print]
  | o => intro _; exact unamb_str hP .O (by intro v h; cases v <;> simp_all [Fits]) fun _ => by simp [print]
  | g => intro _; exact unamb_str hP .G (by intro v h; cases v <;> simp_all [Fits]) fun _ => by simp [print]
  | v => intro _; exact unamb_V hP
  | a e ih => exact fun hc => unamb_A hP (ih fun h => hc (.array h))
  | m e ih => exact fun hc => unamb_M (ih fun h => hc (.maybe h))
  | tuple ts ih => exact fun hc => unamb_tuple fun t ht => ih t ht fun h => hc (.member h ht)
  | dict k l ihk ihl => exact fun hc => unamb_dict (ihk fun h => hc (.key h)) (ihl fun h => hc (.value h))

end GV
