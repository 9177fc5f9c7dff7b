import Verif.Proofs.Struct
import Verif.Spec.Tame
import Verif.Proofs.Str
/-
Helper lemmas: reading a whole value gives what the specification says.
-/
namespace GV

/-! ### Variants -/

theorem memrchr0_none {b : Bytes} : memrchr0 b = none ↔ (0 : UInt8) ∉ b := by
  induction b with
  | nil => simp [memrchr0]
  | cons x xs ih =>
    simp only [memrchr0, List.mem_cons, not_or]
    cases h : memrchr0 xs with
    | some i =>
      have : ¬ ((0 : UInt8) ∉ xs) := fun h' => by rw [ih.2 h'] at h; cases h
      simp [this]
    | none =>
      by_cases hx : x = 0
      · simp [hx]
      · simp [hx, ih.1 h, Ne.symm hx]

theorem memrchr0_some {b : Bytes} : ∀ {i : Nat}, memrchr0 b = some i →
    ∃ d t, b = d ++ 0 :: t ∧ d.length = i ∧ (0 : UInt8) ∉ t := by
  induction b with
  | nil => intro i h; simp [memrchr0] at h
  | cons x xs ih =>
    intro i h
    simp only [memrchr0] at h
    cases hr : memrchr0 xs with
    | some j =>
      rw [hr] at h
      simp only [Option.some.injEq] at h
      obtain ⟨d, t, h1, h2, h3⟩ := ih hr
      exact ⟨x :: d, t, by simp [h1], by simp [h2, ← h], h3⟩
    | none =>
      rw [hr] at h
      simp only at h
      split at h
      · rename_i hx
        cases h
        exact ⟨[], xs, by simp [hx], rfl, memrchr0_none.1 hr⟩
      · cases h

theorem dropWhile_ne_zero {b : Bytes} (h : (0 : UInt8) ∉ b) :
    b.dropWhile (· ≠ 0) = [] ∧ b.takeWhile (· ≠ 0) = b := by
  induction b with
  | nil => exact ⟨rfl, rfl⟩
  | cons x xs ih =>
    have hx : x ≠ 0 := fun h' => h (by simp [h'])
    obtain ⟨h1, h2⟩ := ih (fun h' => h (by simp [h']))
    simp [hx] at h1 h2 ⊢
    exact ⟨h1, h2⟩

theorem variantParts_append {d t : Bytes} (h : (0 : UInt8) ∉ t) :
    Spec.variantParts (d ++ 0 :: t) = (t, d) := by
  have hr : (0 : UInt8) ∉ t.reverse := by simpa using h
  have key : ∀ (a : Bytes), (0 : UInt8) ∉ a → ∀ b : Bytes,
      (a ++ 0 :: b).dropWhile (· ≠ 0) = 0 :: b ∧ (a ++ 0 :: b).takeWhile (· ≠ 0) = a := by
    intro a
    induction a with
    | nil => intro _ b; simp
    | cons x xs ih =>
      intro ha b
      have hx : x ≠ 0 := fun h' => ha (by simp [h'])
      obtain ⟨h1, h2⟩ := ih (fun h' => ha (by simp [h'])) b
      simp [hx] at h1 h2 ⊢
      exact ⟨h1, h2⟩
  obtain ⟨h1, h2⟩ := key t.reverse hr d.reverse
  have hrev : (d ++ 0 :: t).reverse = t.reverse ++ 0 :: d.reverse := by simp
  unfold Spec.variantParts
  rw [hrev, h1, h2]
  simp

theorem variantParts_none {b : Bytes} (h : (0 : UInt8) ∉ b) : Spec.variantParts b = ([40, 41], []) := by
  unfold Spec.variantParts
  rw [(dropWhile_ne_zero (b := b.reverse) (by simpa using h)).1]

theorem split_ok {c : Cfg} {s : Slice} (ha : 8 ∣ s.addr) :
    ∃ d, split c s = .ok ((Spec.variantParts s.bytes).1, d) ∧ 8 ∣ d.addr ∧
      d.bytes = (Spec.variantParts s.bytes).2 ∧
      (Inside s d ∨ d = ⟨c.spacesAddr + gap 8 c.spacesAddr, []⟩) := by
  unfold split
  cases h : memrchr0 s.bytes with
  | none =>
    simp only [emptyAligned_ok isAl8, Res.bind_ok, variantParts_none (memrchr0_none.1 h)]
    exact ⟨_, rfl, gap_dvd isAl8 _, rfl, Or.inr rfl⟩
  | some i =>
    obtain ⟨d, t, h1, h2, h3⟩ := memrchr0_some h
    have hlen : i + 1 ≤ s.bytes.length := by rw [h1]; simp [h2]
    have hp : Slice.Promise 8 ⟨s.addr, s.bytes.take i⟩ := Or.inr ha
    have hle : i ≤ s.len := by simp only [Slice.len]; omega
    have hle1 : 1 ≤ (⟨s.addr + i, s.bytes.drop i⟩ : Slice).len := by
      simp only [Slice.len, List.length_drop]; omega
    simp only [splitAt]
    rw [if_pos hle, unchecked_ok hp]
    simp only [Res.bind_ok, Res.pure_eq, Slice.from_]
    rw [if_pos hle1]
    have e1 : s.bytes.take i = d := by rw [h1, ← h2]; simp
    have e2 : (s.bytes.drop i).drop 1 = t := by rw [h1, ← h2]; simp
    rw [e2, h1, variantParts_append h3]
    refine ⟨⟨s.addr, d⟩, by simp [← h1, e1], ha, rfl, Or.inl ⟨0, i, Nat.zero_le _, by simp only [Slice.len]; omega, ?_⟩⟩
    simp [Spec.sub, e1]

/-! ### Facts about the specification's decoder -/

/-- The value of a child. -/
def decChild (R : Spec.Rules) (t : Ty) : Option Bytes → Val
  | some x => Spec.dec R t x
  | none => Spec.dflt t

/-- Raggedness of a child. -/
def raggedChild (R : Spec.Rules) (t : Ty) : Option Bytes → Bool
  | some x => Spec.ragged R t x
  | none => false

theorem dec_A (R : Spec.Rules) (e : Ty) (b : Bytes) :
    Spec.dec R (.A e) b = .arr ((Spec.arrChildren R e b).map (decChild R e)) := by
  rw [Spec.dec]
  rfl

theorem dec_M (R : Spec.Rules) (e : Ty) (b : Bytes) :
    Spec.dec R (.M e) b = match Spec.maybeChild e b with
      | some x => .just (Spec.dec R e x)
      | none => .nothing := by
  rw [Spec.dec]
  rfl

theorem decAll_cons (R : Spec.Rules) (t : Ty) (ts : List Ty) (o : Option Bytes) (os : List (Option Bytes)) :
    Spec.decAll R (t :: ts) (o :: os) = decChild R t o :: Spec.decAll R ts os := by
  cases o <;> simp only [Spec.decAll, decChild]

theorem raggedAny_cons (R : Spec.Rules) (t : Ty) (ts : List Ty) (o : Option Bytes) (os : List (Option Bytes)) :
    Spec.raggedAny R (t :: ts) (o :: os) = (raggedChild R t o || Spec.raggedAny R ts os) := by
  cases o <;> simp only [Spec.raggedAny, raggedChild]

theorem ragged_A (R : Spec.Rules) (e : Ty) (b : Bytes) :
    Spec.ragged R (.A e) b = ((Spec.arrChildren R e b).any (badChild e) ||
      (Spec.arrChildren R e b).any (raggedChild R e)) := by
  rw [Spec.ragged]
  induction Spec.arrChildren R e b with
  | nil => rfl
  | cons o os ih =>
    simp only [List.any_cons, ih]
    cases o with
    | none => simp [badChild, raggedChild]
    | some x =>
      simp only [badChild, raggedChild, Option.elim]
      cases Spec.badSize e x <;> cases Spec.ragged R e x <;> simp

theorem membersFrom_length (b : Bytes) (l : Nat) (e : Option Nat) (ts : List Ty) :
    ∀ pos k, (Spec.membersFrom b l e pos k ts).length = ts.length := by
  induction ts with
  | nil => intros; rfl
  | cons t ts ih =>
    intro pos k
    simp only [Spec.membersFrom]
    cases Spec.size t <;> simp [ih]

theorem memberChildren_length (R : Spec.Rules) (ts : List Ty) (b : Bytes) :
    (Spec.memberChildren R ts b).length = ts.length := by
  unfold Spec.memberChildren
  repeat' split
  all_goals simp [membersFrom_length]

theorem decAll_length (R : Spec.Rules) (ts : List Ty) : ∀ os : List (Option Bytes),
    os.length = ts.length → (Spec.decAll R ts os).length = ts.length := by
  induction ts with
  | nil => intro os h; cases os <;> rfl
  | cons t ts ih =>
    intro os h
    cases os with
    | nil => simp at h
    | cons o os => rw [decAll_cons]; simp [ih os (by simpa using h)]

theorem dec_dict (R : Spec.Rules) (k v : Ty) (b : Bytes) :
    Spec.dec R (.dict k v) b = Spec.dec R (.tuple [k, v]) b := by
  have h := memberChildren_length R [k, v] b
  rw [Spec.dec, Spec.dec]
  match hm : Spec.memberChildren R [k, v] b, h with
  | [x, y], _ =>
    simp only [decAll_cons]
    cases x <;> cases y <;> simp [decChild, Spec.decAll]

theorem ragged_dict (R : Spec.Rules) (k v : Ty) (b : Bytes) :
    Spec.ragged R (.dict k v) b = Spec.ragged R (.tuple [k, v]) b := by
  have h := memberChildren_length R [k, v] b
  rw [Spec.ragged, Spec.ragged]
  match hm : Spec.memberChildren R [k, v] b, h with
  | [x, y], _ =>
    simp only [raggedAny_cons]
    cases x <;> cases y <;> simp [raggedChild, Spec.raggedAny]

theorem dflt_dict (k v : Ty) : Spec.dflt (.dict k v) = Spec.dflt (.tuple [k, v]) := by
  simp [Spec.dflt, Spec.dflts]

/-- children that all decode to default values -/
theorem decAll_dflts (R : Spec.Rules) (ts : List Ty) : ∀ os : List (Option Bytes),
    os.length = ts.length → (∀ p ∈ ts.zip os, decChild R p.1 p.2 = Spec.dflt p.1) →
    Spec.decAll R ts os = Spec.dflts ts := by
  induction ts with
  | nil => intro os h _; cases os <;> rfl
  | cons t ts ih =>
    intro os h hp
    cases os with
    | nil => simp at h
    | cons o os =>
      rw [decAll_cons, Spec.dflts, hp (t, o) (by simp), ih os (by simpa using h)
        (fun p hm => hp p (by simp [hm]))]

theorem raggedAny_false (R : Spec.Rules) (ts : List Ty) : ∀ os : List (Option Bytes),
    (∀ p ∈ ts.zip os, raggedChild R p.1 p.2 = false) → Spec.raggedAny R ts os = false := by
  induction ts with
  | nil => intro os _; cases os <;> rfl
  | cons t ts ih =>
    intro os hp
    cases os with
    | nil => rfl
    | cons o os =>
      rw [raggedAny_cons, hp (t, o) (by simp), ih os (fun p hm => hp p (by simp [hm]))]
      rfl

theorem place_nil {l a e : Nat} {x : Bytes} (h : Spec.place [] l a e = some x) : x = [] := by
  unfold Spec.place at h
  split at h
  · cases h; simp [Spec.sub]
  · cases h

theorem membersFrom_nil (l : Nat) (e : Option Nat) (ts : List Ty) :
    ∀ pos k, ∀ o ∈ Spec.membersFrom [] l e pos k ts, o = none ∨ o = some [] := by
  induction ts with
  | nil => intro pos k o h; simp [Spec.membersFrom] at h
  | cons t ts ih =>
    intro pos k o h
    have key : ∀ (p : Option Bytes), (∀ x, p = some x → x = []) → p = none ∨ p = some [] := by
      intro p hp
      cases p with
      | none => exact Or.inl rfl
      | some x => rw [hp x rfl]; exact Or.inr rfl
    simp only [Spec.membersFrom] at h
    cases hs : Spec.size t with
    | some n =>
      rw [hs] at h
      rcases List.mem_cons.1 h with rfl | h
      · apply key
        intro x hx
        obtain ⟨s, _, hx⟩ := Option.bind_eq_some_iff.1 hx
        exact place_nil hx
      · exact ih _ _ o h
    | none =>
      rw [hs] at h
      rcases List.mem_cons.1 h with rfl | h
      · apply key
        intro x hx
        obtain ⟨s, _, hx⟩ := Option.bind_eq_some_iff.1 hx
        obtain ⟨e', _, hx⟩ := Option.bind_eq_some_iff.1 hx
        exact place_nil hx
      · exact ih _ _ o h

theorem memberChildren_nil (R : Spec.Rules) (ts : List Ty) :
    ∀ o ∈ Spec.memberChildren R ts [], o = none ∨ o = some [] := by
  intro o h
  unfold Spec.memberChildren at h
  repeat' split at h
  all_goals first
    | exact membersFrom_nil _ _ _ _ _ o h
    | (left; obtain ⟨_, _, rfl⟩ := List.mem_map.1 h; rfl)

theorem arrChildren_nil (R : Spec.Rules) (e : Ty) : Spec.arrChildren R e [] = [] := by
  unfold Spec.arrChildren
  cases Spec.size e with
  | some n => simp [Spec.chunks]
  | none => simp [Spec.arrFrame, Spec.elemsFrom]

/-- Empty data is the default value, for every type. -/
theorem dec_nil (R : Spec.Rules) (t : Ty) :
    Spec.dec R t [] = Spec.dflt t ∧ Spec.ragged R t [] = false := by
  have tup : ∀ ts : List Ty, (∀ e ∈ ts, Spec.dec R e [] = Spec.dflt e ∧ Spec.ragged R e [] = false) →
      Spec.dec R (.tuple ts) [] = Spec.dflt (.tuple ts) ∧ Spec.ragged R (.tuple ts) [] = false := by
    intro ts ih
    rw [Spec.dec, Spec.ragged, Spec.dflt]
    have hm := memberChildren_nil R ts
    constructor
    · congr 1
      apply decAll_dflts _ _ _ (memberChildren_length R ts [])
      intro p hp
      obtain ⟨h1, h2⟩ := List.of_mem_zip hp
      rcases hm p.2 h2 with h | h
      · rw [h]; rfl
      · rw [h]; exact (ih p.1 h1).1
    · apply raggedAny_false
      intro p hp
      obtain ⟨h1, h2⟩ := List.of_mem_zip hp
      rcases hm p.2 h2 with h | h
      · rw [h]; rfl
      · rw [h]; exact (ih p.1 h1).2
  induction t using Ty.ind with
  | a e ih => rw [dec_A, ragged_A, arrChildren_nil]; exact ⟨rfl, rfl⟩
  | m e ih =>
    have : Spec.maybeChild e [] = none := by
      unfold Spec.maybeChild
      cases h : Spec.size e with
      | none => simp
      | some n =>
        have := (size_pos_dvd e n h).1
        simp only [List.length_nil]
        rw [if_neg (by omega)]
    rw [dec_M, Spec.ragged, this]
    exact ⟨rfl, rfl⟩
  | tuple ts ih => exact tup ts ih
  | dict k v ihk ihv =>
    rw [dec_dict, ragged_dict, dflt_dict]
    apply tup
    intro e he
    simp only [List.mem_cons, List.not_mem_nil, or_false] at he
    rcases he with rfl | rfl
    · exact ihk
    · exact ihv
  | _ => exact ⟨rfl, rfl⟩

theorem dec_nil_child (R : Spec.Rules) (t : Ty) : decChild R t none = Spec.dec R t [] :=
  (dec_nil R t).1.symm

/-- A fixed-size type with data of the wrong size has its default value; data of fixed-size types is
    never ragged. -/
theorem dec_fixed (R : Spec.Rules) (t : Ty) : ∀ n, Spec.size t = some n → ∀ b : Bytes,
    (b.length ≠ n → Spec.dec R t b = Spec.dflt t) ∧ Spec.ragged R t b = false := by
  have tup : ∀ ts : List Ty, (∀ e ∈ ts, ∀ n, Spec.size e = some n → ∀ b : Bytes,
      (b.length ≠ n → Spec.dec R e b = Spec.dflt e) ∧ Spec.ragged R e b = false) →
      ∀ n, Spec.size (.tuple ts) = some n → ∀ b : Bytes,
      (b.length ≠ n → Spec.dec R (.tuple ts) b = Spec.dflt (.tuple ts)) ∧
        Spec.ragged R (.tuple ts) b = false := by
    intro ts ih n hn b
    rw [Spec.dec, Spec.ragged, Spec.dflt]
    obtain ⟨e, he, hsz, _⟩ := size_tuple_members hn
    constructor
    · intro hne
      congr 1
      apply decAll_dflts _ _ _ (memberChildren_length R ts b)
      intro p hp
      obtain ⟨h1, h2⟩ := List.of_mem_zip hp
      unfold Spec.memberChildren at h2
      rw [hn] at h2
      simp only [if_neg hne] at h2
      obtain ⟨_, _, h3⟩ := List.mem_map.1 h2
      rw [← h3]; rfl
    · apply raggedAny_false
      intro p hp
      obtain ⟨h1, h2⟩ := List.of_mem_zip hp
      obtain ⟨m, hm⟩ := Option.isSome_iff_exists.1 (hsz p.1 h1)
      cases p.2 with
      | none => rfl
      | some x => exact (ih p.1 h1 m hm x).2
  induction t using Ty.ind with
  | a e ih => intro n h; simp [Spec.size] at h
  | m e ih => intro n h; simp [Spec.size] at h
  | tuple ts ih => exact tup ts ih
  | dict k v ihk ihv =>
    intro n hn b
    rw [dec_dict, ragged_dict, dflt_dict]
    rw [size_dict_eq] at hn
    refine tup [k, v] ?_ n hn b
    intro e he
    simp only [List.mem_cons, List.not_mem_nil, or_false] at he
    rcases he with rfl | rfl
    · exact ihk
    · exact ihv
  | s | o | g | v => intro n h; simp [Spec.size] at h
  | b =>
    intro n hn b
    simp only [Spec.size, Option.some.injEq] at hn
    subst hn
    refine ⟨fun h => ?_, rfl⟩
    cases b with
    | nil => rfl
    | cons x xs =>
      cases xs with
      | nil => simp at h
      | cons y ys => rfl
  | _ =>
    intro n hn b
    simp only [Spec.size, Option.some.injEq] at hn
    subst hn
    refine ⟨fun h => ?_, rfl⟩
    rw [Spec.dec, if_neg h]
    rfl

theorem sub_replicate {n lo hi : Nat} (h : hi ≤ n) :
    Spec.sub (List.replicate n (0 : UInt8)) lo hi = List.replicate (hi - lo) 0 := by
  simp [Spec.sub, List.take_replicate, Nat.min_eq_left h]

theorem membersFrom_zeros {N : Nat} (e : Option Nat) (ts : List Ty) : (∀ t ∈ ts, (Spec.size t).isSome) →
    ∀ pos k, ∀ p ∈ ts.zip (Spec.membersFrom (List.replicate N 0) N e pos k ts),
      p.2 = none ∨ p.2 = some (dfltBytes p.1) := by
  induction ts with
  | nil => intro _ pos k p h; simp at h
  | cons t ts ih =>
    intro hsz pos k p h
    obtain ⟨n, hn⟩ := Option.isSome_iff_exists.1 (hsz t (by simp))
    simp only [Spec.membersFrom, hn, List.zip_cons_cons] at h
    rcases List.mem_cons.1 h with rfl | h
    · simp only
      cases pos with
      | none => exact Or.inl rfl
      | some q =>
        simp only [Option.map_some, Option.bind_some, Spec.place]
        split
        · rename_i hh
          right
          rw [sub_replicate hh.2]
          simp [dfltBytes, hn]
        · exact Or.inl rfl
    · exact ih (fun u hu => hsz u (by simp [hu])) _ _ p h

theorem le_zeros (n : Nat) : Spec.le (List.replicate n 0) = 0 := by
  induction n with
  | zero => rfl
  | succ n ih => rw [List.replicate_succ, le_cons, ih]; rfl

theorem number_zeros (be : Bool) (n : Nat) : Spec.number be (List.replicate n 0) = 0 := by
  unfold Spec.number
  cases be <;> simp [le_zeros]

/-- All-zero data of a fixed-size type is its default value. -/
theorem dec_zeros (R : Spec.Rules) (t : Ty) : ∀ n, Spec.size t = some n →
    Spec.dec R t (List.replicate n 0) = Spec.dflt t := by
  have tup : ∀ ts : List Ty, (∀ e ∈ ts, ∀ n, Spec.size e = some n →
      Spec.dec R e (List.replicate n 0) = Spec.dflt e) →
      ∀ n, Spec.size (.tuple ts) = some n →
      Spec.dec R (.tuple ts) (List.replicate n 0) = Spec.dflt (.tuple ts) := by
    intro ts ih n hn
    rw [Spec.dec, Spec.dflt]
    obtain ⟨e, he, hsz, _⟩ := size_tuple_members hn
    congr 1
    apply decAll_dflts _ _ _ (memberChildren_length R ts _)
    intro p hp
    have h1 := (List.of_mem_zip hp).1
    unfold Spec.memberChildren at hp
    rw [hn] at hp
    simp only [List.length_replicate, if_true] at hp
    obtain ⟨m, hm⟩ := Option.isSome_iff_exists.1 (hsz p.1 h1)
    rcases membersFrom_zeros _ ts hsz _ _ p hp with h | h
    · rw [h]; rfl
    · rw [h]
      simp only [decChild, dfltBytes, hm]
      exact ih p.1 h1 m hm
  induction t using Ty.ind with
  | a e ih => intro n h; simp [Spec.size] at h
  | m e ih => intro n h; simp [Spec.size] at h
  | tuple ts ih => exact tup ts ih
  | dict k v ihk ihv =>
    intro n hn
    rw [dec_dict, dflt_dict]
    rw [size_dict_eq] at hn
    refine tup [k, v] ?_ n hn
    intro e he
    simp only [List.mem_cons, List.not_mem_nil, or_false] at he
    rcases he with rfl | rfl
    · exact ihk
    · exact ihv
  | s | o | g | v => intro n h; simp [Spec.size] at h
  | b => intro n hn; simp only [Spec.size, Option.some.injEq] at hn; subst hn; rfl
  | _ =>
    intro n hn
    simp only [Spec.size, Option.some.injEq] at hn
    subst hn
    rw [Spec.dec, number_zeros]
    simp [Spec.dflt]

theorem dec_dfltBytes (R : Spec.Rules) (t : Ty) :
    Spec.dec R t (dfltBytes t) = Spec.dflt t ∧ Spec.ragged R t (dfltBytes t) = false := by
  unfold dfltBytes
  cases h : Spec.size t with
  | some n => exact ⟨dec_zeros R t n h, (dec_fixed R t n h _).2⟩
  | none => exact dec_nil R t

theorem dec_bad {R : Spec.Rules} {t : Ty} {b : Bytes} (h : Spec.badSize t b = true) :
    Spec.dec R t b = Spec.dflt t ∧ Spec.ragged R t b = false := by
  cases t with
  | A e =>
    simp only [Spec.badSize] at h
    cases hs : Spec.size e with
    | none => simp [hs] at h
    | some n =>
      simp only [hs, bne_iff_ne] at h
      have : Spec.arrChildren R e b = [] := by simp [Spec.arrChildren, hs, h]
      rw [dec_A, ragged_A, this]
      exact ⟨rfl, rfl⟩
  | _ => simp [Spec.badSize] at h

/-- Casting does not change the meaning. -/
theorem dec_castBytes (R : Spec.Rules) (t : Ty) (b : Bytes) :
    Spec.dec R t (castBytes t b) = Spec.dec R t b ∧
      Spec.ragged R t (castBytes t b) = Spec.ragged R t b := by
  unfold castBytes
  cases h : Spec.size t with
  | some n =>
    simp only
    split
    · exact ⟨rfl, rfl⟩
    · rename_i hne
      rw [dec_zeros R t n h, (dec_fixed R t n h b).1 hne, (dec_fixed R t n h b).2,
        (dec_fixed R t n h _).2]
      exact ⟨rfl, rfl⟩
  | none =>
    simp only
    split
    · rename_i hb
      rw [(dec_nil R t).1, (dec_nil R t).2, (dec_bad hb).1, (dec_bad hb).2]
      exact ⟨rfl, rfl⟩
    · exact ⟨rfl, rfl⟩

/-! ### Tame data -/

theorem TameAll_cons (R : Spec.Rules) (t : Ty) (ts : List Ty) (o : Option Bytes) (os : List (Option Bytes)) :
    Spec.TameAll R (t :: ts) (o :: os) = ((∀ x, o = some x → Spec.Tame R t x) ∧ Spec.TameAll R ts os) := by
  rw [Spec.TameAll]

theorem tame_dict (R : Spec.Rules) (k v : Ty) (b : Bytes) :
    Spec.Tame R (.dict k v) b ↔ Spec.Tame R (.tuple [k, v]) b := by
  simp only [Spec.Tame]
  have hlen := memberChildren_length R [k, v] b
  match hm : Spec.memberChildren R [k, v] b, hlen with
  | [x, y], _ => simp only [Spec.TameAll, and_true]

theorem tameAll_of {R : Spec.Rules} {ts : List Ty} : ∀ {os : List (Option Bytes)},
    (∀ p ∈ ts.zip os, ∀ x, p.2 = some x → Spec.Tame R p.1 x) → Spec.TameAll R ts os := by
  induction ts with
  | nil => intro os _; cases os <;> simp [Spec.TameAll]
  | cons t ts ih =>
    intro os h
    cases os with
    | nil => simp [Spec.TameAll]
    | cons o os =>
      rw [TameAll_cons]
      exact ⟨fun x hx => h (t, o) (by simp) x hx, ih fun p hp => h p (by simp [hp])⟩

theorem frameCount_fixed {ts : List Ty} {n : Nat} (hs : Spec.size (.tuple ts) = some n) :
    Spec.frameCount ts = 0 := by
  obtain ⟨e, _, hsz, _⟩ := size_tuple_members hs
  unfold Spec.frameCount
  rw [List.length_eq_zero_iff, List.filter_eq_nil_iff]
  intro t ht
  have := hsz t (List.dropLast_subset _ ht)
  cases h : Spec.size t <;> simp [h] at this ⊢

/-- There are no framing offsets in fixed-size data. -/
theorem tame_fixed (R : Spec.Rules) (t : Ty) : ∀ n, Spec.size t = some n → ∀ b, Spec.Tame R t b := by
  have tup : ∀ ts : List Ty, (∀ e ∈ ts, ∀ n, Spec.size e = some n → ∀ b, Spec.Tame R e b) →
      ∀ n, Spec.size (.tuple ts) = some n → ∀ b, Spec.Tame R (.tuple ts) b := by
    intro ts ih n hn b
    rw [Spec.Tame]
    refine ⟨fun i o hi => ?_, tameAll_of fun p hp x _ => ?_⟩
    · rw [frameCount_fixed hn] at hi; omega
    · obtain ⟨e, _, hsz, _⟩ := size_tuple_members hn
      have h1 := (List.of_mem_zip hp).1
      obtain ⟨m, hm⟩ := Option.isSome_iff_exists.1 (hsz p.1 h1)
      exact ih p.1 h1 m hm x
  induction t using Ty.ind with
  | a e ih => intro n h; simp [Spec.size] at h
  | m e ih => intro n h; simp [Spec.size] at h
  | tuple ts ih => exact tup ts ih
  | dict k v ihk ihv =>
    intro n hn b
    rw [tame_dict]
    rw [size_dict_eq] at hn
    refine tup [k, v] ?_ n hn b
    intro e he
    simp only [List.mem_cons, List.not_mem_nil, or_false] at he
    rcases he with rfl | rfl
    · exact ihk
    · exact ihv
  | _ => intros; simp [Spec.Tame]

theorem place_le {b x : Bytes} {l a e : Nat} (h : Spec.place b l a e = some x) : x.length ≤ b.length := by
  unfold Spec.place at h
  split at h
  · cases h; exact sub_length_le' _ _ _
  · cases h

theorem elemsFrom_le {b : Bytes} {l al : Nat} (stops : List Nat) : ∀ {prev : Nat} {x : Bytes},
    some x ∈ Spec.elemsFrom b l al prev stops → x.length ≤ b.length := by
  induction stops with
  | nil => intro prev x h; simp [Spec.elemsFrom] at h
  | cons s ss ih =>
    intro prev x h
    simp only [Spec.elemsFrom, List.mem_cons] at h
    rcases h with h | h
    · exact place_le h.symm
    · exact ih h

theorem arrChildren_le {R : Spec.Rules} {e : Ty} {b x : Bytes} (h : some x ∈ Spec.arrChildren R e b) :
    x.length ≤ b.length := by
  unfold Spec.arrChildren at h
  split at h
  · split at h
    · simp only [List.mem_map, Option.some.injEq, exists_eq_right, Spec.chunks, List.mem_range] at h
      obtain ⟨i, _, rfl⟩ := h
      exact sub_length_le' _ _ _
    · simp at h
  · exact elemsFrom_le _ h

theorem maybeChild_le {e : Ty} {b x : Bytes} (h : Spec.maybeChild e b = some x) : x.length ≤ b.length := by
  unfold Spec.maybeChild at h
  split at h <;> split at h <;> cases h
  · exact Nat.le_refl _
  · simp

theorem membersFrom_le {b : Bytes} {l : Nat} {be : Option Nat} (ts : List Ty) :
    ∀ {pos : Option Nat} {k : Nat} {x : Bytes}, some x ∈ Spec.membersFrom b l be pos k ts →
      x.length ≤ b.length := by
  induction ts with
  | nil => intro pos k x h; simp [Spec.membersFrom] at h
  | cons t ts ih =>
    intro pos k x h
    simp only [Spec.membersFrom] at h
    split at h
    · rcases List.mem_cons.1 h with h | h
      · obtain ⟨s, _, hs⟩ := Option.bind_eq_some_iff.1 h.symm
        exact place_le hs
      · exact ih h
    · rcases List.mem_cons.1 h with h | h
      · obtain ⟨s, _, hs⟩ := Option.bind_eq_some_iff.1 h.symm
        obtain ⟨s, _, hs⟩ := Option.bind_eq_some_iff.1 hs
        exact place_le hs
      · exact ih h

theorem memberChildren_le {R : Spec.Rules} {ts : List Ty} {b x : Bytes}
    (h : some x ∈ Spec.memberChildren R ts b) : x.length ≤ b.length := by
  unfold Spec.memberChildren at h
  split at h
  · split at h
    · exact membersFrom_le _ h
    · simp at h
  · split at h
    · split at h
      · exact membersFrom_le _ h
      · simp at h
    · exact membersFrom_le _ h

/-- Data of less than 4 GiB is tame. -/
theorem tame_small (R : Spec.Rules) (t : Ty) : ∀ b : Bytes, b.length < 2 ^ 32 → Spec.Tame R t b := by
  have tup : ∀ ts : List Ty, (∀ e ∈ ts, ∀ b : Bytes, b.length < 2 ^ 32 → Spec.Tame R e b) →
      ∀ b : Bytes, b.length < 2 ^ 32 → Spec.Tame R (.tuple ts) b := by
    intro ts ih b hb
    rw [Spec.Tame]
    refine ⟨fun i o _ ho => Nat.lt_trans (frame_lt hb ho) (by decide), tameAll_of fun p hp x hx => ?_⟩
    have h2 := (List.of_mem_zip hp).2
    rw [hx] at h2
    exact ih p.1 (List.of_mem_zip hp).1 x (Nat.lt_of_le_of_lt (memberChildren_le h2) hb)
  induction t using Ty.ind with
  | a e ih =>
    intro b hb
    rw [Spec.Tame]
    exact ⟨fun _ o ho => Nat.lt_trans (stops_lt hb o ho) (by decide),
      fun x hx => ih x (Nat.lt_of_le_of_lt (arrChildren_le hx) hb)⟩
  | m e ih =>
    intro b hb
    rw [Spec.Tame]
    exact fun x hx => ih x (Nat.lt_of_le_of_lt (maybeChild_le hx) hb)
  | tuple ts ih => exact tup ts ih
  | dict k v ihk ihv =>
    intro b hb
    rw [tame_dict]
    refine tup [k, v] ?_ b hb
    intro e he
    simp only [List.mem_cons, List.not_mem_nil, or_false] at he
    rcases he with rfl | rfl
    · exact ihk
    · exact ihv
  | _ => intros; simp [Spec.Tame]

/-- Casting keeps data tame. -/
theorem tame_castBytes {R : Spec.Rules} {t : Ty} {b : Bytes} (h : Spec.Tame R t b) :
    Spec.Tame R t (castBytes t b) := by
  unfold castBytes
  cases hs : Spec.size t with
  | some n => exact tame_fixed R t n hs _
  | none =>
    simp only
    split
    · exact tame_small R t _ (by decide)
    · exact h

theorem tame_dflt (R : Spec.Rules) (t : Ty) : Spec.Tame R t (dfltBytes t) := by
  unfold dfltBytes
  cases hs : Spec.size t with
  | some n => exact tame_fixed R t n hs _
  | none => exact tame_small R t _ (by decide)

/-! ### Reading -/

/-- `v`, unless something is ragged. -/
def guardRag {α : Type} (bad : Bool) (v : α) : Res α := if bad then .fail .unwrap else .ok v

theorem Small.A {e : Ty} (h : Small (.A e)) : Small e := by
  simp only [Small, Ty.show, List.length_cons] at *; omega
theorem Small.M {e : Ty} (h : Small (.M e)) : Small e := by
  simp only [Small, Ty.show, List.length_cons] at *; omega
theorem shows_ge {t : Ty} {ts : List Ty} (h : t ∈ ts) : t.show.length ≤ (Ty.shows ts).length := by
  induction ts with
  | nil => simp at h
  | cons u ts ih =>
    simp only [Ty.shows, List.length_append]
    rcases List.mem_cons.1 h with rfl | h
    · omega
    · have := ih h; omega
theorem Small.shows {ts : List Ty} (h : Small (.tuple ts)) : (Ty.shows ts).length < 2 ^ 40 := by
  simp only [Small, Ty.show, List.length_cons, List.length_append] at *; omega
theorem Small.dict {k v : Ty} (h : Small (.dict k v)) : (Ty.shows [k, v]).length < 2 ^ 40 := by
  simp only [Small, Ty.show, Ty.shows, List.length_cons, List.length_append, List.length_nil] at *; omega

/-- What reading a reference to a value of type `t` gives, for all suitable references. -/
def ViewOk (c : Cfg) (t : Ty) : Prop :=
  ∀ r : Slice, Spec.align t ∣ r.addr → castBytes t r.bytes = r.bytes →
    (Spec.size t = none → r.len < 2 ^ 63) → Spec.Tame (.crate c.bigEndian) t r.bytes →
    view c t r = guardRag (Spec.ragged (.crate c.bigEndian) t r.bytes)
      (Spec.dec (.crate c.bigEndian) t r.bytes)

theorem child_view {c : Cfg} {s : Slice} {t : Ty} {o : Option Bytes} {r : Slice} (ih : ViewOk c t)
    (h : RefFor c s t o r) (hl : Spec.size t = none → s.len < 2 ^ 63)
    (ht : ∀ x, o = some x → Spec.Tame (.crate c.bigEndian) t x) :
    view c t r = guardRag (raggedChild (.crate c.bigEndian) t o) (decChild (.crate c.bigEndian) t o) := by
  obtain ⟨h1, h2, h3⟩ := h
  have hlen : Spec.size t = none → r.len < 2 ^ 63 := by
    intro hs
    rcases h3 with ⟨lo, hi, _, _, rfl⟩ | h3
    · have := sub_length_le' s.bytes lo hi
      have := hl hs
      simp only [Slice.len] at *
      omega
    · simp [Slice.len, h3.1, dfltBytes, hs]
  have htame : Spec.Tame (.crate c.bigEndian) t r.bytes := by
    rw [h2]
    apply tame_castBytes
    cases o with
    | none => exact tame_dflt _ t
    | some x => exact ht x rfl
  rw [ih r h1 (by rw [h2]; exact castBytes_idem _ _) hlen htame, h2]
  cases o with
  | some x =>
    simp only [Option.getD_some, raggedChild, decChild, dec_castBytes]
  | none =>
    simp only [Option.getD_none, raggedChild, decChild, dec_castBytes, dec_dfltBytes]

theorem traverse_view {c : Cfg} {s : Slice} {t : Ty} (ih : ViewOk c t)
    (hl : Spec.size t = none → s.len < 2 ^ 63) {os : List (Option Bytes)} {rs : List Slice}
    (h : List.Forall₂ (RefFor c s t) os rs) (ht : ∀ x, some x ∈ os → Spec.Tame (.crate c.bigEndian) t x) :
    Res.traverse (view c t) rs = guardRag (os.any (raggedChild (.crate c.bigEndian) t))
      (os.map (decChild (.crate c.bigEndian) t)) := by
  induction h with
  | nil => rfl
  | @cons o r os rs h1 h2 ih2 =>
    rw [Res.traverse, child_view ih h1 hl (fun x hx => ht x (by simp [hx])),
      ih2 fun x hx => ht x (by simp [hx])]
    simp only [List.any_cons, List.map_cons, guardRag]
    cases raggedChild (.crate c.bigEndian) t o <;>
      cases os.any (raggedChild (.crate c.bigEndian) t) <;> simp

theorem viewAll_ok {c : Cfg} {s : Slice} (ts : List Ty) :
    (∀ t ∈ ts, ViewOk c t) → (∀ t ∈ ts, Spec.size t = none → s.len < 2 ^ 63) →
    ∀ (os : List (Option Bytes)) (rs : List Slice), RefsFor c s ts os rs →
    Spec.TameAll (.crate c.bigEndian) ts os →
    viewAll c ts rs = guardRag (Spec.raggedAny (.crate c.bigEndian) ts os)
      (Spec.decAll (.crate c.bigEndian) ts os) := by
  induction ts with
  | nil =>
    intro _ _ os rs h _
    cases os <;> cases rs <;> simp only [RefsFor] at h
    rw [viewAll]; rfl
  | cons t ts ih =>
    intro hv hl os rs h ht
    cases os with
    | nil => cases rs <;> simp only [RefsFor] at h
    | cons o os =>
      cases rs with
      | nil => simp only [RefsFor] at h
      | cons r rs =>
        obtain ⟨h1, h2⟩ := h
        rw [TameAll_cons] at ht
        rw [viewAll, child_view (hv t (by simp)) h1 (hl t (by simp)) ht.1,
          ih (fun u hu => hv u (by simp [hu])) (fun u hu => hl u (by simp [hu])) os rs h2 ht.2,
          raggedAny_cons, decAll_cons]
        simp only [guardRag]
        cases raggedChild (.crate c.bigEndian) t o <;>
          cases Spec.raggedAny (.crate c.bigEndian) ts os <;> simp

theorem members_nonfixed {ts : List Ty} {t : Ty} (ht : t ∈ ts) (h : Spec.size t = none) :
    Spec.size (.tuple ts) = none := by
  cases hs : Spec.size (.tuple ts) with
  | none => rfl
  | some n =>
    obtain ⟨e, _, hsz, _⟩ := size_tuple_members hs
    have := hsz t ht
    rw [h] at this; cases this

theorem castBytes_dict (k v : Ty) (b : Bytes) : castBytes (.dict k v) b = castBytes (.tuple [k, v]) b := by
  simp [castBytes, size_dict_eq, Spec.badSize]

theorem toBool_eq (b : Bytes) (h : b.length = 1) (R : Spec.Rules) :
    Val.bool (toBool b) = Spec.dec R .B b := by
  match b, h with
  | [x], _ =>
    rw [Spec.dec, toBool]
    congr 1
    have : x > 0 ↔ x ≠ 0 := by
      constructor
      · intro h h'; subst h'; exact absurd h (by decide)
      · intro h; exact UInt8.pos_iff_ne_zero.2 h
    simp [this]

theorem castBytes_fixed_len {t : Ty} {n : Nat} {b : Bytes} (hs : Spec.size t = some n)
    (hc : castBytes t b = b) : b.length = n := by
  simp only [castBytes, hs] at hc
  split at hc
  · assumption
  · rw [← hc]; simp

theorem number_view {c : Cfg} {b : Bytes} {n : Nat} (h : b.length = n) :
    (.ok (.num (fromNe c b)) : Res Val) =
      .ok (.num (if b.length = n then Spec.number c.bigEndian b else 0)) := by
  rw [if_pos h, fromNe_eq]

theorem text_eq (be : Bool) (b : Bytes) : toStr b = Spec.text (.crate be) b := by
  unfold Spec.text
  split
  · rename_i r hr
    have hb : b = r.reverse ++ [0] := by
      have := congrArg List.reverse hr
      simpa using this
    simp only [Spec.Rules.crate, if_true, hb, toStr, asBytesNC_append]
    by_cases h1 : (0 : UInt8) ∈ r.reverse
    · have : r.reverse.contains 0 = true := contains_zero.2 h1
      rw [if_pos this, if_neg (fun h => h.2 h1)]
    · have : ¬ r.reverse.contains 0 = true := fun h => h1 (contains_zero.1 h)
      rw [if_neg this]
      by_cases h2 : utf8Valid r.reverse = true
      · rw [if_pos h2, if_pos ⟨h2, h1⟩]
      · rw [if_neg h2, if_neg (fun h => h2 h.1)]
  · rename_i hne
    apply toStr_of_not
    intro s _ hs
    exact hne s.reverse (by rw [hs]; simp)

theorem view_ok (c : Cfg) (t : Ty) : Expands t → Small t → ViewOk c t := by
  have num : ∀ (t : Ty) (n : Nat), Spec.size t = some n →
      (∀ r : Slice, view c t r = .ok (.num (fromNe c r.bytes))) →
      (∀ b, Spec.dec (.crate c.bigEndian) t b = .num (if b.length = n then Spec.number c.bigEndian b else 0)) →
      ViewOk c t := by
    intro t n hs h1 h2 r _ hc _ _
    rw [(dec_fixed _ t n hs _).2, h1, h2]
    exact number_view (castBytes_fixed_len hs hc)
  induction t using Ty.ind with
  | b =>
    intro _ _ r _ hc _ _
    rw [view, toBool_eq _ (castBytes_fixed_len rfl hc) (.crate c.bigEndian)]
    rfl
  | y => intro _ _; exact num .Y 1 rfl (fun r => by rw [view]) (fun b => by rw [Spec.dec]; rfl)
  | n => intro _ _; exact num .N 2 rfl (fun r => by rw [view]) (fun b => by rw [Spec.dec]; rfl)
  | q => intro _ _; exact num .Q 2 rfl (fun r => by rw [view]) (fun b => by rw [Spec.dec]; rfl)
  | i => intro _ _; exact num .I 4 rfl (fun r => by rw [view]) (fun b => by rw [Spec.dec]; rfl)
  | u => intro _ _; exact num .U 4 rfl (fun r => by rw [view]) (fun b => by rw [Spec.dec]; rfl)
  | x => intro _ _; exact num .X 8 rfl (fun r => by rw [view]) (fun b => by rw [Spec.dec]; rfl)
  | t => intro _ _; exact num .T 8 rfl (fun r => by rw [view]) (fun b => by rw [Spec.dec]; rfl)
  | d => intro _ _; exact num .D 8 rfl (fun r => by rw [view]) (fun b => by rw [Spec.dec]; rfl)
  | s => intro _ _ r _ _ _ _; rw [view, Spec.dec, text_eq c.bigEndian]; rfl
  | o => intro _ _ r _ _ _ _; rw [view, Spec.dec, text_eq c.bigEndian]; rfl
  | g => intro _ _ r _ _ _ _; rw [view, Spec.dec, text_eq c.bigEndian]; rfl
  | v =>
    intro _ _ r ha _ _ _
    obtain ⟨d, h1, _, h2, _⟩ := split_ok (c := c) (s := r) (by simpa [Spec.align] using ha)
    rw [view, Spec.dec, h1, ← h2]
    rfl
  | a e ih =>
    intro hx hsm r ha hc hl ht
    have hx' := expands_A.1 hx
    have ha' : Spec.align e ∣ r.addr := by simpa [Spec.align] using ha
    have hl' : Spec.size e = none → r.len < 2 ^ 63 := fun _ => hl (by simp [Spec.size])
    rw [Spec.Tame] at ht
    obtain ⟨h1, h2⟩ := arrRefs_tame (c := c) hx' ha' hc hl' ht.1
    rw [view, ragged_A, dec_A]
    cases hb : (Spec.arrChildren (.crate c.bigEndian) e r.bytes).any (badChild e) with
    | true => rw [h1 hb]; rfl
    | false =>
      obtain ⟨rs, h3, h4⟩ := h2 hb
      rw [h3, Res.bind_ok, traverse_view (ih hx' hsm.A) hl' h4 ht.2]
      simp only [Bool.false_or, guardRag]
      split <;> rfl
  | m e ih =>
    intro hx hsm r ha hc hl ht
    have hx' := expands_M.1 hx
    have ha' : Spec.align e ∣ r.addr := by simpa [Spec.align] using ha
    have hl' : r.len < 2 ^ 63 := hl (by simp [Spec.size])
    have h := toOption_ok (c := c) hx' ha' (Nat.lt_trans hl' (by decide))
    rw [Spec.Tame] at ht
    rw [view, Spec.ragged, dec_M]
    cases hm : Spec.maybeChild e r.bytes with
    | none => rw [hm] at h; simp only at h; rw [h]; rfl
    | some x =>
      rw [hm] at h
      obtain ⟨h1, h2⟩ := h
      simp only
      cases hb : Spec.badSize e x with
      | true => rw [h1 hb]; rfl
      | false =>
        obtain ⟨r', h3, h4⟩ := h2 hb
        rw [h3, Res.bind_ok]
        simp only
        rw [child_view (ih hx' hsm.M) h4 (fun _ => hl') (fun z hz => ht z (by rw [hm]; exact hz))]
        rw [show raggedChild (.crate c.bigEndian) e (some x) = Spec.ragged (.crate c.bigEndian) e x from rfl]
        simp only [Bool.false_or, guardRag, decChild]
        by_cases hr : Spec.ragged (.crate c.bigEndian) e x = true
        · rw [if_pos hr, if_pos hr]; rfl
        · rw [if_neg hr, if_neg hr]; rfl
  | tuple ts ih =>
    intro hx hsm r ha hc hl ht
    obtain ⟨hx', d, hd⟩ := expands_tuple.1 hx
    rw [Spec.Tame] at ht
    obtain ⟨rs, h1, h2⟩ := tupRefs_tame (c := c) rfl hx' hd hsm.shows (by simpa [Spec.align] using ha) hc hl ht.1
    rw [view, h1, Res.bind_ok, viewAll_ok ts
      (fun t ht => ih t ht (hx' t ht) (by have := shows_ge ht; have := hsm.shows; unfold Small; omega))
      (fun t ht hs => hl (members_nonfixed ht hs)) _ rs h2 ht.2, Spec.ragged, Spec.dec]
    simp only [guardRag]
    split <;> rfl
  | dict k v ihk ihv =>
    intro hx hsm r ha hc hl ht
    obtain ⟨⟨hxk, hxv⟩, d, hd⟩ := expands_dict.1 hx
    have hx' : ∀ t ∈ [k, v], Expands t := by
      intro t ht
      simp only [List.mem_cons, List.not_mem_nil, or_false] at ht
      rcases ht with rfl | rfl
      · exact hxk
      · exact hxv
    rw [castBytes_dict] at hc
    rw [size_dict_eq] at hl
    rw [tame_dict, Spec.Tame] at ht
    have hsm' := hsm.dict
    obtain ⟨rs, h1, h2⟩ := tupRefs_tame (c := c) (size_dict_eq k v) hx' hd hsm'
      (by rw [align_dict_eq] at ha; simpa only [Spec.align] using ha) hc hl ht.1
    have hv : ∀ t ∈ [k, v], ViewOk c t := by
      intro t ht
      have := shows_ge ht
      have hs : Small t := by unfold Small; omega
      simp only [List.mem_cons, List.not_mem_nil, or_false] at ht
      rcases ht with rfl | rfl
      · exact ihk hxk hs
      · exact ihv hxv hs
    have h3 := viewAll_ok [k, v] hv (fun t ht hs => hl (members_nonfixed ht hs)) _ rs h2 ht.2
    rw [view, h1, Res.bind_ok, ragged_dict, dec_dict, Spec.ragged, Spec.dec]
    have hlen := memberChildren_length (.crate c.bigEndian) [k, v] r.bytes
    match hm : Spec.memberChildren (.crate c.bigEndian) [k, v] r.bytes, rs, h2, h3, hlen with
    | [x, y], [rk, rv], _, h3, _ =>
      simp only
      rw [viewAll, viewAll, viewAll] at h3
      cases hk : view c k rk with
      | fail f =>
        rw [hk] at h3
        simp only [Res.bind_fail, guardRag] at h3 ⊢
        split at h3
        · rename_i hr; rw [if_pos hr]; cases h3; rfl
        · cases h3
      | ok a =>
        cases hv : view c v rv with
        | fail f =>
          rw [hk, hv] at h3
          simp only [Res.bind_fail, Res.bind_ok, guardRag] at h3 ⊢
          split at h3
          · rename_i hr; rw [if_pos hr]; cases h3; rfl
          · cases h3
        | ok b =>
          rw [hk, hv] at h3
          simp only [Res.bind_ok, guardRag, Res.pure_eq] at h3 ⊢
          split at h3
          · cases h3
          · rename_i hr
            rw [if_neg hr]
            cases h3
            rfl

/-- Casting bytes to `t` and reading everything. -/
theorem readAs_tame {c : Cfg} {t : Ty} {s : Slice} (hx : Expands t) (hsm : Small t)
    (ha : Spec.align t ∣ s.addr) (hl : Spec.size t = none → s.len < 2 ^ 63)
    (ht : Spec.Tame (.crate c.bigEndian) t s.bytes) :
    readAs c t s = if Spec.ragged (.crate c.bigEndian) t s.bytes = true then .fail .unwrap
      else .ok (Spec.dec (.crate c.bigEndian) t s.bytes) := by
  obtain ⟨r, h1, h2, h3, h4⟩ := fromAligned_ok (c := c) hx ha
  have hlen : Spec.size t = none → r.len < 2 ^ 63 := by
    intro hs
    rcases h4 with rfl | h4
    · exact hl hs
    · simp [Slice.len, h4.1, dfltBytes, hs]
  unfold readAs
  rw [h1, Res.bind_ok, view_ok c t hx hsm r h2 (by rw [h3]; exact castBytes_idem _ _) hlen
    (by rw [h3]; exact tame_castBytes ht), h3, (dec_castBytes _ t _).1, (dec_castBytes _ t _).2]
  rfl

theorem readAs_ok' {c : Cfg} {t : Ty} {s : Slice} (hx : Expands t) (hsm : Small t)
    (ha : Spec.align t ∣ s.addr) (hl : Spec.size t = none → s.len < 2 ^ 32) :
    readAs c t s = if Spec.ragged (.crate c.bigEndian) t s.bytes = true then .fail .unwrap
      else .ok (Spec.dec (.crate c.bigEndian) t s.bytes) := by
  refine readAs_tame hx hsm ha (fun h => Nat.lt_trans (hl h) (by decide)) ?_
  cases hs : Spec.size t with
  | some n => exact tame_fixed _ t n hs _
  | none => exact tame_small _ t _ (hl hs)

theorem readAs_ok {c : Cfg} {t : Ty} {s : Slice} (hx : Expands t) (hsm : Small t)
    (ha : Spec.align t ∣ s.addr) (hl : s.len < 2 ^ 32) :
    readAs c t s = if Spec.ragged (.crate c.bigEndian) t s.bytes = true then .fail .unwrap
      else .ok (Spec.dec (.crate c.bigEndian) t s.bytes) := readAs_ok' hx hsm ha fun _ => hl

end GV
