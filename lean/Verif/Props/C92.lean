import Verif.Proofs.Descend
/-
C92: going from variants to the variants in them, what overlapping elements can make of it.
-/
namespace GV.Props
open GV Spec

/-- The claim: the number of variants that a program comes upon is bounded by a polynomial in the number of
    bytes.  (All lengths are below 2^63, so some limit for the degree is needed for this to say anything.) -/
def C92_full : Prop :=
  ∃ k ≤ 2 ^ 32, ∀ (c : Cfg) (s : Slice) (n : Nat), 8 ∣ s.addr → s.len < 2 ^ 63 →
    descend c (s.len + 1) s = .ok n → n ≤ (s.len + 2) ^ k

/-- For each `n` there are no more than `27 * n` bytes that make the program come upon `2 ^ n` variants: the
    elements of an array may overlap, so both elements of an array can be the same bytes, and so on in each. -/
theorem c92_bomb (c : Cfg) (n : Nat) (hn : 27 * n < 2 ^ 63) :
    ∃ b : Bytes, b.length ≤ 27 * n ∧ ∃ m ≥ 2 ^ n, ∀ addr fuel, 8 ∣ addr → b.length < fuel →
      descend c fuel ⟨addr, b⟩ = .ok m := by
  have hl := bomb_length n
  exact ⟨bomb n, hl.1, bombCount n, bombCount_ge n, fun addr fuel ha hf =>
    bomb_descend n fuel ⟨addr, bomb n⟩ (by omega) ha rfl (by simp only [Slice.len]; omega)⟩

-- 24 bytes, 46 variants; with twice the bytes it is 766
example : bomb 4 = [0, 0, 0, 0, 97, 118, 6, 0, 6, 0, 97, 118, 12, 0, 12, 0, 97, 118, 18, 0, 18, 0, 97, 118] := by
  decide +kernel
example : descend dbg 25 ⟨64, bomb 4⟩ = .ok 46 := by decide +kernel
example : (bomb 8).length = 48 ∧ descend rel 49 ⟨64, bomb 8⟩ = .ok 766 := by decide +kernel

theorem c92_full_false : ¬ C92_full := by
  rintro ⟨k, hk, h⟩
  obtain ⟨n, hn⟩ : ∃ n : Nat, n = 2 ^ 57 := ⟨_, rfl⟩
  obtain ⟨b, hb, m, hm, hd⟩ := c92_bomb dbg n (by rw [hn]; decide)
  have hlb : b.length < 2 ^ 62 := by omega
  have h1 := h dbg ⟨0, b⟩ m (Nat.dvd_zero _) (by simp only [Slice.len]; omega)
    (hd 0 (b.length + 1) (Nat.dvd_zero _) (Nat.lt_succ_self _))
  have h2 : (Slice.len ⟨0, b⟩ + 2) ^ k ≤ (2 ^ 63) ^ k := Nat.pow_le_pow_left (by simp only [Slice.len]; omega) k
  rw [← Nat.pow_mul] at h2
  have h3 : 2 ^ (63 * k) < 2 ^ n := Nat.pow_lt_pow_right (by decide) (by omega)
  omega

/-- What holds: in normal form, to any depth, there are no more variants than half the number of bytes, and the
    program comes upon exactly those that are in the value. -/
theorem c92_normal_partial (c : Cfg) (x : Tree) (addr fuel : Nat) (hx : x.Fits .V) (ha : 8 ∣ addr)
    (hl : (x.enc (.pdf c.bigEndian) .V).length < 2 ^ 63) (hf : (x.enc (.pdf c.bigEndian) .V).length < fuel) :
    descend c fuel ⟨addr, x.enc (.pdf c.bigEndian) .V⟩ = .ok (chained x) ∧
      2 * chained x ≤ (x.enc (.pdf c.bigEndian) .V).length :=
  ⟨((chains_all c x).1 hx).2 fuel _ ha hl rfl hf, ((chains_all c x).1 hx).1⟩

-- an array of a byte, an array of two variants, and an array of none
def threeLevels : Tree := .variant (.A .V) (.arr [.variant .Y (.num 5),
  .variant (.A .V) (.arr [.variant .Y (.num 1), .variant .V (.variant .Y (.num 2))]), .variant (.A .V) (.arr [])])
example : threeLevels.Fits .V := by simp [threeLevels, Tree.Fits, Tree.FitsEach, numWidth]
example : chained threeLevels = 6 ∧ (threeLevels.enc (.pdf false) .V).length = 41 := by decide +kernel
example : descend dbg 42 ⟨8, threeLevels.enc (.pdf false) .V⟩ = .ok 6 := by decide +kernel

/-- The program ends, whatever the bytes (fewer than 2^32 of them): there is a number such that, however deep
    it may call itself beyond the number of bytes, it comes to that, without panic. -/
theorem c92_ends (c : Cfg) (s : Slice) (ha : 8 ∣ s.addr) (hl : s.len < 2 ^ 32) :
    ∃ n, 1 ≤ n ∧ n ≤ 2 ^ s.len ∧ ∀ fuel, s.len < fuel → descend c fuel s = .ok n := by
  obtain ⟨n, hn⟩ := descend_total (c := c) s.len s (Nat.le_refl _) ha hl
  have h1 := hn (s.len + 1) (Nat.lt_succ_self _)
  refine ⟨n, ?_, descend_bound (c := c) _ s n ha (by omega) h1, hn⟩
  simp only [descend] at h1
  obtain ⟨o, _, h1⟩ := Res.bind_eq_ok.1 h1
  cases o with
  | none => cases h1; exact Nat.le_refl _
  | some a =>
    obtain ⟨_, _, h1⟩ := Res.bind_eq_ok.1 h1
    obtain ⟨_, _, h1⟩ := Res.bind_eq_ok.1 h1
    cases h1
    omega

-- bytes that are no array of anything sensible
example : descend dbg 9 ⟨0, [7, 200, 3, 3, 2, 0, 97, 118]⟩ = .ok 4 := by decide +kernel

/-- Whatever the bytes, if the program comes to a number, it is at most two to the number of bytes. -/
theorem c92_bound (c : Cfg) (s : Slice) (fuel n : Nat) (ha : 8 ∣ s.addr) (hl : s.len < 2 ^ 63)
    (h : descend c fuel s = .ok n) : n ≤ 2 ^ s.len :=
  descend_bound fuel s n ha hl h

/-- And no program, of whatever types and by whatever path, comes deeper into variants than half the number of
    bytes, and one: a recursion over variants needs no more stack than that. -/
theorem c92_depth (c : Cfg) (t : Ty) (s : Slice) (p : List Step) (u : Ty) (r : Slice) (hx : Expands t)
    (hsm : Small t) (ha : Spec.align t ∣ s.addr) (hl : s.len < 2 ^ 63) (hp : Proper p)
    (h : walkFrom c t s p = .ok (some (u, r))) : insides p ≤ s.len / 2 + 1 := by
  unfold walkFrom at h
  obtain ⟨q, h1, h2⟩ := Res.bind_eq_ok.1 h
  obtain ⟨q', h1', hg⟩ := cast_good (c := c) hx hsm ha hl
  rw [h1] at h1'; cases h1'
  have h3 := walk_insides p t q _ hp hg h2
  unfold atMost at h3
  cases hs : Spec.size t with
  | some n => rw [hs] at h3; simp only [Option.isSome_some, if_true] at h3; omega
  | none =>
    obtain ⟨q'', g1, _, g2, _⟩ := fromAligned_ok (c := c) hx ha
    rw [h1] at g1; cases g1
    have h4 : q.len ≤ s.len := by
      simp only [Slice.len, g2, castBytes, hs]
      split <;> simp
    rw [hs] at h3
    simp only [Option.isSome_none, Bool.false_eq_true, if_false] at h3
    omega

-- the bound is reached
example : walkFrom dbg .V ⟨64, [0, 118, 0, 118, 0, 118]⟩ [.inside .V, .inside .V, .inside .V, .inside (.tuple [])] =
    .ok (some (.tuple [], ⟨dbg.staticIdx, [0]⟩)) := by rfl
example : insides [.inside .V, .inside .V, .inside .V, .inside (.tuple [])] = 6 / 2 + 1 := by rfl

end GV.Props
