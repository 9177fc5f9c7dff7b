import Verif.Proofs.Documented
import Verif.Props.C27_C32
import Verif.Props.C33_C36
import Verif.Props.C66
/-
C35: decoding against the documentation of the crate.  Further theorems about the letter of the
specification are in C33_C36.
-/
namespace GV.Props
open GV Spec

/-- Whatever is read is what the documentation says. -/
def C35_full : Prop := ∀ (c : Cfg) (t : Ty) (s : Slice) (v : Val), Expands t → Small t →
  Spec.align t ∣ s.addr → s.len < 2 ^ 63 → readAs c t s = .ok v → v = decDoc c.bigEndian t s.bytes

/-- More than 4 GiB of `aax` whose first framing offset is 2^64 − 1: without overflow checks the second
    element starts at 0 instead of beyond its end. -/
theorem c35_full_false : ¬ C35_full := by
  intro h
  obtain ⟨pre, hp⟩ := exists_huge
  have hal : Spec.align (.A (.A .X)) ∣ (huge pre).addr := show Spec.align (.A (.A .X)) ∣ 64 by decide
  have hlen : (huge pre).len < 2 ^ 63 := by rw [huge_len hp]; decide
  have hsub : Spec.sub (huge pre).bytes 0 (2 ^ 32) = pre := by
    rw [Spec.sub, List.drop_zero, huge]
    exact List.take_left' hp
  have h8 : pre.length % 8 = 0 := by rw [hp]
  have hc : arrChildrenWrap (.A .X) (huge pre).bytes = [none, some pre] := by
    simp only [arrChildrenWrap, Spec.size, huge_frame hp, elemsWrap, place]
    rw [if_neg (by decide), if_pos (by decide),
      show roundUp (2 ^ 64 - 1) (Spec.align (.A .X)) % 2 ^ 64 = 0 by decide, hsub]
  have hd : arrChildrenDoc (.A .X) (huge pre).bytes = [none, none] := by
    simp only [arrChildrenDoc, Spec.size, huge_frame hp, elemsFrom, place]
    rw [if_neg (by decide), if_neg (by decide)]
  have hpre : arrChildrenWrap .X pre = (chunks 8 pre).map some := by
    simp only [arrChildrenWrap, Spec.size, if_pos h8]
  have hr : raggedWrap (.A (.A .X)) (huge pre).bytes = false := by
    rw [raggedWrap, hc]
    simp only [List.any_cons, List.any_nil, Bool.or_false, Bool.false_or, badSize, Spec.size, h8]
    rw [raggedWrap, hpre]
    simp [List.any_map, badSize, raggedWrap]
  have h1 := c66_release rel (.A (.A .X)) (huge pre) rfl (by decide) (by decide) hal hlen
  rw [if_neg (by rw [hr]; decide)] at h1
  have h2 := h rel (.A (.A .X)) (huge pre) _ (by decide) (by decide) hal hlen h1
  rw [decDoc_A, hd, decWrap, hc] at h2
  simp only [List.map_cons, List.map_nil, docChild, dflt, Val.arr.injEq, List.cons.injEq, and_true,
    true_and] at h2
  rw [decWrap, hpre, Val.arr.injEq, List.map_eq_nil_iff, List.map_eq_nil_iff] at h2
  have h3 := congrArg List.length h2
  simp only [chunks, List.length_map, List.length_range, hp, List.length_nil] at h3
  exact absurd h3 (by decide)

/-- Whatever is read is what the documentation says, in builds with overflow checks, and in others below
    4 GiB or without huge framing offsets.  Missing: see `c66_release`. -/
theorem c35_documented_partial (c : Cfg) (t : Ty) (s : Slice) (v : Val) (hx : Expands t) (hsm : Small t)
    (ha : Spec.align t ∣ s.addr) (hl : s.len < 2 ^ 63)
    (hw : c.overflowChecks = true ∨ s.len < 2 ^ 32 ∨ Tame (.crate c.bigEndian) t s.bytes)
    (h : readAs c t s = .ok v) : v = decDoc c.bigEndian t s.bytes := by
  rw [decDoc_eq]
  exact c35_rules_partial c t s v hx hsm ha hl hw h

/-- Where the specification and the documentation agree on what to do, the value is the one of the
    specification. -/
theorem c35_plain_partial (c : Cfg) (t : Ty) (s : Slice) (v : Val) (hx : Expands t) (hsm : Small t)
    (ha : Spec.align t ∣ s.addr) (hl : s.len < 2 ^ 63)
    (hw : c.overflowChecks = true ∨ s.len < 2 ^ 32 ∨ Tame (.crate c.bigEndian) t s.bytes)
    (hp : Plain t s.bytes) (h : readAs c t s = .ok v) : v = dec (.pdf c.bigEndian) t s.bytes := by
  rw [← dec_plain _ t _ hp]
  exact c35_rules_partial c t s v hx hsm ha hl hw h

/-- `(ayay)` whose framing offset is too large: by the letter of the specification the first member takes
    in the framing offset, by the documentation it is empty. -/
example : decDoc false (.tuple [.A .Y, .A .Y]) [7, 8, 3] = .tup [.arr [], .arr []] ∧
    dec (.pdf false) (.tuple [.A .Y, .A .Y]) [7, 8, 3] = .tup [.arr [.num 7, .num 8, .num 3], .arr []] ∧
    readAs dbg (.tuple [.A .Y, .A .Y]) ⟨64, [7, 8, 3]⟩ = .ok (.tup [.arr [], .arr []]) := ⟨rfl, rfl, rfl⟩

/-- `(saay)`, plain though not in normal form: the second element of the array ends before it starts, the
    third overlaps the first. -/
def samplePlain : Bytes := [104, 0, 7, 8, 9, 2, 1, 3, 2]

example : Plain (.tuple [.S, .A (.A .Y)]) samplePlain ∧ readAs dbg (.tuple [.S, .A (.A .Y)]) ⟨64, samplePlain⟩ =
    .ok (.tup [.str [104], .arr [.arr [.num 7, .num 8], .arr [], .arr [.num 8, .num 9]]]) := by
  refine ⟨?_, rfl⟩
  rw [Plain]
  refine ⟨fun _ => ⟨8, rfl, rfl⟩, ?_⟩
  rw [show memberChildren (.pdf false) [.S, .A (.A .Y)] samplePlain =
    [some [104, 0], some [7, 8, 9, 2, 1, 3]] from rfl]
  simp only [PlainAll, Option.some.injEq, forall_eq', and_true]
  refine ⟨?_, ?_⟩
  · rw [Plain]
    intro r hr
    obtain rfl : r = [104] := (List.append_cancel_right (as := [104]) (bs := [0]) (cs := r) hr).symm
    decide
  · rw [Plain]
    refine ⟨fun _ => by decide, fun x _ => ?_⟩
    rw [Plain]
    exact ⟨fun h => absurd h (by decide), fun y _ => by simp [Plain]⟩

end GV.Props
