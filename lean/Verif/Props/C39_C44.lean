import Verif.Proofs.TameEnc
import Verif.Proofs.Inj
import Verif.Proofs.SerRun
import Verif.Props.C01_C02
import Verif.Props.C10_C19
/-
C39–C42, C44: what `serialize` writes and returns; round trip, normal form, injectivity.

Sources (`Src`) are what can be handed to `serialize`; `Serializable t x` says that the call compiles.
Encodings have less than `2 ^ 63` bytes.
-/
namespace GV.Props
open GV Spec

variable {σ : Type}

/-! ### C39 -/

/-- If `serialize` succeeds, the count it returns is the number of bytes the writer accepted; and these
    are the encoding of the value. -/
theorem c39_count (w : Writer σ) (c : Cfg) (t : Ty) (x : Src) (st : σ) (h : Serializable t x)
    (hl : Bounded c t x) (s : Sink σ) (n : Nat) (hr : serialize w c t x st = (s, .ok n)) :
    n = s.got.length ∧ s.got = bytesOf c t x := by
  by_cases hn : HasNul x
  · obtain ⟨ws, _, ht⟩ := ser_bad (w := w) h hn (fun _ => text_nil) hl
    have hr := (ht ⟨st, []⟩).symm.trans hr
    split at hr <;> simp at hr
  · rw [bounded_iff hn] at hl
    obtain ⟨ws, hf, ht⟩ := ser_good (w := w) h hn hl
    have hr := (ht ⟨st, []⟩).symm.trans hr
    obtain ⟨p, _, h2, h3⟩ := runAll_got w ws ⟨st, []⟩
    rcases hrun : runAll w ws ⟨st, []⟩ with ⟨s', _ | e⟩
    · rw [hrun] at hr h2 h3
      simp only [Prod.mk.injEq, Out.ok.injEq] at hr
      simp only [List.nil_append] at h2
      rw [← hr.1, ← hr.2, h2, h3 rfl, hf]
      exact ⟨rfl, rfl⟩
    · rw [hrun] at hr; simp at hr

/-- `serialize` never panics; it fails only if the writer does or a string contains a NUL, and with the
    NUL it does fail. -/
theorem c39_outcome (w : Writer σ) (c : Cfg) (t : Ty) (x : Src) (st : σ) (h : Serializable t x)
    (hl : Bounded c t x) :
    (∃ e, (serialize w c t x st).2 = .io e) ∨
      (HasNul x ∧ (serialize w c t x st).2 = .badInput) ∨
      (¬ HasNul x ∧ (serialize w c t x st).2 = .ok (bytesOf c t x).length) := by
  by_cases hn : HasNul x
  · obtain ⟨ws, _, ht⟩ := ser_bad (w := w) h hn (fun _ => text_nil) hl
    unfold serialize
    rw [ht]
    rcases runAll w ws ⟨st, []⟩ with ⟨s', _ | e⟩
    · exact .inr (.inl ⟨hn, rfl⟩)
    · exact .inl ⟨e, rfl⟩
  · rw [bounded_iff hn] at hl
    obtain ⟨ws, hf, ht⟩ := ser_good (w := w) h hn hl
    unfold serialize
    rw [ht]
    rcases runAll w ws ⟨st, []⟩ with ⟨s', _ | e⟩
    · exact .inr (.inr ⟨hn, rfl⟩)
    · exact .inl ⟨e, rfl⟩

/-- `a(yv)` with two elements, the second holding a string. -/
def srcAYV : Src := .seq [.tup [.num 3, .wrap .I (.num 258)], .tup [.num 4, .wrap .S (.str [104, 105])]]

theorem srcAYV_ok : Serializable (.A (.tuple [.Y, .V])) srcAYV :=
  ⟨by simp [srcAYV, Accepts, AcceptsEach, AcceptsAll, numWidth, isStr]
      exact ⟨[104, 105], by simp [Scalar], rfl⟩,
    by decide, by simp [srcAYV, wraps, wrapsAll]; decide⟩

/-- Also with a writer that fails at its third call. -/
example : serialize vecWriter dbg (.A (.tuple [.Y, .V])) srcAYV () =
      (⟨(), [3, 0, 0, 0, 0, 0, 0, 0, 2, 1, 0, 0, 0, 105, 0, 0,
        4, 0, 0, 0, 0, 0, 0, 0, 104, 105, 0, 0, 115, 0, 0, 0, 14, 29]⟩, .ok 34) ∧
    serialize (⟨fun n _ => (n + 1, if n = 2 then some (1, 5) else none)⟩ : Writer Nat) dbg
      (.A (.tuple [.Y, .V])) srcAYV 0 = (⟨3, [3, 0, 0, 0, 0, 0, 0, 0, 2]⟩, .io 5) := ⟨rfl, rfl⟩

/-! ### C42 -/

/-- What a writer saw.  `log` are all its calls with their results.  Either all succeeded, or exactly
    the last one failed, and then `serialize` returns that error.  What was handed to the writer, and
    what it accepted, is a prefix of the full encoding (with strings containing NUL replaced by anything). -/
theorem c42_prefix (w : Writer σ) (c : Cfg) (t : Ty) (x : Src) (st : σ) (h : Serializable t x)
    (f : Bytes → Bytes) (hf : ∀ b, Text (f b)) (hl : (bytesOf c t (mend f x)).length < 2 ^ 63) :
    let r := serialize (logged w) c t x (st, [])
    let log := r.1.st.2
    (log.map (·.1)).flatten <+: bytesOf c t (mend f x) ∧ r.1.got <+: bytesOf c t (mend f x) ∧
    (((∀ m ∈ log, m.2 = none) ∧ ∀ e, r.2 ≠ .io e) ∨
     ∃ ok b k e, log = ok ++ [(b, some (k, e))] ∧ (∀ m ∈ ok, m.2 = none) ∧ r.2 = .io e) := by
  intro r log
  obtain ⟨ws, o, hws, ht, ho⟩ : ∃ ws o, ws.flatten <+: bytesOf c t (mend f x) ∧
      Tr (logged w) (ser (logged w) c t x) ws o ∧ ∀ e, o ≠ .io e := by
    rcases ser_half (w := logged w) (c := c) hf x t h.acc h.ex h.inner hl with ⟨_, ws, h1, h2⟩ | ⟨_, ws, h1, h2⟩
    · refine ⟨ws, _, ?_, h2, by simp⟩
      rw [h1]; exact List.prefix_rfl
    · exact ⟨ws, _, h1, h2, by simp⟩
  obtain ⟨l, h1, h2, h3⟩ := runAll_logged w ws ⟨(st, []), []⟩
  obtain ⟨p, g1, g2, g3⟩ := runAll_got (logged w) ws ⟨(st, []), []⟩
  have hr := ht ⟨(st, []), []⟩
  rcases hrun : runAll (logged w) ws ⟨(st, []), []⟩ with ⟨s', _ | e⟩
  · rw [hrun] at hr h1 h3 g2
    simp only [List.nil_append] at h1 h3 g2
    replace hr : r = _ := hr
    have hlog : log = l := by show r.1.st.2 = l; rw [hr]; exact h1
    refine ⟨?_, ?_, .inl ⟨?_, ?_⟩⟩
    · rw [hlog]; exact h2.trans hws
    · rw [hr]; simp only; rw [g2]; exact g1.trans hws
    · rw [hlog]; exact h3.1
    · rw [hr]; exact ho
  · rw [hrun] at hr h1 h3 g2
    simp only [List.nil_append] at h1 h3 g2
    replace hr : r = _ := hr
    have hlog : log = l := by show r.1.st.2 = l; rw [hr]; exact h1
    refine ⟨?_, ?_, .inr ?_⟩
    · rw [hlog]; exact h2.trans hws
    · rw [hr]; simp only; rw [g2]; exact g1.trans hws
    · obtain ⟨ok, b, k, h4, h5⟩ := h3
      exact ⟨ok, b, k, e, by rw [hlog, h4], h5, by rw [hr]⟩

/-- Without failing call and without NUL everything is written. -/
theorem c42_complete (w : Writer σ) (c : Cfg) (t : Ty) (x : Src) (st : σ) (h : Serializable t x)
    (hn : ¬ HasNul x) (hl : Bounded c t x) :
    let r := serialize (logged w) c t x (st, [])
    (∀ m ∈ r.1.st.2, m.2 = none) → r.1.got = bytesOf c t x ∧ r.2 = .ok (bytesOf c t x).length := by
  intro r hall
  have hl' := (bounded_iff hn).1 hl
  rcases c39_outcome (logged w) c t x (st, []) h hl with ⟨e, he⟩ | ⟨hn', _⟩ | ⟨_, he⟩
  · obtain ⟨_, _, h3⟩ := c42_prefix w c t x st h (fun _ => []) (fun _ => text_nil) hl
    rcases h3 with ⟨_, h3⟩ | ⟨ok, b, k, e, h3, _⟩
    · exact absurd he (h3 e)
    · have := hall (b, some (k, e)) (by show _ ∈ (serialize (logged w) c t x (st, [])).1.st.2; rw [h3]; simp)
      simp at this
  · exact absurd hn' hn
  · refine ⟨?_, he⟩
    exact (c39_count (logged w) c t x (st, []) h hl _ _ (Prod.ext rfl he)).2

/-- A writer failing at its third call sees no fourth. -/
example : (serialize (logged ⟨fun n _ => (n + 1, if n = 2 then some (1, 5) else none)⟩ : Writer (Nat × _)) dbg
      (.A (.tuple [.Y, .V])) srcAYV (0, [])).1.st.2 =
    [([3], none), ([0, 0, 0, 0, 0, 0, 0], none), ([2, 1, 0, 0], some (1, 5))] := rfl

/-! ### C40 -/

/-- Serializing and reading back gives the value. -/
def C40_full : Prop := ∀ (c : Cfg) (t : Ty) (x : Src) (b : Bytes) (addr : Nat), Serializable t x → Small t →
  Spec.align t ∣ addr → serializeToVec c t x = .ok b → b.length < 2 ^ 63 →
  readAs c t ⟨addr, b⟩ = .ok (meaning (.crate c.bigEndian) t x)

/-- `a(si)` with one element `("hi", -2)` reads back as four elements. -/
theorem c40_full_false : ¬ C40_full := by
  intro h
  have := h dbg (.A (.tuple [.S, .I])) (.seq [.tup [.str [104, 105], .num 4294967294]])
    [104, 105, 0, 0, 254, 255, 255, 255, 3, 0, 0, 0, 9] 64
    ⟨by simp [Accepts, AcceptsEach, AcceptsAll, isStr, numWidth]; exact ⟨[104, 105], by simp [Scalar], rfl⟩,
      by decide, by simp [wraps, wrapsAll]⟩ (by decide) (by decide) rfl (by decide)
  rw [show readAs dbg (.A (.tuple [.S, .I])) ⟨64, [104, 105, 0, 0, 254, 255, 255, 255, 3, 0, 0, 0, 9]⟩ =
    .ok (.arr [.tup [.str [], .num 0], .tup [.str [], .num 0], .tup [.str [], .num 0],
      .tup [.str [104, 105], .num 4294967294]]) from rfl] at this
  simp [meaning, meaningEach, meaningAll] at this

/-- Serializing succeeds, and reading back gives the value exactly when in each array of variable-width
    elements the last element ends at a multiple of the alignment.  Missing: other values, for which it
    is false. -/
theorem c40_round_trip_partial (c : Cfg) (t : Ty) (x : Src) (addr : Nat) (h : Serializable t x)
    (hn : ¬ HasNul x) (hsm : Small t) (ha : Spec.align t ∣ addr) (hl : (bytesOf c t x).length < 2 ^ 63) :
    ∃ b, serializeToVec c t x = .ok b ∧
      (readAs c t ⟨addr, b⟩ = .ok (meaning (.crate c.bigEndian) t x) ↔
        EvenEnds (.crate c.bigEndian) t (meaning (.crate c.bigEndian) t x)) := by
  refine ⟨_, vec_good h hn (by omega), ?_⟩
  have htr := trip (R := .crate c.bigEndian) (E := .crate c.bigEndian) rfl t _
    (bytesOf_fits (c := c) h hn) (show (bytesOf c t x).length < 2 ^ 64 by omega)
  rw [readAs_tame (s := ⟨addr, bytesOf c t x⟩) h.ex hsm ha (fun _ => hl)
    (tame_enc t _ (bytesOf_fits (c := c) h hn) hl)]
  constructor
  · intro hr
    split at hr
    · cases hr
    · exact htr.1.1 (Res.ok.inj hr) rfl
  · intro he
    have h2 := htr.2 fun _ => he
    rw [if_neg]
    · exact congrArg _ (htr.1.2 fun _ => he)
    · show ¬ ragged (.crate c.bigEndian) t (enc (.crate c.bigEndian) t _) = true
      rw [h2]; simp

mutual
/-- Cases in which every encoding of the type has a size that is a multiple of `k`: fixed size, arrays and maybes
    of fixed-size items, and structures in which only the last member is of variable size. -/
def multiples (k : Nat) : Ty → Bool
  | .A e | .M e => (size e).any fun n => n % k == 0
  | .tuple ts => match size (.tuple ts) with
    | some n => n % k == 0
    | none => lastMultiples k 0 ts
  | .dict a b => match size (.dict a b), size a with
    | some n, _ => n % k == 0
    | none, some n => roundUp n (Spec.align b) % k == 0 && multiples k b
    | none, none => false
  | t => (size t).any fun n => n % k == 0
/-- The same for members from `pos` on. -/
def lastMultiples (k : Nat) : Nat → List Ty → Bool
  | _, [] => false
  | pos, t :: ts => if ts.isEmpty then roundUp pos (Spec.align t) % k == 0 && multiples k t else
    match size t with
    | some n => lastMultiples k (roundUp pos (Spec.align t) + n) ts
    | none => false
end

/-- Cases in which every encoding of the type has a size that is a multiple of its alignment. -/
def tidy (t : Ty) : Bool := Spec.align t == 1 || multiples (Spec.align t) t

mutual
/-- All arrays of variable-width elements within the type have such elements. -/
def tidyArrays : Ty → Bool
  | .A e => ((size e).isSome || tidy e) && tidyArrays e
  | .M e => tidyArrays e
  | .tuple ts => tidyArraysAll ts
  | .dict k v => tidyArrays k && tidyArrays v
  | _ => true
/-- The same for members. -/
def tidyArraysAll : List Ty → Bool
  | [] => true
  | t :: ts => tidyArrays t && tidyArraysAll ts
end

theorem any_mod {o : Option Nat} {k : Nat} (h : (o.any fun n => n % k == 0) = true) : ∃ n, o = some n ∧ k ∣ n := by
  cases o with
  | none => simp at h
  | some n => exact ⟨n, rfl, Nat.dvd_of_mod_eq_zero (by simpa using h)⟩

theorem lastMultiples_dvd {E : Enc} {k : Nat} {ts : List Ty}
    (ih : ∀ t ∈ ts, ∀ v, multiples k t = true → Fits t v → k ∣ (enc E t v).length) : ∀ {vs : List Val} {pos : Nat},
    FitsAll ts vs → lastMultiples k pos ts = true →
    k ∣ pos + (laid pos (encAll E ts vs)).length ∧ frameEnds pos (encAll E ts vs) = [] := by
  induction ts with
  | nil => intro vs pos _ h; simp [lastMultiples] at h
  | cons t ts iht =>
    intro vs pos hf h
    cases vs with
    | nil => simp [FitsAll] at hf
    | cons v vs =>
      simp only [FitsAll] at hf
      simp only [lastMultiples] at h
      simp only [encAll, laid_cons_length, frameEnds]
      split at h
      · rename_i he
        obtain rfl : ts = [] := by simpa using he
        simp only [Bool.and_eq_true, beq_iff_eq] at h
        have h2 := ih t (by simp) v h.2 hf.1
        have hnil : encAll E [] vs = [] := by cases vs <;> simp [encAll]
        simp only [hnil, laid, frameEnds, ne_eq, not_true, and_false, if_false, List.length_nil, Nat.add_zero,
          List.append_nil, and_true]
        exact Nat.dvd_add (Nat.dvd_of_mod_eq_zero h.1) h2
      · split at h
        · rename_i n hn
          have hl := enc_length E t v n hf.1 hn
          have := iht (fun u hu => ih u (by simp [hu])) (vs := vs) (pos := roundUp pos (Spec.align t) + n) hf.2 h
          rw [hl, hn]
          simpa using this
        · cases h

theorem multiples_dvd {E : Enc} {k : Nat} (t : Ty) : ∀ v, multiples k t = true → Fits t v →
    k ∣ (enc E t v).length := by
  induction t using Ty.ind with
  | a e _ =>
    intro v h hf
    simp only [multiples] at h
    obtain ⟨n, hn, hk⟩ := any_mod h
    cases v with
    | arr vs =>
      simp only [Fits] at hf
      simp only [enc, hn, Option.isSome_some, if_true]
      rw [flatten_length (w := n)]
      · exact Nat.dvd_mul_left_of_dvd hk _
      · intro b hb
        obtain ⟨v, hv, rfl⟩ := List.mem_map.1 hb
        exact enc_length E e v n (hf v hv) hn
    | _ => simp [Fits] at hf
  | m e _ =>
    intro v h hf
    simp only [multiples] at h
    obtain ⟨n, hn, hk⟩ := any_mod h
    cases v with
    | nothing => simp [enc]
    | just x =>
      simp only [Fits] at hf
      simp only [enc, hn, Option.isSome_some, if_true, List.append_nil]
      rw [enc_length E e x n hf hn]
      exact hk
    | _ => simp [Fits] at hf
  | tuple ts ih =>
    intro v h hf
    simp only [multiples] at h
    cases v with
    | tup vs =>
      split at h
      · rename_i n hn
        rw [enc_length E _ _ n hf hn]
        exact Nat.dvd_of_mod_eq_zero (by simpa using h)
      · rename_i hn
        simp only [Fits] at hf
        obtain ⟨h1, h2⟩ := lastMultiples_dvd (E := E) ih hf h
        simp only [enc, encStruct, hn, h2]
        simpa [frames] using h1
    | _ => simp [Fits] at hf
  | dict a b iha ihb =>
    intro v h hf
    simp only [multiples] at h
    split at h
    · rename_i n hn
      rw [enc_length E _ _ n hf hn]
      exact Nat.dvd_of_mod_eq_zero (by simpa using h)
    · rename_i n hn ha
      simp only [Bool.and_eq_true, beq_iff_eq] at h
      cases v with
      | tup us =>
        match us, hf with
        | [x, y], hf =>
          simp only [Fits] at hf
          have hl := enc_length E a x n hf.1 ha
          have h2 := ihb y h.2 hf.2
          have h0 : roundUp 0 (Spec.align a) = 0 := roundUp_of_dvd (specAlign_isAl a).pos (Nat.dvd_zero _)
          have h3 : (laid 0 [(a, enc E a x), (b, enc E b y)]).length =
              roundUp n (Spec.align b) + (enc E b y).length := by
            have h4 := laid_cons_length 0 a (enc E a x) [(b, enc E b y)]
            have h5 := laid_cons_length (roundUp 0 (Spec.align a) + (enc E a x).length) b (enc E b y) []
            rw [h5, h0, hl, Nat.zero_add, Nat.zero_add] at h4
            exact h4
          simp only [enc, encStruct, hn, frameEnds, ha, Option.isNone_some, Bool.false_eq_true, false_and, if_false,
            ne_eq, not_true, and_false, List.append_nil, List.reverse_nil, frames, List.map_nil, List.flatten_nil]
          rw [h3]
          exact Nat.dvd_add (Nat.dvd_of_mod_eq_zero h.1) h2
        | [], hf => simp [Fits] at hf
        | [_], hf => simp [Fits] at hf
        | _ :: _ :: _ :: _, hf => simp [Fits] at hf
      | _ => simp [Fits] at hf
    · cases h
  | _ =>
    intro v h hf
    simp only [multiples] at h
    obtain ⟨n, hn, hk⟩ := any_mod h
    rw [enc_length E _ _ n hf hn]
    exact hk

theorem tidy_dvd {E : Enc} {t : Ty} {v : Val} (h : tidy t = true) (hf : Fits t v) :
    Spec.align t ∣ (enc E t v).length := by
  simp only [tidy, Bool.or_eq_true, beq_iff_eq] at h
  rcases h with h | h
  · rw [h]; exact Nat.one_dvd _
  · exact multiples_dvd t v h hf

theorem laid_tidy {e : Ty} (ms : List (Ty × Bytes)) : (∀ m ∈ ms, m.1 = e ∧ Spec.align e ∣ m.2.length) →
    ∀ pos, Spec.align e ∣ pos → Spec.align e ∣ (laid pos ms).length := by
  induction ms with
  | nil => intro _ pos _; simp [laid]
  | cons m ms ih =>
    intro h pos hp
    obtain ⟨t, b⟩ := m
    obtain ⟨rfl, hb⟩ := h (t, b) (by simp)
    simp only [laid, roundUp_of_dvd (specAlign_isAl t).pos hp, Nat.sub_self, List.length_append, zeros_length,
      Nat.zero_add]
    exact Nat.dvd_add hb (ih (fun m hm => h m (by simp [hm])) _ (Nat.dvd_add hp hb))

theorem evenEndsAll_tidy {E : Enc} {ts : List Ty} : ∀ {vs : List Val}, FitsAll ts vs →
    tidyArraysAll ts = true →
    (∀ t ∈ ts, ∀ v, tidyArrays t = true → Fits t v → EvenEnds E t v) → EvenEndsAll E ts vs := by
  induction ts with
  | nil => intro vs _ _ _; cases vs <;> simp [EvenEndsAll]
  | cons t ts ih =>
    intro vs hf ht hall
    cases vs with
    | nil => simp [EvenEndsAll]
    | cons v vs =>
      simp only [FitsAll] at hf
      simp only [tidyArraysAll, Bool.and_eq_true] at ht
      simp only [EvenEndsAll]
      exact ⟨hall t (by simp) v ht.1 hf.1, ih hf.2 ht.2 fun u hu => hall u (by simp [hu])⟩

theorem evenEnds_tidy {E : Enc} (t : Ty) : ∀ v, tidyArrays t = true → Fits t v → EvenEnds E t v := by
  induction t using Ty.ind with
  | a e ih =>
    intro v ht hf
    simp only [tidyArrays, Bool.and_eq_true, Bool.or_eq_true] at ht
    cases v with
    | arr vs =>
      simp only [Fits] at hf
      simp only [EvenEnds]
      refine ⟨fun v hv => ih v ht.2 (hf v hv), fun hs => ?_⟩
      apply laid_tidy _ _ _ (Nat.dvd_zero _)
      intro m hm
      obtain ⟨v, hv, rfl⟩ := List.mem_map.1 hm
      refine ⟨rfl, tidy_dvd ?_ (hf v hv)⟩
      rcases ht.1 with h | h
      · rw [Option.isNone_iff_eq_none] at hs; rw [hs] at h; cases h
      · exact h
    | _ => simp [Fits] at hf
  | m e ih =>
    intro v ht hf
    simp only [tidyArrays] at ht
    cases v with
    | just x => simp only [Fits] at hf; simp only [EvenEnds]; exact ih x ht hf
    | nothing => simp [EvenEnds]
    | _ => simp [Fits] at hf
  | tuple ts ih =>
    intro v ht hf
    cases v with
    | tup vs =>
      simp only [Fits] at hf
      simp only [EvenEnds]
      exact evenEndsAll_tidy hf (by simpa [tidyArrays] using ht) ih
    | _ => simp [Fits] at hf
  | dict k w ihk ihw =>
    intro v ht hf
    simp only [tidyArrays, Bool.and_eq_true] at ht
    cases v with
    | tup us =>
      match us, hf with
      | [x, y], hf => simp only [Fits] at hf; simp only [EvenEnds]; exact ⟨ihk x ht.1 hf.1, ihw y ht.2 hf.2⟩
      | [], hf => simp [Fits] at hf
      | [_], hf => simp [Fits] at hf
      | _ :: _ :: _ :: _, hf => simp [Fits] at hf
    | _ => simp [Fits] at hf
  | _ => intro v _ hf; cases v <;> simp [Fits] at hf; simp [EvenEnds]

/-- Types for which the round trip always works: their arrays have elements of fixed size, without alignment, or
    whose size is always a multiple of the alignment because they end in an array or maybe of fixed-size items and
    are otherwise of fixed size.  Missing: other types. -/
theorem c40_types_partial (c : Cfg) (t : Ty) (x : Src) (addr : Nat) (h : Serializable t x)
    (hn : ¬ HasNul x) (hsm : Small t) (ha : Spec.align t ∣ addr) (hl : (bytesOf c t x).length < 2 ^ 63)
    (ht : tidyArrays t = true) :
    ∃ b, serializeToVec c t x = .ok b ∧
      readAs c t ⟨addr, b⟩ = .ok (meaning (.crate c.bigEndian) t x) := by
  obtain ⟨b, h1, h2⟩ := c40_round_trip_partial c t x addr h hn hsm ha hl
  exact ⟨b, h1, h2.2 (evenEnds_tidy t _ ht (bytesOf_fits h hn))⟩

/-- `n` bytes of text. -/
theorem text_replicate (n : Nat) : Text (List.replicate n 97) := by
  refine ⟨⟨List.replicate n 97, by simp [Scalar], ?_⟩, by simp⟩
  induction n with
  | zero => rfl
  | succ n ih => rw [List.replicate_succ, List.replicate_succ, List.flatMap_cons, ← ih]; rfl

/-- An `as` with one string of any length, also of 4 GiB and more. -/
example (n : Nat) (hn : n < 2 ^ 62) : ∃ b, serializeToVec dbg (.A .S) (.seq [.str (List.replicate n 97)]) = .ok b ∧
    n < b.length ∧ readAs dbg (.A .S) ⟨64, b⟩ = .ok (.arr [.str (List.replicate n 97)]) := by
  have hz : (bytesOf dbg (.A .S) (.seq [.str (List.replicate n 97)])).length =
      (n + 1) + frameWidth (n + 1) 1 := by
    simp [bytesOf, meaning, meaningEach, enc, size, encArr, laid, zeros, roundUp, Enc.crate, Spec.align,
      layEnds, frames, leBytes_length]
    omega
  have hw : frameWidth (n + 1) 1 ≤ 8 := by
    have := frameWidth_isWidth (n + 1) 1
    rcases this with h | h | h | h <;> omega
  have hs : Serializable (.A .S) (.seq [.str (List.replicate n 97)]) :=
    ⟨by simp only [Accepts, AcceptsEach, isStr]; exact ⟨⟨trivial, (text_replicate n).1⟩, trivial⟩, by decide,
      by simp [wraps, wrapsAll]⟩
  obtain ⟨b, h1, h2⟩ := c40_types_partial dbg (.A .S) _ 64 hs
    (by simp [HasNul, HasNulAny]) (by decide) (by decide) (by omega) (by decide)
  refine ⟨b, h1, ?_, h2⟩
  have h3 := vec_good (c := dbg) hs (by simp [HasNul, HasNulAny]) (by omega)
  rw [h1] at h3
  rw [Res.ok.inj h3, hz]
  omega

/-- `aa{s(iamx)}`-like nesting is not covered; `(saasmaxv)`, `a(yaq)` and `a{y(xmx)}` are. -/
example : tidyArrays (.tuple [.S, .A (.A .S), .M (.A .X), .V]) = true ∧ tidyArrays (.A .V) = false ∧
    tidyArrays (.A (.tuple [.Y, .A .Q])) = true ∧ tidyArrays (.A (.dict .Y (.tuple [.X, .M .X]))) = true ∧
    tidyArrays (.A (.tuple [.X, .A .Q])) = false := by decide

/-- A round trip of `(saxv)`, and of an `a(yv)` whose last element happens to end evenly. -/
example : (serializeToVec dbg (.tuple [.S, .A .X, .V]) (.tup [.str [97], .seq [.num 5], .wrap .Y (.num 6)]) >>=
      fun b => readAs dbg (.tuple [.S, .A .X, .V]) ⟨64, b⟩) =
      .ok (.tup [.str [97], .arr [.num 5], .variant [121] [6]]) ∧
    (serializeToVec dbg (.A (.tuple [.Y, .V])) (.seq [.tup [.num 3, .wrap (.A .Y) (.seq (List.replicate 5 (.num 1)))]]) >>=
      fun b => readAs dbg (.A (.tuple [.Y, .V])) ⟨64, b⟩) =
      .ok (.arr [.tup [.num 3, .variant [97, 121] [1, 1, 1, 1, 1]]]) := ⟨rfl, rfl⟩

/-! ### C41 -/

/-- What is written is the normal form of the specification. -/
def C41_full : Prop := ∀ (c : Cfg) (t : Ty) (x : Src) (b : Bytes), Serializable t x →
  serializeToVec c t x = .ok b → b.length < 2 ^ 63 →
  b = enc (.pdf c.bigEndian) t (meaning (.pdf c.bigEndian) t x)

/-- Not so for `a(si)`: the specification does not pad the last element. -/
theorem c41_full_false : ¬ C41_full := by
  intro h
  have := h dbg (.A (.tuple [.S, .I])) (.seq [.tup [.str [104, 105], .num 4294967294]])
    [104, 105, 0, 0, 254, 255, 255, 255, 3, 0, 0, 0, 9]
    ⟨by simp [Accepts, AcceptsEach, AcceptsAll, isStr, numWidth]; exact ⟨[104, 105], by simp [Scalar], rfl⟩,
      by decide, by simp [wraps, wrapsAll]⟩ rfl (by decide)
  rw [show enc (.pdf dbg.bigEndian) (.A (.tuple [.S, .I])) (meaning (.pdf dbg.bigEndian) (.A (.tuple [.S, .I]))
    (.seq [.tup [.str [104, 105], .num 4294967294]])) = [104, 105, 0, 0, 254, 255, 255, 255, 3, 9] from rfl] at this
  cases this

/-- What is written is, up to padding after the last element of arrays, the normal form; and it is
    exactly the normal form if and only if no such padding is needed.  (The data of variants inside is
    taken as it was written, see the next theorem.)  Missing: values that need it. -/
theorem c41_normal_partial (c : Cfg) (t : Ty) (x : Src) (h : Serializable t x) (hn : ¬ HasNul x)
    (hl : Bounded c t x) :
    let v := meaning (.crate c.bigEndian) t x
    serializeToVec c t x = .ok (enc (.crate c.bigEndian) t v) ∧
      (serializeToVec c t x = .ok (enc (.pdf c.bigEndian) t v) ↔ EvenEnds (.crate c.bigEndian) t v) := by
  intro v
  rw [bounded_iff hn] at hl
  have hv := vec_good h hn hl
  refine ⟨hv, ?_⟩
  rw [hv]
  have hf := bytesOf_fits (c := c) h hn
  constructor
  · intro he
    have he : bytesOf c t x = enc (.pdf c.bigEndian) t v := Res.ok.inj he
    have h1 := trip (R := .crate c.bigEndian) (E := .crate c.bigEndian) rfl t v hf
      (show (bytesOf c t x).length < 2 ^ 64 by omega)
    have h2 := trip (R := .crate c.bigEndian) (E := .pdf c.bigEndian) rfl t v hf (by rw [← he]; omega)
    refine h1.1.1 ?_ rfl
    show dec _ t (bytesOf c t x) = v
    rw [he]
    exact h2.1.2 (fun h => by cases h)
  · intro he
    exact congrArg _ (enc_even _ t v he)

mutual
/-- No variant that is wrapped inside needs padding after last elements. -/
def EvenWraps (E : Enc) : Src → Prop
  | .wrap u x => EvenEnds E u (meaning E u x) ∧ EvenWraps E x
  | .seq xs | .iter xs | .tup xs => EvenWrapsAll E xs
  | .just x => EvenWraps E x
  | _ => True
/-- The same for several. -/
def EvenWrapsAll (E : Enc) : List Src → Prop
  | [] => True
  | x :: xs => EvenWraps E x ∧ EvenWrapsAll E xs
end

theorem evenWrapsAll_iff {E : Enc} {xs : List Src} : EvenWrapsAll E xs ↔ ∀ x ∈ xs, EvenWraps E x := by
  induction xs with
  | nil => simp [EvenWrapsAll]
  | cons x xs ih => simp [EvenWrapsAll, ih]

theorem meaning_even (be : Bool) (x : Src) : EvenWraps (.crate be) x → ∀ t,
    meaning (.crate be) t x = meaning (.pdf be) t x := by
  have hAll : ∀ (xs : List Src), (∀ x ∈ xs, ∀ t, meaning (.crate be) t x = meaning (.pdf be) t x) →
      ∀ ts, meaningAll (.crate be) ts xs = meaningAll (.pdf be) ts xs := by
    intro xs
    induction xs with
    | nil => intro _ ts; cases ts <;> simp [meaningAll]
    | cons x xs ih =>
      intro h ts
      cases ts with
      | nil => simp [meaningAll]
      | cons t ts =>
        simp only [meaningAll]
        rw [h x (by simp), ih fun y hy => h y (by simp [hy])]
  induction x using Src.ind with
  | wrap u x ih =>
    intro h t
    simp only [EvenWraps] at h
    simp only [meaning]
    rw [enc_even be u _ h.1, ih h.2]
  | seq xs ih =>
    intro h t
    simp only [EvenWraps, evenWrapsAll_iff] at h
    cases t <;> simp only [meaning, meaningEach_eq]
    congr 1
    exact List.map_congr_left fun x hx => ih x hx (h x hx) _
  | just x ih =>
    intro h t
    simp only [EvenWraps] at h
    cases t <;> simp only [meaning]
    rw [ih h]
  | iter xs ih =>
    intro h t
    simp only [EvenWraps, evenWrapsAll_iff] at h
    cases xs with
    | nil => cases t <;> simp only [meaning]
    | cons x xs =>
      cases t <;> simp only [meaning]
      rw [ih x (by simp) (h x (by simp))]
  | tup xs ih =>
    intro h t
    simp only [EvenWraps, evenWrapsAll_iff] at h
    cases t <;> simp only [meaning]
    · rw [hAll xs fun x hx => ih x hx (h x hx)]
    · rw [hAll xs fun x hx => ih x hx (h x hx)]
  | _ => intro _ t; simp only [meaning]

/-- If no padding after last elements is needed, here or in wrapped variants, then what is written is
    the normal form throughout. -/
theorem c41_deep_partial (c : Cfg) (t : Ty) (x : Src) (h : Serializable t x) (hn : ¬ HasNul x)
    (hl : Bounded c t x) (he : EvenEnds (.crate c.bigEndian) t (meaning (.crate c.bigEndian) t x))
    (hw : EvenWraps (.crate c.bigEndian) x) :
    serializeToVec c t x = .ok (enc (.pdf c.bigEndian) t (meaning (.pdf c.bigEndian) t x)) := by
  rw [(c41_normal_partial c t x h hn hl).2.2 he, meaning_even _ x hw t]

/-- `v` holding `av` holding a `y`, whose variant has 3 bytes: not normal; but a single `aay` is. -/
example : serializeToVec dbg .V (.wrap (.A (.A .Y)) (.seq [.seq [.num 1, .num 2], .seq []])) =
      .ok [1, 2, 2, 2, 0, 97, 97, 121] ∧
    EvenWraps (.crate false) (.wrap (.A (.A .Y)) (.seq [.seq [.num 1, .num 2], .seq []])) ∧
    ¬ EvenWraps (.crate false) (.wrap (.A .V) (.seq [.wrap .Y (.num 1)])) := by
  refine ⟨rfl, ?_, ?_⟩
  · simp [EvenWraps, EvenWrapsAll, EvenEnds, meaning, meaningEach, Spec.align]
  · simp [EvenWraps, EvenEnds, meaning, meaningEach, Spec.align, size, enc, laid, numBytes, leBytes, zeros,
      Ty.show, Enc.crate, roundUp]

/-! ### C44 -/

/-- Sources that serialize to the same bytes stand for the same value. -/
theorem c44_injective (c : Cfg) (t : Ty) (x y : Src) (b : Bytes) (hx : Serializable t x) (hy : Serializable t y)
    (hnx : ¬ HasNul x) (hny : ¬ HasNul y) (hlx : Bounded c t x) (hly : Bounded c t y)
    (h1 : serializeToVec c t x = .ok b) (h2 : serializeToVec c t y = .ok b) :
    meaning (.crate c.bigEndian) t x = meaning (.crate c.bigEndian) t y := by
  rw [bounded_iff hnx] at hlx
  rw [bounded_iff hny] at hly
  rw [vec_good hx hnx hlx] at h1
  rw [vec_good hy hny hly] at h2
  have h1 := Res.ok.inj h1
  have h2 := Res.ok.inj h2
  exact enc_inj (.crate c.bigEndian) t _ _ (bytesOf_fits hx hnx) (bytesOf_fits hy hny)
    (show (bytesOf c t x).length < 2 ^ 64 by omega) (h1.trans h2.symm)

/-- In particular wrapped variants: same bytes, then same type and same value inside. -/
theorem c44_wrap (c : Cfg) (u u' : Ty) (x y : Src) (b : Bytes) (hx : Serializable .V (.wrap u x))
    (hy : Serializable .V (.wrap u' y)) (hnx : ¬ HasNul x) (hny : ¬ HasNul y)
    (hlx : Bounded c .V (.wrap u x)) (hly : Bounded c .V (.wrap u' y))
    (h1 : serializeToVec c .V (.wrap u x) = .ok b) (h2 : serializeToVec c .V (.wrap u' y) = .ok b) :
    u = u' ∧ meaning (.crate c.bigEndian) u x = meaning (.crate c.bigEndian) u' y := by
  have h := c44_injective c .V _ _ b hx hy (by simpa [HasNul] using hnx) (by simpa [HasNul] using hny) hlx hly h1 h2
  simp only [meaning, Val.variant.injEq] at h
  have hu := c01_show_injective u u' h.1
  subst hu
  refine ⟨rfl, ?_⟩
  rw [bounded_iff (by simpa [HasNul] using hnx)] at hlx
  have hlen : (enc (.crate c.bigEndian) u (meaning (.crate c.bigEndian) u x)).length < 2 ^ 64 := by
    simp only [bytesOf, meaning, enc, List.length_append] at hlx; omega
  have ax := hx.acc
  have ay := hy.acc
  simp only [Accepts] at ax ay
  exact enc_inj _ u _ _ (fits_meaning _ x u ax.2 hnx) (fits_meaning _ y u ay.2 hny) hlen h.2

/-- Even where arrays do not round-trip, encodings differ: `a(si)` of one and of four elements. -/
example : serializeToVec dbg (.A (.tuple [.S, .I])) (.seq [.tup [.str [104], .num 1]]) =
      .ok [104, 0, 0, 0, 1, 0, 0, 0, 2, 0, 0, 0, 9] ∧
    serializeToVec dbg (.A (.tuple [.S, .I])) (.seq [.tup [.str [104], .num 1], .tup [.str [], .num 0]]) ≠
      .ok [104, 0, 0, 0, 1, 0, 0, 0, 2, 0, 0, 0, 9] := by
  refine ⟨rfl, ?_⟩
  rw [show serializeToVec dbg (.A (.tuple [.S, .I])) (.seq [.tup [.str [104], .num 1], .tup [.str [], .num 0]]) =
    .ok [104, 0, 0, 0, 1, 0, 0, 0, 2, 0, 0, 0, 0, 0, 0, 0, 0, 0, 0, 0, 1, 0, 0, 0, 9, 21] from rfl]
  intro h; cases h

end GV.Props
