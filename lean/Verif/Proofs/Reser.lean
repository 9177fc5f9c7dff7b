import Verif.Model.Reser
import Verif.Proofs.Faults
import Verif.Proofs.SerRun
/-
What is read is a source standing for the value that was read.
-/
namespace GV
open Spec

/-- The source is serializable and stands for the value. -/
structure Stands (t : Ty) (x : Src) (v : Val) : Prop where
  acc : Accepts t x
  noNul : ¬ HasNul x
  noWrap : wraps x = []
  means : ∀ E, meaning E t x = v

/-- Reading a good reference of the type as a source agrees with reading it as a value. -/
def SourceOk (c : Cfg) (root : Slice) (t : Ty) : Prop := ∀ r v, Good c root t r → view c t r = .ok v →
  ∃ x, source c t r = .ok x ∧ Stands t x v

theorem source_number {c : Cfg} {root r : Slice} {t : Ty} {w : Nat} {v : Val} (hs : size t = some w)
    (hw : numWidth t = some w) (h : Good c root t r) (hv : (.ok (.num (fromNe c r.bytes)) : Res Val) = .ok v) :
    Stands t (.num (fromNe c r.bytes)) v := by
  have hlen : r.bytes.length = w := castBytes_fixed_len hs h.cast
  refine ⟨⟨w, hw, ?_⟩, by simp [HasNul], by simp [wraps], fun E => ?_⟩
  · rw [fromNe_eq, ← hlen]
    unfold number
    split
    · have := le_lt r.bytes.reverse; rwa [List.length_reverse] at this
    · exact le_lt r.bytes
  · simp only [meaning]; exact Res.ok.inj hv

theorem traverse_source {c : Cfg} {root : Slice} {e : Ty} (ih : SourceOk c root e) (rs : List Slice) :
    ∀ vs, (∀ r ∈ rs, Good c root e r) → Res.traverse (view c e) rs = .ok vs →
    ∃ xs, Res.traverse (source c e) rs = .ok xs ∧ List.Forall₂ (Stands e) xs vs := by
  induction rs with
  | nil => intro vs _ h; cases h; exact ⟨[], rfl, .nil⟩
  | cons r rs ihr =>
    intro vs hg h
    simp only [Res.traverse] at h
    obtain ⟨v, h1, h⟩ := Res.bind_eq_ok.1 h
    obtain ⟨vs', h2, h⟩ := Res.bind_eq_ok.1 h
    cases h
    obtain ⟨x, hx, hx'⟩ := ih r v (hg r (by simp)) h1
    obtain ⟨xs, hxs, hxs'⟩ := ihr vs' (fun q hq => hg q (by simp [hq])) h2
    refine ⟨x :: xs, ?_, .cons hx' hxs'⟩
    simp only [Res.traverse, hx, hxs, Res.bind_ok, Res.pure_eq]

theorem sourceAll_ok {c : Cfg} {root : Slice} (ts : List Ty) : (∀ t ∈ ts, SourceOk c root t) →
    ∀ rs vs, List.Forall₂ (Good c root) ts rs → viewAll c ts rs = .ok vs →
    ∃ xs, sourceAll c ts rs = .ok xs ∧ AcceptsAll ts xs ∧ ¬ HasNulAny xs ∧ wrapsAll xs = [] ∧
      ∀ E, meaningAll E ts xs = vs := by
  induction ts with
  | nil =>
    intro _ rs vs h hv
    cases h
    simp only [viewAll, Res.ok.injEq] at hv
    subst hv
    exact ⟨[], rfl, by simp [AcceptsAll], by simp [HasNulAny], by simp [wrapsAll], by simp [meaningAll]⟩
  | cons t ts ih =>
    intro hall rs vs h hv
    cases h with
    | @cons _ r _ rs hr hrs =>
      simp only [viewAll] at hv
      obtain ⟨v, h1, hv⟩ := Res.bind_eq_ok.1 hv
      obtain ⟨vs', h2, hv⟩ := Res.bind_eq_ok.1 hv
      cases hv
      obtain ⟨x, hx, s⟩ := hall t (by simp) r v hr h1
      obtain ⟨xs, hxs, a1, a2, a3, a4⟩ := ih (fun u hu => hall u (by simp [hu])) rs vs' hrs h2
      refine ⟨x :: xs, ?_, ?_, ?_, ?_, ?_⟩
      · simp only [sourceAll, hx, hxs, Res.bind_ok, Res.pure_eq]
      · simp only [AcceptsAll]; exact ⟨s.acc, a1⟩
      · simp only [HasNulAny, not_or]; exact ⟨s.noNul, a2⟩
      · simp only [wrapsAll, s.noWrap, a3, List.append_nil]
      · intro E; simp only [meaningAll, s.means E, a4 E]

theorem source_ok (c : Cfg) (root : Slice) (t : Ty) : SourceOk c root t := by
  induction t using Ty.ind with
  | b =>
    intro r v h hv
    have hlen : r.bytes.length = 1 := castBytes_fixed_len (t := .B) rfl h.cast
    obtain ⟨x, hx⟩ := List.length_eq_one_iff.1 hlen
    refine ⟨_, rfl, by simp [Accepts], by simp [HasNul], by simp [wraps], fun E => ?_⟩
    simp only [view, hx, toBool, Res.ok.injEq] at hv
    rw [← hv]
    simp only [meaning, hx, List.headD_cons, Val.bool.injEq]
    by_cases h0 : x = 0
    · simp [h0]
    · have : x > 0 := by
        rw [gt_iff_lt, UInt8.lt_iff_toNat_lt]
        have : x.toNat ≠ 0 := fun h => h0 (UInt8.toNat_inj.1 h)
        simp; omega
      simp [h0, this]
  | a e ih =>
    intro r v h hv
    simp only [view] at hv
    obtain ⟨rs, h1, hv1⟩ := Res.bind_eq_ok.1 hv
    obtain ⟨vs, h2, hv0⟩ := Res.bind_eq_ok.1 hv1
    obtain rfl : Val.arr vs = v := Res.ok.inj hv0
    clear hv hv1 hv0
    obtain ⟨xs, h3, h4⟩ := traverse_source ih rs vs ((arrRefs_good h).1 rs h1) h2
    refine ⟨.seq xs, ?_, ?_, ?_, ?_, ?_⟩
    · simp only [source, h1, h3, Res.bind_ok, Res.pure_eq]
    · simp only [Accepts]
      clear h1 h2 h3
      induction h4 with
      | nil => simp [AcceptsEach]
      | cons s _ ih => simp only [AcceptsEach]; exact ⟨s.acc, ih⟩
    · simp only [HasNul]
      clear h1 h2 h3
      induction h4 with
      | nil => simp [HasNulAny]
      | cons s _ ih => simp only [HasNulAny, not_or]; exact ⟨s.noNul, ih⟩
    · simp only [wraps]
      clear h1 h2 h3
      induction h4 with
      | nil => simp [wrapsAll]
      | cons s _ ih => simp only [wrapsAll, s.noWrap, ih, List.append_nil]
    · intro E
      simp only [meaning, Val.arr.injEq]
      clear h1 h2 h3
      induction h4 with
      | nil => simp [meaningEach]
      | cons s _ ih => simp only [meaningEach, s.means E, ih]
  | m e ih =>
    intro r v h hv
    simp only [view] at hv
    obtain ⟨o, h1, hv⟩ := Res.bind_eq_ok.1 hv
    cases o with
    | none =>
      cases hv
      exact ⟨.nothing, by simp [source, h1], by simp [Accepts], by simp [HasNul], by simp [wraps],
        fun E => by simp [meaning]⟩
    | some q =>
      obtain ⟨w, h2, hv⟩ := Res.bind_eq_ok.1 hv
      cases hv
      obtain ⟨x, hx, s⟩ := ih q w ((toOption_good h).1 q h1) h2
      exact ⟨.just x, by simp [source, h1, hx], by simp only [Accepts]; exact s.acc,
        by simp only [HasNul]; exact s.noNul, by simp only [wraps]; exact s.noWrap,
        fun E => by simp only [meaning, s.means E]⟩
  | tuple ts ih =>
    intro r v h hv
    simp only [view] at hv
    obtain ⟨rs, h1, hv⟩ := Res.bind_eq_ok.1 hv
    obtain ⟨vs, h2, hv⟩ := Res.bind_eq_ok.1 hv
    cases hv
    obtain ⟨hx, d, hd⟩ := expands_tuple.1 h.ex
    have hg := (tuple_good h rfl rfl rfl hx hd h.sm.shows).1 rs h1
    obtain ⟨xs, hxs, a1, a2, a3, a4⟩ := sourceAll_ok ts ih rs vs hg h2
    exact ⟨.tup xs, by simp [source, h1, hxs], by simp only [Accepts]; exact a1,
      by simp only [HasNul]; exact a2, by simp only [wraps]; exact a3,
      fun E => by simp only [meaning, a4 E]⟩
  | dict k w ihk ihw =>
    intro r v h hv
    simp only [view] at hv
    obtain ⟨rs, h1, hv⟩ := Res.bind_eq_ok.1 hv
    obtain ⟨⟨hk, hw⟩, d, hd⟩ := expands_dict.1 h.ex
    have hg := (tuple_good (ts := [k, w]) h (size_dict_eq k w) (align_dict_eq k w) (castBytes_dict k w _)
      (by
        intro t ht
        simp only [List.mem_cons, List.not_mem_nil, or_false] at ht
        rcases ht with rfl | rfl <;> assumption) hd h.sm.dict).1 rs h1
    cases hg with
    | cons hrk hrest =>
      cases hrest with
      | cons hrv hnil =>
        cases hnil
        simp only at hv
        obtain ⟨x, hx, hv⟩ := Res.bind_eq_ok.1 hv
        obtain ⟨y, hy, hv⟩ := Res.bind_eq_ok.1 hv
        cases hv
        obtain ⟨sx, h3, s⟩ := ihk _ x hrk hx
        obtain ⟨sy, h4, s'⟩ := ihw _ y hrv hy
        refine ⟨.tup [sx, sy], by simp [source, h1, h3, h4], ?_, ?_, ?_, ?_⟩
        · simp only [Accepts, AcceptsAll]; exact ⟨s.acc, s'.acc, trivial⟩
        · simp only [HasNul, HasNulAny]; rintro (h | h | h)
          · exact s.noNul h
          · exact s'.noNul h
          · exact h
        · simp only [wraps, wrapsAll, s.noWrap, s'.noWrap, List.append_nil]
        · intro E; simp only [meaning, meaningAll, s.means E, s'.means E]
  | v =>
    intro r v h hv
    have ha : 8 ∣ r.addr := h.al
    obtain ⟨d, hd, _, hb, _⟩ := split_ok (c := c) (s := r) ha
    simp only [view, hd, Res.bind_ok, Res.pure_eq, hb, Res.ok.injEq] at hv
    exact ⟨_, rfl, by simp only [Accepts]; exact ⟨trivial, ha⟩, by simp [HasNul], by simp [wraps],
      fun E => by simp only [meaning]; exact hv⟩
  | s | o | g =>
    intro r v h hv
    simp only [view, Res.ok.injEq] at hv
    exact ⟨_, rfl, by simp [Accepts, isStr], by simp [HasNul], by simp [wraps],
      fun E => by simp only [meaning]; rw [← hv, text_eq false]⟩
  | _ =>
    intro r v h hv
    exact ⟨_, rfl, source_number rfl rfl h (by simpa only [view] using hv)⟩

/-- What is read is a value of the type. -/
theorem readAs_fits {c : Cfg} {t : Ty} {s : Slice} {v : Val} (hx : Expands t) (hsm : Small t)
    (ha : Spec.align t ∣ s.addr) (hl : s.len < 2 ^ 63) (h : readAs c t s = .ok v) : Fits t v := by
  obtain ⟨r, h1, h2⟩ := cast_good (c := c) hx hsm ha hl
  simp only [readAs, h1, Res.bind_ok] at h
  obtain ⟨x, _, st⟩ := source_ok c s t r v h2 h
  rw [← st.means (.crate false)]
  exact fits_meaning _ x t st.acc st.noNul

/-- Re-serializing writes the encoding of the value that was read. -/
theorem reserialize_ok {c : Cfg} {t : Ty} {s : Slice} {v : Val} (hx : Expands t) (hsm : Small t)
    (ha : Spec.align t ∣ s.addr) (hl : s.len < 2 ^ 63) (h : readAs c t s = .ok v)
    (hle : (enc (.crate c.bigEndian) t v).length < 2 ^ 63) :
    reserialize c t s = .ok (enc (.crate c.bigEndian) t v) ∧ Fits t v := by
  obtain ⟨r, h1, h2⟩ := cast_good (c := c) hx hsm ha hl
  simp only [readAs, h1, Res.bind_ok] at h
  obtain ⟨x, h3, st⟩ := source_ok c s t r v h2 h
  have hb : bytesOf c t x = enc (.crate c.bigEndian) t v := by unfold bytesOf; rw [st.means]
  refine ⟨?_, ?_⟩
  · simp only [reserialize, h1, h3, Res.bind_ok]
    rw [vec_good ⟨st.acc, hx, by simp [st.noWrap]⟩ st.noNul (by rw [hb]; exact hle), hb]
  · rw [← st.means (.crate false)]
    exact fits_meaning _ x t st.acc st.noNul

end GV
