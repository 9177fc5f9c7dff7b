import Verif.Model.Session
import Verif.Proofs.Client
/-
Helper lemmas: whatever is done with references that are in order, there is no undefined behaviour.
-/
namespace GV
open Spec (Op)

/-- Not undefined behaviour, nor an assertion of a debug build that stands in for it. -/
def Orderly (f : Fault) : Prop := f ≠ .ub ∧ f ≠ .debugAssert

/-- Ends well, or in an orderly panic. -/
def Calm {α : Type} (r : Res α) : Prop := ∀ f, r = .fail f → Orderly f

theorem Calm.ok {α : Type} (a : α) : Calm (.ok a) := fun _ h => by cases h
theorem Calm.pure {α : Type} (a : α) : Calm (Pure.pure a : Res α) := fun _ h => by cases h
theorem Calm.fail {α : Type} {f : Fault} (h : Orderly f) : Calm (.fail f : Res α) := fun _ h' => by cases h'; exact h
theorem Calm.bind {α β : Type} {r : Res α} {k : α → Res β} (h : Calm r) (hk : ∀ a, r = .ok a → Calm (k a)) :
    Calm (r >>= k) := by
  intro f hf
  rcases Res.bind_eq_fail.1 hf with hf | ⟨a, ha, hf⟩
  · exact h f hf
  · exact hk a ha f hf

theorem Allowed.orderly {c : Cfg} {t : Ty} {f : Fault} (h : Allowed c t f) : Orderly f := by
  rcases h with ⟨rfl, _⟩ | ⟨rfl, _⟩ <;> exact ⟨nofun, nofun⟩

theorem orderly_panic {f : Fault} (h : f = .overflow ∨ f = .bounds ∨ f = .unwrap) : Orderly f := by
  rcases h with rfl | rfl | rfl <;> exact ⟨nofun, nofun⟩

theorem overflow_orderly {c : Cfg} {f : Fault} (h : f = .overflow ∧ c.overflowChecks = true) : Orderly f :=
  orderly_panic (.inl h.1)

theorem traverse_calm {α β : Type} {f : α → Res β} {l : List α} (h : ∀ a ∈ l, Calm (f a)) : Calm (Res.traverse f l) := by
  intro e he
  obtain ⟨a, ha, hf⟩ := traverse_fail he
  exact h a ha e hf

/-! ### Reading -/

theorem arrRefs_calm {c : Cfg} {root s : Slice} {e : Ty} (h : Good c root (.A e) s) : Calm (arrRefs c e s) :=
  fun f hf => ((arrRefs_good h).2 f hf).orderly

theorem toOption_calm {c : Cfg} {root s : Slice} {e : Ty} (h : Good c root (.M e) s) : Calm (toOption c e s) :=
  fun f hf => ((toOption_good h).2 f hf).orderly

theorem tuple_calm {c : Cfg} {root s : Slice} {ts : List Ty} (h : Good c root (.tuple ts) s) :
    Calm (tupRefs c (.tuple ts) ts s) := by
  obtain ⟨hx, d, hd⟩ := expands_tuple.1 h.ex
  exact fun f hf => overflow_orderly ((tuple_good h rfl rfl rfl hx hd h.sm.shows).2 f hf)

theorem dict_calm {c : Cfg} {root s : Slice} {k v : Ty} (h : Good c root (.dict k v) s) :
    Calm (tupRefs c (.dict k v) [k, v] s) := by
  obtain ⟨⟨hk, hv⟩, d, hd⟩ := expands_dict.1 h.ex
  refine fun f hf => overflow_orderly ((tuple_good (ts := [k, v]) h (size_dict_eq k v) (align_dict_eq k v)
    (castBytes_dict k v _) ?_ hd h.sm.dict).2 f hf)
  intro t ht
  simp only [List.mem_cons, List.not_mem_nil, or_false] at ht
  rcases ht with rfl | rfl <;> assumption

/-- A place in an iteration over an array that is in order. -/
structure IterAt (c : Cfg) (root : Slice) (e : Ty) (it : ArrIter) (s : Slice) (j : Nat) : Prop where
  good : Good c root (.A e) s
  size : Spec.size e = none
  le : j ≤ (Spec.arrFrame s.bytes).2.length
  eq : it = iterState s j (prevStop s.bytes j)

theorem iter_step {c : Cfg} {root s : Slice} {e : Ty} {it : ArrIter} {j : Nat} (h : IterAt c root e it s j) :
    Calm (iterNext c e it) ∧ ∀ o it', iterNext c e it = .ok (o, it') →
      (∃ j', IterAt c root e it' s j') ∧ ∀ r, o = some r → Good c root e r := by
  obtain ⟨hg, hs, hj, rfl⟩ := h
  have hx : Expands e := expands_A.1 hg.ex
  by_cases hlt : j < (Spec.arrFrame s.bytes).2.length
  · have h1 := iterNext_raw (c := c) (e := e) hg.al hg.len hlt (prevStop_lt s.bytes j)
    have h2 := arrIndex_raw (c := c) (e := e) hg.al hg.len hlt
    obtain ⟨s1, s2⟩ := arrIndex_safe (c := c) hx hs hg.al hg.len j
    rw [h1, ← h2, ← prevStop_succ hlt]
    refine ⟨Calm.bind (fun f hf => orderly_panic (s2 f hf)) fun _ _ => .ok _, ?_⟩
    intro o it' ho
    obtain ⟨r, hr, ho⟩ := Res.bind_eq_ok.1 ho
    cases ho
    refine ⟨⟨j + 1, hg, hs, hlt, rfl⟩, ?_⟩
    rintro _ ⟨⟩
    obtain ⟨a1, a2, a3⟩ := s1 r hr
    exact hg.child hx hg.sm.A a1 a2 a3
  · rw [iterNext_end (by omega)]
    refine ⟨.ok _, ?_⟩
    rintro o it' ⟨⟩
    exact ⟨⟨j, hg, hs, hj, rfl⟩, nofun⟩

theorem iter_start {c : Cfg} {root s : Slice} {e : Ty} (hg : Good c root (.A e) s) (hs : Spec.size e = none) :
    ∃ it, intoIter c e s = .ok it ∧ IterAt c root e it s 0 :=
  ⟨_, intoIter_ok hg.al hg.len, hg, hs, Nat.zero_le _, rfl⟩

theorem slice_good {c : Cfg} {root s : Slice} {e : Ty} {n : Nat} (hg : Good c root (.A e) s) (hs : Spec.size e = some n) :
    rustLayout e = .ok (n, Spec.align e) ∧ ∀ r ∈ sliceElems n s, Good c root e r := by
  have h1 := rustLayout_ok e n hs (expands_A.1 hg.ex)
  refine ⟨h1, (arrRefs_good hg).1 (sliceElems n s) ?_⟩
  simp [arrRefs, sizeOf_eq, hs, h1]

theorem split_calm {c : Cfg} {root s : Slice} (hg : Good c root .V s) : Calm (split c s) := by
  obtain ⟨d, h, _⟩ := split_ok (c := c) (s := s) hg.al
  rw [h]; exact .ok _

/-! ### Printing -/

theorem debugLoop_calm {c : Cfg} {root s : Slice} {e : Ty} {f : Slice → Res Bytes}
    (hf : ∀ r, Good c root e r → Calm (f r)) : ∀ (fuel : Nat) (it : ArrIter) (j : Nat), IterAt c root e it s j →
    Calm (debugLoop c e f fuel it)
  | 0, _, _, _ => .fail ⟨nofun, nofun⟩
  | fuel + 1, it, j, h => by
    obtain ⟨h1, h2⟩ := iter_step h
    simp only [debugLoop]
    refine h1.bind ?_
    rintro ⟨o, it'⟩ ho
    obtain ⟨⟨j', hj'⟩, hr⟩ := h2 o it' ho
    cases o with
    | none => exact .pure _
    | some r =>
      exact (hf r (hr r rfl)).bind fun _ _ => (debugLoop_calm hf fuel it' j' hj').bind fun _ _ => .pure _

theorem debugAll_calm {P : CoreFmt} {c : Cfg} {root : Slice} : ∀ {ts : List Ty} {rs : List Slice},
    (∀ t ∈ ts, ∀ r, Good c root t r → Calm (debug P c t r)) → List.Forall₂ (Good c root) ts rs →
    Calm (debugAll P c ts rs)
  | [], _, _, .nil => .ok _
  | t :: ts, r :: rs, h, .cons hr hrs => by
    simp only [debugAll]
    exact (h t (by simp) r hr).bind fun _ _ =>
      (debugAll_calm (fun u hu => h u (by simp [hu])) hrs).bind fun _ _ => .pure _

theorem debug_calm (P : CoreFmt) {c : Cfg} {root : Slice} (t : Ty) : ∀ r, Good c root t r → Calm (debug P c t r) := by
  induction t using Ty.ind with
  | a e ih =>
    intro r hg
    simp only [debug, sizeOf_eq]
    cases hs : Spec.size e with
    | some n =>
      obtain ⟨h1, h2⟩ := slice_good hg hs
      simp only [h1, Res.bind_ok]
      exact (traverse_calm fun a ha => ih a (h2 a ha)).bind fun _ _ => .pure _
    | none =>
      obtain ⟨it, h1, h2⟩ := iter_start hg hs
      simp only [h1, Res.bind_ok]
      exact (debugLoop_calm ih _ it 0 h2).bind fun _ _ => .pure _
  | m e ih =>
    intro r hg
    simp only [debug]
    refine (toOption_calm hg).bind ?_
    rintro (_ | x) ho
    · exact .pure _
    · exact (ih x ((toOption_good hg).1 x ho)).bind fun _ _ => .pure _
  | tuple ts ih =>
    intro r hg
    simp only [debug]
    exact (tuple_calm hg).bind fun rs hrs => (debugAll_calm ih (Props.tuple_forall hg hrs)).bind fun _ _ => .pure _
  | dict k v ihk ihv =>
    intro r hg
    simp only [debug]
    refine (dict_calm hg).bind fun rs hrs => ?_
    have hall := Props.dict_forall hg hrs
    cases hall with
    | cons hk hrest =>
      cases hrest with
      | cons hv hnil =>
        cases hnil
        exact (ihk _ hk).bind fun _ _ => (ihv _ hv).bind fun _ _ => .pure _
  | v =>
    intro r hg
    simp only [debug]
    exact (split_calm hg).bind fun _ _ => .pure _
  | _ => intro r hg; simp only [debug]; exact .ok _

/-! ### Comparing -/

theorem zipLoop_calm {c : Cfg} {root root' s s' : Slice} {e : Ty} {eq : Slice → Slice → Res Bool}
    (hf : ∀ r r', Good c root e r → Good c root' e r' → Calm (eq r r')) :
    ∀ (fuel : Nat) (it it' : ArrIter) (j j' : Nat), IterAt c root e it s j → IterAt c root' e it' s' j' →
    Calm (zipLoop c e eq fuel it it')
  | 0, _, _, _, _, _, _ => .fail ⟨nofun, nofun⟩
  | fuel + 1, it, it', j, j', h, h' => by
    obtain ⟨h1, h2⟩ := iter_step h
    obtain ⟨h1', h2'⟩ := iter_step h'
    simp only [zipLoop]
    refine h1.bind ?_
    rintro ⟨o, it1⟩ ho
    obtain ⟨⟨k, hk⟩, hr⟩ := h2 o it1 ho
    cases o with
    | none => exact .pure _
    | some r =>
      refine h1'.bind ?_
      rintro ⟨o', it1'⟩ ho'
      obtain ⟨⟨k', hk'⟩, hr'⟩ := h2' o' it1' ho'
      cases o' with
      | none => exact .pure _
      | some r' =>
        refine (hf r r' (hr r rfl) (hr' r' rfl)).bind fun b _ => ?_
        cases b
        · exact .pure _
        · exact zipLoop_calm hf fuel it1 it1' k k' hk hk'

theorem zipEq_calm {eq : Slice → Slice → Res Bool} : ∀ {rs rs' : List Slice},
    (∀ r ∈ rs, ∀ r' ∈ rs', Calm (eq r r')) → Calm (zipEq eq rs rs')
  | [], _, _ => by simp only [zipEq]; exact .ok _
  | r :: rs, [], _ => by simp only [zipEq]; exact .ok _
  | r :: rs, r' :: rs', h => by
    simp only [zipEq]
    refine (h r (by simp) r' (by simp)).bind fun b _ => ?_
    cases b
    · exact .pure _
    · exact zipEq_calm fun x hx y hy => h x (by simp [hx]) y (by simp [hy])

theorem veqAll_calm {c : Cfg} {root root' : Slice} : ∀ {ts : List Ty} {rs rs' : List Slice},
    (∀ t ∈ ts, ∀ r r', Good c root t r → Good c root' t r' → Calm (veq c t r r')) →
    List.Forall₂ (Good c root) ts rs → List.Forall₂ (Good c root') ts rs' → Calm (veqAll c ts rs rs')
  | [], _, _, _, .nil, .nil => by simp only [veqAll]; exact .ok _
  | t :: ts, r :: rs, r' :: rs', h, .cons hr hrs, .cons hr' hrs' => by
    simp only [veqAll]
    refine (h t (by simp) r r' hr hr').bind fun b _ => ?_
    cases b
    · exact .pure _
    · exact veqAll_calm (fun u hu => h u (by simp [hu])) hrs hrs'

theorem veq_calm {c : Cfg} {root root' : Slice} (t : Ty) : ∀ r r', Good c root t r → Good c root' t r' →
    Calm (veq c t r r') := by
  induction t using Ty.ind with
  | a e ih =>
    intro r r' hg hg'
    simp only [veq, sizeOf_eq]
    cases hs : Spec.size e with
    | some n =>
      obtain ⟨h1, h2⟩ := slice_good hg hs
      obtain ⟨_, h2'⟩ := slice_good hg' hs
      simp only [h1, Res.bind_ok]
      split
      · exact zipEq_calm fun a ha b hb => ih a b (h2 a ha) (h2' b hb)
      · exact .pure _
    | none =>
      obtain ⟨it, h1, h2⟩ := iter_start hg hs
      obtain ⟨it', h1', h2'⟩ := iter_start hg' hs
      simp only [arrLen_ok hg.len, arrLen_ok hg'.len, h1, h1', Res.bind_ok]
      split
      · exact .pure _
      · exact zipLoop_calm ih _ it it' 0 0 h2 h2'
  | m e ih =>
    intro r r' hg hg'
    simp only [veq]
    refine (toOption_calm hg).bind fun o ho => (toOption_calm hg').bind fun o' ho' => ?_
    cases o with
    | none => cases o' <;> exact .pure _
    | some x =>
      cases o' with
      | none => exact .pure _
      | some x' => exact ih x x' ((toOption_good hg).1 x ho) ((toOption_good hg').1 x' ho')
  | tuple ts ih =>
    intro r r' hg hg'
    simp only [veq]
    exact (tuple_calm hg).bind fun rs hrs => (tuple_calm hg').bind fun rs' hrs' =>
      veqAll_calm ih (Props.tuple_forall hg hrs) (Props.tuple_forall hg' hrs')
  | dict k v ihk ihv =>
    intro r r' hg hg'
    simp only [veq]
    refine (dict_calm hg).bind fun rs hrs => (dict_calm hg').bind fun rs' hrs' => ?_
    have hall := Props.dict_forall hg hrs
    have hall' := Props.dict_forall hg' hrs'
    cases hall with
    | cons hk hrest =>
    cases hrest with
    | cons hv hnil =>
    cases hnil
    cases hall' with
    | cons hk' hrest' =>
    cases hrest' with
    | cons hv' hnil' =>
    cases hnil'
    refine (ihk _ _ hk hk').bind fun b _ => ?_
    cases b
    · exact .pure _
    · exact ihv _ _ hv hv'
  | v =>
    intro r r' hg hg'
    simp only [veq, variantEq]
    exact (split_calm hg).bind fun _ _ => (split_calm hg').bind fun _ _ => .pure _
  | _ => intro r r' _ _; simp only [veq]; exact .ok _

/-! ### Serializing -/

/-- Writing code that panics in orderly ways only. -/
def Quiet {σ α : Type} (m : WM σ α) : Prop := ∀ s s' f, m s = (s', .panic f) → Orderly f

theorem Quiet.pure {σ α : Type} (a : α) : Quiet (Pure.pure a : WM σ α) := by
  intro s s' f h; cases h
theorem Quiet.bind {σ α β : Type} {m : WM σ α} {k : α → WM σ β} (h : Quiet m) (hk : ∀ a, Quiet (k a)) :
    Quiet (m >>= k) := by
  intro s s' f hf
  have hb : (m >>= k) s = WM.bind m k s := rfl
  rw [hb] at hf
  simp only [WM.bind] at hf
  split at hf
  · exact hk _ _ _ _ hf
  · cases hf
  · cases hf
  · rename_i h'; cases hf; exact h _ _ _ h'
theorem Quiet.lift {σ α : Type} {r : Res α} (h : Calm r) : Quiet (WM.lift r : WM σ α) := by
  intro s s' f hf
  cases r with
  | ok a => cases hf
  | fail e => cases hf; exact h _ rfl
theorem Quiet.liftBind {σ α β : Type} {r : Res α} {k : α → WM σ β} (h : Calm r) (hk : ∀ a, r = .ok a → Quiet (k a)) :
    Quiet (WM.lift r >>= k) := by
  cases r with
  | ok a => exact hk a rfl
  | fail e => intro s s' f hf; cases hf; exact h _ rfl
theorem Quiet.write {σ : Type} (w : Writer σ) (b : Bytes) : Quiet (WM.write w b) := by
  intro s s' f hf
  simp only [WM.write] at hf
  split at hf <;> cases hf
theorem Quiet.illTyped {σ α : Type} : Quiet (WM.illTyped : WM σ α) := by
  intro s s' f hf; cases hf; exact ⟨nofun, nofun⟩

theorem uadd_calm (c : Cfg) (a b : Nat) : Calm (uadd c a b) := fun _ h => overflow_orderly (uadd_fault h)
theorem umul_calm (c : Cfg) (a b : Nat) : Calm (umul c a b) := fun _ h => orderly_panic (.inl (umul_fault h))
theorem usub_calm (c : Cfg) (a b : Nat) : Calm (usub c a b) := by
  intro f h
  unfold usub at h
  repeat' split at h
  all_goals first | (cases h; exact ⟨nofun, nofun⟩) | cases h
theorem alignOffset_calm (c : Cfg) (al i : Nat) : Calm (alignOffset c al i) :=
  (uadd_calm c _ _).bind fun _ _ => (usub_calm c _ _).bind fun _ _ => .pure _
theorem zeroSlice_calm (n : Nat) : Calm (zeroSlice n) := by
  unfold zeroSlice
  split
  · exact .ok _
  · exact .fail ⟨nofun, nofun⟩

theorem writePadding_quiet {σ : Type} (w : Writer σ) (c : Cfg) (al off : Nat) : Quiet (writePadding w c al off) :=
  (Quiet.lift (alignOffset_calm c al off)).bind fun _ => (Quiet.lift (usub_calm c _ _)).bind fun _ =>
    (Quiet.lift (zeroSlice_calm _)).bind fun _ => (Quiet.write w _).bind fun _ => .pure _

theorem offsetLoop_quiet {σ : Type} (w : Writer σ) (k : Nat) : ∀ os, Quiet (offsetLoop w k os)
  | [] => by simp only [offsetLoop]; exact .pure _
  | o :: os => by simp only [offsetLoop]; exact (Quiet.write w _).bind fun _ => offsetLoop_quiet w k os

theorem writeOffsets_quiet {σ : Type} (w : Writer σ) (c : Cfg) (bw : Nat) (offs : List Nat) :
    Quiet (writeOffsets w c bw offs) := by
  unfold writeOffsets
  refine (Quiet.lift (uadd_calm c _ _)).bind fun _ => ?_
  split
  · exact (offsetLoop_quiet w 1 offs).bind fun _ => .pure _
  refine (Quiet.lift (umul_calm c _ _)).bind fun _ => (Quiet.lift (uadd_calm c _ _)).bind fun _ => ?_
  split
  · exact (offsetLoop_quiet w 2 offs).bind fun _ => .pure _
  refine (Quiet.lift (umul_calm c _ _)).bind fun _ => (Quiet.lift (uadd_calm c _ _)).bind fun _ => ?_
  split
  · exact (offsetLoop_quiet w 4 offs).bind fun _ => .pure _
  exact (Quiet.lift (umul_calm c _ _)).bind fun _ => (Quiet.lift (uadd_calm c _ _)).bind fun _ =>
    (offsetLoop_quiet w 8 offs).bind fun _ => .pure _

theorem runCmds_quiet {σ : Type} (w : Writer σ) (c : Cfg) {ms : List (WM σ Nat)} (hm : ∀ m ∈ ms, Quiet m) :
    ∀ (cs : List Cmd) (off : Nat) (fr : List Nat), Quiet (runCmds w c ms cs off fr) := by
  intro cs
  induction cs with
  | nil => intro off fr; simp only [runCmds]; exact .pure _
  | cons cmd cs ih =>
    intro off fr
    cases cmd with
    | zeros n => simp only [runCmds]; exact (Quiet.write w _).bind fun _ => ih _ _
    | addOff n => simp only [runCmds]; exact (Quiet.lift (uadd_calm c _ _)).bind fun _ => ih _ _
    | writePadding al =>
      simp only [runCmds]
      exact (writePadding_quiet w c al off).bind fun _ => (Quiet.lift (uadd_calm c _ _)).bind fun _ => ih _ _
    | child k =>
      simp only [runCmds]
      split
      · rename_i m hk
        exact (hm m (List.mem_of_getElem? hk)).bind fun _ => ih _ _
      · exact .illTyped
    | childOff k =>
      simp only [runCmds]
      split
      · rename_i m hk
        exact (hm m (List.mem_of_getElem? hk)).bind fun _ => (Quiet.lift (uadd_calm c _ _)).bind fun _ => ih _ _
      · exact .illTyped
    | setFrame k =>
      simp only [runCmds]
      split
      · exact ih _ _
      · exact .lift (.fail ⟨nofun, nofun⟩)

theorem serStruct_quiet {σ : Type} (w : Writer σ) (c : Cfg) {gv : Ty} {ts : List Ty} {ms : List (WM σ Nat)}
    {d : StructDef} (hd : generateTuple gv ts = .ok d) (hl : (Spec.size gv).isSome → Expands gv)
    (hm : ∀ m ∈ ms, Quiet m) : Quiet (serStruct w c gv ts ms) := by
  have hlay : (∃ p, d.body = .packed p) → Calm (rustLayout gv) := by
    rintro ⟨p, hp⟩
    unfold generateTuple at hd
    split at hd
    · rename_i hs
      rw [sizeOf_eq] at hs
      obtain ⟨n, hn⟩ := Option.isSome_iff_exists.1 hs
      rw [rustLayout_ok gv n hn (hl hs)]
      exact .ok _
    · obtain ⟨q, _, hd⟩ := Res.bind_eq_ok.1 hd
      cases hd
      cases hp
  unfold serStruct
  refine Quiet.liftBind (by rw [hd]; exact .ok _) fun d' hd' => ?_
  rw [hd] at hd'
  cases hd'
  split
  · rename_i p hp
    exact (runCmds_quiet w c hm _ _ _).bind fun _ => (Quiet.lift (hlay ⟨p, hp⟩)).bind fun _ => .pure _
  · exact (runCmds_quiet w c hm _ _ _).bind fun _ => writeOffsets_quiet w c _ _

theorem serFixed_quiet {σ : Type} (w : Writer σ) (c : Cfg) {e : Ty} : ∀ (xs : List Src) (bw : Nat),
    (∀ x ∈ xs, Quiet (ser w c e x)) → Quiet (serFixed w c e bw xs)
  | [], bw, _ => by simp only [serFixed]; exact .pure _
  | x :: xs, bw, h => by
    simp only [serFixed]
    exact (h x (by simp)).bind fun _ => (Quiet.lift (uadd_calm c _ _)).bind fun _ =>
      serFixed_quiet w c xs _ fun y hy => h y (by simp [hy])

theorem serElems_quiet {σ : Type} (w : Writer σ) (c : Cfg) {e : Ty} : ∀ (xs : List Src) (bw : Nat) (offs : List Nat),
    (∀ x ∈ xs, Quiet (ser w c e x)) → Quiet (serElems w c e bw offs xs)
  | [], bw, offs, _ => by simp only [serElems]; exact .pure _
  | x :: xs, bw, offs, h => by
    simp only [serElems]
    exact (h x (by simp)).bind fun _ => (Quiet.lift (uadd_calm c _ _)).bind fun _ =>
      (Quiet.lift (alignOffset_calm c _ _)).bind fun _ => (Quiet.lift (usub_calm c _ _)).bind fun _ =>
      (Quiet.lift (zeroSlice_calm _)).bind fun _ => (Quiet.write w _).bind fun _ =>
      (Quiet.lift (uadd_calm c _ _)).bind fun _ => serElems_quiet w c xs _ _ fun y hy => h y (by simp [hy])

/-- What is serialized for a reference that is in order. -/
def SourceQuiet {σ : Type} (w : Writer σ) (c : Cfg) (root : Slice) (t : Ty) : Prop :=
  ∀ r, Good c root t r → Calm (source c t r) ∧ ∀ x, source c t r = .ok x → Quiet (ser w c t x)

theorem sourceAll_quiet {σ : Type} {w : Writer σ} {c : Cfg} {root : Slice} : ∀ {ts : List Ty} {rs : List Slice},
    (∀ t ∈ ts, SourceQuiet w c root t) → List.Forall₂ (Good c root) ts rs → Calm (sourceAll c ts rs) ∧
      ∀ xs, sourceAll c ts rs = .ok xs → ∀ m ∈ serMembers w c ts xs, Quiet m
  | [], _, _, .nil => by
    refine ⟨by simp only [sourceAll]; exact .ok _, ?_⟩
    rintro xs h m hm
    simp [serMembers] at hm
  | t :: ts, r :: rs, h, .cons hr hrs => by
    obtain ⟨a1, a2⟩ := h t (by simp) r hr
    obtain ⟨b1, b2⟩ := sourceAll_quiet (fun u hu => h u (by simp [hu])) hrs
    simp only [sourceAll]
    refine ⟨a1.bind fun _ _ => b1.bind fun _ _ => .pure _, ?_⟩
    intro xs hxs m hm
    obtain ⟨x, h1, hxs⟩ := Res.bind_eq_ok.1 hxs
    obtain ⟨ys, h2, hxs⟩ := Res.bind_eq_ok.1 hxs
    cases hxs
    simp only [serMembers, List.mem_cons] at hm
    rcases hm with rfl | hm
    · exact a2 x h1
    · exact b2 ys h2 m hm

theorem source_quiet {σ : Type} (w : Writer σ) (c : Cfg) (root : Slice) (t : Ty) : SourceQuiet w c root t := by
  induction t using Ty.ind with
  | a e ih =>
    intro r hg
    simp only [source]
    refine ⟨(arrRefs_calm hg).bind fun rs hrs => (traverse_calm fun a ha =>
      (ih a ((arrRefs_good hg).1 rs hrs a ha)).1).bind fun _ _ => .pure _, ?_⟩
    intro x hx
    obtain ⟨rs, hrs, hx⟩ := Res.bind_eq_ok.1 hx
    obtain ⟨xs, hxs, hx⟩ := Res.bind_eq_ok.1 hx
    cases hx
    have hall : ∀ y ∈ xs, Quiet (ser w c e y) := by
      intro y hy
      obtain ⟨a, ha, hay⟩ := traverse_mem hxs y hy
      exact (ih a ((arrRefs_good hg).1 rs hrs a ha)).2 y hay
    simp only [ser]
    split
    · exact serFixed_quiet w c xs 0 hall
    · exact (serElems_quiet w c xs 0 [] hall).bind fun _ => writeOffsets_quiet w c _ _
  | m e ih =>
    intro r hg
    simp only [source]
    refine ⟨(toOption_calm hg).bind fun o ho => ?_, ?_⟩
    · cases o with
      | none => exact .pure _
      | some a => exact (ih a ((toOption_good hg).1 a ho)).1.bind fun _ _ => .pure _
    · intro x hx
      obtain ⟨o, ho, hx⟩ := Res.bind_eq_ok.1 hx
      cases o with
      | none => cases hx; simp only [ser]; exact .pure _
      | some a =>
        obtain ⟨y, hy, hx⟩ := Res.bind_eq_ok.1 hx
        cases hx
        have hq := (ih a ((toOption_good hg).1 a ho)).2 y hy
        simp only [ser]
        split
        · exact hq
        · exact hq.bind fun _ => (Quiet.write w _).bind fun _ => .lift (uadd_calm c _ _)
  | tuple ts ih =>
    intro r hg
    obtain ⟨hx, d, hd⟩ := expands_tuple.1 hg.ex
    simp only [source]
    refine ⟨(tuple_calm hg).bind fun rs hrs => (sourceAll_quiet ih (Props.tuple_forall hg hrs)).1.bind fun _ _ => .pure _, ?_⟩
    intro x hx
    obtain ⟨rs, hrs, hx⟩ := Res.bind_eq_ok.1 hx
    obtain ⟨xs, hxs, hx⟩ := Res.bind_eq_ok.1 hx
    cases hx
    simp only [ser]
    exact serStruct_quiet w c hd (fun _ => hg.ex) ((sourceAll_quiet ih (Props.tuple_forall hg hrs)).2 xs hxs)
  | dict k v ihk ihv =>
    intro r hg
    obtain ⟨_, d, hd⟩ := expands_dict.1 hg.ex
    simp only [source]
    refine ⟨(dict_calm hg).bind fun rs hrs => ?_, ?_⟩
    · have hall := Props.dict_forall hg hrs
      cases hall with
      | cons hk hrest =>
      cases hrest with
      | cons hv hnil =>
      cases hnil
      exact (ihk _ hk).1.bind fun _ _ => (ihv _ hv).1.bind fun _ _ => .pure _
    · intro x hx
      obtain ⟨rs, hrs, hx⟩ := Res.bind_eq_ok.1 hx
      have hall := Props.dict_forall hg hrs
      cases hall with
      | cons hk hrest =>
      cases hrest with
      | cons hv hnil =>
      cases hnil
      obtain ⟨y, hy, hx⟩ := Res.bind_eq_ok.1 hx
      obtain ⟨z, hz, hx⟩ := Res.bind_eq_ok.1 hx
      cases hx
      simp only [ser]
      refine serStruct_quiet w c hd (fun _ => hg.ex) ?_
      intro m hm
      simp only [serMembers, List.mem_cons, List.not_mem_nil, or_false] at hm
      rcases hm with rfl | rfl
      · exact (ihk _ hk).2 y hy
      · exact (ihv _ hv).2 z hz
  | v =>
    intro r hg
    simp only [source]
    refine ⟨.ok _, ?_⟩
    rintro x ⟨⟩
    simp only [ser]
    exact (Quiet.lift (split_calm hg)).bind fun _ => (Quiet.write w _).bind fun _ => (Quiet.write w _).bind fun _ =>
      (Quiet.write w _).bind fun _ => (Quiet.lift (uadd_calm c _ _)).bind fun _ => .lift (uadd_calm c _ _)
  | b =>
    intro r hg
    simp only [source]
    refine ⟨.ok _, ?_⟩
    rintro x ⟨⟩
    simp only [ser]
    exact (Quiet.write w _).bind fun _ => .pure _
  | s =>
    intro r hg
    simp only [source]
    refine ⟨.ok _, ?_⟩
    rintro x ⟨⟩
    simp only [ser, isStrTy, if_true]
    exact (Quiet.write w _).bind fun _ => (Quiet.write w _).bind fun _ => .lift (uadd_calm c _ _)
  | o =>
    intro r hg
    simp only [source]
    refine ⟨.ok _, ?_⟩
    rintro x ⟨⟩
    simp only [ser, isStrTy, if_true]
    exact (Quiet.write w _).bind fun _ => (Quiet.write w _).bind fun _ => .lift (uadd_calm c _ _)
  | g =>
    intro r hg
    simp only [source]
    refine ⟨.ok _, ?_⟩
    rintro x ⟨⟩
    simp only [ser, isStrTy, if_true]
    exact (Quiet.write w _).bind fun _ => (Quiet.write w _).bind fun _ => .lift (uadd_calm c _ _)
  | _ =>
    intro r hg
    simp only [source]
    refine ⟨.ok _, ?_⟩
    rintro x ⟨⟩
    simp only [ser, numSize]
    exact (Quiet.write w _).bind fun _ => .pure _

theorem toVec_calm {c : Cfg} {t : Ty} {x : Src} (h : Quiet (ser vecWriter c t x)) : Calm (serializeToVec c t x) := by
  unfold serializeToVec serialize
  split
  · exact .ok _
  · exact .fail ⟨nofun, nofun⟩
  · exact .fail ⟨nofun, nofun⟩
  · rename_i hf; exact .fail (h _ _ _ hf)

end GV
