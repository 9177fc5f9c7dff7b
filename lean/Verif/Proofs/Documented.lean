import Verif.Spec.Documented
import Verif.Proofs.View
/-
The documented decoder is the one with the rules of the crate; on plain data it follows the specification.
-/
namespace GV
open Spec

/-- The value of a child. -/
def docChild (be : Bool) (t : Ty) : Option Bytes → Val
  | some x => decDoc be t x
  | none => dflt t

theorem decDocAll_cons (be : Bool) (t : Ty) (ts : List Ty) (o : Option Bytes) (os : List (Option Bytes)) :
    decDocAll be (t :: ts) (o :: os) = docChild be t o :: decDocAll be ts os := by
  cases o <;> simp only [decDocAll, docChild]

theorem decDoc_A (be : Bool) (e : Ty) (b : Bytes) :
    decDoc be (.A e) b = .arr ((arrChildrenDoc e b).map (docChild be e)) := by
  rw [decDoc]
  rfl

theorem decDoc_M (be : Bool) (e : Ty) (b : Bytes) :
    decDoc be (.M e) b = match maybeChild e b with
      | some x => .just (decDoc be e x)
      | none => .nothing := by
  rw [decDoc]
  rfl

theorem memberChildrenDoc_length (ts : List Ty) (b : Bytes) :
    (memberChildrenDoc ts b).length = ts.length := by
  unfold memberChildrenDoc
  split
  · split
    · exact membersFrom_length ..
    · simp
  · exact membersFrom_length ..

theorem decDoc_dict (be : Bool) (k v : Ty) (b : Bytes) :
    decDoc be (.dict k v) b = decDoc be (.tuple [k, v]) b := by
  have h := memberChildrenDoc_length [k, v] b
  rw [decDoc, decDoc]
  match hm : memberChildrenDoc [k, v] b, h with
  | [x, y], _ =>
    simp only [decDocAll_cons]
    cases x <;> cases y <;> simp [docChild, decDocAll]

theorem arrChildrenDoc_eq (be : Bool) (e : Ty) (b : Bytes) :
    arrChildrenDoc e b = arrChildren ⟨be, true, true⟩ e b := rfl

/-- Without room for the framing offsets there is no room for anything else. -/
theorem membersFrom_zero (b : Bytes) (e : Option Nat) (ts : List Ty) :
    ∀ pos k, ∀ o ∈ membersFrom b 0 e pos k ts, o = none ∨ o = some [] := by
  have key : ∀ (s e : Nat), place b 0 s e = none ∨ place b 0 s e = some [] := by
    intro s e
    unfold place
    split
    · rename_i h
      obtain rfl : e = 0 := by omega
      obtain rfl : s = 0 := by omega
      right
      simp [sub]
    · exact .inl rfl
  induction ts with
  | nil => intro pos k o h; simp [membersFrom] at h
  | cons t ts ih =>
    intro pos k o h
    simp only [membersFrom] at h
    cases hs : size t with
    | some n =>
      rw [hs] at h
      rcases List.mem_cons.1 h with rfl | h
      · cases pos with
        | none => exact .inl rfl
        | some p => exact key _ _
      · exact ih _ _ o h
    | none =>
      rw [hs] at h
      rcases List.mem_cons.1 h with rfl | h
      · cases pos with
        | none => exact .inl rfl
        | some p =>
          simp only [Option.map_some, Option.bind_some]
          cases (if ts = [] then e else frame b k) with
          | none => exact .inl rfl
          | some e' => exact key _ _
      · exact ih _ _ o h

theorem textDoc_eq (be dj : Bool) (b : Bytes) : textDoc b = text ⟨be, true, dj⟩ b := by
  unfold textDoc text
  rcases List.eq_nil_or_concat b with rfl | ⟨r, x, rfl⟩
  · simp
  · simp only [List.concat_eq_append, List.getLast?_append, List.getLast?_singleton, Option.some_or,
      List.dropLast_concat, List.reverse_append, List.reverse_cons, List.reverse_nil, List.nil_append,
      List.cons_append, Option.some.injEq]
    by_cases hx : x = 0
    · subst hx; simp
    · rw [if_neg (by simp [hx])]
      split
      · rename_i h; simp at h; exact absurd h.1 hx
      · rfl

/-- The documentation describes what the crate does. -/
theorem decDoc_eq (be : Bool) (t : Ty) : ∀ b, decDoc be t b = dec ⟨be, true, true⟩ t b := by
  have tup : ∀ ts : List Ty, (∀ e ∈ ts, ∀ b, decDoc be e b = dec ⟨be, true, true⟩ e b) →
      ∀ b, decDoc be (.tuple ts) b = dec ⟨be, true, true⟩ (.tuple ts) b := by
    intro ts ih b
    have same : ∀ (us : List Ty), (∀ e ∈ us, e ∈ ts) → ∀ os : List (Option Bytes),
        decDocAll be us os = decAll ⟨be, true, true⟩ us os := by
      intro us
      induction us with
      | nil => intro _ os; simp [decDocAll, decAll]
      | cons u us ihu =>
        intro hu os
        cases os with
        | nil => simp [decDocAll, decAll]
        | cons o os =>
          rw [decDocAll_cons, decAll_cons, ihu (fun e he => hu e (by simp [he]))]
          cases o with
          | none => rfl
          | some x => simp only [docChild, decChild, ih u (hu u (by simp)) x]
    rw [decDoc, dec, same ts (fun _ h => h)]
    congr 1
    unfold memberChildrenDoc memberChildren
    cases size (.tuple ts) with
    | some n => rfl
    | none =>
      simp only [if_true]
      cases he : bodyEnd ts b with
      | some e =>
        simp only [bodyEnd] at he
        split at he
        · cases he; rfl
        · cases he
      | none =>
        have h0 : b.length - offsetWidth b.length * frameCount ts = 0 := by
          simp only [bodyEnd] at he
          split at he
          · cases he
          · omega
        rw [h0, decAll_dflts, decAll_dflts]
        · simp
        · intro p hp
          have := (List.of_mem_zip hp).2
          simp only [List.mem_map] at this
          obtain ⟨_, _, h⟩ := this
          rw [← h]; rfl
        · exact membersFrom_length ..
        · intro p hp
          rcases membersFrom_zero b _ ts _ _ _ (List.of_mem_zip hp).2 with h | h
          · rw [h]; rfl
          · rw [h]; exact (dec_nil _ _).1
  induction t using Ty.ind with
  | a e ih =>
    intro b
    rw [decDoc_A, dec_A, arrChildrenDoc_eq be]
    congr 1
    apply List.map_congr_left
    rintro (_ | x) _
    · rfl
    · exact ih x
  | m e ih =>
    intro b
    rw [decDoc_M, dec_M]
    cases maybeChild e b with
    | none => rfl
    | some x => simp only [ih x]
  | tuple ts ih => exact tup ts ih
  | dict k v ihk ihv =>
    intro b
    rw [decDoc_dict, dec_dict]
    refine tup [k, v] (fun t ht => ?_) b
    simp only [List.mem_cons, List.not_mem_nil, or_false] at ht
    rcases ht with rfl | rfl
    · exact ihk
    · exact ihv
  | b =>
    intro b
    match b with
    | [] => rfl
    | [x] => rfl
    | _ :: _ :: _ => rfl
  | s => intro b; rw [decDoc, dec, textDoc_eq]
  | o => intro b; rw [decDoc, dec, textDoc_eq]
  | g => intro b; rw [decDoc, dec, textDoc_eq]
  | _ => intro b; rfl

/-! ### Plain data -/

theorem plain_dict (k v : Ty) (b : Bytes) : Plain (.dict k v) b ↔ Plain (.tuple [k, v]) b := by
  have h := memberChildren_length (.pdf false) [k, v] b
  rw [Plain, Plain, size_dict_eq]
  match hm : memberChildren (.pdf false) [k, v] b, h with
  | [x, y], _ => simp [PlainAll]

theorem text_plain (be : Bool) (b : Bytes) (dj : Bool)
    (h : ∀ r, b = r ++ [0] → utf8Valid r ∧ (0 : UInt8) ∉ r) : text ⟨be, true, dj⟩ b = text (.pdf be) b := by
  unfold text Rules.pdf
  split
  · rename_i r hr
    have := h r.reverse (by rw [← List.reverse_reverse b, hr]; simp)
    simp only [if_true, Bool.false_eq_true, if_false, if_pos this]
    symm
    have key : ∀ l : Bytes, (0 : UInt8) ∉ l → l.takeWhile (fun x => decide (x ≠ 0)) = l := by
      intro l
      induction l with
      | nil => intro _; rfl
      | cons x l ih =>
        intro hx
        simp only [List.mem_cons, not_or] at hx
        rw [List.takeWhile_cons, if_pos (by simpa using fun h => hx.1 h.symm), ih hx.2]
    exact key _ this.2
  · rfl

theorem elemsFrom_limit {b : Bytes} {l l' al : Nat} (hl : l ≤ l') (stops : List Nat)
    (h : ∀ s ∈ stops, s ≤ l) : ∀ prev, elemsFrom b l al prev stops = elemsFrom b l' al prev stops := by
  induction stops with
  | nil => intro _; rfl
  | cons s ss ih =>
    intro prev
    have h1 := h s (by simp)
    simp only [elemsFrom, ih (fun x hx => h x (by simp [hx]))]
    congr 1
    unfold place
    by_cases hs : roundUp prev al ≤ s
    · rw [if_pos ⟨hs, h1⟩, if_pos ⟨hs, Nat.le_trans h1 hl⟩]
    · rw [if_neg (fun h => hs h.1), if_neg (fun h => hs h.1)]

theorem arrFrame_le (b : Bytes) : (arrFrame b).1 ≤ b.length := by
  simp only [arrFrame]
  split
  · exact Nat.le_refl _
  · rename_i h; simp only [not_or] at h; show le _ ≤ _; omega

/-- Plain data has the value that the letter of the specification gives it. -/
theorem dec_plain (be : Bool) (t : Ty) : ∀ b, Plain t b → dec ⟨be, true, true⟩ t b = dec (.pdf be) t b := by
  have tup : ∀ ts : List Ty, (∀ e ∈ ts, ∀ b, Plain e b → dec ⟨be, true, true⟩ e b = dec (.pdf be) e b) →
      ∀ b, Plain (.tuple ts) b → dec ⟨be, true, true⟩ (.tuple ts) b = dec (.pdf be) (.tuple ts) b := by
    intro ts ih b hb
    rw [Plain] at hb
    obtain ⟨hr, hall⟩ := hb
    have same : ∀ (us : List Ty), (∀ e ∈ us, e ∈ ts) → ∀ os : List (Option Bytes), PlainAll us os →
        decAll ⟨be, true, true⟩ us os = decAll (.pdf be) us os := by
      intro us
      induction us with
      | nil => intro _ os _; simp [decAll]
      | cons u us ihu =>
        intro hu os hp
        cases os with
        | nil => simp [decAll]
        | cons o os =>
          rw [PlainAll] at hp
          rw [decAll_cons, decAll_cons, ihu (fun e he => hu e (by simp [he])) _ hp.2]
          cases o with
          | none => rfl
          | some x => simp only [decChild, ih u (hu u (by simp)) x (hp.1 x rfl)]
    have hc : memberChildren ⟨be, true, true⟩ ts b = memberChildren (.pdf false) ts b := by
      unfold memberChildren
      cases hs : size (.tuple ts) with
      | some n => rfl
      | none =>
        obtain ⟨e, he, hm⟩ := hr hs
        simp only [he, if_true, Rules.pdf, Bool.false_eq_true, if_false]
        exact hm
    rw [dec, dec, hc, same ts (fun _ h => h) _ hall]
    rfl
  induction t using Ty.ind with
  | a e ih =>
    intro b hb
    rw [Plain] at hb
    have hc : arrChildren ⟨be, true, true⟩ e b = arrChildren (.pdf be) e b := by
      unfold arrChildren
      cases hs : size e with
      | some n => rfl
      | none => exact elemsFrom_limit (arrFrame_le b) _ (hb.1 hs) 0
    rw [dec_A, dec_A, hc]
    congr 1
    apply List.map_congr_left
    rintro (_ | x) hx
    · rfl
    · exact ih x (hb.2 x hx)
  | m e ih =>
    intro b hb
    rw [Plain] at hb
    rw [dec_M, dec_M]
    cases hm : maybeChild e b with
    | none => rfl
    | some x => simp only [ih x (hb x hm)]
  | tuple ts ih => exact tup ts ih
  | dict k v ihk ihv =>
    intro b hb
    rw [dec_dict, dec_dict]
    refine tup [k, v] (fun t ht => ?_) b ((plain_dict k v b).1 hb)
    simp only [List.mem_cons, List.not_mem_nil, or_false] at ht
    rcases ht with rfl | rfl
    · exact ihk
    · exact ihv
  | s => intro b hb; rw [Plain] at hb; rw [dec, dec, text_plain be b true hb]
  | o => intro b hb; rw [Plain] at hb; rw [dec, dec, text_plain be b true hb]
  | g => intro b hb; rw [Plain] at hb; rw [dec, dec, text_plain be b true hb]
  | _ => intro b _; rfl

end GV
