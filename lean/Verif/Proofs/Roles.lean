import Verif.Spec.Roles
import Verif.Proofs.Enc
import Verif.Proofs.View
/-
Which bytes of a fixed-size value its decoding depends on.
-/
namespace GV
open Spec

/-- The bytes from `pos` on mean the same in the given roles. -/
def SameAt (pos : Nat) (rs : List Role) (b b' : Bytes) : Prop :=
  ∀ (i : Nat) (r : Role) (x y : UInt8), rs[i]? = some r → b[pos + i]? = some x → b'[pos + i]? = some y → r.same x y

theorem sameBytes_iff {rs : List Role} {b b' : Bytes} (h : b.length = b'.length) :
    SameBytes rs b b' ↔ SameAt 0 rs b b' := by
  simp only [SameBytes, SameAt, h, true_and, Nat.zero_add]

theorem sameAt_append {pos : Nat} {rs ss : List Role} {b b' : Bytes} :
    SameAt pos (rs ++ ss) b b' ↔ SameAt pos rs b b' ∧ SameAt (pos + rs.length) ss b b' := by
  constructor
  · intro h
    refine ⟨fun i r x y hr hx hy => h i r x y ?_ hx hy, fun i r x y hr hx hy => h (rs.length + i) r x y ?_ ?_ ?_⟩
    · rw [List.getElem?_append_left]
      · exact hr
      · by_contra hc
        rw [List.getElem?_eq_none (by omega)] at hr; cases hr
    · rw [List.getElem?_append_right (by omega), Nat.add_sub_cancel_left]; exact hr
    · rw [← Nat.add_assoc]; exact hx
    · rw [← Nat.add_assoc]; exact hy
  · rintro ⟨h1, h2⟩ i r x y hr hx hy
    by_cases hi : i < rs.length
    · rw [List.getElem?_append_left hi] at hr
      exact h1 i r x y hr hx hy
    · rw [List.getElem?_append_right (by omega)] at hr
      exact h2 (i - rs.length) r x y hr (by rw [← hx]; congr 1; omega) (by rw [← hy]; congr 1; omega)

theorem sameAt_pad (pos n : Nat) (b b' : Bytes) : SameAt pos (List.replicate n .pad) b b' := by
  intro i r x y hr _ _
  rw [List.getElem?_replicate] at hr
  split at hr
  · cases hr; exact trivial
  · cases hr

theorem sub_getElem? (b : Bytes) {lo hi i : Nat} (h : lo + i < hi) : (sub b lo hi)[i]? = b[lo + i]? := by
  unfold sub
  rw [List.getElem?_drop, List.getElem?_take, if_pos h]

theorem sameAt_sub {pos n : Nat} {rs : List Role} {b b' : Bytes} (hn : rs.length ≤ n) :
    SameAt 0 rs (sub b pos (pos + n)) (sub b' pos (pos + n)) ↔ SameAt pos rs b b' := by
  have key : ∀ i r, rs[i]? = some r → ∀ c : Bytes, (sub c pos (pos + n))[0 + i]? = c[pos + i]? := by
    intro i r hr c
    have : i < rs.length := by
      by_contra hc
      rw [List.getElem?_eq_none (by omega)] at hr; cases hr
    rw [Nat.zero_add, sub_getElem? _ (by omega)]
  constructor
  · intro h i r x y hr hx hy
    exact h i r x y hr (by rw [key i r hr]; exact hx) (by rw [key i r hr]; exact hy)
  · intro h i r x y hr hx hy
    rw [key i r hr] at hx hy
    exact h i r x y hr hx hy

theorem le_inj : ∀ {b b' : Bytes}, b.length = b'.length → (le b = le b' ↔ b = b') := by
  intro b
  induction b with
  | nil => intro b' h; cases b' with
    | nil => simp
    | cons _ _ => simp at h
  | cons x xs ih =>
    intro b' h
    cases b' with
    | nil => simp at h
    | cons y ys =>
      rw [le_cons, le_cons, List.cons.injEq, ← ih (by simpa using h)]
      have h1 := x.toNat_lt
      have h2 := y.toNat_lt
      constructor
      · intro he
        exact ⟨UInt8.toNat_inj.1 (by omega), by omega⟩
      · rintro ⟨rfl, h⟩; omega

theorem number_inj {be : Bool} {b b' : Bytes} (h : b.length = b'.length) :
    number be b = number be b' ↔ b = b' := by
  unfold number
  cases be
  · exact le_inj h
  · simp only [if_true]
    rw [le_inj (by simpa using h), List.reverse_inj]

theorem sameAt_data {n : Nat} {b b' : Bytes} (h : b.length = n) (h' : b'.length = n) :
    SameAt 0 (List.replicate n .data) b b' ↔ b = b' := by
  constructor
  · intro hs
    apply List.ext_getElem (by omega)
    intro i h1 h2
    refine hs i .data b[i] b'[i] ?_ ?_ ?_
    · rw [List.getElem?_replicate, if_pos (by omega)]
    · rw [Nat.zero_add, List.getElem?_eq_getElem h1]
    · rw [Nat.zero_add, List.getElem?_eq_getElem h2]
  · rintro rfl i r x y hr hx hy
    rw [List.getElem?_replicate] at hr
    split at hr
    · cases hr
      rw [hx] at hy; cases hy; rfl
    · cases hr

theorem rolesFrom_length {ts : List Ty} : (∀ t ∈ ts, ∀ n, size t = some n → (roles t).length = n) →
    ∀ pos e, endAfter pos ts = some e → pos + (rolesFrom pos ts).length = e := by
  induction ts with
  | nil => intro _ pos e he; simp only [endAfter, Option.some.injEq] at he; simpa [rolesFrom] using he
  | cons t ts ih =>
    intro hall pos e he
    simp only [endAfter] at he
    split at he
    · cases he
    · rename_i n hn
      have hr := hall t (by simp) n hn
      have := ih (fun u hu => hall u (by simp [hu])) _ _ he
      have hle := le_roundUp (specAlign_isAl t).pos pos
      simp only [rolesFrom, hr, List.length_append, List.length_replicate]
      omega

theorem roles_dict (k v : Ty) : roles (.dict k v) = roles (.tuple [k, v]) := by
  simp only [roles, rolesFrom, size_dict_eq]
  have : roundUp 0 (Spec.align k) = 0 := roundUp_of_dvd (specAlign_isAl k).pos (Nat.dvd_zero _)
  simp [this]

theorem roles_length (t : Ty) : ∀ n, size t = some n → (roles t).length = n := by
  have tup : ∀ ts : List Ty, (∀ t ∈ ts, ∀ n, size t = some n → (roles t).length = n) →
      ∀ n, size (.tuple ts) = some n → (roles (.tuple ts)).length = n := by
    intro ts ih n hn
    obtain ⟨e, he, _, _⟩ := size_tuple_members hn
    have h1 := rolesFrom_length ih 0 e he
    have h2 := endAfter_le_size hn he
    simp only [roles, hn, Option.getD_some, List.length_append, List.length_replicate]
    omega
  induction t using Ty.ind with
  | tuple ts ih => exact tup ts ih
  | dict k v ihk ihv =>
    intro n hn
    rw [roles_dict]
    rw [size_dict_eq] at hn
    refine tup [k, v] ?_ n hn
    intro e he
    simp only [List.mem_cons, List.not_mem_nil, or_false] at he
    rcases he with rfl | rfl
    · exact ihk
    · exact ihv
  | a | m | s | o | g | v => intro n h; simp [size] at h
  | _ => intro n h; simp only [size, Option.some.injEq] at h; subst h; rfl

/-- Data of the type has the same value exactly if its bytes mean the same. -/
def RolesOk (R : Rules) (t : Ty) : Prop := ∀ n, size t = some n → ∀ b b' : Bytes, b.length = n →
  b'.length = n → (dec R t b = dec R t b' ↔ SameAt 0 (roles t) b b')

theorem members_same {R : Rules} {N : Nat} {b b' : Bytes} (hb : b.length = N) (hb' : b'.length = N)
    (ts : List Ty) : (∀ t ∈ ts, RolesOk R t) → ∀ pos k e, endAfter pos ts = some e → e ≤ N → ∀ be,
    (decAll R ts (membersFrom b N be (some pos) k ts) = decAll R ts (membersFrom b' N be (some pos) k ts) ↔
      SameAt pos (rolesFrom pos ts) b b') := by
  induction ts with
  | nil => intro _ pos k e _ _ be; simp [decAll, rolesFrom, SameAt]
  | cons t ts ih =>
    intro hall pos k e he hle be
    simp only [endAfter] at he
    split at he
    · cases he
    · rename_i n hn
      have hge := endAfter_ge he
      have hr := le_roundUp (specAlign_isAl t).pos pos
      simp only [membersFrom, hn, Option.map_some, Option.bind_some, decAll_cons, List.cons.injEq]
      rw [ih (fun u hu => hall u (by simp [hu])) _ _ _ he hle]
      simp only [rolesFrom, sameAt_append, roles_length t n hn, List.length_append, List.length_replicate]
      have hp : ∀ c : Bytes, place c N (roundUp pos (Spec.align t)) (roundUp pos (Spec.align t) + n) =
          some (sub c (roundUp pos (Spec.align t)) (roundUp pos (Spec.align t) + n)) := by
        intro c; rw [place, if_pos ⟨by omega, by omega⟩]
      have hlen : ∀ c : Bytes, c.length = N →
          (sub c (roundUp pos (Spec.align t)) (roundUp pos (Spec.align t) + n)).length = n := by
        intro c hc; simp only [sub, List.length_drop, List.length_take]; omega
      rw [hp, hp]
      simp only [decChild]
      rw [hall t (by simp) n hn _ _ (hlen b hb) (hlen b' hb'), sameAt_sub (Nat.le_of_eq (roles_length t n hn))]
      rw [show pos + (roundUp pos (Spec.align t) - pos) = roundUp pos (Spec.align t) by omega,
        show pos + (roundUp pos (Spec.align t) - pos + n) = roundUp pos (Spec.align t) + n by omega]
      exact ⟨fun h => ⟨⟨sameAt_pad _ _ _ _, h.1⟩, h.2⟩, fun h => ⟨h.1.2, h.2⟩⟩

theorem dec_same (R : Rules) (t : Ty) : RolesOk R t := by
  have tup : ∀ ts : List Ty, (∀ t ∈ ts, RolesOk R t) → RolesOk R (.tuple ts) := by
    intro ts ih n hn b b' hb hb'
    obtain ⟨e, he, _, _⟩ := size_tuple_members hn
    have h2 := endAfter_le_size hn he
    simp only [dec, memberChildren, hn, hb, hb', if_true, Val.tup.injEq]
    rw [members_same hb hb' ts ih 0 0 e he h2]
    simp only [roles, sameAt_append]
    exact ⟨fun h => ⟨h, sameAt_pad _ _ _ _⟩, fun h => h.1⟩
  induction t using Ty.ind with
  | tuple ts ih => exact tup ts ih
  | dict k v ihk ihv =>
    intro n hn b b' hb hb'
    rw [roles_dict, dec_dict, dec_dict]
    rw [size_dict_eq] at hn
    refine tup [k, v] ?_ n hn b b' hb hb'
    intro e he
    simp only [List.mem_cons, List.not_mem_nil, or_false] at he
    rcases he with rfl | rfl
    · exact ihk
    · exact ihv
  | a | m | s | o | g | v => intro n h; simp [size] at h
  | b =>
    intro n hn b b' hb hb'
    simp only [size, Option.some.injEq] at hn
    subst hn
    obtain ⟨x, rfl⟩ := List.length_eq_one_iff.1 hb
    obtain ⟨y, rfl⟩ := List.length_eq_one_iff.1 hb'
    simp only [dec, Val.bool.injEq, roles, SameAt]
    constructor
    · intro h i r u v hr hu hv
      cases i with
      | zero =>
        simp only [List.getElem?_cons_zero, Option.some.injEq, Nat.add_zero] at hr hu hv
        subst hr hu hv
        simp only [Role.same]
        simpa using h
      | succ i => simp at hr
    · intro h
      have := h 0 .truth x y rfl rfl rfl
      simp only [Role.same] at this
      simp [this]
  | _ =>
    intro n hn b b' hb hb'
    simp only [size, Option.some.injEq] at hn
    subst hn
    rw [dec, dec, if_pos hb, if_pos hb', Val.num.injEq, number_inj (by omega)]
    exact (sameAt_data hb hb').symm

end GV
