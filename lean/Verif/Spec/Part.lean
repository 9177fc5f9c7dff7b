import Verif.Model.OwnSer
import Verif.Spec.Encode
/-
What a `serialize` written by a user is expected to do, and the serializers put together from such
parts by the crate's own impls.
-/
namespace GV.Spec

variable {σ : Type}

/-- Calling `write_all` for one piece after the other, with `?`. -/
def writeEach (w : Writer σ) : List Bytes → WM σ Unit
  | [] => pure ()
  | b :: bs => do
    WM.write w b
    writeEach w bs

/-- `m` writes the bytes `b`, in whatever pieces, and returns their number. -/
def Writes (w : Writer σ) (m : WM σ Nat) (b : Bytes) : Prop :=
  ∃ ws : List Bytes, ws.flatten = b ∧ m = (do writeEach w ws; pure b.length)

/-- `m` writes a beginning of `b` and then returns an `InvalidInput` error. -/
def Refuses (w : Writer σ) (m : WM σ Nat) (b : Bytes) : Prop :=
  ∃ ws : List Bytes, ws.flatten <+: b ∧ m = (do writeEach w ws; WM.invalid)

/-- `m` keeps the contract: it refuses if `bad`, else writes `b`. -/
def Keeps (w : Writer σ) (bad : Prop) (m : WM σ Nat) (b : Bytes) : Prop :=
  (¬ bad ∧ Writes w m b) ∨ (bad ∧ Refuses w m b)

/-- A part: what is serialized, as what type, by which action, and whether the action refuses. -/
structure Part (σ : Type) where
  t : Ty
  v : Val
  bad : Prop
  m : WM σ Nat

/-- Serializers made of the user's and the crate's: the part `p` is either an implementation of the
    user's keeping the contract, or one of the crate's containers around such parts. -/
inductive Built (w : Writer σ) (c : Cfg) : Part σ → Prop
  | own (p : Part σ) : Fits p.t p.v → Keeps w p.bad p.m (enc (.crate c.bigEndian) p.t p.v) → Built w c p
  | wrap (p : Part σ) : Built w c p →
      Built w c ⟨.V, .variant p.t.show (enc (.crate c.bigEndian) p.t p.v), p.bad, wrapOf w c p.t p.m⟩
  | nothing (e : Ty) : Built w c ⟨.M e, .nothing, False, maybeOf w c e none⟩
  | just (p : Part σ) : Built w c p → Built w c ⟨.M p.t, .just p.v, p.bad, maybeOf w c p.t (some p.m)⟩
  | arr (e : Ty) (ps : List (Part σ)) : (∀ p ∈ ps, p.t = e) → (∀ p ∈ ps, Built w c p) →
      Built w c ⟨.A e, .arr (ps.map (·.v)), ∃ p ∈ ps, p.bad, arrOf w c e (ps.map (·.m))⟩
  | tup (ps : List (Part σ)) : Expands (.tuple (ps.map (·.t))) → (∀ p ∈ ps, Built w c p) →
      Built w c ⟨.tuple (ps.map (·.t)), .tup (ps.map (·.v)), ∃ p ∈ ps, p.bad,
        serStruct w c (.tuple (ps.map (·.t))) (ps.map (·.t)) (ps.map (·.m))⟩
  | dict (k v : Part σ) : Expands (.dict k.t v.t) → Built w c k → Built w c v →
      Built w c ⟨.dict k.t v.t, .tup [k.v, v.v], k.bad ∨ v.bad,
        serStruct w c (.dict k.t v.t) [k.t, v.t] [k.m, v.m]⟩

end GV.Spec
