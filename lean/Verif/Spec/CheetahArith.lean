import Verif.Model.CheetahArith

set_option autoImplicit false

/-!
Specification of Cheetah's multiplication kernels: additive sharing up to a bounded error, and good triples.
-/

namespace Spu.Spec.Carith
open Spu.Model.Carith

/-- An element of a flat array, in the ring. -/
def el (k : ℕ) (l : List ℕ) (i : ℕ) : ZMod (2 ^ k) := ((l.getD i 0 : ℕ) : ZMod (2 ^ k))

def InRing (k : ℕ) (l : List ℕ) : Prop := ∀ v ∈ l, v < 2 ^ k

/-- `z0`, `z1` are reduced shares of `n` values, each within `ε` of `w`. -/
def Shares (k : ℕ) (ε : ℤ) (n : ℕ) (z0 z1 : List ℕ) (w : ℕ → ZMod (2 ^ k)) : Prop :=
  z0.length = n ∧ z1.length = n ∧ InRing k z0 ∧ InRing k z1 ∧
    ∀ i, i < n → ∃ e : ℤ, |e| ≤ ε ∧ el k z0 i + el k z1 i = w i + e

/-- The oblivious product is right up to `ε`. -/
def OleOk (k : ℕ) (ε : ℤ) (P : Prot) : Prop := ∀ y x : List ℕ, y.length = x.length → 0 < y.length → InRing k y →
  InRing k x → ∃ r, P.ole y x = some r ∧ Shares k ε y.length r.1 r.2 fun i => el k y i * el k x i

/-- The product of shared values is right up to `ε`. -/
def ShareOk (k : ℕ) (ε : ℤ) (P : Prot) : Prop := ∀ x0 y0 x1 y1 : List ℕ, y0.length = x0.length →
  x1.length = x0.length → y1.length = x0.length → 0 < x0.length → InRing k x0 → InRing k y0 → InRing k x1 →
  InRing k y1 → ∃ r, P.share x0 y0 x1 y1 = some r ∧
    Shares k ε x0.length r.1 r.2 fun i => (el k x0 i + el k x1 i) * (el k y0 i + el k y1 i)

/-- Shared triples: `c` is the product of `a` and `b` up to `ε`. -/
def TriplesOk (k : ℕ) (ε : ℤ) (n : ℕ) (t0 t1 : Triples) : Prop :=
  t0.1.length = n ∧ t1.1.length = n ∧ t0.2.1.length = n ∧ t1.2.1.length = n ∧
    InRing k t0.1 ∧ InRing k t1.1 ∧ InRing k t0.2.1 ∧ InRing k t1.2.1 ∧
    Shares k ε n t0.2.2 t1.2.2 fun i => (el k t0.1 i + el k t1.1 i) * (el k t0.2.1 i + el k t1.2.1 i)

/-- Both caches are in step and hold triples that are right up to `ε`. -/
def CacheOk (ε : ℤ) (s : Cache × Cache) : Prop :=
  s.1.size = s.2.size ∧ s.1.field = s.2.field ∧
    ∀ k, s.1.field = some k → TriplesOk k ε s.1.size (s.1.a, s.1.b, s.1.c) (s.2.a, s.2.b, s.2.c)

end Spu.Spec.Carith
