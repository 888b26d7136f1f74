import Verif.Model.Waksman
import Verif.Model.Perm
import Verif.Model.Gates

set_option autoImplicit false

/-!
# Model of `mpc/cheetah/permute.cc`: permuting shared vectors with a Waksman network

`P` parties hold additive shares; a vector of `N` elements is a function on the indices below `N` (values beyond are never read).  The product of two
shared vectors, `mul_aa`, is a parameter: it may change the state and throw.  An index outside the vector, and dereferencing the end iterator of the
routing, are `none`.
-/

namespace Spu.Model.CheetahPerm
open Spu.Model.Waksman Spu.Model.Circ Spu.Model.Perm

/-- the lists collected in one column -/
structure Col where
  lhs : List ℕ
  rhs : List ℕ
  top : List ℤ
  bot : List ℤ
  sLast : List ℕ
  sCur : List ℤ
  flag : List Bool
  app : Bool

/-- The loop over the rows of one column — cheetah/permute.cc:102-132; `N` rows.  Only the owner of the permutation looks up the settings. -/
def collect (nb : Topology) (rt : Routing) (c : ℕ) : ℕ → Option Col
  | 0 => some ⟨[], [], [], [], [], [], [], true⟩
  | i + 1 =>
    (collect nb rt c i).bind fun s =>
      if (nb c i).1 = (nb c i).2 then some { s with sLast := s.sLast ++ [i], sCur := s.sCur ++ [(nb c i).1] }
      else if s.app then
        (rt c i).map fun b =>
          { s with lhs := s.lhs ++ [i], top := s.top ++ [(nb c i).1], bot := s.bot ++ [(nb c i).2], flag := s.flag ++ [b], app := false }
      else some { s with rhs := s.rhs ++ [i], app := true }

/-- `linear_scatter` — core/ndarray_ref.cc:473-492, for indices in range -/
def scatter {α : Type} (x : ℕ → α) (vals : List α) (idx : List ℤ) : ℕ → α :=
  (idx.zip vals).foldl (fun y p => upd y p.1.toNat p.2) x

section
variable {σ : Type} {P w : ℕ}

/-- a shared vector, as a list per party -/
abbrev ShL (P w : ℕ) : Type := Fin P → List (BitVec w)

/-- `get_ashr_flag` — cheetah/permute.cc:49-69 -/
def flagShare (owner : Fin P) (flag : List Bool) : ShL P w := fun i => flag.map fun b => if i = owner then (if b then 1 else 0) else 0

/-- `route_to_next_layer_top` — cheetah/permute.cc:39-47 -/
def routeTop (mul : ShL P w → ShL P w → M σ (ShL P w)) (lhs rhs flag : ShL P w) : M σ (ShL P w) := do
  let d ← mul (fun i => List.zipWith (· - ·) (rhs i) (lhs i)) flag
  return fun i => List.zipWith (· + ·) (lhs i) (d i)

/-- one column — cheetah/permute.cc:89-150 -/
def column (mul : ShL P w → ShL P w → M σ (ShL P w)) (N : ℕ) (nb : Topology) (rt : Routing) (owner : Fin P) (x : Fin P → ℕ → BitVec w) (c : ℕ) :
    M σ (Fin P → ℕ → BitVec w) := do
  let s ← (collect nb rt c N : Option _)
  enforce (decide (s.lhs.length = s.rhs.length))
  let lhs : ShL P w := fun i => s.lhs.map (x i)
  let rhs : ShL P w := fun i => s.rhs.map (x i)
  let p ← routeTop mul lhs rhs (flagShare owner s.flag)
  let q : ShL P w := fun i => List.zipWith (· - ·) (List.zipWith (· + ·) (lhs i) (rhs i)) (p i)
  enforce ((s.top ++ s.bot ++ s.sCur).all fun z => decide (0 ≤ z ∧ z < N))
  return fun i => scatter (scatter (scatter (x i) (p i) s.top) (q i) s.bot) (s.sLast.map (x i)) s.sCur

/-- `SecureInvPerm` — cheetah/permute.cc:71-153 -/
def secureInvPerm (mul : ShL P w → ShL P w → M σ (ShL P w)) (N : ℕ) (owner : Fin P) (pv : ℕ → ℕ) (x : Fin P → ℕ → BitVec w) :
    M σ (Fin P → ℕ → BitVec w) := do
  let nb ← (topology N : Option _)
  let rt ← (getRouting N pv : Option _)
  (List.range (numColumns N)).foldlM (column mul N nb rt owner) x

/-- `ring2pv` — mpc/utils/permute.cc:27-38 -/
def ring2pv {N v : ℕ} (perm : Fin N → BitVec v) : ℕ → ℕ := fun i => if h : i < N then (perm ⟨i, h⟩).toNat else i

/-- `PermAM::proc` — cheetah/permute.cc:175-187: party `i` holds the vector `perm i` -/
def permAM {N v : ℕ} (mul : ShL P w → ShL P w → M σ (ShL P w)) (perm : Fin P → Fin N → BitVec v) (x : Fin P → ℕ → BitVec w) :
    M σ (Fin P → ℕ → BitVec w) :=
  (List.finRange P).foldlM (fun x r => secureInvPerm mul N r (ring2pv (perm r)) x) x

/-- `InvPermAM::proc` — cheetah/permute.cc:194-206 -/
def invPermAM {N v : ℕ} (mul : ShL P w → ShL P w → M σ (ShL P w)) (ord : List (Fin N)) (perm : Fin P → Fin N → BitVec v)
    (x : Fin P → ℕ → BitVec w) : M σ (Fin P → ℕ → BitVec w) := do
  let inv ← ((List.finRange P).mapM fun i => genInversePerm ord (perm i) : Option _)
  (List.finRange P).reverse.foldlM (fun x r => secureInvPerm mul N r (ring2pv (inv.getD r.val fun _ => 0)) x) x

/-- `InvPermAV::proc` — cheetah/permute.cc:213-219 -/
def invPermAV {N v : ℕ} (mul : ShL P w → ShL P w → M σ (ShL P w)) (owner : Fin P) (perm : Fin N → BitVec v) (x : Fin P → ℕ → BitVec w) :
    M σ (Fin P → ℕ → BitVec w) := secureInvPerm mul N owner (ring2pv perm) x
end

end Spu.Model.CheetahPerm
