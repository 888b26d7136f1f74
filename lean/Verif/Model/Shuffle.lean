import Verif.Model.Perm
import Verif.Model.Dealer
import Verif.Model.Aby3

set_option autoImplicit false

/-!
# Secret shuffling (`mpc/semi2k/permute.cc`, `mpc/aby3/permute.cc`)

Arrays of `N` elements are functions on `Fin N`, permutation vectors are index vectors (`ring2k_t` words read as
indices); an index outside the array and an element nobody writes are undefined behaviour (`none`), see `Model/Perm`.
`ord k` is the order in which the iterations of the `k`-th parallel loop happen to run.
`yacl::crypto::ReplayShuffle` is abstract: `shuf seed ctr N` is the permutation of `0 … N-1` it leaves behind and the
counter afterwards (trusted: the result is a permutation, deterministic in seed and counter).
-/

namespace Spu.Model.Shuffle
open Spu.Model.Perm Spu.Model.Dealer Spu.Model.Aby3 Spu.Model.Circ Spu.Model.Prg

/-- `genRandomPerm` (`mpc/utils/permute.cc:128-133`) -/
abbrev Shuf (Seed : Type) := Seed → ℕ → (N : ℕ) → Equiv.Perm (Fin N) × ℕ

/-- a permutation of `Fin N` as a vector of indices -/
def toIdx {N : ℕ} (σ : Equiv.Perm (Fin N)) : Fin N → ℕ := fun i => (σ i).val

/-- the form in which the dealer model (`Model/Dealer`) takes `genRandomPerm`: the inverse of the permutation -/
def gpOf {Seed : Type} (shuf : Shuf Seed) : Seed → ℕ → ℕ → (ℕ → ℕ) × ℕ := fun s c N =>
  (fun j => if h : j < N then ((shuf s c N).1.symm ⟨j, h⟩).val else j, (shuf s c N).2)

section Semi2k
variable {n w N : ℕ} [NeZero n] {Seed : Type}

/-- the permutation `pr` that `PermPair` returns to its owner (`beaver_tfp.cc`, `PermPair`): drawn after the two arrays -/
def pairPerm (K : Ks w Seed) (adj : Fin n) (shuf : Shuf Seed) (d : Dealer n Seed) (N : ℕ) (rank : Fin n) :
    Equiv.Perm (Fin N) :=
  let d2 := (create K adj (create K adj d N).2.2 N).2.2
  (shuf (d2.seed rank) (d2.ctr rank) N).1

/-- `SecureInvPerm` (`semi2k/permute.cc:44-95`) at all parties: `x` the shares, `perm` the permutation vector held by
`rank`. -/
def secureInvPerm (K : Ks w Seed) (adj : Fin n) (shuf : Shuf Seed) (ord : ℕ → List (Fin N)) (d : Dealer n Seed)
    (x : Fin n → Fin N → BitVec w) (perm : Fin N → ℕ) (rank : Fin n) :
    Option ((Fin n → Fin N → BitVec w) × Dealer n Seed) := do
  let pp := permPair K adj (gpOf shuf) d N rank
  let a := pp.1.1
  let b := pp.1.2.1
  let po ← applyInvPerm (ord 0) perm (toIdx (pairPerm K adj shuf d N rank))
  -- reveal `x - a` to `rank`
  let xa : Fin N → BitVec w := fun j => ∑ i, (x i j - a i j)
  let bs ← (List.finRange n).mapM fun i => applyInvPerm (ord 1) (fun j : Fin N => b i j) po
  let xp ← applyInvPerm (ord 2) xa perm
  return (fun i j => if i = rank then (bs.getD i.val fun _ => 0) j + xp j else (bs.getD i.val fun _ => 0) j, pp.2)

/-- `PermAM::proc` (`semi2k/permute.cc:115-124`): `perm i` is the permutation vector of party `i`. -/
def permAM (K : Ks w Seed) (adj : Fin n) (shuf : Shuf Seed) (ord : ℕ → List (Fin N)) (perm : Fin n → Fin N → ℕ)
    (d : Dealer n Seed) (x : Fin n → Fin N → BitVec w) : Option ((Fin n → Fin N → BitVec w) × Dealer n Seed) :=
  (List.finRange n).foldlM (fun s r => secureInvPerm K adj shuf ord s.2 s.1 (perm r) r) (x, d)

/-- `InvPermAM::proc` (`semi2k/permute.cc:131-140`): every party inverts its own vector of `v`-bit words. -/
def invPermAM {v : ℕ} (K : Ks w Seed) (adj : Fin n) (shuf : Shuf Seed) (ord : ℕ → List (Fin N))
    (perm : Fin n → Fin N → BitVec v) (d : Dealer n Seed) (x : Fin n → Fin N → BitVec w) :
    Option ((Fin n → Fin N → BitVec w) × Dealer n Seed) := do
  let inv ← (List.finRange n).mapM fun i => genInversePerm (ord 3) (perm i)
  (List.finRange n).reverse.foldlM (fun s r => secureInvPerm K adj shuf ord s.2 s.1 (idx (inv.getD r.val fun _ => 0)) r) (x, d)

/-- `PermAP::proc`, `InvPermAP::proc` (`semi2k/permute.cc:126-129`, `142-145`) -/
def permAP (x : Fin n → Fin N → BitVec w) (perm : Fin N → ℕ) : Option (Fin n → Fin N → BitVec w) := do
  let ys ← (List.finRange n).mapM fun i => applyPerm (x i) perm
  return fun i => ys.getD i.val fun _ => 0
@[inherit_doc permAP]
def invPermAP (ord : List (Fin N)) (x : Fin n → Fin N → BitVec w) (perm : Fin N → ℕ) :
    Option (Fin n → Fin N → BitVec w) := do
  let ys ← (List.finRange n).mapM fun i => applyInvPerm ord (x i) perm
  return fun i => ys.getD i.val fun _ => 0

/-- `RandPermM::proc` (`semi2k/permute.cc:99-113`) at one party: `genPrivPerm`, stored in `v`-bit words -/
def randPerm (shuf : Shuf Seed) (N v : ℕ) (st : St Seed) : (Fin N → BitVec v) × St Seed :=
  let r := shuf st.privSeed st.privCtr N
  (fun i => BitVec.ofNat v (r.1 i), { st with privCtr := r.2 })

end Semi2k

section Aby3
open Env
variable {σ : Type} {w N : ℕ}

/-- `RandPermM::proc` (`aby3/permute.cc:26-46`), `genPrssPermPair` (`prg_state.cc:117-122`) at one party -/
def randPerm3 {Seed : Type} (shuf : Shuf Seed) (N v : ℕ) (st : St Seed) :
    ((Fin N → BitVec v) × (Fin N → BitVec v)) × St Seed :=
  let r := shuf st.selfSeed st.r0Ctr N
  let r' := shuf st.nextSeed st.r1Ctr N
  ((fun i => BitVec.ofNat v (r.1 i), fun i => BitVec.ofNat v (r'.1 i)), { st with r0Ctr := r.2, r1Ctr := r'.2 })

/-- `PermAM::proc` (`aby3/permute.cc:50-156`) -/
def permAM3 (E : Env σ) (x : Sh (Fin N → BitVec w)) (perm : Sh (Fin N → ℕ)) : M σ (Sh (Fin N → BitVec w)) := do
  let r ← E.prss w N fun i => if i = 0 then [.both, .both] else if i = 1 then [.both, .first] else [.both, .second]
  -- rank 0
  let t0 ← (applyPerm (fun j => x.fst 0 j + x.snd 0 j) (perm.fst 0) : Option _)
  let d0 ← (applyPerm (fun j : Fin N => t0 j - one r 0 0 j) (perm.snd 0) : Option _)
  let delta : Fin N → BitVec w := fun j => d0 j - two r 0 0 j
  -- rank 2
  let g2 ← (applyPerm (x.fst 2) (perm.snd 2) : Option _)
  let gama : Fin N → BitVec w := fun j => g2 j + two r 0 2 j
  let b2 ← (applyPerm delta (perm.fst 2) : Option _)
  let beta2 : Fin N → BitVec w := fun j => b2 j - two r 1 2 j
  -- rank 1
  let t1 ← (applyPerm gama (perm.fst 1) : Option _)
  let b1 ← (applyPerm (fun j : Fin N => t1 j + one r 0 1 j) (perm.snd 1) : Option _)
  let beta1 : Fin N → BitVec w := fun j => b1 j - one r 1 1 j
  return ⟨fun i j => if i = 0 then one r 1 0 j else if i = 1 then one r 1 1 j else beta2 j + beta1 j,
    fun i j => if i = 0 then two r 1 0 j else if i = 1 then beta1 j + beta2 j else two r 1 2 j⟩

/-- `InvPermAM::proc` (`aby3/permute.cc:179-289`); `ord k` orders the `k`-th loop -/
def invPermAM3 (E : Env σ) (ord : ℕ → List (Fin N)) (x : Sh (Fin N → BitVec w)) (perm : Sh (Fin N → ℕ)) :
    M σ (Sh (Fin N → BitVec w)) := do
  let r ← E.prss w N fun i => if i = 0 then [.both, .second] else if i = 1 then [.both, .both] else [.both, .first]
  -- rank 1
  let t1 ← (applyInvPerm (ord 0) (fun j => x.fst 1 j + x.snd 1 j - two r 0 1 (perm.snd 1 j)) (perm.snd 1) : Option _)
  let delta ← (applyInvPerm (ord 1) (fun j => t1 j - one r 0 1 (perm.fst 1 j)) (perm.fst 1) : Option _)
  -- rank 2
  let gama ← (applyInvPerm (ord 2) (fun j => x.snd 2 j + one r 0 2 (perm.fst 2 j)) (perm.fst 2) : Option _)
  let b2 ← (applyInvPerm (ord 3) delta (perm.snd 2) : Option _)
  let beta2 : Fin N → BitVec w := fun j => b2 j - one r 1 2 j
  -- rank 0
  let t0 ← (applyInvPerm (ord 4) (fun j => gama j + two r 0 0 (perm.snd 0 j)) (perm.snd 0) : Option _)
  let b0 ← (applyInvPerm (ord 5) t0 (perm.fst 0) : Option _)
  let beta0 : Fin N → BitVec w := fun j => b0 j - two r 1 0 j
  return ⟨fun i j => if i = 0 then beta0 j + beta2 j else if i = 1 then one r 1 1 j else one r 1 2 j,
    fun i j => if i = 0 then two r 1 0 j else if i = 1 then two r 1 1 j else beta2 j + beta0 j⟩

/-- `PermAP::proc`, `InvPermAP::proc` (`aby3/permute.cc:158-175`, `291-309`) -/
def permAP3 (x : Sh (Fin N → BitVec w)) (perm : Fin N → ℕ) : Option (Sh (Fin N → BitVec w)) := do
  let f ← (List.finRange 3).mapM fun i => applyPerm (x.fst i) perm
  let s ← (List.finRange 3).mapM fun i => applyPerm (x.snd i) perm
  return ⟨fun i => f.getD i.val fun _ => 0, fun i => s.getD i.val fun _ => 0⟩
@[inherit_doc permAP3]
def invPermAP3 (ord : List (Fin N)) (x : Sh (Fin N → BitVec w)) (perm : Fin N → ℕ) : Option (Sh (Fin N → BitVec w)) := do
  let f ← (List.finRange 3).mapM fun i => applyInvPerm ord (x.fst i) perm
  let s ← (List.finRange 3).mapM fun i => applyInvPerm ord (x.snd i) perm
  return ⟨fun i => f.getD i.val fun _ => 0, fun i => s.getD i.val fun _ => 0⟩

end Aby3

end Spu.Model.Shuffle
