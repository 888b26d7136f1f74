import Verif.Model.Perm
import Verif.Model.Vectorize
import Verif.Model.Gates

set_option autoImplicit false

/-!
# Radix sort (`kernel/hal/permute.cc`)

Values are plaintext ring elements with their visibility: secret kernels act on plaintexts as proved in C18 (shuffles),
C11 (prefix sums) and C25/C27 (arithmetic).  `R` draws a random permutation share, represented by the permutation it
stands for (C18).  `ord` is the order in which a parallel loop runs.  `none`: exception or undefined behaviour.
-/

namespace Spu.Model.Radix
open Spu.Model Spu.Model.Perm Spu.Model.Circ

/-- visibility of a value; a private value has an owner -/
inductive Vis
  | pub
  | priv (owner : ℕ)
  | secret
  deriving DecidableEq, Repr

def Vis.isSecret : Vis → Bool
  | .secret => true
  | _ => false

/-- loop of `_find_mergeable_keys` (`permute.cc:1144-1180`): `idx` keys are left, `po` is `pre_owner` (`none` for -1),
`acc` the split indices already found, in final order. -/
def findLoop (keys : List Vis) : ℕ → Option ℕ → List ℕ → List ℕ
  | 0, _, acc => acc
  | idx + 1, po, acc =>
    match keys.getD (idx + 1) .pub, keys.getD idx .pub with
    | .secret, _ => findLoop keys idx po ((idx + 1) :: acc)
    | _, .pub => findLoop keys idx po acc
    | _, .priv o =>
      if po = none ∨ po = some o then findLoop keys idx (some o) acc
      else findLoop keys idx (some o) ((idx + 1) :: acc)
    | _, .secret => findLoop keys idx none ((idx + 1) :: acc)

/-- `_find_mergeable_keys`; an empty list underflows `keys.size() - 1`. -/
def findMergeable (keys : List Vis) : Option (List ℕ) :=
  match keys.getLast? with
  | none => none
  | some last => some (findLoop keys (keys.length - 1) (match last with | .priv o => some o | _ => none) [keys.length])

/-- the groups `key[beg_idx, end_idx)` of `_merge_sorting_keys` (`permute.cc:1413-1428`) -/
def groups {α : Type} (keys : List α) : ℕ → List ℕ → List (List α)
  | _, [] => []
  | beg, e :: es => (keys.drop beg).take (e - beg) :: groups keys e es

section Sorting
variable {w N : ℕ}

/-- a 1-d value: visibility, whether its data type is unsigned, the bit count that `_prefer_b` yields (the declared
count of a boolean share, else the width), and the plaintext -/
structure Val (w N : ℕ) where
  vis : Vis
  uns : Bool
  nb : ℕ
  val : Fin N → BitVec w

/-- `concatenate` of rows of length `N` -/
def cat (l : List (Fin N → BitVec w)) : ℕ → BitVec w := fun k =>
  if h : k % N < N then (l.getD (k / N) fun _ => 0) ⟨k % N, h⟩ else 0

/-- `_prefix_sum` (`permute.cc:203-209`) of the first `L` elements -/
def prefixSum (L : ℕ) (f : ℕ → BitVec w) : Option (ℕ → BitVec w) :=
  (associativeScan (· + ·) (L + 1) ⟨1, L, fun _ k => f k⟩).map fun r => r.get 0

/-- `_gen_inv_perm_by_bv` for two bit vectors (`permute.cc:845-888`); `y` is the more significant one -/
def byBv2 (x y : Fin N → BitVec w) : Option (Fin N → BitVec w) := do
  let rx : Fin N → BitVec w := fun i => 1 - x i
  let ry : Fin N → BitVec w := fun i => 1 - y i
  let f0 : Fin N → BitVec w := fun i => rx i * ry i
  let f1 : Fin N → BitVec w := fun i => ry i - f0 i
  let f2 : Fin N → BitVec w := fun i => rx i - f0 i
  let f3 : Fin N → BitVec w := fun i => y i - f2 i
  let f := cat [f0, f1, f2, f3]
  let ps ← prefixSum (4 * N) f
  let fs : ℕ → BitVec w := fun k => f k * ps k
  return fun i => (fs i + fs (N + i)) + (fs (2 * N + i) + fs (3 * N + i)) - 1

/-- `_gen_inv_perm_by_bv` for one bit vector (`permute.cc:910-933`) -/
def byBv1 (x : Fin N → BitVec w) : Option (Fin N → BitVec w) := do
  let rx : Fin N → BitVec w := fun i => 1 - x i
  let f := cat [rx, x]
  let ps ← prefixSum (2 * N) f
  let fs : ℕ → BitVec w := fun k => f k * ps k
  return fun i => fs i + fs (N + i) - 1

/-- `_opt_apply_inv_perm_ss` (`permute.cc:780-806`): the vectors re-ordered, and the revealed shuffled permutation -/
def optApplyInv (ord : List (Fin N)) (xs : List (Fin N → BitVec w)) (perm : Fin N → BitVec w) (ρ : Equiv.Perm (Fin N)) :
    Option (List (Fin N → BitVec w) × (Fin N → ℕ)) := do
  let m := idx fun i => perm (ρ i)
  let v ← xs.mapM fun x => applyInvPerm ord (fun i => x (ρ i)) m
  return (v, m)

/-- `_opt_apply_perm_ss` (`permute.cc:948-955`) -/
def optApplyPerm (perm : Fin N → BitVec w) (m : Fin N → ℕ) (ρ : Equiv.Perm (Fin N)) : Option (Fin N → BitVec w) :=
  (applyPerm perm m).map fun sm i => sm (ρ.symm i)

/-- `_bit_decompose` (`permute.cc:957-985`): `valid` is `valid_bits` (`none` for -1); more bits than the word has are
shifted out of range (undefined). -/
def bitDecompose (x : Val w N) (valid : Option ℕ) : Option (List (Fin N → BitVec w)) :=
  let nb := valid.getD x.nb
  if nb ≤ w then some ((List.range nb).map fun b i => (x.val i >>> b) &&& 1) else none

/-- the body of the loop of `_gen_bv_vector` (`permute.cc:997-1017`): the bits of one key, least significant first -/
def keyBits (x : Val w N) (asc : Bool) (valid : Option ℕ) : Option (List (Fin N → BitVec w)) := do
  let t ← bitDecompose x valid
  match t.getLast? with
  | none => none
  | some top =>
    let flip (b : Fin N → BitVec w) : Fin N → BitVec w := fun i => 1 - b i
    return t.dropLast.map (fun b => if asc then b else flip b) ++
      [if x.uns then (if asc then top else flip top) else (if asc then flip top else top)]

/-- `_gen_bv_vector` (`permute.cc:988-1019`): the last key first -/
def bvVector (keys : List (Val w N)) (asc : Bool) (valid : Option ℕ) : Option (List (Fin N → BitVec w)) := do
  let t ← keys.reverse.mapM fun k => keyBits k asc valid
  return t.flatten

variable {σ : Type} (R : M σ (Equiv.Perm (Fin N))) (ord : List (Fin N))

/-- one round of the loop of `_gen_inv_perm_s` with two bit vectors (`permute.cc:1037-1044`) -/
def round2 (b0 b1 perm : Fin N → BitVec w) (ρ : Equiv.Perm (Fin N)) : Option (Fin N → BitVec w) := do
  let r ← optApplyInv ord [b0, b1] perm ρ
  let p ← byBv2 (r.1.getD 0 fun _ => 0) (r.1.getD 1 fun _ => 0)
  optApplyPerm p r.2 ρ

/-- the last round with a single bit vector (`permute.cc:1048-1053`) -/
def round1 (b0 perm : Fin N → BitVec w) (ρ : Equiv.Perm (Fin N)) : Option (Fin N → BitVec w) := do
  let r ← optApplyInv ord [b0] perm ρ
  let p ← byBv1 (r.1.getD 0 fun _ => 0)
  optApplyPerm p r.2 ρ

/-- loop of `_gen_inv_perm_s` (`permute.cc:1035-1054`) -/
def radixLoop : List (Fin N → BitVec w) → (Fin N → BitVec w) → M σ (Fin N → BitVec w)
  | [], perm => pure perm
  | [b0], perm => do
    let ρ ← R
    (round1 ord b0 perm ρ : Option _)
  | b0 :: b1 :: rest, perm => do
    let ρ ← R
    let perm' ← (round2 ord b0 b1 perm ρ : Option _)
    radixLoop rest perm'

/-- `_gen_inv_perm_s` (`permute.cc:1022-1057`) -/
def genInvPermS (keys : List (Val w N)) (asc : Bool) (valid : Option ℕ) : M σ (Fin N → BitVec w) := do
  let bv ← (bvVector keys asc valid : Option _)
  enforce (decide (0 < bv.length))
  radixLoop R ord bv fun i => BitVec.ofNat w i

/-- `_gen_inv_perm` (`permute.cc:1183-1195`) -/
def genInvPermOne (x : Val w N) (asc : Bool) (valid : Option ℕ) : M σ (Val w N) :=
  match x.vis with
  | .secret => do
    let p ← genInvPermS R ord [x] asc valid
    return ⟨.secret, false, w, p⟩
  | v => do
    let p ← (genInvPerm x.val asc : Option _)
    return ⟨v, false, w, p⟩

/-- visibility of a (inverse) permuted value (`MAP_PERM_OP`, `permute.cc:1276-1316`) -/
def outVis : Vis → Vis → Vis
  | .pub, p => p
  | .priv a, .priv b => if a = b then .priv a else .secret
  | .priv a, .pub => .priv a
  | .priv _, .secret => .secret
  | .secret, _ => .secret

/-- whether the secret-permutation protocol `_apply_(inv_)perm_ss` is used: the permutation is secret, or it is private,
the value is not (or not of the same owner), and the protocol has no kernel `inv_perm_av` (`av`) -/
def viaShuffle (av : Bool) (x p : Vis) : Bool :=
  match p with
  | .secret => true
  | .priv _ => (outVis x p).isSecret && !av
  | .pub => false

/-- `_apply_inv_perm_ss` for one vector (`permute.cc:1072-1098`) -/
def applyInvSS (x perm : Fin N → BitVec w) : M σ (Fin N → BitVec w) := do
  let ρ ← R
  (applyInvPerm ord (fun i => x (ρ i)) (idx fun i => perm (ρ i)) : Option _)

/-- `_apply_perm_ss` for one vector (`permute.cc:1111-1139`) -/
def applyPermSS (x perm : Fin N → BitVec w) : M σ (Fin N → BitVec w) := do
  let ρ ← R
  let sx ← (applyPerm x (idx fun i => perm (ρ i)) : Option _)
  return fun i => sx (ρ.symm i)

/-- `_apply_inv_perm` (`permute.cc:1276-1325`) -/
def applyInv (av : Bool) (x p : Val w N) : M σ (Val w N) := do
  let y ← (if viaShuffle av x.vis p.vis then applyInvSS R ord x.val p.val
    else (applyInvPerm ord x.val (idx p.val) : Option _) : M σ (Fin N → BitVec w))
  return ⟨outVis x.vis p.vis, x.uns, w, y⟩

/-- `_apply_perm` (`permute.cc:1333-1357`): a secret value and a private permutation go through `_inverse` (`1327-1331`)
and the inverse kernel -/
def applyPermV (av : Bool) (x p : Val w N) : M σ (Val w N) :=
  match p.vis, (outVis x.vis p.vis).isSecret with
  | .priv _, true => do
    let inv ← (applyInvPerm ord (fun i => BitVec.ofNat w i) (idx p.val) : Option _)
    applyInv R ord av ⟨.secret, x.uns, x.nb, x.val⟩ { p with val := inv }
  | .secret, _ => do
    let y ← applyPermSS R x.val p.val
    return ⟨.secret, x.uns, w, y⟩
  | _, _ => do
    let y ← (applyPerm x.val (idx p.val) : Option _)
    return ⟨outVis x.vis p.vis, x.uns, w, y⟩

/-- one more significant key: loop bodies `permute.cc:1399-1404` and `1452-1460` -/
def stepKey (av asc : Bool) (valid : Val w N → Option ℕ) (inv cur : Val w N) : M σ (Val w N) := do
  let hat ← applyInv R ord av cur inv
  let ci ← genInvPermOne R ord hat asc (valid cur)
  -- `_compose_perm(inv, ci)`
  applyPermV R ord av ci inv

/-- a vector as an array indexed by numbers -/
def flat (x : Fin N → BitVec w) : ℕ → BitVec w := fun i => if h : i < N then x ⟨i, h⟩ else 0

/-- `_merge_keys` (`permute.cc:1367-1389`) -/
def mergeKeysV (keys : List (Val w N)) (asc : Bool) : Option (Val w N) :=
  match keys with
  | [] => none
  | k :: _ =>
    if k.vis = .secret ∨ ¬ ∀ x ∈ keys, x.vis = k.vis then none
    else (mergeKeys (keys.map fun x => flat x.val) N asc).map fun out => ⟨k.vis, false, w, fun i => out.getD i 0⟩

/-- `_merge_pub_pri_keys` (`permute.cc:1391-1410`) -/
def mergePubPri (av : Bool) (keys : List (Val w N)) (asc : Bool) : M σ (Val w N) := do
  enforce (keys.all fun k => !k.vis.isSecret)
  let last ← (keys.getLast? : Option _)
  let inv0 ← genInvPermOne R ord last asc none
  let inv ← keys.dropLast.reverse.foldlM (stepKey R ord av asc fun _ => none) inv0
  let permed ← keys.mapM fun k => applyInv R ord av k inv
  let merged ← (mergeKeysV permed asc : Option _)
  applyPermV R ord av merged inv

/-- one group of `_merge_sorting_keys` (`permute.cc:1420-1427`) -/
def mergeGroup (av asc : Bool) (g : List (Val w N)) : M σ (Val w N) :=
  match g with
  | [k] => if k.vis.isSecret then pure k else mergePubPri R ord av [k] asc
  | g => mergePubPri R ord av g asc

/-- `_merge_sorting_keys` (`permute.cc:1413-1431`) -/
def mergeSortingKeys (av : Bool) (keys : List (Val w N)) (asc : Bool) : M σ (List (Val w N)) := do
  let pos ← (findMergeable (keys.map (·.vis)) : Option _)
  (groups keys 0 pos).mapM (mergeGroup R ord av asc)

/-- the bit count handed on for a key of `gen_inv_perm` (`permute.cc:1455-1456`) -/
def realValid (valid : Option ℕ) (k : Val w N) : Option ℕ :=
  if k.vis.isSecret then valid else some (Nat.log2 N + 2)

/-- `gen_inv_perm` (`permute.cc:1437-1464`) -/
def genInvPermKeys (av : Bool) (keys : List (Val w N)) (asc : Bool) (valid : Option ℕ) : M σ (Val w N) :=
  if keys.all fun k => k.vis.isSecret then do
    let p ← genInvPermS R ord keys asc valid
    return ⟨.secret, false, w, p⟩
  else do
    let merged ← mergeSortingKeys R ord av keys asc
    let last ← (merged.getLast? : Option _)
    let inv0 ← genInvPermOne R ord last asc valid
    merged.dropLast.reverse.foldlM (stepKey R ord av asc (realValid valid)) inv0

/-- `apply_inv_perm` (`permute.cc:1466-1493`), `radix_sort` (`1500-1507`); a public permutation throws -/
def radixSort (av : Bool) (inputs : List (Val w N)) (asc : Bool) (numKeys : ℕ) (valid : Option ℕ) :
    M σ (List (Val w N)) := do
  let p ← genInvPermKeys R ord av (inputs.take numKeys) asc valid
  enforce (decide (p.vis ≠ .pub))
  inputs.mapM fun x =>
    if p.vis = .secret ∨ av = false then applyInv R ord av { x with vis := .secret } { p with vis := .secret }
    else applyInv R ord av x p

end Sorting
end Spu.Model.Radix
