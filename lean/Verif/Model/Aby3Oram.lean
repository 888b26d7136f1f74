import Verif.Model.Aby3Conv

set_option autoImplicit false

/-!
# aby3: oblivious reads (`mpc/aby3/oram.{h,cc}`)

A secret index is turned into shares of a unit vector with two-party distributed point functions (DPF);
a read is the product of that vector with the table.

A value the two parties of a DPF hold is a function of `Bool`: `true` is the party with `dpf_rank` (rank
`ctrl`), `false` the previous one; the remaining party only helps.  `f p : Key → Key` is AES-128-ECB under the
key of party `p`, of which nothing is assumed; correction flags (bytes that are 0 or 1) are `Bool`.
Vectors are functions of the position, their sizes are carried along where the code resizes or copies.
-/

namespace Spu.Model.Aby3
open Spu.Model.Circ Spu.Model.Bits Spu.Model.Prg Env

/-- `DpfKeyT` (`oram.h:92`) -/
abbrev Key := BitVec 128

section
variable {σ : Type} {w : ℕ}

/-! ### Beaver triples -/

/-- the draws of `genOramBeaverPrim` at ranks `j` and `j - 1` and of `genOramBeaverHelper` at rank `j + 1`
(`oram.cc:290-296`, `325-330`) -/
def dpfScript (j : Fin 3) : Fin 3 → List Ctrl := fun i =>
  if i = j then [.second] else if i = j + 1 then [.second, .first] else [.first]

/-- The adjusting words of `genOramBeaverHelper` (`oram.cc:333-348`): `op`, `add`, `sub` are `&, ^, ^` for
`OpKind::And` and `*, +, -` for `OpKind::Mul`. -/
def beaverAdj {v : ℕ} (op add sub : BitVec v → BitVec v → BitVec v) (num : ℕ) (t0 t1 : ℕ → BitVec v) (i : ℕ) :
    BitVec v :=
  sub (op (add (t0 i) (t1 i)) (add (t0 (num + i)) (t1 (num + i)))) (add (t0 (num * 2 + i)) (t1 (num * 2 + i)))

/-- `genOramBeaverPrim` and `genOramBeaverHelper` (`oram.cc:283-354`): the `i`-th triple of either party -/
def oramBeaver {v : ℕ} (op add sub : BitVec v → BitVec v → BitVec v) (j : Fin 3) (num : ℕ)
    (d : Fin 3 → List (ℕ → BitVec v) × List (ℕ → BitVec v)) (p : Bool) (i : ℕ) : BitVec v × BitVec v × BitVec v :=
  let t : ℕ → BitVec v := if p then two d 0 j else one d 0 (j + 2)
  let c := t (num * 2 + i)
  (t i, t (num + i),
    if p then add c (beaverAdj op add sub num (two d 0 (j + 1)) (one d 0 (j + 1)) i) else c)

/-! ### Distributed point functions -/

/-- `setLsb` (`oram.cc:261-265`) -/
def setLsb (x : Key) (b : Bool) : Key :=
  (x &&& (BitVec.allOnes 128 - 1)) ||| (if b then 1 else 0)

/-- `bitDecomposeToDpfKeyT` (`oram.cc:271-280`): element `l` of the reversed vector of `num` masks -/
def dpfBit (x : Key) (num l : ℕ) : Key := if x.getLsbD (num - 1 - l) then BitVec.allOnes 128 else 0

/-- `OramDpf::lengthDoubling` (`oram.cc:490-508`) -/
def lengthDoubling (f : Key → Key) (v : ℕ → Key) : ℕ → Key := fun i =>
  let plain := if i % 2 = 0 then v (i / 2) else v (i / 2) ^^^ 1
  f plain ^^^ (if i % 2 = 0 then v (i / 2) else v (i / 2) ^^^ 1)

/-- `computecw` (`oram.cc:356-394`) -/
def computecw (bit suml sumr : Bool → Key) (bl br : Bool → Key × Key × Key) (p : Bool) : Key :=
  let mask0 : Bool → Key := fun p => bit p ^^^ (bl p).1
  let mask1 : Bool → Key := fun p => suml p ^^^ (bl p).2.1
  let mask2 : Bool → Key := fun p => if p then bit p ^^^ BitVec.allOnes 128 ^^^ (br p).1 else bit p ^^^ (br p).1
  let mask3 : Bool → Key := fun p => sumr p ^^^ (br p).2.1
  let m0 := mask0 p ^^^ mask0 (!p)
  let m1 := mask1 p ^^^ mask1 (!p)
  let m2 := mask2 p ^^^ mask2 (!p)
  let m3 := mask3 p ^^^ mask3 (!p)
  let z0 := (bl p).2.2 ^^^ (m0 &&& (bl p).2.1) ^^^ (m1 &&& (bl p).1)
  let z1 := (br p).2.2 ^^^ (m2 &&& (br p).2.1) ^^^ (m3 &&& (br p).1)
  if p then (z0 ^^^ (m0 &&& m1)) ^^^ (z1 ^^^ (m2 &&& m3)) else z0 ^^^ z1

/-- keys and flags of one layer (`prev_v`, `prev_e`) -/
structure DpfLayer where
  v : ℕ → Key
  e : ℕ → Bool

/-- xor of every other child, starting with child `s` (`sumL`, `sumR`, `oram.cc:543-546`) -/
def childSum (cur : ℕ → Key) (half s : ℕ) : Key :=
  (List.range half).foldl (fun acc i => acc ^^^ cur (2 * i + s)) 0

/-- one layer of `OramDpf::gen` (`oram.cc:534-588`): `half` nodes, target masks `bit`, triples `bl`, `br` -/
def dpfLayer (f : Bool → Key → Key) (half : ℕ) (bit : Bool → Key) (bl br : Bool → Key × Key × Key)
    (s : Bool → DpfLayer) : Bool → DpfLayer :=
  let cur : Bool → ℕ → Key := fun p => lengthDoubling (f p) (s p).v
  let suml : Bool → Key := fun p => childSum (cur p) half 0
  let sumr : Bool → Key := fun p => childSum (cur p) half 1
  let share : Bool → Key := computecw bit suml sumr bl br
  let cw : Bool → Key := fun p => share p ^^^ share (!p)
  let cwt0 : Bool → Bool := fun p => lsb (suml p) ^^ lsb (bit p)
  let cwt1 : Bool → Bool := fun p => lsb (sumr p) ^^ lsb (bit p)
  let t0 : Bool → Bool := fun p => cwt0 p ^^ (cwt0 (!p) ^^ true)
  let t1 : Bool → Bool := fun p => cwt1 p ^^ cwt1 (!p)
  fun p =>
    ⟨fun i => cur p i ^^^ ((if (s p).e (i / 2) then BitVec.allOnes 128 else 0) &&& cw p),
     fun i => lsb (cur p i) ^^ ((s p).e (i / 2) && (if i % 2 = 0 then t0 p else t1 p))⟩

/-- number of nodes expanded on layer `l` (`oram.cc:529-533`): `sz` nodes are there -/
def dpfHalf (n depth l sz : ℕ) : ℕ := if l + 1 = depth then n / 2 + (if n % 2 ≠ 0 then 1 else 0) else sz

/-- `OramDpf::gen` (`oram.cc:510-598`) for `n` leaves: `root p` the seeds, `target p` the shares of the target,
`tri p i` the triples; layers carry their number of nodes.  `none`: a vector is read past its end. -/
def dpfGen (f : Bool → Key → Key) (n : ℕ) (root target : Bool → Key) (tri : Bool → ℕ → Key × Key × Key) :
    Option (Bool → DpfLayer) := do
  let depth := log2Ceil n
  let init : Bool → DpfLayer := fun p => ⟨fun _ => setLsb (root p) (!p), fun _ => !p⟩
  let r ← (List.range depth).foldlM (m := Option) (fun (st : ℕ × (Bool → DpfLayer)) l =>
      let half := dpfHalf n depth l st.1
      if half ≤ st.1 then
        some (half * 2, dpfLayer f half (fun p => dpfBit (target p) depth l) (fun p => tri p (l * 2))
          (fun p => tri p (l * 2 + 1)) st.2)
      else none) (1, init)
  if n ≤ r.1 then return r.2 else none

/-- `mul2pc` on one element (`oram.cc:396-433`) -/
def mul2pc (x y : Bool → BitVec w) (t : Bool → BitVec w × BitVec w × BitVec w) (p : Bool) : BitVec w :=
  let e0 : Bool → BitVec w := fun p => x p - (t p).1
  let u0 : Bool → BitVec w := fun p => y p - (t p).2.1
  let e := e0 p + e0 (!p)
  let u := u0 p + u0 (!p)
  let z := (t p).2.2 + e * (t p).2.1 + u * (t p).1
  if p then z + e * u else z

/-- `OramContext::onehotB2A` (`oram.cc:435-473`): `e`, `v` the signed leaves, `r` the private masks -/
def onehotB2A (n : ℕ) (e v : Bool → ℕ → BitVec w) (r : Bool → BitVec w)
    (t : Bool → BitVec w × BitVec w × BitVec w) (p : Bool) : ℕ → BitVec w :=
  let pm : Bool → BitVec w := fun p => (List.range n).foldl (fun acc i => acc + e p i) 0
  let F : Bool → BitVec w := fun p => (List.range n).foldl (fun acc i => acc - v p i) 0
  let bpm := (pm p + r p) + (pm (!p) + r (!p))
  let z : Bool → BitVec w := mul2pc pm F t
  let bF := (z p + r p) + (z (!p) + r (!p))
  fun i => e p i * bpm - v p i - e p i * bF

/-- the casts of `OramContext::genDpf` (`oram.cc:479-487`) -/
def dpfCastE (w : ℕ) (s : Bool → DpfLayer) (p : Bool) (i : ℕ) : BitVec w :=
  (if p then -1 else 1) * (if (s p).e i then 1 else 0)
@[inherit_doc dpfCastE]
def dpfCastV (w : ℕ) (s : Bool → DpfLayer) (p : Bool) (i : ℕ) : BitVec w :=
  (if p then -1 else 1) * ((s p).v i).setWidth w

/-- `genDpf` and `onehotB2A` at the two parties of round `j`, the helper's part at the third
(`oram.cc:55-72`, `98-133`): what the two parties hold of the unit vector of size `n`.
`f`, `root` as in `dpfGen` (`root` is drawn in `genDpf` with `SecureRandU128`). -/
def dpfRound (E : Env σ) (j : Fin 3) (n : ℕ) (f : Bool → Key → Key) (root : Bool → Key)
    (target : Bool → BitVec w) : M σ (Bool → ℕ → BitVec w) := do
  let num := log2Ceil n * 2
  let d ← E.prss 128 (num * 3) (dpfScript j)
  let tri : Bool → ℕ → Key × Key × Key := oramBeaver (· &&& ·) (· ^^^ ·) (· ^^^ ·) j num d
  let s ← (StateT.lift (dpfGen f n root (fun p => (target p).setWidth 128) tri) : M σ (Bool → DpfLayer))
  let rP ← E.priv w 1 j
  let rQ ← E.priv w 1 (j + 2)
  let m ← E.prss w (1 * 3) (dpfScript j)
  let t : Bool → BitVec w × BitVec w × BitVec w := fun p => oramBeaver (· * ·) (· + ·) (· - ·) j 1 m p 0
  return onehotB2A n (dpfCastE w s) (dpfCastV w s) (fun p => if p then rP 0 else rQ 0) t

/-! ### Kernels -/

/-- the words of a boolean share, read as ring elements (`NdArrayView<shr_t>`) -/
def wordsOf (w : ℕ) (b : BShr) : M σ (Sh (BitVec w)) :=
  if b.v = w then pure (mapSh (BitVec.setWidth w) b.sh) else failure

/-- the randomness of one kernel call that does not come from the PRG state: `SecureRandSeed` at every
party (`keys`) and `SecureRandU128` in the rounds (`root j p`); `aes key` is AES-128-ECB -/
structure OramRnd where
  aes : Key → Key → Key
  keys : Fin 3 → Key
  root : Fin 3 → Bool → Key

/-- `OramOneHotKernel::evaluate` (`kernel.cc:264-274`) and `OramOneHotAA::proc` (`oram.cc:33-80`) -/
def oramOneHotAA (E : Env σ) (g : OramRnd) (n : ℕ) (x : Sh (BitVec w)) : M σ (Sh (ℕ → BitVec w)) := do
  enforce (decide (0 < n))
  let b ← a2b3 E x
  let t ← wordsOf w b
  let next : Fin 3 → Key := rotate g.keys
  let round : Fin 3 → M σ (Bool → ℕ → BitVec w) := fun j =>
    dpfRound E j n (fun p => g.aes (if p then g.keys j else next (j + 2))) (g.root j)
      (fun p => if p then t.fst j ^^^ t.snd j else t.fst (j + 2))
  let e0 ← round 0
  let e1 ← round 1
  let e2 ← round 2
  let e : Fin 3 → Bool → ℕ → BitVec w := ![e0, e1, e2]
  return ⟨fun i => e i true, fun i => e (i + 1) false⟩

/-- `OramOneHotAP::proc` (`oram.cc:84-142`): what ranks 0 and 1 hold; the vector of rank 2 is never
initialised and is not part of the result -/
def oramOneHotAP (E : Env σ) (g : OramRnd) (n : ℕ) (x : Sh (BitVec w)) : M σ (Bool → ℕ → BitVec w) := do
  enforce (decide (0 < n))
  let b ← a2b3 E x
  let t ← wordsOf w b
  let key : Bool → Key := fun p => if p then g.keys 1 + g.keys 0 else g.keys 0 + g.keys 1
  dpfRound E 1 n (fun p => g.aes (key p)) (g.root 1) (fun p => if p then t.fst 1 ^^^ t.snd 1 else t.fst 0)

/-- position read by `shifted_onehot` (`oram.cc:167-171`): C++ remainder; `none` if negative or if a vector
of size 0 is divided -/
def shiftPos (n : ℕ) (offset : ℤ) (i : ℕ) : Option ℕ :=
  if offset = 0 then some i
  else if n = 0 then none
  else
    let r := ((i : ℤ) - offset + n).tmod n
    if r < 0 then none else some r.toNat

/-- all positions of a shifted vector -/
def shiftVec (n : ℕ) (offset : ℤ) : Option (ℕ → ℕ) := do
  let l ← (List.range n).mapM (shiftPos n offset)
  return fun i => l.getD i 0

/-- `ring_mmul` of a row vector and column `c` of a table (`ring_ops.cc:381-419`) -/
def rowTimes (n : ℕ) (o : ℕ → BitVec w) (db : ℕ → ℕ → BitVec w) (c : ℕ) : BitVec w :=
  (List.range n).foldl (fun acc k => acc + o k * db k c) 0

/-- `OramReadOA::proc` (`oram.cc:144-198`): table of `n` rows and `m` columns -/
def oramReadOA (E : Env σ) (n m : ℕ) (offset : ℤ) (o : Sh (ℕ → BitVec w)) (db : Sh (ℕ → ℕ → BitVec w)) :
    M σ (Sh (ℕ → BitVec w)) := do
  let r ← E.prss w m (fun _ => [.both])
  let p ← (StateT.lift (shiftVec n offset) : M σ (ℕ → ℕ))
  let z : Fin 3 → ℕ → BitVec w := fun i c =>
    rowTimes n (fun k => o.fst i (p k)) (db.fst i) c + rowTimes n (fun k => o.snd i (p k)) (db.snd i) c +
      (one r 0 i c - two r 0 i c)
  return ⟨z, rotate z⟩

/-- `OramReadOP::proc` (`oram.cc:200-249`): public table -/
def oramReadOP (E : Env σ) (n m : ℕ) (offset : ℤ) (o : Bool → ℕ → BitVec w) (db : ℕ → ℕ → BitVec w) :
    M σ (Sh (ℕ → BitVec w)) := do
  let r ← E.prss w m (fun _ => [.both])
  let p ← (StateT.lift (shiftVec n offset) : M σ (ℕ → ℕ))
  let z : Fin 3 → ℕ → BitVec w := fun i c =>
    (if i = 2 then 0 else rowTimes n (fun k => o (decide (i = 1)) (p k)) db c) + (one r 0 i c - two r 0 i c)
  return ⟨z, rotate z⟩

/-- The oblivious part of `SecretDynamicSliceOramImpl` (`indexing.cc:731-760`) on a collapsed table: one unit
vector, then one read per row of the slice. -/
def oramRowsAA (E : Env σ) (g : OramRnd) (n m rows : ℕ) (x : Sh (BitVec w)) (db : Sh (ℕ → ℕ → BitVec w)) :
    M σ (List (Sh (ℕ → BitVec w))) := do
  let o ← oramOneHotAA E g n x
  (List.range rows).foldlM (m := M σ) (fun (acc : List (Sh (ℕ → BitVec w))) (k : ℕ) => do
    let r ← oramReadOA E n m k o db
    return acc ++ [r]) []
@[inherit_doc oramRowsAA]
def oramRowsAP (E : Env σ) (g : OramRnd) (n m rows : ℕ) (x : Sh (BitVec w)) (db : ℕ → ℕ → BitVec w) :
    M σ (List (Sh (ℕ → BitVec w))) := do
  let o ← oramOneHotAP E g n x
  (List.range rows).foldlM (m := M σ) (fun (acc : List (Sh (ℕ → BitVec w))) (k : ℕ) => do
    let r ← oramReadOP E n m k o db
    return acc ++ [r]) []

end

end Spu.Model.Aby3
