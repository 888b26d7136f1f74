import Verif.Model.Comm
import Mathlib.Data.BitVec

set_option autoImplicit false

/-!
# Trusted dealer (`mpc/semi2k/beaver/beaver_impl/{beaver_tfp.cc, trusted_party/trusted_party.cc}`)

All parties' dealer objects are modelled together: `Dealer n Seed` holds, for every party, its own
seed and counter, and the adjusting party's table of everybody's seeds.

The keystream is abstract: `ks seed p` is ring element number `p` of the stream of `seed`.
`yacl::crypto::FillPRand` started at counter `c` yields the elements from position `c * epb` on
(`epb` = ring elements per 16-byte AES block: 4, 2 or 1) and returns
`c + ceil(bytes/16)`; this counter behaviour is part of the trusted base.

Ring elements are `BitVec w`; arrays are functions `ℕ → BitVec w` (flat index; only indices below
the requested size are meaningful).
-/

namespace Spu.Model.Dealer

/-- array of ring elements by flat index -/
abbrev Arr (w : ℕ) := ℕ → BitVec w

structure Dealer (n : ℕ) (Seed : Type) where
  /-- `seed_` of each party -/
  seed : Fin n → Seed
  /-- `seeds_` as collected by the adjusting party (`Gather`, `beaver_tfp.cc:57-71`) -/
  seeds0 : Fin n → Seed
  /-- `counter_` of each party -/
  ctr : Fin n → ℕ
  /-- ghost: for each party, the (start counter, element count) of every piece of its keystream that
  was drawn for the first time (anything that is not a replay), oldest first -/
  log : Fin n → List (ℕ × ℕ)

/-- `Beaver::ReplayStatus` (`beaver_interface.h:31-35`). -/
inductive Status | init | replay | transposeReplay
  deriving DecidableEq, Repr

/-- `Beaver::ReplayDesc` (`beaver_interface.h:37-45`) of all parties: every party has its own
`prg_counter` and `seed`; `enc` is the adjusting party's `encrypted_seeds`.
Simplified: `field`/`eltype` are fixed, `size` is checked separately. -/
structure Desc (n : ℕ) (Seed : Type) where
  status : Status
  ctr : Fin n → ℕ
  seed : Fin n → Seed
  enc : Fin n → Seed

/-- `TrustedParty::Operand` (`trusted_party.h`): seeds and `desc.prg_counter`. -/
structure Operand (n : ℕ) (Seed : Type) where
  seeds : Fin n → Seed
  ctr : ℕ

/-- the parameters of the keystream -/
structure Ks (w : ℕ) (Seed : Type) where
  ks : Seed → ℕ → BitVec w
  /-- ring elements per AES block -/
  epb : ℕ

variable {n w : ℕ} [NeZero n] {Seed : Type}

/-- number of AES blocks consumed by `size` ring elements -/
def blocks (K : Ks w Seed) (size : ℕ) : ℕ := (size + K.epb - 1) / K.epb

/-- `prgReplayArray` (`prg_tensor.h:54-61`) / the array returned by `prgCreateArray`. -/
def draw (K : Ks w Seed) (seed : Seed) (ctr : ℕ) : Arr w := fun idx => K.ks seed (ctr * K.epb + idx)

/-- `prgCreateArray(field, shape, seed_, &counter_, &ops[idx].desc)` at every party
(`prg_tensor.h:39-52`), with `ops[idx].seeds = seeds_` at the adjusting party `adj`. -/
def create (K : Ks w Seed) (adj : Fin n) (d : Dealer n Seed) (size : ℕ) :
    (Fin n → Arr w) × Operand n Seed × Dealer n Seed :=
  (fun i => draw K (d.seed i) (d.ctr i),
   { seeds := d.seeds0, ctr := d.ctr adj },
   { d with ctr := fun i => d.ctr i + blocks K size
            log := fun i => d.log i ++ [(d.ctr i, size)] })

/-- the replay branch of `if_replay` (`beaver_tfp.cc:91-112`) -/
def replay (K : Ks w Seed) (adj : Fin n) (ds : Desc n Seed) :
    (Fin n → Arr w) × Operand n Seed :=
  (fun i => draw K (ds.seed i) (ds.ctr i), { seeds := ds.enc, ctr := ds.ctr adj })

/-- `FillReplayDesc` (`beaver_tfp.cc:36-50`). -/
def fillDesc (d : Dealer n Seed) : Option (Desc n Seed) → Option (Desc n Seed)
  | none => none
  | some ds =>
    if ds.status = .init then some { ds with ctr := d.ctr, seed := d.seed, enc := d.seeds0 }
    else some ds

/-- `if_replay` of `Mul` and `Square` (`beaver_tfp.cc:82-113`, `:166-194`): anything but status
`Replay` draws fresh randomness. -/
def drawOrReplay (K : Ks w Seed) (adj : Fin n) (d : Dealer n Seed) (size : ℕ)
    (ds : Option (Desc n Seed)) : (Fin n → Arr w) × Operand n Seed × Dealer n Seed :=
  match ds with
  | none => create K adj d size
  | some ds =>
    if ds.status = .replay then ((replay K adj ds).1, (replay K adj ds).2, d)
    else create K adj d size

/-- `if_replay` of `Dot` (`beaver_tfp.cc:223-257`): only a null descriptor draws fresh randomness; a
descriptor in any status, `Init` included, goes through the replay branch and leaves `counter_`
where it was.  (The `Init` draw is a first use, hence the ghost log entry.) -/
def drawOrReplayDot (K : Ks w Seed) (adj : Fin n) (d : Dealer n Seed) (size : ℕ)
    (ds : Option (Desc n Seed)) : (Fin n → Arr w) × Operand n Seed × Dealer n Seed :=
  match ds with
  | none => create K adj d size
  | some ds => ((replay K adj ds).1, (replay K adj ds).2,
      if ds.status = .init then { d with log := fun i => d.log i ++ [(ds.ctr i, size)] } else d)

/-- `reduce` (`trusted_party.cc:37-80`): start from rank 0's replayed array, combine the others in
rank order. -/
def reduce (K : Ks w Seed) (op : BitVec w → BitVec w → BitVec w) (o : Operand n Seed) : Arr w :=
  fun idx => (List.finRange n).foldl
    (fun acc r => if r = 0 then draw K (o.seeds r) o.ctr idx
      else op acc (draw K (o.seeds r) o.ctr idx)) 0

/-- `adjustMul` (`trusted_party.cc:102-116`). -/
def adjustMul (K : Ks w Seed) (o0 o1 o2 : Operand n Seed) : Arr w := fun idx =>
  reduce K (· + ·) o0 idx * reduce K (· + ·) o1 idx - reduce K (· + ·) o2 idx

/-- `adjustMulPriv` (`trusted_party.cc:127-140`). -/
def adjustMulPriv (K : Ks w Seed) (o0 o1 : Operand n Seed) : Arr w := fun idx =>
  reduce K (· * ·) o0 idx - reduce K (· + ·) o1 idx

/-- `adjustSquare` (`trusted_party.cc:142-150`). -/
def adjustSquare (K : Ks w Seed) (o0 o1 : Operand n Seed) : Arr w := fun idx =>
  reduce K (· + ·) o0 idx * reduce K (· + ·) o0 idx - reduce K (· + ·) o1 idx

/-- `adjustAnd` (`trusted_party.cc:173-182`). -/
def adjustAnd (K : Ks w Seed) (o0 o1 o2 : Operand n Seed) : Arr w := fun idx =>
  (reduce K (· ^^^ ·) o0 idx &&& reduce K (· ^^^ ·) o1 idx) ^^^ reduce K (· ^^^ ·) o2 idx

/-- `adjustTrunc` (`trusted_party.cc:184-193`). -/
def adjustTrunc (K : Ks w Seed) (o0 o1 : Operand n Seed) (bits : ℕ) : Arr w := fun idx =>
  (reduce K (· + ·) o0 idx).sshiftRight bits - reduce K (· + ·) o1 idx

/-- `adjustTruncPr` (`trusted_party.cc:195-214`). -/
def adjustTruncPr (K : Ks w Seed) (o0 o1 o2 : Operand n Seed) (bits : ℕ) : Arr w × Arr w :=
  (fun idx => ((reduce K (· + ·) o0 idx <<< 1) >>> (bits + 1)) - reduce K (· + ·) o1 idx,
   fun idx => (reduce K (· + ·) o0 idx >>> (w - 1)) - reduce K (· + ·) o2 idx)

/-- `adjustRandBit` (`trusted_party.cc:216-224`); `rb` is `ring_randbit`. -/
def adjustRandBit (K : Ks w Seed) (o0 : Operand n Seed) (rb : ℕ → Bool) : Arr w := fun idx =>
  (if rb idx then 1 else 0) - reduce K (· + ·) o0 idx

/-- `adjustEqz` (`trusted_party.cc:226-233`). -/
def adjustEqz (K : Ks w Seed) (o0 o1 : Operand n Seed) : Arr w := fun idx =>
  reduce K (· + ·) o0 idx ^^^ reduce K (· ^^^ ·) o1 idx

/-- `adjustPerm` (`trusted_party.cc:235-241`): `applyInvPerm(x, pi)[pi[i]] = x[i]`
(`mpc/utils/permute.cc`), i.e. `applyInvPerm(x, pi)[j] = x[pi⁻¹ j]`; `piInv` is `pi⁻¹`. -/
def adjustPerm (K : Ks w Seed) (o0 o1 : Operand n Seed) (piInv : ℕ → ℕ) : Arr w := fun idx =>
  reduce K (· + ·) o0 (piInv idx) - reduce K (· + ·) o1 idx

/-- `ring_add_(c, adjust)` at the adjusting party only. -/
def addAt (adj : Fin n) (c : Fin n → Arr w) (v : Arr w) : Fin n → Arr w := fun i idx =>
  if i = adj then c i idx + v idx else c i idx

/-- `ring_xor_(c, adjust)` at the adjusting party only. -/
def xorAt (adj : Fin n) (c : Fin n → Arr w) (v : Arr w) : Fin n → Arr w := fun i idx =>
  if i = adj then c i idx ^^^ v idx else c i idx

/-- `Mul` (`beaver_tfp.cc:73-139`): returns `(a, b, c)`, the filled descriptors and the new state. -/
def mul (K : Ks w Seed) (adj : Fin n) (d : Dealer n Seed) (size : ℕ)
    (xd yd : Option (Desc n Seed)) :
    ((Fin n → Arr w) × (Fin n → Arr w) × (Fin n → Arr w)) ×
      (Option (Desc n Seed) × Option (Desc n Seed)) × Dealer n Seed :=
  let xd := fillDesc d xd
  let (a, oa, d1) := drawOrReplay K adj d size xd
  let yd := fillDesc d1 yd
  let (b, ob, d2) := drawOrReplay K adj d1 size yd
  let (c, oc, d3) := create K adj d2 size
  ((a, b, addAt adj c (adjustMul K oa ob oc)), (xd, yd), d3)

/-- `MulPriv` (`beaver_tfp.cc:141-171`). -/
def mulPriv (K : Ks w Seed) (adj : Fin n) (d : Dealer n Seed) (size : ℕ) :
    ((Fin n → Arr w) × (Fin n → Arr w)) × Dealer n Seed :=
  let (a, oa, d1) := create K adj d size
  let (c, oc, d2) := create K adj d1 size
  ((a, addAt adj c (adjustMulPriv K oa oc)), d2)

/-- `Square` (`beaver_tfp.cc:173-222`). -/
def square (K : Ks w Seed) (adj : Fin n) (d : Dealer n Seed) (size : ℕ)
    (xd : Option (Desc n Seed)) :
    ((Fin n → Arr w) × (Fin n → Arr w)) × Option (Desc n Seed) × Dealer n Seed :=
  let xd := fillDesc d xd
  let (a, oa, d1) := drawOrReplay K adj d size xd
  let (b, ob, d2) := create K adj d1 size
  ((a, addAt adj b (adjustSquare K oa ob)), xd, d2)

/-- a 2-D array -/
abbrev Mat (w : ℕ) := ℕ → ℕ → BitVec w

/-- a flat row-major buffer seen as a matrix with `cols` columns -/
def asMat (cols : ℕ) (f : Arr w) : Mat w := fun i j => f (i * cols + j)

/-- `ring_mmul` with inner extent `k` -/
def mmul (k : ℕ) (x y : Mat w) : Mat w := fun i j =>
  (List.range k).foldl (fun acc l => acc + x i l * y l j) 0

/-- reading a drawn buffer of logical shape `rows × cols`: when the descriptor says
`TransposeReplay` the buffer was drawn with the reversed shape and is transposed afterwards
(`beaver_tfp.cc:229-232,250-255`, `trusted_party.cc:158-163`). -/
def matOf (rows cols : ℕ) (ds : Option (Desc n Seed)) (f : Arr w) : Mat w :=
  match ds with
  | none => asMat cols f
  | some ds => if ds.status = .transposeReplay then fun i j => asMat rows f j i else asMat cols f

/-- `Dot` (`beaver_tfp.cc:224-297`) with `adjustDot` (`trusted_party.cc:152-171`). -/
def dot (K : Ks w Seed) (adj : Fin n) (d : Dealer n Seed) (m nn k : ℕ)
    (xd yd : Option (Desc n Seed)) :
    ((Fin n → Mat w) × (Fin n → Mat w) × (Fin n → Mat w)) ×
      (Option (Desc n Seed) × Option (Desc n Seed)) × Dealer n Seed :=
  let xd := fillDesc d xd
  let (a, oa, d1) := drawOrReplayDot K adj d (m * k) xd
  let yd := fillDesc d1 yd
  let (b, ob, d2) := drawOrReplayDot K adj d1 (k * nn) yd
  let (c, oc, d3) := create K adj d2 (m * nn)
  let adjust : Mat w := fun i j =>
    mmul k (matOf m k xd (reduce K (· + ·) oa)) (matOf k nn yd (reduce K (· + ·) ob)) i j
      - asMat nn (reduce K (· + ·) oc) i j
  ((fun p => matOf m k xd (a p), fun p => matOf k nn yd (b p),
    fun p i j => if p = adj then asMat nn (c p) i j + adjust i j else asMat nn (c p) i j),
   (xd, yd), d3)

/-- `And` (`beaver_tfp.cc:299-331`); simplified: sizes in words (the code rounds the byte count up
to 16-byte words and truncates the buffers afterwards). -/
def and (K : Ks w Seed) (adj : Fin n) (d : Dealer n Seed) (size : ℕ) :
    ((Fin n → Arr w) × (Fin n → Arr w) × (Fin n → Arr w)) × Dealer n Seed :=
  let (a, oa, d1) := create K adj d size
  let (b, ob, d2) := create K adj d1 size
  let (c, oc, d3) := create K adj d2 size
  ((a, b, xorAt adj c (adjustAnd K oa ob oc)), d3)

/-- `Trunc` (`beaver_tfp.cc:333-353`). -/
def trunc (K : Ks w Seed) (adj : Fin n) (d : Dealer n Seed) (size bits : ℕ) :
    ((Fin n → Arr w) × (Fin n → Arr w)) × Dealer n Seed :=
  let (a, oa, d1) := create K adj d size
  let (b, ob, d2) := create K adj d1 size
  ((a, addAt adj b (adjustTrunc K oa ob bits)), d2)

/-- `TruncPr` (`beaver_tfp.cc:355-380`). -/
def truncPr (K : Ks w Seed) (adj : Fin n) (d : Dealer n Seed) (size bits : ℕ) :
    ((Fin n → Arr w) × (Fin n → Arr w) × (Fin n → Arr w)) × Dealer n Seed :=
  let (r, o0, d1) := create K adj d size
  let (rc, o1, d2) := create K adj d1 size
  let (rb, o2, d3) := create K adj d2 size
  let adjs := adjustTruncPr K o0 o1 o2 bits
  ((r, addAt adj rc adjs.1, addAt adj rb adjs.2), d3)

/-- `RandBit` (`beaver_tfp.cc:382-395`). -/
def randBit (K : Ks w Seed) (adj : Fin n) (d : Dealer n Seed) (size : ℕ) (rb : ℕ → Bool) :
    (Fin n → Arr w) × Dealer n Seed :=
  let (a, oa, d1) := create K adj d size
  (addAt adj a (adjustRandBit K oa rb), d1)

/-- `Eqz` (`beaver_tfp.cc:426-444`). -/
def eqz (K : Ks w Seed) (adj : Fin n) (d : Dealer n Seed) (size : ℕ) :
    ((Fin n → Arr w) × (Fin n → Arr w)) × Dealer n Seed :=
  let (a, oa, d1) := create K adj d size
  let (b, ob, d2) := create K adj d1 size
  ((a, xorAt adj b (adjustEqz K oa ob)), d2)

/-- `PermPair` (`beaver_tfp.cc:397-437`).  `genPerm seed ctr size` is `genRandomPerm`: the inverse of
the permutation it returns and the counter afterwards.  The owner `pr` draws from its own seed and
counter, the adjusting party replays it from its table; then everybody adopts the owner's counter
(`Broadcast`). -/
def permPair (K : Ks w Seed) (adj : Fin n) (genPerm : Seed → ℕ → ℕ → (ℕ → ℕ) × ℕ)
    (d : Dealer n Seed) (size : ℕ) (pr : Fin n) :
    ((Fin n → Arr w) × (Fin n → Arr w) × (ℕ → ℕ)) × Dealer n Seed :=
  let (a, oa, d1) := create K adj d size
  let (b, ob, d2) := create K adj d1 size
  let own := genPerm (d2.seed pr) (d2.ctr pr) size
  let atAdj := if pr = adj then own else genPerm (d2.seeds0 pr) (d2.ctr adj) size
  ((a, addAt adj b (adjustPerm K oa ob atAdj.1), own.1), { d2 with ctr := fun _ => own.2 })

/-- the constructor (`beaver_tfp.cc:52-71`): seeds are gathered, counters start at 0. -/
def start (seed : Fin n → Seed) : Dealer n Seed :=
  { seed := seed, seeds0 := seed, ctr := fun _ => 0, log := fun _ => [] }

/-- A request to the dealer. -/
inductive Call (n : ℕ) (Seed : Type)
  | mul (size : ℕ) (xd yd : Option (Desc n Seed))
  | mulPriv (size : ℕ)
  | square (size : ℕ) (xd : Option (Desc n Seed))
  | dot (m nn k : ℕ) (xd yd : Option (Desc n Seed))
  | and (size : ℕ)
  | trunc (size bits : ℕ)
  | truncPr (size bits : ℕ)
  | randBit (size : ℕ) (rb : ℕ → Bool)
  | eqz (size : ℕ)
  | permPair (size : ℕ) (pr : Fin n)

/-- the dealer state after a request -/
def next (K : Ks w Seed) (adj : Fin n) (gp : Seed → ℕ → ℕ → (ℕ → ℕ) × ℕ) (d : Dealer n Seed) :
    Call n Seed → Dealer n Seed
  | .mul size xd yd => (mul K adj d size xd yd).2.2
  | .mulPriv size => (mulPriv K adj d size).2
  | .square size xd => (square K adj d size xd).2.2
  | .dot m nn k xd yd => (dot K adj d m nn k xd yd).2.2
  | .and size => (and K adj d size).2
  | .trunc size bits => (trunc K adj d size bits).2
  | .truncPr size bits => (truncPr K adj d size bits).2
  | .randBit size rb => (randBit K adj d size rb).2
  | .eqz size => (eqz K adj d size).2
  | .permPair size pr => (permPair K adj gp d size pr).2

/-- the dealer state after a history of requests -/
def run (K : Ks w Seed) (adj : Fin n) (gp : Seed → ℕ → ℕ → (ℕ → ℕ) × ℕ) (seed : Fin n → Seed)
    (calls : List (Call n Seed)) : Dealer n Seed :=
  calls.foldl (next K adj gp) (start seed)

end Spu.Model.Dealer
