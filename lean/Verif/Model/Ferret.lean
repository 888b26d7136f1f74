import Verif.Model.CheetahOt

set_option autoImplicit false

/-!
# Model of `mpc/cheetah/ot/yacl/ferret.cc` and `mitccrh_exp.h`

The transfers of `ferret_ot_interface.h`, made from correlated transfers.  Sender and receiver run together; the arrays that
`BufferedIO` carries from the sender to the receiver are a list of words that the sender appends to and the receiver takes from the front of
(`BufferedIO` is the subject of C57).  `none` is an exception, a receiver that waits forever, or words left over in the channel.

Both hash functions are parameters: `cr` is `ParaCrHashInplace_128`, `enc key` one AES encryption.  The correlated transfers (`YaclOTeAdapter`) are a record,
specified in `Spec/Ferret.lean`.  A cast to `T` is `setWidth`.
-/

namespace Spu.Model.Ferret
open Spu.Model.Circ Spu.Model.CheetahZip Spu.Model.CheetahOt

abbrev Block := BitVec 128

structure Hashes where
  cr : Block → Block
  enc : Block → Block → Block

/-- `YaclOTeAdapter`, both sides together; the first argument is the rank of the sender -/
structure Cot (σ : Type) where
  /-- `GetDelta` -/
  delta : Fin 2 → Block
  /-- `send_rcot`, `recv_rcot`: the sender's blocks, the receiver's, the choices -/
  rcot : Fin 2 → ℕ → M σ ((ℕ → Block) × (ℕ → Block) × (ℕ → BitVec 8))
  /-- `send_cot`, `recv_cot` -/
  cot : Fin 2 → ℕ → (ℕ → BitVec 8) → M σ ((ℕ → Block) × (ℕ → Block))

variable {w : ℕ}

/-- `recv_data` of `len` words -/
def recvData (len : ℕ) (st : List (BitVec w)) : Option ((ℕ → BitVec w) × List (BitVec w)) :=
  if len ≤ st.length then some (fun j => st.getD j 0, st.drop len) else none

/-- what is sent for `tb` values of `bw` bits: packed if that saves bits — ferret.cc:262-270, 374-381, 654-661 -/
def packSend (bw tb cap : ℕ) (v : ℕ → BitVec w) : Option (List (BitVec w)) :=
  if bw < w then
    (zipArray bw tb v cap).bind fun z => if z.2 = ceilDiv (tb * bw) w then some ((List.range z.2).map z.1) else none
  else some ((List.range tb).map v)

/-- and how it is received — ferret.cc:312-319, 423-430, 717-724 -/
def packRecv (bw tb : ℕ) (st : List (BitVec w)) : Option ((ℕ → BitVec w) × List (BitVec w)) :=
  if bw < w then
    (recvData (ceilDiv (tb * bw) w) st).bind fun r => (unzipArray bw (ceilDiv (tb * bw) w) r.1 tb).map fun o => (o, r.2)
  else recvData tb st

/-- the sender's loop over batches of `kOTBatchSize = 8` instances, starting at `i`; `src i tb` are the values of the batch -/
def sendLoop (n : ℕ) (bw : ℕ → ℕ) (per cap : ℕ) (src : ℕ → ℕ → Option (ℕ → BitVec w)) : Option (List (BitVec w)) :=
  (List.range (ceilDiv n 8)).foldlM (fun acc b => do
    let i := 8 * b
    let tb := min 8 (n - i)
    let v ← src i tb
    let p ← packSend (bw i) (per * tb) cap v
    return acc ++ p) []

/-- the receiver's loop; `f k v j` is the output of instance `k`, the `j`-th of its batch, from the received values `v` -/
def recvLoop (n : ℕ) (bw : ℕ → ℕ) (per : ℕ) (f : ℕ → (ℕ → BitVec w) → ℕ → Option (BitVec w)) (st : List (BitVec w)) :
    Option ((ℕ → BitVec w) × List (BitVec w)) :=
  (List.range (ceilDiv n 8)).foldlM (fun (acc : (ℕ → BitVec w) × List (BitVec w)) b => do
    let i := 8 * b
    let tb := min 8 (n - i)
    let r ← packRecv (bw i) (per * tb) acc.2
    let o ← (List.range tb).mapM fun j => f (i + j) r.1 j
    return (fun k => if i ≤ k ∧ k < i + tb then o.getD (k - i) 0 else acc.1 k, r.2)) (fun _ => 0, st)

variable {σ : Type} (H : Hashes) (C : Cot σ)

/-- the loops of `SendCorrelatedMsgChosenChoice` (constant width) and of its `_Collapse` variant — ferret.cc:236-271, 347-382 -/
def camccSend (Δ : Block) (bw : ℕ → ℕ) (cap n : ℕ) (q : ℕ → Block) (corr : ℕ → BitVec w) : Option ((ℕ → BitVec w) × List (BitVec w)) := do
  let out : ℕ → BitVec w := fun k => (H.cr (q k)).setWidth w
  let st ← sendLoop n bw 1 cap fun i _ => some fun j => (H.cr (q (i + j) ^^^ Δ)).setWidth w + (corr (i + j) + out (i + j))
  return (out, st)

/-- the loops of `RecvCorrelatedMsgChosenChoice` and `_Collapse` — ferret.cc:296-327, 403-438 -/
def camccRecv (bw : ℕ → ℕ) (n : ℕ) (t : ℕ → Block) (ch : ℕ → BitVec 8) (st : List (BitVec w)) : Option ((ℕ → BitVec w) × List (BitVec w)) :=
  recvLoop n bw 1 (fun k v j => let o := (H.cr (t k)).setWidth w; some (if ch k = 0 then o else v j - o)) st

/-- `SendCAMCC`, `RecvCAMCC` — ferret.cc:330-439; that `n > 0` is checked by the receiver (:186) -/
def camcc (s : Fin 2) (bw n : ℕ) (corr : ℕ → BitVec w) (ch : ℕ → BitVec 8) : M σ ((ℕ → BitVec w) × (ℕ → BitVec w)) := do
  let bw := if bw = 0 then w else bw
  enforce (decide (0 < bw ∧ bw ≤ w))
  enforce (decide (0 < n))
  let (q, t) ← C.cot s n ch
  let (out, st) ← liftM (camccSend H (C.delta s) (fun _ => bw) (ceilDiv (8 * bw) w) n q corr)
  let (r, left) ← liftM (camccRecv H (fun _ => bw) n t ch st)
  enforce left.isEmpty
  return (out, r)

/-- `SendCAMCC_Collapse`, `RecvCAMCC_Collapse` — ferret.cc:215-328 -/
def collapse (s : Fin 2) (bw level n : ℕ) (corr : ℕ → BitVec w) (ch : ℕ → BitVec 8) : M σ ((ℕ → BitVec w) × (ℕ → BitVec w)) := do
  let bw := if bw = 0 then w else bw
  enforce (decide (0 < bw ∧ bw ≤ w))
  enforce (decide (0 < level ∧ n % level = 0 ∧ level ≤ bw))
  enforce (decide (0 < n))
  let (q, t) ← C.cot s n ch
  let (out, st) ← liftM (camccSend H (C.delta s) (fun i => bw - i / (n / level)) 8 n q corr)
  let (r, left) ← liftM (camccRecv H (fun i => bw - i / (n / level)) n t ch st)
  enforce left.isEmpty
  return (out, r)

/-- `SendRMRC`, `RecvRMRC` of bytes — ferret.cc:441-465, 519-555, 898-907 -/
def rmrc (s : Fin 2) (bw n : ℕ) : M σ Rot := do
  enforce (decide (bw ≤ 8))
  let bw := if bw = 0 then 8 else bw
  enforce (decide (0 < n))
  let (q, t, ch) ← C.rcot s n
  let mask ← liftM (makeBitsMask 8 bw)
  return ⟨fun i => (H.cr (q i)).setWidth 8 &&& mask, fun i => (H.cr (q i ^^^ C.delta s)).setWidth 8 &&& mask, ch, fun i => (H.cr (t i)).setWidth 8 &&& mask⟩

/-- `SendRMCC`, `RecvRMCC` of words — ferret.cc:190-213, 746-788 -/
def rmcc (s : Fin 2) (bw n : ℕ) (ch : ℕ → BitVec 8) : M σ ((ℕ → BitVec w) × (ℕ → BitVec w) × (ℕ → BitVec w)) := do
  enforce (decide (bw ≤ w))
  let bw := if bw = 0 then w else bw
  enforce (decide (0 < n))
  let (q, t) ← C.cot s n ch
  let mask ← liftM (makeBitsMask w bw)
  return (fun i => (H.cr (q i)).setWidth w &&& mask, fun i => (H.cr (q i ^^^ C.delta s)).setWidth w &&& mask, fun i => (H.cr (t i)).setWidth w &&& mask)

/-! ## one of `N` messages -/

/-- `MakeUint128(hi, 0)` -/
def mk128 (hi : ℕ) : Block := BitVec.ofNat 128 hi <<< 64

/-- the numbers of keys that `MITCCRHExp` supports — mitccrh_exp.h:57-79 -/
def keyCounts : List ℕ := [1, 2, 3, 4, 8]

/-- `renew_ks` and `hash_exp`: key `i` for the next `2^i` blocks — mitccrh_exp.h:57-117, 160-193 -/
def hashExp (keys : ℕ → Block) (n : ℕ) (inp : List Block) : Option (List Block) :=
  if n ∈ keyCounts then some (List.zipWith (fun k b => b ^^^ H.enc k b) ((List.range n).flatMap fun i => List.replicate (2 ^ i) (keys i)) inp) else none

/-- `renew_ks` and `hash_single`: one block for each key — mitccrh_exp.h:57-79, 127-157 -/
def hashSingle (keys : ℕ → Block) (n : ℕ) (inp : ℕ → Block) : Option (List Block) :=
  if n ∈ keyCounts then some ((List.range n).map fun i => inp i ^^^ H.enc (keys i) (inp i)) else none

/-- `hash_in0` — ferret.cc:585-594 -/
def hashIn0 (logN : ℕ) : List Block := (List.range logN).flatMap fun x => (List.range (2 ^ x)).map fun y => mk128 y

/-- `hash_in1` -/
def hashIn1 (logN : ℕ) : List Block := (List.range logN).flatMap fun x => (List.range (2 ^ x)).map fun y => mk128 (2 ^ x ||| y)

/-- the pad of message `k` — ferret.cc:629-641 -/
def padAt (N logN : ℕ) (out0 out1 : List Block) (k : ℕ) : Option Block :=
  ((List.range logN).foldlM (fun (acc : Block × ℕ) s =>
    let prefer := k &&& (2 ^ s - 1)
    if acc.2 + prefer + 1 < N then
      some (acc.1 ^^^ (if k.testBit s then out1.getD (acc.2 + prefer) 0 else out0.getD (acc.2 + prefer) 0), acc.2 + 2 ^ s)
    else none) (0, 0)).map Prod.fst

/-- all pads of one instance; `m0` and `m1` are the random messages of its `logN` transfers — ferret.cc:620-642 -/
def pads (N logN : ℕ) (m0 m1 : ℕ → Block) : Option (List Block) := do
  let out0 ← hashExp H m0 logN (hashIn0 logN)
  let out1 ← hashExp H m1 logN (hashIn1 logN)
  (List.range N).mapM (padAt N logN out0 out1)

/-- the sender's loop — ferret.cc:616-662 -/
def cmccSend (N logN bw n : ℕ) (mask : BitVec 8) (m0 m1 : ℕ → Block) (msg : ℕ → BitVec 8) : Option (List (BitVec 8)) :=
  sendLoop n (fun _ => bw) N (ceilDiv (8 * N * bw) 8) fun i tb => do
    let ps ← (List.range tb).mapM fun j => pads H N logN (fun s => m0 ((i + j) * logN + s)) (fun s => m1 ((i + j) * logN + s))
    return fun m => (((ps.getD (m / N) []).getD (m % N) 0).setWidth 8 ^^^ msg ((i + m / N) * N + m % N)) &&& mask

/-- the receiver's loop — ferret.cc:715-743 -/
def cmccRecv (N logN bw n : ℕ) (mask : BitVec 8) (rc : ℕ → Block) (ch : ℕ → BitVec 8) (st : List (BitVec 8)) : Option ((ℕ → BitVec 8) × List (BitVec 8)) :=
  recvLoop n (fun _ => bw) N (fun k v j => do
    let ms ← (List.range logN).mapM fun s => makeBitsMask 8 (1 + s)
    let o ← hashSingle H (fun s => rc (k * logN + s)) logN fun s => mk128 (ch k &&& ms.getD s 0).toNat
    return ((o.foldl (· ^^^ ·) 0).setWidth 8 ^^^ v (N * j + (ch k).toNat)) &&& mask) st

/-- `SendCMCC`, `RecvCMCC` of bytes — ferret.cc:557-744, 908-917 -/
def cmcc (s : Fin 2) (N bw n : ℕ) (msg : ℕ → BitVec 8) (ch : ℕ → BitVec 8) : M σ (ℕ → BitVec 8) := do
  enforce (decide (bw ≤ 8))
  let bw := if bw = 0 then 8 else bw
  enforce (decide (2 ≤ N ∧ N ≤ 256))
  enforce (decide (0 < n))
  let logN := Nat.log2 N
  enforce ((List.range n).all fun i => decide ((ch i).toNat < N))
  let (q, t) ← C.cot s (n * logN) fun m => ch (m / logN) >>> (m % logN) &&& 1
  let mask ← liftM (makeBitsMask 8 bw)
  let st ← liftM (cmccSend H N logN bw n mask (fun m => H.cr (q m)) (fun m => H.cr (q m ^^^ C.delta s)) msg)
  let (r, left) ← liftM (cmccRecv H N logN bw n mask (fun m => H.cr (t m)) ch st)
  enforce left.isEmpty
  return r

/-- `YaclFerretOt` with the two generators of its callers -/
def ferretOt (fill : ℕ → M σ (ℕ → BitVec 8)) (randBit : ℕ → M σ (ℕ → BitVec w)) : Ot σ w where
  rmrc := rmrc H C
  camcc := camcc H C
  collapse := collapse H C
  cmcc := cmcc H C
  fill := fill
  randBit := randBit

end Spu.Model.Ferret
