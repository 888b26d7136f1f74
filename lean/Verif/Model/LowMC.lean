import Verif.Model.Semi2kConv
import Verif.Model.Shape

set_option autoImplicit false

/-!
# The LowMC block cipher and its evaluation on shares

`mpc/utils/lowmc_utils.cc`, `mpc/utils/lowmc.{h,cc}`, `mpc/semi2k/lowmc.cc` (paths relative to
`/repo/src/libspu`).

A binary matrix of `n` rows and `s` columns is an array of `n` words of `s` bits (`lowmc.h:75-77`), here a
function on row numbers; row numbers outside the array are `none` where the code indexes with a running
variable.  The generator `yacl::crypto::FillPRand` is an arbitrary function of its counter.  The cipher
treats the elements of an array separately, so it is modelled on one word; the kernel on shares packs all
S-boxes into one array and is modelled on whole arrays.  A read outside a `std::vector`, a failed
`SPU_ENFORCE` and an unfinished rejection loop are `none`.
-/

namespace Spu.Model.LowMC
open Spu.Model.Semi2k Spu.Model.Semi2kConv

/-- rows of a binary matrix -/
abbrev Rows (s : ℕ) := ℕ → BitVec s

/-- loop of `bit_parity` (`lowmc_utils.cc:30-33`) -/
def parityLoop {s : ℕ} (k : ℕ) (ret : BitVec s) : BitVec s :=
  if h : 1 < k then parityLoop (k / 2) (ret ^^^ (ret >>> (k / 2))) else ret
  termination_by k
  decreasing_by omega

/-- `bit_parity` (`lowmc_utils.cc:24-36`) -/
def bitParity {s : ℕ} (x : BitVec s) : Bool := (parityLoop s x).getLsbD 0

/-- `dot_product_gf2` (`lowmc_utils.cc:40-81`) for one element `y`; `to_field` has as many bits as `x` rows
(enforced, `:52-53`). -/
def dotGf2 {s : ℕ} (n : ℕ) (x : Rows s) (y : BitVec s) : BitVec n :=
  (List.range n).foldl (fun out i => out ||| ((BitVec.ofBool (bitParity (y &&& x i))).setWidth n <<< i)) 0

/-- `generate_round_keys` (`lowmc_utils.cc:83-101`) -/
def roundKeys (w : ℕ) (keyMats : List (Rows 128)) (key : BitVec 128) (rounds : ℕ) : Option (List (BitVec w)) :=
  if keyMats.length = rounds + 1 then some (keyMats.map fun m => dotGf2 w m key) else none

/-- `Log2Ceil` (`core/bit_utils.h:28-30`): `64 - countl_zero(n - 1)` is the bit width of `n - 1`. -/
def log2Ceil (n : ℕ) : ℕ := if n ≤ 1 then 0 else Nat.size (n - 1)

/-- `get_data_complexity` (`lowmc_utils.cc:103-115`) -/
def dataComplexity (n : ℕ) : Option ℤ :=
  let b := log2Ceil n
  if b ≤ 20 then some 20 else if b ≤ 30 then some 30 else if b ≤ 40 then some 40 else none

/-! ### Linear algebra -/

/-- the search loop `while (r < n_rows && !get_bit(_mat[r], p)) ++r` (`lowmc.cc:53-55`, `:110-112`) -/
def findRow {s : ℕ} (m : Rows s) (p n r : ℕ) : ℕ :=
  if h : r < n ∧ ¬ (m r).getLsbD p then findRow m p n (r + 1) else r
  termination_by n - r
  decreasing_by omega

/-- exchange of two rows (`lowmc.cc:60-62`, `:116-122`) -/
def swapRows {s : ℕ} (m : Rows s) (a b : ℕ) : Rows s := Function.update (Function.update m a (m b)) b (m a)

/-- the elimination loop `for (i = row + 1; i < n_rows; ++i) if (get_bit(_mat[i], p)) t[i] ^= t[row]`
(`lowmc.cc:65-69`, `:125-130`); the condition reads `m`, the rows of `t` are combined.  Row `row` itself is
not written, so the order of the iterations is immaterial. -/
def elim {s u : ℕ} (m : Rows s) (t : Rows u) (p row n : ℕ) : Rows u := fun i =>
  if row < i ∧ i < n ∧ (m i).getLsbD p then t i ^^^ t row else t i

/-- loop of `rank_of_matrix` (`lowmc.cc:49-74`) over the remaining columns -/
def rankLoop {s : ℕ} (n maxRank : ℕ) : List ℕ → Rows s → ℕ → Option ℕ
  | [], _, row => some row
  | p :: ps, m, row =>
    if row < n then
      let next (m : Rows s) : Option ℕ :=
        let m := elim m m p row n
        if row + 1 = maxRank then some (row + 1) else rankLoop n maxRank ps m (row + 1)
      if ¬ (m row).getLsbD p then
        let r := findRow m p n row
        if n ≤ r then rankLoop n maxRank ps m row else next (swapRows m row r)
      else next m
    else none

/-- `rank_of_matrix` (`lowmc.cc:30-78`); columns are visited from the most significant bit. -/
def rankOf {s : ℕ} (n : ℕ) (m : Rows s) : Option ℕ :=
  rankLoop n (min n s) ((List.range s).map fun c => s - (c + 1)) m 0

/-- first loop of `invert_matrix` (`lowmc.cc:105-132`) over the remaining columns: upper triangular form -/
def upperLoop {s : ℕ} (n : ℕ) : List ℕ → Rows s → Rows s → ℕ → Option (Rows s × Rows s)
  | [], m, v, _ => some (m, v)
  | p :: ps, m, v, row =>
    if row < n then
      let next (m v : Rows s) : Option (Rows s × Rows s) :=
        upperLoop n ps (elim m m p row n) (elim m v p row n) (row + 1)
      if ¬ (m row).getLsbD p then
        let r := findRow m p n (row + 1)
        if n ≤ r then upperLoop n ps m v row else next (swapRows m row r) (swapRows v row r)
      else next m v
    else none

/-- the inner loop of the second phase (`lowmc.cc:136-141`): clear column `c` above row `c` -/
def clearAbove {s u : ℕ} (m : Rows s) (t : Rows u) (c : ℕ) : Rows u := fun r =>
  if r < c ∧ (m r).getLsbD c then t r ^^^ t c else t r

/-- second loop of `invert_matrix` (`lowmc.cc:135-142`) -/
def lowerLoop {s : ℕ} : ℕ → Rows s → Rows s → Rows s × Rows s
  | 0, m, v => (m, v)
  | c + 1, m, v => lowerLoop c (clearAbove m m c) (clearAbove m v c)

/-- `invert_matrix` (`lowmc.cc:82-146`) for `n_rows` = `s` (enforced, `:94`) -/
def invertMatrix {s : ℕ} (m : Rows s) : Option (Rows s) := do
  let ident : Rows s := fun idx => 1#s <<< idx
  let (m, v) ← upperLoop s (List.range s) m ident 0
  return (lowerLoop s m v).2

/-! ### The cipher on words -/

/-- number of S-boxes and rounds (`lowmc.cc:156-200`) for a block of `w` bits -/
def params (w : ℕ) (d : ℤ) : Option (ℕ × ℕ) :=
  if w = 32 then if d < 32 then some (9, 15) else none
  else if w = 64 then
    if d = 20 then some (15, 11) else if d = 30 then some (13, 12) else if d = 40 then some (13, 13) else none
  else if w = 128 then
    if d = 20 then some (25, 10) else if d = 30 then some (25, 11) else if d = 40 then some (25, 12) else none
  else none

/-- the members of `LowMC` that are filled by the constructor and by `set_key` -/
structure Cipher (w : ℕ) where
  boxes : ℕ
  rounds : ℕ
  lin : List (Rows w)
  inv : List (Rows w)
  const : List (BitVec w)
  keyMats : List (Rows 128)
  /-- `round_keys_`, once `key_been_set_` -/
  keys : Option (List (BitVec w))

/-- `FillPRand` with fixed seed: from the counter, `n` words of `s` bits and the new counter -/
abbrev Gen := (s n : ℕ) → ℕ → (Rows s) × ℕ

/-- `get_pub_rand_blocks` (`lowmc.cc:351-370`): with a desired rank, draws are repeated until one has it; `fuel`
bounds the number of repetitions. -/
def randBlocks (gen : Gen) (s n : ℕ) (want : Option ℕ) : ℕ → StateT ℕ Option (Rows s)
  | 0 => fun _ => none
  | fuel + 1 => do
    let cnt ← get
    let (m, cnt) := gen s n cnt
    set cnt
    match want with
    | none => return m
    | some k =>
      let r ← (rankOf n m : Option ℕ)
      if r ≠ k then randBlocks gen s n want fuel else return m

/-- `fill_matrixes` (`lowmc.cc:305-339`) -/
def fillMatrixes (gen : Gen) (fuel w boxes rounds : ℕ) (needDecrypt : Bool) : StateT ℕ Option (Cipher w) := do
  let want := if needDecrypt then some w else none
  let lin ← (List.range rounds).mapM fun _ => randBlocks gen w w want fuel
  let inv ← (if needDecrypt then (lin.mapM invertMatrix : Option (List (Rows w))) else some [])
  let const ← (List.range rounds).mapM fun _ => do
    let m ← randBlocks gen w 1 none fuel
    return m 0
  let keyMats ← (List.range (rounds + 1)).mapM fun _ => randBlocks gen 128 w want fuel
  return ⟨boxes, rounds, lin, inv, const, keyMats, none⟩

/-- the constructor (`lowmc.cc:152-217`); key size 128 -/
def mkCipher (gen : Gen) (fuel w : ℕ) (d : ℤ) (needDecrypt : Bool) : Option (Cipher w) := do
  let (boxes, rounds) ← params w d
  let (c, _) ← (fillMatrixes gen fuel w boxes rounds needDecrypt).run 0
  return c

/-- `set_key` (`lowmc.cc:219-226`) -/
def setKey {w : ℕ} (c : Cipher w) (key : BitVec 128) : Option (Cipher w) :=
  match c.keys with
  | some _ => some c
  | none => do
    let ks ← roundKeys w c.keyMats key c.rounds
    return { c with keys := some ks }

/-- `kSBox` and `kInvSBox` (`lowmc.h:126-129`) -/
def kSBox : List ℕ := [0x00, 0x01, 0x03, 0x06, 0x07, 0x04, 0x05, 0x02]
@[inherit_doc kSBox] def kInvSBox : List ℕ := [0x00, 0x01, 0x07, 0x02, 0x05, 0x06, 0x03, 0x04]

/-- `LowMC::Substitution` (`lowmc.cc:276-303`) on one word -/
def substitution {w : ℕ} (boxes : ℕ) (sbox : List ℕ) (x : BitVec w) : BitVec w :=
  (List.range boxes).foldl (fun tmp i =>
    let ind := (x >>> (3 * (boxes - (i + 1)))) &&& 7#w
    (tmp <<< 3) ^^^ BitVec.ofNat w (sbox.getD ind.toNat 0)) (x >>> (3 * boxes))

/-- `LowMC::encrypt` (`lowmc.cc:228-251`) on one word -/
def encrypt {w : ℕ} (c : Cipher w) (x : BitVec w) : Option (BitVec w) := do
  let keys ← c.keys
  let k0 ← keys[0]?
  (List.range c.rounds).foldlM (m := Option) (fun y r => do
    let y := substitution c.boxes kSBox y
    let l ← c.lin[r]?
    let y := dotGf2 w l y
    let rc ← c.const[r]?
    let k ← keys[r + 1]?
    return (y ^^^ rc) ^^^ k) (x ^^^ k0)

/-- `LowMC::decrypt` (`lowmc.cc:253-272`) on one word.  The second component is what the caller's array holds
afterwards: `auto c = ciphertext` copies the reference, and the two `ring_xor_` of the first pass write into
the shared buffer before `c` is bound to a new array. -/
def decrypt {w : ℕ} (c : Cipher w) (x : BitVec w) : Option (BitVec w × BitVec w) := do
  let keys ← c.keys
  let (y, buf, _) ← (List.range c.rounds).reverse.foldlM (m := Option) (fun (st : BitVec w × BitVec w × Bool) r => do
    let (y, buf, shared) := st
    let k ← keys[r + 1]?
    let y := y ^^^ k
    let rc ← c.const[r]?
    let y := y ^^^ rc
    let buf := if shared then y else buf
    let l ← c.inv[r]?
    let y := dotGf2 w l y
    return (substitution c.boxes kInvSBox y, buf, false)) (x, x, true)
  let k0 ← keys[0]?
  return (y ^^^ k0, buf)

/-! ### Evaluation on xor-shares (`mpc/semi2k/lowmc.cc`) -/

/-- a boolean share of an array: the words of every party by flat position, and the bit count in the type of
every party's array -/
structure BArr (n w : ℕ) where
  sh : Fin n → ℕ → BitVec w
  nb : Fin n → ℕ

/-- AND triples for every position -/
abbrev Triples (n : ℕ) := ℕ → (Fin n → BitVec 8) × (Fin n → BitVec 8) × (Fin n → BitVec 8)

/-- flat position in an array of shape `(boxes * n0, n1, ...)` that element `j` of `slice_arr(x, i, shape)` refers
to (`semi2k/lowmc.cc:129-143`); a shape without axes has no `ori_shape[0]`. -/
def slicePos (boxes : ℕ) (shape : Shape) (i j : ℕ) : Option ℕ :=
  match shape with
  | [] => none
  | n0 :: rest => do
    let ix ← unflattenIndex j (n0 :: rest)
    flattenIndex ((ix.headD 0 + i * n0) :: ix.tail) ((n0 * boxes) :: rest)

section
variable {n w : ℕ} [NeZero n]

/-- `construct_concat_arr` (`semi2k/lowmc.cc:94-125`), first result: element `idx + i * numel` is box `i` of element
`idx` -/
def abcArr (N : ℕ) (s : ℕ → BitVec w) : ℕ → BitVec w := fun t => (s (t % N) >>> (3 * (t / N))) &&& 7#w

/-- `construct_concat_arr` (`semi2k/lowmc.cc:94-125`), second result -/
def bcaArr (N : ℕ) (s : ℕ → BitVec w) : ℕ → BitVec w := fun t =>
  (((s (t % N) >>> (3 * (t / N))) &&& 3#w) <<< 1) ||| ((s (t % N) >>> (3 * (t / N) + 2)) &&& 1#w)

/-- `extract_packed_bit_arr` (`semi2k/lowmc.cc:67-91`) -/
def packedBit (N : ℕ) (s : ℕ → BitVec w) (offset : ℕ) : ℕ → BitVec w := fun t =>
  (s (t % N) >>> (3 * (t / N) + offset)) &&& 1#w

/-- `extract_bit_arr` (`semi2k/lowmc.cc:48-64`) -/
def extractBit (x : ℕ → BitVec w) (idx : ℕ) : ℕ → BitVec w := fun t => (x t >>> idx) &&& 1#w

/-- `Sbox` (`semi2k/lowmc.cc:146-218`).  Both operands of the AND have 3 declared bits, so it runs on bytes
(`getBacktype`). -/
def sboxShares (boxes : ℕ) (shape : Shape) (T : Triples n) (x : BArr n w) : Option (BArr n w) := do
  if shape = [] then none else
  let N := numel shape
  let abc : Fin n → ℕ → BitVec w := fun p => abcArr N (x.sh p)
  let bca : Fin n → ℕ → BitVec w := fun p => bcaArr N (x.sh p)
  let andArr : Fin n → ℕ → BitVec w := fun p t =>
    andBB (fun q => abc q t) (fun q => bca q t) (T t).1 (T t).2.1 (T t).2.2 p
  let xorArr : Fin n → ℕ → BitVec w := fun p t => xorBB (fun q => abc q t) (fun q => bca q t) p
  let ab := fun p => extractBit (andArr p) 2
  let bc := fun p => extractBit (andArr p) 1
  let ac := fun p => extractBit (andArr p) 0
  let a_b := fun p => extractBit (xorArr p) 2
  let b_c := fun p => extractBit (xorArr p) 1
  let a := fun p => packedBit N (x.sh p) 2
  let newA := fun p t => a p t ^^^ bc p t
  let newB := fun p t => a_b p t ^^^ ac p t
  let newC := fun p t => (b_c p t ^^^ a p t) ^^^ ab p t
  let bits := fun (i : ℕ) => if i % 3 = 0 then newC else if i % 3 = 1 then newB else newA
  let word (p : Fin n) (j : ℕ) : Option (BitVec w) := do
    let low ← (List.range (3 * boxes)).foldlM (m := Option) (fun (r : BitVec w) i => do
      let t ← slicePos boxes shape (i / 3) j
      return r ||| ((bits i p t &&& 1#w) <<< i)) 0
    return low ||| ((x.sh p j >>> (3 * boxes)) <<< (3 * boxes))
  if ∀ p : Fin n, ∀ j < N, (word p j).isSome then return ⟨fun p j => (word p j).getD 0, x.nb⟩ else none

/-- `LowMcB::encrypt` (`semi2k/lowmc.cc:244-294`) with a given cipher; `key p` is the key share of party `p`.  Keys are
added with `xor_bb` although their type is public: the bit count then is the larger of the two, the second being the
width of the party's own share of the round key. -/
def encryptShares (c : Cipher w) (shape : Shape) (T : ℕ → Triples n) (x : BArr n w) (key : Fin n → BitVec 128) :
    Option (BArr n w) := do
  let keyTab ← (if ∀ p : Fin n, (roundKeys w c.keyMats (key p) c.rounds).isSome then
    some (fun p => (roundKeys w c.keyMats (key p) c.rounds).getD []) else none : Option (Fin n → List (BitVec w)))
  let key (r : ℕ) : Option (Fin n → BitVec w) :=
    if ∀ p, r < (keyTab p).length then some (fun p => (keyTab p).getD r 0) else none
  let k0 ← key 0
  if w < 3 * c.boxes then none else
  (List.range c.rounds).foldlM (m := Option) (fun y r => do
    let y ← sboxShares c.boxes shape (T r) y
    let l ← c.lin[r]?
    let y : BArr n w := ⟨fun p j => dotGf2 w l (y.sh p j), x.nb⟩
    let rc ← c.const[r]?
    let y : BArr n w := ⟨fun p j => xorBP (fun q => y.sh q j) rc p, fun p => max (y.nb p) (wordWidth rc)⟩
    let k ← key (r + 1)
    return ⟨fun p j => xorBB (fun q => y.sh q j) k p, fun p => max (y.nb p) (wordWidth (k p))⟩)
    ⟨fun p j => xorBB (fun q => x.sh q j) k0 p, fun p => max (x.nb p) (wordWidth (k0 p))⟩

/-- `LowMcB::proc` and `encrypt` (`semi2k/lowmc.cc:230-256`): the cipher is built from the public seed, without the
rank test. -/
def lowMcB (gen : Gen) (shape : Shape) (T : ℕ → Triples n) (x : BArr n w) (key : Fin n → BitVec 128) :
    Option (BArr n w) := do
  let d ← dataComplexity (numel shape)
  let c ← mkCipher gen 1 w d false
  encryptShares c shape T x key

/-- `get_dst_field` (`semi2k/lowmc.cc:301-310`) -/
def dstBits (k : ℕ) : ℕ := if k ≤ 32 then 32 else if k ≤ 64 then 64 else 128

/-- `concate_bits` (`semi2k/lowmc.cc:312-341`) on one element -/
def concatBits {w : ℕ} (inputs : List (BitVec w)) (dst : ℕ) : Option (BitVec dst) :=
  if w * inputs.length ≤ dst then
    some ((List.range inputs.length).foldl (fun r i => r ||| ((inputs.getD i 0).setWidth dst <<< (w * i))) 0)
  else none

/-- the remapping of `MultiKeyLowMcB::proc` (`semi2k/lowmc.cc:372-389`) on one element; `mats` are the public random
matrices, one for every input -/
def remapBits {w : ℕ} (mats : ℕ → Rows w) (inputs : List (BitVec w)) : BitVec 128 :=
  (List.range inputs.length).foldl (fun r i => r ^^^ dotGf2 128 (mats i) (inputs.getD i 0)) 0

/-- `MultiKeyLowMcB::proc` (`semi2k/lowmc.cc:345-391`): the width of the cipher and the party's input to it, from the
party's words of one position -/
def multiKeyInput {w : ℕ} (mats : ℕ → Rows w) (inputs : List (BitVec w)) : Option ((v : ℕ) × BitVec v) :=
  if inputs.length = 0 then none
  else if inputs.length = 1 then some ⟨w, inputs.getD 0 0⟩
  else if w * inputs.length ≤ 128 then do
    let y ← concatBits inputs (dstBits (w * inputs.length))
    return ⟨_, y⟩
  else some ⟨128, remapBits mats inputs⟩

end
end Spu.Model.LowMC
