import Verif.Model.ModSwitch

set_option autoImplicit false

/-!
Model of Cheetah's element-wise multiplication of private arrays: `libspu/mpc/cheetah/arith/cheetah_mul.cc` with
`arith/simd_mul_prot.cc`.

Modelled: the choice of the number of moduli, the cutting of arrays into polynomials of `N` slots for each of the `L`
moduli, encoding, the evaluator's mask, the response, decryption into residue form and the final modulus switch, for
both parties at once.  Arrays are functions on positions with an explicit length.

SEAL is represented by what it is used for: encoding by an inverse NTT makes the product of two plaintexts slot-wise,
encryption hides a plaintext, and `multiply_plain`, `add`, `sub_plain` followed by decryption give the slot-wise result
modulo the plain modulus.  That the noise stays below the limit (`NoiseFloodInplace`, `mod_switch_to_inplace`,
`TruncateBFVForDecryption`) is not modelled.  A throw is `none`.
-/

namespace Spu.Model.Cmul
open Spu.Model.Ms

/-- `CeilDiv`. -/
def cdiv (a b : ℕ) : ℕ := (a + b - 1) / b

/-- cheetah_mul.cc:72: `small_crt_prime_len_`. -/
def primeLen (lsb : Bool) : ℕ := if lsb then 47 else 45

/-- cheetah_mul.cc:124-139: `TotalCRTBitLen`, `WorkingContextSize`. -/
def workingSize (lsb : Bool) (ring msg : ℕ) : ℕ :=
  let bits := msg + ring + (if lsb then 4 else 32)
  let total := min 7 (cdiv bits (primeLen lsb)) * primeLen lsb
  cdiv total (primeLen lsb)

/-- All `n` values of `f`, `none` if one of them throws. -/
def tab {α : Type} (d : α) (n : ℕ) (f : ℕ → Option α) : Option (ℕ → α) :=
  if ∀ i ∈ List.range n, (f i).isSome then some fun i => (f i).getD d else none

/-- Writing `len` values at `off`. -/
def write (arr : ℕ → ℕ) (off len : ℕ) (f : ℕ → ℕ) : ℕ → ℕ :=
  fun p => if off ≤ p ∧ p < off + len then f (p - off) else arr p

/-- Writing parts of an array of `total` zeros one after the other; `none` when a part is out of bounds. -/
def writeAll (total : ℕ) (parts : List (ℕ × ℕ × (ℕ → ℕ))) : Option (ℕ → ℕ) :=
  parts.foldlM (fun arr j => if j.1 + j.2.1 ≤ total then some (write arr j.1 j.2.1 j.2.2) else none) fun _ => 0

section
variable (h : Helper) (w N n : ℕ)

/-- cheetah_mul.cc:559, 612, 732: the number of polynomials per modulus. -/
def splits : ℕ := cdiv n N

/-- cheetah_mul.cc:571-599: one polynomial of `EncodeArray` as its slots, with the range check of `EncodeSingle`
(simd_mul_prot.cc:55-73). -/
def encodeJob (up : Bool) (array : ℕ → ℕ) (job : ℕ) : Option (ℕ → ℕ) := do
  let c := job / splits N n
  let s := job % splits N n
  let bgn := s * N
  let len := min n (bgn + N) - bgn
  let dst ← tab 0 len fun i => if up then upAt h w c (array (bgn + i)) else centreAt h w c (array (bgn + i))
  guard (∀ i ∈ List.range len, dst i < h.c.q c)
  some fun i => if i < len then dst i else 0

/-- cheetah_mul.cc:549-601 `EncodeArray`. -/
def encode (up : Bool) (array : ℕ → ℕ) : Option (ℕ → ℕ → ℕ) :=
  tab (fun _ => 0) (h.c.L * splits N n) (encodeJob h w N n up array)

/-- cheetah_mul.cc:523-547 `PrepareRandomMask`; `rnd c i` is what `UniformPrime` gives for modulus `c`, element `i`. -/
def prepareMask (rnd : ℕ → ℕ → ℕ) : Option (ℕ → ℕ) :=
  writeAll (h.c.L * n) ((List.range h.c.L).flatMap fun c => (List.range (splits N n)).map fun j =>
    (c * n + j * N, min N (n - j * N), fun i => rnd c (j * N + i)))

/-- cheetah_mul.cc:626-643, 691-709: one response, from the slots `prod` of the product modulo the plain modulus;
simd_mul_prot.cc:211-216, 271-276: the mask is subtracted. -/
def respond (prod : ℕ → ℕ → ℕ) (mask : ℕ → ℕ) (job : ℕ) : Option (ℕ → ℕ) := do
  let c := job / splits N n
  let s := job % splits N n
  let bgn := s * N
  let len := min N (n - bgn)
  let off := bgn + c * n
  guard (off + len ≤ n * h.c.L)
  guard (∀ i ∈ List.range len, mask (off + i) < h.c.q c)
  some fun i => (prod job i % h.c.q c + (h.c.q c - if i < len then mask (off + i) else 0)) % h.c.q c

/-- The parts of cheetah_mul.cc:746-760, in `DecryptArray`. -/
def decryptParts (resp : ℕ → ℕ → ℕ) : List (ℕ × ℕ × (ℕ → ℕ)) :=
  (List.range (h.c.L * splits N n)).map fun job =>
    let c := job / splits N n
    let s := job % splits N n
    let bgn := s * N
    (c * n + bgn, min n (bgn + N) - bgn, resp job)

/-- `ModulusDownRNS` on an array of `n` elements: residue `l` of element `i` is at `l * n + i`
(modswitch_helper.cc:211-216). -/
def downArr (src : ℕ → ℕ) : Option (ℕ → ℕ) := tab 0 n fun i => down h w fun l => src (l * n + i)

/-- cheetah_mul.cc:382-392 and 395-400, 450-460 and 465-471: from the product to the two results, the evaluator's and
the other party's. -/
def reshare (prod : ℕ → ℕ → ℕ) (rnd : ℕ → ℕ → ℕ) : Option ((ℕ → ℕ) × (ℕ → ℕ)) := do
  let mask ← prepareMask h N n rnd
  let resp ← tab (fun _ => 0) (h.c.L * splits N n) (respond h N n prod mask)
  let a ← downArr h w n mask
  let rns ← writeAll (n * h.c.L) (decryptParts h N n resp)
  let b ← downArr h w n rns
  some (a, b)

/-- cheetah_mul.cc:339-401 `MulOLE`: the evaluator has `y`, the other party `x`; results of the evaluator and of the
other party. -/
def mulOLE (x y : ℕ → ℕ) (rnd : ℕ → ℕ → ℕ) : Option ((ℕ → ℕ) × (ℕ → ℕ)) := do
  guard (0 < n)
  let pts ← encode h w N n false y
  let cts ← encode h w N n true x
  reshare h w N n (fun job i => cts job i * pts job i) rnd

/-- cheetah_mul.cc:403-474 `MulShare`: the evaluator has the shares `x0`, `y0`, the other party `x1`, `y1`. -/
def mulShare (x0 y0 x1 y1 : ℕ → ℕ) (rnd : ℕ → ℕ → ℕ) : Option ((ℕ → ℕ) × (ℕ → ℕ)) := do
  guard (0 < n)
  let px ← encode h w N n false x0
  let py ← encode h w N n false y0
  let cx ← encode h w N n true x1
  let cy ← encode h w N n true y1
  let r ← reshare h w N n (fun job i => cx job i * py job i + cy job i * px job i) rnd
  some (fun i => (r.1 i + x0 i * y0 i) % 2 ^ w, fun i => (r.2 i + x1 i * y1 i) % 2 ^ w)

end

end Spu.Model.Cmul
