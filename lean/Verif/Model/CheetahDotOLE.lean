import Verif.Model.CheetahDot
import Mathlib.Algebra.Ring.Pi
import Mathlib.Data.ZMod.Basic

set_option autoImplicit false

/-!
# Cheetah's matrix products of two parties

(`mpc/cheetah/arith/cheetah_dot.cc:317-861`, `mpc/cheetah/arithmetic.cc:420-484`)

Both parties of a product are one program; what is sent is what is received.  A coefficient of a polynomial is its residues modulo
the primes of a context (`Res`).  The loss of moduli and the noise of encryption are a function `dn` from residues for the
encoding context to residues for the decoding context, and the noise of switching keys, where it is after the loss of moduli, is a
function `ks`; both may depend on the polynomial and the coefficient.  `up`, `centre` and `decode` are the functions of C58, with
0 in place of an exception for a wrong word size.
-/

namespace Spu.Model.Cdot
open Spu.Spec.Nega Spu.Model.Cmul Spu.Model.Ms

/-- the residues of a coefficient -/
abbrev Res (c : Ctx) := (l : Fin c.L) → ZMod (c.q l)

/-- `ModulusUpAt` of a coefficient for all moduli (`vector_encoder.cc:34-66`) -/
def up (h : Helper) (v : ZMod (2 ^ h.c.k)) : Res h.c := fun l => ((upAt h (bitCeil h.c.k) l v.val).getD 0 : ℕ)

/-- `CenteralizeAt` of a coefficient for all moduli -/
def centre (h : Helper) (v : ZMod (2 ^ h.c.k)) : Res h.c := fun l => ((centreAt h (bitCeil h.c.k) l v.val).getD 0 : ℕ)

/-- `ModulusDownRNS` of a coefficient -/
def decode (h : Helper) (f : Res h.c) : ℕ := (down h (bitCeil h.c.k) fun l => if hl : l < h.c.L then (f ⟨l, hl⟩).val else 0).getD 0

/-- `CipherPackingType` -/
inductive Packing
  | rlwes
  | lwes
  | off
deriving DecidableEq, Repr

/-- the choice of a packing (`cheetah_dot.cc:749-776`); `cost` is for packing and without packing -/
def choosePacking (cost : Bool → Dims → ℚ) (enabled : Bool) (N : ℕ) (m : Dims) : Packing :=
  if enabled then
    let s := subShape (cost true) true N m
    if cdiv m.d0 s.d0 * cdiv m.d2 s.d2 ≤ 1 then .off
    else if s.d1 < m.d0 * m.d2 then .rlwes else .lwes
  else .off

/-- encoding, encryption of the smaller encoding and multiplication (`cheetah_dot.cc:317-372, 498-551, 786-822`) -/
def products (h : Helper) (N : ℕ) (m s : Dims) (x y : ℕ → ZMod (2 ^ h.c.k)) : Option (ℕ → ℕ → Res h.c) := do
  let encLhs := decide (cdiv m.d0 s.d0 * cdiv m.d1 s.d1 ≤ cdiv m.d1 s.d1 * cdiv m.d2 s.d2)
  let P ← encodeLHS N m s x
  let Q ← encodeRHS N m s y
  return compute N m s (fun p i => (if encLhs then up h else centre h) (P p i))
    (fun p i => (if encLhs then centre h else up h) (Q p i))

/-- the coefficients that are sent when nothing is packed (`ExtractLWEsInplace`, `matmat_prot.cc:606-651`) -/
def kept (m s : Dims) (p t : ℕ) : Bool :=
  let rb := p / cdiv m.d2 s.d2
  let cb := p % cdiv m.d2 s.d2
  (cells (min (rb * s.d0 + s.d0) m.d0 - rb * s.d0) (min (cb * s.d2 + s.d2) m.d2 - cb * s.d2)).any fun e => resIndex s e.1 e.2 = t

/-- the shares of both parties: of the receiver, who keeps the mask, and of the encryptor, who decrypts the rest -/
def sharesOf (h : Helper) (parse : (ℕ → ℕ → ℕ) → Option (ℕ → ℕ)) (f mask : ℕ → ℕ → Res h.c) (sent : ℕ → ℕ → Bool)
    (junk : ℕ → ℕ → Res h.c) : Option ((ℕ → ℕ) × (ℕ → ℕ)) := do
  let a ← parse fun p t => decode h (mask p t)
  let b ← parse fun p t => decode h (if sent p t then f p t - mask p t else junk p t)
  return (a, b)

/-- `WrapPhantomLWEs` (`matmat_prot.cc:565-604`): the polynomial and the coefficient for every entry -/
def wrapLWEs (m s : Dims) : Option (ℕ → Option (ℕ × ℕ)) :=
  (blockCells m s).foldlM (fun out x =>
    if cellDst m s x < m.d0 * m.d2 then
      some (Function.update out (cellDst m s x) (some (x.1.1 * cdiv m.d2 s.d2 + x.1.2, resIndex s x.2.1 x.2.2)))
    else none) fun _ => none

/-- `PackLWEs` for `total` ciphertexts of which some are empty (`packlwes.cc:422-442`) -/
def packAllLWEs {A : Type} [CommRing A] (N logN total : ℕ) (cts : ℕ → Option (ℕ → A)) : Option (ℕ → ℕ → A) :=
  (List.range (cdiv total N)).foldlM (fun out o => do
    let batch := min total (o * N + N) - o * N
    let p ← (if 2 ^ Nat.log 2 batch = batch then packLWEs N logN (Nat.log 2 batch) fun i => cts (o * N + i) else none :
      Option (ℕ → A))
    return Function.update out o p) fun _ _ => 0

/-- what is not determined by the program's inputs -/
structure Env (ce cd : Ctx) where
  /-- noise and the loss of moduli -/
  dn : ℕ → ℕ → Res ce → Res cd
  /-- noise after the loss of moduli -/
  ks : ℕ → ℕ → Res cd → Res cd
  /-- the masks -/
  mask : ℕ → ℕ → Res cd
  /-- what is decrypted at coefficients that are not sent -/
  junk : ℕ → ℕ → Res cd
  /-- the second halves of the ciphertexts -/
  c1 : ℕ → ℕ → Res cd
  /-- the secret key -/
  sk : ℕ → Res cd
  /-- the inverse of the gap -/
  invGap : ℕ → Res ce
  /-- the inverse of the degree -/
  invN : Res cd

/-- interleaved products of a batch (`cheetah_dot.cc:398-416, 670-737`) -/
def rlweOLE (he hd : Helper) (v : Env he.c hd.c) (n batch : ℕ) (m s : Dims) (x y : ℕ → ℕ → ZMod (2 ^ he.c.k)) :
    Option ((ℕ → ℕ) × (ℕ → ℕ)) := do
  let outN := cdiv m.d0 s.d0 * cdiv m.d2 s.d2
  let cts ← (List.range batch).foldlM (fun (out : ℕ → ℕ → Res he.c) b => do
    let c ← products he (2 ^ n) m s (x b) (y b)
    return fun p => if b * outN ≤ p ∧ p < b * outN + outN then c (p - b * outN) else out p) fun _ _ => 0
  if 2 ^ Nat.log 2 s.d1 = s.d1 then
    let packed ← packAll (2 ^ n) (Nat.log 2 s.d1) (outN * batch) (v.invGap s.d1) cts
    sharesOf hd (parsePacked (2 ^ n) batch m s 0) (fun p t => v.dn p t (packed p t)) v.mask (fun _ _ => true) v.junk
  else none

/-- products of which single coefficients are packed (`cheetah_dot.cc:417-465`) -/
def lweOLE (he hd : Helper) (v : Env he.c hd.c) (n : ℕ) (m s : Dims) (x y : ℕ → ZMod (2 ^ he.c.k)) :
    Option ((ℕ → ℕ) × (ℕ → ℕ)) := do
  let cts ← products he (2 ^ n) m s x y
  let f : ℕ → (ℕ → Res hd.c) × (ℕ → Res hd.c) := fun p =>
    (fun t => v.dn p t (cts p t) - negMul (2 ^ n) (v.c1 p) v.sk t, v.c1 p)
  let w ← wrapLWEs m s
  let total := bitCeil (m.d0 * m.d2)
  let packed ← packAllLWEs (2 ^ n) n total fun i =>
    if i < m.d0 * m.d2 then (w i).map fun pt => phase (2 ^ n) v.sk (castLWE (2 ^ n) v.invN (f pt.1) pt.2) else none
  let parse := fun count => parseLWEs (2 ^ n) count m 0
  let a ← parse (cdiv total (2 ^ n)) fun p t => decode hd (v.mask p t)
  let b ← parse (cdiv (m.d0 * m.d2) (2 ^ n)) fun p t => decode hd (v.ks p t (packed p t) - v.mask p t)
  return (a, b)

/-- products that are not packed -/
def plainOLE (he hd : Helper) (v : Env he.c hd.c) (n : ℕ) (m s : Dims) (x y : ℕ → ZMod (2 ^ he.c.k)) :
    Option ((ℕ → ℕ) × (ℕ → ℕ)) := do
  let cts ← products he (2 ^ n) m s x y
  sharesOf hd (parseResult (2 ^ n) m s 0) (fun p t => v.dn p t (cts p t)) v.mask (kept m s) v.junk

/-- `DotOLE` (`cheetah_dot.cc:606-623, 739-824`): the results of the receiver and of the encryptor -/
def dotOLE (cost : Bool → Dims → ℚ) (enabled : Bool) (he hd : Helper) (v : Env he.c hd.c) (n : ℕ) (m : Dims)
    (x y : ℕ → ZMod (2 ^ he.c.k)) : Option ((ℕ → ℕ) × (ℕ → ℕ)) :=
  match choosePacking cost enabled (2 ^ n) m with
  | .off => plainOLE he hd v n m (subShape (cost false) false (2 ^ n) m) x y
  | .rlwes => rlweOLE he hd v n 1 m (subShape (cost true) true (2 ^ n) m) (fun _ => x) fun _ => y
  | .lwes => lweOLE he hd v n m (subShape (cost true) true (2 ^ n) m) x y

/-- `doBatchDotOLE` (`cheetah_dot.cc:670-737`) -/
def batchDotOLE (cost : Bool → Dims → ℚ) (he hd : Helper) (v : Env he.c hd.c) (n batch : ℕ) (m : Dims)
    (x y : ℕ → ℕ → ZMod (2 ^ he.c.k)) : Option ((ℕ → ℕ) × (ℕ → ℕ)) :=
  rlweOLE he hd v n batch m (subShape (cost true) true (2 ^ n) m) x y

/-- `MatMulAA` (`arithmetic.cc:420-457`) of the shares `x0 + x1` and `y0 + y1`: two products of the parties, local products.
`u0`, `u1` are the contents of the memory of a result that is returned without being written. -/
def matMulAA (cost : Bool → Dims → ℚ) (enabled : Bool) (he hd : Helper) (v v' : Env he.c hd.c) (n : ℕ) (m : Dims)
    (u0 u1 x0 x1 y0 y1 : ℕ → ZMod (2 ^ he.c.k)) : Option ((ℕ → ZMod (2 ^ he.c.k)) × (ℕ → ZMod (2 ^ he.c.k))) :=
  if m.d0 * m.d1 = 0 ∨ m.d1 * m.d2 = 0 then some (u0, u1) else do
    let o ← dotOLE cost enabled he hd v n m x0 y1
    let o' ← dotOLE cost enabled he hd v' n m x1 y0
    let own := fun (x y : ℕ → ZMod (2 ^ he.c.k)) i =>
      matMul m.d1 (fun r k => x (r * m.d1 + k)) (fun k c => y (k * m.d2 + c)) (i / m.d2) (i % m.d2)
    -- the smaller encoding is encrypted: of party 0 in the one product if it is of party 1 in the other
    let s := subShape (cost (choosePacking cost enabled (2 ^ n) m ≠ .off)) (choosePacking cost enabled (2 ^ n) m ≠ .off) (2 ^ n) m
    let encLhs := decide (cdiv m.d0 s.d0 * cdiv m.d1 s.d1 ≤ cdiv m.d1 s.d1 * cdiv m.d2 s.d2)
    let p0 := if encLhs then (o.2, o'.1) else (o.1, o'.2)
    let p1 := if encLhs then (o.1, o'.2) else (o.2, o'.1)
    return (fun i => own x0 y0 i + p0.2 i + p0.1 i, fun i => own x1 y1 i + p1.1 i + p1.2 i)

end Spu.Model.Cdot
