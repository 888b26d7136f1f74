import Verif.Model.CheetahMul

set_option autoImplicit false

/-!
Model of Cheetah's multiplication kernels: `libspu/mpc/cheetah/arithmetic.cc` (`MulAV`, `MulAA`, `SquareA`), the cache
of Beaver triples and the tiling of transfer-based kernels in `libspu/mpc/cheetah/state.cc`.

Both parties are modelled at once, rank 0 first.  Flat arrays are lists of natural numbers, reduced modulo `2^k` by
every ring operation.  The multiplication protocol is a parameter (`Prot`); every call gets its own, since every call
draws fresh masks.  A throw, or two parties taking different branches around a joint step, is `none`.
-/

namespace Spu.Model.Carith
open Spu.Model.Cmul Spu.Model.Ms

/-- `ring_add`, `ring_sub`, `ring_mul` (ring_ops.cc). -/
def radd (k : ℕ) (a b : List ℕ) : List ℕ := List.zipWith (fun x y => (x + y) % 2 ^ k) a b
def rsub (k : ℕ) (a b : List ℕ) : List ℕ := List.zipWith (fun x y => (x + (2 ^ k - y % 2 ^ k)) % 2 ^ k) a b
def rmul (k : ℕ) (a b : List ℕ) : List ℕ := List.zipWith (fun x y => x * y % 2 ^ k) a b

/-- `slice({bgn}, {end}, {1})` of a flat array (ndarray_ref.cc:290-319). -/
def slice {α : Type} (l : List α) (bgn fin : ℕ) : List α := (l.take fin).drop bgn

/-- `CheetahMul`: `ole y x` is `MulOLE` with the evaluator's array `y` and the other party's `x`; `share x0 y0 x1 y1`
is `MulShare` with the evaluator's shares first.  Results: the evaluator's, then the other party's. -/
structure Prot where
  ole : List ℕ → List ℕ → Option (List ℕ × List ℕ)
  share : List ℕ → List ℕ → List ℕ → List ℕ → Option (List ℕ × List ℕ)

/-- The members of `CheetahMulState` (state.h:60-66); `field` is the bit length, `none` for `FT_INVALID`. -/
structure Cache where
  size : ℕ
  field : Option ℕ
  a : List ℕ
  b : List ℕ
  c : List ℕ

/-- A new `CheetahMulState`. -/
def Cache.new : Cache := ⟨0, none, [], [], []⟩

/-- state.cc:47-50: the usable size. -/
def Cache.eff (s : Cache) (k : ℕ) : ℕ := if s.field = some k then s.size else 0

/-- state.cc:72-88: a batch of triples from the random elements and the product. -/
def beaver (k rank nb : ℕ) (rand cross : List ℕ) : List ℕ × List ℕ × List ℕ :=
  let a := if rank = 0 then slice rand 0 nb else slice rand nb (nb * 2)
  let b := if rank = 0 then slice rand nb (nb * 2) else slice rand 0 nb
  (a, b, radd k (radd k (slice cross 0 nb) (slice cross nb (2 * nb))) (rmul k a b))

/-- state.cc:90-110: appending a batch. -/
def Cache.push (s : Cache) (k nb : ℕ) (t : List ℕ × List ℕ × List ℕ) : Cache :=
  ⟨s.eff k + nb, some k, s.a.take (s.eff k) ++ t.1.take nb, s.b.take (s.eff k) ++ t.2.1.take nb,
    s.c.take (s.eff k) ++ t.2.2.take nb⟩

/-- state.cc:44-113 `makeSureCacheSize`; `rand0`, `rand1` are the streams behind `ring_rand`. -/
def makeSure (batch k numel : ℕ) (P : Prot) (rand0 rand1 : ℕ → ℕ) (s : Cache × Cache) : Option (Cache × Cache) := do
  guard (0 < numel)
  if numel ≤ s.1.eff k ∧ numel ≤ s.2.eff k then some s
  else if s.1.eff k < numel ∧ s.2.eff k < numel then do
    let numOle := cdiv (2 * numel) batch
    let nb := numOle * batch / 2
    let r0 := (List.range (numOle * batch)).map fun i => rand0 i % 2 ^ k
    let r1 := (List.range (numOle * batch)).map fun i => rand1 i % 2 ^ k
    let cross ← P.ole r0 r1
    let s0 := s.1.push k nb (beaver k 0 nb r0 cross.1)
    let s1 := s.2.push k nb (beaver k 1 nb r1 cross.2)
    guard (numel ≤ s0.size ∧ numel ≤ s1.size)
    some (s0, s1)
  else none

/-- state.cc:122-132: one of the three arrays. -/
def takeOne (size numel : ℕ) (l : List ℕ) : Option (List ℕ × List ℕ) := do
  guard (numel ≤ l.length)
  if size = numel then some (slice l 0 numel, []) else do
    guard (size ≤ l.length)
    some (slice l 0 numel, slice l numel size)

/-- state.cc:121-135: what one party hands out. -/
def Cache.pop (s : Cache) (numel : ℕ) : Option ((List ℕ × List ℕ × List ℕ) × Cache) := do
  let a ← takeOne s.size numel s.a
  let b ← takeOne s.size numel s.b
  let c ← takeOne s.size numel s.c
  some ((a.1, b.1, c.1), ⟨s.size - numel, s.field, a.2, b.2, c.2⟩)

/-- A party's triples: a, b, c. -/
abbrev Triples := List ℕ × List ℕ × List ℕ

/-- state.cc:115-136 `TakeCachedBeaver`. -/
def takeBeaver (batch k numel : ℕ) (P : Prot) (rand0 rand1 : ℕ → ℕ) (s : Cache × Cache) :
    Option ((Triples × Triples) × (Cache × Cache)) := do
  guard (0 < numel)
  let s ← makeSure batch k numel P rand0 rand1 s
  let r0 ← s.1.pop numel
  let r1 ← s.2.pop numel
  some ((r0.1, r1.1), (r0.2, r1.2))

/-- arithmetic.cc:306-314: a party's share from the opened differences. -/
def combine (k rank : ℕ) (xa yb : List ℕ) (t : Triples) : List ℕ :=
  let z := radd k (radd k (rmul k xa t.2.1) (rmul k yb t.1)) t.2.2
  if rank = 0 then radd k z (rmul k xa yb) else z

/-- arithmetic.cc:291-319 `mulWithBeaver`. -/
def mulWithBeaver (batch k : ℕ) (P : Prot) (rand0 rand1 : ℕ → ℕ) (s : Cache × Cache) (x0 y0 x1 y1 : List ℕ) :
    Option ((List ℕ × List ℕ) × (Cache × Cache)) :=
  if x0.length = 0 then some (([], []), s) else do
    let r ← takeBeaver batch k x0.length P rand0 rand1 s
    let t0 := r.1.1
    let t1 := r.1.2
    guard (t0.1.length = x0.length)
    let xa := radd k (rsub k x0 t0.1) (rsub k x1 t1.1)
    let yb := radd k (rsub k y0 t0.2.1) (rsub k y1 t1.2.1)
    some ((combine k 0 xa yb t0, combine k 1 xa yb t1), r.2)

/-- arithmetic.cc:322-360 `mulDirectly`: `P` on the first half, `D` on the second. -/
def mulDirectly (P D : Prot) (x0 y0 x1 y1 : List ℕ) : Option (List ℕ × List ℕ) := do
  let n := x0.length
  let h := n / 2
  let r ← P.share (slice x1 0 h) (slice y1 0 h) (slice x0 0 h) (slice y0 0 h)
  let q ← D.share (slice x0 h n) (slice y0 h n) (slice x1 h n) (slice y1 h n)
  some (r.2 ++ q.1, r.1 ++ q.2)

/-- arithmetic.cc:241-252 `MulAA`. -/
def mulAA (batch k : ℕ) (P D : Prot) (rand0 rand1 : ℕ → ℕ) (s : Cache × Cache) (x0 y0 x1 y1 : List ℕ) :
    Option ((List ℕ × List ℕ) × (Cache × Cache)) :=
  if 2 * batch ≤ x0.length then (mulDirectly P D x0 y0 x1 y1).map fun r => (r, s)
  else mulWithBeaver batch k P rand0 rand1 s x0 y0 x1 y1

/-- arithmetic.cc:208-239 `MulAV`: `y` is the owner's; results of rank 0 and of rank 1. -/
def mulAV (k owner : ℕ) (P : Prot) (x0 x1 y : List ℕ) : Option (List ℕ × List ℕ) :=
  if x0.length = 0 then some ([], [])
  else if owner = 0 then (P.ole x1 y).map fun r => (radd k r.2 (rmul k x0 y), r.1)
  else (P.ole x0 y).map fun r => (r.1, radd k r.2 (rmul k x1 y))

/-- arithmetic.cc:254-289 `SquareA`: `P` on the first part, `D` on the second. -/
def squareA (k : ℕ) (P D : Prot) (x0 x1 : List ℕ) : Option (List ℕ × List ℕ) :=
  let n := x0.length
  if n = 0 then some ([], []) else do
    let h := if n ≤ 8192 then n else n / 2
    let m0 ← P.ole (slice x0 0 h) (slice x1 0 h)
    let m1 ← if h < n then (D.ole (slice x1 h n) (slice x0 h n)).map fun r => (r.2, r.1) else some ([], [])
    let c0 := m0.1 ++ m1.1
    let c1 := m0.2 ++ m1.2
    some (radd k (radd k c0 c0) (rmul k x0 x0), radd k (radd k c1 c1) (rmul k x1 x1))

/-! ## Tiling -/

/-- state.cc:28-41 `InitOTState`: the number of workers. -/
def nworker (maxInst n : ℕ) : ℕ := if n = 0 then 0 else min maxInst (cdiv n 2048)

/-- state.cc:144-145, 156-171; 196-197, 209-226; 250-251, 256-270; 297-298, 309-327: the slices of the workers. -/
def tiles (maxInst n : ℕ) : List (ℕ × ℕ) :=
  let nw := nworker maxInst n
  let wl := if nw = 0 then 0 else cdiv n nw
  let loop := (List.range (nw - 1)).map fun wi => (wi * wl, min n (wi * wl + wl))
  loop ++ [((loop.getLast?.map Prod.snd).getD 0, n)]

/-- state.cc:138-187 `TiledDispatchOTFunc`; `f w` is the function on the instance of worker `w`. -/
def dispatch {α β : Type} (maxInst : ℕ) (f : ℕ → List α → Option (List β)) (x : List α) : Option (List β) := do
  guard (0 < x.length)
  let outs ← ((tiles maxInst x.length).zipIdx).mapM fun t => f t.2 (slice x t.1.1 t.1.2)
  some outs.flatten

/-! ## The protocol of `CheetahMul` -/

/-- `MulOLE` and `MulShare` of `Verif.Model.CheetahMul` on lists. -/
def prot (h : Helper) (w N : ℕ) (rnd : ℕ → ℕ → ℕ) : Prot where
  ole y x := if y.length = x.length then
    (mulOLE h w N y.length (fun i => x.getD i 0) (fun i => y.getD i 0) rnd).map fun r =>
      ((List.range y.length).map r.1, (List.range y.length).map r.2) else none
  share x0 y0 x1 y1 := if x0.length = y0.length ∧ x1.length = y1.length ∧ x0.length = x1.length then
    (mulShare h w N x0.length (fun i => x0.getD i 0) (fun i => y0.getD i 0) (fun i => x1.getD i 0)
      (fun i => y1.getD i 0) rnd).map fun r =>
      ((List.range x0.length).map r.1, (List.range x0.length).map r.2) else none

end Spu.Model.Carith
