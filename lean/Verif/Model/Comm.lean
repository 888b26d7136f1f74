import Mathlib.Algebra.BigOperators.Fin
import Mathlib.Algebra.Ring.BooleanRing
import Mathlib.Data.ZMod.Basic

set_option autoImplicit false

/-!
# Collective communication (`mpc/common/communicator.cc`) and correlated randomness

A protocol step is modelled as a function of what *all* parties hold: `Fin n → R`
is "party `i` holds `s i`".  Messages are reliable and ordered (yacl link), which is
part of the trusted base.
-/

namespace Spu.Model

/-- `Communicator::allReduce` as seen by party `rank`
(`mpc/common/communicator.cc:41-78`): every party sends its buffer to everyone
(`AllGather`), then party `rank` starts from a clone of its own value and folds in the
buffers `idx = 0,1,...` skipping `idx == rank`.
Simplified: arrays are single ring elements (all reductions are element-wise). -/
def allReduce {R : Type*} (op : R → R → R) {n : ℕ} (bufs : Fin n → R) (rank : Fin n) : R :=
  (List.finRange n).foldl (fun res idx => if idx = rank then res else op res (bufs idx))
    (bufs rank)

/-- `Communicator::reduce` at the root (`mpc/common/communicator.cc:80-113`), and the
summation loop of `A2V` (`mpc/semi2k/arithmetic.cc:82-96`), which starts from zero and
adds the gathered shares in rank order. -/
def gatherSum {R : Type*} (op : R → R → R) (z : R) {n : ℕ} (bufs : Fin n → R) : R :=
  (List.finRange n).foldl (fun s idx => op s (bufs idx)) z

/-- `Communicator::rotate` (`mpc/common/communicator.cc:115-129`): every party sends to
`PrevRank` and receives from `NextRank`, so party `i` obtains party `i+1`'s value. -/
def rotate {R : Type*} {n : ℕ} [NeZero n] (bufs : Fin n → R) : Fin n → R :=
  fun i => bufs (i + 1)

end Spu.Model
