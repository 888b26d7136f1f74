import Verif.Model.Dealloc
import Mathlib.Data.List.Dedup
import Mathlib.Data.List.Perm.Subperm

set_option autoImplicit false

/-!
# Specification of deallocation
-/

namespace Spu.Spec.Dealloc
open Spu.Model.Dealloc

/-- a program as it is before the pass -/
def NoFree : Blk → Prop
  | .ret _ => True
  | .free _ _ => False
  | .op _ _ _ _ _ regs k => (∀ i, NoFree (regs i)) ∧ NoFree k

/-- how often the operations of a block itself free a value -/
def freed (x : ℕ) : Blk → ℕ
  | .ret _ => 0
  | .free v k => (if v = x then 1 else 0) + freed x k
  | .op _ _ _ _ _ _ k => freed x k

/-- the last use of a value that an earlier operation of the block has defined is as an operand -/
def EndsHere (x : ℕ) : List ℕ → Blk → Prop
  | _, .ret _ => False
  | defs, .free _ k => EndsHere x defs k
  | defs, .op _ as rs _ _ _ k => (x ∈ as ∧ x ∈ defs ∧ ¬ uses x k) ∨ EndsHere x (defs ++ rs) k

/-- at most this many values are in the scope of the block itself during a run; `live` are those in it -/
def peak : List ℕ → Blk → ℕ
  | live, .ret _ => live.dedup.length
  | live, .free v k => max live.dedup.length (peak (live.filter (· ≠ v)) k)
  | live, .op _ _ rs _ _ _ k => max live.dedup.length (peak (live ++ rs) k)

end Spu.Spec.Dealloc
