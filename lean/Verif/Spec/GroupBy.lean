import Mathlib.Data.BitVec
import Mathlib.Data.Fintype.Card
import Mathlib.Data.List.Lex
import Mathlib.Algebra.BigOperators.Group.Finset.Basic

set_option autoImplicit false

/-!
# What grouping by keys means

A table has key columns and payload columns of `N` rows.  Two rows are in the same group iff all key columns agree.
-/

namespace Spu.Spec.GroupBy

section
variable {w N : ℕ}

/-- row `i` of a table -/
def row (cols : List (Fin N → BitVec w)) (i : Fin N) : List (BitVec w) := cols.map fun c => c i

/-- rows are ordered lexicographically, entries as signed numbers -/
def Before (a b : List (BitVec w)) : Prop := a.map BitVec.toInt < b.map BitVec.toInt

/-- number of groups -/
def groups (keys : List (Fin N → BitVec w)) : ℕ := (Finset.univ.image (row keys)).card

/-- the rows of the group of key `κ` -/
def members (keys : List (Fin N → BitVec w)) (κ : List (BitVec w)) : Finset (Fin N) := {i | row keys i = κ}

/-- sum over the group of key `κ`, in the ring -/
def total (keys : List (Fin N → BitVec w)) (x : Fin N → BitVec w) (κ : List (BitVec w)) : BitVec w :=
  ∑ i ∈ members keys κ, x i

/-- the first rows of the key columns `out` are the keys of the groups, each once, in ascending order -/
structure Keys (keys out : List (Fin N → BitVec w)) : Prop where
  fits : groups keys ≤ N
  occurs : ∀ g : Fin N, g.val < groups keys → ∃ i, row out g = row keys i
  all : ∀ i, ∃ g : Fin N, g.val < groups keys ∧ row out g = row keys i
  ascending : ∀ g h : Fin N, g < h → h.val < groups keys → Before (row out g) (row out h)

/-- column `s` holds the group sums of `x`, beside the keys `out` -/
def Sums (keys out : List (Fin N → BitVec w)) (x s : Fin N → BitVec w) : Prop :=
  ∀ g : Fin N, g.val < groups keys → s g = total keys x (row out g)

end
end Spu.Spec.GroupBy
