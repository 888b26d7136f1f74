import Mathlib.Data.List.Nodup
import Mathlib.Data.List.FinRange
set_option autoImplicit false
/-! # What the `k` best elements of a vector are -/

namespace Spu.Spec

/-- `sel` lists, without repetition, positions of the `kHi` best elements of `x` such that the first
`kLo` are the `kLo` best, and the last of either group is the worst of its group.  `before a b` says
that `a` is strictly better than `b`. -/
structure TopkSel {α : Type*} {n : ℕ} (before : α → α → Prop) (x : Fin n → α) (kLo kHi : ℕ)
    (sel : List (Fin n)) : Prop where
  length : sel.length = kHi
  nodup : sel.Nodup
  best : ∀ i ∈ sel, ∀ j, j ∉ sel → ¬ before (x j) (x i)
  bestLo : ∀ i ∈ sel.take kLo, ∀ j, j ∉ sel.take kLo → ¬ before (x j) (x i)
  last : ∀ l, sel[kHi - 1]? = some l → ∀ i ∈ sel, ¬ before (x l) (x i)
  lastLo : ∀ l, sel[kLo - 1]? = some l → ∀ i ∈ sel.take kLo, ¬ before (x l) (x i)

/-- The contract of `std::nth_element(l + first, l + nth, l + size, lt)`: elements before `first`
stay, the others are rearranged, no element at or behind `nth` is less than one at or before it. -/
structure NthElement {α : Type*} (lt : α → α → Prop) (first nth : ℕ) (l l' : List α) : Prop where
  keep : l'.take first = l.take first
  perm : (l'.drop first).Perm (l.drop first)
  split : ∀ (i j : ℕ) (hi : i < l'.length) (hj : j < l'.length),
    first ≤ i → i ≤ nth → nth ≤ j → ¬ lt l'[j] l'[i]

end Spu.Spec
