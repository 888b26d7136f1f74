import Verif.Model.Ten
import Mathlib.Data.Int.Notation
set_option autoImplicit false
/-!
# What sorting along a dimension means
-/

namespace Spu.Spec
open Spu.Model

/-- the line of `t` along dimension `d` through the place `i` -/
def lineThrough {α : Type} (t : Ten α) (d : ℕ) (i : List ℕ) : List α :=
  (List.range (t.shape.getD d 0)).map fun k => t.get (i.set d k)

/-- record `a` comes strictly before `b` by the first `nk` fields, field 0 first; `up` is ascending -/
def RecBefore (up : Bool) (nk : ℕ) (a b : List ℤ) : Prop :=
  ∃ k < nk, (∀ j < k, a.getD j 0 = b.getD j 0) ∧
    if up then a.getD k 0 < b.getD k 0 else b.getD k 0 < a.getD k 0

/-- record number `p` of some lines of words -/
def recAt {w : ℕ} (ls : List (List (BitVec w))) (p : ℕ) : List ℤ := ls.map fun l => (l.getD p 0).toInt

/-- `outs` are the lines `ins` of length `n` with their records in sorted order: there is one
rearrangement of the places for all lines; if `stable`, records with equal keys keep their order. -/
def SortedLines {w : ℕ} (up : Bool) (nk : ℕ) (stable : Bool) (n : ℕ)
    (ins outs : List (List (BitVec w))) : Prop :=
  ∃ σ : List ℕ, σ.Perm (List.range n) ∧ outs = ins.map (fun l => σ.map fun p => l.getD p 0) ∧
    σ.Pairwise fun p q => ¬ RecBefore up nk (recAt ins q) (recAt ins p) ∧
      (stable = true → ¬ RecBefore up nk (recAt ins p) (recAt ins q) → p < q)

/-- a strict weak order on the elements of a list -/
structure StrictWeak (lt : ℕ → ℕ → Bool) (l : List ℕ) : Prop where
  irrefl : ∀ a ∈ l, lt a a = false
  negTrans : ∀ a ∈ l, ∀ b ∈ l, ∀ c ∈ l, lt b a = false → lt c b = false → lt c a = false
  asymm : ∀ a ∈ l, ∀ b ∈ l, lt a b = true → lt b a = false

/-- the contract of `std::sort` and `std::stable_sort` -/
def StdSortContract (std : Bool → (ℕ → ℕ → Bool) → List ℕ → List ℕ) : Prop :=
  ∀ stable lt n, StrictWeak lt (List.range n) → (std stable lt (List.range n)).Perm (List.range n) ∧
    (std stable lt (List.range n)).Pairwise fun a b => lt b a = false ∧
      (stable = true → lt a b = false → a < b)

end Spu.Spec
