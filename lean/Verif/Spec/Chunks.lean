set_option autoImplicit false

/-!
# Specification: cutting bytes into chunks (independent of the model)
-/

namespace Spu.Spec

/-- The pieces, given with their positions, lie end to end from `start` and together are `bytes`. -/
def Tiles {β : Type} : Nat → List (Nat × List β) → List β → Prop
  | _, [], bytes => bytes = []
  | start, p :: ps, bytes => p.1 = start ∧ ∃ rest, bytes = p.2 ++ rest ∧ Tiles (start + p.2.length) ps rest

/-- Element number `i` of memory holding elements of `es` bytes each; `none` outside. -/
def elemAt {β : Type} (es : Nat) (bytes : List β) (i : Nat) : Option (List β) :=
  if (i + 1) * es ≤ bytes.length then some ((bytes.drop (i * es)).take es) else none

/-- Lengths of all pieces together. -/
def totalLen {β : Type} : List (Nat × List β) → Nat
  | [] => 0
  | p :: ps => p.2.length + totalLen ps

end Spu.Spec
