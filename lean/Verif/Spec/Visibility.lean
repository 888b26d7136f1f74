import Verif.Model.Visibility

set_option autoImplicit false

/-!
# Specification of visibility inference
-/

namespace Spu.Spec.Vis
open Spu.Model.Vis

/-- two lists of values that agree on those whose visibility is public -/
inductive Low : List Vis → List V → List V → Prop
  | nil : Low [] [] []
  | cons {v x y G e1 e2} : (v = .pub → x = y) → Low G e1 e2 → Low (v :: G) (x :: e1) (y :: e2)

/-- nothing is made public that was secret -/
def Raises (vs us : List Vis) : Prop := List.Forall₂ (fun a b => a = Vis.sec → b = Vis.sec) vs us

/-- the program does not ask to reveal anything -/
def NoReveal : Blk → Prop
  | .ret _ => True
  | .const _ k => NoReveal k
  | .prim _ _ _ k => NoReveal k
  | .reveal _ _ => False
  | .ifte _ t e k => NoReveal t ∧ NoReveal e ∧ NoReveal k
  | .case _ _ bs k => (∀ j, NoReveal (bs j)) ∧ NoReveal k
  | .whl _ c b k => NoReveal c ∧ NoReveal b ∧ NoReveal k
  | .reduce _ _ _ b k => NoReveal b ∧ NoReveal k
  | .sort _ _ c k => NoReveal c ∧ NoReveal k

/-- The program that the compiler makes is well typed: no operand of a loop or reduction is converted from secret to public,
and the body of a reduction returns what it takes. -/
def Typed (N : ℕ) : Blk → List Vis → Prop
  | .ret _, _ => True
  | .const _ k, G => Typed N k (G ++ [.pub])
  | .prim n _ args k, G => ∀ vs, look G args = some vs → Typed N k (G ++ List.replicate n (common vs))
  | .reveal _ k, G => Typed N k (G ++ [.pub])
  | .ifte p t e k, G => Typed N t G ∧ Typed N e G ∧ ∀ c rt re r, G[p]? = some c → infer N t G = some rt →
      infer N e G = some re → branchVis c [rt, re] = some r → Typed N k (G ++ r)
  | .case i n bs k, G => (∀ j, Typed N (bs j) G) ∧ ∀ c rs r, G[i]? = some c →
      ((List.finRange n).mapM fun j => infer N (bs j) G) = some rs → branchVis c rs = some r → Typed N k (G ++ r)
  | .whl args c b k, G => ∀ v0 v, look G args = some v0 → loopVis (fun v => infer N b (G ++ v)) N v0 = some v →
      Raises v0 v ∧ Typed N c (G ++ v) ∧ Typed N b (G ++ v) ∧ Typed N k (G ++ v)
  | .reduce _ args inits b k, G => ∀ va vi u r, look G args = some va → look G inits = some vi →
      reduceVis (fun v => infer N b (G ++ v ++ v)) (List.zipWith (fun a i => common [a, i]) va vi) = some (u, r) →
      Raises va u ∧ Raises vi u ∧ r = u ∧ Typed N b (G ++ u ++ u) ∧ Typed N k (G ++ r)
  | .sort _ args c k, G => ∀ vs rc vc, look G args = some vs → infer N c (G ++ twice vs) = some rc → rc[0]? = some vc →
      Typed N c (G ++ twice vs) ∧ Typed N k (G ++ vs.map fun v => common [vc, v])

/-- two runs that nobody can tell apart: both fail, or everybody sees the same in both, namely values of public type, and
the results agree on those that are public -/
def Alike (R : List Vis) (o1 o2 : Res) : Prop :=
  (o1 = none ∧ o2 = none) ∨
    ∃ x1 x2 t, o1 = some (x1, t) ∧ o2 = some (x2, t) ∧ Low R x1 x2 ∧ ∀ o ∈ t, ∃ v, o = Obs.pub v

/-- no loops, no reductions: the order of visibilities is kept -/
def Simple : Blk → Prop
  | .ret _ => True
  | .const _ k => Simple k
  | .prim _ _ _ k => Simple k
  | .reveal _ k => Simple k
  | .ifte _ t e k => Simple t ∧ Simple e ∧ Simple k
  | .case _ _ bs k => (∀ j, Simple (bs j)) ∧ Simple k
  | .whl _ _ _ _ => False
  | .reduce _ _ _ _ _ => False
  | .sort _ _ c k => Simple c ∧ Simple k

end Spu.Spec.Vis
