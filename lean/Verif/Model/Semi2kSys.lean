import Verif.Model.Semi2kConv
import Verif.Model.Prg
import Verif.Model.Dealer

set_option autoImplicit false

/-!
# The randomness of a semi2k session: `PrgState` of every party and the first-party dealer

Each request is for one element.  The generator (`FillPRand`), its decoding into words and the
dealer's keystreams are arguments; `rb k` is what the adjusting party's `ring_randbit` returns the
`k`-th time.
-/

namespace Spu.Model.Semi2kSys
open Spu.Model.Circ Spu.Model.Semi2kConv Spu.Model.Prg

structure Sys (n : ℕ) (Seed : Type) where
  prg : Fin n → St Seed
  dealer : Dealer.Dealer n Seed
  coins : ℕ

section
variable {n w : ℕ} [NeZero n] {Seed Out : Type}

/-- requests to the generator are numbers of bytes -/
def sysEnv (g : Gen Seed ℕ Out) (dec : Out → BitVec w) (decN : Out → ℕ) (K : (v : ℕ) → Dealer.Ks v Seed)
    (adj : Fin n) (rb : ℕ → ℕ → Bool) : Env (Sys n Seed) n w where
  prss := fun s =>
    let r := fun i => fillPair g (s.prg i) .both (w / 8)
    some ((fun i => ((r i).1.1.map dec).getD 0, fun i => ((r i).1.2.map dec).getD 0),
      { s with prg := fun i => (r i).2 })
  priv := fun s =>
    let r := fun i => fillPriv g (s.prg i) (w / 8)
    some (fun i => dec (r i).1, { s with prg := fun i => (r i).2 })
  publ := fun s =>
    let r := fun i => fillPubl g (s.prg i) 8
    some (fun i => decN (r i).1, { s with prg := fun i => (r i).2 })
  andT := fun v s =>
    let r := Dealer.and (K v) adj s.dealer 1
    some ((fun i => r.1.1 i 0, fun i => r.1.2.1 i 0, fun i => r.1.2.2 i 0), { s with dealer := r.2 })
  randBits := fun k s =>
    let r := Dealer.randBit (K w) adj s.dealer k (rb s.coins)
    some (fun j i => r.1 i j, { s with dealer := r.2, coins := s.coins + 1 })
  eqz := fun s =>
    let r := Dealer.eqz (K w) adj s.dealer 1
    some ((fun i => r.1.1 i 0, fun i => r.1.2 i 0), { s with dealer := r.2 })

/-- a session at start-up (`prg_state.cc:35-64`, `beaver_tfp.cc:52-71`) -/
def start [AddCommMonoid Seed] (pk priv self dseed : Fin n → Seed) : Sys n Seed :=
  ⟨Prg.init pk priv self, Dealer.start dseed, 0⟩

end

end Spu.Model.Semi2kSys
