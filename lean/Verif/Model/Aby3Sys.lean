import Verif.Model.Aby3

set_option autoImplicit false

/-!
# The randomness of an aby3 session: `PrgState` of the three parties (`mpc/common/prg_state.{h,cc}`)

Requests to the generator are numbers of bytes; `dec v` reads an output as words of `v` bits
(`NdArrayView<el_t>` over the filled buffer).
-/

namespace Spu.Model.Aby3
open Spu.Model.Circ Spu.Model.Prg

variable {Seed Out : Type}

def sysEnv (g : Gen Seed ℕ Out) (dec : (v : ℕ) → Out → ℕ → BitVec v) : Env (Fin 3 → St Seed) where
  prss := fun v cnt d s =>
    let r := fun i => drawMany g (s i) ((d i).map (fun c => (c, v / 8 * cnt)))
    some (fun i => ((r i).1.1.map (dec v), (r i).1.2.map (dec v)), fun i => (r i).2)
  priv := fun v cnt i s =>
    let r := fillPriv g (s i) (v / 8 * cnt)
    some (dec v r.1, Function.update s i r.2)
  publ := fun s =>
    let r := fun i => fillPubl g (s i) 8
    some (fun i => dec 64 (r i).1 0, fun i => (r i).2)

end Spu.Model.Aby3
