import Verif.Model.Semi2kSys
import Verif.Props.Semi2kProg
import Verif.Props.Prg
import Verif.Props.Dealer

set_option autoImplicit false
set_option linter.unusedSectionVars false

/-!
# The randomness of every semi2k session is what the conversions assume
-/

namespace Spu.Props
open Spu.Model Spu.Model.Circ Spu.Model.Bits Spu.Model.Prg Spu.Model.Semi2kConv Spu.Model.Semi2kSys Spu.Spec Spu.Lemmas

section
variable {n w : ℕ} [NeZero n] {Seed Out : Type}

/-- parties are in lock-step -/
def SysOk (s : Sys n Seed) : Prop := Sync s.prg ∧ DealerOk s.dealer

theorem sysEnv_ok (g : Gen Seed ℕ Out) (dec : Out → BitVec w) (decN : Out → ℕ) (K : (v : ℕ) → Dealer.Ks v Seed)
    (adj : Fin n) (rb : ℕ → ℕ → Bool) : EnvOk (sysEnv g dec decN K adj rb) SysOk where
  prss := by
    rintro s ⟨hp, hd⟩
    refine ⟨_, _, rfl, ⟨fun i => ?_, hd⟩, fun i => ?_⟩
    · obtain ⟨h1, h2, h3, h4⟩ := hp i
      refine ⟨h1, ?_, h3, h4⟩
      show (g.gen (s.prg i).nextSeed (s.prg i).r1Ctr (w / 8)).2 = (g.gen (s.prg (i + 1)).selfSeed (s.prg (i + 1)).r0Ctr (w / 8)).2
      rw [h1, h2]
    · obtain ⟨h1, h2, h3, h4⟩ := hp i
      show dec (g.gen (s.prg i).nextSeed (s.prg i).r1Ctr (w / 8)).1 = dec (g.gen (s.prg (i + 1)).selfSeed (s.prg (i + 1)).r0Ctr (w / 8)).1
      rw [h1, h2]
  priv := by
    rintro s ⟨hp, hd⟩
    exact ⟨_, _, rfl, ⟨fun i => hp i, hd⟩, trivial⟩
  publ := by
    rintro s ⟨hp, hd⟩
    refine ⟨_, _, rfl, ⟨fun i => ?_, hd⟩, fun i j => ?_⟩
    · obtain ⟨h1, h2, h3, h4⟩ := hp i
      refine ⟨h1, h2, h3, ?_⟩
      show (g.gen (s.prg i).pubSeed (s.prg i).pubCtr 8).2 = (g.gen (s.prg 0).pubSeed (s.prg 0).pubCtr 8).2
      rw [h3, h4]
    · show decN (g.gen (s.prg i).pubSeed (s.prg i).pubCtr 8).1 = decN (g.gen (s.prg j).pubSeed (s.prg j).pubCtr 8).1
      rw [(hp i).2.2.1, (hp i).2.2.2, (hp j).2.2.1, (hp j).2.2.2]
  andT v := by
    rintro s ⟨hp, hd⟩
    obtain ⟨h1, h2⟩ := c21_and (K v) adj s.dealer 1 hd
    exact ⟨_, _, rfl, ⟨hp, h2⟩, h1 0⟩
  randBits k := by
    rintro s ⟨hp, hd⟩
    obtain ⟨h1, h2⟩ := c21_randBit (K w) adj s.dealer k (rb s.coins) hd
    refine ⟨_, _, rfl, ⟨hp, h2⟩, fun j _ => ?_⟩
    have := h1 j
    split at this
    · exact Or.inr this
    · exact Or.inl this
  eqz := by
    rintro s ⟨hp, hd⟩
    obtain ⟨h1, h2⟩ := c21_eqz (K w) adj s.dealer 1 hd
    exact ⟨_, _, rfl, ⟨hp, h2⟩, (h1 0).symm⟩

theorem start_ok [AddCommMonoid Seed] (pk priv self dseed : Fin n → Seed) :
    SysOk (Semi2kSys.start pk priv self dseed) :=
  ⟨fun _ => ⟨rfl, rfl, rfl, rfl⟩, rfl, fun _ _ => rfl⟩

/-- a session with two parties over 8-bit words, to run the examples of the theorems on -/
def semi2kDemoEnv : Env (Sys 2 ℕ) 2 8 :=
  sysEnv ⟨fun seed c q => (seed * 73 + c * 29 + q * 5 + 11, c + 1)⟩ (fun x => BitVec.ofNat 8 x) id
    (fun v => ⟨fun seed p => BitVec.ofNat v (seed * 41 + p * 59 + 7), 4⟩) 0 (fun k j => (k + j) % 3 = 1)

/-- its initial state -/
def semi2kDemoStart : Sys 2 ℕ := Semi2kSys.start (fun i => i) (fun i => i + 3) (fun i => 7 * i + 1) (fun i => 5 * i + 2)

/-- what the parties hold, as numbers -/
def showB {n w : ℕ} {σ : Type} (r : Option (BShr n w × σ)) : Option (List ℕ × ℕ) :=
  r.map (fun p => ((List.ofFn p.1.sh).map BitVec.toNat, p.1.nb))

example : SysOk semi2kDemoStart := start_ok _ _ _ _

end

end Spu.Props
