import Verif.Model.Aby3Sys
import Verif.Spec.Aby3
import Verif.Lemmas.Gates
import Verif.Props.Prg

set_option autoImplicit false
set_option linter.unusedSectionVars false

/-!
# The randomness of every aby3 session is what the protocols assume
-/

namespace Spu.Props
open Spu.Model Spu.Model.Circ Spu.Model.Prg Spu.Model.Aby3 Spu.Spec Spu.Lemmas

section
variable {Seed Out : Type}

theorem r0Reqs_map (l : List Ctrl) (q : ℕ) :
    r0Reqs (l.map (fun c => (c, q))) = List.replicate (firsts l) q := by
  induction l with
  | nil => rfl
  | cons c l ih =>
    simp only [r0Reqs, firsts] at ih ⊢
    cases c <;> simpa [List.replicate_succ] using ih

theorem r1Reqs_map (l : List Ctrl) (q : ℕ) :
    r1Reqs (l.map (fun c => (c, q))) = List.replicate (seconds l) q := by
  induction l with
  | nil => rfl
  | cons c l ih =>
    simp only [r1Reqs, seconds] at ih ⊢
    cases c <;> simpa [List.replicate_succ] using ih

/-- C30/C27: in every session whose parties are in lock-step, fitting scripts give neighbours equal
words and public words are equal, and the parties stay in lock-step -/
theorem aby3_sysEnv_ok (g : Gen Seed ℕ Out) (dec : (v : ℕ) → Out → ℕ → BitVec v) :
    EnvOk3 (Aby3.sysEnv g dec) Sync where
  prss v cnt d hd := by
    intro s hs
    have hm : Matched (n := 3) (fun i => (d i).map (fun c => (c, v / 8 * cnt))) := by
      intro i
      rw [r1Reqs_map, r0Reqs_map, hd i]
    refine ⟨_, _, rfl, fun i => ?_, fun i => ?_⟩
    · obtain ⟨h1, h2, h3, h4⟩ := hs i
      simp only [(drawMany_spec g _ _).2]
      exact ⟨h1, by rw [h1, h2, hm i], h3, h4⟩
    · obtain ⟨h1, h2, h3, h4⟩ := hs i
      simp only [(drawMany_spec g _ _).1]
      rw [h1, h2, hm i]
  priv v cnt j := by
    intro s hs
    refine ⟨_, _, rfl, fun i => ?_, trivial⟩
    have e : ∀ k, (Function.update s j (fillPriv g (s j) (v / 8 * cnt)).2 k).nextSeed = (s k).nextSeed ∧
        (Function.update s j (fillPriv g (s j) (v / 8 * cnt)).2 k).selfSeed = (s k).selfSeed ∧
        (Function.update s j (fillPriv g (s j) (v / 8 * cnt)).2 k).r0Ctr = (s k).r0Ctr ∧
        (Function.update s j (fillPriv g (s j) (v / 8 * cnt)).2 k).r1Ctr = (s k).r1Ctr ∧
        (Function.update s j (fillPriv g (s j) (v / 8 * cnt)).2 k).pubSeed = (s k).pubSeed ∧
        (Function.update s j (fillPriv g (s j) (v / 8 * cnt)).2 k).pubCtr = (s k).pubCtr := by
      intro k
      by_cases hk : k = j
      · subst hk; simp [fillPriv]
      · simp [Function.update_of_ne hk]
    obtain ⟨h1, h2, h3, h4⟩ := hs i
    rw [(e i).1, (e (i + 1)).2.1, (e i).2.2.2.1, (e (i + 1)).2.2.1, (e i).2.2.2.2.1, (e 0).2.2.2.2.1,
      (e i).2.2.2.2.2, (e 0).2.2.2.2.2]
    exact ⟨h1, h2, h3, h4⟩
  publ := by
    intro s hs
    refine ⟨_, _, rfl, fun i => ?_, fun i j => ?_⟩
    · obtain ⟨h1, h2, h3, h4⟩ := hs i
      exact ⟨h1, h2, h3, by simp only [fillPubl]; rw [h3, h4]⟩
    · simp only [fillPubl]
      rw [(hs i).2.2.1, (hs i).2.2.2, (hs j).2.2.1, (hs j).2.2.2]

/-- a session at start-up is in lock-step -/
theorem aby3_start_ok [AddCommMonoid Seed] (pk priv self : Fin 3 → Seed) : Sync (Prg.init pk priv self) :=
  fun _ => ⟨rfl, rfl, rfl, rfl⟩

/-- a session over a toy generator, to run the examples of the theorems on -/
def aby3DemoEnv : Aby3.Env (Fin 3 → St ℕ) :=
  Aby3.sysEnv ⟨fun seed c q => (seed * 73 + c * 29 + q * 5 + 11, c + 1)⟩
    (fun v x j => BitVec.ofNat v ((x + j + 1) * 2654435761 / 7 % 1000003))

/-- its initial state -/
def aby3DemoStart : Fin 3 → St ℕ := Prg.init (fun i => i) (fun i => i + 3) (fun i => 7 * i + 1)

/-- what the parties hold, as numbers: first and second components of party 0, 1, 2 -/
def showSh {w : ℕ} (x : Sh (BitVec w)) : List (ℕ × ℕ) :=
  List.ofFn fun i => ((x.fst i).toNat, (x.snd i).toNat)

/-- the outcome of a run, as numbers -/
def showRun {w : ℕ} {σ : Type} (r : Option (Sh (BitVec w) × σ)) : Option (List (ℕ × ℕ)) := r.map (fun p => showSh p.1)

example : Sync aby3DemoStart := aby3_start_ok _ _ _

end

end Spu.Props
