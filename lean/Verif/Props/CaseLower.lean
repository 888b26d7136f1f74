/-
C70: lowering of `if` and `case`.
-/
import Mathlib.Data.ZMod.Basic
import Verif.Spec.CaseLower

set_option autoImplicit false

namespace Spu.Props

open Spu.CaseLower Spu.Spec.CaseLower

variable {R : Type} [CommRing R]

namespace CaseLower

/-- A chain of `if`s from case `i` on. -/
theorem nested_taken (idx : ℤ) (bs : List (Outs R)) (hne : bs ≠ []) (i : ℕ) :
    ∃ o, nested idx i bs = some o ∧
      ((∃ n : ℕ, idx = i + n ∧ bs[n]? = some o) ∨
        ((∀ n : ℕ, n < bs.length → idx ≠ i + n) ∧ bs.getLast? = some o)) := by
  induction bs generalizing i with
  | nil => exact absurd rfl hne
  | cons b bs ih =>
    cases bs with
    | nil =>
      refine ⟨b, rfl, ?_⟩
      by_cases h : idx = i
      · exact .inl ⟨0, by simpa using h, rfl⟩
      · refine .inr ⟨fun n hn => ?_, rfl⟩
        have : n = 0 := by simpa using hn
        subst this
        simpa using h
    | cons b' bs' =>
      by_cases h : idx = i
      · exact ⟨b, by simp [nested, h], .inl ⟨0, by simpa using h, rfl⟩⟩
      · obtain ⟨o, ho, hcase⟩ := ih (by simp) (i + 1)
        refine ⟨o, ?_, ?_⟩
        · rw [nested, if_neg h]
          · exact_mod_cast ho
          · intro h; cases h
        · rcases hcase with ⟨n, hn, hget⟩ | ⟨hall, hlast⟩
          · exact .inl ⟨n + 1, by rw [hn]; push_cast; ring, by simpa using hget⟩
          · refine .inr ⟨fun n hn => ?_, ?_⟩
            · cases n with
              | zero => simpa using h
              | succ n =>
                have := hall n (by simpa using hn)
                intro hc
                apply this
                rw [hc]
                push_cast
                ring
            · rw [List.getLast?_cons_cons]
              exact hlast

/-- The sum after the first branch. -/
theorem fold_masked (index : ℤ) (bs : List (Outs R)) (s : ℕ) (acc : Outs R) (j p : ℕ) :
    ((bs.zipIdx s).foldl
      (fun acc q => fun j p => acc j p + q.1 j p * (if (q.2 : ℤ) = index then 1 else 0)) acc) j p =
      acc j p + (if (s : ℤ) ≤ index then ((bs[(index - s).toNat]?).map (fun b => b j p)).getD 0
        else 0) := by
  induction bs generalizing s acc with
  | nil => simp
  | cons b bs ih =>
    simp only [List.zipIdx_cons, List.foldl_cons]
    rw [ih]
    rcases lt_trichotomy (s : ℤ) index with h | h | h
    · have h1 : ¬ (s : ℤ) = index := by omega
      have h2 : ((s + 1 : ℕ) : ℤ) ≤ index := by push_cast; omega
      have h3 : (index - s).toNat = (index - ((s + 1 : ℕ) : ℤ)).toNat + 1 := by push_cast; omega
      rw [if_neg h1, if_pos h2, if_pos h.le, h3, List.getElem?_cons_succ]
      ring
    · have h2 : ¬ ((s + 1 : ℕ) : ℤ) ≤ index := by push_cast; omega
      have h3 : (index - s).toNat = 0 := by omega
      rw [if_pos h, if_neg h2, if_pos h.le, h3]
      simp
    · have h1 : ¬ (s : ℤ) = index := by omega
      have h2 : ¬ ((s + 1 : ℕ) : ℤ) ≤ index := by push_cast; omega
      rw [if_neg h1, if_neg h2, if_neg (by omega)]
      ring

/-- A masked sum picks the branch with the number of the index. -/
theorem masked_eq (n : ℕ) (bs : List (Outs R)) (hn : n < bs.length) :
    masked (n : ℤ) bs = bs[n]? := by
  cases bs with
  | nil => simp at hn
  | cons b bs =>
    rw [List.getElem?_eq_getElem hn]
    simp only [masked, Option.some.injEq]
    funext j p
    rw [fold_masked]
    cases n with
    | zero => simp
    | succ n =>
      have h0 : ¬ (0 : ℤ) = ((n + 1 : ℕ) : ℤ) := by push_cast; omega
      have h1 : ((1 : ℕ) : ℤ) ≤ ((n + 1 : ℕ) : ℤ) := by push_cast; omega
      have h2 : (((n + 1 : ℕ) : ℤ) - ((1 : ℕ) : ℤ)).toNat = n := by push_cast; omega
      have h3 : n < bs.length := by simpa using hn
      rw [if_neg h0, if_pos h1, h2, List.getElem?_eq_getElem h3]
      simp

theorem last_get (bs : List (Outs R)) : bs.getLast? = bs[bs.length - 1]? := List.getLast?_eq_getElem?

end CaseLower

open CaseLower

/-- **C70.** A `case` on a public index takes the branch StableHLO says. -/
theorem c70_public (idx : ℤ) (bs : List (Outs R)) (hne : bs ≠ []) :
    ∃ o, publicCase idx bs = some o ∧ taken idx bs o := by
  obtain ⟨o, ho, h⟩ := nested_taken idx bs hne 0
  refine ⟨o, by simpa [publicCase] using ho, ?_⟩
  simpa [taken] using h

/-- **C70**: so do the kernels, for a public and for a secret index. -/
theorem c70_kernel (idx : ℤ) (bs : List (Outs R)) (hne : bs ≠ []) :
    ∃ o, kernelPublic idx bs = some o ∧ kernelSecret idx bs = some o ∧ taken idx bs o := by
  have hlen : 0 < bs.length := List.length_pos_iff.mpr hne
  by_cases h : idx < 0 ∨ (bs.length : ℤ) - 1 < idx
  · have h1 : ((bs.length : ℤ) - 1).toNat = bs.length - 1 := by omega
    have h2 : (bs.length : ℤ) - 1 = ((bs.length - 1 : ℕ) : ℤ) := by omega
    refine ⟨bs[bs.length - 1], ?_, ?_, .inr ⟨fun n hn => by omega, ?_⟩⟩
    · simp only [kernelPublic]
      rw [if_pos h, h1, List.getElem?_eq_getElem (by omega)]
    · simp only [kernelSecret]
      rw [if_pos (by simpa using h), h2, masked_eq _ _ (by omega),
        List.getElem?_eq_getElem (by omega)]
    · rw [last_get, List.getElem?_eq_getElem (by omega)]
  · have hlt : idx.toNat < bs.length := by omega
    refine ⟨bs[idx.toNat], ?_, ?_, .inl ⟨idx.toNat, by omega, List.getElem?_eq_getElem hlt⟩⟩
    · simp only [kernelPublic]
      rw [if_neg h, List.getElem?_eq_getElem hlt]
    · simp only [kernelSecret]
      have e : idx = (idx.toNat : ℤ) := by omega
      rw [if_neg (by simpa using h)]
      have hm := masked_eq idx.toNat bs hlt
      rw [← e] at hm
      rw [hm, List.getElem?_eq_getElem hlt]

/-- **C70**: a `case` on a secret index as compiled does so for indices that are not negative. -/
theorem c70_secret (idx : ℤ) (h0 : 0 ≤ idx) (bs : List (Outs R)) (hne : bs ≠ []) :
    ∃ o, secretCase idx bs = some o ∧ taken idx bs o := by
  have hlen : 0 < bs.length := List.length_pos_iff.mpr hne
  unfold secretCase
  by_cases h1 : bs.length = 1
  · obtain ⟨b, rfl⟩ := List.length_eq_one_iff.mp h1
    refine ⟨b, by simp, ?_⟩
    by_cases h : idx = 0
    · exact .inl ⟨0, by simpa using h, rfl⟩
    · refine .inr ⟨fun n hn => ?_, rfl⟩
      have : n = 0 := by simpa using hn
      subst this
      simpa using h
  · rw [if_neg h1]
    by_cases h : (bs.length : ℤ) - 1 < idx
    · have e : clampIdx 0 idx (bs.length - 1) = ((bs.length - 1 : ℕ) : ℤ) := by
        unfold clampIdx
        omega
      rw [e, masked_eq _ _ (by omega)]
      refine ⟨bs[bs.length - 1], List.getElem?_eq_getElem (by omega),
        .inr ⟨fun n hn => by omega, ?_⟩⟩
      rw [last_get, List.getElem?_eq_getElem (by omega)]
    · have e : clampIdx 0 idx (bs.length - 1) = (idx.toNat : ℤ) := by
        unfold clampIdx
        omega
      have hlt : idx.toNat < bs.length := by omega
      rw [e, masked_eq _ _ hlt]
      exact ⟨bs[idx.toNat], List.getElem?_eq_getElem hlt,
        .inl ⟨idx.toNat, by omega, List.getElem?_eq_getElem hlt⟩⟩

/-- **C70, where it fails**: a negative secret index takes the first branch, not the last. -/
theorem c70_secret_negative (idx : ℤ) (h0 : idx < 0) (bs : List (Outs R)) :
    secretCase idx bs = bs.head? ∧
      ∀ o, taken idx bs o → bs.getLast? = some o := by
  refine ⟨?_, ?_⟩
  · unfold secretCase
    split_ifs with h1
    · rfl
    · cases bs with
      | nil => rfl
      | cons b bs =>
        have e : clampIdx 0 idx (((b :: bs).length : ℤ) - 1) = ((0 : ℕ) : ℤ) := by
          unfold clampIdx
          simp only [List.length_cons]
          push_cast
          omega
        rw [e, masked_eq _ _ (by simp)]
        rfl
  · rintro o (⟨n, hn, -⟩ | ⟨-, h⟩)
    · omega
    · exact h

/-- **C70**: a secret `if` takes the branch of its condition. -/
theorem c70_if (c : Bool) (x y : Outs R) : secretIf c x y = if c then x else y := by
  cases c
  · funext j p
    simp [secretIf]
  · funext j p
    simp [secretIf]

/-! ### Examples -/

/-- Three branches of one result each. -/
def caseExample : List (Outs (ZMod (2 ^ 64))) := [fun _ _ => 5, fun _ _ => 7, fun _ _ => 9]

example : (secretCase 1 caseExample).map (fun o => o 0 0) = some 7 ∧
    (publicCase 1 caseExample).map (fun o => o 0 0) = some 7 ∧
    (secretCase 4 caseExample).map (fun o => o 0 0) = some 9 ∧
    (publicCase (-1) caseExample).map (fun o => o 0 0) = some 9 ∧
    (kernelSecret (-1) caseExample).map (fun o => o 0 0) = some 9 ∧
    (secretCase (-1) caseExample).map (fun o => o 0 0) = some 5 := by
  decide +kernel

/-- The first and the last branch differ, so the specification is violated. -/
example : ∃ o, secretCase (-1) caseExample = some o ∧ ¬ taken (-1) caseExample o := by
  refine ⟨fun _ _ => 5, (c70_secret_negative (-1) (by decide) _).1, fun h => ?_⟩
  have := (c70_secret_negative (-1) (by decide) caseExample).2 _ h
  have h2 : (9 : ZMod (2 ^ 64)) = 5 := by
    have h3 := congrArg (Option.map fun o : Outs (ZMod (2 ^ 64)) => o 0 0) this
    simpa [caseExample] using h3
  exact absurd h2 (by decide +kernel)

end Spu.Props
