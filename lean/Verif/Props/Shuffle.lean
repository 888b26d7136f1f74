import Verif.Model.Shuffle
import Verif.Props.Perm
import Verif.Props.Dealer
import Verif.Props.Aby3
import Mathlib.Algebra.Group.End
import Mathlib.Logic.Equiv.Fin.Rotate
import Mathlib.Algebra.BigOperators.Group.List.Basic

set_option autoImplicit false
set_option linter.unusedSectionVars false

/-!
# C18: secret shuffling
-/

namespace Spu.Props
open Spu.Model Spu.Model.Perm Spu.Model.Shuffle Spu.Spec Spu.Lemmas
open Spu.Model.Dealer (Ks)

section Semi2k
variable {n w N : ℕ} [NeZero n] {Seed : Type}

theorem mapM_shuf {α β : Type} {f : α → Option β} {g : α → β} {l : List α} (h : ∀ a ∈ l, f a = some (g a)) :
    l.mapM f = some (l.map g) := by
  induction l with
  | nil => rfl
  | cons a l ih =>
    rw [List.mapM_cons, h a (by simp), ih fun b hb => h b (by simp [hb])]
    rfl

theorem getD_finRange {α : Type} (g : Fin n → α) (i : Fin n) (d : α) : ((List.finRange n).map g).getD i.val d = g i := by
  simp [List.getD]

theorem stands_toIdx (σ : Equiv.Perm (Fin N)) : Stands (toIdx σ) σ := fun _ => rfl

/-- The permutation that the permutation share `σ` (one private permutation per party) stands for. -/
def shareMeaning (σ : Fin n → Equiv.Perm (Fin N)) : Equiv.Perm (Fin N) := ((List.finRange n).map fun r => (σ r).symm).prod

/-- C18: the secret inverse permutation protocol re-orders the shared vector by the inverse of the private permutation,
for every number of parties, every dealer state in lock-step and every order of the loops. -/
theorem c18_secureInvPerm (K : Ks w Seed) (adj : Fin n) (shuf : Shuf Seed) {ord : ℕ → List (Fin N)}
    (ho : ∀ k, Covers (ord k)) {d : Dealer.Dealer n Seed} (hd : DealerOk d) (x : Fin n → Fin N → BitVec w)
    {perm : Fin N → ℕ} {σ : Equiv.Perm (Fin N)} (hp : Stands perm σ) (rank : Fin n) :
    ∃ y d', secureInvPerm K adj shuf ord d x perm rank = some (y, d') ∧ DealerOk d' ∧
      ∀ j, total (fun i => y i j) = total fun i => x i (σ.symm j) := by
  obtain ⟨hb, hd'⟩ := c21_permPair K adj (gpOf shuf) d N rank hd
  set pp := Dealer.permPair K adj (gpOf shuf) d N rank with hpp
  set ρ := pairPerm K adj shuf d N rank with hρ
  have hpo : Stands (fun j => perm (ρ.symm j)) (ρ.symm.trans σ) := fun j => hp _
  unfold secureInvPerm
  simp only [← hpp, ← hρ, c17_applyInvPerm (ho 0) _ (stands_toIdx ρ), Option.bind_eq_bind, Option.bind_some,
    c17_applyInvPerm (ho 1) _ hpo, c17_applyInvPerm (ho 2) _ hp]
  rw [mapM_shuf (g := fun i => fun j : Fin N => pp.1.2.1 i ((ρ.symm.trans σ).symm j)) (fun _ _ => rfl)]
  refine ⟨_, _, rfl, hd', fun j => ?_⟩
  have h1 := hb (ρ (σ.symm j)).val
  have hg : pp.1.2.2 (ρ (σ.symm j)).val = (σ.symm j).val := by
    rw [hpp]
    simp only [Dealer.permPair, gpOf]
    rw [dif_pos (ρ (σ.symm j)).isLt]
    have : ρ.symm ⟨(ρ (σ.symm j)).val, (ρ (σ.symm j)).isLt⟩ = σ.symm j := by simp
    exact congrArg Fin.val this
  rw [hg] at h1
  simp only [total] at h1 ⊢
  have : ∀ i : Fin n, (if i = rank then
      (((List.finRange n).map fun i => fun j : Fin N => pp.1.2.1 i ((ρ.symm.trans σ).symm j)).getD i.val fun _ => 0) j +
        ∑ i, (x i (σ.symm j) - pp.1.1 i (σ.symm j))
      else (((List.finRange n).map fun i => fun j : Fin N => pp.1.2.1 i ((ρ.symm.trans σ).symm j)).getD i.val fun _ => 0) j) =
      pp.1.2.1 i (ρ (σ.symm j)).val + if i = rank then ∑ i, (x i (σ.symm j) - pp.1.1 i (σ.symm j)) else 0 := by
    intro i
    rw [getD_finRange]
    split <;> simp
  simp only [this, Finset.sum_add_distrib, Finset.sum_ite_eq', Finset.mem_univ, if_true]
  rw [h1, Finset.sum_sub_distrib]
  ring

theorem foldlM_shuffle (K : Ks w Seed) (adj : Fin n) (shuf : Shuf Seed) {ord : ℕ → List (Fin N)}
    (ho : ∀ k, Covers (ord k)) {perm : Fin n → Fin N → ℕ} {σ : Fin n → Equiv.Perm (Fin N)}
    (hp : ∀ r, Stands (perm r) (σ r)) (l : List (Fin n)) {d : Dealer.Dealer n Seed} (hd : DealerOk d)
    (x : Fin n → Fin N → BitVec w) :
    ∃ y d', l.foldlM (fun s r => secureInvPerm K adj shuf ord s.2 s.1 (perm r) r) (x, d) = some (y, d') ∧ DealerOk d' ∧
      ∀ j, total (fun i => y i j) = total fun i => x i ((l.map fun r => (σ r).symm).prod j) := by
  induction l generalizing x d with
  | nil => exact ⟨x, d, rfl, hd, fun j => rfl⟩
  | cons r l ih =>
    obtain ⟨y, d1, h1, hd1, ht1⟩ := c18_secureInvPerm K adj shuf ho hd x (hp r) r
    obtain ⟨z, d2, h2, hd2, ht2⟩ := ih hd1 y
    refine ⟨z, d2, ?_, hd2, fun j => ?_⟩
    · rw [List.foldlM_cons, h1]; exact h2
    · rw [ht2, ht1]; rfl

/-- C18: the composition of all parties' private shuffles applies the permutation the share stands for. -/
theorem c18_permAM (K : Ks w Seed) (adj : Fin n) (shuf : Shuf Seed) {ord : ℕ → List (Fin N)} (ho : ∀ k, Covers (ord k))
    {perm : Fin n → Fin N → ℕ} {σ : Fin n → Equiv.Perm (Fin N)} (hp : ∀ r, Stands (perm r) (σ r))
    {d : Dealer.Dealer n Seed} (hd : DealerOk d) (x : Fin n → Fin N → BitVec w) :
    ∃ y d', permAM K adj shuf ord perm d x = some (y, d') ∧ DealerOk d' ∧
      ∀ j, total (fun i => y i j) = total fun i => x i (shareMeaning σ j) :=
  foldlM_shuffle K adj shuf ho hp _ hd x

/-- C18: the inverse direction applies the inverse of that permutation. -/
theorem c18_invPermAM {v : ℕ} (K : Ks w Seed) (adj : Fin n) (shuf : Shuf Seed) {ord : ℕ → List (Fin N)}
    (ho : ∀ k, Covers (ord k)) {perm : Fin n → Fin N → BitVec v} {σ : Fin n → Equiv.Perm (Fin N)}
    (hp : ∀ r, Stands (idx (perm r)) (σ r)) {d : Dealer.Dealer n Seed} (hd : DealerOk d)
    (x : Fin n → Fin N → BitVec w) :
    ∃ y d', invPermAM K adj shuf ord perm d x = some (y, d') ∧ DealerOk d' ∧
      ∀ j, total (fun i => y i (shareMeaning σ j)) = total fun i => x i j := by
  have hinv : ∀ r, ∃ inv, genInversePerm (ord 3) (perm r) = some inv ∧ Stands (idx inv) (σ r).symm :=
    fun r => c17_genInversePerm (ho 3) (hp r)
  choose inv h1 h2 using hinv
  unfold invPermAM
  rw [mapM_shuf (g := inv) (fun r _ => h1 r)]
  simp only [Option.bind_eq_bind, Option.bind_some, getD_finRange]
  obtain ⟨y, d', h3, hd', ht⟩ := foldlM_shuffle K adj shuf ho h2 (List.finRange n).reverse hd x
  refine ⟨y, d', h3, hd', fun j => ?_⟩
  rw [ht]
  have : ((List.finRange n).reverse.map fun r => ((σ r).symm).symm).prod = (shareMeaning σ)⁻¹ := by
    unfold shareMeaning
    rw [List.prod_inv_reverse, List.map_reverse, List.map_map]
    rfl
  rw [this]
  simp

/-- Unshuffling what was shuffled restores the vector. -/
theorem c18_unshuffle {v : ℕ} (K : Ks w Seed) (adj : Fin n) (shuf : Shuf Seed) {ord : ℕ → List (Fin N)}
    (ho : ∀ k, Covers (ord k)) {perm : Fin n → Fin N → BitVec v} {σ : Fin n → Equiv.Perm (Fin N)}
    (hp : ∀ r, Stands (idx (perm r)) (σ r)) {d : Dealer.Dealer n Seed} (hd : DealerOk d)
    (x : Fin n → Fin N → BitVec w) :
    ∃ z d', ((permAM K adj shuf ord (fun r => idx (perm r)) d x).bind fun s => invPermAM K adj shuf ord perm s.2 s.1) =
      some (z, d') ∧ ∀ j, total (fun i => z i j) = total fun i => x i j := by
  obtain ⟨y, d1, h1, hd1, ht1⟩ := c18_permAM K adj shuf ho hp hd x
  obtain ⟨z, d2, h2, hd2, ht2⟩ := c18_invPermAM K adj shuf ho hp hd1 y
  refine ⟨z, d2, by rw [h1]; exact h2, fun j => ?_⟩
  have := ht2 ((shareMeaning σ).symm j)
  rw [Equiv.apply_symm_apply] at this
  rw [this, ht1, Equiv.apply_symm_apply]

/-- C18: public permutations are applied share by share. -/
theorem c18_permAP {ord : List (Fin N)} (ho : Covers ord) (x : Fin n → Fin N → BitVec w) {perm : Fin N → ℕ}
    {σ : Equiv.Perm (Fin N)} (hp : Stands perm σ) :
    permAP x perm = some (fun i j => x i (σ j)) ∧ invPermAP ord x perm = some fun i j => x i (σ.symm j) := by
  unfold permAP invPermAP
  rw [mapM_shuf (g := fun i j => x i (σ j)) (fun i _ => c17_applyPerm _ hp),
    mapM_shuf (g := fun i j => x i (σ.symm j)) (fun i _ => c17_applyInvPerm ho _ hp)]
  simp only [Option.bind_eq_bind, Option.bind_some, getD_finRange]
  exact ⟨rfl, rfl⟩

/-- C18: a private permutation drawn by a party is a permutation (words wide enough for the length). -/
theorem c18_randPerm (shuf : Shuf Seed) {N v : ℕ} (hN : N ≤ 2 ^ v) (st : Prg.St Seed) :
    Stands (idx (randPerm shuf N v st).1) (shuf st.privSeed st.privCtr N).1 := by
  intro i
  simp only [randPerm, idx, BitVec.toNat_ofNat]
  exact Nat.mod_eq_of_lt (lt_of_lt_of_le (Fin.isLt _) hN)

end Semi2k

section Aby3
open Spu.Model.Aby3
variable {σ : Type} {E : Aby3.Env σ} {Inv : σ → Prop} {w N : ℕ}

/-- A replicated sharing of three permutations. -/
def Repl3 (perm : Sh (Fin N → ℕ)) (π : Fin 3 → Equiv.Perm (Fin N)) : Prop :=
  ∀ i, Stands (perm.fst i) (π i) ∧ Stands (perm.snd i) (π (i + 1))

/-- one element of a shared array -/
def at' (x : Sh (Fin N → BitVec w)) (j : Fin N) : Sh (BitVec w) := ⟨fun i => x.fst i j, fun i => x.snd i j⟩

theorem ok_liftO {α β : Type} {o : Option α} {a : α} {f : α → Spu.Model.Circ.M σ β} {Q : β → Prop} (h : o = some a)
    (hf : Ok Inv (f a) Q) : Ok Inv ((liftM o : Spu.Model.Circ.M σ α) >>= f) Q := by
  subst h
  exact Ok.bind (P := fun b => b = a) (fun s hs => ⟨a, s, rfl, hs, rfl⟩) (by rintro _ rfl; exact hf)

/-- C18: the aby3 shuffle applies `π₀ π₁ π₂`. -/
theorem c18_permAM3 (hE : EnvOk3 E Inv) {x : Sh (Fin N → BitVec w)} {X : Fin N → BitVec w}
    (hx : ∀ j, Opens (at' x j) (X j)) {perm : Sh (Fin N → ℕ)} {π : Fin 3 → Equiv.Perm (Fin N)} (hp : Repl3 perm π) :
    Ok Inv (permAM3 E x perm) fun y => ∀ j, Opens (at' y j) (X ((π 0 * π 1 * π 2) j)) := by
  unfold permAM3
  refine Ok.bind (hE.prss w N _ ?_) fun r hr => ?_
  · intro i; revert i; decide
  have h := two_eq_one hr
  refine ok_liftO (c17_applyPerm _ (hp 0).1) (ok_liftO (c17_applyPerm _ (hp 0).2) (ok_liftO (c17_applyPerm _ (hp 2).2)
    (ok_liftO (c17_applyPerm _ (hp 2).1) (ok_liftO (c17_applyPerm _ (hp 1).1) (ok_liftO (c17_applyPerm _ (hp 1).2)
    (Ok.pure fun j => ?_))))))
  have hX := hx (π 0 (π 1 (π 2 j)))
  have hr3 := repl3.1 hX.1
  have ht := hX.2
  rw [total3] at ht
  simp only [at'] at hr3 ht
  have e20 : (2 : Fin 3) + 1 = 0 := rfl
  have e01 : (0 : Fin 3) + 1 = 1 := rfl
  have e12 : (1 : Fin 3) + 1 = 2 := rfl
  refine ⟨repl3.2 ⟨?_, ?_, ?_⟩, ?_⟩
  · simp [at', h, e01]
  · simp only [at']
    simp [add_comm]
  · simp [at', h, e20]
  · rw [total3]
    simp only [at', Equiv.Perm.coe_mul, Function.comp_apply, ← ht, h, e01, e12, e20, hr3.1]
    simp only [if_true, show (1 : Fin 3) ≠ 0 by decide, show (2 : Fin 3) ≠ 0 by decide, show (2 : Fin 3) ≠ 1 by decide, if_false]
    ring

/-- C18: the aby3 unshuffle applies its inverse. -/
theorem c18_invPermAM3 (hE : EnvOk3 E Inv) {ord : ℕ → List (Fin N)} (ho : ∀ k, Covers (ord k))
    {x : Sh (Fin N → BitVec w)} {X : Fin N → BitVec w}
    (hx : ∀ j, Opens (at' x j) (X j)) {perm : Sh (Fin N → ℕ)} {π : Fin 3 → Equiv.Perm (Fin N)} (hp : Repl3 perm π) :
    Ok Inv (invPermAM3 E ord x perm) fun y => ∀ j, Opens (at' y ((π 0 * π 1 * π 2) j)) (X j) := by
  unfold invPermAM3
  refine Ok.bind (hE.prss w N _ ?_) fun r hr => ?_
  · intro i; revert i; decide
  have h := two_eq_one hr
  refine ok_liftO (c17_applyInvPerm (ho _) _ (hp 1).2) (ok_liftO (c17_applyInvPerm (ho _) _ (hp 1).1)
    (ok_liftO (c17_applyInvPerm (ho _) _ (hp 2).1) (ok_liftO (c17_applyInvPerm (ho _) _ (hp 2).2)
    (ok_liftO (c17_applyInvPerm (ho _) _ (hp 0).2) (ok_liftO (c17_applyInvPerm (ho _) _ (hp 0).1)
    (Ok.pure fun j => ?_))))))
  have hX := hx j
  have hr3 := repl3.1 hX.1
  have ht := hX.2
  rw [total3] at ht
  simp only [at'] at hr3 ht
  have e20 : (2 : Fin 3) + 1 = 0 := rfl
  have e01 : (0 : Fin 3) + 1 = 1 := rfl
  have e12 : (1 : Fin 3) + 1 = 2 := rfl
  have s1 := (hp 0).2
  have s2 := (hp 1).2
  have s5 := (hp 1).1
  have s6 := (hp 2).1
  simp only [e01, e12] at s1 s2
  refine ⟨repl3.2 ⟨?_, ?_, ?_⟩, ?_⟩
  · simp [at', h, e01]
  · simp [at', h, e12]
  · simp only [at']
    simp [add_comm]
  · rw [total3]
    simp only [at', Equiv.Perm.coe_mul, Function.comp_apply, ← ht, h, e01, e12, e20]
    simp only [if_true, show (1 : Fin 3) ≠ 0 by decide, show (2 : Fin 3) ≠ 0 by decide, show (2 : Fin 3) ≠ 1 by decide, if_false,
      Equiv.symm_apply_apply, s1 _, s2 _, s5 _, s6 _, hr3.2.1, hr3.2.2]
    ring

/-- C18: public permutations are applied to both components. -/
theorem c18_permAP3 {ord : List (Fin N)} (ho : Covers ord) {x : Sh (Fin N → BitVec w)} {X : Fin N → BitVec w}
    (hx : ∀ j, Opens (at' x j) (X j)) {perm : Fin N → ℕ} {π : Equiv.Perm (Fin N)} (hp : Stands perm π) :
    (∃ y, permAP3 x perm = some y ∧ ∀ j, Opens (at' y j) (X (π j))) ∧
      ∃ y, invPermAP3 ord x perm = some y ∧ ∀ j, Opens (at' y (π j)) (X j) := by
  constructor
  · refine ⟨⟨fun i j => x.fst i (π j), fun i j => x.snd i (π j)⟩, ?_, fun j => hx _⟩
    unfold permAP3
    rw [mapM_shuf (g := fun i j => x.fst i (π j)) (fun i _ => c17_applyPerm _ hp),
      mapM_shuf (g := fun i j => x.snd i (π j)) (fun i _ => c17_applyPerm _ hp)]
    simp only [Option.bind_eq_bind, Option.bind_some, getD_finRange]
    rfl
  · refine ⟨⟨fun i j => x.fst i (π.symm j), fun i j => x.snd i (π.symm j)⟩, ?_, fun j => ?_⟩
    · unfold invPermAP3
      rw [mapM_shuf (g := fun i j => x.fst i (π.symm j)) (fun i _ => c17_applyInvPerm ho _ hp),
        mapM_shuf (g := fun i j => x.snd i (π.symm j)) (fun i _ => c17_applyInvPerm ho _ hp)]
      simp only [Option.bind_eq_bind, Option.bind_some, getD_finRange]
      rfl
    · have := hx j
      simpa [at'] using this

/-- C18: the random permutation share of aby3 is replicated, and the parties stay in lock-step. -/
theorem c18_randPerm3 {Seed : Type} (shuf : Shuf Seed) {N v : ℕ} (hN : N ≤ 2 ^ v) {c : Fin 3 → Prg.St Seed} (hc : Sync c) :
    Repl3 ⟨fun i => idx (randPerm3 shuf N v (c i)).1.1, fun i => idx (randPerm3 shuf N v (c i)).1.2⟩
      (fun i => (shuf (c i).selfSeed (c i).r0Ctr N).1) ∧ Sync fun i => (randPerm3 shuf N v (c i)).2 := by
  have hlt : ∀ τ : Equiv.Perm (Fin N), Stands (idx fun i => BitVec.ofNat v (τ i)) τ := fun τ i => by
    simp only [idx, BitVec.toNat_ofNat]
    exact Nat.mod_eq_of_lt (lt_of_lt_of_le (Fin.isLt _) hN)
  refine ⟨fun i => ⟨hlt _, ?_⟩, fun i => ?_⟩
  · obtain ⟨h1, h2, -⟩ := hc i
    have := hlt (shuf (c i).nextSeed (c i).r1Ctr N).1
    rw [h1, h2] at this
    simp only [randPerm3]
    rw [h1, h2]
    exact this
  · obtain ⟨h1, h2, h3, h4⟩ := hc i
    refine ⟨h1, ?_, h3, h4⟩
    simp only [randPerm3]
    rw [h1, h2]

end Aby3

/-! ### Examples -/

/-- a toy shuffle: rotate by seed plus counter -/
def demoShuf : Shuf ℕ := fun s c N => ((finRotate N) ^ (s + c), c + 1)

/-- a toy keystream -/
def demoShufKs : Ks 8 ℕ := ⟨fun s p => BitVec.ofNat 8 (s * 31 + p * 17), 2⟩

/-- three parties, the vector 1, 2, 3, 4 shared with masks -/
def demoShufX : Fin 3 → Fin 4 → BitVec 8 := fun i j => if i = 2 then BitVec.ofNat 8 (j + 1) - 7 - 9 else if i = 1 then 7 else 9

/-- every party's private permutation -/
def demoShufPerm : Fin 3 → Fin 4 → BitVec 8 := ![![1, 0, 2, 3], ![3, 2, 0, 1], ![0, 2, 3, 1]]

/-- the dealer at start-up -/
def demoShufDealer : Dealer.Dealer 3 ℕ := Dealer.start ![5, 6, 8]

example : DealerOk demoShufDealer := ⟨rfl, fun _ _ => rfl⟩

/-- what the shares open to -/
def openShuf {w N n : ℕ} {S : Type} (r : Option ((Fin n → Fin N → BitVec w) × S)) : Option (List ℕ) :=
  r.map fun p => (List.finRange N).map fun j => ((List.finRange n).map fun i => (p.1 i j)).sum.toNat

example : openShuf (permAM demoShufKs 1 demoShuf (fun _ => List.finRange 4) (fun r => idx (demoShufPerm r)) demoShufDealer
    demoShufX) = some [3, 2, 4, 1] := by decide +kernel

example : openShuf ((permAM demoShufKs 1 demoShuf (fun _ => List.finRange 4) (fun r => idx (demoShufPerm r)) demoShufDealer
    demoShufX).bind fun s => invPermAM demoShufKs 1 demoShuf (fun _ => (List.finRange 4).reverse) demoShufPerm s.2 s.1) =
    some [1, 2, 3, 4] := by decide +kernel

/-- a replicated permutation share and a shared vector for aby3 -/
def demoShuf3 : Aby3.Sh (Fin 4 → ℕ) := ⟨![![1, 0, 2, 3], ![3, 2, 0, 1], ![0, 2, 3, 1]], ![![3, 2, 0, 1], ![0, 2, 3, 1], ![1, 0, 2, 3]]⟩
@[inherit_doc demoShuf3]
def demoShufX3 : Aby3.Sh (Fin 4 → BitVec 8) := ⟨demoShufX, fun i => demoShufX (i + 1)⟩

example : openShuf (((permAM3 aby3DemoEnv demoShufX3 demoShuf3) aby3DemoStart).map fun p => (p.1.fst, p.2)) = some [4, 2, 1, 3] := by
  decide +kernel

example : openShuf (((permAM3 aby3DemoEnv demoShufX3 demoShuf3 >>= fun y =>
    invPermAM3 aby3DemoEnv (fun _ => List.finRange 4) y demoShuf3) aby3DemoStart).map fun p => (p.1.fst, p.2)) =
    some [1, 2, 3, 4] := by
  decide +kernel

end Spu.Props
