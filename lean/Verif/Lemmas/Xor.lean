import Verif.Lemmas.Share
import Verif.Lemmas.Gates
import Verif.Spec.Semi2kConv

set_option autoImplicit false

/-! # xor-linear maps -/

namespace Spu.Lemmas
open Spu.Model.Circ Spu.Model.Bits Spu.Spec

/-- a map that commutes with xor -/
structure XLin {w v : ℕ} (f : BitVec w → BitVec v) : Prop where
  zero : f 0 = 0
  add : ∀ x y, f (x ^^^ y) = f x ^^^ f y

theorem xorAll_map {w v n : ℕ} {f : BitVec w → BitVec v} (hf : XLin f) (s : Fin n → BitVec w) :
    xorAll (fun i => f (s i)) = f (xorAll s) := by
  unfold xorAll
  have : (List.ofFn fun i => f (s i)) = (List.ofFn s).map f := by
    rw [List.map_ofFn]; rfl
  rw [this]
  generalize List.ofFn s = l
  induction l with
  | nil => exact hf.zero.symm
  | cons a l ih => rw [List.map_cons, List.foldr_cons, List.foldr_cons, ih, hf.add]

theorem xorAll_xor {w n : ℕ} (s t : Fin n → BitVec w) :
    xorAll (fun i => s i ^^^ t i) = xorAll s ^^^ xorAll t := by
  apply bitsOf_inj
  rw [bitsOf_xor, bitsOf_xorAll, bitsOf_xorAll, bitsOf_xorAll, ← total_add]
  congr 1
  funext i
  exact bitsOf_xor _ _

/-- xor with a value at one party -/
theorem xorAll_ite {w n : ℕ} (k : Fin n) (f g : Fin n → BitVec w) :
    xorAll (fun i => if i = k then f i ^^^ g i else f i) = xorAll f ^^^ g k := by
  apply bitsOf_inj
  rw [bitsOf_xor, bitsOf_xorAll, bitsOf_xorAll, ← total_ite_add k (fun i => bitsOf (f i)) (fun i => bitsOf (g i))]
  congr 1
  funext i
  by_cases h : i = k
  · rw [if_pos h, if_pos h]; exact bitsOf_xor _ _
  · rw [if_neg h, if_neg h]

/-- PRSS words cancel -/
theorem xorAll_prss {w n : ℕ} [NeZero n] {r0 r1 : Fin n → BitVec w} (h : ∀ i, r1 i = r0 (i + 1)) :
    xorAll (fun i => r0 i ^^^ r1 i) = 0 := by
  rw [xorAll_xor]
  have e : xorAll r1 = xorAll r0 := by
    apply bitsOf_inj
    rw [bitsOf_xorAll, bitsOf_xorAll, funext h, ← total_shift (fun i => bitsOf (r0 i))]
  rw [e, BitVec.xor_self]; rfl

theorem xlin_shl {w k : ℕ} : XLin (fun x : BitVec w => x <<< k) :=
  ⟨by simp, fun x y => by refine BitVec.eq_of_getLsbD_eq fun i hi => ?_; simp [hi]; cases decide (i < k) <;> simp⟩

theorem xlin_shr {w k : ℕ} : XLin (fun x : BitVec w => x >>> k) :=
  ⟨by simp, fun x y => by refine BitVec.eq_of_getLsbD_eq fun i hi => ?_; simp⟩

theorem xlin_sshr {w k : ℕ} : XLin (fun x : BitVec w => x.sshiftRight k) :=
  ⟨by simp, fun x y => by
    refine BitVec.eq_of_getLsbD_eq fun i hi => ?_
    simp only [BitVec.getLsbD_sshiftRight, BitVec.getLsbD_xor, BitVec.msb_xor]
    by_cases h1 : w ≤ i
    · omega
    · by_cases h2 : k + i < w <;> simp [h1, h2]⟩

theorem xlin_and {w : ℕ} (p : BitVec w) : XLin (fun x : BitVec w => x &&& p) :=
  ⟨by simp, fun x y => by
    refine BitVec.eq_of_getLsbD_eq fun i hi => ?_
    simp only [BitVec.getLsbD_and, BitVec.getLsbD_xor]
    cases x.getLsbD i <;> cases y.getLsbD i <;> cases p.getLsbD i <;> rfl⟩

theorem xlin_setWidth {w v : ℕ} : XLin (fun x : BitVec w => x.setWidth v) :=
  ⟨by simp, fun x y => by
    refine BitVec.eq_of_getLsbD_eq fun i hi => ?_
    simp only [BitVec.getLsbD_setWidth, BitVec.getLsbD_xor]
    cases decide (i < v) <;> simp⟩

theorem xlin_comp {u v w : ℕ} {g : BitVec v → BitVec w} {f : BitVec u → BitVec v} (hg : XLin g) (hf : XLin f) :
    XLin (fun x => g (f x)) :=
  ⟨by rw [hf.zero, hg.zero], fun x y => by rw [hf.add, hg.add]⟩

theorem xlin_xor {u v : ℕ} {f g : BitVec u → BitVec v} (hf : XLin f) (hg : XLin g) :
    XLin (fun x => f x ^^^ g x) :=
  ⟨by rw [hf.zero, hg.zero]; simp, fun x y => by rw [hf.add, hg.add]; ac_rfl⟩

/-- a re-indexing of bits -/
theorem xlin_of_bits {w : ℕ} {f : BitVec w → BitVec w} (src : ℕ → ℕ)
    (h : ∀ x i, i < w → (f x).getLsbD i = x.getLsbD (src i)) : XLin f :=
  ⟨BitVec.eq_of_getLsbD_eq fun i hi => by rw [h _ _ hi]; simp, fun x y =>
    BitVec.eq_of_getLsbD_eq fun i hi => by
      rw [h _ _ hi, BitVec.getLsbD_xor, BitVec.getLsbD_xor, h _ _ hi, h _ _ hi]⟩

theorem swapStep_lin {w l : ℕ} (hl : l < 6) : ∃ f : BitVec w → BitVec w, (∀ x, swapStep l x = some (f x)) ∧ XLin f := by
  have hk : l < keepMasks.length := hl
  have hm : l < swapMasks.length := hl
  refine ⟨fun r => (r &&& (keepMasks[l]).setWidth w) ^^^ ((r >>> 2 ^ l) &&& (swapMasks[l]).setWidth w)
    ^^^ ((r &&& (swapMasks[l]).setWidth w) <<< 2 ^ l), fun x => ?_, ?_⟩
  · simp only [swapStep, List.getElem?_eq_getElem hk, List.getElem?_eq_getElem hm]; rfl
  · exact xlin_xor (xlin_xor (xlin_and _) (xlin_comp (xlin_and _) xlin_shr)) (xlin_comp xlin_shl (xlin_and _))

theorem fold_lin {w : ℕ} (ls : List ℕ) (h : ∀ l ∈ ls, l < 6) : ∃ f : BitVec w → BitVec w,
    (∀ x, ls.foldlM (fun r l => swapStep l r) x = some (f x)) ∧ XLin f := by
  induction ls with
  | nil => exact ⟨fun x => x, fun x => rfl, ⟨rfl, fun _ _ => rfl⟩⟩
  | cons l ls ih =>
    obtain ⟨g, hg, lg⟩ := ih fun l hl => h l (by simp [hl])
    obtain ⟨f, hf, lf⟩ := swapStep_lin (w := w) (h l (by simp))
    refine ⟨fun x => g (f x), fun x => ?_, xlin_comp lg lf⟩
    rw [List.foldlM_cons, hf]
    exact hg _

end Spu.Lemmas
