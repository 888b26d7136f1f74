import Verif.Spec.Aby3
import Verif.Lemmas.Share
import Verif.Lemmas.Gates
import Verif.Props.Trunc
import Verif.Props.Aby3Sys
import Mathlib.Tactic.FinCases
import Mathlib.Data.Matrix.Mul

set_option autoImplicit false

/-!
# C27: replicated sharing stays consistent and opens correctly (arithmetic part)
-/

namespace Spu.Props
open Spu.Model Spu.Model.Circ Spu.Model.Aby3 Spu.Model.Aby3.Env Spu.Model.Prg Spu.Spec Spu.Lemmas

section Ring
variable {R : Type} [CommRing R]

theorem total3 {R : Type} [AddCommMonoid R] (f : Fin 3 → R) : total f = f 0 + f 1 + f 2 := by
  rw [total, Fin.sum_univ_three]

theorem repl3 {α : Type} {x : Sh α} : Repl x ↔ x.snd 0 = x.fst 1 ∧ x.snd 1 = x.fst 2 ∧ x.snd 2 = x.fst 0 := by
  constructor
  · intro h; exact ⟨h 0, h 1, h 2⟩
  · rintro ⟨h0, h1, h2⟩ i
    fin_cases i
    · exact h0
    · exact h1
    · exact h2

theorem fin3_cases (s : Fin 3) : s = 0 ∨ s = 1 ∨ s = 2 := by revert s; decide

theorem fin3_role (s i : Fin 3) : i = s ∨ i = s + 1 ∨ i = s + 2 := by revert i s; decide

/-- the sum over the parties, starting anywhere -/
theorem total_role {R : Type} [AddCommMonoid R] (s : Fin 3) (f : Fin 3 → R) : total f = f s + f (s + 1) + f (s + 2) := by
  rw [total3]
  rcases fin3_cases s with rfl | rfl | rfl
  · rfl
  · simp only [show (1 : Fin 3) + 2 = 0 from rfl, show (1 : Fin 3) + 1 = 2 from rfl]; abel
  · simp only [show (2 : Fin 3) + 2 = 1 from rfl, show (2 : Fin 3) + 1 = 0 from rfl]; abel

/-- sharing an input: any random words give a replicated sharing of the value -/
theorem c27_to_shares (v : R) (rnd : Fin 3 → R) : Opens (toSharesA v rnd) v := by
  refine ⟨fun i => rfl, ?_⟩
  rw [total3]
  simp [toSharesA, Semi2k.additiveSplits, List.finRange_succ]
  ring

/-- reconstruction from the parties' shares -/
theorem c27_from_shares {x : Sh R} {X : R} (h : Opens x X) : fromSharesA x = X := by
  rw [← h.2, total3]
  simp [fromSharesA, List.finRange_succ]

/-- opening to everybody: all three parties obtain the value -/
theorem c27_a2p {x : Sh R} {X : R} (h : Opens x X) (i : Fin 3) : a2p x i = X := by
  obtain ⟨h0, h1, h2⟩ := repl3.1 h.1
  rw [← h.2, total3]
  fin_cases i <;> simp [a2p, rotate, h0, h1, h2, show (1 : Fin 3) + 1 = 2 from rfl, show (2 : Fin 3) + 1 = 0 from rfl] <;> ring

/-- opening to one party -/
theorem c27_a2v {x : Sh R} {X : R} (h : Opens x X) (rank i : Fin 3) :
    a2v x rank i = if i = rank then X else 0 := by
  by_cases hi : i = rank
  · subst hi; rw [if_pos rfl, ← c27_a2p h i]; simp [a2v, a2p, rotate]
  · simp [a2v, hi]

theorem c27_p2a (p : R) : Opens (p2a p) p := by
  refine ⟨repl3.2 ⟨?_, ?_, ?_⟩, ?_⟩ <;> simp [p2a, total3]

/-- private input of any owner -/
theorem c27_v2a (owner : Fin 3) (v rnd : R) : Opens (v2a owner v rnd) v := by
  fin_cases owner <;> refine ⟨repl3.2 ⟨?_, ?_, ?_⟩, ?_⟩ <;>
    simp [v2a, total3, Semi2k.additiveSplits, List.finRange_succ,
      show (1 : Fin 3) + 1 = 2 from rfl, show (2 : Fin 3) + 1 = 0 from rfl]

theorem c27_negate {x : Sh R} {X : R} (h : Opens x X) : Opens (negateA x) (-X) := by
  refine ⟨fun i => by simp [negateA, h.1 i], ?_⟩
  rw [← h.2, total3, total3]; simp only [negateA]; ring

theorem c27_addAP {x : Sh R} {X : R} (h : Opens x X) (p : R) : Opens (addAP x p) (X + p) := by
  obtain ⟨h0, h1, h2⟩ := repl3.1 h.1
  refine ⟨repl3.2 ⟨?_, ?_, ?_⟩, ?_⟩
  · simp [addAP, h0]
  · simp [addAP, h1]
  · simp [addAP, h2]
  · rw [← h.2, total3, total3]; simp [addAP]; ring

theorem c27_addAA {x y : Sh R} {X Y : R} (hx : Opens x X) (hy : Opens y Y) :
    Opens (addAA x y) (X + Y) := by
  refine ⟨fun i => by simp [addAA, hx.1 i, hy.1 i], ?_⟩
  rw [← hx.2, ← hy.2, total3, total3, total3]; simp only [addAA]; ring

theorem c27_mulAP {x : Sh R} {X : R} (h : Opens x X) (p : R) : Opens (mulAP x p) (X * p) := by
  refine ⟨fun i => by simp [mulAP, h.1 i], ?_⟩
  rw [← h.2, total3, total3]; simp only [mulAP]; ring

/-- multiplication: correct for all PRSS words that neighbours share -/
theorem c27_mulAA {x y : Sh R} {X Y : R} {r0 r1 : Fin 3 → R} (hx : Opens x X) (hy : Opens y Y)
    (hr : ∀ i, r1 i = r0 (i + 1)) : Opens (mulAA x y r0 r1) (X * Y) := by
  obtain ⟨x0, x1, x2⟩ := repl3.1 hx.1
  obtain ⟨y0, y1, y2⟩ := repl3.1 hy.1
  refine ⟨fun i => rfl, ?_⟩
  have e0 : r1 0 = r0 1 := hr 0
  have e1 : r1 1 = r0 2 := hr 1
  have e2 : r1 2 = r0 0 := hr 2
  rw [← hx.2, ← hy.2, total3, total3, total3]
  simp only [mulAA, x0, x1, x2, y0, y1, y2, e0, e1, e2]
  ring

theorem c27_matMulAP {m k l : ℕ} {x : Sh (Matrix (Fin m) (Fin k) R)} {X : Matrix (Fin m) (Fin k) R}
    (h : Opens x X) (p : Matrix (Fin k) (Fin l) R) : Opens (Aby3.matMulAP x p) (X * p) := by
  refine ⟨fun i => by simp [Aby3.matMulAP, h.1 i], ?_⟩
  rw [← h.2, total3, total3]; simp only [Aby3.matMulAP, Matrix.add_mul]

theorem c27_matMulAA {m k l : ℕ} {x : Sh (Matrix (Fin m) (Fin k) R)} {X : Matrix (Fin m) (Fin k) R}
    {y : Sh (Matrix (Fin k) (Fin l) R)} {Y : Matrix (Fin k) (Fin l) R}
    {r0 r1 : Fin 3 → Matrix (Fin m) (Fin l) R} (hx : Opens x X) (hy : Opens y Y)
    (hr : ∀ i, r1 i = r0 (i + 1)) : Opens (Aby3.matMulAA x y r0 r1) (X * Y) := by
  obtain ⟨x0, x1, x2⟩ := repl3.1 hx.1
  obtain ⟨y0, y1, y2⟩ := repl3.1 hy.1
  refine ⟨fun i => rfl, ?_⟩
  have e0 : r1 0 = r0 1 := hr 0
  have e1 : r1 1 = r0 2 := hr 1
  have e2 : r1 2 = r0 0 := hr 2
  rw [← hx.2, ← hy.2, total3, total3, total3]
  simp only [Aby3.matMulAA, x0, x1, x2, y0, y1, y2, e0, e1, e2, Matrix.add_mul, Matrix.mul_add]
  abel

end Ring

section Word
variable {σ : Type} {Inv : σ → Prop} {E : Env σ} {w : ℕ}

theorem two_eq_one {v : ℕ} {r : Fin 3 → List (ℕ → BitVec v) × List (ℕ → BitVec v)}
    (h : ∀ i, (r i).2 = (r (i + 1)).1) (k : ℕ) (i : Fin 3) : two r k i = one r k (i + 1) := by
  rw [two, one, h]

theorem both_ok (hE : EnvOk3 E Inv) (v : ℕ) :
    Ok Inv (both E v) (fun r => ∀ i, r.2 i = r.1 (i + 1)) :=
  Ok.bind (hE.prss v 1 _ (fun i => by simp [firsts, seconds])) fun _ hr =>
    Ok.pure fun i => by show two _ 0 i 0 = _; rw [two_eq_one hr]

/-- a random share is consistently replicated -/
theorem c27_randA (hE : EnvOk3 E Inv) : Ok Inv (Aby3.randA (w := w) E) (fun x => Repl x) :=
  Ok.bind (both_ok hE w) fun r hr => Ok.pure fun i => by
    show r.2 i >>> 2 = r.1 (i + 1) >>> 2
    rw [hr i]

/-- multiplication with its draws -/
theorem c27_mul (hE : EnvOk3 E Inv) {x y : Sh (BitVec w)} {X Y : BitVec w} (hx : Opens x X) (hy : Opens y Y) :
    Ok Inv (mulAAK E x y) (fun z => Opens z (X * Y)) :=
  Ok.bind (both_ok hE w) fun _ hr => Ok.pure (c27_mulAA hx hy hr)

theorem c27_lshift {x : Sh (BitVec w)} {X : BitVec w} (h : Opens x X) {k : ℕ} (hk : k < w) :
    ∃ z, lshiftA x k = some z ∧ Opens z (X <<< k) := by
  refine ⟨_, if_pos hk, fun i => by simp [h.1 i], ?_⟩
  rw [← h.2, total3, total3]
  simp only [BitVec.shiftLeft_eq_mul_twoPow]
  ring

/-! ### Multiplication by a shared bit -/

/-- a bit as a word -/
theorem and_one_word {v : ℕ} (hv : 0 < v) (x : BitVec v) : (x &&& 1).setWidth w = BitVec.ofNat w (lsb x).toNat := by
  refine BitVec.eq_of_getLsbD_eq fun i hi => ?_
  rw [BitVec.getLsbD_setWidth, BitVec.getLsbD_and, show (1 : BitVec v) = 1#v from rfl, BitVec.getLsbD_one,
    BitVec.getLsbD_ofNat, lsb, Nat.testBit_bool_toNat]
  by_cases h0 : i = 0
  · subst h0; simp [hi, hv]
  · simp [hi, h0]

theorem xor_bits_word (a b : Bool) : BitVec.ofNat w a.toNat ^^^ BitVec.ofNat w b.toNat = BitVec.ofNat w (a ^^ b).toNat := by
  cases a <;> cases b <;> simp

theorem otMasks_sender {s : Fin 3} (o : Fin 3 → List (ℕ → BitVec w) × List (ℕ → BitVec w)) (k : ℕ) :
    otMasks s (s + 1) o s k = two o k s := by
  simp [otMasks, inFrontOf]

theorem otMasks_helper {s : Fin 3} (o : Fin 3 → List (ℕ → BitVec w) × List (ℕ → BitVec w)) (k : ℕ) :
    otMasks s (s + 1) o (s + 1) k = one o k (s + 1) := by
  have : ¬ (s + 1 = s) := by revert s; decide
  simp [otMasks, inFrontOf, this]

theorem ot3_select (m0 m1 w0 w1 : BitVec w) (c : Bool) : ot3 m0 m1 w0 w1 w0 w1 c c = if c then m1 else m0 := by
  cases c <;> simp [ot3, select, BitVec.xor_assoc]

/-- One OT of `MulA1B`: the sender's word times the shared bit, consistently replicated. -/
theorem a1bOt_opens (s : Fin 3) (a : BitVec w) {b : BShr} (hv : 0 < b.v)
    {d o : Fin 3 → List (ℕ → BitVec w) × List (ℕ → BitVec w)} (hb : Repl b.sh)
    (hd : ∀ i, (d i).2 = (d (i + 1)).1) (ho : ∀ i, (o i).2 = (o (i + 1)).1) :
    Opens (a1bOt s a b d o)
      (BitVec.ofNat w (lsb (b.sh.fst 0) ^^ lsb (b.sh.fst 1) ^^ lsb (b.sh.fst 2)).toNat * a) := by
  have h12 : s + 1 + 1 = s + 2 := by revert s; decide
  have h20 : s + 2 + 1 = s := by revert s; decide
  have n10 : s + 1 ≠ s := by revert s; decide
  have n20 : s + 2 ≠ s := by revert s; decide
  have n21 : s + 2 ≠ s + 1 := by revert s; decide
  have hch : lsb (b.sh.snd (s + 1)) = lsb (b.sh.fst (s + 2)) := by rw [hb (s + 1), h12]
  set c := lsb (b.sh.fst (s + 2)) with hc
  have hmsg : ∀ m : Bool, a1bMsg s a b (one d 0 s 0) (two d 0 s 0) (BitVec.ofNat w m.toNat) =
      BitVec.ofNat w (m ^^ lsb (b.sh.fst s) ^^ lsb (b.sh.fst (s + 1))).toNat * a - one d 0 s 0 - two d 0 s 0 := by
    intro m
    rw [a1bMsg, and_one_word hv, and_one_word hv, xor_bits_word, xor_bits_word, hb s]
  have hcc : ot3 (a1bMsg s a b (one d 0 s 0) (two d 0 s 0) 0) (a1bMsg s a b (one d 0 s 0) (two d 0 s 0) 1)
      (otMasks s (s + 1) o s 0 0) (otMasks s (s + 1) o s 1 0) (otMasks s (s + 1) o (s + 1) 0 0)
      (otMasks s (s + 1) o (s + 1) 1 0) (lsb (b.sh.snd (s + 1))) (lsb (b.sh.fst (s + 2))) =
      BitVec.ofNat w (lsb (b.sh.fst 0) ^^ lsb (b.sh.fst 1) ^^ lsb (b.sh.fst 2)).toNat * a
        - one d 0 s 0 - two d 0 s 0 := by
    simp only [otMasks_sender, otMasks_helper]
    rw [two_eq_one ho, two_eq_one ho, hch, ← hc, ot3_select]
    have e0 := hmsg false
    have e1 := hmsg true
    rw [show BitVec.ofNat w false.toNat = (0 : BitVec w) from rfl] at e0
    rw [show BitVec.ofNat w true.toNat = (1 : BitVec w) from rfl] at e1
    rw [e0, e1]
    have hp : (lsb (b.sh.fst 0) ^^ lsb (b.sh.fst 1) ^^ lsb (b.sh.fst 2)) = (c ^^ lsb (b.sh.fst s) ^^ lsb (b.sh.fst (s + 1))) := by
      rw [hc]
      rcases fin3_cases s with rfl | rfl | rfl
      · show _ = (lsb (b.sh.fst 2) ^^ lsb (b.sh.fst 0) ^^ lsb (b.sh.fst 1))
        cases lsb (b.sh.fst 0) <;> cases lsb (b.sh.fst 1) <;> cases lsb (b.sh.fst 2) <;> rfl
      · rfl
      · simp only [show (2 : Fin 3) + 2 = 1 from rfl, show (2 : Fin 3) + 1 = 0 from rfl]
        cases lsb (b.sh.fst 0) <;> cases lsb (b.sh.fst 1) <;> cases lsb (b.sh.fst 2) <;> rfl
    rw [hp]
    cases c <;> rfl
  have e1 : one d 0 (s + 1) = two d 0 s := (two_eq_one hd 0 s).symm
  have e2 : two d 0 (s + 2) = one d 0 s := by rw [two_eq_one hd, h20]
  constructor
  · intro i
    rcases fin3_role s i with rfl | rfl | rfl
    · simp only [a1bOt, if_pos, n10, if_false, e1]
    · simp only [a1bOt, n10, n20, n21, h12, if_false, if_true]
    · simp only [a1bOt, n20, n21, h20, if_false, if_true, e2]
  · rw [total_role s]
    simp only [a1bOt, n10, n20, n21, if_false, if_true, e1]
    rw [hcc]
    ring

theorem fits_a1b (s : Fin 3) : Fits (a1bScript s) := by
  intro i; revert i s; decide

theorem fits_ot (s : Fin 3) : Fits (otScript s (s + 1)) := by
  intro i; revert i s; decide

/-- multiplication of an arithmetic share by a shared bit through two OTs -/
theorem c27_mulA1B (hE : EnvOk3 E Inv) (hw : 0 < w) {x : Sh (BitVec w)} {X : BitVec w} {b : BShr} (hx : Opens x X)
    (hb : Repl b.sh) (hv : 0 < b.v) (hn : b.nb = 1) :
    Ok Inv (mulA1B E x b) (fun z => Opens z
      (X * BitVec.ofNat w (lsb (b.sh.fst 0) ^^ lsb (b.sh.fst 1) ^^ lsb (b.sh.fst 2)).toNat)) := by
  refine Ok.enforce (by simp [hn]) (Ok.enforce (by simp [hn]; omega) ?_)
  refine Ok.bind (hE.prss _ _ _ (fits_a1b 0)) fun d1 h1 => Ok.bind (hE.prss _ _ _ (fits_a1b 2)) fun d2 h2 =>
    Ok.bind (hE.prss _ _ _ (fits_ot 0)) fun o1 g1 => Ok.bind (hE.prss _ _ _ (fits_ot 2)) fun o2 g2 => Ok.pure ?_
  have := c27_addAA (a1bOt_opens 0 (x.snd 0) hv hb h1 g1) (a1bOt_opens 2 (x.fst 2 + x.snd 2) hv hb h2 g2)
  obtain ⟨x0, x1, x2⟩ := repl3.1 hx.1
  refine ⟨this.1, this.2.trans ?_⟩
  rw [← hx.2, total3, x0, x2]
  ring

end Word

/-! ### Examples: 8-bit words, the session `aby3DemoEnv` -/

/-- a sharing of 38 -/
def aby3DemoX : Sh (BitVec 8) := toSharesA 38 ![100, 200, 0]
/-- a sharing of 7 -/
def aby3DemoY : Sh (BitVec 8) := toSharesA 7 ![30, 60, 0]

example : Opens aby3DemoX 38 := c27_to_shares _ _
example : showSh aby3DemoX = [(94, 200), (200, 0), (0, 94)] := by decide +kernel
example : fromSharesA aby3DemoX = 38 := c27_from_shares (c27_to_shares _ _)
example : (List.ofFn (a2p aby3DemoX)).map BitVec.toNat = [38, 38, 38] := by decide +kernel
example : (List.ofFn (a2v aby3DemoX 1)).map BitVec.toNat = [0, 38, 0] := by decide +kernel
example : showSh (p2a (9 : BitVec 8)) = [(9, 0), (0, 0), (0, 9)] := by decide +kernel
example : showSh (v2a 1 (9 : BitVec 8) 100) = [(0, 165), (165, 100), (100, 0)] := by decide +kernel
example : Opens (addAP (negateA aby3DemoX) 5) (-38 + 5) := c27_addAP (c27_negate (c27_to_shares _ _)) 5
example : Opens (addAA aby3DemoX (mulAP aby3DemoY 3)) (38 + 7 * 3) :=
  c27_addAA (c27_to_shares _ _) (c27_mulAP (c27_to_shares _ _) 3)
example : ((mulAAK aby3DemoEnv aby3DemoX aby3DemoY aby3DemoStart).map
    (fun p => (List.ofFn (a2p p.1)).map BitVec.toNat)) = some [10, 10, 10] := by decide +kernel
example : ((randA aby3DemoEnv aby3DemoStart).map (fun p : Sh (BitVec 8) × _ =>
    decide (p.1.snd 0 = p.1.fst 1 ∧ p.1.snd 1 = p.1.fst 2 ∧ p.1.snd 2 = p.1.fst 0))) = some true := by decide +kernel
example : ((lshiftA aby3DemoX 2).map (fun p => (List.ofFn (a2p p)).map BitVec.toNat)) = some [152, 152, 152] := by
  decide +kernel
example : ∃ b : BShr, Repl b.sh ∧ 0 < b.v ∧ b.nb = 1 ∧
    ((mulA1B aby3DemoEnv aby3DemoX b aby3DemoStart).map
      (fun p => (List.ofFn (a2p p.1)).map BitVec.toNat)) = some [38, 38, 38] :=
  ⟨⟨8, 1, ⟨![1, 1, 1], ![1, 1, 1]⟩⟩, by unfold Repl; decide, by decide, rfl, by decide +kernel⟩
/-- a sharing of the 2 × 2 matrix with all entries 6 -/
def aby3DemoM : Sh (Matrix (Fin 2) (Fin 2) (BitVec 8)) :=
  ⟨![fun _ _ => 1, fun _ _ => 2, fun _ _ => 3], ![fun _ _ => 2, fun _ _ => 3, fun _ _ => 1]⟩
/-- a public matrix -/
def aby3DemoP : Matrix (Fin 2) (Fin 2) (BitVec 8) := fun i j => ![![1, 2], ![3, 4]] i j
/-- what `aby3DemoM` opens to -/
def aby3DemoMV : Matrix (Fin 2) (Fin 2) (BitVec 8) := fun _ _ => 6
theorem aby3DemoM_opens : Opens aby3DemoM aby3DemoMV :=
  ⟨fun i => by rcases fin3_cases i with rfl | rfl | rfl <;> rfl, by rw [total3]; rfl⟩
example : Opens (Aby3.matMulAP aby3DemoM aby3DemoP) (aby3DemoMV * aby3DemoP) :=
  c27_matMulAP aby3DemoM_opens _
example : Opens (Aby3.matMulAA aby3DemoM aby3DemoM ![aby3DemoP, 0, 0] ![0, 0, aby3DemoP])
    (aby3DemoMV * aby3DemoMV) :=
  c27_matMulAA aby3DemoM_opens aby3DemoM_opens
    (fun i => by rcases fin3_cases i with rfl | rfl | rfl <;> rfl)

/-- C44: three shifted words can add up to a value outside the documented range -/
theorem c44_aby3_rand_counterexample : ∃ (s : Fin 3 → St ℕ) (x : Sh (BitVec 8)) (s' : Fin 3 → St ℕ),
    Sync s ∧ randA (w := 8) (Aby3.sysEnv ⟨fun seed c _ => (seed + c, c + 1)⟩ (fun v o _ => BitVec.ofNat v o)) s =
      some (x, s') ∧ Opens x (BitVec.ofNat 8 189) ∧ ¬ ((BitVec.ofNat 8 189).toInt ≥ -2 ^ 6) := by
  refine ⟨Prg.init 0 0 (fun _ => 255), _, _, aby3_start_ok _ _ _, rfl, ⟨fun i => ?_, by decide +kernel⟩, by decide⟩
  rcases fin3_cases i with rfl | rfl | rfl <;> rfl

end Spu.Props
