import Verif.Spec.SnnKernels
import Verif.Props.Semi2kConv
import Verif.Props.Semi2kProg
import Verif.Props.Trunc
import Verif.Props.Securenn

set_option autoImplicit false
set_option linter.unusedSectionVars false

/-!
# C65: the SecureNN kernels compute on what is shared
-/

namespace Spu.Props
open Spu.Model Spu.Model.Circ Spu.Model.Semi2kConv Spu.Model.SnnK Spu.Spec Spu.Lemmas

namespace SnnK

variable {w : ℕ} {g : Gen}

/-! ### draws -/

/-- whoever draws from its own stream is accompanied by its predecessor -/
def Paired (d : Fin 3 → Ctrl) : Prop := ∀ i, (d i).snd = (d (i + 1)).fst

theorem paired_both : Paired fun _ => .both := fun _ => rfl
theorem paired_ab : Paired ctrlAB := by unfold Paired; decide
theorem paired_c : Paired ctrlC := by unfold Paired; decide

theorem draw_ok (v : ℕ) {d : Fin 3 → Ctrl} (hd : Paired d) :
    Ok InStep (draw g v d) (fun r => ∀ i, r.2 i = r.1 (i + 1)) := by
  intro s hs
  refine ⟨_, _, rfl, fun i => ?_, fun i => ?_⟩
  · simp only [hd i, hs i]
  · simp only [hd i, hs i]

theorem genPriv_ok (v : ℕ) : Ok InStep (genPriv g v) (fun _ => True) := fun s hs => ⟨_, _, rfl, hs, trivial⟩

theorem snnTotal {R : Type*} [AddCommMonoid R] (x : Fin 3 → R) : total x = x 0 + x 1 + x 2 := by
  unfold total; rw [Fin.sum_univ_three]

theorem snnXorAll (x : Fin 3 → BitVec w) : xorAll x = x 0 ^^^ (x 1 ^^^ x 2) := by
  show x 0 ^^^ (x 1 ^^^ (x 2 ^^^ 0)) = _
  simp

theorem total_move (x : Fin 3 → BitVec w) : SnnRep (moveShare x) (total x) := by
  rw [snnTotal]
  exact ⟨by show x 0 + x 2 + x 1 = _; ring, rfl⟩

theorem snnRep_total {s : Fin 3 → BitVec w} {x : BitVec w} (h : SnnRep s x) : total s = x := by
  rw [snnTotal, h.2, add_zero, h.1]

theorem and_ok (v : ℕ) : Ok InStep (andTriple g v) (fun t => xorAll t.2.2 = xorAll t.1 &&& xorAll t.2.1) := by
  refine Ok.bind (draw_ok v paired_ab) fun ⟨a0, a1⟩ ha => Ok.bind (draw_ok v paired_ab) fun ⟨b0, b1⟩ hb =>
    Ok.bind (draw_ok v paired_c) fun ⟨c0, c1⟩ hc => Ok.pure ?_
  have e1 : a1 1 = a0 2 := ha 1
  have e2 : a1 2 = a0 0 := ha 2
  have e3 : b1 1 = b0 2 := hb 1
  have e4 : b1 2 = b0 0 := hb 2
  have e5 : c1 2 = c0 0 := hc 2
  rw [snnXorAll, snnXorAll, snnXorAll]
  show c0 0 ^^^ (((a1 2 ^^^ a0 2) &&& (b1 2 ^^^ b0 2)) ^^^ c1 2 ^^^ 0) = (a0 0 ^^^ (a1 1 ^^^ 0)) &&& (b0 0 ^^^ (b1 1 ^^^ 0))
  rw [e1, e2, e3, e4, e5, BitVec.xor_comm _ (c0 0)]
  simp [← BitVec.xor_assoc]

theorem randBits_total (bit : ℕ → Bool) (k : ℕ) :
    Ok InStep (snnRandBits (w := w) g bit k) (fun r => ∀ j, total (r j) = BitVec.ofNat w (bit j).toNat) := by
  refine Ok.bind (Ok.mapM (R := fun _ _ => True) (fun _ => genPriv_ok w) (List.range k)) fun rs _ => Ok.pure fun j => ?_
  rw [snnTotal]
  show (rs.getD j (fun _ => 0)) 0 + (BitVec.ofNat w (bit j).toNat - (_ + _ + _)) + (rs.getD j (fun _ => 0)) 1 + (rs.getD j (fun _ => 0)) 2 = _
  ring

/-- **the sources of randomness are what the conversions and the boolean kernels need** -/
theorem c65_env_ok (bit : ℕ → Bool) : EnvOk (snnEnv (w := w) g bit) InStep where
  prss := draw_ok w paired_both
  priv := genPriv_ok w
  publ := Ok.pure fun _ _ => rfl
  andT := and_ok
  randBits k := Ok.imp (randBits_total bit k) fun r hr j _ => by
    rw [hr j]; cases bit j
    · left; rfl
    · right; rfl
  eqz := Ok.pure (by rw [snnTotal, snnXorAll]; simp)

end SnnK
open SnnK

variable {w : ℕ} {g : Gen} {bit : ℕ → Bool}

/-- every boolean program on SecureNN shares computes what its plain meaning is -/
theorem c65_boolean {M : ℕ} (hwM : w = 2 ^ M) (h128 : w ≤ 128) (ops : List (BOp w)) (hv : ∀ op ∈ ops, BOp.Valid op)
    {s s' : Sys} (hs : InStep s) {regs : List (BShr 3 w)} (h : runB (snnEnv g bit) ops s = some (regs, s')) :
    InStep s' ∧ ∃ vals, BTrace ops vals ∧ List.Forall₂ (fun a p => BRep a p.1 ∧ a.nb = p.2) regs vals :=
  c26_programs (c65_env_ok bit) hwM h128 ops hv hs h

theorem c65_a2b {M : ℕ} (hwM : w = 2 ^ M) (hw : 1 < w) (h128 : w ≤ 128) (x : Fin 3 → BitVec w) :
    Ok InStep (a2b (snnEnv g bit) x) (fun c => BRep c (total x) ∧ c.nb = w) :=
  c25_a2b (c65_env_ok bit) hwM hw h128 x

theorem c65_b2a {M : ℕ} (hwM : w = 2 ^ M) (hw : 1 < w) (h128 : w ≤ 128) {a : BShr 3 w}
    {x : BitVec w} (ha : BRep a x) (hnb : a.nb = w) : Ok InStep (snnB2A g bit a) (fun s => SnnRep s x) :=
  Ok.bind (c25_b2a (c65_env_ok bit) hwM hw h128 ha hnb) fun r hr => Ok.pure (hr ▸ total_move r)

theorem c65_b2a_randbit (hw : 0 < w) {a : BShr 3 w} {x : BitVec w} (ha : BRep a x) :
    Ok InStep (snnB2ARandbit g bit a) (fun s => SnnRep s x) := by
  refine Ok.enforce (by simpa using ha.2.2) ?_
  by_cases h0 : a.nb = 0
  · rw [if_pos h0]
    refine Ok.pure ?_
    have h1 := ha.2.1
    rw [h0] at h1
    have : x = 0 := BitVec.eq_of_toNat_eq (by simpa using h1)
    rw [this]; exact ⟨by simp, rfl⟩
  · rw [if_neg h0]
    refine Ok.bind ((c65_env_ok (w := w) (g := g) bit).randBits a.nb) fun r hr => Ok.pure ?_
    have e : (fun i : Fin 3 => (List.range a.nb).foldl (fun (acc : BitVec w) b =>
        let c : BitVec w := bitAt (openXor a w r i) b
        if i = 0 then acc + ((c + (1 - c * 2) * r b i) <<< b)
        else acc + (((1 - c * 2) * r b i) <<< b)) 0)
        = fun i => ∑ q ∈ Finset.range a.nb, bitShare (fun i => bitAt (openXor a w r i) q) (r q) i <<< q := by
      funext i
      rw [← foldl_add_range]
      congr 1
      funext acc q
      unfold bitShare
      by_cases h : i = 0
      · simp only [h, if_true]
      · simp only [h, if_false]
    have ht : total (fun i : Fin 3 => (List.range a.nb).foldl (fun (acc : BitVec w) b =>
        let c : BitVec w := bitAt (openXor a w r i) b
        if i = 0 then acc + ((c + (1 - c * 2) * r b i) <<< b)
        else acc + (((1 - c * 2) * r b i) <<< b)) 0) = x := by
      refine Eq.trans (congrArg total e) ?_
      unfold total
      rw [Finset.sum_comm]
      refine Eq.trans (Finset.sum_congr rfl fun q hq => ?_) (bits_sum_eq ha.2.1)
      rw [Finset.mem_range] at hq
      simp only [shiftLeft_eq_mul]
      rw [← Finset.sum_mul]
      congr 1
      exact bitShare_total ha hw ha.2.2 r hq (hr q hq)
    have hm := total_move (fun i : Fin 3 => (List.range a.nb).foldl (fun (acc : BitVec w) b =>
        let c : BitVec w := bitAt (openXor a w r i) b
        if i = 0 then acc + ((c + (1 - c * 2) * r b i) <<< b)
        else acc + (((1 - c * 2) * r b i) <<< b)) 0)
    rw [ht] at hm
    exact hm

/-! ### arithmetic -/

theorem c65_v2a (o : Fin 3) (x : BitVec w) : Ok InStep (SnnK.v2a g o x) (fun s => SnnRep s x) := by
  refine Ok.bind (draw_ok w paired_both) fun ⟨r0, r1⟩ hr => ?_
  have e0 : r1 0 = r0 1 := hr 0
  have e1 : r1 1 = r0 2 := hr 1
  have e2 : r1 2 = r0 0 := hr 2
  dsimp only
  by_cases ho : o = 2
  · rw [if_pos ho]
    refine Ok.pure ⟨?_, rfl⟩
    show r0 0 - r1 0 + (r0 2 - r1 2 + x) + (r0 1 - r1 1) = x
    rw [e0, e1, e2]; ring
  · rw [if_neg ho]
    refine Ok.pure ?_
    have : o = 0 ∨ o = 1 := by revert ho; revert o; decide
    rcases this with rfl | rfl
    · refine ⟨?_, rfl⟩
      show r1 0 + x + -(r0 1) = x
      rw [e0]; ring
    · refine ⟨?_, rfl⟩
      show r1 0 + (-(r0 1) + x) = x
      rw [e0]; ring

theorem c65_p2a (p : BitVec w) : Ok InStep (SnnK.p2a g p) (fun s => SnnRep s p) := by
  refine Ok.bind (draw_ok w paired_both) fun ⟨r0, r1⟩ hr => Ok.pure ⟨?_, rfl⟩
  have e0 : r1 0 = r0 1 := hr 0
  show r1 0 + (p - r0 1) = p
  rw [e0]; ring

/-- opening, to one party or to all, gives what all three shares sum to -/
theorem c65_open (x : Fin 3 → BitVec w) : a2v x = total x ∧ ∀ i, SnnK.a2p x i = total x :=
  ⟨by unfold a2v; rw [gatherSum_add, zero_add], fun i => by unfold SnnK.a2p; rw [allReduce_add]⟩

theorem c65_io (x r : BitVec w) : SnnRep (toShares x r) x :=
  ⟨by show r + (x - r) = x; ring, by show r - r = 0; ring⟩

/-- **`MulAA`** multiplies what ranks 0 and 1 share; rank 2 holds zero. -/
theorem c65_mul (x y : Fin 3 → BitVec w) :
    Ok InStep (SnnK.mulAA g x y) (fun z => SnnRep z ((x 0 + x 1) * (y 0 + y 1))) := by
  refine Ok.bind (draw_ok w paired_ab) fun ⟨a0, a1⟩ ha => Ok.bind (draw_ok w paired_ab) fun ⟨b0, b1⟩ hb =>
    Ok.bind (draw_ok w paired_c) fun ⟨c0, c1⟩ hc => Ok.bind (draw_ok w paired_both) fun ⟨r0, r1⟩ hr => Ok.pure ⟨?_, rfl⟩
  have e1 : a1 1 = a0 2 := ha 1
  have e2 : a1 2 = a0 0 := ha 2
  have e3 : b1 1 = b0 2 := hb 1
  have e4 : b1 2 = b0 0 := hb 2
  have e5 : c1 2 = c0 0 := hc 2
  have e6 : r1 0 = r0 1 := hr 0
  show (x 0 - a0 0 + (x 1 - a1 1)) * b0 0 + (y 0 - b0 0 + (y 1 - b1 1)) * a0 0 + c0 0
        + (x 0 - a0 0 + (x 1 - a1 1)) * (y 0 - b0 0 + (y 1 - b1 1)) - r1 0
      + ((x 1 - a1 1 + (x 0 - a0 0)) * b1 1 + (y 1 - b1 1 + (y 0 - b0 0)) * a1 1 + ((a1 2 + a0 2) * (b1 2 + b0 2) - c1 2) + r0 1) = _
  rw [e1, e2, e3, e4, e5, e6]
  generalize a0 0 = A0, a0 2 = A1, b0 0 = B0, b0 2 = B1, c0 0 = C, r0 1 = R
  ring

/-- a factor of which rank 2 holds a share is not multiplied as a whole -/
theorem c65_mul_rand {y : Fin 3 → BitVec w} {v : BitVec w} (hy : SnnRep y v) :
    Ok InStep (SnnK.randA g >>= fun x => SnnK.mulAA g x y >>= fun z => pure (x, z))
      (fun p => total p.2 = (total p.1 - p.1 2) * v) := by
  refine Ok.bind (P := fun _ => True) ?_ fun x _ => Ok.bind (c65_mul x y) fun z hz => Ok.pure ?_
  · exact Ok.bind (genPriv_ok w) fun r _ => Ok.pure trivial
  · show total z = (total x - x 2) * v
    rw [snnRep_total hz, snnTotal, hy.1]; ring

/-- **`MatMulAA`** -/
theorem c65_matmul {l m n : ℕ} (x : Fin 3 → Matrix (Fin l) (Fin m) (BitVec w)) (y : Fin 3 → Matrix (Fin m) (Fin n) (BitVec w)) :
    Ok InStep (SnnK.matMulAA g x y) (fun z => z 0 + z 1 = (x 0 + x 1) * (y 0 + y 1) ∧ z 2 = 0) := by
  have dm : ∀ {m n : ℕ} {d : Fin 3 → Ctrl}, Paired d → Ok InStep (drawMat g w m n d) (fun r => ∀ i, r.2 i = r.1 (i + 1)) :=
    fun hd => Ok.bind (draw_ok _ hd) fun ⟨r0, r1⟩ hr => Ok.pure fun i => by
      have h : r1 i = r0 (i + 1) := hr i
      funext p q
      show BitVec.extractLsb' _ w (r1 i) = BitVec.extractLsb' _ w (r0 (i + 1))
      rw [h]
  refine Ok.bind (dm paired_ab) fun ⟨a0, a1⟩ ha => Ok.bind (dm paired_ab) fun ⟨b0, b1⟩ hb =>
    Ok.bind (dm paired_c) fun ⟨c0, c1⟩ hc => Ok.bind (dm paired_both) fun ⟨r0, r1⟩ hr => Ok.pure ⟨?_, rfl⟩
  have e1 : a1 1 = a0 2 := ha 1
  have e2 : a1 2 = a0 0 := ha 2
  have e3 : b1 1 = b0 2 := hb 1
  have e4 : b1 2 = b0 0 := hb 2
  have e5 : c1 2 = c0 0 := hc 2
  have e6 : r1 0 = r0 1 := hr 0
  show (x 0 - a0 0 + (x 1 - a1 1)) * b0 0 + a0 0 * (y 0 - b0 0 + (y 1 - b1 1)) + c0 0
        + (x 0 - a0 0 + (x 1 - a1 1)) * (y 0 - b0 0 + (y 1 - b1 1)) - r1 0
      + ((x 1 - a1 1 + (x 0 - a0 0)) * b1 1 + a1 1 * (y 1 - b1 1 + (y 0 - b0 0)) + ((a1 2 + a0 2) * (b1 2 + b0 2) - c1 2) + r0 1) = _
  rw [e1, e2, e3, e4, e5, e6]
  generalize a0 0 = A0, a0 2 = A1, b0 0 = B0, b0 2 = B1, c0 0 = C, r0 1 = R
  simp only [Matrix.add_mul, Matrix.mul_add, Matrix.sub_mul, Matrix.mul_sub]
  abel

/-- **`TruncAPr`** divides by `2^m` and rounds down or up; exact multiples are divided exactly. -/
theorem c65_trunc (hw : 2 ≤ w) (x : Fin 3 → BitVec w) (m : ℕ) (hm : m ≤ w - 2)
    (hlo : -2 ^ (w - 2) ≤ (total x).toInt) (hhi : (total x).toInt < 2 ^ (w - 2)) :
    Ok InStep (SnnK.truncAPr g x m) (fun z => z 2 = 0 ∧
      (SnnRep z (BitVec.ofInt w ((total x).toInt / 2 ^ m)) ∨ SnnRep z (BitVec.ofInt w ((total x).toInt / 2 ^ m + 1))) ∧
      (((2 : ℤ) ^ m) ∣ (total x).toInt → SnnRep z (BitVec.ofInt w ((total x).toInt / 2 ^ m)))) := by
  refine Ok.bind (genPriv_ok w) fun r _ => Ok.bind (genPriv_ok w) fun rc _ => Ok.bind (genPriv_ok w) fun rb _ => Ok.pure ?_
  have h1 : total (truncPair r rc rb m).1 = (total r <<< 1) >>> (m + 1) := by
    have := total_ite_add (0 : Fin 3) rc (fun _ => (total r <<< 1) >>> (m + 1) - total rc)
    unfold truncPair
    simp only [gatherSum_add, zero_add]
    rw [this]; ring
  have h2 : total (truncPair r rc rb m).2 = total r >>> (w - 1) := by
    have := total_ite_add (0 : Fin 3) rb (fun _ => total r >>> (w - 1) - total rb)
    unfold truncPair
    simp only [gatherSum_add, zero_add]
    rw [this]; ring
  have h := c24_truncPr_error hw x r _ _ m hm h1 h2 hlo hhi
  have hmv := total_move (Semi2k.truncAPr x r (truncPair r rc rb m).1 (truncPair r rc rb m).2 m)
  refine ⟨rfl, h.1.imp (fun e => ?_) (fun e => ?_), fun hd => ?_⟩
  · rw [e] at hmv; exact hmv
  · rw [e] at hmv; exact hmv
  · rw [h.2 hd] at hmv; exact hmv

/-- the sign of a value within a quarter of the ring, as a boolean share: `Msb_a2b` including `A2B` -/
theorem c65_msb {k M : ℕ} (hkM : k = 2 ^ M) (hk : 15 ≤ k) (hk' : k ≤ 128) (S : Snn.ScRand k) (R : Snn.MsbRand k)
    (hS : ScOk S) (hR : MsbOk R) (a : Fin 2 → BitVec k) (hr : S.r 0 + S.r 1 ≠ 0) (hl : ¬ ScLost S fun j => a j + a j)
    (hz : (2 * (2 * (a 0 + a 1).toNat % 2 ^ k) + R.x.toNat) % (2 ^ k - 1) ≠ 0)
    (hlo : -2 ^ (k - 2) ≤ (a 0 + a 1).toInt) (hhi : (a 0 + a 1).toInt < 2 ^ (k - 2)) :
    Ok InStep (a2b (snnEnv g bit) ![Snn.msbA2B S R a 0, Snn.msbA2B S R a 1, 0])
      (fun c => BRep c (if (a 0 + a 1).toInt < 0 then 1 else 0)) := by
  refine Ok.imp (c65_a2b hkM (by omega) hk' _) fun c hc => ?_
  have h := (c64_msb_a2b_iff hk hk' S R hS hR a hr hl hz).2 ⟨hlo, hhi⟩
  have e : total ![Snn.msbA2B S R a 0, Snn.msbA2B S R a 1, 0] = if (a 0 + a 1).toInt < 0 then 1 else 0 := by
    rw [snnTotal]
    show Snn.msbA2B S R a 0 + Snn.msbA2B S R a 1 + 0 = _
    rw [add_zero]
    apply BitVec.eq_of_toNat_eq
    rw [h]
    split_ifs
    · exact (BitVec.toNat_one (by omega)).symm
    · rfl
  rw [← e]; exact hc.1

/-! ### programs -/

theorem snnCall_ok (hw : 2 ≤ w) {regs : List (Fin 3 → BitVec w)} {vals : List (BitVec w)} (h : List.Forall₂ SnnRep regs vals)
    (op : AOp w) (ho : SnnReads regs.length op) :
    Ok InStep (AOp.call g regs op) (fun s => ∃ v, SnnRep s v ∧ SnnSem vals op v) := by
  have get : ∀ i, i < regs.length → ∃ s v, regs[i]? = some s ∧ vals[i]? = some v ∧ SnnRep s v := by
    intro i hi
    have hl := h.length_eq
    refine ⟨regs[i], vals[i]'(by omega), by simp [hi], by simp [← hl, hi], ?_⟩
    exact (List.forall₂_iff_get.1 h).2 i hi (by omega)
  cases op with
  | v2a o x => exact Ok.imp (c65_v2a o x) fun s hs => ⟨x, hs, .v2a⟩
  | p2a p => exact Ok.imp (c65_p2a p) fun s hs => ⟨p, hs, .p2a⟩
  | neg i =>
    obtain ⟨s, v, h1, h2, h3⟩ := get i ho
    refine ok_opt h1 (Ok.pure ⟨-v, ⟨?_, ?_⟩, .neg h2⟩)
    · show -(s 0) + -(s 1) = -v
      rw [← h3.1]; ring
    · show -(s 2) = 0
      rw [h3.2]; ring
  | addAA i j =>
    obtain ⟨s, v, h1, h2, h3⟩ := get i ho.1
    obtain ⟨s', v', h1', h2', h3'⟩ := get j ho.2
    refine ok_opt h1 (ok_opt h1' (Ok.pure ⟨v + v', ⟨?_, ?_⟩, .addAA h2 h2'⟩))
    · show s 0 + s' 0 + (s 1 + s' 1) = _
      rw [← h3.1, ← h3'.1]; ring
    · show s 2 + s' 2 = 0
      rw [h3.2, h3'.2]; ring
  | addAP i p =>
    obtain ⟨s, v, h1, h2, h3⟩ := get i ho
    refine ok_opt h1 (Ok.pure ⟨v + p, ⟨?_, ?_⟩, .addAP h2⟩)
    · show s 0 + p + s 1 = _
      rw [← h3.1]; ring
    · show s 2 = 0
      exact h3.2
  | mulAA i j =>
    obtain ⟨s, v, h1, h2, h3⟩ := get i ho.1
    obtain ⟨s', v', h1', h2', h3'⟩ := get j ho.2
    refine ok_opt h1 (ok_opt h1' (Ok.imp (c65_mul s s') fun z hz => ⟨v * v', ?_, .mulAA h2 h2'⟩))
    rw [← h3.1, ← h3'.1]; exact hz
  | mulAP i p =>
    obtain ⟨s, v, h1, h2, h3⟩ := get i ho
    refine ok_opt h1 (Ok.pure ⟨v * p, ⟨?_, ?_⟩, .mulAP h2⟩)
    · show s 0 * p + s 1 * p = _
      rw [← h3.1]; ring
    · show s 2 * p = 0
      rw [h3.2]; ring
  | lshift i k =>
    obtain ⟨s, v, h1, h2, h3⟩ := get i ho
    have sh : ∀ x : BitVec w, x <<< k = x * BitVec.ofNat w (2 ^ k) := fun x => by
      rw [shiftLeft_eq_mul, show ((2 : ℤ) ^ k) = ((2 ^ k : ℕ) : ℤ) by push_cast; rfl, BitVec.ofInt_natCast]
    refine ok_opt h1 (Ok.pure ⟨_, ⟨?_, ?_⟩, .lshift h2⟩)
    · show s 0 <<< k + s 1 <<< k = _
      rw [sh, sh, ← h3.1]; ring
    · show s 2 <<< k = 0
      rw [h3.2, sh]; ring
  | trunc i m =>
    obtain ⟨s, v, h1, h2, h3⟩ := get i ho
    refine ok_opt h1 ?_
    by_cases hr : (-2 ^ (w - 2) ≤ v.toInt ∧ v.toInt < 2 ^ (w - 2)) ∧ m ≤ w - 2
    · have ht := snnRep_total h3
      refine Ok.imp (c65_trunc hw s m hr.2 (by rw [ht]; exact hr.1.1) (by rw [ht]; exact hr.1.2)) fun z hz => ?_
      rw [ht] at hz
      rcases hz.2.1 with hz | hz
      · exact ⟨_, hz, .trunc h2 fun _ _ _ => .inl rfl⟩
      · exact ⟨_, hz, .trunc h2 fun _ _ _ => .inr rfl⟩
    · refine Ok.bind (genPriv_ok w) fun r _ => Ok.bind (genPriv_ok w) fun rc _ => Ok.bind (genPriv_ok w) fun rb _ => Ok.pure
        ⟨_, total_move _, .trunc h2 fun a b c => absurd ⟨⟨a, b⟩, c⟩ hr⟩

/-- **Every program of arithmetic kernels runs, computes its plain meaning, and leaves rank 2 with zero shares and the
generators in step.** -/
theorem c65_program (hw : 2 ≤ w) (ops : List (AOp w)) (ho : ∀ i (h : i < ops.length), SnnReads i ops[i]) :
    Ok InStep (runA g ops) (fun regs => ∃ vals, SnnTrace ops vals ∧ List.Forall₂ SnnRep regs vals) := by
  induction ops using List.reverseRecOn with
  | nil => exact Ok.pure ⟨[], .nil, .nil⟩
  | append_singleton ops op ih =>
    have hi := ih fun i h => by
      have := ho i (by rw [List.length_append]; omega)
      rwa [List.getElem_append_left h] at this
    unfold runA at hi ⊢
    rw [List.foldlM_append]
    -- the number of registers is the number of calls
    have tl : ∀ {l : List (AOp w)} {vs : List (BitVec w)}, SnnTrace l vs → l.length = vs.length := by
      intro l vs h
      induction h with
      | nil => rfl
      | snoc _ _ ih => simp [ih]
    refine Ok.bind hi fun regs ⟨vals, ht, hf⟩ => ?_
    have hlen : regs.length = ops.length := by rw [hf.length_eq, tl ht]
    have hop := ho ops.length (by simp)
    rw [List.getElem_append_right (le_refl _)] at hop
    simp only [Nat.sub_self, List.getElem_cons_zero] at hop
    rw [List.foldlM_cons]
    refine Ok.bind (P := fun rs => ∃ vals, SnnTrace (ops ++ [op]) vals ∧ List.Forall₂ SnnRep rs vals) ?_ fun rs h => Ok.pure h
    refine Ok.bind (snnCall_ok hw hf op (by rw [hlen]; exact hop)) fun s ⟨v, hs, hv⟩ => Ok.pure ?_
    exact ⟨vals ++ [v], .snoc ht hv, List.rel_append hf (.cons hs .nil)⟩

/-! ### what rank 2 learns -/

/-- `AndBB`: rank 2 knows the masks and sees the masked words, so it sees both operands. -/
theorem c65_and_leak (v : ℕ) (x y : Fin 3 → BitVec w) :
    Ok InStep (andView g v x y) (fun p => p.2.1 ^^^ p.1.1 = (xorAll x).setWidth v ∧ p.2.2 ^^^ p.1.2 = (xorAll y).setWidth v) := by
  refine Ok.bind (draw_ok v paired_ab) fun ⟨a0, a1⟩ ha => Ok.bind (draw_ok v paired_ab) fun ⟨b0, b1⟩ hb => Ok.pure ?_
  have key : ∀ (x : Fin 3 → BitVec w) (a0 a1 : Fin 3 → BitVec v), (∀ i, a1 i = a0 (i + 1)) →
      allReduce (· ^^^ ·) (fun j => (x j).setWidth v ^^^ ![a0 0, a1 1, 0] j) 2 ^^^ (a1 2 ^^^ a0 2) = (xorAll x).setWidth v := by
    intro x a0 a1 ha
    rw [allReduce_xor, xorAll_xor, xorAll_map xlin_setWidth, snnXorAll ![a0 0, a1 1, 0]]
    show _ ^^^ (a0 0 ^^^ (a1 1 ^^^ 0)) ^^^ _ = _
    rw [show a1 1 = a0 2 from ha 1, show a1 2 = a0 0 from ha 2, BitVec.xor_assoc]
    simp
  exact ⟨key x a0 a1 ha, key y b0 b1 hb⟩

/-- `TruncAPr`: rank 2 knows the mask and sees the masked word, so it sees the operand. -/
theorem c65_trunc_leak (x : Fin 3 → BitVec w) :
    Ok InStep (truncView g x) (fun p => p.2 - p.1 - ((1 : BitVec w) <<< (w - 2)) = total x) := by
  refine Ok.bind (genPriv_ok w) fun r _ => Ok.pure ?_
  show allReduce (· + ·) (fun j => (if j = 0 then x j + ((1 : BitVec w) <<< (w - 2)) else x j) + r j) 2
    - gatherSum (· + ·) 0 r - _ = _
  rw [gatherSum_add, allReduce_add, total_add, total_ite_add (0 : Fin 3) x (fun _ => (1 : BitVec w) <<< (w - 2))]
  ring

/-- `B2A_Randbit`: rank 2 chooses the bits and sees the masked word, so it sees the operand. -/
theorem c65_b2a_leak (hw : 0 < w) {a : BShr 3 w} {x : BitVec w} (ha : BRep a x) :
    Ok InStep (randbitView g bit a) (fun p => ∀ q, q < a.nb → (p.2.getLsbD q ^^ p.1 q) = x.getLsbD q) := by
  refine Ok.bind (randBits_total bit a.nb) fun r hr => Ok.pure fun q hq => ?_
  show ((openXor a w r 2).getLsbD q ^^ bit q) = _
  rw [openXor_bit ha hw ha.2.2 r 2 hq, hr q, Bool.xor_assoc]
  have : (BitVec.ofNat w (bit q).toNat).getLsbD 0 = bit q := by
    cases bit q <;> simp [hw]
  rw [this]; simp

/-- `AndBB` of a small array: while the array fits into one ring element, one mask serves for all elements, so the
differences of the operands are public. -/
theorem c65_and_mask_reuse {v sizeV sizeT numel : ℕ} (h0 : 0 < numel * sizeV) (h1 : numel * sizeV ≤ sizeT)
    (x : ℕ → Fin 3 → BitVec w) (a : ℕ → Fin 3 → BitVec v) (i j : ℕ) (p : Fin 3) :
    andOpen sizeV sizeT numel x a i p ^^^ andOpen sizeV sizeT numel x a j p
      = (xorAll (x i)).setWidth v ^^^ (xorAll (x j)).setWidth v := by
  have hn : (numel * sizeV + sizeT - 1) / sizeT = 1 := by
    rw [Nat.div_eq_iff (by omega)]
    omega
  have hm : ∀ k, maskPlace sizeV sizeT numel k = 0 := fun k => by unfold maskPlace; rw [if_pos hn]
  unfold andOpen
  rw [hm, hm, allReduce_xor, allReduce_xor, xorAll_xor, xorAll_xor, xorAll_map xlin_setWidth, xorAll_map xlin_setWidth]
  generalize xorAll (a 0) = A, (xorAll (x i)).setWidth v = X, (xorAll (x j)).setWidth v = Y
  apply BitVec.eq_of_getLsbD_eq
  intro q _
  simp only [BitVec.getLsbD_xor]
  cases A.getLsbD q <;> cases X.getLsbD q <;> cases Y.getLsbD q <;> rfl

/-- Two or more ring elements: each element has its own place in the mask array. -/
theorem c65_and_mask_fresh {sizeV sizeT numel : ℕ} (hV : 0 < sizeV) (h1 : sizeT < numel * sizeV) {i j : ℕ}
    (hT : 0 < sizeT) (h : maskPlace sizeV sizeT numel i = maskPlace sizeV sizeT numel j) : i = j := by
  have hn : (numel * sizeV + sizeT - 1) / sizeT ≠ 1 := by
    rw [Ne, Nat.div_eq_iff hT]
    omega
  unfold maskPlace at h
  rw [if_neg hn, if_neg hn] at h
  exact Nat.eq_of_mul_eq_mul_left hV h

/-! ### examples -/

section
open SnnK

/-- generators that give different words for different parties and counters -/
def snnDemoGen : Gen where
  prss v i c := BitVec.ofNat v (37 * i.val + 101 * c + 13)
  priv v i c := BitVec.ofNat v (91 * i.val + 57 * c + 200)

/-- counters in step, not equal for all parties -/
def snnDemoSys : Sys := ⟨![4, 1, 2], ![1, 2, 4], 3⟩

theorem snnDemo_inStep : InStep snnDemoSys := by unfold InStep; decide

/-- a program: `5 * (-7) + 3`, shifted and truncated -/
def snnDemoProg : List (AOp 16) :=
  [.v2a 2 5, .p2a 7, .neg 1, .mulAA 0 2, .addAP 3 3, .addAA 4 0, .lshift 5 4, .trunc 6 2, .mulAP 7 2, .v2a 1 9]

-- the registers open to 5, 7, -7, -35, -32, -27, -432, -108, -216, 9; the only freedom is the rounding of the truncation
example : ((runA snnDemoGen snnDemoProg snnDemoSys).map fun p => p.1.map fun x => (total x).toInt)
    = some [5, 7, -7, -35, -32, -27, -432, -108, -216, 9] := by decide +kernel

example : ∃ regs s vals, runA snnDemoGen snnDemoProg snnDemoSys = some (regs, s) ∧ InStep s ∧ SnnTrace snnDemoProg vals ∧
    List.Forall₂ SnnRep regs vals := by
  obtain ⟨regs, s, h, hs, vals, ht, hf⟩ := c65_program (g := snnDemoGen) (by norm_num) snnDemoProg
    (fun i h => by
      have : i < 10 := h
      interval_cases i <;> simp [snnDemoProg, SnnReads]) snnDemoSys snnDemo_inStep
  exact ⟨regs, s, vals, h, hs, ht, hf⟩

-- a random value times 3 is not what the product opens to
example : ((randA (w := 16) snnDemoGen >>= fun x => mulAA snnDemoGen x ![1, 2, 0] >>= fun z => pure (total z, total x * 3)) snnDemoSys).map
    (fun p => decide (p.1.1 = p.1.2)) = some false := by decide +kernel

-- conversions of 1234 and back
example : ((a2b (snnEnv snnDemoGen fun j => j % 3 == 0) ![1000, 200, (34 : BitVec 16)] >>= fun c =>
    snnB2ARandbit snnDemoGen (fun j => j % 3 == 0) c) snnDemoSys).map (fun p => (total p.1, p.1 2)) = some (1234, 0) := by
  decide +kernel

example : ∃ c s, a2b (snnEnv snnDemoGen fun _ => true) ![1000, 200, (34 : BitVec 16)] snnDemoSys = some (c, s) ∧ BRep c 1234 ∧ c.nb = 16 := by
  obtain ⟨c, s, h, -, hc⟩ := c65_a2b (g := snnDemoGen) (bit := fun _ => true) (M := 4) rfl (by norm_num) (by norm_num)
    ![1000, 200, (34 : BitVec 16)] snnDemoSys snnDemo_inStep
  exact ⟨c, s, h, hc⟩

example : ∃ z s, snnB2A snnDemoGen (fun _ => true) ⟨![1, 2, (4 : BitVec 8)], 8⟩ snnDemoSys = some (z, s) ∧ SnnRep z 7 := by
  obtain ⟨c, s, h, -, hc⟩ := c65_b2a (g := snnDemoGen) (bit := fun _ => true) (M := 3) rfl (by norm_num) (by norm_num)
    (a := ⟨![1, 2, (4 : BitVec 8)], 8⟩) (x := 7) ⟨by decide, by decide, by decide⟩ rfl snnDemoSys snnDemo_inStep
  exact ⟨c, s, h, hc⟩

-- the sign of -5
example : ∃ c s, a2b (snnEnv snnDemoGen fun _ => true) ![Snn.msbA2B exSc exMsb exShares 0, Snn.msbA2B exSc exMsb exShares 1, 0] snnDemoSys
    = some (c, s) ∧ BRep c 1 := by
  obtain ⟨c, s, h, -, hc⟩ := c65_msb (g := snnDemoGen) (bit := fun _ => true) (M := 6) rfl (by norm_num) (by norm_num) exSc exMsb exSc_ok exMsb_ok
    exShares (by decide) (by unfold ScLost; decide) (by decide +kernel) (by decide +kernel) (by decide +kernel) snnDemoSys snnDemo_inStep
  rw [if_pos (by decide +kernel)] at hc
  exact ⟨c, s, h, hc⟩

-- a product of matrices
example : ((SnnK.matMulAA snnDemoGen (fun i => !![(i.val : BitVec 16), 1; 2, 3]) (fun _ => !![(1 : BitVec 16), 0; 2, 1]) snnDemoSys).map
    fun p => (p.1 0 0 0 + p.1 1 0 0, p.1 0 1 0 + p.1 1 1 0)) = some (10, 32) := by decide +kernel

-- what rank 2 sees in a conjunction of 0x55 and 0x0F, in a truncation of 77, in a conversion of 9
example : ((andView snnDemoGen 8 ![0x50, 5, (0 : BitVec 8)] ![0, 0xF, 0] snnDemoSys).map fun p => (p.1.2.1 ^^^ p.1.1.1, p.1.2.2 ^^^ p.1.1.2))
    = some (0x55, 0xF) := by decide +kernel
example : ((truncView snnDemoGen ![70, 7, (0 : BitVec 16)] snnDemoSys).map fun p => p.1.2 - p.1.1 - 0x4000) = some 77 := by decide +kernel
example : ((randbitView snnDemoGen (fun j => j == 1) ⟨![8, 1, (0 : BitVec 8)], 4⟩ snnDemoSys).map
    fun p => (List.range 4).map fun q => p.1.2.getLsbD q ^^ p.1.1 q) = some [true, false, false, true] := by decide +kernel

-- four bytes and a ring of 64 bits: the opened words differ by what the operands differ by
example : andOpen 1 8 4 (fun k => ![BitVec.ofNat 64 (k * k), 3, 5]) (fun p => ![BitVec.ofNat 8 (77 * p + 41), 9, 0]) 2 0
    ^^^ andOpen 1 8 4 (fun k => ![BitVec.ofNat 64 (k * k), 3, 5]) (fun p => ![BitVec.ofNat 8 (77 * p + 41), 9, 0]) 3 0 = 4 ^^^ 9 := by
  decide +kernel
example : maskPlace 1 8 9 2 = 2 ∧ maskPlace 1 8 8 2 = 0 := by decide

end

end Spu.Props
