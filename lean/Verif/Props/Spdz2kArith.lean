import Mathlib.Tactic.Ring
import Mathlib.Tactic.Linarith
import Mathlib.Tactic.LinearCombination
import Mathlib.Tactic.Abel
import Mathlib.Data.Matrix.Basic
import Mathlib.Order.Interval.Finset.Nat
import Mathlib.Data.Int.Interval
import Verif.Model.Spdz2kArith
import Verif.Spec.Spdz2kArith
import Verif.Props.Spdz2kMac
import Verif.Props.ModSwitch

set_option autoImplicit false

/-!
C62: the arithmetic kernels of SPDZ2k.
-/

namespace Spu.Props
open Spu.Model.Spdz Spu.Spec.Spdz

variable {N n w m : ℕ} {key : Fin (N + 1) → Rg w}

/-! ## Authenticated values are closed under linear maps -/

section
variable {ι : Type} [Fintype ι] {ky : ι → ZMod (2 ^ w)} {x y : ZMod (2 ^ w)} {v v' mc mc' : ι → ZMod (2 ^ w)}

theorem authCongr (h : Auth m ky x v mc) (e : Eqv m x y) : Auth m ky y v mc :=
  ⟨eqvTrans h.value e, eqvTrans h.tag (eqvMul _ e)⟩

theorem authAdd (h : Auth m ky x v mc) (g : Auth m ky y v' mc') : Auth m ky (x + y) (fun i => v i + v' i) (fun i => mc i + mc' i) := by
  refine ⟨?_, ?_⟩
  · rw [Finset.sum_add_distrib]
    exact eqvAdd h.value g.value
  · rw [Finset.sum_add_distrib, mul_add]
    exact eqvAdd h.tag g.tag

theorem authSmul (c : ZMod (2 ^ w)) (h : Auth m ky x v mc) : Auth m ky (c * x) (fun i => c * v i) (fun i => c * mc i) := by
  refine ⟨?_, ?_⟩
  · rw [← Finset.mul_sum]
    exact eqvMul c h.value
  · rw [← Finset.mul_sum, mul_left_comm]
    exact eqvMul c h.tag

theorem authNeg (h : Auth m ky x v mc) : Auth m ky (-x) (fun i => -v i) (fun i => -mc i) := by
  have := authSmul (-1) h
  simpa only [neg_one_mul] using this

theorem authSub (h : Auth m ky x v mc) (g : Auth m ky y v' mc') : Auth m ky (x - y) (fun i => v i - v' i) (fun i => mc i - mc' i) := by
  simpa only [sub_eq_add_neg] using authAdd h (authNeg g)

theorem authPub [DecidableEq ι] (i0 : ι) (p : ZMod (2 ^ w)) : Auth m ky p (fun i => if i = i0 then p else 0) (fun i => p * ky i) := by
  refine ⟨?_, ?_⟩
  · rw [Finset.sum_ite_eq' Finset.univ i0, if_pos (Finset.mem_univ _)]
    exact eqvRefl _
  · rw [← Finset.mul_sum, mul_comm]
    exact eqvRefl _

end

theorem eqvOfEq {a b : ZMod (2 ^ w)} (h : a = b) : Eqv m a b := h ▸ eqvRefl _

theorem onlyAt_apply (p : Fin (N + 1)) (v : Vec n w) (i : Fin (N + 1)) (j : Fin n) :
    onlyAt p v i j = if i = p then v j else 0 := by
  unfold onlyAt
  split <;> rfl

theorem sum_onlyAt (p : Fin (N + 1)) (v : Vec n w) (j : Fin n) : ∑ i, onlyAt p v i j = v j := by
  simp only [onlyAt_apply]
  rw [Finset.sum_ite_eq' Finset.univ p, if_pos (Finset.mem_univ _)]

theorem sum_prss (r : All N n w) (j : Fin n) : ∑ i, prssZero r i j = 0 := by
  unfold prssZero
  simp only [Pi.sub_apply]
  rw [Finset.sum_sub_distrib]
  have : ∑ i : Fin (N + 1), r (i + 1) j = ∑ i, r i j := Equiv.sum_comp (Equiv.addRight (1 : Fin (N + 1))) fun i => r i j
  rw [this, sub_self]

theorem sum_adjust (sh : All N n w) (t : Vec n w) (j : Fin n) : ∑ i, adjust sh t i j = t j := by
  unfold adjust
  simp only [Pi.add_apply]
  rw [Finset.sum_add_distrib, sum_onlyAt, Pi.sub_apply, Finset.sum_apply]
  ring

/-! ## The trusted first party -/

theorem c62_key (s : ℕ) (rnd : Rg w) (sh : Fin (N + 1) → Rg w) :
    ∑ i, (initKey s rnd sh).2 i = (initKey s rnd sh).1 ∧ ((initKey s rnd sh).1).val < 2 ^ s := by
  have : NeZero (2 ^ w) := ⟨by positivity⟩
  unfold initKey
  constructor
  · have : ∀ i : Fin (N + 1), (if i = 0 then sh i + (low s rnd - ∑ i, sh i) else sh i) =
        sh i + if i = 0 then low s rnd - ∑ i, sh i else 0 := fun i => by split <;> simp
    simp only [this]
    rw [Finset.sum_add_distrib, Finset.sum_ite_eq' Finset.univ (0 : Fin (N + 1)), if_pos (Finset.mem_univ _)]
    ring
  · unfold low
    rw [ZMod.val_natCast]
    exact (Nat.mod_le _ _).trans_lt (Nat.mod_lt _ (by positivity))

theorem c62_deal {gk : Rg w} (hk : ∑ i, key i = gk) (sh shMac : All N n w) (t : Vec n w) : AuthArr m key t (deal gk sh shMac t) := by
  intro j
  unfold deal
  refine ⟨?_, ?_⟩
  · rw [sum_adjust]
    exact eqvRefl _
  · rw [sum_adjust, hk, mul_comm]
    exact eqvRefl _

theorem c62_dealMul {gk : Rg w} (hk : ∑ i, key i = gk) (a b c aMac bMac cMac : All N n w) :
    ∃ A B : Vec n w, AuthArr m key A (dealMul gk a b c aMac bMac cMac).1 ∧ AuthArr m key B (dealMul gk a b c aMac bMac cMac).2.1 ∧
      AuthArr m key (A * B) (dealMul gk a b c aMac bMac cMac).2.2 := by
  refine ⟨∑ i, a i, ∑ i, b i, fun j => ⟨?_, ?_⟩, fun j => ⟨?_, ?_⟩, c62_deal hk _ _ _⟩
  all_goals simp only [dealMul]
  · rw [Finset.sum_apply]; exact eqvRefl _
  · rw [sum_adjust, hk, mul_comm]; exact eqvRefl _
  · rw [Finset.sum_apply]; exact eqvRefl _
  · rw [sum_adjust, hk, mul_comm]; exact eqvRefl _

theorem low_small {k : ℕ} (x : Rg w) : (low k x).val < 2 ^ k := by
  unfold low
  rw [ZMod.val_natCast]
  exact (Nat.mod_le _ _).trans_lt (Nat.mod_lt _ (by positivity))

/-- The coins of the trusted party have `k` bits, its random bits one bit. -/
theorem c62_dealCoin {gk : Rg w} (hk : ∑ i, key i = gk) (k : ℕ) (sh shMac : All N n w) (rnd : Vec n w) :
    (∃ R : Vec n w, (∀ j, (R j).val < 2 ^ k) ∧ AuthArr m key R (dealCoin k gk sh shMac rnd)) ∧
      ∃ R : Vec n w, (∀ j, (R j).val < 2) ∧ AuthArr m key R (dealBit gk sh shMac rnd) :=
  ⟨⟨_, fun _ => low_small _, c62_deal hk _ _ _⟩, ⟨_, fun _ => by simpa using low_small (k := 1) _, c62_deal hk _ _ _⟩⟩

/-- The trusted party deals a mask of `k` bits, and its truncation. -/
theorem c62_dealTrunc {gk : Rg w} (hk : ∑ i, key i = gk) (k bits : ℕ) (a b aMac bMac : All N n w) :
    ∃ R : Vec n w, (∀ j, (R j).val < 2 ^ k) ∧ AuthArr m key R (dealTrunc k bits gk a b aMac bMac).1 ∧
      AuthArr m key (fun j => trShift k bits (R j)) (dealTrunc k bits gk a b aMac bMac).2 :=
  ⟨_, fun _ => low_small _, c62_deal hk _ _ _, c62_deal hk _ _ _⟩

theorem authArray_ok {gk : Rg w} (hk : ∑ i, key i = gk) {R : Vec n w} {coin : All N n w × All N n w} (hc : AuthArr m key R coin)
    {X : Vec n w} {v : All N n w} (hv : ∀ j, Eqv m (∑ i, v i j) (X j)) : AuthArr m key X (v, authArray gk coin v) := by
  intro j
  refine ⟨hv j, ?_⟩
  unfold authArray
  simp only [Pi.add_apply]
  rw [Finset.sum_add_distrib, sum_onlyAt, Finset.sum_sub_distrib, ← hk]
  obtain ⟨a, ha⟩ := (hc j).tag
  obtain ⟨b, hb⟩ := (hc j).value
  obtain ⟨c, hc⟩ := hv j
  rw [ha, hb, hc]
  exact ⟨a + (c - b) * ∑ i, key i, by ring⟩

/-! ## Local kernels -/

section
variable {gk : Rg w} (hk : ∑ i, key i = gk) {R R' : Vec n w} {coin coin' : All N n w × All N n w} (hc : AuthArr m key R coin)
  (hc' : AuthArr m key R' coin') {X Y : Vec n w} {x y : AShr N n w}
include hk hc

theorem getMac_ok (hx : Shared m key X x.val x.mac x.hasMac) : AuthArr m key X (x.val, getMac gk coin x) := by
  unfold getMac
  cases hh : x.hasMac
  · rw [if_neg (by simp)]
    exact authArray_ok hk hc hx.value
  · rw [if_pos rfl]
    exact fun j => ⟨hx.value j, hx.tag hh j⟩

theorem c62_v2a (r rMac : All N n w) (owner : Fin (N + 1)) (v : Vec n w) :
    let z := v2a gk coin r rMac owner v
    Shared m key v z.val z.mac z.hasMac ∧ z.hasMac = true := by
  have e : ∀ j, ∑ i, (prssZero r + onlyAt owner v) i j = v j := fun j => by
    simp only [Pi.add_apply]
    rw [Finset.sum_add_distrib, sum_prss, sum_onlyAt, zero_add]
  have h := authArray_ok (m := m) hk hc (X := v) (v := prssZero r + onlyAt owner v) fun j => by rw [e]; exact eqvRefl _
  refine ⟨⟨fun j => (h j).value, fun _ j => ?_⟩, rfl⟩
  have := (h j).tag
  simp only [v2a, zeroA, Pi.add_apply]
  rw [Finset.sum_add_distrib, sum_prss, zero_add]
  exact this

theorem c62_randA (rnd : All N n w) :
    let z := randA gk coin rnd
    (∃ X, Shared m key X z.val z.mac z.hasMac) ∧ z.hasMac = true := by
  have h := authArray_ok (m := m) hk hc (X := fun j => ∑ i, (randA gk coin rnd).val i j) (v := (randA gk coin rnd).val)
    fun j => eqvRefl _
  exact ⟨⟨_, ⟨fun j => (h j).value, fun _ j => (h j).tag⟩⟩, rfl⟩

theorem c62_negate (hx : Shared m key X x.val x.mac x.hasMac) :
    let z := negateA gk coin x
    Shared m key (-X) z.val z.mac z.hasMac ∧ z.hasMac = true := by
  have h := fun j => authNeg (getMac_ok hk hc hx j)
  exact ⟨⟨fun j => (h j).value, fun _ j => (h j).tag⟩, rfl⟩

theorem c62_addAP (hx : Shared m key X x.val x.mac x.hasMac) (p : Vec n w) :
    let z := addAP gk key coin x p
    Shared m key (X + p) z.val z.mac z.hasMac ∧ z.hasMac = true := by
  have h := fun j => authAdd (getMac_ok hk hc hx j) (authPub (m := m) (ky := key) 0 (p j))
  refine ⟨⟨fun j => ?_, fun _ j => (h j).tag⟩, rfl⟩
  have := (h j).value
  simp only [addAP, Pi.add_apply, onlyAt_apply]
  exact this

theorem c62_mulAP (hx : Shared m key X x.val x.mac x.hasMac) (p : Vec n w) :
    let z := mulAP gk coin x p
    Shared m key (X * p) z.val z.mac z.hasMac ∧ z.hasMac = true := by
  have h := fun j => authSmul (p j) (getMac_ok hk hc hx j)
  refine ⟨⟨fun j => ?_, fun _ j => ?_⟩, rfl⟩
  · have := (h j).value
    simp only [mulAP, Pi.mul_apply, mul_comm _ (p j)]
    exact this
  · have := (h j).tag
    simp only [mulAP, Pi.mul_apply, mul_comm _ (p j)]
    exact this

theorem c62_lshift (hx : Shared m key X x.val x.mac x.hasMac) (bits : ℕ) :
    let z := lshiftA gk coin x bits
    Shared m key (fun j => X j * 2 ^ bits) z.val z.mac z.hasMac ∧ z.hasMac = true := by
  have := c62_mulAP hk hc hx fun _ => 2 ^ bits
  exact this

include hc'

theorem c62_addAA (hx : Shared m key X x.val x.mac x.hasMac) (hy : Shared m key Y y.val y.mac y.hasMac) :
    let z := addAA gk coin coin' x y
    Shared m key (X + Y) z.val z.mac z.hasMac ∧ z.hasMac = true := by
  have h := fun j => authAdd (getMac_ok hk hc hx j) (getMac_ok hk hc' hy j)
  exact ⟨⟨fun j => (h j).value, fun _ j => (h j).tag⟩, rfl⟩

end

theorem c62_zero (r rMac : All N n w) : Shared m key 0 (zeroA r rMac).val (zeroA r rMac).mac (zeroA r rMac).hasMac := by
  refine ⟨fun j => ?_, fun _ j => ?_⟩
  · show Eqv m (∑ i, prssZero r i j) 0
    rw [sum_prss]
    exact eqvRefl _
  · show Eqv m (∑ i, prssZero rMac i j) ((∑ i, key i) * 0)
    rw [sum_prss, mul_zero]
    exact eqvRefl _

theorem c62_p2a (r rMac : All N n w) (p : Vec n w) :
    let z := p2a key r rMac p
    Shared m key p z.val z.mac z.hasMac ∧ z.hasMac = true := by
  refine ⟨⟨fun j => ?_, fun _ j => ?_⟩, rfl⟩
  · simp only [p2a, zeroA, Pi.add_apply]
    rw [Finset.sum_add_distrib, sum_prss, sum_onlyAt, zero_add]
    exact eqvRefl _
  · simp only [p2a, zeroA, Pi.add_apply]
    rw [Finset.sum_add_distrib, sum_prss, zero_add, ← Finset.mul_sum, mul_comm]
    exact eqvRefl _

/-! ## Openings -/

variable {k s : ℕ}

theorem finRange_perm : (List.finRange (N + 1)).Perm (Finset.univ : Finset (Fin (N + 1))).toList := by
  rw [List.perm_ext_iff_of_nodup (List.nodup_finRange _) (Finset.nodup_toList _)]
  intro a
  simp

/-- The check accepts values with authentic MACs. -/
theorem macCheck_ok (h0 : k + s ≠ 0) (hw : k + s ≤ w) {o : Vec n w} {mac : All N n w}
    (h : ∀ j, Eqv (k + s) (∑ i, mac i j) ((∑ i, key i) * o j)) (pub : Vec n w) : macCheck k s pub key o mac = true := by
  unfold macCheck
  rw [verdict_iff h0 hw]
  have e : ((List.finRange (N + 1)).map fun i => zShare s pub o (mac i) (key i)).sum = ∑ i, zShare s pub o (mac i) (key i) := by
    rw [(finRange_perm.map _).sum_eq, Finset.sum_map_toList]
  rw [e]
  have e2 : ∑ i, zShare s pub o (mac i) (key i) = ∑ j, low s (pub j) * (∑ i, mac i j - o j * ∑ i, key i) := by
    unfold zShare dot
    simp only
    rw [Finset.sum_sub_distrib, Finset.sum_comm, ← Finset.mul_sum, Finset.sum_mul, ← Finset.sum_sub_distrib]
    refine Finset.sum_congr rfl fun j _ => ?_
    rw [mul_sub]
    simp only [Finset.mul_sum, mul_assoc]
  rw [e2]
  have : (0 : Rg w) = ∑ j : Fin n, low s (pub j) * 0 := by simp
  rw [this]
  refine eqvSum _ fun j _ => eqvMul _ ?_
  obtain ⟨z, hz⟩ := h j
  exact ⟨z, by rw [hz]; ring⟩

theorem batchOpen_ok {X R : Vec n w} {val mac : All N n w} {mask : All N n w × All N n w} (hx : AuthArr (k + s) key X (val, mac))
    (hm : AuthArr (k + s) key R mask) (j : Fin n) :
    Eqv k ((batchOpen k val mac mask 0).1 j) (X j) ∧
      Eqv (k + s) (∑ i, (batchOpen k val mac mask 0).2 i j) ((∑ i, key i) * (batchOpen k val mac mask 0).1 j) := by
  have ho : (batchOpen k val mac mask 0).1 j = ∑ i, val i j + 2 ^ k * ∑ i, mask.1 i j := by
    simp only [batchOpen, opened, maskShare, Pi.add_apply, Pi.zero_apply, add_zero]
    rw [Finset.sum_add_distrib, Finset.mul_sum]
  have hm2 : ∑ i, (batchOpen k val mac mask 0).2 i j = ∑ i, mac i j + 2 ^ k * ∑ i, mask.2 i j := by
    simp only [batchOpen, maskShare]
    rw [Finset.sum_add_distrib, Finset.mul_sum]
  rw [ho, hm2]
  obtain ⟨a, ha⟩ := (hx j).value
  obtain ⟨b, hb⟩ := (hx j).tag
  obtain ⟨c, hc⟩ := (hm j).value
  obtain ⟨d, hd⟩ := (hm j).tag
  simp only at ha hb
  refine ⟨⟨2 ^ s * a + ∑ i, mask.1 i j, by rw [ha]; ring⟩, ?_⟩
  rw [ha, hb, hc, hd]
  exact ⟨b + 2 ^ k * d - a * ∑ i, key i - 2 ^ k * c * ∑ i, key i, by ring⟩

theorem openCheck_ok (h0 : k + s ≠ 0) (hw : k + s ≤ w) {X R : Vec n w} {val mac : All N n w} {mask : All N n w × All N n w}
    (hx : AuthArr (k + s) key X (val, mac)) (hm : AuthArr (k + s) key R mask) (pub : Vec n w) :
    macCheck k s pub key (batchOpen k val mac mask 0).1 (batchOpen k val mac mask 0).2 = true :=
  macCheck_ok h0 hw (fun j => (batchOpen_ok hx hm j).2) pub

theorem red_eq {a b : Rg w} (hk : k ≤ w) (h : Eqv k a b) : ((low k a).val : ZMod (2 ^ k)) = red k b := by
  rw [low_val hk, ZMod.natCast_mod]
  unfold red
  have := (eqv_iff hk _ _).1 h
  have h2 : ((a.val : ℤ) : ZMod (2 ^ k)) = ((b.val : ℤ) : ZMod (2 ^ k)) := by
    rw [eq_comm, ZMod.intCast_eq_intCast_iff_dvd_sub]
    push_cast
    exact this
  simpa using h2

theorem c62_a2p (h0 : k + s ≠ 0) (hw : k + s ≤ w) {X R : Vec n w} {x : AShr N n w} {mask : All N n w × All N n w}
    (hx : Shared (k + s) key X x.val x.mac x.hasMac) (hh : x.hasMac = true) (hm : AuthArr (k + s) key R mask) (pub : Vec n w) :
    a2p k s key mask pub x = some fun j => red k (X j) := by
  have ha : AuthArr (k + s) key X (x.val, x.mac) := fun j => ⟨hx.value j, hx.tag hh j⟩
  unfold a2p
  simp only
  rw [guard_bind (openCheck_ok h0 hw ha hm pub)]
  congr 1
  funext j
  exact red_eq (by omega) (batchOpen_ok ha hm j).1

theorem c62_a2v (h0 : k + s ≠ 0) (hw : k + s ≤ w) {gk : Rg w} (hg : ∑ i, key i = gk) {X R R' : Vec n w} {x : AShr N n w}
    {coin mask : All N n w × All N n w} (hx : Shared (k + s) key X x.val x.mac x.hasMac) (hh : x.hasMac = true)
    (hc : AuthArr (k + s) key R' coin) (hm : AuthArr (k + s) key R mask) (pub : Vec n w) (r rMac : All N n w)
    (rank : Fin (N + 1)) (rnd : Vec n w) :
    a2v k s gk key coin mask pub r rMac rank rnd x = some fun j => red k (X j) := by
  obtain ⟨hz, hzm⟩ := c62_v2a (m := k + s) hg hc r rMac rank rnd
  have ha : AuthArr (k + s) key (X + rnd) (x.val + (v2a gk coin r rMac rank rnd).val, x.mac + (v2a gk coin r rMac rank rnd).mac) :=
    fun j => authAdd ⟨hx.value j, hx.tag hh j⟩ ⟨hz.value j, hz.tag hzm j⟩
  unfold a2v
  simp only
  rw [guard_bind (openCheck_ok h0 hw ha hm pub)]
  congr 1
  funext j
  refine red_eq (by omega) ?_
  obtain ⟨z, h⟩ := (batchOpen_ok ha hm j).1
  exact ⟨z, by rw [h, Pi.add_apply]; ring⟩

/-! ## Multiplication -/

theorem guard_some {p : Prop} [Decidable p] {α : Type} {f : Unit → Option α} {r : α} (h : (guard p >>= f) = some r) :
    p ∧ f () = some r := by
  by_cases hp : p
  · rw [guard_bind hp] at h
    exact ⟨hp, h⟩
  · simp [guard, hp] at h

section
variable {gk : Rg w} (hg : ∑ i, key i = gk) {R R' A B : Vec n w} {coin coin' a b c : All N n w × All N n w}
  (hc : AuthArr m key R coin) (hc' : AuthArr m key R' coin')
  (hA : AuthArr m key A a) (hB : AuthArr m key B b) (hC : AuthArr m key (A * B) c) {X Y : Vec n w} {x y : AShr N n w}
  (hx : Shared m key X x.val x.mac x.hasMac) (hy : Shared m key Y y.val y.mac y.hasMac)
include hA hB hC hx hy

/-- Whatever is added to the openings, the result is an authentic sharing of the product of the changed factors. -/
theorem c62_mulAA_err (errE errF pub pub' : Vec n w) {z : AShr N n w}
    (hz : mulAA k s gk key coin coin' pub pub' a b c errE errF x y = some z) :
    Shared m key ((X + errE) * (Y + errF)) z.val z.mac z.hasMac ∧ z.hasMac = true := by
  unfold mulAA at hz
  simp only at hz
  obtain ⟨-, hz⟩ := guard_some hz
  obtain ⟨-, hz⟩ := guard_some hz
  rw [Option.some.injEq] at hz
  subst hz
  set pe := opened (x.val - a.1) + errE with hpe
  set pf := opened (y.val - b.1) + errF with hpf
  have e1 : ∀ j, Eqv m (pe j) (X j - A j + errE j) := fun j => by
    rw [hpe]
    simp only [Pi.add_apply, opened, Pi.sub_apply]
    rw [Finset.sum_sub_distrib]
    obtain ⟨u, hu⟩ := hx.value j
    obtain ⟨v, hv⟩ := (hA j).value
    exact ⟨u - v, by rw [hu, hv]; ring⟩
  have e2 : ∀ j, Eqv m (pf j) (Y j - B j + errF j) := fun j => by
    rw [hpf]
    simp only [Pi.add_apply, opened, Pi.sub_apply]
    rw [Finset.sum_sub_distrib]
    obtain ⟨u, hu⟩ := hy.value j
    obtain ⟨v, hv⟩ := (hB j).value
    exact ⟨u - v, by rw [hu, hv]; ring⟩
  have h : ∀ j, Auth m key ((X j + errE j) * (Y j + errF j))
      (fun i => pe j * b.1 i j + pf j * a.1 i j + c.1 i j + if i = 0 then pe j * pf j else 0)
      (fun i => pe j * b.2 i j + pf j * a.2 i j + c.2 i j + pe j * pf j * key i) := fun j => by
    refine authCongr (authAdd (authAdd (authAdd (authSmul (pe j) (hB j)) (authSmul (pf j) (hA j))) (hC j))
      (authPub 0 (pe j * pf j))) ?_
    obtain ⟨u, hu⟩ := e1 j
    obtain ⟨v, hv⟩ := e2 j
    rw [hu, hv]
    exact ⟨u * (Y j + errF j) + v * (X j + errE j) + 2 ^ m * u * v, by simp only [Pi.mul_apply]; ring⟩
  refine ⟨⟨fun j => ?_, fun _ j => (h j).tag⟩, rfl⟩
  have := (h j).value
  simp only [Pi.add_apply, onlyAt_apply, Pi.mul_apply]
  exact this

include hg hc hc'

/-- Honest parties obtain the product. -/
theorem c62_mulAA (h0 : k + s ≠ 0) (hw : k + s ≤ w) (hm : m = k + s) (pub pub' : Vec n w) :
    ∃ z, mulAA k s gk key coin coin' pub pub' a b c 0 0 x y = some z ∧
      Shared m key (X * Y) z.val z.mac z.hasMac ∧ z.hasMac = true := by
  subst hm
  have g1 : macCheck k s pub key (opened (x.val - a.1) + 0) (getMac gk coin x - a.2) = true := by
    refine macCheck_ok h0 hw (fun j => ?_) pub
    have := authSub (getMac_ok hg hc hx j) (hA j)
    simp only [Pi.add_apply, Pi.zero_apply, add_zero, opened, Pi.sub_apply]
    refine eqvTrans this.tag (eqvMul _ (eqvSymm this.value))
  have g2 : macCheck k s pub' key (opened (y.val - b.1) + 0) (getMac gk coin' y - b.2) = true := by
    refine macCheck_ok h0 hw (fun j => ?_) pub'
    have := authSub (getMac_ok hg hc' hy j) (hB j)
    simp only [Pi.add_apply, Pi.zero_apply, add_zero, opened, Pi.sub_apply]
    refine eqvTrans this.tag (eqvMul _ (eqvSymm this.value))
  have hz : ∃ z, mulAA k s gk key coin coin' pub pub' a b c 0 0 x y = some z := by
    unfold mulAA
    simp only
    rw [guard_bind g1, guard_bind g2]
    exact ⟨_, rfl⟩
  obtain ⟨z, hz⟩ := hz
  have := c62_mulAA_err hA hB hC hx hy 0 0 pub pub' hz
  rw [add_zero, add_zero] at this
  exact ⟨z, hz, this⟩

end

/-! ## Matrices -/

section
variable {d e f : ℕ}

/-- Authentic shares of a matrix. -/
abbrev AuthMat (m : ℕ) (key : Fin (N + 1) → Rg w) (X : Matrix (Fin d) (Fin e) (Rg w)) (x : MShr N d e w) : Prop :=
  AuthMatrix m key X x.val x.mac

theorem authSum {ι κ : Type} [Fintype ι] {ky : ι → ZMod (2 ^ w)} (t : Finset κ) {x : κ → ZMod (2 ^ w)} {v mc : ι → κ → ZMod (2 ^ w)}
    (h : ∀ q ∈ t, Auth m ky (x q) (fun i => v i q) (fun i => mc i q)) :
    Auth m ky (∑ q ∈ t, x q) (fun i => ∑ q ∈ t, v i q) (fun i => ∑ q ∈ t, mc i q) := by
  refine ⟨?_, ?_⟩
  · rw [Finset.sum_comm]
    exact eqvSum t fun q hq => (h q hq).value
  · rw [Finset.sum_comm, Finset.mul_sum]
    exact eqvSum t fun q hq => (h q hq).tag

theorem authMatMul_right {X : Matrix (Fin d) (Fin e) (Rg w)} {x : MShr N d e w} (h : AuthMat m key X x)
    (P : Matrix (Fin e) (Fin f) (Rg w)) : AuthMat m key (X * P) ⟨fun i => x.val i * P, fun i => x.mac i * P⟩ := by
  intro p q
  simp only [Matrix.mul_apply]
  refine authSum Finset.univ fun t _ => ?_
  simpa only [mul_comm _ (P t q)] using authSmul (P t q) (h p t)

theorem authMatMul_left {X : Matrix (Fin e) (Fin f) (Rg w)} {x : MShr N e f w} (h : AuthMat m key X x)
    (P : Matrix (Fin d) (Fin e) (Rg w)) : AuthMat m key (P * X) ⟨fun i => P * x.val i, fun i => P * x.mac i⟩ := by
  intro p q
  simp only [Matrix.mul_apply]
  exact authSum Finset.univ fun t _ => authSmul (P p t) (h t q)

theorem c62_matMulAP {X : Matrix (Fin d) (Fin e) (Rg w)} {x : MShr N d e w} (h : AuthMat m key X x)
    (P : Matrix (Fin e) (Fin f) (Rg w)) : AuthMat m key (X * P) (matMulAP x P) := authMatMul_right h P

theorem eqvMatMul {d e f : ℕ} {P P' : Matrix (Fin d) (Fin e) (Rg w)} {Q Q' : Matrix (Fin e) (Fin f) (Rg w)}
    (h : ∀ p q, Eqv m (P p q) (P' p q)) (g : ∀ p q, Eqv m (Q p q) (Q' p q)) (p : Fin d) (q : Fin f) :
    Eqv m ((P * Q) p q) ((P' * Q') p q) := by
  simp only [Matrix.mul_apply]
  refine eqvSum _ fun t _ => ?_
  obtain ⟨u, hu⟩ := h p t
  obtain ⟨v, hv⟩ := g t q
  exact ⟨u * Q' t q + v * P' p t + 2 ^ m * u * v, by rw [hu, hv]; ring⟩

theorem c62_matMulAA {A : Matrix (Fin d) (Fin e) (Rg w)} {B : Matrix (Fin e) (Fin f) (Rg w)} {a : MShr N d e w} {b : MShr N e f w}
    {c : MShr N d f w} (hA : AuthMat m key A a) (hB : AuthMat m key B b) (hC : AuthMat m key (A * B) c)
    {X : Matrix (Fin d) (Fin e) (Rg w)} {Y : Matrix (Fin e) (Fin f) (Rg w)} {x : MShr N d e w} {y : MShr N e f w}
    (hx : ∀ p q, Eqv m (∑ i, x.val i p q) (X p q)) (hy : ∀ p q, Eqv m (∑ i, y.val i p q) (Y p q))
    (errE : Matrix (Fin d) (Fin e) (Rg w)) (errF : Matrix (Fin e) (Fin f) (Rg w)) :
    AuthMat m key ((X + errE) * (Y + errF)) (matMulAA key a b c errE errF x y) := by
  set pe := ∑ i, (x.val i - a.val i) + errE with hpe
  set pf := ∑ i, (y.val i - b.val i) + errF with hpf
  have e1 : ∀ p q, Eqv m (pe p q) ((X - A + errE) p q) := fun p q => by
    rw [hpe]
    simp only [Matrix.add_apply, Matrix.sum_apply, Matrix.sub_apply]
    rw [Finset.sum_sub_distrib]
    obtain ⟨u, hu⟩ := hx p q
    obtain ⟨v, hv⟩ := (hA p q).value
    exact ⟨u - v, by rw [hu, hv]; ring⟩
  have e2 : ∀ p q, Eqv m (pf p q) ((Y - B + errF) p q) := fun p q => by
    rw [hpf]
    simp only [Matrix.add_apply, Matrix.sum_apply, Matrix.sub_apply]
    rw [Finset.sum_sub_distrib]
    obtain ⟨u, hu⟩ := hy p q
    obtain ⟨v, hv⟩ := (hB p q).value
    exact ⟨u - v, by rw [hu, hv]; ring⟩
  intro p q
  have h := authAdd (authAdd (authAdd (authMatMul_left hB pe p q) (authMatMul_right hA pf p q)) (hC p q))
    (authPub (m := m) (ky := key) 0 ((pe * pf) p q))
  have e3 : Eqv m ((pe * B) p q + (A * pf) p q + (A * B) p q + (pe * pf) p q) (((X + errE) * (Y + errF)) p q) := by
    have : (X + errE) * (Y + errF) = (X - A + errE) * B + A * (Y - B + errF) + A * B + (X - A + errE) * (Y - B + errF) := by
      simp only [Matrix.add_mul, Matrix.mul_add, Matrix.sub_mul, Matrix.mul_sub]
      abel
    rw [this]
    simp only [Matrix.add_apply]
    exact eqvAdd (eqvAdd (eqvAdd (eqvMatMul e1 (fun _ _ => eqvRefl _) p q) (eqvMatMul (fun _ _ => eqvRefl _) e2 p q)) (eqvRefl _))
      (eqvMatMul e1 e2 p q)
  have h := authCongr h e3
  refine ⟨?_, ?_⟩
  · have := h.value
    refine eqvTrans (eqvOfEq ?_) this
    refine Finset.sum_congr rfl fun i _ => ?_
    simp only [matMulAA, Matrix.add_apply]
    rw [← hpe, ← hpf]
    congr 1
    split <;> simp
  · have := h.tag
    refine eqvTrans (eqvOfEq ?_) this
    refine Finset.sum_congr rfl fun i _ => ?_
    simp only [matMulAA, Matrix.add_apply, Matrix.smul_apply, smul_eq_mul]
    rw [← hpe, ← hpf]
    ring

theorem c62_dealDot {gk : Rg w} (hk : ∑ i, key i = gk) (a : MShr N d e w) (b : MShr N e f w) (c : MShr N d f w) :
    ∃ A B, AuthMat m key A (dealDot gk a b c).1 ∧ AuthMat m key B (dealDot gk a b c).2.1 ∧
      AuthMat m key (A * B) (dealDot gk a b c).2.2 := by
  have fix : ∀ {d e : ℕ} (M : Fin (N + 1) → Matrix (Fin d) (Fin e) (Rg w)) (T : Matrix (Fin d) (Fin e) (Rg w)) (p : Fin d) (q : Fin e),
      ∑ i, (if i = 0 then M i + (T - ∑ i, M i) else M i) p q = T p q := by
    intro d e M T p q
    have : ∀ i : Fin (N + 1), (if i = 0 then M i + (T - ∑ i, M i) else M i) p q =
        M i p q + if i = 0 then (T - ∑ i, M i) p q else 0 := fun i => by split <;> simp
    simp only [this]
    rw [Finset.sum_add_distrib, Finset.sum_ite_eq' Finset.univ (0 : Fin (N + 1)), if_pos (Finset.mem_univ _),
      Matrix.sub_apply, Matrix.sum_apply]
    ring
  refine ⟨∑ i, a.val i, ∑ i, b.val i, fun p q => ⟨?_, ?_⟩, fun p q => ⟨?_, ?_⟩, fun p q => ⟨?_, ?_⟩⟩
  all_goals simp only [dealDot, fix, Matrix.smul_apply, smul_eq_mul, hk, Matrix.sum_apply]
  all_goals exact eqvRefl _

/-- The code violates authenticity: if another party adds `δ` to the opening in `MatMulAA`, the check of every later opening
accepts and all parties obtain `(X + δ) * Y`, for every `δ`, all keys and all coins. -/
theorem c62_matmul_forgery (h0 : k + s ≠ 0) (hw : k + s ≤ w) {A : Matrix (Fin d) (Fin e) (Rg w)} {B : Matrix (Fin e) (Fin f) (Rg w)}
    {a : MShr N d e w} {b : MShr N e f w} {c : MShr N d f w} (hA : AuthMat (k + s) key A a) (hB : AuthMat (k + s) key B b)
    (hC : AuthMat (k + s) key (A * B) c) {X : Matrix (Fin d) (Fin e) (Rg w)} {Y : Matrix (Fin e) (Fin f) (Rg w)}
    {x : MShr N d e w} {y : MShr N e f w} (hx : AuthMat (k + s) key X x) (hy : AuthMat (k + s) key Y y)
    (δ : Matrix (Fin d) (Fin e) (Rg w)) {R : Vec (d * f) w} {mask : All N (d * f) w × All N (d * f) w}
    (hm : AuthArr (k + s) key R mask) (pub : Vec (d * f) w) :
    a2p k s key mask pub (flat (matMulAA key a b c δ 0 x y)) =
      some fun j => red k (((X + δ) * Y) (finProdFinEquiv.symm j).1 (finProdFinEquiv.symm j).2) := by
  have h := c62_matMulAA hA hB hC (fun p q => (hx p q).value) (fun p q => (hy p q).value) δ 0
  rw [add_zero] at h
  exact c62_a2p h0 hw (X := fun j => ((X + δ) * Y) (finProdFinEquiv.symm j).1 (finProdFinEquiv.symm j).2)
    ⟨fun j => (h _ _).value, fun _ j => (h _ _).tag⟩ rfl hm pub

end

/-! ## Input and output -/

theorem c62_toShares (raw : Fin n → ℕ) (rnd : All N n w) :
    Shared m key (fun j => (raw j : Rg w)) (toShares raw rnd).val (toShares raw rnd).mac (toShares raw rnd).hasMac := by
  refine ⟨fun j => ?_, fun h => by simp [toShares] at h⟩
  refine eqvOfEq ?_
  simp only [toShares]
  rw [Fin.sum_univ_succ, if_pos rfl, Fin.sum_univ_succ, if_pos rfl]
  simp only [Fin.succ_ne_zero, if_false]
  ring

theorem c62_fromShares (hw : k + s ≤ w) {X : Vec n w} {x : AShr N n w} (hx : Shared (k + s) key X x.val x.mac x.hasMac) :
    fromShares k x = fun j => red k (X j) := by
  funext j
  unfold fromShares
  refine red_eq (by omega) ?_
  obtain ⟨z, h⟩ := hx.value j
  exact ⟨2 ^ s * z, by rw [h]; ring⟩

/-- The code violates correctness: an input that is revealed right away makes the honest parties abort, for all but a
fraction `(s+5)/2^(s+2)` of the first party's keys and the coins, unless it is zero. -/
theorem c62_reveal_input (hk : 0 < k) (hs : 0 < s) (hw : k + s ≤ w) (raw : Fin n → ℕ) (rnd : All N n w) (j0 : Fin n)
    (hj : raw j0 % 2 ^ k ≠ 0) (c : Rg w) (other : Fin (N + 1) → Rg w) (mv : All N n w) (mm : Fin (2 ^ s) → All N n w)
    (hmm : ∀ κ κ' i, i ≠ 0 → mm κ i = mm κ' i) {R : Vec n w}
    (hmask : ∀ κ, AuthArr (k + s) (fun i => if i = 0 then c + (κ.val : Rg w) else other i) R (mv, mm κ))
    (pub : (Fin n → Fin (2 ^ s)) → Vec n w) (hpub : ∀ r j, (pub r j).val % 2 ^ s = r j) :
    4 * (Finset.univ.filter fun p : Fin (2 ^ s) × (Fin n → Fin (2 ^ s)) =>
      a2p k s (fun i => if i = 0 then c + (p.1.val : Rg w) else other i) (mv, mm p.1) (pub p.2) (toShares raw rnd) ≠ none).card ≤
      (s + 5) * (2 ^ s) ^ n := by
  have : NeZero (2 ^ w) := ⟨by positivity⟩
  have : NeZero (2 ^ s) := ⟨by positivity⟩
  let κ0 : Fin (2 ^ s) := 0
  let o : Vec n w := fun j => 2 ^ k * (∑ i, mv i j) + (raw j : Rg w)
  have sumval : ∀ j, ∑ i, (toShares raw rnd).val i j = (raw j : Rg w) := fun j => by
    have h := (c62_toShares (m := w) (key := other) raw rnd).value j
    obtain ⟨z, h⟩ := h
    have : ((2 : Rg w) ^ w) = 0 := by
      have := ZMod.natCast_self (2 ^ w)
      push_cast at this
      exact this
    rw [h, this, zero_mul, add_zero]
  have hopen : ∀ κ, (batchOpen k (toShares raw rnd).val (toShares raw rnd).mac (mv, mm κ) 0).1 = o := fun κ => by
    funext j
    simp only [batchOpen, opened, maskShare, Pi.add_apply, Pi.zero_apply, add_zero, o]
    rw [Finset.sum_add_distrib, sumval, Finset.mul_sum]
    ring
  have hmac : ∀ κ i j, (batchOpen k (toShares raw rnd).val (toShares raw rnd).mac (mv, mm κ) 0).2 i j = 2 ^ k * mm κ i j :=
    fun κ i j => by simp [batchOpen, maskShare, toShares]
  refine le_trans (Nat.mul_le_mul_left 4 (Finset.card_le_card ?_)) (c61_sound hk hs hw (fun j => 2 ^ k * ∑ i, mv i j)
    (fun j => (raw j : Rg w)) j0 ?_ c (∑ i : Fin N, other i.succ) (fun j => ∑ i : Fin N, 2 ^ k * mm κ0 i.succ j)
    (fun κ j => 2 ^ k * mm κ 0 j) ?_ pub hpub
    (fun r => (List.finRange N).map fun i => zShare s (pub r) o (fun j => 2 ^ k * mm κ0 i.succ j) (other i.succ)))
  · rintro ⟨κ, r⟩ hp
    rw [Finset.mem_filter] at hp ⊢
    refine ⟨hp.1, ?_⟩
    have h := hp.2
    by_contra hv
    refine h ?_
    unfold a2p
    simp only
    have : ¬ (macCheck k s (pub r) (fun i => if i = 0 then c + (κ.val : Rg w) else other i)
        (batchOpen k (toShares raw rnd).val (toShares raw rnd).mac (mv, mm κ) 0).1
        (batchOpen k (toShares raw rnd).val (toShares raw rnd).mac (mv, mm κ) 0).2 = true) := by
      intro hc
      refine hv ?_
      unfold macCheck at hc
      rw [List.finRange_succ, List.map_cons, List.map_map, hopen] at hc
      have e1 : (batchOpen k (toShares raw rnd).val (toShares raw rnd).mac (mv, mm κ) 0).2 0 = fun j => 2 ^ k * mm κ 0 j :=
        funext fun j => hmac κ 0 j
      have e2 : ∀ i : Fin N, (batchOpen k (toShares raw rnd).val (toShares raw rnd).mac (mv, mm κ) 0).2 i.succ =
          fun j => 2 ^ k * mm κ0 i.succ j := fun i => funext fun j => by
        rw [hmac, hmm κ κ0 i.succ (Fin.succ_ne_zero i)]
      simp only [e1, Function.comp_def, e2, Fin.succ_ne_zero, if_false, if_true] at hc
      exact hc
    simp [guard, this]
  · intro he
    have h1 : Eqv k (((raw j0 : ℤ)) : Rg w) 0 := by
      push_cast
      exact he
    have h2 := eqvInt (by omega) _ h1
    refine hj ?_
    have : (2 ^ k : ℕ) ∣ raw j0 := by exact_mod_cast h2
    exact Nat.mod_eq_zero_of_dvd this
  · intro κ j
    have h := hmask κ j
    obtain ⟨u, hu⟩ := h.tag
    obtain ⟨v, hv⟩ := h.value
    simp only at hu hv
    rw [Fin.sum_univ_succ, Fin.sum_univ_succ] at hu
    simp only [if_pos, Fin.succ_ne_zero, if_false] at hu
    have e3 : ∀ i : Fin N, mm κ i.succ j = mm κ0 i.succ j := fun i => by rw [hmm κ κ0 i.succ (Fin.succ_ne_zero i)]
    simp only [e3] at hu
    refine ⟨2 ^ k * u - 2 ^ k * (c + (κ.val : Rg w) + ∑ i : Fin N, other i.succ) * v, ?_⟩
    rw [← Finset.mul_sum, hv]
    linear_combination 2 ^ k * hu

/-! ## Truncation -/

theorem eqvIntPair {a b : ℤ} (hm : m ≤ w) (h : Eqv m (a : Rg w) (b : Rg w)) : (2 ^ m : ℤ) ∣ a - b := by
  obtain ⟨z, h⟩ := h
  refine eqvInt hm _ ⟨z, ?_⟩
  push_cast
  rw [h]
  ring

theorem eqvOfDvd {a b : ℤ} (h : (2 ^ m : ℤ) ∣ a - b) : Eqv m (a : Rg w) (b : Rg w) := by
  obtain ⟨q, h⟩ := h
  refine ⟨(q : Rg w), ?_⟩
  have : a = b + 2 ^ m * q := by linarith
  rw [this]
  push_cast
  ring

theorem signed_range (hk : 0 < k) (x : Rg w) : -2 ^ (k - 1) ≤ signed k x ∧ signed k x < 2 ^ (k - 1) := by
  have hlt : x.val % 2 ^ k < 2 ^ k := Nat.mod_lt _ (by positivity)
  have h2 : (2 : ℤ) ^ k = 2 * 2 ^ (k - 1) := by rw [← pow_succ']; congr 1; omega
  have h2n : (2 : ℕ) ^ k = 2 * 2 ^ (k - 1) := by rw [← pow_succ']; congr 1; omega
  have hp : (0 : ℤ) < 2 ^ (k - 1) := by positivity
  unfold signed
  split
  · rename_i h
    have : ((x.val % 2 ^ k : ℕ) : ℤ) < 2 ^ (k - 1) := by exact_mod_cast h
    constructor <;> [have h0 : (0 : ℤ) ≤ ((x.val % 2 ^ k : ℕ) : ℤ) := Int.natCast_nonneg _; skip] <;> linarith
  · rename_i h
    have h3 : (2 : ℤ) ^ (k - 1) ≤ ((x.val % 2 ^ k : ℕ) : ℤ) := by exact_mod_cast not_lt.1 h
    have h4 : ((x.val % 2 ^ k : ℕ) : ℤ) < 2 ^ k := by exact_mod_cast hlt
    constructor <;> linarith

theorem signed_eqv (hw : k ≤ w) (x : Rg w) : Eqv k ((signed k x : ℤ) : Rg w) x := by
  have : NeZero (2 ^ w) := ⟨by positivity⟩
  have hx : x = ((x.val : ℤ) : Rg w) := by
    push_cast
    rw [ZMod.natCast_zmod_val]
  have : Eqv k ((signed k x : ℤ) : Rg w) ((x.val : ℤ) : Rg w) := by
    refine eqvOfDvd ?_
    have h := Nat.div_add_mod x.val (2 ^ k)
    have hz : ((x.val : ℕ) : ℤ) = 2 ^ k * ((x.val / 2 ^ k : ℕ) : ℤ) + ((x.val % 2 ^ k : ℕ) : ℤ) := by exact_mod_cast h.symm
    unfold signed
    split
    · exact ⟨-((x.val / 2 ^ k : ℕ) : ℤ), by rw [hz]; ring⟩
    · exact ⟨-((x.val / 2 ^ k : ℕ) : ℤ) - 1, by rw [hz]; ring⟩
  rwa [← hx] at this

theorem signed_unique (hk : 0 < k) (hw : k ≤ w) {x : Rg w} {z : ℤ} (h : Eqv k (z : Rg w) x) (h1 : -2 ^ (k - 1) ≤ z)
    (h2 : z < 2 ^ (k - 1)) : signed k x = z := by
  have hd := eqvIntPair hw (eqvTrans (signed_eqv hw x) (eqvSymm h))
  obtain ⟨r1, r2⟩ := signed_range hk x
  have e2 : (2 : ℤ) ^ k = 2 * 2 ^ (k - 1) := by rw [← pow_succ']; congr 1; omega
  have := Int.eq_zero_of_abs_lt_dvd hd (by rw [abs_lt]; constructor <;> linarith)
  linarith

theorem trShift_eqv {bits : ℕ} (hk : 0 < k) (hw : k ≤ w) (x : Rg w) :
    Eqv k (trShift k bits x) ((signed k x / 2 ^ bits : ℤ) : Rg w) := by
  have : NeZero (2 ^ w) := ⟨by positivity⟩
  refine eqvTrans (low_eqv hw _) (eqvOfEq ?_)
  unfold arshift
  congr 1
  have hv : (x * 2 ^ (w - k)).val = x.val % 2 ^ k * 2 ^ (w - k) := by
    have e : x * 2 ^ (w - k) = ((x.val * 2 ^ (w - k) : ℕ) : Rg w) := by
      push_cast
      rw [ZMod.natCast_zmod_val]
    rw [e, ZMod.val_natCast]
    have : 2 ^ w = 2 ^ k * 2 ^ (w - k) := by rw [← pow_add]; congr 1; omega
    generalize x.val = v
    rw [this, Nat.mul_mod_mul_right]
  have hs : sgn (x * 2 ^ (w - k)) = signed k x * 2 ^ (w - k) := by
    unfold sgn signed
    rw [hv]
    have hb : (x.val % 2 ^ k * 2 ^ (w - k) < 2 ^ (w - 1)) ↔ x.val % 2 ^ k < 2 ^ (k - 1) := by
      rw [show 2 ^ (w - 1) = 2 ^ (k - 1) * 2 ^ (w - k) by rw [← pow_add]; congr 1; omega]
      exact Nat.mul_lt_mul_right (by positivity)
    simp only [hb]
    split
    · push_cast; ring
    · have : (2 : ℤ) ^ w = 2 ^ k * 2 ^ (w - k) := by rw [← pow_add]; congr 1; omega
      rw [this]
      push_cast
      ring
  rw [hs, pow_add, mul_comm (signed k x)]
  exact Int.mul_ediv_mul_of_pos _ _ (by positivity)

/-- Truncation of the difference and of the mask, in integers. -/
theorem trunc_int (X R T c : ℤ) {k bits : ℕ} (hb : bits ≤ k) (h : T = X - R + c * 2 ^ k) :
    ∃ ε : ℤ, (ε = 0 ∨ ε = 1) ∧ R / 2 ^ bits + T / 2 ^ bits = X / 2 ^ bits - ε + c * 2 ^ (k - bits) := by
  have hp : (0 : ℤ) < 2 ^ bits := by positivity
  have e : T / 2 ^ bits = (X - R) / 2 ^ bits + c * 2 ^ (k - bits) := by
    rw [h, show c * 2 ^ k = (c * 2 ^ (k - bits)) * 2 ^ bits by rw [mul_assoc, ← pow_add]; congr 2; omega,
      Int.add_mul_ediv_right _ _ hp.ne']
  have a1 := Int.mul_ediv_add_emod X (2 ^ bits)
  have a2 := Int.mul_ediv_add_emod R (2 ^ bits)
  have a3 := Int.mul_ediv_add_emod (X - R) (2 ^ bits)
  have b1 := Int.emod_nonneg X hp.ne'
  have b2 := Int.emod_nonneg R hp.ne'
  have b3 := Int.emod_nonneg (X - R) hp.ne'
  have c1 := Int.emod_lt_of_pos X hp
  have c2 := Int.emod_lt_of_pos R hp
  have c3 := Int.emod_lt_of_pos (X - R) hp
  refine ⟨X / 2 ^ bits - R / 2 ^ bits - (X - R) / 2 ^ bits, ?_, by rw [e]; ring⟩
  generalize X / 2 ^ bits = p at *
  generalize R / 2 ^ bits = q at *
  generalize (X - R) / 2 ^ bits = t at *
  generalize (2 : ℤ) ^ bits = M at *
  have l1 : M * (p - q - t) < M * 2 := by nlinarith
  have l2 : M * (-1) < M * (p - q - t) := by nlinarith
  have l1 := lt_of_mul_lt_mul_left l1 hp.le
  have l2 := lt_of_mul_lt_mul_left l2 hp.le
  omega

theorem c62_trunc {bits : ℕ} (hk : 0 < k) (hw : k + s ≤ w) (hb : bits < k) {X R M : Vec n w} {x : AShr N n w}
    {mask r rb : All N n w × All N n w} (hx : Shared (k + s) key X x.val x.mac x.hasMac) (hh : x.hasMac = true)
    (hm : AuthArr (k + s) key M mask) (hr : AuthArr (k + s) key R r)
    (hrb : AuthArr (k + s) key (fun j => trShift k bits (R j)) rb) (pub : Vec n w) :
    ∃ z Y, truncA k s bits key mask pub r rb x = some z ∧ Shared (k + s) key Y z.val z.mac z.hasMac ∧ z.hasMac = true ∧
      ∀ j, ∃ ε c : ℤ, (ε = 0 ∨ ε = 1) ∧ (c = -1 ∨ c = 0 ∨ c = 1) ∧
        (c = 0 ↔ -2 ^ (k - 1) ≤ signed k (X j) - signed k (R j) ∧ signed k (X j) - signed k (R j) < 2 ^ (k - 1)) ∧
        Eqv k (Y j) ((signed k (X j) / 2 ^ bits - ε + c * 2 ^ (k - bits) : ℤ) : Rg w) := by
  have ha : AuthArr (k + s) key (X - R) (x.val - r.1, x.mac - r.2) := fun j => authSub ⟨hx.value j, hx.tag hh j⟩ (hr j)
  set t := (batchOpen k (x.val - r.1) (x.mac - r.2) mask 0).1 with ht
  have hz : truncA k s bits key mask pub r rb x = some ⟨rb.1 + onlyAt 0 fun j => trShift k bits (t j),
      rb.2 + fun i j => trShift k bits (t j) * key i, true⟩ := by
    unfold truncA
    simp only
    rw [guard_bind (openCheck_ok (by omega) hw ha hm pub), guard_bind (by omega)]
  have hY : ∀ j, Auth (k + s) key (trShift k bits (R j) + trShift k bits (t j))
      (fun i => rb.1 i j + if i = 0 then trShift k bits (t j) else 0) (fun i => rb.2 i j + trShift k bits (t j) * key i) :=
    fun j => authAdd (hrb j) (authPub 0 _)
  refine ⟨_, fun j => trShift k bits (R j) + trShift k bits (t j), hz, ⟨fun j => ?_, fun _ j => (hY j).tag⟩, rfl, fun j => ?_⟩
  · have := (hY j).value
    simp only [Pi.add_apply, onlyAt_apply]
    exact this
  · have hkw : k ≤ w := by omega
    have htj : Eqv k (t j) (X j - R j) := (batchOpen_ok ha hm j).1
    obtain ⟨x1, x2⟩ := signed_range hk (X j)
    obtain ⟨r1, r2⟩ := signed_range hk (R j)
    have e2 : (2 : ℤ) ^ k = 2 * 2 ^ (k - 1) := by rw [← pow_succ']; congr 1; omega
    have hp : (0 : ℤ) < 2 ^ (k - 1) := by positivity
    have cong : ∀ c : ℤ, Eqv k ((signed k (X j) - signed k (R j) + c * 2 ^ k : ℤ) : Rg w) (t j) := fun c => by
      refine eqvTrans ?_ (eqvSymm htj)
      obtain ⟨u, hu⟩ := signed_eqv hkw (X j)
      obtain ⟨v, hv⟩ := signed_eqv hkw (R j)
      push_cast
      rw [hu, hv]
      exact ⟨u - v + c, by ring⟩
    have main : ∃ c : ℤ, (c = -1 ∨ c = 0 ∨ c = 1) ∧
        (c = 0 ↔ -2 ^ (k - 1) ≤ signed k (X j) - signed k (R j) ∧ signed k (X j) - signed k (R j) < 2 ^ (k - 1)) ∧
        signed k (t j) = signed k (X j) - signed k (R j) + c * 2 ^ k := by
      by_cases h1 : signed k (X j) - signed k (R j) < -2 ^ (k - 1)
      · refine ⟨1, Or.inr (Or.inr rfl), ⟨fun h => by omega, fun h => by linarith [h.1]⟩, ?_⟩
        exact signed_unique hk hkw (cong 1) (by linarith) (by linarith)
      · by_cases h2 : 2 ^ (k - 1) ≤ signed k (X j) - signed k (R j)
        · refine ⟨-1, Or.inl rfl, ⟨fun h => by omega, fun h => by linarith [h.2]⟩, ?_⟩
          exact signed_unique hk hkw (cong (-1)) (by linarith) (by linarith)
        · refine ⟨0, Or.inr (Or.inl rfl), ⟨fun _ => ⟨by linarith, by linarith⟩, fun _ => rfl⟩, ?_⟩
          exact signed_unique hk hkw (cong 0) (by linarith) (by linarith)
    obtain ⟨c, hc, hc0, hs⟩ := main
    obtain ⟨ε, hε, he⟩ := trunc_int _ _ _ c (bits := bits) (by omega) hs
    refine ⟨ε, c, hε, hc, hc0, ?_⟩
    rw [← he]
    push_cast
    exact eqvAdd (trShift_eqv hk hkw _) (trShift_eqv hk hkw _)

/-- The number of masks for which the difference wraps around. -/
theorem c62_trunc_wraps (hk : 0 < k) (hw : k ≤ w) (X : Rg w) :
    ((Finset.univ.filter fun R : Fin (2 ^ k) => ¬ (-2 ^ (k - 1) ≤ signed k X - signed k ((R.val : ℕ) : Rg w) ∧
      signed k X - signed k ((R.val : ℕ) : Rg w) < 2 ^ (k - 1))).card : ℤ) =
      if 0 ≤ signed k X then signed k X + 1 else -signed k X - 1 := by
  obtain ⟨x1, x2⟩ := signed_range hk X
  have e2 : (2 : ℤ) ^ k = 2 * 2 ^ (k - 1) := by rw [← pow_succ']; congr 1; omega
  have e2n : (2 : ℕ) ^ k = 2 * 2 ^ (k - 1) := by rw [← pow_succ']; congr 1; omega
  have hp : (0 : ℤ) < 2 ^ (k - 1) := by positivity
  have hval : ∀ R : Fin (2 ^ k), (((R.val : ℕ) : Rg w)).val % 2 ^ k = R.val := fun R => by
    rw [ZMod.val_natCast, Nat.mod_eq_of_lt (R.2.trans_le (Nat.pow_le_pow_right (by norm_num) hw)), Nat.mod_eq_of_lt R.2]
  have inj : Function.Injective fun R : Fin (2 ^ k) => signed k ((R.val : ℕ) : Rg w) := by
    intro a b h
    have h1 := eqvTrans (eqvSymm (signed_eqv hw ((a.val : ℕ) : Rg w))) (by
      show Eqv k ((signed k ((a.val : ℕ) : Rg w) : ℤ) : Rg w) ((b.val : ℕ) : Rg w)
      rw [show signed k ((a.val : ℕ) : Rg w) = signed k ((b.val : ℕ) : Rg w) from h]
      exact signed_eqv hw _)
    have h2 := (eqv_iff hw _ _).1 h1
    have h3 : (((b.val : ℕ) : Rg w)).val % 2 ^ k = (((a.val : ℕ) : Rg w)).val % 2 ^ k := by
      have := (Int.natCast_modEq_iff (n := 2 ^ k)).1 (Int.modEq_iff_dvd.2 (by push_cast; exact h2))
      exact this
    rw [hval, hval] at h3
    exact Fin.ext h3.symm
  have img : ∀ lo hi : ℤ, -2 ^ (k - 1) ≤ lo → hi ≤ 2 ^ (k - 1) →
      (Finset.univ.filter fun R : Fin (2 ^ k) => lo ≤ signed k ((R.val : ℕ) : Rg w) ∧ signed k ((R.val : ℕ) : Rg w) < hi).image
        (fun R : Fin (2 ^ k) => signed k ((R.val : ℕ) : Rg w)) = Finset.Ico lo hi := by
    intro lo hi h1 h2
    ext z
    simp only [Finset.mem_image, Finset.mem_filter, Finset.mem_univ, true_and, Finset.mem_Ico]
    constructor
    · rintro ⟨R, h, rfl⟩
      exact h
    · rintro ⟨h3, h4⟩
      have hm0 : 0 ≤ z % 2 ^ k := Int.emod_nonneg _ (by positivity)
      have hm1 : z % 2 ^ k < 2 ^ k := Int.emod_lt_of_pos _ (by positivity)
      refine ⟨⟨(z % 2 ^ k).toNat, by zify; rw [Int.toNat_of_nonneg hm0]; exact hm1⟩, ?_⟩
      have hs : signed k (((z % 2 ^ k).toNat : ℕ) : Rg w) = z := by
        refine signed_unique hk hw ?_ (by linarith) (by linarith)
        have : (((z % 2 ^ k).toNat : ℕ) : Rg w) = ((z % 2 ^ k : ℤ) : Rg w) := by
          rw [← Int.cast_natCast, Int.toNat_of_nonneg hm0]
        rw [this]
        refine eqvOfDvd ?_
        have := Int.mul_ediv_add_emod z (2 ^ k)
        exact ⟨z / 2 ^ k, by linarith⟩
      simp only [hs]
      exact ⟨⟨h3, h4⟩, trivial⟩
  have cnt : ∀ lo hi : ℤ, -2 ^ (k - 1) ≤ lo → hi ≤ 2 ^ (k - 1) → lo ≤ hi →
      ((Finset.univ.filter fun R : Fin (2 ^ k) => lo ≤ signed k ((R.val : ℕ) : Rg w) ∧ signed k ((R.val : ℕ) : Rg w) < hi).card : ℤ) =
        hi - lo := by
    intro lo hi h1 h2 h3
    rw [← Finset.card_image_of_injective _ inj, img lo hi h1 h2, Int.card_Ico, Int.toNat_of_nonneg (by linarith)]
  split
  · rename_i h
    have e := cnt (-2 ^ (k - 1)) (signed k X + 1 - 2 ^ (k - 1)) le_rfl (by linarith) (by linarith)
    rw [show signed k X + 1 - 2 ^ (k - 1) - -2 ^ (k - 1) = signed k X + 1 by ring] at e
    rw [← e]
    congr 2
    ext R
    simp only [Finset.mem_filter, Finset.mem_univ, true_and]
    obtain ⟨r1, r2⟩ := signed_range hk ((R.val : ℕ) : Rg w)
    constructor
    · intro hn
      refine ⟨r1, ?_⟩
      by_contra hc
      exact hn ⟨by linarith, by linarith⟩
    · rintro ⟨-, h4⟩ ⟨-, h6⟩
      linarith
  · rename_i h
    have e := cnt (signed k X + 1 + 2 ^ (k - 1)) (2 ^ (k - 1)) (by linarith) le_rfl (by linarith)
    rw [show (2 : ℤ) ^ (k - 1) - (signed k X + 1 + 2 ^ (k - 1)) = -signed k X - 1 by ring] at e
    rw [← e]
    congr 2
    ext R
    simp only [Finset.mem_filter, Finset.mem_univ, true_and]
    obtain ⟨r1, r2⟩ := signed_range hk ((R.val : ℕ) : Rg w)
    constructor
    · intro hn
      refine ⟨?_, r2⟩
      by_contra hc
      exact hn ⟨by linarith, by linarith⟩
    · rintro ⟨h4, -⟩ ⟨h5, -⟩
      linarith

/-! ## Examples -/

/-- Two parties, keys 1 and 3, `k = 3`, `s = 2`, `w = 8`: product of 5 and 6, and a changed opening that is noticed. -/
def exA (v : Rg 8) (r : Rg 8) (rm : Rg 8) : All 1 1 8 × All 1 1 8 := (![![v - r], ![r]], ![![4 * v - rm], ![rm]])

example : AuthArr (3 + 2) ![1, 3] ![5] (exA 5 77 91) := by
  intro j
  exact ⟨⟨0, by revert j; decide +kernel⟩, ⟨0, by revert j; decide +kernel⟩⟩

example :
    let x : AShr 1 1 8 := ⟨(exA 5 77 91).1, (exA 5 77 91).2, true⟩
    let y : AShr 1 1 8 := ⟨(exA 6 12 13).1, (exA 6 12 13).2, true⟩
    let a := exA 100 31 8
    let b := exA 200 32 9
    let c := exA (100 * 200) 33 10
    ((mulAA 3 2 4 ![1, 3] (0, 0) (0, 0) ![7] ![3] a b c 0 0 x y).bind fun z => a2p 3 2 ![1, 3] (exA 9 1 2) ![5] z) = some ![6] ∧
      (mulAA 3 2 4 ![1, 3] (0, 0) (0, 0) ![7] ![3] a b c ![1] 0 x y).isNone = true := by
  decide +kernel

/-- The same change in a product of 1x1 matrices is not noticed: (5 + 1) * 6 = 36 = 4 modulo 8. -/
example :
    let mat : All 1 1 8 × All 1 1 8 → MShr 1 1 1 8 := fun p => ⟨fun i => Matrix.of ![p.1 i], fun i => Matrix.of ![p.2 i]⟩
    let z := matMulAA ![1, 3] (mat (exA 100 31 8)) (mat (exA 200 32 9)) (mat (exA (100 * 200) 33 10)) (Matrix.of ![![1]]) 0
      (mat (exA 5 77 91)) (mat (exA 6 12 13))
    a2p 3 2 ![1, 3] (exA 9 1 2) ![5] (flat z) = some ![4] := by
  decide +kernel

/-- An input that is revealed right away. -/
example : a2p 3 2 ![1, 3] (exA 9 1 2) ![5] (toShares ![5] ![![0], ![33]]) = none := by decide +kernel

/-- -20 is truncated by 2 bits to -6 (one too low) in `k = 6` bits. -/
example :
    let x : AShr 1 1 8 := ⟨(exA (-20) 77 91).1, (exA (-20) 77 91).2, true⟩
    ((truncA 6 2 2 ![1, 3] (exA 1 1 2) ![3] (exA 9 6 7) (exA 2 8 9) x).bind fun z => a2p 6 2 ![1, 3] (exA 1 1 2) ![2] z) = some ![58] := by
  decide +kernel

end Spu.Props
