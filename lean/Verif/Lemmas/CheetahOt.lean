import Verif.Lemmas.Gates
import Verif.Spec.CheetahOt
import Verif.Props.CheetahZip

set_option autoImplicit false

/-! # Lemmas on the oblivious-transfer protocols -/

namespace Spu.Spec
open Spu.Lemmas Spu.Model.Circ Spu.Model.CheetahOt Spu.Model.CheetahZip

variable {σ : Type} {w : ℕ} {Inv : σ → Prop} {ot : Ot σ w}

theorem _root_.Spu.Lemmas.Ok.liftO {α β : Type} {o : Option α} {a : α} {f : α → M σ β} {Q : β → Prop} (h : o = some a)
    (hf : Ok Inv (f a) Q) : Ok Inv ((liftM o : M σ α) >>= f) Q := by
  subst h
  exact Ok.bind (P := fun b => b = a) (fun s hs => ⟨a, s, rfl, hs, rfl⟩) (by rintro _ rfl; exact hf)

theorem _root_.Spu.Lemmas.Ok.and {α : Type} {m : M σ α} {P Q : α → Prop} (hP : Ok Inv m P) (hQ : Ok Inv m Q) : Ok Inv m fun a => P a ∧ Q a := by
  intro s hs
  obtain ⟨a, s', e, i, p⟩ := hP s hs
  obtain ⟨b, s'', e', _, q⟩ := hQ s hs
  rw [e] at e'
  cases e'
  exact ⟨a, s', e, i, p, q⟩

theorem lowBits_bit (k : ℕ) (v : BitVec w) (b : ℕ) : (lowBits k v).getLsbD b = (decide (b < k) && v.getLsbD b) := by
  unfold lowBits
  rw [BitVec.getLsbD_ofNat, Nat.testBit_mod_two_pow]
  by_cases h : b < w
  · simp [h, BitVec.getLsbD]
  · simp [h, BitVec.getLsbD_of_ge v b (by omega)]

theorem lowBits_toNat (k : ℕ) (v : BitVec w) : (lowBits k v).toNat = v.toNat % 2 ^ k := by
  unfold lowBits
  rw [BitVec.toNat_ofNat]
  exact Nat.mod_eq_of_lt (lt_of_le_of_lt (Nat.mod_le _ _) v.isLt)

theorem lowBits_self {k : ℕ} {v : BitVec w} (h : v.toNat < 2 ^ k) : lowBits k v = v := by
  apply BitVec.eq_of_toNat_eq
  rw [lowBits_toNat, Nat.mod_eq_of_lt h]

theorem packBits_bit {nbits : ℕ} (hb : nbits ≤ w) (a : ℕ → BitVec 8) (i b : ℕ) :
    (packBits (w := w) nbits a i).getLsbD b = (decide (b < nbits) && (a (i * nbits + (nbits - 1 - b))).getLsbD 0) := by
  have key : ∀ m, m ≤ nbits → ∀ b, ((List.range m).foldl (fun (acc : BitVec w) j => acc <<< 1 ||| (a (i * nbits + j) &&& 1).setWidth w) 0).getLsbD b =
      (decide (b < m) && (a (i * nbits + (m - 1 - b))).getLsbD 0) := by
    intro m
    induction m with
    | zero => intro _ b; simp
    | succ m ih =>
      intro hm b
      rw [List.range_succ, List.foldl_append, List.foldl_cons, List.foldl_nil, BitVec.getLsbD_or, BitVec.getLsbD_shiftLeft,
        BitVec.getLsbD_setWidth, BitVec.getLsbD_and]
      rcases b with _ | b
      · have : 0 < w := by omega
        simp [this]
      · rw [show b + 1 - 1 = b by omega, ih (by omega)]
        have h1 : (1 : BitVec 8).getLsbD (b + 1) = false := by
          rw [show (1 : BitVec 8) = 1#8 from rfl, BitVec.getLsbD_one]; simp
        rw [h1, show m + 1 - 1 - (b + 1) = m - 1 - b by omega]
        by_cases h : b < m
        · simp [h, show b + 1 < w by omega]
        · simp [h]
  exact key nbits le_rfl b

/-- one random transfer: the receiver's message and the sender's first message differ by choice times difference -/
theorem rot_bit {r : Rot} {i : ℕ} (h : r.ch i = 0 ∧ r.rc i = r.m0 i ∨ r.ch i = 1 ∧ r.rc i = r.m1 i) (b : ℕ) :
    ((r.rc i).getLsbD b ^^ (r.m0 i).getLsbD b) = ((r.ch i).getLsbD 0 && ((r.m1 i).getLsbD b ^^ (r.m0 i).getLsbD b)) := by
  rcases h with ⟨h1, h2⟩ | ⟨h1, h2⟩ <;> rw [h1, h2] <;> simp

theorem rot_ch {r : Rot} {i : ℕ} (h : r.ch i = 0 ∧ r.rc i = r.m0 i ∨ r.ch i = 1 ∧ r.rc i = r.m1 i) {b : ℕ} (hb : 0 < b) : (r.ch i).getLsbD b = false := by
  rcases h with ⟨h1, -⟩ | ⟨h1, -⟩ <;> rw [h1]
  · simp
  · rw [show (1 : BitVec 8) = 1#8 from rfl, BitVec.getLsbD_one]; simp; omega

/-- the word identity behind multiplication with a shared triple -/
theorem triple_word {k : ℕ} {a0 a1 b0 b1 c0 c1 x0 x1 y0 y1 : BitVec w}
    (ha : ∀ b, k ≤ b → a0.getLsbD b = false ∧ a1.getLsbD b = false) (hb : ∀ b, k ≤ b → b0.getLsbD b = false ∧ b1.getLsbD b = false)
    (hc : ∀ b, (c0.getLsbD b ^^ c1.getLsbD b) = ((a0.getLsbD b ^^ a1.getLsbD b) && (b0.getLsbD b ^^ b1.getLsbD b))) :
    let xa := lowBits k ((x0 ^^^ a0) ^^^ (x1 ^^^ a1))
    let yb := lowBits k ((y0 ^^^ b0) ^^^ (y1 ^^^ b1))
    ((xa &&& b0 ^^^ yb &&& a0 ^^^ c0) ^^^ (xa &&& yb)) ^^^ (xa &&& b1 ^^^ yb &&& a1 ^^^ c1) = lowBits k ((x0 ^^^ x1) &&& (y0 ^^^ y1)) := by
  dsimp only
  apply BitVec.eq_of_getLsbD_eq
  intro b _
  simp only [BitVec.getLsbD_xor, BitVec.getLsbD_and, lowBits_bit]
  have := hc b
  by_cases h : b < k
  · simp only [h, decide_true, Bool.true_and]
    generalize a0.getLsbD b = A0 at *
    generalize a1.getLsbD b = A1 at *
    generalize b0.getLsbD b = B0 at *
    generalize b1.getLsbD b = B1 at *
    generalize c0.getLsbD b = C0 at *
    generalize c1.getLsbD b = C1 at *
    generalize x0.getLsbD b = X0
    generalize x1.getLsbD b = X1
    generalize y0.getLsbD b = Y0
    generalize y1.getLsbD b = Y1
    have : C0 = (C1 ^^ ((A0 ^^ A1) && (B0 ^^ B1))) := by rw [← this]; cases C0 <;> cases C1 <;> rfl
    subst this
    cases A0 <;> cases A1 <;> cases B0 <;> cases B1 <;> cases C1 <;> cases X0 <;> cases X1 <;> cases Y0 <;> cases Y1 <;> rfl
  · obtain ⟨p, q⟩ := ha b (by omega)
    obtain ⟨p', q'⟩ := hb b (by omega)
    rw [p, q, p', q'] at this
    simp only [h, decide_false, Bool.false_and, p, q, p', q', Bool.and_false, Bool.xor_false, Bool.false_xor]
    simpa using this

theorem open_xor {nbits n : ℕ} (h0 : 0 < nbits) (hb : nbits ≤ w) (hn : 0 < n) (x : Share w) :
    ∃ o, openShare .xor nbits n x = some o ∧ ∀ i, i < n → o i = lowBits nbits (x 0 i ^^^ x 1 i) := by
  obtain ⟨o, ho, h⟩ := Spu.Props.c51_open_xor hb (by omega) hn x
  refine ⟨o, ho, fun i hi => ?_⟩
  rw [h i hi, if_neg (by omega)]
  rfl

theorem idx_lt {n nbits i k : ℕ} (hi : i < n) (hk : k < nbits) : i * nbits + k < n * nbits := by
  have := Nat.mul_le_mul_right nbits (show i + 1 ≤ n by omega)
  rw [Nat.succ_mul] at this
  omega

/-- two words that agree modulo `2 ^ (w - k)` agree after shifting left by `k` -/
theorem shl_congr {k : ℕ} {x y : BitVec w} (h : x.toNat % 2 ^ (w - k) = y.toNat % 2 ^ (w - k)) : x <<< k = y <<< k := by
  apply BitVec.eq_of_getLsbD_eq
  intro b hb
  rw [BitVec.getLsbD_shiftLeft, BitVec.getLsbD_shiftLeft]
  by_cases hk : b < k
  · simp [hk]
  · have : b - k < w - k := by omega
    have e : ∀ z : BitVec w, z.getLsbD (b - k) = (z.toNat % 2 ^ (w - k)).testBit (b - k) := fun z => by
      rw [Nat.testBit_mod_two_pow]; simp [this, BitVec.getLsbD]
    rw [e, e, h]

theorem ofNat_pow_dvd {k : ℕ} (hk : k ≤ w) {x y : BitVec w} : x.toNat % 2 ^ k = y.toNat % 2 ^ k ↔ (2 : ℤ) ^ k ∣ (x.toNat : ℤ) - y.toNat := by
  rw [show (2 : ℤ) ^ k = ((2 ^ k : ℕ) : ℤ) by push_cast; rfl, ← Nat.modEq_iff_dvd]
  exact ⟨fun h => h.symm, fun h => h.symm⟩

/-- congruence modulo a power of two that divides the ring -/
def Cong (k : ℕ) (x y : BitVec w) : Prop := x.toNat % 2 ^ k = y.toNat % 2 ^ k

theorem Cong.refl (k : ℕ) (x : BitVec w) : Cong k x x := rfl
theorem Cong.symm {k : ℕ} {x y : BitVec w} (h : Cong k x y) : Cong k y x := Eq.symm h
theorem Cong.trans {k : ℕ} {x y z : BitVec w} (h : Cong k x y) (h' : Cong k y z) : Cong k x z := Eq.trans h h'

theorem Cong.add {k : ℕ} (hk : k ≤ w) {x y x' y' : BitVec w} (h : Cong k x y) (h' : Cong k x' y') : Cong k (x + x') (y + y') := by
  unfold Cong at *
  rw [BitVec.toNat_add, BitVec.toNat_add, Nat.mod_mod_of_dvd _ (Nat.pow_dvd_pow 2 hk), Nat.mod_mod_of_dvd _ (Nat.pow_dvd_pow 2 hk),
    Nat.add_mod, h, h', ← Nat.add_mod]

theorem Cong.mul {k : ℕ} (hk : k ≤ w) {x y x' y' : BitVec w} (h : Cong k x y) (h' : Cong k x' y') : Cong k (x * x') (y * y') := by
  unfold Cong at *
  rw [BitVec.toNat_mul, BitVec.toNat_mul, Nat.mod_mod_of_dvd _ (Nat.pow_dvd_pow 2 hk), Nat.mod_mod_of_dvd _ (Nat.pow_dvd_pow 2 hk),
    Nat.mul_mod, h, h', ← Nat.mul_mod]

theorem Cong.neg {k : ℕ} (hk : k ≤ w) {x y : BitVec w} (h : Cong k x y) : Cong k (-x) (-y) := by
  have := Cong.mul hk (Cong.refl k (-1 : BitVec w)) h
  rwa [show (-1 : BitVec w) * x = -x by ring, show (-1 : BitVec w) * y = -y by ring] at this

theorem Cong.sub {k : ℕ} (hk : k ≤ w) {x y x' y' : BitVec w} (h : Cong k x y) (h' : Cong k x' y') : Cong k (x - x') (y - y') := by
  have := Cong.add hk h (Cong.neg hk h')
  rwa [← sub_eq_add_neg, ← sub_eq_add_neg] at this

theorem Cong.lowBits {k : ℕ} (x : BitVec w) : Cong k (lowBits k x) x := by
  unfold Cong
  rw [lowBits_toNat, Nat.mod_mod]

theorem Cong.mono {k l : ℕ} (h : l ≤ k) {x y : BitVec w} (hx : Cong k x y) : Cong l x y := by
  unfold Cong at *
  rw [← Nat.mod_mod_of_dvd x.toNat (Nat.pow_dvd_pow 2 h), hx, Nat.mod_mod_of_dvd _ (Nat.pow_dvd_pow 2 h)]

theorem Cong.full {x y : BitVec w} (h : Cong w x y) : x = y := by
  unfold Cong at h
  rw [Nat.mod_eq_of_lt x.isLt, Nat.mod_eq_of_lt y.isLt] at h
  exact BitVec.eq_of_toNat_eq h

/-- masking with `makeBitsMask` takes the low bits -/
theorem mask_low {k : ℕ} (h0 : 0 < k) (hk : k ≤ w) : ∃ m, makeBitsMask w k = some m ∧ ∀ v : BitVec w, v &&& m = lowBits k v := by
  obtain ⟨m, hm, hbit⟩ := Spu.Props.zipMask_bit (w := w) h0 hk
  refine ⟨m, hm, fun v => ?_⟩
  apply BitVec.eq_of_getLsbD_eq
  intro b _
  rw [BitVec.getLsbD_and, hbit, lowBits_bit, Bool.and_comm]

theorem and_one (v : BitVec w) (hw : 0 < w) : v &&& 1 = if v.getLsbD 0 then 1 else 0 := by
  apply BitVec.eq_of_getLsbD_eq
  intro b hb
  rw [BitVec.getLsbD_and, show (1 : BitVec w) = 1#w from rfl, BitVec.getLsbD_one]
  rcases b with _ | b
  · cases h : v.getLsbD 0 <;> simp [hw]
  · cases v.getLsbD 0 <;> simp [BitVec.getLsbD_one]

theorem bit01 (v : BitVec w) (hw : 0 < w) : v &&& 1 = 0 ∨ v &&& 1 = 1 := by
  rw [and_one v hw]; split <;> simp

theorem xor_low (x y : BitVec w) (hw : 0 < w) : (x ^^^ y) &&& 1 = (x &&& 1) + (y &&& 1) - 2 * (x &&& 1) * (y &&& 1) := by
  rw [and_one _ hw, and_one _ hw, and_one _ hw, BitVec.getLsbD_xor]
  cases x.getLsbD 0 <;> cases y.getLsbD 0 <;> simp
  exact (sub_eq_zero.2 (by rw [← BitVec.ofNat_add])).symm

end Spu.Spec
