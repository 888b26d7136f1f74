import Verif.Props.RadixBits
import Verif.Props.KeyGroups
import Verif.Lemmas.Gates

set_option autoImplicit false

/-!
# C33: the radix sort is a stable multi-key sort

For every draw of shuffling permutations the permutation that `gen_inv_perm` computes moves each row to its place in the
stable lexicographic order of the keys, in the requested direction.
-/

namespace Spu.Props
open Spu.Model Spu.Model.Radix Spu.Model.Perm Spu.Model.Circ Spu.Spec Spu.Lemmas

variable {w N : ℕ}

/-! ## Specification -/

/-- the number a key element stands for, by its data type -/
def ordVal (uns : Bool) (b : BitVec w) : ℤ := if uns then (b.toNat : ℤ) else b.toInt

/-- ascending order of negated numbers is descending order -/
def dirVal (asc : Bool) (z : ℤ) : ℤ := if asc then z else -z

/-- the key tuple of row `i`, most significant key first -/
def keyRow (asc : Bool) (keys : List (Val w N)) (i : Fin N) : List ℤ :=
  keys.map fun k => dirVal asc (ordVal k.uns (k.val i))

/-- all elements are representable in `nb` bits (two's complement for signed types) -/
def FitsBits (nb : ℕ) (x : Val w N) : Prop :=
  0 < nb ∧ nb ≤ w ∧ ∀ i, if x.uns then (x.val i).toNat < 2 ^ nb
    else -(2 ^ (nb - 1) : ℤ) ≤ (x.val i).toInt ∧ (x.val i).toInt < 2 ^ (nb - 1)

/-- signed and unsigned reading of the elements agree with the type -/
def SignedOk (x : Val w N) : Prop := x.uns = true → ∀ i, (x.val i).toNat < 2 ^ (w - 1)

/-! ## Bits of a key -/

/-- the number with the given bits, least significant first -/
def bitsVal : List (Fin N → BitVec w) → Fin N → ℕ
  | [], _ => 0
  | b :: bs, i => bitNat (b i) + 2 * bitsVal bs i

theorem bitNat_lt (b : BitVec w) : bitNat b < 2 := by unfold bitNat; split <;> omega

theorem bitsVal_lt (bs : List (Fin N → BitVec w)) (i : Fin N) : bitsVal bs i < 2 ^ bs.length := by
  induction bs with
  | nil => simp [bitsVal]
  | cons b bs ih =>
    have := bitNat_lt (b i)
    simp only [bitsVal, List.length_cons, pow_succ]
    omega

theorem bitsVal_append (as bs : List (Fin N → BitVec w)) (i : Fin N) :
    bitsVal (as ++ bs) i = bitsVal as i + 2 ^ as.length * bitsVal bs i := by
  induction as with
  | nil => simp [bitsVal]
  | cons a as ih =>
    simp only [List.cons_append, bitsVal, List.length_cons, ih, pow_succ]
    ring

theorem lex_num {m v v' c c' : ℕ} (hv : v < m) (hv' : v' < m) :
    v + m * c < v' + m * c' ↔ c < c' ∨ (c = c' ∧ v < v') := by
  rcases lt_trichotomy c c' with h | h | h
  · have := Nat.mul_le_mul_left m (Nat.succ_le_of_lt h)
    rw [Nat.mul_succ] at this
    constructor
    · intro _; exact .inl h
    · intro _; omega
  · subst h; simp
  · have := Nat.mul_le_mul_left m (Nat.succ_le_of_lt h)
    rw [Nat.mul_succ] at this
    constructor
    · intro _; omega
    · intro _; omega

theorem lex_num_eq {m v v' c c' : ℕ} (hv : v < m) (hv' : v' < m) :
    v + m * c = v' + m * c' ↔ c = c' ∧ v = v' := by
  have h1 := lex_num (c := c) (c' := c') hv hv'
  have h2 := lex_num (c := c') (c' := c) hv' hv
  constructor
  · intro e
    have n1 := h1.not.1 (by omega)
    have n2 := h2.not.1 (by omega)
    rw [not_or, not_and] at n1 n2
    have : c = c' := by omega
    have a := n1.2 this
    have b := n2.2 this.symm
    omega
  · rintro ⟨rfl, rfl⟩; rfl

section Loop
variable {σ : Type} {Inv : σ → Prop} {R : Spu.Model.Circ.M σ (Equiv.Perm (Fin N))} (hR : Ok Inv R fun _ => True)
  {ord : List (Fin N)} (ho : Covers ord)

theorem Ok.opt {α : Type} {o : Option α} {a : α} {Q : α → Prop} (h : o = some a) (hq : Q a) :
    Ok Inv (liftM o : Spu.Model.Circ.M σ α) Q := by
  subst h
  exact fun s hs => ⟨a, s, rfl, hs, hq⟩

theorem Ok.optBind {α β : Type} {o : Option α} {a : α} {f : α → Spu.Model.Circ.M σ β} {Q : β → Prop} (h : o = some a)
    (hf : Ok Inv (f a) Q) : Ok Inv ((liftM o : Spu.Model.Circ.M σ α) >>= f) Q :=
  Ok.bind (P := fun b => b = a) (Ok.opt h rfl) (by rintro _ rfl; exact hf)

include hR ho

theorem radixLoop_spec (hN : N ≤ 2 ^ w) (hw : 0 < w) : ∀ (bs : List (Fin N → BitVec w)), (∀ b ∈ bs, IsBits b) →
    ∀ (perm : Fin N → BitVec w) (τ : Equiv.Perm (Fin N)) (V : Fin N → ℕ) (m : ℕ), Stands (idx perm) τ → Rank τ V →
      (∀ i, V i < 2 ^ m) →
      Ok Inv (radixLoop R ord bs perm) fun p => ∃ τ', Stands (idx p) τ' ∧ Rank τ' fun i => V i + 2 ^ m * bitsVal bs i
  | [], _, perm, τ, V, m, hp, hτ, _ => by
    unfold radixLoop
    refine Ok.pure ⟨τ, hp, ?_⟩
    simpa [bitsVal] using hτ
  | [b0], hb, perm, τ, V, m, hp, hτ, hV => by
    unfold radixLoop
    refine Ok.bind hR fun ρ _ => ?_
    obtain ⟨π, h1, h2⟩ := round1_spec ho (hb b0 (by simp)) hp ρ hw
    refine Ok.opt h1 ⟨τ.trans π, stands_ofNat hN, ?_⟩
    refine Rank.comp hτ (C := fun i => bitNat (b0 i)) h2 (fun i j => ?_) (fun i j => ?_)
    · simpa [bitsVal] using lex_num (hV i) (hV j)
    · simpa [bitsVal] using lex_num_eq (hV i) (hV j)
  | b0 :: b1 :: rest, hb, perm, τ, V, m, hp, hτ, hV => by
    unfold radixLoop
    refine Ok.bind hR fun ρ _ => ?_
    obtain ⟨π, h1, h2⟩ := round2_spec ho (hb b0 (by simp)) (hb b1 (by simp)) hp ρ hw
    refine Ok.optBind h1 ?_
    have hrec := radixLoop_spec hN hw rest (fun b h => hb b (by simp [h])) _ (τ.trans π)
      (fun i => V i + 2 ^ m * (bitNat (b0 i) + 2 * bitNat (b1 i))) (m + 2) (stands_ofNat hN)
      (Rank.comp hτ (C := fun i => bitNat (b0 i) + 2 * bitNat (b1 i)) h2 (fun i j => lex_num (hV i) (hV j))
        (fun i j => lex_num_eq (hV i) (hV j)))
      (fun i => by
        have := bitNat_lt (b0 i); have := bitNat_lt (b1 i); have := hV i
        have : 2 ^ m * (bitNat (b0 i) + 2 * bitNat (b1 i)) ≤ 2 ^ m * 3 := Nat.mul_le_mul_left _ (by omega)
        rw [pow_add]; omega)
    refine Ok.imp hrec ?_
    rintro p ⟨τ', h3, h4⟩
    refine ⟨τ', h3, ?_⟩
    have : (fun i => V i + 2 ^ m * (bitNat (b0 i) + 2 * bitNat (b1 i)) + 2 ^ (m + 2) * bitsVal rest i) =
        fun i => V i + 2 ^ m * bitsVal (b0 :: b1 :: rest) i := by
      funext i; simp only [bitsVal, pow_add]; ring
    rwa [this] at h4

end Loop

theorem shr_bit (x : BitVec w) (b : ℕ) (hw : 0 < w) :
    (x >>> b &&& 1 = 0 ∨ x >>> b &&& 1 = 1) ∧ bitNat (x >>> b &&& 1) = x.toNat / 2 ^ b % 2 := by
  have h : (x >>> b &&& 1 : BitVec w).toNat = x.toNat / 2 ^ b % 2 := by
    rw [BitVec.toNat_and, BitVec.toNat_ushiftRight, Nat.shiftRight_eq_div_pow]
    have : (1 : BitVec w).toNat = 1 := by
      simp; omega
    rw [this, Nat.and_one_is_mod]
  have h01 : x.toNat / 2 ^ b % 2 = 0 ∨ x.toNat / 2 ^ b % 2 = 1 := by omega
  have h1 : (1 : BitVec w).toNat = 1 := by simp; omega
  have e0 : x.toNat / 2 ^ b % 2 = 0 → x >>> b &&& 1 = 0 := fun e => BitVec.eq_of_toNat_eq (by rw [h, e]; simp)
  have e1 : x.toNat / 2 ^ b % 2 = 1 → x >>> b &&& 1 = 1 := fun e => BitVec.eq_of_toNat_eq (by rw [h, e, h1])
  refine ⟨h01.imp e0 e1, ?_⟩
  rcases h01 with e | e
  · rw [e, e0 e]; simp [bitNat]
  · rw [e, e1 e]; simp [bitNat]; omega

theorem flip_bit {b : BitVec w} (hb : b = 0 ∨ b = 1) (hw : 0 < w) :
    (1 - b = 0 ∨ 1 - b = 1) ∧ bitNat (1 - b) = 1 - bitNat b := by
  rcases hb with rfl | rfl
  · refine ⟨.inr (by simp), ?_⟩
    simp [bitNat]; omega
  · refine ⟨.inl (by simp), ?_⟩
    simp [bitNat, hw.ne']

theorem radix_low (x : Fin N → BitVec w) (hw : 0 < w) (m : ℕ) (i : Fin N) :
    bitsVal ((List.range m).map fun b i => x i >>> b &&& 1) i = (x i).toNat % 2 ^ m := by
  induction m with
  | zero => simp [bitsVal, Nat.mod_one]
  | succ m ih =>
    rw [List.range_succ, List.map_append, bitsVal_append, ih, List.length_map, List.length_range, Nat.mod_pow_succ]
    simp only [List.map_cons, List.map_nil, bitsVal, (shr_bit (x i) m hw).2]
    ring

theorem radix_low_flip (x : Fin N → BitVec w) (hw : 0 < w) (m : ℕ) (i : Fin N) :
    bitsVal ((List.range m).map fun b i => (1 : BitVec w) - (x i >>> b &&& 1)) i + (x i).toNat % 2 ^ m + 1 = 2 ^ m := by
  induction m with
  | zero => simp [bitsVal, Nat.mod_one]
  | succ m ih =>
    rw [List.range_succ, List.map_append, bitsVal_append, List.length_map, List.length_range, Nat.mod_pow_succ]
    simp only [List.map_cons, List.map_nil, bitsVal]
    rw [(flip_bit (shr_bit (x i) m hw).1 hw).2, (shr_bit (x i) m hw).2]
    rcases (show (x i).toNat / 2 ^ m % 2 = 0 ∨ (x i).toNat / 2 ^ m % 2 = 1 by omega) with e | e <;> rw [e, pow_succ] <;>
      omega

/-- the low `nb` bits of a word whose signed value fits -/
theorem signed_mod {x : BitVec w} {n : ℕ} (hn : n + 1 ≤ w) (h1 : -(2 ^ n : ℤ) ≤ x.toInt) (h2 : x.toInt < 2 ^ n) :
    ((x.toNat % 2 ^ (n + 1) : ℕ) : ℤ) = if x.toInt < 0 then x.toInt + 2 ^ (n + 1) else x.toInt := by
  have hmod : ((x.toNat : ℕ) : ℤ) % 2 ^ (n + 1) = x.toInt % 2 ^ (n + 1) := by
    obtain ⟨d, rfl⟩ := Nat.exists_eq_add_of_le hn
    have hd : (2 ^ (n + 1) : ℤ) ∣ 2 ^ (n + 1 + d) := ⟨2 ^ d, by rw [pow_add]⟩
    rw [BitVec.toInt_eq_toNat_cond]
    split
    · rfl
    · push_cast
      rw [Int.sub_emod, Int.emod_eq_zero_of_dvd hd]
      simp
  push_cast
  rw [hmod]
  have hp : (2 : ℤ) ^ (n + 1) = 2 * 2 ^ n := by rw [pow_succ]; ring
  have hpos : (0 : ℤ) < 2 ^ n := by positivity
  split
  · rw [← Int.add_emod_right, Int.emod_eq_of_lt (by omega) (by omega)]
  · rw [Int.emod_eq_of_lt (by omega) (by omega)]

theorem keyBits_spec {x : Val w N} {valid : Option ℕ} (hf : FitsBits (valid.getD x.nb) x) (asc : Bool) :
    ∃ bs, keyBits x asc valid = some bs ∧ (∀ b ∈ bs, IsBits b) ∧ 0 < bs.length ∧
      ∃ c : ℤ, ∀ i, (bitsVal bs i : ℤ) = dirVal asc (ordVal x.uns (x.val i)) + c := by
  obtain ⟨h0, hle, hv⟩ := hf
  obtain ⟨n, hn⟩ : ∃ n, valid.getD x.nb = n + 1 := ⟨valid.getD x.nb - 1, by omega⟩
  rw [hn] at hle hv
  simp only [Nat.add_sub_cancel] at hv
  have hw : 0 < w := by omega
  let bt : ℕ → Fin N → BitVec w := fun b i => x.val i >>> b &&& 1
  let nbt : ℕ → Fin N → BitVec w := fun b i => 1 - (x.val i >>> b &&& 1)
  have hdec : bitDecompose x valid = some ((List.range n).map bt ++ [bt n]) := by
    unfold bitDecompose
    simp only [hn, if_pos hle, List.range_succ, List.map_append, List.map_cons, List.map_nil]
    rfl
  let lows : List (Fin N → BitVec w) := (List.range n).map fun b => if asc then bt b else nbt b
  let top : Fin N → BitVec w := if x.uns then (if asc then bt n else nbt n) else (if asc then nbt n else bt n)
  have hbs : keyBits x asc valid = some (lows ++ [top]) := by
    unfold keyBits
    simp only [hdec, Option.bind_eq_bind, Option.bind_some, List.getLast?_concat, List.dropLast_concat, List.map_map,
      Option.pure_def]
    rfl
  have hbt : ∀ b, IsBits (bt b) := fun b i => (shr_bit (x.val i) b hw).1
  have hnbt : ∀ b, IsBits (nbt b) := fun b i => (flip_bit (shr_bit (x.val i) b hw).1 hw).1
  refine ⟨_, hbs, ?_, by simp, ?_⟩
  · intro b hb
    simp only [List.mem_append, List.mem_singleton] at hb
    rcases hb with hb | rfl
    · obtain ⟨m, _, rfl⟩ := List.mem_map.1 hb
      cases asc <;> simp only [Bool.false_eq_true, if_true, if_false]
      · exact hnbt m
      · exact hbt m
    · show IsBits top
      simp only [top]
      cases x.uns <;> cases asc <;> simp only [Bool.false_eq_true, if_true, if_false] <;> first | exact hbt n | exact hnbt n
  · have hval : ∀ i, bitsVal (lows ++ [top]) i = bitsVal lows i + 2 ^ n * bitNat (top i) := by
      intro i
      rw [bitsVal_append]
      simp [lows, bitsVal]
    have hdig : ∀ i, (x.val i).toNat % 2 ^ (n + 1) = (x.val i).toNat % 2 ^ n + 2 ^ n * ((x.val i).toNat / 2 ^ n % 2) :=
      fun i => Nat.mod_pow_succ ..
    have hbtn : ∀ i, bitNat (bt n i) = (x.val i).toNat / 2 ^ n % 2 := fun i => (shr_bit (x.val i) n hw).2
    have hnbtn : ∀ i, bitNat (nbt n i) = 1 - (x.val i).toNat / 2 ^ n % 2 := fun i => by
      rw [← hbtn]; exact (flip_bit (shr_bit (x.val i) n hw).1 hw).2
    have hlow : asc = true → ∀ i, bitsVal lows i = (x.val i).toNat % 2 ^ n := by
      rintro rfl i; exact radix_low x.val hw n i
    have hlowf : asc = false → ∀ i, bitsVal lows i + (x.val i).toNat % 2 ^ n + 1 = 2 ^ n := by
      rintro rfl i; exact radix_low_flip x.val hw n i
    have hp : (2 : ℤ) ^ (n + 1) = 2 * 2 ^ n := by rw [pow_succ]; ring
    have hpos : (0 : ℤ) < 2 ^ n := by positivity
    refine ⟨if x.uns then (if asc then 0 else 2 ^ (n + 1) - 1) else (if asc then 2 ^ n else 2 ^ n - 1), fun i => ?_⟩
    have hv := hv i
    have hd := hdig i
    rw [hval]
    cases hu : x.uns
    · rw [hu] at hv
      simp only [Bool.false_eq_true, if_false] at hv
      have hs := signed_mod hle hv.1 hv.2
      rw [hd] at hs
      push_cast at hs
      have hl : ((x.val i).toNat % 2 ^ n : ℤ) < 2 ^ n := Int.emod_lt_of_pos _ hpos
      have hl0 : 0 ≤ ((x.val i).toNat % 2 ^ n : ℤ) := Int.emod_nonneg _ hpos.ne'
      cases ha : asc
      · have hf := hlowf ha i
        have htop : top i = bt n i := by simp [top, hu, ha]
        rw [htop, hbtn]
        simp only [dirVal, ordVal, Bool.false_eq_true, if_false]
        zify at hf ⊢
        push_cast
        rcases (show (x.val i).toNat / 2 ^ n % 2 = 0 ∨ (x.val i).toNat / 2 ^ n % 2 = 1 by omega) with e | e <;>
          zify at e <;> push_cast at e <;> rw [e] at hs ⊢ <;> split at hs <;> omega
      · have hf := hlow ha i
        have htop : top i = nbt n i := by simp [top, hu, ha]
        rw [htop, hnbtn, hf]
        simp only [dirVal, ordVal, Bool.false_eq_true, if_true, if_false]
        rcases (show (x.val i).toNat / 2 ^ n % 2 = 0 ∨ (x.val i).toNat / 2 ^ n % 2 = 1 by omega) with e | e
        · rw [e]; zify at e; push_cast at e; rw [e] at hs
          push_cast
          split at hs <;> omega
        · rw [e]; zify at e; push_cast at e; rw [e] at hs
          push_cast
          split at hs <;> omega
    · rw [hu] at hv
      simp only [if_true] at hv
      rw [Nat.mod_eq_of_lt hv] at hd
      cases ha : asc
      · have hf := hlowf ha i
        have htop : top i = nbt n i := by simp [top, hu, ha]
        rw [htop, hnbtn]
        simp only [dirVal, ordVal, Bool.false_eq_true, if_false, if_true]
        rcases (show (x.val i).toNat / 2 ^ n % 2 = 0 ∨ (x.val i).toNat / 2 ^ n % 2 = 1 by omega) with e | e
        · rw [e] at hd ⊢; zify at hf hd ⊢; push_cast at hf hd ⊢; omega
        · rw [e] at hd ⊢; zify at hf hd ⊢; push_cast at hf hd ⊢; omega
      · have hf := hlow ha i
        have htop : top i = bt n i := by simp [top, hu, ha]
        rw [htop, hbtn, hf, ← hd]
        simp [dirVal, ordVal]

theorem mapM_append_opt {α β : Type} (f : α → Option β) (a b : List α) {x y : List β} (ha : a.mapM f = some x)
    (hb : b.mapM f = some y) : (a ++ b).mapM f = some (x ++ y) := by
  rw [List.mapM_append, ha, hb]; rfl

theorem bvVector_spec (keys : List (Val w N)) (valid : Option ℕ) (asc : Bool)
    (hf : ∀ k ∈ keys, FitsBits (valid.getD k.nb) k) :
    ∃ bs, bvVector keys asc valid = some bs ∧ (∀ b ∈ bs, IsBits b) ∧ (keys ≠ [] → 0 < bs.length) ∧
      (∀ i j, bitsVal bs i < bitsVal bs j ↔ keyRow asc keys i < keyRow asc keys j) := by
  suffices h : ∃ t : List (List (Fin N → BitVec w)), (keys.reverse.mapM fun k => keyBits k asc valid) = some t ∧
      (∀ b ∈ t.flatten, IsBits b) ∧ (keys ≠ [] → 0 < t.flatten.length) ∧
      (∀ i j, bitsVal t.flatten i < bitsVal t.flatten j ↔ keyRow asc keys i < keyRow asc keys j) by
    obtain ⟨t, h1, h2⟩ := h
    exact ⟨t.flatten, by unfold bvVector; rw [h1]; rfl, h2⟩
  induction keys with
  | nil => exact ⟨[], rfl, by simp, by simp, fun i j => by simp [bitsVal, keyRow]⟩
  | cons k ks ih =>
    obtain ⟨t, h1, h2, _, h4⟩ := ih fun k hk => hf k (by simp [hk])
    obtain ⟨bs, g1, g2, g3, c, g4⟩ := keyBits_spec (hf k (by simp)) asc
    refine ⟨t ++ [bs], ?_, ?_, ?_, fun i j => ?_⟩
    · rw [List.reverse_cons]
      exact mapM_append_opt _ _ _ h1 (by simp [g1])
    · intro b hb
      simp only [List.flatten_append, List.flatten_cons, List.flatten_nil, List.append_nil, List.mem_append] at hb
      exact hb.elim (h2 b) (g2 b)
    · intro _
      simp only [List.flatten_append, List.flatten_cons, List.flatten_nil, List.append_nil, List.length_append]
      omega
    · simp only [List.flatten_append, List.flatten_cons, List.flatten_nil, List.append_nil, bitsVal_append]
      rw [lex_num (bitsVal_lt _ _) (bitsVal_lt _ _)]
      simp only [keyRow, List.map_cons, List.cons_lt_cons_iff]
      have e1 := g4 i; have e2 := g4 j
      have h4 := h4 i j
      simp only [keyRow] at h4
      rw [h4]
      have a1 : bitsVal bs i < bitsVal bs j ↔ dirVal asc (ordVal k.uns (k.val i)) < dirVal asc (ordVal k.uns (k.val j)) := by
        zify; rw [e1, e2]; omega
      have a2 : bitsVal bs i = bitsVal bs j ↔ dirVal asc (ordVal k.uns (k.val i)) = dirVal asc (ordVal k.uns (k.val j)) := by
        zify; rw [e1, e2]; omega
      rw [a1, a2]

/-- only the order of the keys matters -/
theorem Rank.congr {κ κ' : Type} [LinearOrder κ] [LinearOrder κ'] {τ : Equiv.Perm (Fin N)} {K : Fin N → κ}
    {K' : Fin N → κ'} (h : Rank τ K) (hk : ∀ i j, K i < K j ↔ K' i < K' j) : Rank τ K' := by
  intro i j
  have he : K i = K j ↔ K' i = K' j := by
    have h1 := hk i j; have h2 := hk j i
    constructor
    · intro e
      refine le_antisymm (not_lt.1 fun h => ?_) (not_lt.1 fun h => ?_)
      · exact absurd (h2.2 h) (by rw [e]; exact lt_irrefl _)
      · exact absurd (h1.2 h) (by rw [e]; exact lt_irrefl _)
    · intro e
      refine le_antisymm (not_lt.1 fun h => ?_) (not_lt.1 fun h => ?_)
      · exact absurd (h2.1 h) (by rw [e]; exact lt_irrefl _)
      · exact absurd (h1.1 h) (by rw [e]; exact lt_irrefl _)
  rw [h i j, hk, he]

section Secret
variable {σ : Type} {Inv : σ → Prop} {R : Spu.Model.Circ.M σ (Equiv.Perm (Fin N))} (hR : Ok Inv R fun _ => True)
  {ord : List (Fin N)} (ho : Covers ord)
include hR ho

/-- **C33**: for secret keys that fit the bit count used, `_gen_inv_perm_s` yields the stable sorting permutation: most
significant key first, in the requested direction, signed keys in signed order. -/
theorem c33_secret (hN : N ≤ 2 ^ w) {keys : List (Val w N)} (hk : keys ≠ []) (asc : Bool) (valid : Option ℕ)
    (hf : ∀ k ∈ keys, FitsBits (valid.getD k.nb) k) :
    Ok Inv (genInvPermS R ord keys asc valid) fun p => ∃ τ, Stands (idx p) τ ∧ Rank τ (keyRow asc keys) := by
  obtain ⟨bs, h1, h2, h3, h4⟩ := bvVector_spec keys valid asc hf
  have hw : 0 < w := by
    obtain ⟨k, hk'⟩ := List.exists_mem_of_ne_nil keys hk
    obtain ⟨a, b, _⟩ := hf k hk'; omega
  unfold genInvPermS
  refine Ok.optBind h1 (Ok.enforce (by simpa using h3 hk) ?_)
  refine Ok.imp (radixLoop_spec hR ho hN hw bs h2 _ 1 (fun _ => 0) 0 (stands_ofNat (π := 1) hN) ?_ (by simp)) ?_
  · intro i j; simp
  · rintro p ⟨τ, g1, g2⟩
    refine ⟨τ, g1, g2.congr fun i j => ?_⟩
    simpa using h4 i j

end Secret

end Spu.Props
