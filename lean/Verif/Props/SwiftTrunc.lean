import Verif.Props.Swift

set_option autoImplicit false

/-!
# C87: truncation of SWIFT shares
-/

namespace Spu.Props.Swift
open Spu.Model.Swift Spu.Spec.Swift Spu.Lemmas.Swift Spu.Lemmas

variable {k : ℕ}

theorem idx_mod {n k j : ℕ} (h : j < k) : (n * k + j) % k = j := by
  rw [Nat.mul_comm, Nat.mul_add_mod, Nat.mod_eq_of_lt h]

theorem idx_div {n k j : ℕ} (h : j < k) : (n * k + j) / k = n := by
  rw [Nat.mul_comm, Nat.mul_add_div (by omega), Nat.div_eq_of_lt h, Nat.add_zero]

theorem shares_scale {x : Fin 3 → Shr (BitVec k)} {v : BitVec k} (h : Shares x v) (c : BitVec k) : Shares (scale c x) (c * v) := by
  obtain ⟨a1, a2, be, ga, l, rfl⟩ := h
  exact ⟨c * a1, c * a2, c * be, c * ga, ⟨by simp [scale, l.p0, mul_add], by simp [scale, l.p1], by simp [scale, l.p2]⟩,
    by rw [mul_sub, mul_sub]⟩

theorem shares_comp {x : ℕ → Fin 3 → Shr (BitVec k)} {v : ℕ → BitVec k} (h : ∀ n, Shares (x n) (v n)) : Shares (compA x) v := by
  choose a1 a2 be ga l e using h
  refine ⟨a1, a2, be, ga, ⟨?_, ?_, ?_⟩, funext e⟩
  · simp only [compA, (l _).p0]; rfl
  · simp only [compA, (l _).p1]
  · simp only [compA, (l _).p2]

theorem shares_at {N : ℕ} {z : Fin 3 → Shr (Fin N → BitVec k)} {v : Fin N → BitVec k} (h : Shares z v) (n : Fin N) :
    Shares (fun i => ⟨(z i).a n, (z i).b n, (z i).c n⟩) (v n) := by
  obtain ⟨a1, a2, be, ga, l, rfl⟩ := h
  exact ⟨a1 n, a2 n, be n, ga n, ⟨by simp [l.p0], by simp [l.p1], by simp [l.p2]⟩, rfl⟩

theorem shares_collect {N : ℕ} {x : Fin N → Fin 3 → Shr (BitVec k)} {v : Fin N → BitVec k} (h : ∀ n, Shares (x n) (v n)) :
    Shares (fun i => (⟨fun n => (x n i).a, fun n => (x n i).b, fun n => (x n i).c⟩ : Shr (Fin N → BitVec k))) v := by
  choose a1 a2 be ga l e using h
  refine ⟨a1, a2, be, ga, ⟨?_, ?_, ?_⟩, funext e⟩
  · simp only [(l _).p0]; rfl
  · simp only [(l _).p1]
  · simp only [(l _).p2]

theorem shares_fold {f : ℕ → Fin 3 → Shr (BitVec k)} {w : ℕ → BitVec k} (h : ∀ j, Shares (f j) (w j)) (n : ℕ) :
    Shares ((List.range n).foldl (fun acc j => addAA acc (f j)) (fun _ => ⟨0, 0, 0⟩)) (∑ j ∈ Finset.range n, w j) := by
  induction n with
  | zero => exact ⟨0, 0, 0, 0, ⟨by simp, by simp, by simp⟩, by simp⟩
  | succ n ih =>
    rw [List.range_succ, List.foldl_append, Finset.sum_range_succ]
    exact c87_addAA ih (h n)

/-- a bit as a word -/
def bitW (x : BitVec k) (q : ℕ) : BitVec k := BitVec.ofNat k (x.getLsbD q).toNat

theorem bitW_eq (x : BitVec k) (q : ℕ) : (x >>> q) &&& 1 = bitW x q := by
  apply BitVec.eq_of_getLsbD_eq
  intro i hi
  rw [BitVec.getLsbD_and, BitVec.getLsbD_ushiftRight, bitW]
  by_cases h0 : i = 0
  · subst h0
    cases h : x.getLsbD q <;> simp [hi]
  · have : (1 : BitVec k).getLsbD i = false := by
      rw [show (1 : BitVec k) = BitVec.ofNat k 1 from rfl, BitVec.getLsbD_ofNat]
      have : Nat.testBit 1 i = false := by
        rw [Nat.testBit_eq_decide_div_mod_eq, Nat.div_eq_of_lt (Nat.one_lt_two_pow h0)]
        rfl
      simp [this]
    rw [this, Bool.and_false]
    cases h : x.getLsbD q
    · simp
    · exact this.symm

theorem bitW_xor (x y : BitVec k) (q : ℕ) : bitW x q + bitW y q - 2 * (bitW x q * bitW y q) = bitW (x ^^^ y) q := by
  unfold bitW
  rw [BitVec.getLsbD_xor]
  cases x.getLsbD q <;> cases y.getLsbD q <;>
    simp only [Bool.toNat_true, Bool.toNat_false, Bool.xor_true, Bool.xor_false, Bool.not_true, Bool.not_false,
      show BitVec.ofNat k 1 = 1 from rfl, show BitVec.ofNat k 0 = 0 from rfl] <;> ring

theorem sum_bitW (x : BitVec k) (n : ℕ) : ∑ q ∈ Finset.range n, 1#k <<< q * bitW x q = BitVec.ofNat k (x.toNat % 2 ^ n) := by
  induction n with
  | zero => simp [Nat.mod_one]
  | succ n ih =>
    rw [Finset.sum_range_succ, ih, Nat.mod_pow_succ, BitVec.ofNat_add]
    congr 1
    have hb : (x.getLsbD n).toNat = x.toNat / 2 ^ n % 2 := by
      unfold BitVec.getLsbD
      rw [Nat.toNat_testBit]
    rw [bitW, hb, shiftLeft_eq_mul, show ((2 : ℤ) ^ n) = ((2 ^ n : ℕ) : ℤ) by push_cast; rfl, BitVec.ofInt_natCast,
      show (1#k) = 1 from rfl, one_mul, ← BitVec.ofNat_mul]

theorem sshr_split (x : BitVec k) {d : ℕ} (hd : d ≤ k) (hk : 0 < k) :
    BitVec.ofNat k ((x >>> d).toNat % 2 ^ (k - d)) + BitVec.allOnes k <<< (k - d) * bitW x (k - 1) = x.sshiftRight d := by
  have h1 : (x >>> d).toNat < 2 ^ (k - d) := by
    rw [BitVec.toNat_ushiftRight, Nat.shiftRight_eq_div_pow, Nat.div_lt_iff_lt_mul (by positivity), ← pow_add,
      Nat.sub_add_cancel hd]
    exact x.isLt
  rw [Nat.mod_eq_of_lt h1, BitVec.ofNat_toNat, BitVec.setWidth_eq, bitW]
  have hm : x.getLsbD (k - 1) = x.msb := by simp [BitVec.msb_eq_getLsbD_last]
  rw [hm]
  cases h : x.msb
  · simp only [Bool.toNat_false]
    rw [show BitVec.ofNat k 0 = 0 from rfl, mul_zero, add_zero, BitVec.sshiftRight_eq_of_msb_false h]
  · simp only [Bool.toNat_true]
    rw [show BitVec.ofNat k 1 = 1 from rfl, mul_one]
    rw [BitVec.add_eq_or_of_and_eq_zero]
    · apply BitVec.eq_of_getLsbD_eq
      intro i hi
      rw [BitVec.getLsbD_or, BitVec.getLsbD_ushiftRight, BitVec.getLsbD_shiftLeft, BitVec.getLsbD_sshiftRight, h]
      have : ¬ k ≤ i := by omega
      by_cases hc : d + i < k
      · simp [hc, hi, this]
        intro; omega
      · simp [hc, hi, this]
        refine Or.inr ⟨by omega, by omega⟩
    · apply BitVec.eq_of_getLsbD_eq
      intro i hi
      rw [BitVec.getLsbD_and, BitVec.getLsbD_ushiftRight, BitVec.getLsbD_shiftLeft]
      by_cases hc : d + i < k
      · have : i < k - d := by omega
        simp [this]
      · rw [BitVec.getLsbD_of_ge _ _ (by omega)]
        simp

theorem oneShl_eq (ub : BitVec k) {s : ℕ} (hs : s ≤ k) : oneShl ub s = 1#k <<< s + if s = k then ub else 0 := by
  unfold oneShl
  split_ifs with h h' h'
  · omega
  · simp
  · subst h'
    simp
  · omega

theorem shl_succ (j : ℕ) : 1#k <<< (j + 1) = 2 * 1#k <<< j := by
  simp only [shiftLeft_eq_mul, show (1#k) = 1 from rfl, one_mul]
  rw [pow_succ', BitVec.ofInt_mul]
  rfl

theorem bitW_top (x y ub : BitVec k) : ub * (bitW x (k - 1) * bitW y (k - 1)) = if x.msb ∧ y.msb then ub else 0 := by
  unfold bitW
  rw [← BitVec.msb_eq_getLsbD_last, ← BitVec.msb_eq_getLsbD_last]
  cases x.msb <;> cases y.msb <;>
    simp only [Bool.toNat_true, Bool.toNat_false, show BitVec.ofNat k 1 = 1 from rfl, show BitVec.ofNat k 0 = 0 from rfl] <;> simp

/-- what the preprocessing of a truncation draws is consistent -/
structure TrOk {N : ℕ} (D : TrRand k N) : Prop where
  p : Paired D.p0 D.p1
  A : SwDotOk D.A
  B : SwDotOk D.B

/-- **C87**: the pair `Trgen` makes: a share of `r` — off by `ub` when the two top bits are set — and a share of
the sign-extending shift of `r` -/
theorem c87_trgen (hk : k = 32 ∨ k = 64) (H : HashFn) {N bits : ℕ} (hb : 1 ≤ bits) (hbk : bits ≤ k) {D : TrRand k N} (hD : TrOk D)
    (ub u : BitVec k) (al : Bool) :
    ∃ z, (trgen H N bits D ub u).run al = some (z, al) ∧
      ∀ n : Fin N, Shares (z.1 n) ((D.p0 1 n ^^^ D.p0 0 n) - if (D.p0 1 n).msb ∧ (D.p0 0 n).msb then ub else 0) ∧
        Shares (z.2 n) ((D.p0 1 n ^^^ D.p0 0 n).sshiftRight bits) := by
  have hk0 : 0 < k := by omega
  simp only [← bitW_top]
  obtain ⟨e0, e1, e2⟩ := Paired.eqs hD.p
  have hs1 : ∀ n, Shares (trS1 D u n) (bitW (D.p0 1 (n / k)) (n % k)) := by
    intro n
    obtain ⟨z, h1, h2⟩ := c87_jointSharing (i := 0) (j := 1) (by decide)
      (msg := fun p => ((![D.p1 0, D.p0 1, fun _ => u] : Fin 3 → ℕ → BitVec k) p (n / k) >>> (n % k)) &&& 1)
      (v := bitW (D.p0 1 (n / k)) (n % k)) (by simp only [← bitW_eq, Matrix.cons_val_zero, e0]) (by simp [← bitW_eq]) (D.j1 n)
    simp only [trS1, h1]
    exact h2
  have hs2 : ∀ n, Shares (trS2 D u n) (bitW (D.p0 0 (n / k)) (n % k)) := by
    intro n
    obtain ⟨z, h1, h2⟩ := c87_jointSharing (i := 0) (j := 2) (by decide)
      (msg := fun p => ((![D.p0 0, fun _ => u, D.p1 2] : Fin 3 → ℕ → BitVec k) p (n / k) >>> (n % k)) &&& 1)
      (v := bitW (D.p0 0 (n / k)) (n % k)) (by simp [← bitW_eq]) (by simp [← bitW_eq, e2]) (D.j2 n)
    simp only [trS2, h1]
    exact h2
  have at1 : ∀ (n : ℕ) (j : ℕ), j < k → Shares (trS1 D u (n * k + j)) (bitW (D.p0 1 n) j) := by
    intro n j hj
    have := hs1 (n * k + j)
    rwa [idx_mod hj, idx_div hj] at this
  have at2 : ∀ (n : ℕ) (j : ℕ), j < k → Shares (trS2 D u (n * k + j)) (bitW (D.p0 0 n) j) := by
    intro n j hj
    have := hs2 (n * k + j)
    rwa [idx_mod hj, idx_div hj] at this
  have top : ∀ n : ℕ, (n + 1) * k - 1 = n * k + (k - 1) := by
    intro n
    rw [Nat.succ_mul]
    omega
  set L := k - bits + 1 with hL
  set high : BitVec k := BitVec.allOnes k <<< (k - bits) with hh
  -- the inputs of the two inner products
  have hX : ∀ n, Shares (if n % L < k - bits then scale (oneShl ub (n % L + 1)) (trS1 D u (n / L * k + (n % L + bits)))
        else scale (2 * high) (trS1 D u ((n / L + 1) * k - 1)))
      (if n % L < k - bits then oneShl ub (n % L + 1) * bitW (D.p0 1 (n / L)) (n % L + bits)
        else 2 * high * bitW (D.p0 1 (n / L)) (k - 1)) := by
    intro n
    split_ifs with h
    · exact shares_scale (at1 _ _ (by omega)) _
    · rw [top]
      exact shares_scale (at1 _ _ (by omega)) _
  have hY : ∀ n, Shares (if n % L < k - bits then trS2 D u (n / L * k + (n % L + bits)) else trS2 D u ((n / L + 1) * k - 1))
      (if n % L < k - bits then bitW (D.p0 0 (n / L)) (n % L + bits) else bitW (D.p0 0 (n / L)) (k - 1)) := by
    intro n
    split_ifs with h
    · exact at2 _ _ (by omega)
    · rw [top]
      exact at2 _ _ (by omega)
  have hP : ∀ n, Shares (scale (oneShl ub (n % k + 1)) (trS1 D u n)) (oneShl ub (n % k + 1) * bitW (D.p0 1 (n / k)) (n % k)) :=
    fun n => shares_scale (hs1 n) _
  obtain ⟨zA, hA, sA⟩ := c87_dotAA hk H L hD.A (shares_comp hX) (shares_comp hY) (fun _ => u) al
  obtain ⟨zB, hB, sB⟩ := c87_dotAA hk H k hD.B (shares_comp hP) (shares_comp hs2) (fun _ => u) al
  unfold trgen
  simp only []
  rw [StateT.run_bind, hA]
  simp only [Option.bind_eq_bind, Option.bind_some]
  rw [StateT.run_bind]
  erw [hB]
  simp only [Option.bind_eq_bind, Option.bind_some]
  refine ⟨_, rfl, fun n => ⟨?_, ?_⟩⟩
  · have hf : ∀ j, Shares (scale (1#k <<< j) (addAA (trS1 D u (n * k + j)) (trS2 D u (n * k + j))))
        (1#k <<< j * (bitW (D.p0 1 ((n * k + j) / k)) ((n * k + j) % k) + bitW (D.p0 0 ((n * k + j) / k)) ((n * k + j) % k))) :=
      fun j => shares_scale (c87_addAA (hs1 _) (hs2 _)) _
    have h := c87_addAA (shares_fold hf k) (c87_negateA (shares_at sB n))
    refine cast (congrArg (Shares _) ?_) h
    rw [← sub_eq_add_neg, ← Finset.sum_sub_distrib]
    have hterm : ∀ j ∈ Finset.range k, 1#k <<< j * (bitW (D.p0 1 ((n * k + j) / k)) ((n * k + j) % k) + bitW (D.p0 0 ((n * k + j) / k)) ((n * k + j) % k))
        - oneShl ub ((n * k + j) % k + 1) * bitW (D.p0 1 ((n * k + j) / k)) ((n * k + j) % k) * bitW (D.p0 0 ((n * k + j) / k)) ((n * k + j) % k) =
        1#k <<< j * bitW (D.p0 1 n ^^^ D.p0 0 n) j - (if j = k - 1 then ub * (bitW (D.p0 1 n) (k - 1) * bitW (D.p0 0 n) (k - 1)) else 0) := by
      intro j hj
      have hj := Finset.mem_range.1 hj
      rw [idx_mod hj, idx_div hj, oneShl_eq ub (by omega), shl_succ, ← bitW_xor]
      by_cases hc : j = k - 1
      · rw [if_pos hc, if_pos (by omega), hc]
        ring
      · rw [if_neg hc, if_neg (by omega)]
        ring
    rw [Finset.sum_congr rfl hterm, Finset.sum_sub_distrib, sum_bitW, Finset.sum_ite_eq' , if_pos (Finset.mem_range.2 (by omega)),
      Nat.mod_eq_of_lt (BitVec.isLt _), BitVec.ofNat_toNat, BitVec.setWidth_eq]
  · have hf : ∀ j, Shares (scale (1#k <<< j) (addAA (trS1 D u (n * k + (j + bits))) (trS2 D u (n * k + (j + bits)))))
        (1#k <<< j * (bitW (D.p0 1 ((n * k + (j + bits)) / k)) ((n * k + (j + bits)) % k) +
          bitW (D.p0 0 ((n * k + (j + bits)) / k)) ((n * k + (j + bits)) % k))) :=
      fun j => shares_scale (c87_addAA (hs1 _) (hs2 _)) _
    have ht := shares_scale (c87_addAA (at1 n (k - 1) (by omega)) (at2 n (k - 1) (by omega))) high
    rw [← top] at ht
    have h := c87_addAA (c87_addAA (shares_fold hf (k - bits)) ht) (c87_negateA (shares_at sA n))
    refine cast (congrArg (Shares _) ?_) h
    have hsum : ∑ j ∈ Finset.range (k - bits), 1#k <<< j * (bitW (D.p0 1 ((n * k + (j + bits)) / k)) ((n * k + (j + bits)) % k) +
          bitW (D.p0 0 ((n * k + (j + bits)) / k)) ((n * k + (j + bits)) % k)) =
        ∑ j ∈ Finset.range (k - bits), 1#k <<< j * (bitW (D.p0 1 n) (j + bits) + bitW (D.p0 0 n) (j + bits)) := by
      refine Finset.sum_congr rfl fun j hj => ?_
      have hj := Finset.mem_range.1 hj
      rw [idx_mod (by omega), idx_div (by omega)]
    have hdot : ∑ j ∈ Finset.range L,
          (if (n * L + j) % L < k - bits then oneShl ub ((n * L + j) % L + 1) * bitW (D.p0 1 ((n * L + j) / L)) ((n * L + j) % L + bits)
            else 2 * high * bitW (D.p0 1 ((n * L + j) / L)) (k - 1)) *
          (if (n * L + j) % L < k - bits then bitW (D.p0 0 ((n * L + j) / L)) ((n * L + j) % L + bits)
            else bitW (D.p0 0 ((n * L + j) / L)) (k - 1)) =
        ∑ j ∈ Finset.range (k - bits), 2 * 1#k <<< j * (bitW (D.p0 1 n) (j + bits) * bitW (D.p0 0 n) (j + bits)) +
          2 * high * bitW (D.p0 1 n) (k - 1) * bitW (D.p0 0 n) (k - 1) := by
      rw [hL, Finset.sum_range_succ]
      congr 1
      · refine Finset.sum_congr rfl fun j hj => ?_
        have hj := Finset.mem_range.1 hj
        rw [idx_mod (by omega), idx_div (by omega), if_pos hj, if_pos hj, oneShl, if_pos (by omega), shl_succ]
        ring
      · rw [idx_mod (by omega), idx_div (by omega), if_neg (by omega), if_neg (by omega)]
    rw [hsum]
    erw [hdot]
    have hbits : ∑ j ∈ Finset.range (k - bits), 1#k <<< j * (bitW (D.p0 1 n) (j + bits) + bitW (D.p0 0 n) (j + bits)) -
        ∑ j ∈ Finset.range (k - bits), 2 * 1#k <<< j * (bitW (D.p0 1 n) (j + bits) * bitW (D.p0 0 n) (j + bits)) =
        BitVec.ofNat k (((D.p0 1 n ^^^ D.p0 0 n) >>> bits).toNat % 2 ^ (k - bits)) := by
      rw [← Finset.sum_sub_distrib, ← sum_bitW]
      refine Finset.sum_congr rfl fun j hj => ?_
      have hs : bitW ((D.p0 1 n ^^^ D.p0 0 n) >>> bits) j = bitW (D.p0 1 n ^^^ D.p0 0 n) (j + bits) := by
        rw [bitW, BitVec.getLsbD_ushiftRight, Nat.add_comm]
        rfl
      rw [hs, ← bitW_xor]
      ring
    rw [← sshr_split _ hbk hk0, ← hbits, ← bitW_xor, ← hh]
    ring

/-- **C87**: what a truncated share holds, for an opened `x - r` -/
theorem c87_truncA (hk : k = 32 ∨ k = 64) (H : HashFn) {N bits : ℕ} (hb : 1 ≤ bits) (hbk : bits ≤ k) {D : TrRand k N} (hD : TrOk D)
    {x : Fin N → Fin 3 → Shr (BitVec k)} {v : Fin N → BitVec k} (hx : ∀ n, Shares (x n) (v n)) (ub u : BitVec k) (al : Bool) :
    ∃ z, (truncA H N bits D x ub u).run al = some (z, al) ∧ ∀ n,
      Shares (z n) ((v n - (D.p0 1 n ^^^ D.p0 0 n) + if (D.p0 1 n).msb ∧ (D.p0 0 n).msb then ub else 0).sshiftRight bits +
        (D.p0 1 n ^^^ D.p0 0 n).sshiftRight bits) := by
  obtain ⟨rr, h1, h2⟩ := c87_trgen hk H hb hbk hD ub u al
  have hd := shares_collect fun n => c87_addAA (hx n) (c87_negateA (h2 n).1)
  unfold truncA
  rw [StateT.run_bind, h1]
  simp only [Option.bind_eq_bind, Option.bind_some]
  rw [StateT.run_bind, c87_a2p H hd]
  simp only [Option.bind_eq_bind, Option.bind_some]
  refine ⟨_, rfl, fun n => ?_⟩
  obtain ⟨a1, a2, be, ga, l, e⟩ := (h2 n).2
  set c := (D.p0 1 n ^^^ D.p0 0 n)
  rw [show v n - c + (if (D.p0 1 n).msb ∧ (D.p0 0 n).msb then ub else 0) =
    v n + -(c - if (D.p0 1 n).msb ∧ (D.p0 0 n).msb then ub else 0) by ring, e]
  set o := (v n + -(c - if (D.p0 1 n).msb ∧ (D.p0 0 n).msb then ub else 0)).sshiftRight bits
  refine ⟨a1, a2, be + o, ga, ⟨?_, ?_, ?_⟩, by ring⟩
  · simp [l.p0]; ring
  · simp [l.p1]
  · simp [l.p2]

/-- **C87**: when `x - r` does not wrap around, the result is the quotient rounded down, or one less; if the
shift by the width evaluates to one (as on x86), it can also be one more. -/
theorem c87_trunc_error {x r t : BitVec k} {d : ℕ} (hd : d < k) (c : ℕ) (hc : c ≤ 1) (ht : t = BitVec.ofNat k c)
    (h1 : -2 ^ (k - 1) ≤ x.toInt - r.toInt) (h2 : x.toInt - r.toInt + c < 2 ^ (k - 1)) :
    ∃ e : ℤ, -1 ≤ e ∧ e ≤ c ∧ (x - r + t).sshiftRight d + r.sshiftRight d = x.sshiftRight d + BitVec.ofInt k e := by
  have hk : 0 < k := by omega
  have hi : (x - r + t).toInt = x.toInt - r.toInt + c := by
    have : x - r + t = BitVec.ofInt k (x.toInt - r.toInt + c) := by
      rw [BitVec.ofInt_add, ofInt_sub, BitVec.ofInt_toInt, BitVec.ofInt_toInt, ht, BitVec.ofInt_natCast]
    rw [this, toInt_ofInt_of_range hk (by omega) (by omega)]
  have hm : (0 : ℤ) < 2 ^ d := by positivity
  have hc' : (c : ℤ) ≤ 1 := by exact_mod_cast hc
  have e := add_ediv_carry (x.toInt - r.toInt + c) r.toInt (2 ^ d) hm
  rw [show x.toInt - r.toInt + c + r.toInt = x.toInt + c by ring] at e
  have lo : x.toInt / 2 ^ d ≤ (x.toInt + c) / 2 ^ d := Int.ediv_le_ediv hm (by omega)
  have up : (x.toInt + c) / 2 ^ d ≤ x.toInt / 2 ^ d + c := by
    have h0 : (x.toInt + c) / 2 ^ d ≤ (x.toInt + c * 2 ^ d) / 2 ^ d :=
      Int.ediv_le_ediv hm (by nlinarith [show (1 : ℤ) ≤ 2 ^ d by omega])
    rwa [Int.add_mul_ediv_right _ _ hm.ne'] at h0
  refine ⟨(x.toInt - r.toInt + c) / 2 ^ d + r.toInt / 2 ^ d - x.toInt / 2 ^ d, ?_, ?_, ?_⟩
  · split_ifs at e <;> omega
  · split_ifs at e <;> omega
  · rw [sshiftRight_eq, sshiftRight_eq, sshiftRight_eq, hi, ← BitVec.ofInt_add, ← BitVec.ofInt_add]
    congr 1
    ring

/-- **C87**: so, with the word a shift by the width yields being zero or one and no wrap in the opened difference, every
element of the result is the quotient rounded down, up to one unit. -/
theorem c87_truncA_value (hk : k = 32 ∨ k = 64) (H : HashFn) {N bits : ℕ} (hb : 1 ≤ bits) (hbk : bits < k) {D : TrRand k N} (hD : TrOk D)
    {x : Fin N → Fin 3 → Shr (BitVec k)} {v : Fin N → BitVec k} (hx : ∀ n, Shares (x n) (v n)) (c : ℕ) (hc : c ≤ 1) (u : BitVec k)
    (al : Bool) (h1 : ∀ n, -2 ^ (k - 1) ≤ (v n).toInt - (D.p0 1 n ^^^ D.p0 0 n).toInt)
    (h2 : ∀ n, (v n).toInt - (D.p0 1 n ^^^ D.p0 0 n).toInt + c < 2 ^ (k - 1)) :
    ∃ z, (truncA H N bits D x (BitVec.ofNat k c) u).run al = some (z, al) ∧
      ∀ n, ∃ e : ℤ, -1 ≤ e ∧ e ≤ c ∧ Shares (z n) ((v n).sshiftRight bits + BitVec.ofInt k e) := by
  obtain ⟨z, hz, hv⟩ := c87_truncA hk H hb hbk.le hD hx (BitVec.ofNat k c) u al
  refine ⟨z, hz, fun n => ?_⟩
  have hn := hv n
  by_cases hm : (D.p0 1 n).msb ∧ (D.p0 0 n).msb
  · rw [if_pos hm] at hn
    obtain ⟨e, e1, e2, e3⟩ := c87_trunc_error hbk c hc rfl (h1 n) (h2 n)
    exact ⟨e, e1, e2, e3 ▸ hn⟩
  · rw [if_neg hm] at hn
    obtain ⟨e, e1, e2, e3⟩ := c87_trunc_error hbk 0 (by omega) (t := 0) rfl (h1 n) (by have := h2 n; push_cast; omega)
    exact ⟨e, e1, by push_cast at e2; omega, e3 ▸ hn⟩

/-- The statement is not idle: both ends occur, and a wrap is fatal. -/
example : (5#8 - 3#8 + 0#8).sshiftRight 2 + (3#8).sshiftRight 2 = (5#8).sshiftRight 2 + BitVec.ofInt 8 (-1) ∧
    (5#8 - 1#8 + 0#8).sshiftRight 2 + (1#8).sshiftRight 2 = (5#8).sshiftRight 2 ∧
    (7#8 - 0#8 + 1#8).sshiftRight 2 + (0#8).sshiftRight 2 = (7#8).sshiftRight 2 + BitVec.ofInt 8 1 ∧
    (5#8 - 130#8 + 0#8).sshiftRight 2 + (130#8).sshiftRight 2 = (5#8).sshiftRight 2 + BitVec.ofInt 8 (-65) := by decide +kernel

/-- paired words and a shared array on which the kernel runs -/
def trEx : TrRand 32 2 where
  p0 := ![fun n => if n = 0 then 0xdeadbeef#32 else 7#32, fun n => if n = 0 then 0x89abcdef#32 else 3#32, fun _ => 0]
  p1 := ![fun n => if n = 0 then 0x89abcdef#32 else 3#32, fun _ => 0, fun n => if n = 0 then 0xdeadbeef#32 else 7#32]
  j1 := fun n => BitVec.ofNat 32 (17 * n)
  j2 := fun n => BitVec.ofNat 32 (23 * n + 1)
  A := ⟨5, ⟨fun _ _ => 1, fun _ _ => 1, fun _ _ => 2, fun _ _ => 2, fun _ _ => 3, fun _ _ => 3, fun _ _ => 4, fun _ _ => 4,
    fun _ _ => 5, fun _ _ => 5⟩, fun _ _ => 6, fun _ _ => 6⟩
  B := ⟨7, ⟨fun _ _ => 1, fun _ _ => 1, fun _ _ => 2, fun _ _ => 2, fun _ _ => 3, fun _ _ => 3, fun _ _ => 4, fun _ _ => 4,
    fun _ _ => 5, fun _ _ => 5⟩, fun _ _ => 6, fun _ _ => 6⟩

theorem trEx_ok : TrOk trEx := by
  refine ⟨?_, ⟨⟨?_, ?_, ?_, ?_, ?_⟩, ?_⟩, ⟨⟨?_, ?_, ?_, ?_, ?_⟩, ?_⟩⟩ <;> intro i <;> fin_cases i <;> rfl

/-- 1000 and -1000 are truncated by four bits; the first element meets the shift by the width -/
example : ∃ z, (truncA (fun _ _ => 0) 2 4 trEx (fun n => toShares (if n = 0 then 1000#32 else -1000#32) 11 22 33) 1 0).run false = some (z, false) ∧
    fromShares (z 0) = 62#32 ∧ fromShares (z 1) = -63#32 := by
  obtain ⟨z, h1, h2⟩ := c87_truncA (k := 32) (Or.inl rfl) (fun _ _ => 0) (bits := 4) (by decide) (by decide) trEx_ok
    (fun n => (c87_io (if n = 0 then 1000#32 else -1000#32) 11 22 33).1) 1 0 false
  refine ⟨z, h1, ?_, ?_⟩
  · rw [c87_fromShares (h2 0)]
    decide +kernel
  · rw [c87_fromShares (h2 1)]
    decide +kernel

end Spu.Props.Swift
