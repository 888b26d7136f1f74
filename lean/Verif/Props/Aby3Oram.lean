import Verif.Lemmas.Aby3Oram
import Verif.Props.Aby3Conv

set_option autoImplicit false

/-!
# C79: oblivious reads of aby3 return the addressed row
-/

namespace Spu.Props
open Spu.Model Spu.Model.Circ Spu.Model.Bits Spu.Model.Aby3 Spu.Model.Aby3.Env Spu.Model.Prg Spu.Spec Spu.Lemmas

section
variable {σ : Type} {Inv : σ → Prop} {E : Env σ} {w : ℕ}

/-- The distributed point function: for every number of leaves, all seeds, all shares of the target, all triples
and every function in the place of AES, no vector is read past its end, and the leaves of the two parties are
equal except at the target, where the flags differ. -/
theorem c79_dpf {f : Bool → Key → Key} (hf : f true = f false) {n : ℕ} (hn : 0 < n) (root target : Bool → Key)
    {tri : Bool → ℕ → Key × Key × Key} (ht : ∀ i, (tri true i).2.2 ^^^ (tri false i).2.2 =
      ((tri true i).1 ^^^ (tri false i).1) &&& ((tri true i).2.1 ^^^ (tri false i).2.1)) :
    ∃ s, dpfGen f n root target tri = some s ∧ DpfOk n (oramPos n (target true ^^^ target false)) s :=
  dpfGen_ok hf n root target ht hn

/-- an index inside the table is its own position -/
theorem c79_pos {n : ℕ} {X : BitVec w} (h : X.toNat < n) : oramPos n X = X.toNat :=
  Nat.mod_eq_of_lt (lt_of_lt_of_le h (Nat.le_pow_clog (by norm_num) n))

/-- the boolean shares of the index, as words -/
theorem wordsOf_ok {K : ℕ} (hwK : w = 2 ^ K) (hK : 3 ≤ K) (h128 : w ≤ 128) {b : BShr} {X : BitVec w}
    (hb : BRep3 b X) (hnb : b.nb = w) {β : Type} {g : Sh (BitVec w) → M σ β} {Q : β → Prop}
    (h : ∀ t : Sh (BitVec w), Repl t → t.fst 0 ^^^ t.fst 1 ^^^ t.fst 2 = X → Ok Inv (g t) Q) :
    Ok Inv (wordsOf w b >>= g) Q := by
  have hv : b.v = w := by
    have hs := hb.store
    rw [hnb] at hs
    have : K ≤ 7 := by
      by_contra hc
      have : 2 ^ 8 ≤ 2 ^ K := Nat.pow_le_pow_right (by norm_num) (by omega)
      omega
    have hk : K = 3 ∨ K = 4 ∨ K = 5 ∨ K = 6 ∨ K = 7 := by omega
    rcases hk with rfl | rfl | rfl | rfl | rfl <;> subst hwK <;> simpa [Semi2k.backBits] using hs.symm
  unfold wordsOf
  rw [if_pos hv]
  refine Ok.bind (P := fun t => t = mapSh (BitVec.setWidth w) b.sh) (Ok.pure rfl) ?_
  rintro t rfl
  refine h _ (fun i => by simp only [mapSh, hb.repl i]) ?_
  have ho := hb.opens
  rw [xorAll3] at ho
  simp only [mapSh]
  rw [← BitVec.setWidth_xor, ← BitVec.setWidth_xor, ho]
  simp [hv]

/-- the shares of the target in round `j` -/
theorem target_xor {t : Sh (BitVec w)} {X : BitVec w} (hr : Repl t) (hX : t.fst 0 ^^^ t.fst 1 ^^^ t.fst 2 = X)
    (j : Fin 3) : (t.fst j ^^^ t.snd j) ^^^ t.fst (j + 2) = X := by
  rw [hr j, ← hX]
  rcases fin3_cases j with rfl | rfl | rfl
  · rfl
  · show t.fst 1 ^^^ t.fst 2 ^^^ t.fst 0 = _
    rw [BitVec.xor_comm (t.fst 1 ^^^ t.fst 2), ← BitVec.xor_assoc]
  · show t.fst 2 ^^^ t.fst 0 ^^^ t.fst 1 = _
    rw [BitVec.xor_comm (t.fst 2), BitVec.xor_assoc, BitVec.xor_comm (t.fst 2), ← BitVec.xor_assoc]

/-- A secret index for a secret table: the parties obtain three two-party sharings of the unit vector of its
position, and stay synchronised. -/
theorem c79_onehotAA (hE : EnvOk3 E Inv) {K : ℕ} (hwK : w = 2 ^ K) (hK : 3 ≤ K) (h128 : w ≤ 128) (g : OramRnd)
    {n : ℕ} (hn : 0 < n) {x : Sh (BitVec w)} {X : BitVec w} (hx : Opens x X) :
    Ok Inv (oramOneHotAA E g n x) (fun o => Opens2x3 o n (unitVec w (oramPos n X))) := by
  unfold oramOneHotAA
  refine Ok.enforce (by simpa using hn) ?_
  refine Ok.bind (c29_a2b hE hwK hK h128 hx) fun b hb => ?_
  refine wordsOf_ok hwK hK h128 hb.1 hb.2 fun t hr hX => ?_
  have hround : ∀ j : Fin 3, Ok Inv (dpfRound E j n (fun p => g.aes (if p then g.keys j else rotate g.keys (j + 2)))
      (g.root j) (fun p => if p then t.fst j ^^^ t.snd j else t.fst (j + 2)))
      (fun o => Opens2 o n (unitVec w (oramPos n X))) := by
    intro j
    refine dpfRound_ok hE j hn ?_ _ _ h128 ?_
    · have : j + 2 + 1 = j := by revert j; decide
      simp [rotate, this]
    · simpa using target_xor hr hX j
  refine Ok.bind (hround 0) fun e0 h0 => Ok.bind (hround 1) fun e1 h1 => Ok.bind (hround 2) fun e2 h2 => Ok.pure ?_
  intro i k hk
  rcases fin3_cases i with rfl | rfl | rfl
  · exact h0 k hk
  · exact h1 k hk
  · exact h2 k hk

/-- A secret index for a public table: parties 1 and 0 obtain a sharing of the unit vector. -/
theorem c79_onehotAP (hE : EnvOk3 E Inv) {K : ℕ} (hwK : w = 2 ^ K) (hK : 3 ≤ K) (h128 : w ≤ 128) (g : OramRnd)
    {n : ℕ} (hn : 0 < n) {x : Sh (BitVec w)} {X : BitVec w} (hx : Opens x X) :
    Ok Inv (oramOneHotAP E g n x) (fun o => Opens2 o n (unitVec w (oramPos n X))) := by
  unfold oramOneHotAP
  refine Ok.enforce (by simpa using hn) ?_
  refine Ok.bind (c29_a2b hE hwK hK h128 hx) fun b hb => ?_
  refine wordsOf_ok hwK hK h128 hb.1 hb.2 fun t hr hX => ?_
  refine dpfRound_ok hE 1 hn ?_ _ _ h128 ?_
  · simp [add_comm]
  · simpa using target_xor hr hX 1

/-- Reading a secret table: for every offset up to the number of rows (negative ones included) the result is a
replicated sharing of the addressed row, and the parties stay synchronised. -/
theorem c79_readOA (hE : EnvOk3 E Inv) {n m a : ℕ} {offset : ℤ} (ho : offset ≤ n) {o : Sh (ℕ → BitVec w)}
    (hone : Opens2x3 o n (unitVec w a)) {db : Sh (ℕ → ℕ → BitVec w)} {D : ℕ → ℕ → BitVec w}
    (hdb : ∀ k c, k < n → c < m → Opens (cellSh db k c) (D k c)) :
    Ok Inv (oramReadOA E n m offset o db) (fun r => ∀ c, c < m → Opens (elem r c) (oramValue n a offset D c)) := by
  unfold oramReadOA
  obtain ⟨p, hp, hpi⟩ := shiftVec_ok (n := n) ho
  refine Ok.bind (hE.prss w m _ (fun i => by decide)) fun r hr => Ok.liftO hp (Ok.pure ?_)
  intro c hc
  refine ⟨fun i => rfl, ?_⟩
  have hpn : ∀ k, k < n → p k < n := by
    intro k hk
    rw [hpi k hk]
    have h2 := Int.emod_lt_of_pos ((k : ℤ) - offset) (show (0 : ℤ) < n by omega)
    omega
  rw [← shifted_unit hpi D c, total3]
  simp only [elem, rowTimes_sum, one_two hr]
  have hfun : ∀ k ∈ Finset.range n, unitVec w a (p k) * D k c =
      o.fst 0 (p k) * db.fst 0 k c + o.snd 0 (p k) * db.snd 0 k c +
      (o.fst 1 (p k) * db.fst 1 k c + o.snd 1 (p k) * db.snd 1 k c) +
      (o.fst 2 (p k) * db.fst 2 k c + o.snd 2 (p k) * db.snd 2 k c) := by
    intro k hk
    have hk := Finset.mem_range.1 hk
    obtain ⟨hrep, htot⟩ := hdb k c hk hc
    obtain ⟨d0, d1, d2⟩ := repl3.1 hrep
    simp only [cellSh] at d0 d1 d2
    rw [d0, d1, d2, ← htot, total3]
    simp only [cellSh]
    have u0 : o.fst 0 (p k) + o.snd 2 (p k) = _ := hone 0 (p k) (hpn k hk)
    have u1 : o.fst 1 (p k) + o.snd 0 (p k) = _ := hone 1 (p k) (hpn k hk)
    have u2 : o.fst 2 (p k) + o.snd 1 (p k) = _ := hone 2 (p k) (hpn k hk)
    linear_combination -(db.fst 0 k c) * u0 - (db.fst 1 k c) * u1 - (db.fst 2 k c) * u2
  rw [Finset.sum_congr rfl hfun]
  simp only [Finset.sum_add_distrib]
  have z0 : one r 0 (0 + 1) c = one r 0 1 c := rfl
  have z1 : one r 0 (1 + 1) c = one r 0 2 c := rfl
  have z2 : one r 0 (2 + 1) c = one r 0 0 c := rfl
  rw [z0, z1, z2]
  ring

/-- Reading a public table. -/
theorem c79_readOP (hE : EnvOk3 E Inv) {n m a : ℕ} {offset : ℤ} (ho : offset ≤ n) {o : Bool → ℕ → BitVec w}
    (hone : Opens2 o n (unitVec w a)) (D : ℕ → ℕ → BitVec w) :
    Ok Inv (oramReadOP E n m offset o D) (fun r => ∀ c, c < m → Opens (elem r c) (oramValue n a offset D c)) := by
  unfold oramReadOP
  obtain ⟨p, hp, hpi⟩ := shiftVec_ok (n := n) ho
  refine Ok.bind (hE.prss w m _ (fun i => by decide)) fun r hr => Ok.liftO hp (Ok.pure ?_)
  intro c hc
  refine ⟨fun i => rfl, ?_⟩
  have hpn : ∀ k, k < n → p k < n := by
    intro k hk
    rw [hpi k hk]
    have h2 := Int.emod_lt_of_pos ((k : ℤ) - offset) (show (0 : ℤ) < n by omega)
    omega
  rw [← shifted_unit hpi D c, total3]
  simp only [elem, rowTimes_sum, one_two hr]
  have hfun : ∀ k ∈ Finset.range n, unitVec w a (p k) * D k c =
      o true (p k) * D k c + o false (p k) * D k c := by
    intro k hk
    rw [← hone (p k) (hpn k (Finset.mem_range.1 hk))]
    ring
  rw [Finset.sum_congr rfl hfun, Finset.sum_add_distrib]
  have z0 : one r 0 (0 + 1) c = one r 0 1 c := rfl
  have z1 : one r 0 (1 + 1) c = one r 0 2 c := rfl
  have z2 : one r 0 (2 + 1) c = one r 0 0 c := rfl
  rw [z0, z1, z2]
  simp
  ring

/-- An offset beyond the number of rows makes the kernels index a vector with a negative number. -/
theorem c79_offset_ub {n m : ℕ} {offset : ℤ} (hn : 2 ≤ n) (ho : (n : ℤ) < offset) (o : Sh (ℕ → BitVec w))
    (db : Sh (ℕ → ℕ → BitVec w)) (s : σ) : oramReadOA E n m offset o db s = none := by
  unfold oramReadOA
  rw [shiftVec_none hn ho]
  show (E.prss w m _ s).bind _ = none
  cases E.prss w m (fun _ => [.both]) s <;> rfl

theorem oramValue_row {n a k : ℕ} (h : a + k < n) (D : ℕ → ℕ → BitVec w) (c : ℕ) :
    oramValue n a k D c = D (a + k) c := by
  unfold oramValue
  rw [if_pos (by omega), Int.emod_eq_of_lt (by omega) (by omega)]
  congr 1

/-- what the reads of a slice return -/
def SliceOk {w : ℕ} (n m rows a : ℕ) (D : ℕ → ℕ → BitVec w) (l : List (Sh (ℕ → BitVec w))) : Prop :=
  l.length = rows ∧ ∀ (k : ℕ) r, l[k]? = some r → ∀ c, c < m → Opens (elem r c) (oramValue n a k D c)

theorem reads_ok {n m rows a : ℕ} {D : ℕ → ℕ → BitVec w} {rd : ℕ → M σ (Sh (ℕ → BitVec w))}
    (h : ∀ k, k < rows → Ok Inv (rd k) (fun r => ∀ c, c < m → Opens (elem r c) (oramValue n a k D c))) :
    Ok Inv ((List.range rows).foldlM (m := M σ) (fun (acc : List (Sh (ℕ → BitVec w))) (k : ℕ) => do
      let r ← rd k
      return acc ++ [r]) []) (SliceOk n m rows a D) := by
  refine Ok.foldl_range (fun k l => SliceOk n m k a D l) ⟨rfl, by simp⟩ ?_
  intro k hk l hl
  refine Ok.bind (h k hk) fun r hr => Ok.pure ⟨by simp [hl.1], fun j q hq => ?_⟩
  rcases lt_trichotomy j l.length with hj | hj | hj
  · rw [List.getElem?_append_left hj] at hq
    exact hl.2 j q hq
  · subst hj
    simp at hq
    subst hq
    rw [hl.1]
    exact hr
  · rw [List.getElem?_eq_none (by simp; omega)] at hq
    exact absurd hq (by simp)

/-- A slice of `rows` rows at a secret index: whatever the index, row `k` of the result is the row `k` places
after it (cyclically), or zero if the position is not in the table. -/
theorem c79_rows (hE : EnvOk3 E Inv) {K : ℕ} (hwK : w = 2 ^ K) (hK : 3 ≤ K) (h128 : w ≤ 128) (g : OramRnd)
    {n m rows : ℕ} (hn : 0 < n) (hrows : rows ≤ n) {x : Sh (BitVec w)} {X : BitVec w} (hx : Opens x X)
    {db : Sh (ℕ → ℕ → BitVec w)} {D : ℕ → ℕ → BitVec w}
    (hdb : ∀ k c, k < n → c < m → Opens (cellSh db k c) (D k c)) :
    Ok Inv (oramRowsAA E g n m rows x db) (SliceOk n m rows (oramPos n X) D) ∧
    Ok Inv (oramRowsAP E g n m rows x D) (SliceOk n m rows (oramPos n X) D) := by
  constructor
  · unfold oramRowsAA
    refine Ok.bind (c79_onehotAA hE hwK hK h128 g hn hx) fun o ho => ?_
    exact reads_ok fun k hk => c79_readOA hE (by omega) ho hdb
  · unfold oramRowsAP
    refine Ok.bind (c79_onehotAP hE hwK hK h128 g hn hx) fun o ho => ?_
    exact reads_ok fun k hk => c79_readOP hE (by omega) ho D

/-- A slice that fits into the table: row `k` of the result opens to row `X + k` of the table. -/
theorem c79_slice (hE : EnvOk3 E Inv) {K : ℕ} (hwK : w = 2 ^ K) (hK : 3 ≤ K) (h128 : w ≤ 128) (g : OramRnd)
    {n m rows : ℕ} (hr0 : 0 < rows) {x : Sh (BitVec w)} {X : BitVec w} (hx : Opens x X)
    (hfit : X.toNat + rows ≤ n)
    {db : Sh (ℕ → ℕ → BitVec w)} {D : ℕ → ℕ → BitVec w}
    (hdb : ∀ k c, k < n → c < m → Opens (cellSh db k c) (D k c)) :
    Ok Inv (oramRowsAA E g n m rows x db) (fun l => l.length = rows ∧
      ∀ (k : ℕ) r, l[k]? = some r → ∀ c, c < m → Opens (elem r c) (D (X.toNat + k) c)) ∧
    Ok Inv (oramRowsAP E g n m rows x D) (fun l => l.length = rows ∧
      ∀ (k : ℕ) r, l[k]? = some r → ∀ c, c < m → Opens (elem r c) (D (X.toNat + k) c)) := by
  have h := c79_rows hE hwK hK h128 g (m := m) (by omega) (by omega : rows ≤ n) hx hdb
  have key : ∀ l, SliceOk n m rows (oramPos n X) D l → l.length = rows ∧
      ∀ (k : ℕ) r, l[k]? = some r → ∀ c, c < m → Opens (elem r c) (D (X.toNat + k) c) := by
    rintro l ⟨h1, h2⟩
    refine ⟨h1, fun k r hk c hc => ?_⟩
    have hkl : k < l.length := by
      by_contra hc
      rw [List.getElem?_eq_none (by omega)] at hk
      exact absurd hk (by simp)
    have := h2 k r hk c hc
    rwa [c79_pos (by omega), oramValue_row (by omega)] at this
  exact ⟨Ok.imp h.1 key, Ok.imp h.2 key⟩

end

/-! ### Examples -/

/-- a toy cipher, keys and seeds -/
def oramDemoRnd : OramRnd :=
  ⟨fun k x => x * 0x9E3779B97F4A7C15F39CC0605CEDC835 + k, ![5, 1000003, 77], fun j p => BitVec.ofNat 128 (j * 12345 + p.toNat * 999)⟩

/-- a table of 5 rows: `10, 20, 30, 40, 50` and `11, 21, 31, 41, 51` -/
def oramDemoD : ℕ → ℕ → BitVec 8 := fun k c => BitVec.ofNat 8 ((k + 1) * 10 + c)

/-- and a sharing of it -/
def oramDemoDb : Sh (ℕ → ℕ → BitVec 8) :=
  ⟨fun i k c => (toSharesA (oramDemoD k c) ![100, BitVec.ofNat 8 k, 3]).fst i,
   fun i k c => (toSharesA (oramDemoD k c) ![100, BitVec.ofNat 8 k, 3]).snd i⟩

/-- the rows read, opened at party 1 -/
def showRows (r : Option (List (Sh (ℕ → BitVec 8)) × (Fin 3 → St ℕ))) : Option (List (List ℕ)) :=
  r.map fun p => p.1.map fun s => (List.range 2).map fun c => (a2p (elem s c) 1).toNat

example : showRows (oramRowsAA aby3DemoEnv oramDemoRnd 5 2 3 (toSharesA (2 : BitVec 8) ![100, 3, 0]) oramDemoDb
    aby3DemoStart) = some [[30, 31], [40, 41], [50, 51]] := by decide +kernel
example : showRows (oramRowsAP aby3DemoEnv oramDemoRnd 5 2 3 (toSharesA (2 : BitVec 8) ![100, 3, 0]) oramDemoD
    aby3DemoStart) = some [[30, 31], [40, 41], [50, 51]] := by decide +kernel
/-- the index 4 with 3 rows wraps around -/
example : showRows (oramRowsAA aby3DemoEnv oramDemoRnd 5 2 3 (toSharesA (4 : BitVec 8) ![100, 3, 0]) oramDemoDb
    aby3DemoStart) = some [[50, 51], [10, 11], [20, 21]] := by decide +kernel
/-- the index 6 reads zeros, the index 11 reads row 3 -/
example : showRows (oramRowsAA aby3DemoEnv oramDemoRnd 5 2 2 (toSharesA (6 : BitVec 8) ![100, 3, 0]) oramDemoDb
    aby3DemoStart) = some [[0, 0], [0, 0]] := by decide +kernel
example : showRows (oramRowsAA aby3DemoEnv oramDemoRnd 5 2 2 (toSharesA (11 : BitVec 8) ![100, 3, 0]) oramDemoDb
    aby3DemoStart) = some [[40, 41], [50, 51]] := by decide +kernel
/-- the hypotheses of `c79_slice` hold of this run -/
example : Opens (toSharesA (2 : BitVec 8) ![100, 3, 0]) 2 ∧ (2 : BitVec 8).toNat + 3 ≤ 5 ∧
    ∀ k c, k < 5 → c < 2 → Opens (cellSh oramDemoDb k c) (oramDemoD k c) :=
  ⟨c27_to_shares _ _, by decide, fun k c _ _ => c27_to_shares _ _⟩
example : oramReadOA (w := 8) aby3DemoEnv 5 1 6 ⟨fun _ _ => 0, fun _ _ => 0⟩ oramDemoDb aby3DemoStart = none :=
  c79_offset_ub (by decide) (by decide) _ _ _
/-- one leaf: no layers -/
example : showRows (oramRowsAA aby3DemoEnv oramDemoRnd 1 2 1 (toSharesA (0 : BitVec 8) ![100, 3, 0]) oramDemoDb
    aby3DemoStart) = some [[10, 11]] := by decide +kernel

end Spu.Props
