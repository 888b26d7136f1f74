import Verif.Model.Dealer
import Verif.Lemmas.Share

set_option autoImplicit false

/-!
# C21: the trusted dealer hands out valid correlated randomness
-/

set_option linter.unusedSectionVars false

namespace Spu.Props
open Spu.Model Spu.Model.Dealer Spu.Spec Spu.Lemmas

variable {n w : ℕ} [NeZero n] {Seed : Type}

/-- All parties run in lock-step and the adjusting party's seed table is right. -/
def DealerOk (d : Dealer n Seed) : Prop := d.seeds0 = d.seed ∧ ∀ i j, d.ctr i = d.ctr j

/-- A replay descriptor that refers to randomness some party-set actually drew. -/
def DescOk (ds : Desc n Seed) : Prop := ds.enc = ds.seed ∧ ∀ i j, ds.ctr i = ds.ctr j

/-- descriptors passed in are absent, still `Init`, or well-formed replays -/
def DescArgOk (ds : Option (Desc n Seed)) : Prop :=
  ∀ x, ds = some x → x.status = .init ∨ DescOk x

theorem reduce_fold {M : Type*} [AddCommMonoid M] (f : Fin n → M) (z : M) :
    (List.finRange n).foldl (fun acc r => if r = 0 then f r else acc + f r) z = total f := by
  obtain ⟨m, rfl⟩ : ∃ m, n = m + 1 := ⟨n - 1, (Nat.succ_pred_eq_of_ne_zero (NeZero.ne n)).symm⟩
  unfold total
  rw [List.finRange_succ, List.foldl_cons, Fin.sum_univ_succ]
  rw [if_pos rfl, List.foldl_map]
  have h : ∀ (l : List (Fin m)) (a : M),
      l.foldl (fun acc r => if r.succ = 0 then f r.succ else acc + f r.succ) a
        = a + (l.map (fun i => f i.succ)).sum := by
    intro l
    induction l with
    | nil => intro a; simp
    | cons b l ih =>
      intro a
      rw [List.foldl_cons, ih]
      simp [Fin.succ_ne_zero, add_assoc]
  rw [h, sum_finRange (fun i : Fin m => f i.succ)]

theorem reduce_add (K : Ks w Seed) (o : Operand n Seed) (idx : ℕ) :
    reduce K (· + ·) o idx = total (fun i => draw K (o.seeds i) o.ctr idx) :=
  reduce_fold _ _

theorem reduce_xor (K : Ks w Seed) (o : Operand n Seed) (idx : ℕ) :
    reduce K (· ^^^ ·) o idx = xorAll (fun i => draw K (o.seeds i) o.ctr idx) := by
  apply bitsOf_inj
  rw [bitsOf_xorAll, ← reduce_fold (fun i => bitsOf (draw K (o.seeds i) o.ctr idx)) (bitsOf 0)]
  unfold reduce
  generalize (0 : BitVec w) = z
  generalize List.finRange n = l
  induction l generalizing z with
  | nil => rfl
  | cons a l ih =>
    simp only [List.foldl_cons]
    rw [ih]
    split
    · rfl
    · rw [bitsOf_xor]

theorem total_addAt (adj : Fin n) (c : Fin n → Arr w) (v : Arr w) (idx : ℕ) :
    total (fun i => addAt adj c v i idx) = total (fun i => c i idx) + v idx :=
  total_ite_add adj (fun i => c i idx) (fun _ => v idx)

theorem xorAll_xorAt (adj : Fin n) (c : Fin n → Arr w) (v : Arr w) (idx : ℕ) :
    xorAll (fun i => xorAt adj c v i idx) = xorAll (fun i => c i idx) ^^^ v idx := by
  apply bitsOf_inj
  rw [bitsOf_xor, bitsOf_xorAll, bitsOf_xorAll]
  rw [← total_ite_add adj (fun i => bitsOf (c i idx)) (fun _ => bitsOf (v idx))]
  congr 1
  funext i
  unfold xorAt
  split <;> simp [bitsOf_xor]

/-- what an operand descriptor must say about the arrays the parties drew -/
def Describes (K : Ks w Seed) (o : Operand n Seed) (a : Fin n → Arr w) : Prop :=
  ∀ i, a i = draw K (o.seeds i) o.ctr

theorem create_spec (K : Ks w Seed) (adj : Fin n) (d : Dealer n Seed) (size : ℕ)
    (h : DealerOk d) :
    Describes K (create K adj d size).2.1 (create K adj d size).1 ∧
    DealerOk (create K adj d size).2.2 := by
  obtain ⟨h1, h2⟩ := h
  refine ⟨fun i => ?_, h1, fun i j => ?_⟩
  · simp only [create]; rw [h1, h2 i adj]
  · simp only [create]; rw [h2 i j]

theorem replay_spec (K : Ks w Seed) (adj : Fin n) (ds : Desc n Seed) (h : DescOk ds) :
    Describes K (replay K adj ds).2 (replay K adj ds).1 := by
  obtain ⟨h1, h2⟩ := h
  intro i
  simp only [replay]; rw [h1, h2 i adj]

theorem fillDesc_spec (d : Dealer n Seed) (ds : Option (Desc n Seed)) (h : DealerOk d)
    (hds : DescArgOk ds) : ∀ x, fillDesc d ds = some x → DescOk x := by
  intro x hx
  cases ds with
  | none => simp [fillDesc] at hx
  | some y =>
    simp only [fillDesc] at hx
    split at hx
    · cases hx; exact h
    · next hs =>
      cases hx
      rcases hds _ rfl with h' | h'
      · exact absurd h' hs
      · exact h'

theorem drawOrReplay_spec (K : Ks w Seed) (adj : Fin n) (d : Dealer n Seed) (size : ℕ)
    (ds : Option (Desc n Seed)) (h : DealerOk d) (hds : ∀ x, ds = some x → DescOk x) :
    Describes K (drawOrReplay K adj d size ds).2.1 (drawOrReplay K adj d size ds).1 ∧
    DealerOk (drawOrReplay K adj d size ds).2.2 := by
  unfold drawOrReplay
  split
  · exact create_spec K adj d size h
  · next y =>
    split
    · exact ⟨replay_spec K adj y (hds y rfl), h⟩
    · exact create_spec K adj d size h

theorem drawOrReplayDot_spec (K : Ks w Seed) (adj : Fin n) (d : Dealer n Seed) (size : ℕ)
    (ds : Option (Desc n Seed)) (h : DealerOk d) (hds : ∀ x, ds = some x → DescOk x) :
    Describes K (drawOrReplayDot K adj d size ds).2.1 (drawOrReplayDot K adj d size ds).1 ∧
    DealerOk (drawOrReplayDot K adj d size ds).2.2 := by
  unfold drawOrReplayDot
  split
  · exact create_spec K adj d size h
  · next y =>
    refine ⟨replay_spec K adj y (hds y rfl), ?_⟩
    simp only
    split <;> exact h

theorem reduce_describes (K : Ks w Seed) {o : Operand n Seed} {a : Fin n → Arr w}
    (h : Describes K o a) (idx : ℕ) : reduce K (· + ·) o idx = total (fun i => a i idx) := by
  rw [reduce_add]; congr 1; funext i; rw [h i]

theorem reduce_describes_xor (K : Ks w Seed) {o : Operand n Seed} {a : Fin n → Arr w}
    (h : Describes K o a) (idx : ℕ) : reduce K (· ^^^ ·) o idx = xorAll (fun i => a i idx) := by
  rw [reduce_xor]; congr 1; funext i; rw [h i]

/-- C21: multiplication triples. For any seeds, any lock-step dealer state, fresh, first-use (`Init`)
or replayed masks, every element of the output satisfies `C = A * B`; the dealer stays in lock-step
and the descriptors handed back can be replayed later. -/
theorem c21_mul (K : Ks w Seed) (adj : Fin n) (d : Dealer n Seed) (size : ℕ)
    (xd yd : Option (Desc n Seed)) (h : DealerOk d) (hx : DescArgOk xd) (hy : DescArgOk yd) :
    let r := mul K adj d size xd yd
    (∀ idx, total (fun i => r.1.2.2 i idx)
      = total (fun i => r.1.1 i idx) * total (fun i => r.1.2.1 i idx)) ∧
    DealerOk r.2.2 ∧ (∀ x, r.2.1.1 = some x → DescOk x) ∧ (∀ x, r.2.1.2 = some x → DescOk x) := by
  intro r
  have hfx := fillDesc_spec d xd h hx
  obtain ⟨ha, hd1⟩ := drawOrReplay_spec K adj d size (fillDesc d xd) h hfx
  have hfy := fillDesc_spec (drawOrReplay K adj d size (fillDesc d xd)).2.2 yd hd1 hy
  obtain ⟨hb, hd2⟩ := drawOrReplay_spec K adj _ size _ hd1 hfy
  obtain ⟨hc, hd3⟩ := create_spec K adj _ size hd2
  refine ⟨fun idx => ?_, hd3, hfx, hfy⟩
  simp only [r, mul]
  rw [total_addAt]
  simp only [adjustMul]
  rw [reduce_describes K ha, reduce_describes K hb, reduce_describes K hc]
  ring

/-- C21: square pairs. -/
theorem c21_square (K : Ks w Seed) (adj : Fin n) (d : Dealer n Seed) (size : ℕ)
    (xd : Option (Desc n Seed)) (h : DealerOk d) (hx : DescArgOk xd) :
    let r := square K adj d size xd
    (∀ idx, total (fun i => r.1.2 i idx)
      = total (fun i => r.1.1 i idx) * total (fun i => r.1.1 i idx)) ∧
    DealerOk r.2.2 ∧ (∀ x, r.2.1 = some x → DescOk x) := by
  intro r
  have hfx := fillDesc_spec d xd h hx
  obtain ⟨ha, hd1⟩ := drawOrReplay_spec K adj d size (fillDesc d xd) h hfx
  obtain ⟨hb, hd2⟩ := create_spec K adj _ size hd1
  refine ⟨fun idx => ?_, hd2, hfx⟩
  simp only [r, square]
  rw [total_addAt]
  simp only [adjustSquare]
  rw [reduce_describes K ha, reduce_describes K hb]
  ring

theorem mmul_eq (k : ℕ) (x y : Mat w) (i j : ℕ) :
    mmul k x y i j = ∑ l ∈ Finset.range k, x i l * y l j := by
  unfold mmul
  induction k with
  | zero => simp
  | succ k ih => rw [List.range_succ, List.foldl_append, ih, Finset.sum_range_succ]; rfl

theorem matOf_total (rows cols : ℕ) (ds : Option (Desc n Seed)) (f : Fin n → Arr w)
    (i j : ℕ) : total (fun p => matOf rows cols ds (f p) i j)
      = matOf rows cols ds (fun idx => total (fun p => f p idx)) i j := by
  cases ds with
  | none => rfl
  | some ds => simp only [matOf]; split <;> rfl

/-- C21: matrix triples, including transposed replays: `C = A · B` (inner extent `k`). -/
theorem c21_dot (K : Ks w Seed) (adj : Fin n) (d : Dealer n Seed) (m nn k : ℕ)
    (xd yd : Option (Desc n Seed)) (h : DealerOk d) (hx : DescArgOk xd) (hy : DescArgOk yd) :
    let r := dot K adj d m nn k xd yd
    (∀ i j, total (fun p => r.1.2.2 p i j)
      = ∑ l ∈ Finset.range k, total (fun p => r.1.1 p i l) * total (fun p => r.1.2.1 p l j)) ∧
    DealerOk r.2.2 ∧ (∀ x, r.2.1.1 = some x → DescOk x) ∧ (∀ x, r.2.1.2 = some x → DescOk x) := by
  intro r
  have hfx := fillDesc_spec d xd h hx
  obtain ⟨ha, hd1⟩ := drawOrReplayDot_spec K adj d (m * k) (fillDesc d xd) h hfx
  have hfy := fillDesc_spec (drawOrReplayDot K adj d (m * k) (fillDesc d xd)).2.2 yd hd1 hy
  obtain ⟨hb, hd2⟩ := drawOrReplayDot_spec K adj _ (k * nn) _ hd1 hfy
  obtain ⟨hc, hd3⟩ := create_spec K adj _ (m * nn) hd2
  refine ⟨fun i j => ?_, hd3, hfx, hfy⟩
  simp only [r, dot]
  rw [total_ite_add adj (fun p => asMat nn _ i j) (fun _ => _)]
  rw [mmul_eq]
  have e1 := funext (reduce_describes K ha)
  have e2 := funext (reduce_describes K hb)
  have e3 := funext (reduce_describes K hc)
  rw [e1, e2, e3]
  simp only [matOf_total]
  simp only [asMat]
  ring

/-- C21: AND triples. -/
theorem c21_and (K : Ks w Seed) (adj : Fin n) (d : Dealer n Seed) (size : ℕ) (h : DealerOk d) :
    let r := Dealer.and K adj d size
    (∀ idx, xorAll (fun i => r.1.2.2 i idx)
      = xorAll (fun i => r.1.1 i idx) &&& xorAll (fun i => r.1.2.1 i idx)) ∧ DealerOk r.2 := by
  intro r
  obtain ⟨ha, hd1⟩ := create_spec K adj d size h
  obtain ⟨hb, hd2⟩ := create_spec K adj _ size hd1
  obtain ⟨hc, hd3⟩ := create_spec K adj _ size hd2
  refine ⟨fun idx => ?_, hd3⟩
  simp only [r, Dealer.and]
  rw [xorAll_xorAt]
  simp only [adjustAnd]
  rw [reduce_describes_xor K ha, reduce_describes_xor K hb, reduce_describes_xor K hc]
  rw [BitVec.xor_comm, BitVec.xor_assoc, BitVec.xor_self, BitVec.xor_zero]

/-- C21: truncation pairs: the second value is the first shifted right arithmetically. -/
theorem c21_trunc (K : Ks w Seed) (adj : Fin n) (d : Dealer n Seed) (size bits : ℕ)
    (h : DealerOk d) :
    let r := trunc K adj d size bits
    (∀ idx, total (fun i => r.1.2 i idx) = (total (fun i => r.1.1 i idx)).sshiftRight bits) ∧
    DealerOk r.2 := by
  intro r
  obtain ⟨ha, hd1⟩ := create_spec K adj d size h
  obtain ⟨hb, hd2⟩ := create_spec K adj _ size hd1
  refine ⟨fun idx => ?_, hd2⟩
  simp only [r, trunc]
  rw [total_addAt]
  simp only [adjustTrunc]
  rw [reduce_describes K ha, reduce_describes K hb]
  ring

/-- C21: probabilistic-truncation triples `(r, (r mod 2^(w-1)) >> bits, msb r)`. -/
theorem c21_truncPr (K : Ks w Seed) (adj : Fin n) (d : Dealer n Seed) (size bits : ℕ)
    (h : DealerOk d) :
    let r := truncPr K adj d size bits
    (∀ idx,
      total (fun i => r.1.2.1 i idx) = (total (fun i => r.1.1 i idx) <<< 1) >>> (bits + 1) ∧
      total (fun i => r.1.2.2 i idx) = total (fun i => r.1.1 i idx) >>> (w - 1)) ∧
    DealerOk r.2 := by
  intro r
  obtain ⟨ha, hd1⟩ := create_spec K adj d size h
  obtain ⟨hb, hd2⟩ := create_spec K adj _ size hd1
  obtain ⟨hc, hd3⟩ := create_spec K adj _ size hd2
  refine ⟨fun idx => ⟨?_, ?_⟩, hd3⟩
  · simp only [r, truncPr, adjustTruncPr]
    rw [total_addAt]
    rw [reduce_describes K ha, reduce_describes K hb]
    ring
  · simp only [r, truncPr, adjustTruncPr]
    rw [total_addAt]
    rw [reduce_describes K ha, reduce_describes K hc]
    ring

/-- C21: random bits are shares of the dealer's bits. -/
theorem c21_randBit (K : Ks w Seed) (adj : Fin n) (d : Dealer n Seed) (size : ℕ) (rb : ℕ → Bool)
    (h : DealerOk d) :
    let r := randBit K adj d size rb
    (∀ idx, total (fun i => r.1 i idx) = if rb idx then 1 else 0) ∧ DealerOk r.2 := by
  intro r
  obtain ⟨ha, hd1⟩ := create_spec K adj d size h
  refine ⟨fun idx => ?_, hd1⟩
  simp only [r, randBit]
  rw [total_addAt]
  simp only [adjustRandBit]
  rw [reduce_describes K ha]
  ring

/-- C21: equality-test pairs: one value additively and xor shared. -/
theorem c21_eqz (K : Ks w Seed) (adj : Fin n) (d : Dealer n Seed) (size : ℕ) (h : DealerOk d) :
    let r := eqz K adj d size
    (∀ idx, xorAll (fun i => r.1.2 i idx) = total (fun i => r.1.1 i idx)) ∧ DealerOk r.2 := by
  intro r
  obtain ⟨ha, hd1⟩ := create_spec K adj d size h
  obtain ⟨hb, hd2⟩ := create_spec K adj _ size hd1
  refine ⟨fun idx => ?_, hd2⟩
  simp only [r, eqz]
  rw [xorAll_xorAt]
  simp only [adjustEqz]
  rw [reduce_describes K ha, reduce_describes_xor K hb]
  rw [BitVec.xor_comm, BitVec.xor_assoc, BitVec.xor_self, BitVec.xor_zero]

/-- C21: permutation pairs: `B` is `A` re-ordered by the inverse of the owner's permutation, and all
parties leave with the same counter. -/
theorem c21_permPair (K : Ks w Seed) (adj : Fin n) (gp : Seed → ℕ → ℕ → (ℕ → ℕ) × ℕ)
    (d : Dealer n Seed) (size : ℕ) (pr : Fin n) (h : DealerOk d) :
    let r := permPair K adj gp d size pr
    (∀ idx, total (fun i => r.1.2.1 i idx) = total (fun i => r.1.1 i (r.1.2.2 idx))) ∧
    DealerOk r.2 := by
  intro r
  obtain ⟨ha, hd1⟩ := create_spec K adj d size h
  obtain ⟨hb, hd2⟩ := create_spec K adj _ size hd1
  have hown : (if pr = adj then
      gp ((create K adj (create K adj d size).2.2 size).2.2.seed pr)
        ((create K adj (create K adj d size).2.2 size).2.2.ctr pr) size
      else gp ((create K adj (create K adj d size).2.2 size).2.2.seeds0 pr)
        ((create K adj (create K adj d size).2.2 size).2.2.ctr adj) size)
      = gp ((create K adj (create K adj d size).2.2 size).2.2.seed pr)
        ((create K adj (create K adj d size).2.2 size).2.2.ctr pr) size := by
    split
    · rfl
    · rw [hd2.1, hd2.2 adj pr]
  refine ⟨fun idx => ?_, hd2.1, fun _ _ => rfl⟩
  simp only [r, permPair]
  rw [total_addAt]
  simp only [adjustPerm]
  rw [hown, reduce_describes K ha, reduce_describes K hb]
  ring

/-- C21: private products (two parties): `a₀ a₁ = c₀ + c₁`. -/
theorem c21_mulPriv (K : Ks w Seed) (adj : Fin 2) (d : Dealer 2 Seed) (size : ℕ)
    (h : DealerOk d) :
    let r := mulPriv K adj d size
    (∀ idx, r.1.2 0 idx + r.1.2 1 idx = r.1.1 0 idx * r.1.1 1 idx) ∧ DealerOk r.2 := by
  intro r
  obtain ⟨ha, hd1⟩ := create_spec K adj d size h
  obtain ⟨hc, hd2⟩ := create_spec K adj _ size hd1
  refine ⟨fun idx => ?_, hd2⟩
  have ht := total_addAt adj (create K adj (create K adj d size).2.2 size).1
    (adjustMulPriv K (create K adj d size).2.1 (create K adj (create K adj d size).2.2 size).2.1) idx
  have hm : reduce K (· * ·) (create K adj d size).2.1 idx
      = (create K adj d size).1 0 idx * (create K adj d size).1 1 idx := by
    rw [ha 0, ha 1]; rfl
  simp only [total, Fin.sum_univ_two] at ht
  simp only [r, mulPriv]
  rw [ht]
  simp only [adjustMulPriv]
  rw [hm, reduce_describes K hc]
  simp only [total, Fin.sum_univ_two]
  ring

/-- well-formed descriptor arguments in a request -/
def CallOk : Call n Seed → Prop
  | .mul _ xd yd => DescArgOk xd ∧ DescArgOk yd
  | .square _ xd => DescArgOk xd
  | .dot _ _ _ xd yd => DescArgOk xd ∧ DescArgOk yd
  | _ => True

/-- C21: after any history of requests from any seeds the dealers are in lock-step, so each of the
theorems above applies to the next request. -/
theorem c21_history (K : Ks w Seed) (adj : Fin n) (gp : Seed → ℕ → ℕ → (ℕ → ℕ) × ℕ)
    (seed : Fin n → Seed) (calls : List (Call n Seed)) (hc : ∀ c ∈ calls, CallOk c) :
    DealerOk (run K adj gp seed calls) := by
  have key : ∀ (calls : List (Call n Seed)) (d : Dealer n Seed), (∀ c ∈ calls, CallOk c) →
      DealerOk d → DealerOk (calls.foldl (next K adj gp) d) := by
    intro calls
    induction calls with
    | nil => intro d _ h; exact h
    | cons c l ih =>
      intro d hc h
      refine ih _ (fun x hx => hc x (List.mem_cons_of_mem _ hx)) ?_
      have hcc := hc c List.mem_cons_self
      cases c with
      | mul size xd yd => exact (c21_mul K adj d size xd yd h hcc.1 hcc.2).2.1
      | mulPriv size =>
        exact (create_spec K adj _ size (create_spec K adj d size h).2).2
      | square size xd => exact (c21_square K adj d size xd h hcc).2.1
      | dot m nn k xd yd => exact (c21_dot K adj d m nn k xd yd h hcc.1 hcc.2).2.1
      | and size => exact (c21_and K adj d size h).2
      | trunc size bits => exact (c21_trunc K adj d size bits h).2
      | truncPr size bits => exact (c21_truncPr K adj d size bits h).2
      | randBit size rb => exact (c21_randBit K adj d size rb h).2
      | eqz size => exact (c21_eqz K adj d size h).2
      | permPair size pr => exact (c21_permPair K adj gp d size pr h).2
  exact key calls _ hc ⟨rfl, fun _ _ => rfl⟩

-- a lock-step state and a replay descriptor, three parties
example : DealerOk (n := 3) (Seed := ℕ) ⟨![1, 2, 3], ![1, 2, 3], fun _ => 5, fun _ => [(0, 20)]⟩ :=
  ⟨rfl, fun _ _ => rfl⟩
example : DescArgOk (n := 3) (Seed := ℕ) (some ⟨.replay, fun _ => 2, ![1, 2, 3], ![1, 2, 3]⟩) := by
  intro x hx; cases hx; exact Or.inr ⟨rfl, fun _ _ => rfl⟩

end Spu.Props
