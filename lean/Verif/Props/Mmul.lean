import Verif.Model.Mmul
import Mathlib.Algebra.BigOperators.Intervals
import Mathlib.Algebra.BigOperators.Ring.Finset
import Mathlib.Tactic.Ring
import Mathlib.Tactic.Linarith

set_option autoImplicit false

/-! # C35: blocked matrix multiplication -/

namespace Spu.Props
open Spu.Model.Mmul

variable {R : Type} [Semiring R]

/-- `b` holds the product of `x` and `y` -/
def IsProd (b : Blk R) (x y : Mat R) : Prop :=
  b.rows = x.rows ∧ b.cols = y.cols ∧
    ∀ i < x.rows, ∀ j < y.cols, b.get i j = ∑ l ∈ Finset.range x.cols, x.val i l * y.val l j

/-- `c` holds the sum of `a` and `b` -/
def IsSum (c a b : Blk R) : Prop :=
  c.rows = a.rows ∧ c.cols = a.cols ∧ ∀ i < a.rows, ∀ j < a.cols, c.get i j = a.get i j + b.get i j

/-! ### writing -/

omit [Semiring R] in
theorem puts_append (buf : List R) (l l' : List (ℕ × R)) :
    puts buf (l ++ l') = (puts buf l).bind fun b => puts b l' := by
  unfold puts; rw [List.foldlM_append]; rfl

omit [Semiring R] in
theorem foldlM_puts {α : Type} (l : List α) (f : α → List (ℕ × R)) (buf : List R) :
    l.foldlM (fun b a => puts b (f a)) buf = puts buf (l.flatMap f) := by
  induction l generalizing buf with
  | nil => rfl
  | cons a l ih =>
    rw [List.foldlM_cons, List.flatMap_cons, puts_append]
    congr 1; funext b; exact ih b

omit [Semiring R] in
/-- writes of the right value at valid positions succeed; what was written is there -/
theorem puts_correct (W : ℕ → R) (l : List (ℕ × R)) (buf : List R) (h : ∀ p ∈ l, p.1 < buf.length ∧ p.2 = W p.1) :
    ∃ buf', puts buf l = some buf' ∧ buf'.length = buf.length ∧
      ∀ i, (i ∈ l.map Prod.fst → buf'[i]? = some (W i)) ∧ (i ∉ l.map Prod.fst → buf'[i]? = buf[i]?) := by
  induction l generalizing buf with
  | nil => exact ⟨buf, rfl, rfl, fun i => ⟨by simp, fun _ => rfl⟩⟩
  | cons p l ih =>
    have hp := h p (by simp)
    obtain ⟨buf', h1, h2, h3⟩ := ih (buf.set p.1 p.2) fun q hq => by
      have := h q (by simp [hq]); simpa using this
    refine ⟨buf', ?_, by simpa using h2, fun i => ?_⟩
    · unfold puts at h1 ⊢
      rw [List.foldlM_cons, put, if_pos hp.1]
      exact h1
    · rw [List.map_cons, List.mem_cons]
      by_cases hi : i ∈ l.map Prod.fst
      · exact ⟨fun _ => (h3 i).1 hi, fun hn => absurd (Or.inr hi) hn⟩
      · rw [(h3 i).2 hi, List.getElem?_set]
        constructor
        · rintro (rfl | hc)
          · rw [if_pos rfl, if_pos hp.1, hp.2]
          · exact absurd hc hi
        · intro hn
          rw [if_neg (fun e => hn (Or.inl e.symm))]

/-! ### blocks -/

theorem blocks_cover {m step : ℕ} (hs : 0 < step) {i : ℕ} (hi : i < m) : i / step < blocks m step := by
  unfold blocks
  rw [Nat.div_lt_iff_lt_mul hs]
  have h := Nat.div_add_mod (m + step - 1) step
  have := Nat.mod_lt (m + step - 1) hs
  rw [Nat.mul_comm] at h
  omega

theorem blocks_start {m step : ℕ} (hs : 0 < step) {r : ℕ} (hr : r < blocks m step) : r * step < m := by
  unfold blocks at hr
  rw [Nat.lt_iff_add_one_le, Nat.le_div_iff_mul_le hs, Nat.add_mul] at hr
  omega

theorem blocks_pos {m step : ℕ} (hs : 0 < step) (hm : 0 < m) : 0 < blocks m step := by
  exact lt_of_le_of_lt (Nat.zero_le _) (blocks_cover hs hm)

/-- sum by blocks -/
theorem sum_blocks (f : ℕ → R) (k ks : ℕ) (t : ℕ) :
    ∑ i ∈ Finset.range t, ∑ l ∈ Finset.range (min k (i * ks + ks) - i * ks), f (i * ks + l) =
      ∑ l ∈ Finset.range (min k (t * ks)), f l := by
  induction t with
  | zero => simp
  | succ t ih =>
    rw [Finset.sum_range_succ, ih, Nat.succ_mul]
    rcases Nat.lt_or_ge k (t * ks) with h | h
    · rw [Nat.min_eq_left (by omega), Nat.min_eq_left (by omega), show k - t * ks = 0 by omega]; simp
    · rw [Nat.min_eq_right h]
      conv_rhs => rw [show min k (t * ks + ks) = t * ks + (min k (t * ks + ks) - t * ks) by omega]
      rw [Finset.sum_range_add]

theorem block_correct (impl : Mat R → Mat R → Blk R) (add : Blk R → Blk R → Blk R)
    (himpl : ∀ x y, x.cols = y.rows → IsProd (impl x y) x y)
    (hadd : ∀ a b, a.rows = b.rows → a.cols = b.cols → IsSum (add a b) a b)
    (x y : Mat R) (m n k ms ns ks r c : ℕ) (hk : 0 < k) (hks : 0 < ks) :
    (block impl add x y m n k ms ns ks r c).rows = min m (r * ms + ms) - r * ms ∧
    (block impl add x y m n k ms ns ks r c).cols = min n (c * ns + ns) - c * ns ∧
    ∀ i < min m (r * ms + ms) - r * ms, ∀ j < min n (c * ns + ns) - c * ns,
      (block impl add x y m n k ms ns ks r c).get i j =
        ∑ l ∈ Finset.range k, x.val (r * ms + i) l * y.val l (c * ns + j) := by
  unfold block
  set part := fun i => impl
    (slice x (r * ms) (i * ks) (min m (r * ms + ms)) (min k (i * ks + ks)))
    (slice y (i * ks) (c * ns) (min k (i * ks + ks)) (min n (c * ns + ns))) with hpart
  have hp : ∀ i, (part i).rows = min m (r * ms + ms) - r * ms ∧ (part i).cols = min n (c * ns + ns) - c * ns ∧
      ∀ a < min m (r * ms + ms) - r * ms, ∀ b < min n (c * ns + ns) - c * ns, (part i).get a b =
        ∑ l ∈ Finset.range (min k (i * ks + ks) - i * ks),
          x.val (r * ms + a) (i * ks + l) * y.val (i * ks + l) (c * ns + b) := by
    intro i
    exact himpl (slice x (r * ms) (i * ks) (min m (r * ms + ms)) (min k (i * ks + ks)))
      (slice y (i * ks) (c * ns) (min k (i * ks + ks)) (min n (c * ns + ns))) rfl
  have hfold : ∀ t, let b := (List.range' 1 t).foldl (fun acc i => add acc (part i)) (part 0)
      b.rows = min m (r * ms + ms) - r * ms ∧ b.cols = min n (c * ns + ns) - c * ns ∧
      ∀ a < min m (r * ms + ms) - r * ms, ∀ d < min n (c * ns + ns) - c * ns, b.get a d =
        ∑ i ∈ Finset.range (t + 1), ∑ l ∈ Finset.range (min k (i * ks + ks) - i * ks),
          x.val (r * ms + a) (i * ks + l) * y.val (i * ks + l) (c * ns + d) := by
    intro t
    induction t with
    | zero =>
      refine ⟨(hp 0).1, (hp 0).2.1, fun a ha d hd => ?_⟩
      rw [Finset.sum_range_one]
      exact (hp 0).2.2 a ha d hd
    | succ t ih =>
      obtain ⟨h1, h2, h3⟩ := ih
      rw [List.range'_concat, List.foldl_append]
      simp only [List.foldl_cons, List.foldl_nil, Nat.one_mul]
      set b := (List.range' 1 t).foldl (fun acc i => add acc (part i)) (part 0)
      rw [Nat.add_comm 1 t]
      obtain ⟨g1, g2, g3⟩ := hadd b (part (t + 1)) (h1.trans (hp (t + 1)).1.symm) (h2.trans (hp (t + 1)).2.1.symm)
      refine ⟨g1.trans h1, g2.trans h2, fun a ha d hd => ?_⟩
      rw [g3 a (by rw [h1]; exact ha) d (by rw [h2]; exact hd), h3 a ha d hd, (hp (t + 1)).2.2 a ha d hd,
        ← Finset.sum_range_succ]
  have hb := hfold (blocks k ks - 1)
  have hbp := blocks_pos hks hk
  simp only at hb
  refine ⟨hb.1, hb.2.1, fun i hi j hj => ?_⟩
  rw [hb.2.2 i hi j hj, show blocks k ks - 1 + 1 = blocks k ks by omega,
    sum_blocks (fun l => x.val (r * ms + i) l * y.val l (c * ns + j)) k ks (blocks k ks)]
  have : min k (blocks k ks * ks) = k := by
    apply Nat.min_eq_left
    have h1 := blocks_cover hks (show k - 1 < k by omega)
    have h2 := Nat.div_add_mod (k - 1) ks
    have h3 := Nat.mod_lt (k - 1) hks
    have h4 : ((k - 1) / ks + 1) * ks ≤ blocks k ks * ks := Nat.mul_le_mul_right _ h1
    rw [Nat.add_mul, Nat.one_mul, Nat.mul_comm] at h4
    omega
  rw [this]

theorem compact_addr {m n i j : ℕ} (hi : i < m) (hj : j < n) : i * compactRs m n + j * compactCs n = i * n + j := by
  unfold compactRs compactCs
  split <;> split
  · subst_vars; omega
  · subst_vars; obtain rfl : i = 0 := by omega
    simp
  · subst_vars; obtain rfl : j = 0 := by omega
    simp
  · simp

omit [Semiring R] in
theorem compact_get (b : Blk R) (hb : b.isCompact = true) {i j : ℕ} (hi : i < b.rows) (hj : j < b.cols) :
    b.addr i j = i * b.cols + j := by
  unfold Blk.isCompact at hb
  rw [Bool.or_eq_true, Bool.and_eq_true] at hb
  simp only [decide_eq_true_eq, beq_iff_eq] at hb
  unfold Blk.addr
  rcases hb with hb | ⟨h1, h2⟩
  · have h1 : b.rows = 1 := by
      by_contra hc
      have : 2 * 1 ≤ b.rows * b.cols := Nat.mul_le_mul (by omega) (by omega)
      omega
    have h2 : b.cols = 1 := by rw [h1] at hb; omega
    obtain rfl : i = 0 := by omega
    obtain rfl : j = 0 := by omega
    simp
  · rw [h1, h2]; exact compact_addr hi hj

omit [Semiring R] in
/-- merging a block is a sequence of writes of its elements -/
theorem mergeBlock_puts (m n ms ns : ℕ) (r c : ℕ) (b : Blk R) (hns : 0 < ns) (hc : c < blocks n ns)
    (hrows : r * ms + b.rows ≤ m) (hcols : c * ns + b.cols ≤ n) (hfull : blocks n ns = 1 → b.cols = n) :
    ∃ l : List (ℕ × R), (∀ ret, mergeBlock m n ms ns (blocks n ns) ret (r, c) b = puts ret l) ∧
      ∀ p, p ∈ l ↔ ∃ i < b.rows, ∃ j < b.cols, p = ((r * ms + i) * n + (c * ns + j), b.get i j) := by
  by_cases hcomp : b.isCompact = true
  · by_cases hnb : blocks n ns = 1
    · have hcn := hfull hnb
      have hc0 : c = 0 := by omega
      subst hc0
      refine ⟨(List.range (b.rows * b.cols)).map fun k => ((r * ms) * compactRs m n + 0 * compactCs n + k,
        b.buf (b.addr 0 0 + k)), fun ret => ?_, fun p => ?_⟩
      · unfold mergeBlock; rw [if_pos hcomp, if_pos hnb, if_pos hcn]; rfl
      · rw [List.mem_map]
        constructor
        · rintro ⟨k, hk, rfl⟩
          rw [List.mem_range] at hk
          have hn0 : 0 < b.cols := by
            by_contra h0
            rw [show b.cols = 0 by omega] at hk; simp at hk
          have hi : k / b.cols < b.rows := (Nat.div_lt_iff_lt_mul hn0).2 hk
          have hj : k % b.cols < b.cols := Nat.mod_lt _ hn0
          refine ⟨k / b.cols, hi, k % b.cols, hj, ?_⟩
          have hk' := Nat.div_add_mod k b.cols
          have hrm : r * ms < m := by
            have : 0 < b.rows := lt_of_le_of_lt (Nat.zero_le _) hi
            omega
          rw [Blk.get, compact_get b hcomp hi hj, compact_addr hrm (by omega),
            show b.addr 0 0 = 0 by simp [Blk.addr]]
          rw [Nat.mul_comm] at hk'
          rw [hcn] at hk' ⊢
          refine Prod.ext ?_ ?_
          · simp only [Nat.add_mul, Nat.zero_mul]; omega
          · simp only [Nat.zero_add]; rw [hk']
        · rintro ⟨i, hi, j, hj, rfl⟩
          refine ⟨i * b.cols + j, ?_, ?_⟩
          · rw [List.mem_range]
            calc i * b.cols + j < i * b.cols + b.cols := by omega
              _ = (i + 1) * b.cols := by ring
              _ ≤ b.rows * b.cols := Nat.mul_le_mul_right _ hi
          · rw [Blk.get, compact_get b hcomp hi hj, compact_addr (by omega) (by omega),
              show b.addr 0 0 = 0 by simp [Blk.addr], hcn]
            refine Prod.ext ?_ ?_
            · simp only [Nat.add_mul, Nat.zero_mul]; omega
            · simp
    · refine ⟨(List.range b.rows).flatMap fun i => (List.range b.cols).map fun k =>
        ((r * ms + i) * compactRs m n + (c * ns) * compactCs n + k, b.buf (b.addr i 0 + k)), fun ret => ?_, fun p => ?_⟩
      · unfold mergeBlock; rw [if_pos hcomp, if_neg hnb, ← foldlM_puts]; rfl
      · rw [List.mem_flatMap]
        simp only [List.mem_range, List.mem_map]
        refine exists_congr fun i => and_congr_right fun hi => exists_congr fun j => ?_
        refine and_congr_right fun hj => ?_
        rw [Blk.get, compact_get b hcomp hi hj, compact_get b hcomp hi (by omega), compact_addr (by omega) (by omega),
          Nat.add_assoc, Nat.add_assoc, Nat.zero_add]
        exact eq_comm
  · refine ⟨(List.range b.rows).flatMap fun i => (List.range b.cols).map fun j =>
        ((r * ms + i) * compactRs m n + (c * ns + j) * compactCs n, b.get i j), fun ret => ?_, fun p => ?_⟩
    · unfold mergeBlock; rw [if_neg hcomp, ← foldlM_puts]
      refine congrArg (fun f => List.foldlM f ret (List.range b.rows)) ?_
      funext ret i
      unfold puts
      rw [List.foldlM_map]
    · rw [List.mem_flatMap]
      simp only [List.mem_range, List.mem_map]
      refine exists_congr fun i => and_congr_right fun hi => exists_congr fun j => and_congr_right fun hj => ?_
      rw [compact_addr (by omega) (by omega)]
      exact eq_comm

/-- C35: for all matrices and all positive block sizes, whatever memory layout the kernels return, the blocked product is
the product; no write leaves the result buffer. -/
theorem c35_mmul (impl : Mat R → Mat R → Blk R) (add : Blk R → Blk R → Blk R)
    (himpl : ∀ x y, x.cols = y.rows → IsProd (impl x y) x y)
    (hadd : ∀ a b, a.rows = b.rows → a.cols = b.cols → IsSum (add a b) a b) (noSplit : Bool) (z : R) (x y : Mat R)
    (hxy : x.cols = y.rows) (hm : 0 < x.rows) (hk : 0 < x.cols) (hn : 0 < y.cols) (ms ns ks : ℕ) (hms : 0 < ms)
    (hns : 0 < ns) (hks : 0 < ks) :
    ∃ b, mmul impl add noSplit z x y ms ns ks = some b ∧ IsProd b x y := by
  unfold mmul
  simp only
  rw [if_neg (by simpa using hxy)]
  split
  · exact ⟨_, rfl, himpl x y hxy⟩
  · set m := x.rows with hmdef
    set k := x.cols with hkdef
    set n := y.cols with hndef
    set rcs := (List.range (blocks m ms)).flatMap fun r => (List.range (blocks n ns)).map fun c => (r, c) with hrcs
    have hmem : ∀ rc, rc ∈ rcs ↔ rc.1 < blocks m ms ∧ rc.2 < blocks n ns := by
      intro rc
      rw [hrcs, List.mem_flatMap]
      simp only [List.mem_range, List.mem_map]
      constructor
      · rintro ⟨r, hr, c, hc, rfl⟩; exact ⟨hr, hc⟩
      · rintro ⟨hr, hc⟩; exact ⟨rc.1, hr, rc.2, hc, rfl⟩
    let blk := fun rc : ℕ × ℕ => block impl add x y m n k ms ns ks rc.1 rc.2
    have hblk : ∀ rc : ℕ × ℕ, _ := fun rc => block_correct impl add himpl hadd x y m n k ms ns ks rc.1 rc.2 hk hks
    have hlist : ∀ rc, ∃ l : List (ℕ × R), rc ∈ rcs →
        (∀ ret, mergeBlock m n ms ns (blocks n ns) ret rc (blk rc) = puts ret l) ∧
        ∀ p, p ∈ l ↔ ∃ i < (blk rc).rows, ∃ j < (blk rc).cols,
          p = ((rc.1 * ms + i) * n + (rc.2 * ns + j), (blk rc).get i j) := by
      intro rc
      by_cases hrc : rc ∈ rcs
      · rw [hmem] at hrc
        have h1 := blocks_start hms hrc.1
        have h2 := blocks_start hns hrc.2
        obtain ⟨l, hl⟩ := mergeBlock_puts m n ms ns rc.1 rc.2 (blk rc) hns hrc.2
          (by rw [(hblk rc).1]; omega) (by rw [(hblk rc).2.1]; omega) (by
            intro hb
            have hc0 : rc.2 = 0 := by omega
            rw [(hblk rc).2.1, hc0]
            have hle : n ≤ ns := by
              by_contra hc
              have h3 := blocks_cover hns (show n - 1 < n by omega)
              rw [hb] at h3
              have : (n - 1) / ns = 0 := Nat.lt_one_iff.1 h3
              rw [Nat.div_eq_zero_iff] at this
              omega
            simp; omega)
        exact ⟨l, fun _ => hl⟩
      · exact ⟨[], fun h => absurd h hrc⟩
    choose L hL using hlist
    have hfold : rcs.foldlM (fun ret rc => mergeBlock m n ms ns (blocks n ns) ret rc (blk rc)) (List.replicate (m * n) z) =
        puts (List.replicate (m * n) z) (rcs.flatMap L) := by
      rw [← foldlM_puts]
      have : ∀ (l : List (ℕ × ℕ)) (ret : List R), (∀ rc ∈ l, rc ∈ rcs) →
          l.foldlM (fun ret rc => mergeBlock m n ms ns (blocks n ns) ret rc (blk rc)) ret =
            l.foldlM (fun b a => puts b (L a)) ret := by
        intro l
        induction l with
        | nil => intro _ _; rfl
        | cons a l ih =>
          intro ret hl
          rw [List.foldlM_cons, List.foldlM_cons, (hL a (hl a (by simp))).1]
          congr 1; funext b; exact ih b fun rc h => hl rc (by simp [h])
      exact this rcs _ fun _ h => h
    let V := fun i j => ∑ l ∈ Finset.range k, x.val i l * y.val l j
    obtain ⟨ret, h1, h2, h3⟩ := puts_correct (fun p => V (p / n) (p % n)) (rcs.flatMap L) (List.replicate (m * n) z) (by
      intro p hp
      obtain ⟨rc, hrc, hp⟩ := List.mem_flatMap.1 hp
      obtain ⟨i, hi, j, hj, rfl⟩ := ((hL rc hrc).2 p).1 hp
      have hb := hblk rc
      have hi' : i < min m (rc.1 * ms + ms) - rc.1 * ms := by rw [← hb.1]; exact hi
      have hj' : j < min n (rc.2 * ns + ns) - rc.2 * ns := by rw [← hb.2.1]; exact hj
      simp only [List.length_replicate]
      constructor
      · calc (rc.1 * ms + i) * n + (rc.2 * ns + j) < (rc.1 * ms + i) * n + n := by omega
          _ = (rc.1 * ms + i + 1) * n := by ring
          _ ≤ m * n := Nat.mul_le_mul_right _ (by omega)
      · rw [hb.2.2 i hi' j hj']
        have e1 : ((rc.1 * ms + i) * n + (rc.2 * ns + j)) / n = rc.1 * ms + i := by
          rw [Nat.add_comm, Nat.add_mul_div_right _ _ hn, Nat.div_eq_of_lt (by omega)]; omega
        have e2 : ((rc.1 * ms + i) * n + (rc.2 * ns + j)) % n = rc.2 * ns + j := by
          rw [Nat.add_comm, Nat.add_mul_mod_self_right, Nat.mod_eq_of_lt (by omega)]
        rw [e1, e2])
    refine ⟨⟨m, n, compactRs m n, compactCs n, fun i => ret.getD i z⟩, ?_, rfl, rfl, fun i hi j hj => ?_⟩
    · have : (rcs.foldlM (fun ret rc => mergeBlock m n ms ns (blocks n ns) ret rc
          (block impl add x y m n k ms ns ks rc.1 rc.2)) (List.replicate (m * n) z)) = some ret := hfold.trans h1
      rw [this]; rfl
    · rw [Blk.get, Blk.addr]
      simp only
      rw [compact_addr hi hj]
      have hin : i * n + j ∈ (rcs.flatMap L).map Prod.fst := by
        have hrc : (i / ms, j / ns) ∈ rcs := (hmem _).2 ⟨blocks_cover hms hi, blocks_cover hns hj⟩
        have hb := hblk (i / ms, j / ns)
        have hi1 := Nat.div_add_mod i ms
        have hi2 := Nat.mod_lt i hms
        have hj1 := Nat.div_add_mod j ns
        have hj2 := Nat.mod_lt j hns
        rw [Nat.mul_comm] at hi1 hj1
        rw [List.mem_map]
        refine ⟨_, List.mem_flatMap.2 ⟨_, hrc, ((hL _ hrc).2 _).2 ⟨i % ms, ?_, j % ns, ?_, rfl⟩⟩, ?_⟩
        · rw [hb.1]; simp only; omega
        · rw [hb.2.1]; simp only; omega
        · simp only; rw [hi1, hj1]
      have := (h3 (i * n + j)).1 hin
      rw [List.getD_eq_getElem?_getD, this, Option.getD_some]
      simp only [V]
      rw [Nat.add_comm, Nat.add_mul_div_right _ _ hn, Nat.div_eq_of_lt hj, Nat.add_mul_mod_self_right, Nat.mod_eq_of_lt hj, Nat.zero_add]

/-- The computed block sizes are positive, or there is no split. -/
theorem c35_tiling (m n k elsize memLimit kd mnd : ℕ) :
    let t := tilingSize m n k elsize memLimit kd mnd
    t = (m, n, k) ∨ (0 < m ∧ 0 < n ∧ 0 < k ∧ 0 < t.1 ∧ 0 < t.2.1 ∧ 0 < t.2.2) := by
  unfold tilingSize
  split
  · exact Or.inl rfl
  · rename_i h
    push Not at h
    split
    · exact Or.inl rfl
    · right
      refine ⟨by omega, by omega, by omega, ?_⟩
      split
      · simp
      · split
        · simp; omega
        · simp

/-! ### Example: a 3×5 by 5×4 product in 2×3 blocks of inner size 2 -/

section Examples

/-- a kernel that returns column-major results, as the transposed kernels do -/
def exImpl (x y : Mat ℤ) : Blk ℤ :=
  ⟨x.rows, y.cols, 1, x.rows, fun p => ∑ l ∈ Finset.range x.cols, x.val (p % x.rows) l * y.val l (p / x.rows)⟩

/-- row-major sum -/
def exAdd (a b : Blk ℤ) : Blk ℤ :=
  ⟨a.rows, a.cols, a.cols, 1, fun p => a.get (p / a.cols) (p % a.cols) + b.get (p / a.cols) (p % a.cols)⟩

example : ∀ x y : Mat ℤ, x.cols = y.rows → IsProd (exImpl x y) x y := by
  intro x y h
  refine ⟨rfl, rfl, fun i hi j hj => ?_⟩
  simp only [exImpl, Blk.get, Blk.addr]
  rw [Nat.mul_one, Nat.add_mul_mod_self_right, Nat.mod_eq_of_lt hi, Nat.add_mul_div_right _ _ (by omega), Nat.div_eq_of_lt hi]
  simp

example : ∀ a b : Blk ℤ, a.rows = b.rows → a.cols = b.cols → IsSum (exAdd a b) a b := by
  intro a b _ _
  refine ⟨rfl, rfl, fun i hi j hj => ?_⟩
  show a.get ((i * a.cols + j * 1) / a.cols) ((i * a.cols + j * 1) % a.cols) +
    b.get ((i * a.cols + j * 1) / a.cols) ((i * a.cols + j * 1) % a.cols) = _
  have e : i * a.cols + j * 1 = j + i * a.cols := by omega
  rw [e, Nat.add_mul_mod_self_right, Nat.mod_eq_of_lt hj, Nat.add_mul_div_right _ _ (by omega), Nat.div_eq_of_lt hj]
  simp

def exX : Mat ℤ := ⟨3, 5, fun i j => 10 * i + j⟩
def exY : Mat ℤ := ⟨5, 4, fun i j => (i : ℤ) - 2 * j⟩

example : (mmul exImpl exAdd false 0 exX exY 2 3 2).map (fun b => (b.rows, b.cols, b.get 2 3, b.get 0 1, b.get 1 2)) =
    some (3, 4, -430, 10, -110) := by decide +kernel

end Examples

end Spu.Props
