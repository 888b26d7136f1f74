import Verif.Model.Vectorize
import Verif.Lemmas.Copy

set_option autoImplicit false

/-!
# C09: vectorised execution of independent operations
-/

namespace Spu.Props

open Spu.Model Spu.Spec

variable {τ α : Type}

/-- Elements stored by the arrays in front of number `k`. -/
def before (shapes : List Shape) (k : Nat) : Nat := ((shapes.map size).take k).sum

theorem before_succ (s : Shape) (ss : List Shape) (k : Nat) : before (s :: ss) (k + 1) = size s + before ss k := by
  simp [before]

theorem before_zero (ss : List Shape) : before ss 0 = 0 := by simp [before]

theorem before_le {ss : List Shape} {k : Nat} {s : Shape} (h : ss[k]? = some s) :
    before ss k + size s ≤ (ss.map size).sum := by
  induction ss generalizing k with
  | nil => simp at h
  | cons t ts ih =>
    cases k with
    | zero => simp at h; subst h; simp [before_zero]
    | succ k =>
      simp only [List.getElem?_cons_succ] at h
      have := ih h
      rw [before_succ]; simp; omega

theorem block_valid {b : Array α} {sh : Shape} {o : Nat} (h : o + size sh ≤ b.size) :
    (⟨sh, makeCompactStrides sh, o⟩ : View).Valid b := by
  refine ⟨compact_WF sh o, fun i hi => ?_⟩
  have hi' : InB i sh := hi
  rw [View.get, compact_addr hi']
  have := pos_lt_size hi'
  exact rd_of_bounds (by omega) (by omega)

theorem packLoop_spec : ∀ (as : List (Arr τ α)) (off : Nat) (buf : Array α),
    (∀ a ∈ as, a.view.Valid a.buf) → off + ((as.map fun a => a.view.shape).map size).sum ≤ buf.size →
    ∃ buf', packLoop as off buf = some (buf', as.map fun a => a.view.shape) ∧ buf'.size = buf.size ∧
      (∀ q : Int, q < off → rd buf' q = rd buf q) ∧
      ∀ k a, as[k]? = some a → ∀ i, InB i a.view.shape →
        rd buf' (off + before (as.map fun a => a.view.shape) k + pos i a.view.shape : Nat) = a.view.get a.buf i
  | [], off, buf, _, _ => ⟨buf, rfl, rfl, fun _ _ => rfl, by simp⟩
  | a :: as, off, buf, hv, hsz => by
    simp only [List.map_cons, List.sum_cons] at hsz
    have hd : (⟨a.view.shape, makeCompactStrides a.view.shape, (off : Nat)⟩ : View).Valid buf :=
      block_valid (by omega)
    obtain ⟨d, c1, c2, c3, c4⟩ := copySlice_spec (hv a (by simp)) hd rfl (compact_inj _ _)
    obtain ⟨b, p1, p2, p3, p4⟩ := packLoop_spec as (off + size a.view.shape) d
      (fun x hx => hv x (by simp [hx])) (by rw [c2]; omega)
    refine ⟨b, ?_, by rw [p2, c2], fun q hq => ?_, fun k x hx i hi => ?_⟩
    · simp only [packLoop, Option.bind_eq_bind, Option.pure_def]
      simp only at c1
      rw [c1]
      simp only [Option.bind_some, numel_eq_size, p1, List.map_cons]
    · rw [p3 q (by push_cast; omega)]
      apply c4
      intro i hi
      rw [compact_addr hi]; omega
    · cases k with
      | zero =>
        simp only [List.getElem?_cons_zero, Option.some.injEq] at hx
        subst hx
        have hlt := pos_lt_size hi
        rw [p3 _ (by rw [before_zero]; push_cast; omega), ← c3 i hi, View.get, compact_addr hi]
        congr 1
      | succ k =>
        simp only [List.getElem?_cons_succ] at hx
        rw [← p4 k x hx i hi, List.map_cons, before_succ]
        congr 2; omega

/-- Packing: one array with all elements, those of array `k` from position `before k` on. -/
theorem simdPack_spec [DecidableEq τ] (junk : α) {as : List (Arr τ α)} {ty : τ} (hne : as ≠ [])
    (hv : ∀ a ∈ as, a.view.Valid a.buf) (hty : ∀ a ∈ as, a.ty = ty) :
    ∃ p : Arr τ α, simdPack junk as = some (p, as.map fun a => a.view.shape) ∧ p.ty = ty ∧
      p.view.shape = [((as.map fun a => a.view.shape).map size).sum] ∧ p.view.Valid p.buf ∧
      ∀ k a, as[k]? = some a → ∀ i, InB i a.view.shape →
        p.view.get p.buf [before (as.map fun a => a.view.shape) k + pos i a.view.shape] = a.view.get a.buf i := by
  obtain ⟨a0, as', rfl⟩ := List.exists_cons_of_ne_nil hne
  have hall : (a0 :: as').all (fun b => decide (b.ty = a0.ty)) = true := by
    simp only [List.all_eq_true, decide_eq_true_eq]
    intro x hx; rw [hty x hx, hty a0 (by simp)]
  have htot : ((a0 :: as').map fun b => numel b.view.shape).sum
      = (((a0 :: as').map fun a => a.view.shape).map size).sum := by
    simp [List.map_map, Function.comp_def, numel_eq_size]
  generalize hT : (((a0 :: as').map fun a => a.view.shape).map size).sum = T at *
  obtain ⟨b, p1, p2, -, p4⟩ := packLoop_spec (a0 :: as') 0 (Array.replicate T junk) hv (by simp [← hT])
  simp only [Array.size_replicate] at p2
  refine ⟨⟨a0.ty, b, ⟨[T], makeCompactStrides [T], 0⟩⟩, ?_, hty a0 (by simp), rfl, ?_, fun k a hk i hi => ?_⟩
  · unfold simdPack
    simp only [hall, if_true, htot, p1, Option.bind_eq_bind, Option.bind_some, Option.pure_def]
  · exact compact_valid (by simp [p2, size])
  · have hlt := pos_lt_size hi
    have hle := before_le (ss := (a0 :: as').map fun a => a.view.shape) (k := k) (s := a.view.shape) (by
      rw [List.getElem?_map, hk]; rfl)
    have hin : InB [before ((a0 :: as').map fun a => a.view.shape) k + pos i a.view.shape] [T] :=
      .cons (by omega) .nil
    rw [← p4 k a hk i hi, View.get, compact_addr hin]
    simp [pos, size]

theorem unpackLoop_get (v : Arr τ α) (ss : List Shape) (off k : Nat) :
    (unpackLoop v ss off)[k]? = ss[k]?.map fun s =>
      ⟨v.ty, v.buf, ⟨s, makeCompactStrides s, ((off + before ss k : Nat) : Int)⟩⟩ := by
  induction ss generalizing off k with
  | nil => simp [unpackLoop]
  | cons s ss ih =>
    cases k with
    | zero => simp [unpackLoop, before_zero]
    | succ k =>
      simp only [unpackLoop, List.getElem?_cons_succ, ih, before_succ, numel_eq_size, Nat.add_assoc]

/-- A function on arrays that works on the elements of vectors: it accepts vectors of element type `ty`, and returns a
vector of element type `ty'`, stored compactly from the start of its buffer, whose element `i` is `f` of element `i`. -/
def ElementWise (op : Arr τ α → Option (Arr τ α)) (f : α → α) (ty ty' : τ) : Prop :=
  ∀ (a : Arr τ α) (n : Nat), a.ty = ty → a.view.shape = [n] → a.view.Valid a.buf →
    ∃ r, op a = some r ∧ r.ty = ty' ∧ r.view = ⟨[n], makeCompactStrides [n], 0⟩ ∧ r.view.Valid r.buf ∧
      ∀ j, j < n → r.view.get r.buf [j] = (a.view.get a.buf [j]).map f

/-- The same for two operands. -/
def ElementWise2 (op : Arr τ α → Arr τ α → Option (Arr τ α)) (f : α → α → α) (ta tb tr : τ) : Prop :=
  ∀ (a b : Arr τ α) (n : Nat), a.ty = ta → b.ty = tb → a.view.shape = [n] → b.view.shape = [n] →
    a.view.Valid a.buf → b.view.Valid b.buf →
    ∃ r, op a b = some r ∧ r.ty = tr ∧ r.view = ⟨[n], makeCompactStrides [n], 0⟩ ∧ r.view.Valid r.buf ∧
      ∀ j, j < n → r.view.get r.buf [j] =
        (a.view.get a.buf [j]).bind fun x => (b.view.get b.buf [j]).map fun y => f x y

theorem vec_get {n : Nat} {b : Array α} {j : Nat} (hj : j < n) :
    (⟨[n], makeCompactStrides [n], 0⟩ : View).get b [j] = rd b (j : Nat) := by
  rw [View.get, compact_addr (.cons hj .nil)]
  simp [pos, size]

/-- Unpacking a compact vector: array `k` has shape `k` of the list and reads the vector from position `before k` on. -/
theorem simdUnpack_spec {r : Arr τ α} {ss : List Shape}
    (hr : r.view = ⟨[(ss.map size).sum], makeCompactStrides [(ss.map size).sum], 0⟩) (hv : r.view.Valid r.buf) :
    ∃ rs : List (Arr τ α), simdUnpack r ss = some rs ∧ rs.length = ss.length ∧
      ∀ k s, ss[k]? = some s → ∃ x, rs[k]? = some x ∧ x.ty = r.ty ∧ x.view.shape = s ∧ x.view.Valid x.buf ∧
        ∀ i, InB i s → x.view.get x.buf i = r.view.get r.buf [before ss k + pos i s] := by
  refine ⟨unpackLoop r ss 0, ?_, ?_, fun k s hk => ?_⟩
  · unfold simdUnpack
    rw [if_pos (by
      rw [hr, numel_eq_size]
      simp only [size, Nat.mul_one]
      congr 1
      exact List.map_congr_left fun s _ => (numel_eq_size s).symm)]
  · suffices ∀ off, (unpackLoop r ss off).length = ss.length from this 0
    clear hr
    induction ss with
    | nil => intro; rfl
    | cons s ss ih => intro off; simp [unpackLoop, ih]
  · rw [unpackLoop_get, hk]
    have hle := before_le hk
    refine ⟨_, rfl, rfl, rfl, ⟨compact_WF _ _, fun i hi => ?_⟩, fun i hi => ?_⟩
    · have hi : InB i s := hi
      have hlt := pos_lt_size hi
      have hin : before ss k + pos i s < (ss.map size).sum := by omega
      obtain ⟨x, hx⟩ := hv.2 [before ss k + pos i s] (by rw [hr]; exact .cons hin .nil)
      refine ⟨x, ?_⟩
      rw [hr, vec_get hin] at hx
      rw [View.get, compact_addr hi, ← hx]
      simp
    · have hlt := pos_lt_size hi
      have hin : before ss k + pos i s < (ss.map size).sum := by omega
      rw [hr, vec_get hin, View.get, compact_addr hi]
      simp

/-- C09 (unary): for every non-empty list of arrays of any shapes and strides with one element type, packing, applying an
element-wise function and unpacking gives one result per array, with its shape, and each element is the function of the
corresponding element. -/
theorem c09_vmap1 [DecidableEq τ] (junk : α) {op : Arr τ α → Option (Arr τ α)} {f : α → α} {ty ty' : τ}
    (hop : ElementWise op f ty ty') {as : List (Arr τ α)} (hne : as ≠ []) (hv : ∀ a ∈ as, a.view.Valid a.buf)
    (hty : ∀ a ∈ as, a.ty = ty) :
    ∃ rs : List (Arr τ α), vmap1 junk op as = some rs ∧ rs.length = as.length ∧
      ∀ (k : Nat) (a : Arr τ α), as[k]? = some a → ∃ r, rs[k]? = some r ∧ r.ty = ty' ∧ r.view.shape = a.view.shape ∧ r.view.Valid r.buf ∧
        ∀ i, InB i a.view.shape → r.view.get r.buf i = (a.view.get a.buf i).map f := by
  obtain ⟨p, p1, p2, p3, p4, p5⟩ := simdPack_spec junk hne hv hty
  obtain ⟨r, r1, r2, r3, r4, r5⟩ := hop p _ p2 p3 p4
  obtain ⟨rs, s1, s2, s3⟩ := simdUnpack_spec (r := r) (ss := as.map fun a => a.view.shape) r3 r4
  refine ⟨rs, by simp [vmap1, p1, r1, s1], by simpa using s2, fun k a hk => ?_⟩
  have hk' : (as.map fun a => a.view.shape)[k]? = some a.view.shape := by simp [hk]
  obtain ⟨x, x1, x2, x3, x4, x5⟩ := s3 k _ hk'
  refine ⟨x, x1, by rw [x2, r2], x3, x4, fun i hi => ?_⟩
  have hle := before_le hk'
  have hlt := pos_lt_size hi
  rw [x5 i hi, r5 _ (by omega), p5 k a hk i hi]

/-- C09 (binary): the same for two lists of arrays with pairwise equal shapes. -/
theorem c09_vmap2 [DecidableEq τ] (junk : α) {op : Arr τ α → Arr τ α → Option (Arr τ α)} {f : α → α → α} {ta tb tr : τ}
    (hop : ElementWise2 op f ta tb tr) {as bs : List (Arr τ α)} (hne : as ≠ [])
    (hs : as.map (fun a => a.view.shape) = bs.map fun b => b.view.shape)
    (hva : ∀ a ∈ as, a.view.Valid a.buf) (hvb : ∀ b ∈ bs, b.view.Valid b.buf)
    (hta : ∀ a ∈ as, a.ty = ta) (htb : ∀ b ∈ bs, b.ty = tb) :
    ∃ rs : List (Arr τ α), vmap2 junk op as bs = some rs ∧ rs.length = as.length ∧
      ∀ (k : Nat) (a b : Arr τ α), as[k]? = some a → bs[k]? = some b →
        ∃ r, rs[k]? = some r ∧ r.ty = tr ∧ r.view.shape = a.view.shape ∧ r.view.Valid r.buf ∧
        ∀ i, InB i a.view.shape → r.view.get r.buf i =
          (a.view.get a.buf i).bind fun x => (b.view.get b.buf i).map fun y => f x y := by
  have hne' : bs ≠ [] := by rintro rfl; simp at hs; exact hne hs
  obtain ⟨p, p1, p2, p3, p4, p5⟩ := simdPack_spec junk hne hva hta
  obtain ⟨q, q1, q2, q3, q4, q5⟩ := simdPack_spec junk hne' hvb htb
  rw [← hs] at q1 q3
  obtain ⟨r, r1, r2, r3, r4, r5⟩ := hop p q _ p2 q2 p3 q3 p4 q4
  obtain ⟨rs, s1, s2, s3⟩ := simdUnpack_spec (r := r) (ss := as.map fun a => a.view.shape) r3 r4
  refine ⟨rs, by simp [vmap2, p1, q1, r1, s1], by simpa using s2, fun k a b hk hkb => ?_⟩
  have hk' : (as.map fun a => a.view.shape)[k]? = some a.view.shape := by simp [hk]
  have hab : a.view.shape = b.view.shape := by
    have : (bs.map fun b => b.view.shape)[k]? = some b.view.shape := by simp [hkb]
    rw [← hs, hk'] at this
    exact Option.some.inj this
  obtain ⟨x, x1, x2, x3, x4, x5⟩ := s3 k _ hk'
  refine ⟨x, x1, by rw [x2, r2], x3, x4, fun i hi => ?_⟩
  have hle := before_le hk'
  have hlt := pos_lt_size hi
  have hb := q5 k b hkb i (by rw [← hab]; exact hi)
  rw [← hs, ← hab] at hb
  rw [x5 i hi, r5 _ (by omega), p5 k a hk i hi, hb]

/-- The list of arrays must have one element type. -/
theorem c09_type_mismatch [DecidableEq τ] (junk : α) (op : Arr τ α → Option (Arr τ α)) {as : List (Arr τ α)} {a b : Arr τ α}
    (ha : as.head? = some a) (hb : b ∈ as) (hne : b.ty ≠ a.ty) : vmap1 junk op as = none := by
  cases as with
  | nil => rfl
  | cons a' as =>
    simp only [List.head?_cons, Option.some.injEq] at ha
    subst ha
    have : ((a' :: as).all fun x => decide (x.ty = a'.ty)) = false := by
      rw [List.all_eq_false]
      exact ⟨b, hb, by simpa using hne⟩
    unfold vmap1 simdPack
    simp only [this, Bool.false_eq_true, if_false, Option.bind_eq_bind, Option.bind_none]

/-- C09 on containers (`std::vector`): any list of vectors, any function applied to each element. -/
theorem c09_containers (f : α → α) (ls : List (List α)) : vmapC (List.map f) ls = some (ls.map (List.map f)) := by
  unfold vmapC unpackC packC
  rw [if_pos (by simp [Function.comp_def])]
  congr 1
  induction ls with
  | nil => rfl
  | cons l ls ih =>
    simp only [List.map_cons, List.flatten_cons, splitC, List.map_append]
    rw [List.take_left' (by simp), List.drop_left' (by simp), ih]

/-- A kernel that allocates a compact result. -/
def mapKernel (f : α → α) (a : Arr Nat α) : Option (Arr Nat α) := do
  let n ← a.view.shape.head?
  let xs ← (List.range n).mapM fun j => a.view.get a.buf [j]
  return ⟨7, (xs.map f).toArray, ⟨[n], makeCompactStrides [n], 0⟩⟩

/-- Reads a result completely. -/
def readArr (a : Arr Nat Nat) : Option (Shape × List Nat) := do
  let xs ← (List.range (numel a.view.shape)).mapM fun p => do
    let i ← unflattenIndex p a.view.shape
    a.view.get a.buf i
  return (a.view.shape, xs)

theorem mapM_some {β γ : Type} (g : β → Option γ) (l : List β) (h : ∀ a ∈ l, ∃ x, g a = some x) :
    ∃ xs : List γ, l.mapM g = some xs ∧ xs.length = l.length ∧ ∀ k : Nat, xs[k]? = l[k]?.bind g := by
  induction l with
  | nil => exact ⟨[], rfl, rfl, by simp⟩
  | cons a l ih =>
    obtain ⟨x, hx⟩ := h a (by simp)
    obtain ⟨xs, h1, h2, h3⟩ := ih fun b hb => h b (by simp [hb])
    refine ⟨x :: xs, by simp [List.mapM_cons, hx, h1], by simp [h2], fun k => ?_⟩
    cases k with
    | zero => simp [hx]
    | succ k => simp [h3]

/-- `mapKernel` is an element-wise function. -/
theorem mapKernel_elementWise (f : α → α) : ElementWise (mapKernel f) f 3 7 := by
  intro a n _ hs hv
  obtain ⟨xs, h1, h2, h3⟩ := mapM_some (fun j => a.view.get a.buf [j]) (List.range n) (fun j hj => hv.2 [j] (by
    rw [hs]; exact .cons (List.mem_range.1 hj) .nil))
  simp only [List.length_range] at h2
  refine ⟨⟨7, (xs.map f).toArray, ⟨[n], makeCompactStrides [n], 0⟩⟩, ?_, rfl, rfl, ?_, fun j hj => ?_⟩
  · simp [mapKernel, hs, h1]
  · exact compact_valid (by simp [size, h2])
  · have := h3 j
    simp only [List.getElem?_range hj, Option.bind_some] at this
    rw [vec_get hj, ← this]
    simp [rd]

/-- A transposed 2x3 array, a scalar and a reversed vector: hypotheses and result. -/
def vmapDemo : List (Arr Nat Nat) :=
  [⟨3, #[1, 2, 3, 4, 5, 6], ⟨[3, 2], [1, 3], 0⟩⟩, ⟨3, #[40, 50], ⟨[], [], 1⟩⟩, ⟨3, #[7, 8, 9], ⟨[3], [-1], 2⟩⟩]

example : (vmap1 0 (mapKernel (· * 10)) vmapDemo).bind (List.mapM readArr) =
    some [([3, 2], [10, 40, 20, 50, 30, 60]), ([], [500]), ([3], [90, 80, 70])] := by decide +kernel

/-- The hypotheses of `c09_vmap1` hold for a 2x2 block inside a larger buffer together with a scalar. -/
example : ∃ rs : List (Arr Nat Nat), vmap1 0 (mapKernel (· + 1))
    [⟨3, #[1, 2, 3, 4, 5, 6], ⟨[2, 2], makeCompactStrides [2, 2], (1 : Nat)⟩⟩, ⟨3, #[40, 50], ⟨[], makeCompactStrides [], (1 : Nat)⟩⟩]
      = some rs ∧ rs.length = 2 := by
  obtain ⟨rs, h1, h2, _⟩ := c09_vmap1 0 (mapKernel_elementWise (· + 1))
    (as := [⟨3, #[1, 2, 3, 4, 5, 6], ⟨[2, 2], makeCompactStrides [2, 2], (1 : Nat)⟩⟩,
      ⟨3, #[40, 50], ⟨[], makeCompactStrides [], (1 : Nat)⟩⟩]) (by simp) (by
    intro a ha
    simp only [List.mem_cons, List.not_mem_nil, or_false] at ha
    rcases ha with rfl | rfl
    · exact block_valid (by decide)
    · exact block_valid (by decide)) (by
    intro a ha
    simp only [List.mem_cons, List.not_mem_nil, or_false] at ha
    rcases ha with rfl | rfl <;> rfl)
  exact ⟨rs, h1, h2⟩

/-- A kernel that returns a constant as a broadcast array (stride 0): element-wise on its view, but not stored compactly. -/
def constKernel (a : Arr Nat Nat) : Option (Arr Nat Nat) := some ⟨7, #[5], ⟨a.view.shape, a.view.shape.map fun _ => 0, 0⟩⟩

/-- C09 needs the compact result: after a kernel that returns a broadcast constant, the unpacked arrays read outside the
buffer. -/
theorem c09_broadcast_result :
    (constKernel ⟨3, #[1, 2], ⟨[2], [1], 0⟩⟩).bind readArr = some ([2], [5, 5]) ∧
    ∃ rs, vmap1 0 constKernel [⟨3, #[1, 2], ⟨[2], [1], 0⟩⟩] = some rs ∧ rs.map readArr = [none] := by
  refine ⟨by decide +kernel, [⟨7, #[5], ⟨[2], [1], 0⟩⟩], by decide +kernel, by decide +kernel⟩

end Spu.Props
