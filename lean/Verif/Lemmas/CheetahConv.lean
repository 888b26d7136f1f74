import Verif.Spec.CheetahConv
import Verif.Lemmas.CheetahParse
import Mathlib.Tactic.Ring
import Mathlib.Tactic.Linarith

set_option autoImplicit false

/-!
# Slices, and polynomials that hold tensors
-/

namespace Spu.Props.Cconv

open Spu.Spec.Nega Spu.Model.Cmul Spu.Model.Cdot Spu.Model.Cconv

/-! ## One dimension -/

/-- what one dimension is assumed to be: an extent `n`, a kernel of `k`, blocks of `s`, a stride `d` -/
structure Dim (n k s d : ℕ) : Prop where
  k0 : 0 < k
  d0 : 0 < d
  ks : k ≤ s
  sn : s ≤ n

/-- the first result that is not before slice `a` -/
def cut (n k s d a : ℕ) : ℕ := cdiv (min (a * (s - (k - 1))) (n - (k - 1))) d

theorem cdiv_off {d : ℕ} (hd : 0 < d) (b : ℕ) : cdiv b d * d = b + (d - b % d) % d := by
  have e := Nat.div_add_mod' b d
  have hr := Nat.mod_lt b hd
  by_cases hz : b % d = 0
  · rw [hz, Nat.sub_zero, Nat.mod_self]
    have : cdiv b d = b / d := by
      unfold cdiv
      apply Nat.div_eq_of_lt_le
      · omega
      · rw [Nat.add_mul, one_mul]; omega
    rw [this]; omega
  · have : cdiv b d = b / d + 1 := by
      unfold cdiv
      apply Nat.div_eq_of_lt_le
      · rw [Nat.add_mul, one_mul]; omega
      · rw [Nat.add_mul, Nat.add_mul, one_mul]; omega
    rw [this, Nat.mod_eq_of_lt (by omega : d - b % d < d), Nat.add_mul, one_mul]; omega

section
variable {n k s d a : ℕ}

theorem cut_zero (D : Dim n k s d) : cut n k s d 0 = 0 := by
  have := D.d0
  unfold cut
  rw [Nat.zero_mul, Nat.zero_min, cdiv]
  exact Nat.div_eq_of_lt (by omega)

theorem cut_total (D : Dim n k s d) : cut n k s d (cdiv (n - (k - 1)) (s - (k - 1))) = (n - k + d) / d := by
  have h1 := D.k0
  have h2 := D.ks
  have h3 := D.sn
  have := D.d0
  have hw : 0 < s - (k - 1) := by omega
  have : ¬ cdiv (n - (k - 1)) (s - (k - 1)) * (s - (k - 1)) < n - (k - 1) := fun h => by
    have := (lt_cdiv hw).2 h
    omega
  unfold cut
  rw [Nat.min_eq_right (by omega)]
  unfold cdiv
  congr 1
  omega

theorem lt_total (D : Dim n k s d) (p : ℕ) : p < (n - k + d) / d ↔ p * d + k ≤ n := by
  have h1 := D.k0
  have h2 := D.ks
  have h3 := D.sn
  rw [Nat.lt_iff_add_one_le, Nat.le_div_iff_mul_le D.d0, Nat.add_mul, one_mul]
  omega

/-- the slice `a` -/
theorem slice_facts (D : Dim n k s d) (ha : a < cdiv (n - (k - 1)) (s - (k - 1))) :
    cut n k s d a + (outExt d (s - (k - 1)) k (sliceExt (s - (k - 1)) s n a) a).2 = cut n k s d (a + 1) ∧
    cut n k s d a * d = a * (s - (k - 1)) + (outExt d (s - (k - 1)) k (sliceExt (s - (k - 1)) s n a) a).1 ∧
    k ≤ sliceExt (s - (k - 1)) s n a ∧ sliceExt (s - (k - 1)) s n a ≤ n ∧ sliceExt (s - (k - 1)) s n a ≤ s := by
  have h1 := D.k0
  have h2 := D.ks
  have h3 := D.sn
  have h4 := D.d0
  have hw : 0 < s - (k - 1) := by omega
  have hlt := (lt_cdiv hw).1 ha
  have c0 : cut n k s d a * d = a * (s - (k - 1)) + (d - a * (s - (k - 1)) % d) % d := by
    rw [cut, Nat.min_eq_left (by omega), cdiv_off h4]
  have hoff := Nat.mod_lt (d - a * (s - (k - 1)) % d) h4
  refine ⟨?_, c0, ?_, ?_, ?_⟩
  · unfold outExt
    dsimp only
    rw [← Nat.mul_add_div h4, Nat.mul_comm d, c0]
    unfold cut cdiv
    rw [Nat.add_mul, one_mul]
    congr 1
    unfold sliceExt
    generalize (d - a * (s - (k - 1)) % d) % d = off at *
    generalize a * (s - (k - 1)) = b at *
    omega
  all_goals
    unfold sliceExt
    generalize a * (s - (k - 1)) = b at *
    omega

/-- the results of slice `a` -/
theorem in_slice (D : Dim n k s d) (ha : a < cdiv (n - (k - 1)) (s - (k - 1))) {p : ℕ} (h0 : cut n k s d a ≤ p)
    (h1 : p < cut n k s d (a + 1)) :
    p * d / (s - (k - 1)) = a ∧
    (p - cut n k s d a) * d + (outExt d (s - (k - 1)) k (sliceExt (s - (k - 1)) s n a) a).1 = p * d % (s - (k - 1)) := by
  have k1 := D.k0
  have k2 := D.ks
  have hw : 0 < s - (k - 1) := by omega
  obtain ⟨-, e, -⟩ := slice_facts D ha
  have a1 : cut n k s d a * d ≤ p * d := Nat.mul_le_mul_right _ h0
  have a2 := (lt_cdiv D.d0).1 h1
  have a3 : p * d / (s - (k - 1)) = a := by
    apply Nat.div_eq_of_lt_le
    · omega
    · omega
  refine ⟨a3, ?_⟩
  have := Nat.div_add_mod' (p * d) (s - (k - 1))
  rw [a3] at this
  rw [Nat.sub_mul]
  omega

theorem cut_mono (D : Dim n k s d) {b : ℕ} (h : a ≤ b) : cut n k s d a ≤ cut n k s d b := by
  unfold cut cdiv
  apply Nat.div_le_div_right
  have := Nat.mul_le_mul_right (s - (k - 1)) h
  omega

theorem mul_mod_slice (D : Dim n k s d) {p : ℕ} (hp : p * d + k ≤ n) {i : ℕ} (hi : i < k) :
    p * d / (s - (k - 1)) < cdiv (n - (k - 1)) (s - (k - 1)) ∧
    p * d % (s - (k - 1)) + i < sliceExt (s - (k - 1)) s n (p * d / (s - (k - 1))) ∧
    p * d % (s - (k - 1)) + i < s ∧
    p * d / (s - (k - 1)) * (s - (k - 1)) + (p * d % (s - (k - 1)) + i) = p * d + i := by
  have k2 := D.ks
  have k0 := D.k0
  have hw : 0 < s - (k - 1) := by omega
  have e := Nat.div_add_mod' (p * d) (s - (k - 1))
  have r := Nat.mod_lt (p * d) hw
  refine ⟨div_lt_cdiv hw (by omega), ?_, by omega, by omega⟩
  unfold sliceExt
  omega

end

/-! ## A polynomial that holds a tensor -/

/-- the position of an entry of a tensor of extents `H x W` per channel -/
def ip (H W h w c : ℕ) : ℕ := (c * H + h) * W + w

theorem ip_inj {H W h w c h' w' c' : ℕ} (hh : h < H) (hw : w < W) (hh' : h' < H) (hw' : w' < W)
    (e : ip H W h w c = ip H W h' w' c') : h = h' ∧ w = w' ∧ c = c' := by
  unfold ip at e
  have e1 : c * H + h = c' * H + h' := by rw [← (jobDM (l := c * H + h) hw).1, e, (jobDM hw').1]
  have e2 : w = w' := by rw [← (jobDM (l := c * H + h) hw).2, e, (jobDM hw').2]
  have e3 : c = c' := by rw [← (jobDM (l := c) hh).1, e1, (jobDM hh').1]
  have e4 : h = h' := by rw [← (jobDM (l := c) hh).2, e1, (jobDM hh').2]
  exact ⟨e4, e2, e3⟩

theorem ip_lt {H W C h w c : ℕ} (hh : h < H) (hw : w < W) (hc : c < C) : ip H W h w c < H * W * C := by
  unfold ip
  have h1 : c * H + h + 1 ≤ C * H := by
    have := Nat.mul_le_mul_right H (show c + 1 ≤ C from hc)
    rw [Nat.add_mul, one_mul] at this
    omega
  have h2 := Nat.mul_le_mul_right W h1
  rw [Nat.add_mul, one_mul] at h2
  have : C * H * W = H * W * C := by ring
  omega

theorem ip_mono {H W h w c h' w' c' : ℕ} (hh : h ≤ h') (hw : w ≤ w') (hc : c ≤ c') : ip H W h w c ≤ ip H W h' w' c' := by
  unfold ip
  have := Nat.mul_le_mul_right W (Nat.add_le_add (Nat.mul_le_mul_right H hc) hh)
  omega

theorem ip_add (H W h w c h' w' c' : ℕ) : ip H W (h + h') (w + w') (c + c') = ip H W h w c + ip H W h' w' c' := by
  unfold ip; ring

theorem mem_cells3 {s : Sh3} {h w c : ℕ} : (h, w, c) ∈ cells3 s ↔ h < s.h ∧ w < s.w ∧ c < s.c := by
  simp [cells3]; tauto

/-- the polynomial `p` holds `T` at `pos`, and zeros elsewhere -/
structure Holds3 {V : Type} [Zero V] (N : ℕ) (s : Sh3) (pos : ℕ → ℕ → ℕ → ℕ) (T : ℕ → ℕ → ℕ → V) (p : ℕ → V) : Prop where
  val : ∀ h, h < s.h → ∀ w, w < s.w → ∀ c, c < s.c → p (pos h w c) = T h w c
  zero : ∀ i, i < N → (∀ h, h < s.h → ∀ w, w < s.w → ∀ c, c < s.c → pos h w c ≠ i) → p i = 0

theorem tensor2Poly_spec {V : Type} [Zero V] {N : ℕ} {ishape kshape sh : Sh3} {t : Slice V} {idx : ℕ → ℕ → ℕ → Option ℤ}
    {pos : ℕ → ℕ → ℕ → ℕ} {T : ℕ → ℕ → ℕ → V} (hsh : (if ishape.numel = t.pad.numel then ishape else kshape) = sh)
    (hp : t.pad.numel = sh.numel) (h1 : 0 < ishape.numel) (h2 : 0 < kshape.numel) (hN : sh.numel ≤ N)
    (hi : ∀ h, h < sh.h → ∀ w, w < sh.w → ∀ c, c < sh.c → idx h w c = some (pos h w c : ℤ) ∧ pos h w c < N ∧ t.at' h w c = some (T h w c))
    (hinj : ∀ h, h < sh.h → ∀ w, w < sh.w → ∀ c, c < sh.c → ∀ h', h' < sh.h → ∀ w', w' < sh.w → ∀ c', c' < sh.c →
      pos h w c = pos h' w' c' → h = h' ∧ w = w' ∧ c = c') :
    ∃ p, tensor2Poly N ishape kshape t idx = some p ∧ Holds3 N sh pos T p := by
  have hor : t.pad.numel = ishape.numel ∨ t.pad.numel = kshape.numel := by
    by_cases e : ishape.numel = t.pad.numel
    · exact .inl e.symm
    · rw [if_neg e] at hsh; right; rw [hp, hsh]
  unfold tensor2Poly
  rw [if_pos ⟨h1, h2, hor, by omega⟩, hsh]
  have := foldlM_pure_of (fun (p : ℕ → V) (x : ℕ × ℕ × ℕ) => do
      let i ← idx x.1 x.2.1 x.2.2
      let v ← t.at' x.1 x.2.1 x.2.2
      if 0 ≤ i ∧ i < N then return Function.update p i.toNat v else none)
    (fun p x => Function.update p (pos x.1 x.2.1 x.2.2) (T x.1 x.2.1 x.2.2)) (cells3 sh) (by
      rintro ⟨h, w, c⟩ hx p
      obtain ⟨x1, x2, x3⟩ := mem_cells3.1 hx
      obtain ⟨y1, y2, y3⟩ := hi h x1 w x2 c x3
      dsimp only
      rw [y1, y3]
      simp only [Option.bind_eq_bind, Option.bind_some]
      rw [if_pos ⟨by omega, by omega⟩, Int.toNat_natCast]
      rfl) fun _ => 0
  refine ⟨_, this, ?_⟩
  obtain ⟨w1, w2⟩ := foldl_write (fun x : ℕ × ℕ × ℕ => pos x.1 x.2.1 x.2.2) (fun x => T x.1 x.2.1 x.2.2) (cells3 sh) (by
    rintro ⟨h, w, c⟩ hx ⟨h', w', c'⟩ hx' e
    obtain ⟨x1, x2, x3⟩ := mem_cells3.1 hx
    obtain ⟨y1, y2, y3⟩ := mem_cells3.1 hx'
    obtain ⟨rfl, rfl, rfl⟩ := hinj h x1 w x2 c x3 h' y1 w' y2 c' y3 e
    rfl) fun _ => 0
  refine ⟨fun h hh w hw c hc => w1 (h, w, c) (mem_cells3.2 ⟨hh, hw, hc⟩), fun i _ hn => w2 i ?_⟩
  rintro ⟨h, w, c⟩ hx
  obtain ⟨x1, x2, x3⟩ := mem_cells3.1 hx
  exact hn h x1 w x2 c x3

/-- the position of the last entry of a kernel -/
def top (s f : Sh3) : ℕ := ip s.h s.w (f.h - 1) (f.w - 1) (f.c - 1)

/-- the position of an entry of a kernel -/
def kp (s f : Sh3) (h w c : ℕ) : ℕ := top s f - ip s.h s.w h w c

theorem kernelBegin_eq {s f : Sh3} (hh : 0 < f.h) (hw : 0 < f.w) (hc : 0 < f.c) : kernelBegin s f = (top s f : ℤ) := by
  unfold kernelBegin top ip
  push_cast [Nat.cast_sub hh, Nat.cast_sub hw, Nat.cast_sub hc]
  ring

theorem ip_le_top {s f : Sh3} {h w c : ℕ} (hh : h < f.h) (hw : w < f.w) (hc : c < f.c) : ip s.h s.w h w c ≤ top s f :=
  ip_mono (by omega) (by omega) (by omega)

theorem kernelIndex_eq {s f : Sh3} {h w c : ℕ} (hh : h < f.h) (hw : w < f.w) (hc : c < f.c) :
    kernelIndex s f h w c = some (kp s f h w c : ℤ) := by
  unfold kernelIndex
  rw [if_pos ⟨hc, hh, hw⟩, kernelBegin_eq (by omega) (by omega) (by omega), kp, Nat.cast_sub (ip_le_top hh hw hc)]
  unfold ip
  push_cast
  congr 1
  ring

theorem inputIndex_eq {s : Sh3} {h w c : ℕ} (hh : h < s.h) (hw : w < s.w) (hc : c < s.c) :
    inputIndex s h w c = some (ip s.h s.w h w c : ℤ) := by
  unfold inputIndex
  rw [if_pos ⟨hc, hh, hw⟩]
  unfold ip
  push_cast
  congr 1
  ring

/-- The coefficients of a product that are results. -/
theorem negMul_conv {A : Type} [CommRing A] {N : ℕ} {s f : Sh3} (hN : s.numel ≤ N) (hc : f.c = s.c) (hh : f.h ≤ s.h) (hw : f.w ≤ s.w)
    (h0 : 0 < f.h) (w0 : 0 < f.w) (c0 : 0 < f.c)
    {p q : ℕ → A} {X K : ℕ → ℕ → ℕ → A} (hp : Holds3 N s (ip s.h s.w) X p) (hq : Holds3 N f (kp s f) K q)
    {a b : ℕ} (ha : a + f.h ≤ s.h) (hb : b + f.w ≤ s.w) :
    negMul N p q (top s f + ip s.h s.w a b 0) =
      ∑ c ∈ Finset.range s.c, ∑ i ∈ Finset.range f.h, ∑ j ∈ Finset.range f.w, X (a + i) (b + j) c * K i j c := by
  have htop : top s f + ip s.h s.w a b 0 < N := by
    unfold top
    rw [← ip_add]
    exact lt_of_lt_of_le (ip_lt (C := s.c) (by omega) (by omega) (by omega)) hN
  unfold negMul
  rw [Finset.sum_comm]
  symm
  rw [show (∑ c ∈ Finset.range s.c, ∑ i ∈ Finset.range f.h, ∑ j ∈ Finset.range f.w, X (a + i) (b + j) c * K i j c) =
    ∑ x ∈ Finset.range s.c ×ˢ (Finset.range f.h ×ˢ Finset.range f.w), X (a + x.2.1) (b + x.2.2) x.1 * K x.2.1 x.2.2 x.1 by
      rw [Finset.sum_product]
      refine Finset.sum_congr rfl fun c _ => ?_
      rw [Finset.sum_product]]
  refine Finset.sum_of_injOn (fun x => kp s f x.2.1 x.2.2 x.1) ?_ ?_ ?_ ?_
  · rintro ⟨c, i, j⟩ hx ⟨c', i', j'⟩ hx' e
    simp only [Finset.coe_product, Finset.coe_range, Set.mem_prod, Set.mem_Iio] at hx hx'
    dsimp only at e
    have t1 := ip_le_top (s := s) hx.2.1 hx.2.2 (show c < f.c by omega)
    have t2 := ip_le_top (s := s) hx'.2.1 hx'.2.2 (show c' < f.c by omega)
    unfold kp at e
    obtain ⟨rfl, rfl, rfl⟩ := ip_inj (H := s.h) (W := s.w) (h := i) (w := j) (c := c) (h' := i') (w' := j') (c' := c')
      (by omega) (by omega) (by omega) (by omega) (by omega)
    rfl
  · rintro ⟨c, i, j⟩ hx
    simp only [Finset.coe_range, Set.mem_Iio]
    unfold kp
    omega
  · intro j hj hn
    refine Finset.sum_eq_zero fun i _ => ?_
    rw [hq.zero j (Finset.mem_range.1 hj) fun h h1 w h2 c h3 e => hn ⟨(c, h, w), by
      simp only [Finset.coe_product, Finset.coe_range, Set.mem_prod, Set.mem_Iio]; omega, e⟩]
    simp
  · rintro ⟨c, i, j⟩ hx
    simp only [Finset.mem_product, Finset.mem_range] at hx
    dsimp only
    have t1 := ip_le_top (s := s) hx.2.1 hx.2.2 (show c < f.c by omega)
    have e1 := ip_add s.h s.w a b 0 i j c
    rw [Nat.zero_add] at e1
    have e2 : ip s.h s.w (a + i) (b + j) c + kp s f i j c = top s f + ip s.h s.w a b 0 := by unfold kp; omega
    have e3 : ip s.h s.w (a + i) (b + j) c < N := lt_of_lt_of_le (ip_lt (by omega) (by omega) (by omega)) hN
    rw [Finset.sum_eq_single (ip s.h s.w (a + i) (b + j) c)]
    · rw [if_pos e2, hp.val _ (by omega) _ (by omega) _ (by omega), hq.val _ hx.2.1 _ hx.2.2 _ (by omega)]
    · intro t ht hne
      have ht := Finset.mem_range.1 ht
      rw [if_neg (by omega), if_neg (by unfold kp at *; omega)]
    · intro hn
      exact absurd (Finset.mem_range.2 e3) hn

end Spu.Props.Cconv
