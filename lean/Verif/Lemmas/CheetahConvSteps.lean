import Verif.Lemmas.CheetahConv

set_option autoImplicit false

/-!
# The steps of the convolution
-/

namespace Spu.Props.Cconv

open Spu.Spec.Nega Spu.Spec.Conv Spu.Model.Cmul Spu.Model.Cdot Spu.Model.Cconv

/-- what is assumed of shapes -/
structure Ok (N : ℕ) (m : Meta) (s : Sh3) : Prop where
  chan : m.inp.c = m.ker.c
  kern : 0 < m.kernels
  dh : Dim m.inp.h m.ker.h s.h m.sh
  dw : Dim m.inp.w m.ker.w s.w m.sw
  c0 : 0 < s.c
  cn : s.c ≤ m.inp.c
  fits : s.numel ≤ N

/-- the helper of the shapes -/
def hp (m : Meta) (s : Sh3) : Helper2 :=
  ⟨m, s, ⟨s.h - (m.ker.h - 1), s.w - (m.ker.w - 1), s.c⟩,
    ⟨cdiv (m.inp.h - (m.ker.h - 1)) (s.h - (m.ker.h - 1)), cdiv (m.inp.w - (m.ker.w - 1)) (s.w - (m.ker.w - 1)), cdiv m.inp.c s.c⟩⟩

/-- the shape of a block of a kernel -/
def fsh (m : Meta) (s : Sh3) : Sh3 := ⟨m.ker.h, m.ker.w, s.c⟩

section
variable {N : ℕ} {m : Meta} {s : Sh3}

theorem mkHelper_eq (h : Ok N m s) : mkHelper m s = some (hp m s) := by
  have a1 := h.dh.k0
  have a2 := h.dh.ks
  have a3 := h.dh.sn
  have b1 := h.dw.k0
  have b2 := h.dw.ks
  have b3 := h.dw.sn
  have c1 := h.c0
  have c2 := h.cn
  unfold mkHelper
  rw [if_pos ⟨by omega, by omega, by omega, by omega, by omega, by omega⟩, if_neg (by omega)]
  rfl

theorem numel_pos (h : Ok N m s) : 0 < s.numel := by
  have a1 := h.dh.k0
  have a2 := h.dh.ks
  have b1 := h.dw.k0
  have b2 := h.dw.ks
  exact Nat.mul_pos (Nat.mul_pos (by omega) (by omega)) h.c0

theorem fnumel_pos (h : Ok N m s) : 0 < (fsh m s).numel := Nat.mul_pos (Nat.mul_pos h.dh.k0 h.dw.k0) h.c0

theorem fnumel_le (h : Ok N m s) : (fsh m s).numel ≤ s.numel :=
  Nat.mul_le_mul_right _ (Nat.mul_le_mul h.dh.ks h.dw.ks)

theorem valid_eq (h : Ok N m s) : validMeta N m = true ∧ validSub N s = true := by
  unfold validMeta validSub
  rw [decide_eq_true_iff, decide_eq_true_iff]
  refine ⟨⟨h.chan, by have := h.kern; omega, ?_⟩, numel_pos h, h.fits⟩
  have := fnumel_le h
  have h2 : m.ker.h * m.ker.w ≤ (fsh m s).numel := Nat.le_mul_of_pos_right _ h.c0
  have := h.fits
  omega

theorem sliceShape_eq {a b c : ℕ} (ha : a < (hp m s).slices.h) (hb : b < (hp m s).slices.w) (hc : c < (hp m s).slices.c) :
    sliceShape (hp m s) ⟨a, b, c⟩ = some ⟨sliceExt (s.h - (m.ker.h - 1)) s.h m.inp.h a,
      sliceExt (s.w - (m.ker.w - 1)) s.w m.inp.w b, sliceExt s.c s.c m.inp.c c⟩ := by
  unfold sliceShape
  rw [if_pos ⟨ha, hb, hc⟩]
  rfl

theorem chanExt {C b c : ℕ} : sliceExt b b C c = ext C b c := by
  unfold sliceExt ext
  rw [Nat.min_comm]

/-- what a block of the input holds -/
def inBlock {V : Type} [Zero V] (m : Meta) (s : Sh3) (x : ℕ → V) (a b c : ℕ) (h w c' : ℕ) : V :=
  if h < sliceExt (s.h - (m.ker.h - 1)) s.h m.inp.h a ∧ w < sliceExt (s.w - (m.ker.w - 1)) s.w m.inp.w b ∧ c' < ext m.inp.c s.c c then
    x (((a * (s.h - (m.ker.h - 1)) + h) * m.inp.w + (b * (s.w - (m.ker.w - 1)) + w)) * m.inp.c + (c * s.c + c'))
  else 0

/-- what a block of a kernel holds -/
def kerBlock {V : Type} [Zero V] (m : Meta) (s : Sh3) (k : ℕ → V) (c : ℕ) (h w c' : ℕ) : V :=
  if c' < ext m.ker.c s.c c then k ((h * m.ker.w + w) * m.ker.c + (c * s.c + c')) else 0

theorem pos_lt {H W C h w c : ℕ} (hh : h < H) (hw : w < W) (hc : c < C) : (h * W + w) * C + c < H * W * C := by
  have h1 := Nat.mul_le_mul_right W (show h + 1 ≤ H from hh)
  rw [Nat.add_mul, one_mul] at h1
  have h2 := Nat.mul_le_mul_right C (show h * W + w + 1 ≤ H * W by omega)
  rw [Nat.add_mul, one_mul] at h2
  omega

theorem inPoly {V : Type} [Zero V] (h : Ok N m s) (x : ℕ → V) {a b c : ℕ} (ha : a < (hp m s).slices.h)
    (hb : b < (hp m s).slices.w) (hc : c < (hp m s).slices.c) :
    ∃ t p, slice (hp m s) x m.inp ⟨a, b, c⟩ s = some t ∧ tensor2Poly N s (fsh m s) t (inputIndex s) = some p ∧
      Holds3 N s (ip s.h s.w) (inBlock m s x a b c) p := by
  obtain ⟨-, -, a1, a2, a3⟩ := slice_facts h.dh ha
  obtain ⟨-, -, b1, b2, b3⟩ := slice_facts h.dw hb
  obtain ⟨c1, c2, c3⟩ := ext_pos h.c0 hc
  have k1 := h.dh.k0
  have k2 := h.dw.k0
  have k3 := h.dh.ks
  have k4 := h.dw.ks
  have k5 := h.c0
  have hs : slice (hp m s) x m.inp ⟨a, b, c⟩ s = some ⟨x, m.inp, ⟨a * (s.h - (m.ker.h - 1)), b * (s.w - (m.ker.w - 1)), c * s.c⟩,
      ⟨sliceExt (s.h - (m.ker.h - 1)) s.h m.inp.h a, sliceExt (s.w - (m.ker.w - 1)) s.w m.inp.w b, ext m.inp.c s.c c⟩, s⟩ := by
    unfold slice
    rw [sliceShape_eq ha hb hc, chanExt]
    simp only [Option.bind_eq_bind, Option.bind_some]
    rw [if_pos ⟨by omega, by omega, by omega, by omega, by omega, by omega⟩]
    rfl
  obtain ⟨p, e, hp⟩ := tensor2Poly_spec (N := N) (ishape := s) (kshape := fsh m s) (sh := s) (idx := inputIndex s) (pos := ip s.h s.w)
    (T := inBlock m s x a b c)
    (t := ⟨x, m.inp, ⟨a * (s.h - (m.ker.h - 1)), b * (s.w - (m.ker.w - 1)), c * s.c⟩,
      ⟨sliceExt (s.h - (m.ker.h - 1)) s.h m.inp.h a, sliceExt (s.w - (m.ker.w - 1)) s.w m.inp.w b, ext m.inp.c s.c c⟩, s⟩)
    (if_pos rfl) rfl (numel_pos h) (fnumel_pos h) h.fits
    (fun i hi j hj l hl => ⟨inputIndex_eq hi hj hl, lt_of_lt_of_le (ip_lt hi hj hl) h.fits, by
      unfold Slice.at' inBlock
      dsimp only
      rw [if_neg (by omega)]
      by_cases hin : i < sliceExt (s.h - (m.ker.h - 1)) s.h m.inp.h a ∧ j < sliceExt (s.w - (m.ker.w - 1)) s.w m.inp.w b ∧
        l < ext m.inp.c s.c c
      · rw [if_neg (by omega), if_pos hin, if_pos]
        apply pos_lt
        · have := hin.1; unfold sliceExt at this; omega
        · have := hin.2.1; unfold sliceExt at this; omega
        · omega
      · rw [if_pos (by omega), if_neg hin]⟩)
    (fun i hi j hj l hl i' hi' j' hj' l' hl' e => ip_inj hi hj hi' hj' e)
  exact ⟨_, p, hs, e, hp⟩

theorem foldl_table {β : Type} (P : ℕ → β) (n : ℕ) (z : ℕ → β) {i : ℕ} (hi : i < n) :
    ((List.range n).foldl (fun r x => Function.update r x (P x)) z) i = P i :=
  (foldl_write (fun x : ℕ => x) P (List.range n) (fun x _ y _ e => by rw [show x = y from e]) z).1 i (List.mem_range.2 hi)

theorem div_parts {A B c a b : ℕ} (ha : a < A) (hb : b < B) :
    (c * (A * B) + (a * B + b)) / (A * B) = c ∧ (c * (A * B) + (a * B + b)) % (A * B) / B = a ∧ (c * (A * B) + (a * B + b)) % B = b := by
  have hlt : a * B + b < A * B := by
    have := Nat.mul_le_mul_right B (show a + 1 ≤ A from ha)
    rw [Nat.add_mul, one_mul] at this
    omega
  obtain ⟨e1, e2⟩ := jobDM (l := c) hlt
  refine ⟨e1, ?_, ?_⟩
  · rw [e2, (jobDM hb).1]
  · rw [show c * (A * B) + (a * B + b) = (c * A + a) * B + b by ring, (jobDM hb).2]

theorem idx_lt {A B C c a b : ℕ} (ha : a < A) (hb : b < B) (hc : c < C) : c * (A * B) + (a * B + b) < A * B * C := by
  have := ip_lt (H := A) (W := B) (C := C) ha hb hc
  unfold ip at this
  have e : (c * A + a) * B + b = c * (A * B) + (a * B + b) := by ring
  omega

theorem parts_lt {A B C i : ℕ} (hi : i < A * B * C) : i % (A * B) / B < A ∧ i % B < B ∧ i / (A * B) < C := by
  have hB : 0 < B := Nat.pos_of_ne_zero fun e => by simp [e] at hi
  have hA : 0 < A := Nat.pos_of_ne_zero fun e => by simp [e] at hi
  refine ⟨?_, Nat.mod_lt _ hB, ?_⟩
  · rw [Nat.div_lt_iff_lt_mul hB]; exact Nat.mod_lt _ (Nat.mul_pos hA hB)
  · rw [Nat.div_lt_iff_lt_mul (Nat.mul_pos hA hB), Nat.mul_comm]; exact hi

theorem encodeInput_spec {V : Type} [Zero V] (h : Ok N m s) (x : ℕ → V) :
    ∃ P, encodeInput N m s x = some P ∧ ∀ a, a < (hp m s).slices.h → ∀ b, b < (hp m s).slices.w → ∀ c, c < (hp m s).slices.c →
      Holds3 N s (ip s.h s.w) (inBlock m s x a b c)
        (P (c * ((hp m s).slices.h * (hp m s).slices.w) + (a * (hp m s).slices.w + b))) := by
  have each : ∀ i, i < (hp m s).slices.h * (hp m s).slices.w * (hp m s).slices.c → ∃ t p,
      slice (hp m s) x m.inp ⟨i % ((hp m s).slices.h * (hp m s).slices.w) / (hp m s).slices.w, i % (hp m s).slices.w,
        i / ((hp m s).slices.h * (hp m s).slices.w)⟩ s = some t ∧
      tensor2Poly N s (fsh m s) t (inputIndex s) = some p ∧
      Holds3 N s (ip s.h s.w) (inBlock m s x (i % ((hp m s).slices.h * (hp m s).slices.w) / (hp m s).slices.w)
        (i % (hp m s).slices.w) (i / ((hp m s).slices.h * (hp m s).slices.w))) p := fun i hi => by
    obtain ⟨p1, p2, p3⟩ := parts_lt hi
    exact inPoly h x p1 p2 p3
  choose! t p e1 e2 e3 using each
  have hf := foldlM_pure_of (fun (out : ℕ → ℕ → V) i => do
      let t ← slice (hp m s) x m.inp ⟨i % ((hp m s).slices.h * (hp m s).slices.w) / (hp m s).slices.w, i % (hp m s).slices.w,
        i / ((hp m s).slices.h * (hp m s).slices.w)⟩ s
      let p ← tensor2Poly N s (fsh m s) t (inputIndex s)
      return Function.update out i p) (fun out i => Function.update out i (p i))
    (List.range ((hp m s).slices.h * (hp m s).slices.w * (hp m s).slices.c)) (by
      intro i hi out
      have hi := List.mem_range.1 hi
      rw [e1 i hi]
      simp only [Option.bind_eq_bind, Option.bind_some]
      rw [e2 i hi]
      rfl) fun _ _ => 0
  refine ⟨(List.range ((hp m s).slices.h * (hp m s).slices.w * (hp m s).slices.c)).foldl
    (fun out i => Function.update out i (p i)) fun _ _ => 0, ?_, fun a ha b hb c hc => ?_⟩
  · unfold encodeInput
    rw [if_pos (valid_eq h), mkHelper_eq h]
    simp only [Option.bind_eq_bind, Option.bind_some]
    exact hf
  · have hi := idx_lt ha hb hc
    obtain ⟨d1, d2, d3⟩ := div_parts (c := c) ha hb
    have := e3 _ hi
    rw [d1, d2, d3] at this
    rw [foldl_table p _ _ hi]
    exact this

/-! ## Kernels -/

theorem kp_lt (h : Ok N m s) {i j l : ℕ} (hi : i < m.ker.h) (hj : j < m.ker.w) (hl : l < s.c) : kp s (fsh m s) i j l < N := by
  have k3 := h.dh.ks
  have k4 := h.dw.ks
  have : top s (fsh m s) < N := by
    refine lt_of_lt_of_le (ip_lt (H := s.h) (W := s.w) (C := s.c) ?_ ?_ ?_) h.fits
    · show m.ker.h - 1 < s.h; omega
    · show m.ker.w - 1 < s.w; omega
    · show s.c - 1 < s.c; omega
  unfold kp
  omega

theorem kp_inj (h : Ok N m s) {i j l i' j' l' : ℕ} (hi : i < m.ker.h) (hj : j < m.ker.w) (hl : l < s.c) (hi' : i' < m.ker.h)
    (hj' : j' < m.ker.w) (hl' : l' < s.c) (e : kp s (fsh m s) i j l = kp s (fsh m s) i' j' l') : i = i' ∧ j = j' ∧ l = l' := by
  have k3 := h.dh.ks
  have k4 := h.dw.ks
  have t1 := ip_le_top (s := s) (f := fsh m s) hi hj hl
  have t2 := ip_le_top (s := s) (f := fsh m s) hi' hj' hl'
  unfold kp at e
  exact ip_inj (H := s.h) (W := s.w) (by omega) (by omega) (by omega) (by omega) (by omega)

/-- the description of a kernel as an input -/
def kmeta (m : Meta) : Meta := ⟨1, 1, m.ker, m.ker, m.ker.h, m.ker.w⟩

theorem kOk (h : Ok N m s) : Ok N (kmeta m) (fsh m s) where
  chan := rfl
  kern := Nat.one_pos
  dh := ⟨h.dh.k0, h.dh.k0, le_refl _, le_refl _⟩
  dw := ⟨h.dw.k0, h.dw.k0, le_refl _, le_refl _⟩
  c0 := h.c0
  cn := h.chan ▸ h.cn
  fits := (fnumel_le h).trans h.fits

theorem kslices (h : Ok N m s) : (hp (kmeta m) (fsh m s)).slices = ⟨1, 1, cdiv m.ker.c s.c⟩ := by
  have k1 := h.dh.k0
  have k2 := h.dw.k0
  unfold hp
  simp only [kmeta, fsh, Sh3.mk.injEq, and_true]
  rw [show m.ker.h - (m.ker.h - 1) = 1 by omega, show m.ker.w - (m.ker.w - 1) = 1 by omega]
  decide

theorem kerPoly {V : Type} [Zero V] (h : Ok N m s) (k : ℕ → V) {c : ℕ} (hc : c < cdiv m.ker.c s.c) :
    ∃ t p, slice (hp (kmeta m) (fsh m s)) k m.ker ⟨0, 0, c⟩ (fsh m s) = some t ∧
      tensor2Poly N s (fsh m s) t (kernelIndex s (fsh m s)) = some p ∧
      Holds3 N (fsh m s) (kp s (fsh m s)) (kerBlock m s k c) p := by
  have K := kOk h
  have ks := kslices h
  obtain ⟨c1, c2, c3⟩ := ext_pos h.c0 hc
  have k1 := h.dh.k0
  have k2 := h.dw.k0
  have k5 := h.c0
  have hh : sliceExt (m.ker.h - (m.ker.h - 1)) m.ker.h m.ker.h 0 = m.ker.h := by unfold sliceExt; omega
  have hw : sliceExt (m.ker.w - (m.ker.w - 1)) m.ker.w m.ker.w 0 = m.ker.w := by unfold sliceExt; omega
  have hs : slice (hp (kmeta m) (fsh m s)) k m.ker ⟨0, 0, c⟩ (fsh m s) =
      some ⟨k, m.ker, ⟨0, 0, c * s.c⟩, ⟨m.ker.h, m.ker.w, ext m.ker.c s.c c⟩, fsh m s⟩ := by
    unfold slice
    rw [sliceShape_eq (by rw [ks]; exact Nat.one_pos) (by rw [ks]; exact Nat.one_pos) (by rw [ks]; exact hc)]
    simp only [kmeta, fsh, chanExt, hh, hw, Option.bind_eq_bind, Option.bind_some, hp]
    rw [if_pos ⟨by omega, by omega, by omega, by omega, by omega, by omega⟩]
    simp
  have hsh : (if s.numel = (fsh m s).numel then s else fsh m s) = fsh m s := by
    split_ifs with e
    · have a1 := h.dh.ks
      have a2 := h.dw.ks
      have e' : s.h * s.w = m.ker.h * m.ker.w := Nat.eq_of_mul_eq_mul_right h.c0 e
      have e1 : s.h = m.ker.h := by
        by_contra hne
        have : m.ker.h * m.ker.w < s.h * m.ker.w := Nat.mul_lt_mul_of_pos_right (by omega) k2
        have := Nat.mul_le_mul_left s.h a2
        omega
      have e2 : s.w = m.ker.w := by rw [e1] at e'; exact Nat.eq_of_mul_eq_mul_left k1 e'
      cases s
      simp only [fsh, Sh3.mk.injEq, and_true] at *
      exact ⟨e1, e2⟩
    · rfl
  obtain ⟨p, e, hp⟩ := tensor2Poly_spec (N := N) (ishape := s) (kshape := fsh m s) (sh := fsh m s)
    (idx := kernelIndex s (fsh m s)) (pos := kp s (fsh m s)) (T := kerBlock m s k c)
    (t := ⟨k, m.ker, ⟨0, 0, c * s.c⟩, ⟨m.ker.h, m.ker.w, ext m.ker.c s.c c⟩, fsh m s⟩)
    hsh rfl (numel_pos h) (fnumel_pos h) ((fnumel_le h).trans h.fits)
    (fun i hi j hj l hl => ⟨kernelIndex_eq hi hj hl, kp_lt h hi hj hl, by
      have hi : i < m.ker.h := hi
      have hj : j < m.ker.w := hj
      have hl : l < s.c := hl
      unfold Slice.at' kerBlock
      dsimp only
      rw [if_neg (show ¬ ((fsh m s).h = 0 ∨ (fsh m s).w = 0 ∨ (fsh m s).c = 0) by simp only [fsh]; omega)]
      by_cases hin : l < ext m.ker.c s.c c
      · rw [if_neg (show ¬ (m.ker.h ≤ i ∨ m.ker.w ≤ j ∨ ext m.ker.c s.c c ≤ l) by omega), if_pos hin, Nat.zero_add, Nat.zero_add, if_pos]
        apply pos_lt hi hj
        omega
      · rw [if_pos (show m.ker.h ≤ i ∨ m.ker.w ≤ j ∨ ext m.ker.c s.c c ≤ l by omega), if_neg hin]⟩)
    (fun i hi j hj l hl i' hi' j' hj' l' hl' e => kp_inj h hi hj hl hi' hj' hl' e)
  exact ⟨_, p, hs, e, hp⟩

theorem encodeKernel_spec {V : Type} [Zero V] (h : Ok N m s) (k : ℕ → V) :
    ∃ P, encodeKernel N m s k = some P ∧ ∀ c, c < cdiv m.ker.c s.c →
      Holds3 N (fsh m s) (kp s (fsh m s)) (kerBlock m s k c) (P c) := by
  have ks := kslices h
  choose! t p e1 e2 e3 using fun c (hc : c < cdiv m.ker.c s.c) => kerPoly h k hc
  have hf := foldlM_pure_of (fun (out : ℕ → ℕ → V) i => do
      let t ← slice (hp (kmeta m) (fsh m s)) k m.ker ⟨i % (1 * 1) / 1, i % 1, i / (1 * 1)⟩ (fsh m s)
      let p ← tensor2Poly N s (fsh m s) t (kernelIndex s (fsh m s))
      return Function.update out i p) (fun out i => Function.update out i (p i))
    (List.range (cdiv m.ker.c s.c)) (by
      intro i hi out
      have hi := List.mem_range.1 hi
      rw [Nat.one_mul, Nat.mod_one, Nat.zero_div, Nat.div_one, e1 i hi]
      simp only [Option.bind_eq_bind, Option.bind_some]
      rw [e2 i hi]
      rfl) fun _ _ => 0
  refine ⟨(List.range (cdiv m.ker.c s.c)).foldl (fun out i => Function.update out i (p i)) fun _ _ => 0, ?_, fun c hc => ?_⟩
  · unfold encodeKernel
    have := mkHelper_eq (kOk h)
    rw [kmeta, fsh] at this
    dsimp only
    rw [this]
    simp only [Option.bind_eq_bind, Option.bind_some]
    have ks' := ks
    rw [kmeta, fsh] at ks'
    rw [ks']
    dsimp only
    rw [if_pos (by ring), show 1 * 1 * cdiv m.ker.c s.c = cdiv m.ker.c s.c by ring]
    exact hf
  · rw [foldl_table p _ _ hc]
    exact e3 c hc

theorem foldl_blocks {β : Type} (P : ℕ → ℕ → β) (per n : ℕ) (z : ℕ → β) :
    ∀ o c, o < n → c < per → ((List.range n).foldl (fun (r : ℕ → β) x => fun i =>
      if x * per ≤ i ∧ i < x * per + per then P x (i - x * per) else r i) z) (o * per + c) = P o c := by
  induction n with
  | zero => intro o c ho; omega
  | succ n ih =>
    intro o c ho hc
    rw [List.range_succ, List.foldl_append, List.foldl_cons, List.foldl_nil]
    by_cases e : o = n
    · subst e
      rw [if_pos ⟨by omega, by omega⟩]
      congr 1
      omega
    · have h1 := Nat.mul_le_mul_right per (show o + 1 ≤ n by omega)
      rw [Nat.add_mul, one_mul] at h1
      rw [if_neg (by omega)]
      exact ih o c (by omega) hc

theorem encodeKernels_spec {V : Type} [Zero V] (h : Ok N m s) (k : ℕ → V) :
    ∃ P, encodeKernels N m s k = some P ∧ ∀ o, o < m.kernels → ∀ c, c < cdiv m.ker.c s.c →
      Holds3 N (fsh m s) (kp s (fsh m s)) (kerBlock m s (fun j => k (o + j * m.kernels)) c) (P (o * cdiv m.ker.c s.c + c)) := by
  choose P e1 e2 using fun o => encodeKernel_spec h fun j => k (o + j * m.kernels)
  unfold encodeKernels
  rw [if_pos (valid_eq h), Nat.mul_div_cancel_left _ h.kern]
  have hf := foldlM_pure_of (fun (out : ℕ → ℕ → V) o => do
      let p ← encodeKernel N m s fun j => k (o + j * m.kernels)
      return fun i => if o * cdiv m.ker.c s.c ≤ i ∧ i < o * cdiv m.ker.c s.c + cdiv m.ker.c s.c then p (i - o * cdiv m.ker.c s.c) else out i)
    (fun out o => fun i => if o * cdiv m.ker.c s.c ≤ i ∧ i < o * cdiv m.ker.c s.c + cdiv m.ker.c s.c then P o (i - o * cdiv m.ker.c s.c) else out i)
    (List.range m.kernels) (by
      intro o _ out
      rw [e1]
      rfl) fun _ _ => 0
  refine ⟨_, hf, fun o ho c hc => ?_⟩
  rw [foldl_blocks P _ _ _ o c ho hc]
  exact e2 o c hc

/-! ## Products -/

theorem Holds3.map {V A : Type} [Zero V] [Zero A] {N : ℕ} {s : Sh3} {pos : ℕ → ℕ → ℕ → ℕ} {T : ℕ → ℕ → ℕ → V} {p : ℕ → V}
    (h : Holds3 N s pos T p) {e : V → A} (he : e 0 = 0) : Holds3 N s pos (fun h w c => e (T h w c)) fun i => e (p i) :=
  ⟨fun a ha b hb c hc => congrArg e (h.val a ha b hb c hc), fun i hi hn => (congrArg e (h.zero i hi hn)).trans he⟩

theorem ppc_pos (h : Ok N m s) : 0 < (hp m s).slices.h * (hp m s).slices.w := by
  have a1 := h.dh.k0
  have a2 := h.dh.ks
  have a3 := h.dh.sn
  have b1 := h.dw.k0
  have b2 := h.dw.ks
  have b3 := h.dw.sn
  exact Nat.mul_pos (cdiv_pos (by omega) (by omega)) (cdiv_pos (by omega) (by omega))

theorem compute_eq2 {A : Type} [CommRing A] (h : Ok N m s) (x k : ℕ → ℕ → A) (o : ℕ) {q : ℕ}
    (hq : q < (hp m s).slices.h * (hp m s).slices.w) (t : ℕ) :
    Model.Cconv.compute N (hp m s) x k (o * ((hp m s).slices.h * (hp m s).slices.w) + q) t =
      ∑ c ∈ Finset.range (cdiv m.inp.c s.c), negMul N (x (c * ((hp m s).slices.h * (hp m s).slices.w) + q))
        (k (o * cdiv m.inp.c s.c + c)) t := by
  have hcc : 0 < cdiv m.inp.c s.c := cdiv_pos h.c0 (by have := h.c0; have := h.cn; omega)
  have e1 : outPer (hp m s) = (hp m s).slices.h * (hp m s).slices.w := by
    unfold outPer
    show (hp m s).slices.h * (hp m s).slices.w * cdiv m.inp.c s.c / cdiv m.inp.c s.c * m.kernels / m.kernels = _
    rw [Nat.mul_div_cancel _ hcc, Nat.mul_div_cancel _ h.kern]
  have e2 : (hp m s).m.kernels * cdiv (hp m s).m.ker.c (hp m s).sub.c / (hp m s).m.kernels = cdiv m.inp.c s.c := by
    show m.kernels * cdiv m.ker.c s.c / m.kernels = _
    rw [Nat.mul_div_cancel_left _ h.kern, h.chan]
  unfold Model.Cconv.compute
  rw [e1, e2, (jobDM hq).1, (jobDM hq).2]
  rw [show (hp m s).slices.h * (hp m s).slices.w * (hp m s).slices.c / cdiv m.inp.c s.c = (hp m s).slices.h * (hp m s).slices.w from
    Nat.mul_div_cancel _ hcc]
  rw [foldl_add_fn, zero_add, sum_map_range_list]

/-- entry `(h, w, c)` of an input -/
def inAt {V : Type} (m : Meta) (x : ℕ → V) (h w c : ℕ) : V := x ((h * m.inp.w + w) * m.inp.c + c)

/-- entry `(h, w, c)` of kernel `o` -/
def kerAt {V : Type} (m : Meta) (k : ℕ → V) (o h w c : ℕ) : V := k (((h * m.ker.w + w) * m.ker.c + c) * m.kernels + o)

/-- where the result `(p, q)` of kernel `o` is: the polynomial -/
def resPoly (m : Meta) (s : Sh3) (p q o : ℕ) : ℕ :=
  o * ((hp m s).slices.h * (hp m s).slices.w) +
    (p * m.sh / (s.h - (m.ker.h - 1)) * (hp m s).slices.w + q * m.sw / (s.w - (m.ker.w - 1)))

/-- where the result `(p, q)` is: the coefficient -/
def resCoeff (m : Meta) (s : Sh3) (p q : ℕ) : ℕ :=
  top s (fsh m s) + ip s.h s.w (p * m.sh % (s.h - (m.ker.h - 1))) (q * m.sw % (s.w - (m.ker.w - 1))) 0

theorem compute_conv {V A : Type} [Zero V] [CommRing A] (h : Ok N m s) {x k : ℕ → V} {el er : V → A} (l0 : el 0 = 0) (r0 : er 0 = 0)
    {P K : ℕ → ℕ → V} (hP : encodeInput N m s x = some P) (hK : encodeKernels N m s k = some K) {p q o : ℕ}
    (h1 : p * m.sh + m.ker.h ≤ m.inp.h) (h2 : q * m.sw + m.ker.w ≤ m.inp.w) (ho : o < m.kernels) :
    Model.Cconv.compute N (hp m s) (fun p i => el (P p i)) (fun p i => er (K p i)) (resPoly m s p q o) (resCoeff m s p q) =
      conv m.sh m.sw m.ker.h m.ker.w m.inp.c (fun h w c => el (inAt m x h w c)) (fun h w c => er (kerAt m k o h w c)) p q := by
  obtain ⟨P', eP, sP⟩ := encodeInput_spec h x
  obtain rfl : P = P' := by rw [hP] at eP; exact Option.some.inj eP
  obtain ⟨K', eK, sK⟩ := encodeKernels_spec h k
  obtain rfl : K = K' := by rw [hK] at eK; exact Option.some.inj eK
  have a0 := (mul_mod_slice h.dh h1 h.dh.k0).1
  have b0 := (mul_mod_slice h.dw h2 h.dw.k0).1
  have hq : p * m.sh / (s.h - (m.ker.h - 1)) * (hp m s).slices.w + q * m.sw / (s.w - (m.ker.w - 1)) <
      (hp m s).slices.h * (hp m s).slices.w := by
    have := Nat.mul_le_mul_right (hp m s).slices.w (show p * m.sh / (s.h - (m.ker.h - 1)) + 1 ≤ (hp m s).slices.h from a0)
    rw [Nat.add_mul, one_mul] at this
    have b0 : q * m.sw / (s.w - (m.ker.w - 1)) < (hp m s).slices.w := b0
    omega
  have ma : p * m.sh % (s.h - (m.ker.h - 1)) + m.ker.h ≤ s.h := by
    have := (mul_mod_slice h.dh h1 (i := m.ker.h - 1) (by have := h.dh.k0; omega)).2.2.1
    omega
  have mb : q * m.sw % (s.w - (m.ker.w - 1)) + m.ker.w ≤ s.w := by
    have := (mul_mod_slice h.dw h2 (i := m.ker.w - 1) (by have := h.dw.k0; omega)).2.2.1
    omega
  unfold resPoly resCoeff
  rw [compute_eq2 h _ _ o hq]
  unfold conv
  refine Eq.trans ?_ (sum_blocks (n := m.inp.c) _ h.c0)
  refine Finset.sum_congr rfl fun c hc => ?_
  have hc := Finset.mem_range.1 hc
  have hi := (sP _ a0 _ b0 c hc).map l0
  have hk := (sK o ho c (h.chan ▸ hc)).map r0
  rw [← h.chan] at hk
  rw [negMul_conv (f := fsh m s) h.fits rfl h.dh.ks h.dw.ks h.dh.k0 h.dw.k0 h.c0 hi hk ma mb]
  obtain ⟨x1, x2, x3⟩ := ext_pos h.c0 hc
  symm
  apply Finset.sum_subset_zero_on_sdiff
  · exact Finset.range_mono x3
  · intro c' hc'
    obtain ⟨-, hc'⟩ := Finset.mem_sdiff.1 hc'
    rw [Finset.mem_range] at hc'
    refine Finset.sum_eq_zero fun i _ => Finset.sum_eq_zero fun j _ => ?_
    unfold kerBlock
    rw [← h.chan, if_neg hc', r0, mul_zero]
  · intro c' hc'
    have hc' := Finset.mem_range.1 hc'
    refine Finset.sum_congr rfl fun i hi => Finset.sum_congr rfl fun j hj => ?_
    have hi : i < m.ker.h := Finset.mem_range.1 hi
    have hj : j < m.ker.w := Finset.mem_range.1 hj
    obtain ⟨-, y1, -, y2⟩ := mul_mod_slice h.dh h1 hi
    obtain ⟨-, z1, -, z2⟩ := mul_mod_slice h.dw h2 hj
    unfold inBlock kerBlock
    rw [if_pos ⟨y1, z1, hc'⟩, ← h.chan, if_pos hc', y2, z2]
    unfold inAt kerAt
    rw [← h.chan]
    dsimp only
    rw [Nat.add_comm o]

end

end Spu.Props.Cconv
