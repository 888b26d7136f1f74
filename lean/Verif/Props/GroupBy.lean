import Verif.Model.GroupBy
import Verif.Spec.GroupBy
import Verif.Lemmas.GroupBy
import Verif.Props.GroupPerm

set_option autoImplicit false

/-!
# C83: group-by aggregation

The first rows of the result hold the distinct key tuples in ascending order and the exact sums of their groups.
-/

namespace Spu.Props
open Spu.Model Spu.Model.Radix Spu.Model.Perm Spu.Model.Circ Spu.Model.GroupBy Spu.Spec Spu.Lemmas Spu.Lemmas.GroupBy

section
variable {w N : ℕ}

/-- the plaintext columns -/
def cols (l : List (Val w N)) : List (Fin N → BitVec w) := l.map (·.val)

theorem keyRow_strip (keys : List (Val w N)) (i : Fin N) :
    keyRow true (keys.map strip) i = (Spec.GroupBy.row (cols keys) i).map BitVec.toInt := by
  simp [keyRow, Spec.GroupBy.row, cols, strip, dirVal, ordVal, Function.comp_def]

theorem map_toInt_inj {a b : List (BitVec w)} (h : a.map BitVec.toInt = b.map BitVec.toInt) : a = b :=
  List.map_injective_iff.2 (fun x y h => BitVec.eq_of_toInt_eq h) h

/-! ## Vectors -/

theorem scanAdd_spec (x : Fin N → BitVec w) :
    ∃ s, scanAdd x = some s ∧ ∀ p, s p = ∑ q ∈ Finset.univ.filter (· ≤ p), x q := by
  obtain ⟨ps, h1, h2⟩ := prefixSum_spec N (flat x)
  refine ⟨fun i => ps i.val, by unfold scanAdd; rw [h1]; rfl, fun p => ?_⟩
  simp only
  rw [h2 _ p.isLt]
  obtain ⟨k, hk⟩ := p
  simp only
  induction k with
  | zero =>
    have : (Finset.univ.filter (· ≤ (⟨0, hk⟩ : Fin N))) = {⟨0, hk⟩} := by
      ext q; simp [Fin.le_def, Fin.ext_iff]
    rw [this, Finset.sum_singleton]
    simp [scanTo, flat, hk]
  | succ k ih =>
    have hk' : k < N := by omega
    have : (Finset.univ.filter (· ≤ (⟨k + 1, hk⟩ : Fin N))) = insert ⟨k + 1, hk⟩ (Finset.univ.filter (· ≤ (⟨k, hk'⟩ : Fin N))) := by
      ext q; simp [Fin.le_def, Fin.ext_iff]; omega
    rw [this, Finset.sum_insert (by simp [Fin.le_def]), scanTo, ih hk']
    simp only [flat, hk, dite_true]
    exact BitVec.add_comm _ _

theorem endMarks_spec (hN : 0 < N) (keys : List (Fin N → BitVec w)) :
    ∃ m, endMarks keys = some m ∧ ∀ p, (m p = 0 ∨ m p = 1) ∧
      (m p = 0 ↔ (0 : BitVec w) = 1 ∨ ∃ h : p.val + 1 < N, Spec.GroupBy.row keys p = Spec.GroupBy.row keys ⟨p.val + 1, h⟩) := by
  refine ⟨_, by unfold endMarks; rw [if_neg (by omega)], fun p => ?_⟩
  have hrow : ∀ h : p.val + 1 < N, (keys.all fun x => x p == x ⟨p.val + 1, h⟩) = true ↔
      Spec.GroupBy.row keys p = Spec.GroupBy.row keys ⟨p.val + 1, h⟩ := by
    intro h
    rw [List.all_eq_true]
    unfold Spec.GroupBy.row
    rw [List.map_inj_left]
    simp
  by_cases h : p.val + 1 < N
  · simp only [h, dite_true, hrow h]
    split
    · rename_i hr; exact ⟨.inl rfl, fun _ => .inr ⟨trivial, hr⟩, fun _ => rfl⟩
    · rename_i hr
      exact ⟨.inr rfl, fun e => .inl e.symm, fun e => e.elim Eq.symm fun e' => absurd e'.2 hr⟩
  · simp only [h, dite_false]
    exact ⟨.inr trivial, fun e => .inl e.symm, fun e => e.elim Eq.symm fun e' => absurd e'.1 id⟩

/-- the rows in sorted order, the end marks and the permutation that brings them to the front -/
theorem runs_of {keys : List (Fin N → BitVec w)} (hw : 1 < w) {τ π : Equiv.Perm (Fin N)}
    (hτ : Rank τ fun i => (Spec.GroupBy.row keys i).map BitVec.toInt) {m : Fin N → BitVec w}
    (hm : endMarks (keys.map fun k p => k (τ.symm p)) = some m) (hπ : Rank π fun p => -(m p).toInt) :
    Runs (fun p => (Spec.GroupBy.row keys (τ.symm p)).map BitVec.toInt) (fun p => m p = 1) π := by
  have hN : ∀ _ : Fin N, 0 < N := fun p => by have := p.isLt; omega
  have h01 : (0 : BitVec w) ≠ 1 := by
    intro h
    have : (0#w).toNat = (1#w).toNat := congrArg BitVec.toNat h
    rw [BitVec.toNat_ofNat, BitVec.toNat_ofNat, Nat.mod_eq_of_lt (show 1 < 2 ^ w by exact Nat.one_lt_two_pow (by omega))] at this
    simp at this
  have h1int : (1 : BitVec w).toInt = 1 := by
    have h4 : 2 < 2 ^ w := by
      calc 2 < 2 ^ 2 := by norm_num
        _ ≤ 2 ^ w := Nat.pow_le_pow_right (by norm_num) (by omega)
    change (1#w).toInt = 1
    rw [BitVec.toInt_eq_toNat_cond, BitVec.toNat_ofNat, Nat.mod_eq_of_lt (by omega), if_pos (by omega)]
    rfl
  have hmono : ∀ p q : Fin N, p ≤ q → (Spec.GroupBy.row keys (τ.symm p)).map BitVec.toInt ≤
      (Spec.GroupBy.row keys (τ.symm q)).map BitVec.toInt := by
    intro p q hpq
    rcases hpq.eq_or_lt with rfl | hlt
    · exact le_refl _
    · have := (hτ (τ.symm p) (τ.symm q)).1 (by simpa using hlt)
      rcases this with h | h
      · exact h.le
      · exact h.1.le
  have hrow : ∀ p, Spec.GroupBy.row (keys.map fun k p => k (τ.symm p)) p = Spec.GroupBy.row keys (τ.symm p) := by
    intro p; simp [Spec.GroupBy.row]
  have hspec : ∀ p, (m p = 0 ∨ m p = 1) ∧ (m p = 0 ↔ ∃ h : p.val + 1 < N,
      Spec.GroupBy.row keys (τ.symm p) = Spec.GroupBy.row keys (τ.symm ⟨p.val + 1, h⟩)) := by
    intro p
    obtain ⟨m', h1, h2⟩ := endMarks_spec (hN p) (keys.map fun k p => k (τ.symm p))
    rw [hm] at h1
    obtain rfl := Option.some.inj h1
    have := h2 p
    simp only [hrow, h01, false_or] at this
    exact this
  have hmark : ∀ p, m p = 1 ↔ ¬ m p = 0 := by
    intro p
    constructor
    · intro h h'; rw [h] at h'; exact h01 h'.symm
    · intro h; exact (hspec p).1.resolve_left h
  refine ⟨hmono, fun p => ?_, fun p q => ?_⟩
  · rw [hmark, (hspec p).2]
    constructor
    · intro hn q hq
      have hlt : p.val + 1 < N := lt_of_le_of_lt hq q.isLt
      refine lt_of_lt_of_le (lt_of_le_of_ne (hmono p ⟨p.val + 1, hlt⟩ (by rw [Fin.le_def]; simp)) ?_)
        (hmono ⟨p.val + 1, hlt⟩ q hq)
      exact fun e => hn ⟨hlt, map_toInt_inj e⟩
    · rintro hall ⟨hlt, e⟩
      have := hall ⟨p.val + 1, hlt⟩ (by rw [Fin.lt_def]; simp)
      rw [e] at this
      exact lt_irrefl _ this
  · rw [hπ p q]
    have h0int : (0 : BitVec w).toInt = 0 := BitVec.toInt_zero
    have key : ∀ r, (m r = 1 ∧ (m r).toInt = 1) ∨ (m r ≠ 1 ∧ (m r).toInt = 0) := by
      intro r
      rcases (hspec r).1 with h | h
      · exact .inr ⟨by rw [h]; exact h01, by rw [h]; exact h0int⟩
      · exact .inl ⟨h, by rw [h]; exact h1int⟩
    have l0 : ∀ a : ℤ, ¬ a < a := lt_irrefl
    have e1 := l0 (-1)
    have e0 := l0 (-0)
    rcases key p with ⟨hp, hp'⟩ | ⟨hp, hp'⟩ <;> rcases key q with ⟨hq, hq'⟩ | ⟨hq, hq'⟩ <;> dsimp only <;> rw [hp', hq']
    · tauto
    · have : (-1 : ℤ) < -0 := by norm_num
      tauto
    · have : ¬ ((-0 : ℤ) < -1) ∧ ¬ ((-0 : ℤ) = -1) := by norm_num
      tauto
    · tauto

/-! ## The kernels -/

variable {σ : Type} {Inv : σ → Prop} {R : Spu.Model.Circ.M σ (Equiv.Perm (Fin N))} (hR : Ok Inv R fun _ => True)
  {ord : List (Fin N)} (ho : Covers ord)
include hR ho

theorem applyInvAll_spec (av : Bool) {xs : List (Val w N)} (hne : xs ≠ []) {v : Vis} (hx : ∀ x ∈ xs, x.vis = v) {p : Val w N}
    {τ : Equiv.Perm (Fin N)} (hp : Stands (idx p.val) τ) :
    Ok Inv (applyInvAll R ord av xs p) fun ys => ys = xs.map fun x =>
      (⟨outVis v p.vis, x.uns, w, fun j => x.val (τ.symm j)⟩ : Val w N) := by
  cases xs with
  | nil => exact absurd rfl hne
  | cons x xs =>
    unfold applyInvAll
    refine Ok.enforce ?_ (Ok.enforce ?_ ?_)
    · rw [List.all_eq_true]
      intro y hy
      rw [hx y hy, hx x (by simp)]
      cases v <;> rfl
    · have : ((x :: xs).all fun y => decide (y.vis = x.vis)) = true := by
        rw [List.all_eq_true]
        intro y hy
        simp [hx y hy, hx x (by simp)]
      split
      · exact this
      · rfl
    · refine Ok.imp (Ok.mapAll _ fun y _ => applyInv_spec hR ho av y hp) fun r hr => ?_
      generalize hl : x :: xs = l at hr hx
      clear hne hl
      induction hr with
      | nil => rfl
      | cons h _ ih =>
        rw [h, ih fun y hy => hx y (by simp [hy]), List.map_cons, hx _ (by simp)]

omit hR ho in
theorem groupMark_spec (hN : 0 < N) {keys : List (Val w N)} (hne : keys ≠ []) {v : Vis} (hv : v ≠ .secret)
    (hk : ∀ x ∈ keys, x.vis = v) :
    Ok Inv (groupMark keys) fun m => m.vis = v ∧ m.uns = false ∧ endMarks (cols keys) = some m.val := by
  cases keys with
  | nil => exact absurd rfl hne
  | cons k ks =>
    unfold groupMark
    refine Ok.enforce ?_ (Ok.enforce ?_ ?_)
    · rw [hk k (by simp)]; cases v <;> simp_all [Vis.isSecret]
    · rw [List.all_eq_true]
      intro y hy
      simp [hk y hy, hk k (by simp)]
    · obtain ⟨m, h1, _⟩ := endMarks_spec hN (cols (k :: ks))
      exact Ok.optBind h1 (Ok.pure ⟨hk k (by simp), rfl, h1⟩)

/-- what the plan establishes: sorting permutation, end marks, front permutation and the keys they give -/
structure PlanOk (v : Vis) (keys : List (Val w N)) (pl : Plan w N) (τ π : Equiv.Perm (Fin N)) : Prop where
  permVis : pl.perm.vis = v
  perm : Stands (idx pl.perm.val) τ
  markPermVis : pl.markPerm.vis = v
  markPerm : Stands (idx pl.markPerm.val) π
  bits : ∀ p, pl.marks.val p = 0 ∨ pl.marks.val p = 1
  runs : Runs (fun p => (Spec.GroupBy.row (cols keys) (τ.symm p)).map BitVec.toInt) (fun p => pl.marks.val p = 1) π
  outKeys : pl.outKeys = keys.map fun k => (⟨v, k.uns, w, fun j => k.val (τ.symm (π.symm j))⟩ : Val w N)

theorem plan_spec {v : Vis} (hv : v ≠ .secret) (hN0 : 0 < N) (hNw : N < 2 ^ (w - 1)) (av : Bool)
    {keys : List (Val w N)} (hne : keys ≠ []) (hk : ∀ k ∈ keys, k.vis = v) :
    Ok Inv (plan R ord av keys) fun pl => ∃ τ π, PlanOk v keys pl τ π := by
  have hw : 1 < w := by
    by_contra h
    have : w - 1 = 0 := by omega
    rw [this] at hNw
    omega
  unfold plan
  refine Ok.bind (c83_sortPerm hR ho hv hN0 hNw av true hne hk none) ?_
  rintro perm ⟨hpv, τ, hp, hτ⟩
  refine Ok.bind (applyInvAll_spec hR ho av hne hk hp) ?_
  rintro sorted rfl
  rw [hpv, outVis_self]
  refine Ok.bind (groupMark_spec hN0 (v := v) (by simpa using hne) hv (by simp)) ?_
  rintro marks ⟨hmv, hmu, hm⟩
  refine Ok.bind (c83_sortPerm hR ho hv hN0 hNw av false (keys := [marks]) (by simp) (by simpa using hmv) none) ?_
  rintro markPerm ⟨hpv', π, hp', hπ⟩
  refine Ok.bind (applyInvAll_spec hR ho av (v := v) (by simpa using hne) (by simp) hp') ?_
  rintro outKeys rfl
  rw [hpv', outVis_self]
  have hcols : cols (keys.map fun x => (⟨v, x.uns, w, fun j => x.val (τ.symm j)⟩ : Val w N)) =
      (cols keys).map fun k p => k (τ.symm p) := by simp [cols, Function.comp_def]
  rw [hcols] at hm
  refine Ok.pure ⟨τ, π, hpv, hp, hpv', hp', fun p => ?_, runs_of hw ?_ hm ?_, ?_⟩
  · obtain ⟨m, h1, h2⟩ := endMarks_spec hN0 ((cols keys).map fun k p => k (τ.symm p))
    rw [hm] at h1
    obtain rfl := Option.some.inj h1
    exact (h2 p).1
  · have : (fun i => (Spec.GroupBy.row (cols keys) i).map BitVec.toInt) = keyRow true (keys.map strip) :=
      funext fun i => (keyRow_strip keys i).symm
    rw [this]; exact hτ
  · refine hπ.congr fun i j => ?_
    simp [keyRow, strip, dirVal, ordVal, List.cons_lt_cons_iff]
  · simp [Function.comp_def]

theorem segSum_spec {v : Vis} {keys : List (Val w N)} {pl : Plan w N} {τ π : Equiv.Perm (Fin N)}
    (hpl : PlanOk v keys pl τ π) (av : Bool) (x : Val w N) :
    Ok Inv (segSum R ord av x pl.markPerm) fun s => s.vis = outVis x.vis v ∧ s.uns = x.uns ∧
      ∀ g : Fin N, g.val < (Finset.univ.filter fun p => pl.marks.val p = 1).card →
        s.val g = ∑ q ∈ Finset.univ.filter (fun q => Spec.GroupBy.row (cols keys) (τ.symm q) =
          Spec.GroupBy.row (cols keys) (τ.symm (π.symm g))), x.val q := by
  unfold segSum
  obtain ⟨s, h1, h2⟩ := scanAdd_spec x.val
  refine Ok.optBind h1 ?_
  refine Ok.bind (applyInvAll_spec hR ho av (v := x.vis) (by simp) (by simp) hpl.markPerm) ?_
  rintro ys rfl
  refine Ok.optBind (by simp; rfl) (Ok.pure ⟨by rw [hpl.markPermVis], rfl, fun g hg => ?_⟩)
  have := hpl.runs.segment x.val hg
  simp only
  have hK : ∀ q, (Spec.GroupBy.row (cols keys) (τ.symm q)).map BitVec.toInt =
      (Spec.GroupBy.row (cols keys) (τ.symm (π.symm g))).map BitVec.toInt ↔
      Spec.GroupBy.row (cols keys) (τ.symm q) = Spec.GroupBy.row (cols keys) (τ.symm (π.symm g)) :=
    fun q => ⟨map_toInt_inj, fun h => by rw [h]⟩
  simp only [hK] at this
  rw [← this]
  unfold shiftRight
  rw [h2]
  congr 1
  split
  · rfl
  · exact h2 _

omit hR ho in
/-- the number of end marks is the number of groups -/
theorem PlanOk.groups {v : Vis} {keys : List (Val w N)} {pl : Plan w N} {τ π : Equiv.Perm (Fin N)}
    (hpl : PlanOk v keys pl τ π) :
    (Finset.univ.filter fun p => pl.marks.val p = 1).card = Spec.GroupBy.groups (cols keys) := by
  rw [hpl.runs.count]
  unfold Spec.GroupBy.groups
  have : Finset.univ.image (fun p => (Spec.GroupBy.row (cols keys) (τ.symm p)).map BitVec.toInt) =
      (Finset.univ.image (Spec.GroupBy.row (cols keys))).image (List.map BitVec.toInt) := by
    ext k
    simp only [Finset.mem_image, Finset.mem_univ, true_and, exists_exists_eq_and]
    exact ⟨fun ⟨p, h⟩ => ⟨_, h⟩, fun ⟨p, h⟩ => ⟨τ p, by simpa using h⟩⟩
  refine Eq.trans ?_ (Finset.card_image_of_injective (f := List.map BitVec.toInt) _ fun a b h => map_toInt_inj h)
  congr 1
  convert this

omit hR ho in
theorem PlanOk.row {v : Vis} {keys : List (Val w N)} {pl : Plan w N} {τ π : Equiv.Perm (Fin N)}
    (hpl : PlanOk v keys pl τ π) (g : Fin N) :
    Spec.GroupBy.row (cols pl.outKeys) g = Spec.GroupBy.row (cols keys) (τ.symm (π.symm g)) := by
  rw [hpl.outKeys]
  simp [Spec.GroupBy.row, cols, Function.comp_def]

omit hR ho in
theorem PlanOk.keys {v : Vis} {keys : List (Val w N)} {pl : Plan w N} {τ π : Equiv.Perm (Fin N)}
    (hpl : PlanOk v keys pl τ π) : Spec.GroupBy.Keys (cols keys) (cols pl.outKeys) := by
  refine ⟨?_, fun g _ => ⟨_, hpl.row g⟩, fun i => ?_, fun g h hlt hh => ?_⟩
  · unfold Spec.GroupBy.groups
    exact Finset.card_image_le.trans (by simp)
  · obtain ⟨g, h1, h2⟩ := hpl.runs.complete (τ i)
    rw [hpl.groups] at h1
    refine ⟨g, h1, ?_⟩
    rw [hpl.row]
    simpa using map_toInt_inj h2
  · rw [← hpl.groups] at hh
    unfold Spec.GroupBy.Before
    rw [hpl.row, hpl.row]
    exact hpl.runs.increasing hlt hh

/-- sums of a payload in key order are sums of the payload -/
theorem segSum_total {v : Vis} {keys : List (Val w N)} {pl : Plan w N} {τ π : Equiv.Perm (Fin N)}
    (hpl : PlanOk v keys pl τ π) (av : Bool) (x : Val w N) (x0 : Fin N → BitVec w) (hx : x.val = fun j => x0 (τ.symm j)) :
    Ok Inv (segSum R ord av x pl.markPerm) fun s => s.vis = outVis x.vis v ∧ s.uns = x.uns ∧
      Spec.GroupBy.Sums (cols keys) (cols pl.outKeys) x0 s.val := by
  refine Ok.imp (segSum_spec hR ho hpl av x) ?_
  rintro s ⟨h1, h2, h3⟩
  refine ⟨h1, h2, fun g hg => ?_⟩
  rw [← hpl.groups] at hg
  rw [h3 g hg, hx, hpl.row]
  unfold Spec.GroupBy.total Spec.GroupBy.members
  refine Finset.sum_bij (fun q _ => τ.symm q) ?_ (fun _ _ _ _ h => by simpa using h) ?_ (fun _ _ => rfl)
  · intro q hq
    simpa using hq
  · intro i hi
    exact ⟨τ i, by simpa using hi, by simp⟩

/-- **C83**: `private_groupby_sum_1d`.  For keys that are all public or all private with one owner and payloads of one
visibility (and owner), the first rows of the result hold every distinct key once, in ascending order, and beside it the
ring sum of every payload over the rows with that key.  Key columns keep their visibility; a sum is as visible as payload
and keys together allow. -/
theorem c83_groupBySum {v u : Vis} (hv : v ≠ .secret) (hN0 : 0 < N) (hNw : N < 2 ^ (w - 1)) (av : Bool)
    {keys pays : List (Val w N)} (hne : keys ≠ []) (hk : ∀ k ∈ keys, k.vis = v) (hpn : pays ≠ [])
    (hp : ∀ x ∈ pays, x.vis = u) :
    Ok Inv (groupBySum R ord av keys pays) fun out => ∃ outKeys sums, out = outKeys ++ sums ∧
      outKeys.length = keys.length ∧ (∀ k ∈ outKeys, k.vis = v) ∧ Spec.GroupBy.Keys (cols keys) (cols outKeys) ∧
      List.Forall₂ (fun x s => s.vis = outVis (outVis u v) v ∧ s.uns = x.uns ∧
        Spec.GroupBy.Sums (cols keys) (cols outKeys) x.val s.val) pays sums := by
  unfold groupBySum
  refine Ok.bind (plan_spec hR ho hv hN0 hNw av hne hk) ?_
  rintro pl ⟨τ, π, hpl⟩
  refine Ok.bind (applyInvAll_spec hR ho av hpn hp hpl.perm) ?_
  rintro permuted rfl
  refine Ok.bind (Ok.mapAll (P := fun (y s : Val w N) => s.vis = outVis y.vis v ∧ s.uns = y.uns ∧
    Spec.GroupBy.Sums (cols keys) (cols pl.outKeys) (fun j => y.val (τ j)) s.val) _ fun y hy => ?_) fun sums hs => ?_
  · exact segSum_total hR ho hpl av y _ (by funext j; simp)
  refine Ok.pure ⟨pl.outKeys, sums, rfl, by rw [hpl.outKeys]; simp, by rw [hpl.outKeys]; simp, hpl.keys, ?_⟩
  rw [List.forall₂_map_left_iff] at hs
  refine hs.imp fun x s h => ?_
  rw [hpl.permVis] at h
  simpa using h

end
end Spu.Props
