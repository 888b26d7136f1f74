import Verif.Props.Radix

set_option autoImplicit false

/-! # C33: radix sort with keys of mixed visibility -/

namespace Spu.Props
open Spu.Model Spu.Model.Radix Spu.Model.Perm Spu.Model.Circ Spu.Spec Spu.Lemmas

variable {w N : ℕ}

theorem StableOrder.rank {κ : Type} [LinearOrder κ] {K : Fin N → κ} {π : Equiv.Perm (Fin N)}
    (h : StableOrder (fun a b => K a < K b) π) : Rank π.symm K := by
  have key : ∀ a b, π.symm a < π.symm b → K a < K b ∨ (K a = K b ∧ a < b) := by
    intro a b hab
    have := h _ _ hab
    simp only [Equiv.apply_symm_apply] at this
    rcases this with h1 | ⟨h1, h2⟩
    · exact .inl h1
    · rcases lt_or_eq_of_le (not_lt.1 h1) with h3 | h3
      · exact .inl h3
      · exact .inr ⟨h3, h2⟩
  intro a b
  refine ⟨key a b, fun hk => ?_⟩
  rcases lt_trichotomy (π.symm a) (π.symm b) with h1 | h1 | h1
  · exact h1
  · have : a = b := π.symm.injective h1
    subst this
    rcases hk with hk | ⟨_, hk⟩ <;> exact absurd hk (lt_irrefl _)
  · exfalso
    rcases key b a h1 with h2 | ⟨h2, h3⟩ <;> rcases hk with h4 | ⟨h4, h5⟩
    · exact lt_asymm h2 h4
    · rw [h4] at h2; exact lt_irrefl _ h2
    · rw [h2] at h4; exact lt_irrefl _ h4
    · exact lt_asymm h3 h5

theorem SignedOk.toInt {x : Val w N} (h : SignedOk x) (hw : 0 < w) (i : Fin N) : ordVal x.uns (x.val i) = (x.val i).toInt := by
  unfold ordVal
  cases hu : x.uns
  · rfl
  · have h1 := h hu i
    obtain ⟨v, rfl⟩ : ∃ v, w = v + 1 := ⟨w - 1, by omega⟩
    simp only [Nat.add_sub_cancel] at h1
    rw [if_pos rfl, BitVec.toInt_eq_toNat_cond, if_pos (by rw [pow_succ]; omega)]

theorem FitsBits.full (x : Val w N) (hw : 0 < w) : FitsBits w x := by
  refine ⟨hw, le_refl _, fun i => ?_⟩
  split
  · exact (x.val i).isLt
  · exact ⟨by have := BitVec.le_toInt (x.val i); exact_mod_cast this, by have := BitVec.toInt_lt (x := x.val i); exact_mod_cast this⟩

/-- the part of `FitsBits` and `SignedOk` that is about elements is kept by re-ordering -/
theorem FitsBits.reorder {nb : ℕ} {x y : Val w N} (h : FitsBits nb x) (hu : y.uns = x.uns) (f : Fin N → Fin N)
    (hv : ∀ i, y.val i = x.val (f i)) : FitsBits nb y :=
  ⟨h.1, h.2.1, fun i => by rw [hu, hv]; exact h.2.2 (f i)⟩

theorem SignedOk.reorder {x y : Val w N} (h : SignedOk x) (hu : y.uns = x.uns) (f : Fin N → Fin N)
    (hv : ∀ i, y.val i = x.val (f i)) : SignedOk y := fun hy i => by rw [hv]; exact h (hu ▸ hy) (f i)

theorem outVis_pub {a b : Vis} : outVis a b = .pub ↔ a = .pub ∧ b = .pub := by
  cases a <;> cases b <;> simp [outVis]
  split <;> simp

section
variable {σ : Type} {Inv : σ → Prop} {R : Spu.Model.Circ.M σ (Equiv.Perm (Fin N))} (hR : Ok Inv R fun _ => True)
  {ord : List (Fin N)} (ho : Covers ord)
include hR ho

/-- what a key needs when it is sorted with visibility `v` -/
def KeyFits (v : Vis) (valid : Option ℕ) (x : Val w N) : Prop :=
  if v = .secret then FitsBits (valid.getD x.nb) x else SignedOk x

theorem genInvPermOne_spec (hN : N ≤ 2 ^ w) (hw : 0 < w) {x : Val w N} {asc : Bool} {valid : Option ℕ}
    (hx : KeyFits x.vis valid x) :
    Ok Inv (genInvPermOne R ord x asc valid) fun p => p.vis = x.vis ∧
      ∃ τ, Stands (idx p.val) τ ∧ Rank τ fun i => dirVal asc (ordVal x.uns (x.val i)) := by
  unfold genInvPermOne
  have hns : x.vis ≠ .secret → ∀ v, v = x.vis → Ok Inv ((do
      let p ← (liftM (genInvPerm x.val asc) : Spu.Model.Circ.M σ _)
      return (⟨v, false, w, p⟩ : Val w N)) : Spu.Model.Circ.M σ (Val w N)) fun p => p.vis = x.vis ∧
      ∃ τ, Stands (idx p.val) τ ∧ Rank τ fun i => dirVal asc (ordVal x.uns (x.val i)) := by
    rintro hv v rfl
    unfold KeyFits at hx
    rw [if_neg hv] at hx
    obtain ⟨out, π, h1, h2, h3⟩ := c17_genInvPerm x.val asc hN
    refine Ok.optBind h1 (Ok.pure ⟨rfl, π.symm, h2, StableOrder.rank ?_⟩)
    intro i j hij
    have := h3 i j hij
    simp only [hx.toInt hw, dirVal]
    cases asc
    · simpa using this
    · simpa using this
  cases hv : x.vis
  · have := hns (by simp [hv]) .pub hv.symm; rw [hv] at this; exact this
  · rename_i o; have := hns (by simp [hv]) (.priv o) hv.symm; rw [hv] at this; exact this
  · unfold KeyFits at hx
    rw [if_pos hv] at hx
    refine Ok.bind (c33_secret hR ho hN (keys := [x]) (by simp) asc valid (by simpa using hx)) ?_
    rintro p ⟨τ, h1, h2⟩
    refine Ok.pure ⟨rfl, τ, h1, h2.congr fun i j => ?_⟩
    simp [keyRow, List.cons_lt_cons_iff]

theorem applyInvSS_spec {x perm : Fin N → BitVec w} {τ : Equiv.Perm (Fin N)} (hp : Stands (idx perm) τ) :
    Ok Inv (applyInvSS R ord x perm) fun y => y = fun j => x (τ.symm j) := by
  unfold applyInvSS
  refine Ok.bind hR fun ρ _ => ?_
  have hs : Stands (idx fun i => perm (ρ i)) (ρ.trans τ) := fun i => hp (ρ i)
  exact Ok.opt (c17_applyInvPerm ho _ hs) (by simp)

theorem applyInv_spec (av : Bool) (x : Val w N) {p : Val w N} {τ : Equiv.Perm (Fin N)} (hp : Stands (idx p.val) τ) :
    Ok Inv (applyInv R ord av x p) fun y => y = ⟨outVis x.vis p.vis, x.uns, w, fun j => x.val (τ.symm j)⟩ := by
  unfold applyInv
  refine Ok.bind (P := fun y => y = fun j => x.val (τ.symm j)) ?_ (by rintro _ rfl; exact Ok.pure rfl)
  split
  · exact applyInvSS_spec hR ho hp
  · exact Ok.opt (c17_applyInvPerm ho _ hp) rfl

omit ho in
theorem applyPermSS_spec {x perm : Fin N → BitVec w} {τ : Equiv.Perm (Fin N)} (hp : Stands (idx perm) τ) :
    Ok Inv (applyPermSS R x perm) fun y => y = fun j => x (τ j) := by
  unfold applyPermSS
  refine Ok.bind hR fun ρ _ => ?_
  have hs : Stands (idx fun i => perm (ρ i)) (ρ.trans τ) := fun i => hp (ρ i)
  exact Ok.optBind (c17_applyPerm _ hs) (Ok.pure (by simp))

theorem applyPermV_spec (av : Bool) (x : Val w N) {p : Val w N} {τ : Equiv.Perm (Fin N)} (hp : Stands (idx p.val) τ) :
    Ok Inv (applyPermV R ord av x p) fun y => y = ⟨outVis x.vis p.vis, x.uns, w, fun j => x.val (τ j)⟩ := by
  unfold applyPermV
  split
  · rename_i o h1 h2
    obtain ⟨inv, g1, g2⟩ := c17_genInversePerm ho hp
    refine Ok.optBind g1 (Ok.imp (applyInv_spec hR ho av _ g2) ?_)
    rintro y rfl
    have : outVis x.vis p.vis = .secret := by
      revert h2; cases outVis x.vis p.vis <;> simp [Vis.isSecret]
    rw [this]; rfl
  · rename_i h1
    refine Ok.bind (applyPermSS_spec hR hp) ?_
    rintro y rfl
    have : outVis x.vis p.vis = .secret := by rw [h1]; cases x.vis <;> rfl
    exact Ok.pure (by rw [this])
  · exact Ok.optBind (c17_applyPerm _ hp) (Ok.pure rfl)

/-- one more significant key -/
theorem stepKey_spec (hN : N ≤ 2 ^ w) (hw : 0 < w) (av asc : Bool) {valid : Val w N → Option ℕ} {inv cur : Val w N}
    {τ : Equiv.Perm (Fin N)} {K : Fin N → List ℤ} (hp : Stands (idx inv.val) τ) (hτ : Rank τ K)
    (hc : KeyFits (outVis cur.vis inv.vis) (some ((valid cur).getD w)) cur) :
    Ok Inv (stepKey R ord av asc valid inv cur) fun p => p.vis = outVis (outVis cur.vis inv.vis) inv.vis ∧
      ∃ τ', Stands (idx p.val) τ' ∧ Rank τ' fun i => dirVal asc (ordVal cur.uns (cur.val i)) :: K i := by
  unfold stepKey
  refine Ok.bind (applyInv_spec hR ho av cur hp) ?_
  rintro hat rfl
  refine Ok.bind (genInvPermOne_spec hR ho hN hw (asc := asc) (valid := valid cur) ?_) ?_
  · unfold KeyFits at hc ⊢
    simp only at hc ⊢
    split
    · rename_i hv
      rw [if_pos hv] at hc
      exact FitsBits.reorder hc rfl τ.symm fun _ => rfl
    · rename_i hv
      rw [if_neg hv] at hc
      exact hc.reorder rfl τ.symm fun _ => rfl
  · rintro ci ⟨hv, π, h1, h2⟩
    simp only at hv h2
    refine Ok.imp (applyPermV_spec hR ho av ci hp) ?_
    rintro p rfl
    refine ⟨by rw [hv], τ.trans π, fun i => h1 (τ i), ?_⟩
    refine Rank.comp hτ (C := fun i => dirVal asc (ordVal cur.uns (cur.val i))) h2 (fun i j => ?_) (fun i j => ?_)
    · exact List.cons_lt_cons_iff
    · exact List.cons.injEq _ _ _ _ ▸ Iff.rfl

/-- the loop over the less significant keys first -/
theorem stepKeys_spec (hN : N ≤ 2 ^ w) (hw : 0 < w) (av asc : Bool) {valid : Val w N → Option ℕ} (I : Vis → List (Val w N) → Prop)
    (keys : List (Val w N))
    (hc : ∀ k ∈ keys, ∀ v ks, I v ks → KeyFits (outVis k.vis v) (some ((valid k).getD w)) k ∧
      I (outVis (outVis k.vis v) v) (k :: ks)) :
    ∀ {inv : Val w N} {τ : Equiv.Perm (Fin N)} (ks : List (Val w N)), Stands (idx inv.val) τ → Rank τ (keyRow asc ks) →
      I inv.vis ks →
      Ok Inv (keys.reverse.foldlM (stepKey R ord av asc valid) inv) fun p => I p.vis (keys ++ ks) ∧
        ∃ τ', Stands (idx p.val) τ' ∧ Rank τ' (keyRow asc (keys ++ ks)) := by
  induction keys with
  | nil => intro inv τ ks h1 h2 h3; exact Ok.pure ⟨h3, τ, h1, h2⟩
  | cons k keys ih =>
    intro inv τ ks h1 h2 h3
    rw [List.reverse_cons, List.foldlM_append]
    refine Ok.bind (ih (fun k hk => hc k (by simp [hk])) ks h1 h2 h3) ?_
    rintro p ⟨g3, τ', g1, g2⟩
    simp only [List.foldlM_cons, List.foldlM_nil, bind_pure]
    obtain ⟨a, b⟩ := hc k (by simp) p.vis _ g3
    refine Ok.imp (stepKey_spec hR ho hN hw av asc g1 g2 a) ?_
    rintro q ⟨e, τ'', f1, f2⟩
    exact ⟨by rw [e]; exact b, τ'', f1, f2⟩

end

/-! ## Merging a group of keys -/

theorem mergeKeysV_spec {keys : List (Val w N)} (hk : keys ≠ []) {v : Vis} (hv : v ≠ .secret) (hkv : ∀ k ∈ keys, k.vis = v)
    (hN : 0 < N) (asc : Bool) :
    mergeKeysV keys asc = some ⟨v, false, w, fun i => level w asc (changes (keys.map fun x => flat x.val) i.val)⟩ := by
  obtain ⟨k, ks, rfl⟩ := List.exists_cons_of_ne_nil hk
  unfold mergeKeysV
  have hkk : k.vis = v := hkv k (by simp)
  simp only
  rw [if_neg (by rw [hkk]; push Not; exact ⟨hv, hkv⟩)]
  obtain ⟨out, h1, h2, h3, _⟩ := c17_mergeKeys (keys := (k :: ks).map fun x => flat x.val) (by simp) hN asc
  rw [h1, hkk]
  simp only [Option.map_some, Option.some.injEq, Val.mk.injEq, true_and]
  funext i
  rw [List.getD_eq_getElem?_getD, List.getElem?_eq_getElem (by rw [h2]; exact i.isLt)]
  exact h3 i.val _

theorem ordVal_inj {uns : Bool} {a b : BitVec w} (h : ordVal uns a = ordVal uns b) : a = b := by
  unfold ordVal at h
  cases uns
  · exact BitVec.eq_of_toInt_eq (by simpa using h)
  · exact BitVec.eq_of_toNat_eq (by simpa using h)

theorem dirVal_inj {asc : Bool} {a b : ℤ} (h : dirVal asc a = dirVal asc b) : a = b := by
  unfold dirVal at h; cases asc <;> simp at h <;> omega

theorem keyRow_eq_iff {asc : Bool} {keys : List (Val w N)} {i j : Fin N} :
    keyRow asc keys i = keyRow asc keys j ↔ ∀ k ∈ keys, k.val i = k.val j := by
  unfold keyRow
  rw [List.map_inj_left]
  refine forall₂_congr fun k _ => ⟨fun h => ordVal_inj (dirVal_inj h), fun h => by rw [h]⟩

/-- the numbers of changes along the sorted rows order the rows -/
theorem changes_order {keys : List (Val w N)} {asc : Bool} {τ : Equiv.Perm (Fin N)} (hτ : Rank τ (keyRow asc keys)) (i j : Fin N) :
    changes (keys.map fun x => flat fun a => x.val (τ.symm a)) (τ i).val <
      changes (keys.map fun x => flat fun a => x.val (τ.symm a)) (τ j).val ↔ keyRow asc keys i < keyRow asc keys j := by
  set fk := keys.map fun x => flat fun a => x.val (τ.symm a) with hfk
  have hflat : ∀ (x : Val w N) (k : ℕ) (hk : k < N), flat (fun a => x.val (τ.symm a)) k = x.val (τ.symm ⟨k, hk⟩) := by
    intro x k hk; unfold flat; rw [dif_pos hk]
  have heq : ∀ i j, keyRow asc keys i = keyRow asc keys j → τ i ≤ τ j → changes fk (τ i).val = changes fk (τ j).val := by
    intro i j he hle
    rw [changes_eq_iff fk hle]
    intro x hx k h1 h2
    obtain ⟨y, hy, rfl⟩ := List.mem_map.1 hx
    have hk : k < N := lt_of_le_of_lt h2 (τ j).isLt
    rw [hflat y k hk, hflat y (τ i).val (τ i).isLt]
    set e := τ.symm ⟨k, hk⟩ with he'
    have hte : τ e = ⟨k, hk⟩ := by rw [he', Equiv.apply_symm_apply]
    have a1 : ¬ keyRow asc keys e < keyRow asc keys i := by
      intro h
      have := (hτ e i).2 (.inl h)
      rw [hte, Fin.lt_def] at this; simp at this; omega
    have a2 : ¬ keyRow asc keys j < keyRow asc keys e := by
      intro h
      have := (hτ j e).2 (.inl h)
      rw [hte, Fin.lt_def] at this; simp at this; omega
    have a3 : keyRow asc keys e = keyRow asc keys i := le_antisymm (by rw [he]; exact not_lt.1 a2) (not_lt.1 a1)
    have := keyRow_eq_iff.1 a3 y hy
    rw [this]
    congr 1
    exact (τ.symm_apply_apply i).symm
  have hne : ∀ i j, keyRow asc keys i < keyRow asc keys j → changes fk (τ i).val < changes fk (τ j).val := by
    intro i j h
    have hlt : τ i < τ j := (hτ i j).2 (.inl h)
    refine lt_of_le_of_ne (changes_mono fk hlt.le) fun e => ?_
    have := (changes_eq_iff fk hlt.le).1 e
    refine absurd h (not_lt.2 (le_of_eq (keyRow_eq_iff.2 fun k hk => ?_)))
    have := this _ (List.mem_map.2 ⟨k, hk, rfl⟩) (τ j).val hlt.le (le_refl _)
    rw [hflat k _ (τ j).isLt, hflat k _ (τ i).isLt] at this
    simpa using this
  refine ⟨fun h => ?_, hne i j⟩
  rcases lt_trichotomy (keyRow asc keys i) (keyRow asc keys j) with h1 | h1 | h1
  · exact h1
  · exfalso
    rcases le_total (τ i) (τ j) with h2 | h2
    · rw [heq i j h1 h2] at h; exact lt_irrefl _ h
    · rw [heq j i h1.symm h2] at h; exact lt_irrefl _ h
  · exact absurd (hne j i h1) (by omega)

/-- `m` sorts like the group `g` it was merged from -/
structure MergedOk (asc : Bool) (m : Val w N) (g : List (Val w N)) : Prop where
  order : ∀ i j, dirVal asc (ordVal m.uns (m.val i)) < dirVal asc (ordVal m.uns (m.val j)) ↔
    keyRow asc g i < keyRow asc g j
  secret : m.vis = .secret → g = [m]
  fits : m.vis ≠ .secret → FitsBits (Nat.log2 N + 2) m ∧ m.uns = false
  pub : m.vis = .pub → ∀ k ∈ g, k.vis = .pub

section
variable {σ : Type} {Inv : σ → Prop} {R : Spu.Model.Circ.M σ (Equiv.Perm (Fin N))} (hR : Ok Inv R fun _ => True)
  {ord : List (Fin N)} (ho : Covers ord)

theorem Ok.mapAll {α β : Type} {f : α → Spu.Model.Circ.M σ β} {P : α → β → Prop} (l : List α)
    (h : ∀ a ∈ l, Ok Inv (f a) (P a)) : Ok Inv (l.mapM f) fun r => List.Forall₂ P l r := by
  induction l with
  | nil => exact Ok.pure .nil
  | cons a l ih =>
    rw [List.mapM_cons]
    refine Ok.bind (h a (by simp)) fun b hb => Ok.bind (ih fun a ha => h a (by simp [ha])) fun bs hbs => Ok.pure (.cons hb hbs)

include hR ho

theorem mergePubPri_spec (hN0 : 0 < N) (hNw : N < 2 ^ (w - 1)) (av asc : Bool) {keys : List (Val w N)} (hk : keys ≠ [])
    (o : ℕ) (hv : ∀ k ∈ keys, k.vis = .pub ∨ k.vis = .priv o) (hs : ∀ k ∈ keys, SignedOk k) :
    Ok Inv (mergePubPri R ord av keys asc) fun m => MergedOk asc m keys ∧ m.vis ≠ .secret := by
  have hw : 0 < w := by
    rcases Nat.eq_zero_or_pos w with h | h
    · subst h; simp at hNw; omega
    · exact h
  have hN : N ≤ 2 ^ w := hNw.le.trans (Nat.pow_le_pow_right (by norm_num) (by omega))
  unfold mergePubPri
  refine Ok.enforce ?_ ?_
  · rw [List.all_eq_true]
    intro k hk'
    rcases hv k hk' with e | e <;> simp [e, Vis.isSecret]
  refine Ok.optBind (List.getLast?_eq_some_getLast hk) ?_
  have hlast := List.getLast_mem hk
  set last := keys.getLast hk with hlastdef
  have hsplit : keys.dropLast ++ [last] = keys := List.dropLast_append_getLast hk
  have hkf : ∀ k ∈ keys, ∀ v, (v = .pub ∨ v = .priv o) → ∀ valid, KeyFits (outVis k.vis v) valid k := by
    intro k hk' v hv' valid
    unfold KeyFits
    rw [if_neg]
    · exact hs k hk'
    · rcases hv k hk' with e | e <;> rcases hv' with e' | e' <;> simp [e, e', outVis]
  refine Ok.bind (genInvPermOne_spec hR ho hN hw (asc := asc) (valid := none) (x := last) ?_) ?_
  · unfold KeyFits
    rw [if_neg]
    · exact hs _ hlast
    · rcases hv _ hlast with e | e <;> simp [e]
  rintro inv0 ⟨hvis, τ, h1, h2⟩
  let I : Vis → List (Val w N) → Prop := fun v ks => (v = .pub ∧ ∀ k ∈ ks, k.vis = .pub) ∨ v = .priv o
  refine Ok.bind (stepKeys_spec hR ho hN hw av asc I keys.dropLast ?_ [last] h1
    (h2.congr fun i j => by simp [keyRow, List.cons_lt_cons_iff]) ?_) ?_
  · intro k hk' v ks hI
    have hk'' := List.dropLast_subset _ hk'
    refine ⟨hkf k hk'' v (hI.imp (fun h => h.1) id) _, ?_⟩
    rcases hI with ⟨e, e'⟩ | e
    · rcases hv k hk'' with f | f
      · left; subst e; rw [f]; exact ⟨rfl, by simpa [f] using e'⟩
      · right; subst e; rw [f]; rfl
    · right; subst e
      rcases hv k hk'' with f | f <;> rw [f] <;> simp [outVis]
  · rw [hvis]
    rcases hv _ hlast with e | e
    · left; exact ⟨e, by simp [e]⟩
    · right; exact e
  rintro inv ⟨hI, τ', g1, g2⟩
  rw [hsplit] at hI g2
  have hmap : Ok Inv (keys.mapM fun k => applyInv R ord av k inv) fun r => r = keys.map fun k =>
      (⟨outVis k.vis inv.vis, k.uns, w, fun j => k.val (τ'.symm j)⟩ : Val w N) := by
    refine Ok.imp (Ok.mapAll keys (fun k _ => applyInv_spec hR ho av k g1)) fun r hr => ?_
    clear * - hr
    induction hr with
    | nil => rfl
    | cons h _ ih => rw [h, ih]; rfl
  refine Ok.bind hmap ?_
  rintro permed rfl
  have hvv : inv.vis ≠ .secret ∧ ∀ k ∈ keys, outVis k.vis inv.vis = inv.vis := by
    rcases hI with ⟨e, e'⟩ | e
    · rw [e]; exact ⟨by simp, fun k hk' => by rw [e' k hk']; rfl⟩
    · rw [e]; refine ⟨by simp, fun k hk' => ?_⟩
      rcases hv k hk' with f | f <;> rw [f] <;> simp [outVis]
  refine Ok.optBind (mergeKeysV_spec (v := inv.vis) (by simpa using hk) hvv.1 (by simpa using hvv.2) hN0 asc) ?_
  refine Ok.imp (applyPermV_spec hR ho av _ g1) ?_
  rintro m rfl
  have hself : outVis inv.vis inv.vis = inv.vis := by cases inv.vis <;> simp [outVis]
  simp only [List.map_map, hself]
  have hfk : (fun x : Val w N => flat x.val) ∘ (fun k : Val w N => (⟨outVis k.vis inv.vis, k.uns, w, fun j => k.val (τ'.symm j)⟩ : Val w N)) =
      fun x : Val w N => flat fun a => x.val (τ'.symm a) := rfl
  rw [hfk]
  have hlev : ∀ i, (level w asc (changes (keys.map fun x => flat fun a => x.val (τ'.symm a)) (τ' i).val)).toInt =
      if asc then ((changes (keys.map fun x => flat fun a => x.val (τ'.symm a)) (τ' i).val : ℕ) : ℤ)
      else -((changes (keys.map fun x => flat fun a => x.val (τ'.symm a)) (τ' i).val : ℕ) : ℤ) := fun i =>
    level_toInt asc (lt_of_le_of_lt (changes_le _ _) (lt_trans (τ' i).isLt hNw)) hw
  refine ⟨⟨fun i j => ?_, fun h => absurd h hvv.1, fun _ => ⟨⟨by omega, ?_, fun i => ?_⟩, rfl⟩, fun h => ?_⟩, hvv.1⟩
  · rw [← changes_order g2 i j]
    simp only [ordVal, Bool.false_eq_true, if_false, hlev, dirVal]
    cases asc <;> simp
  · have : Nat.log2 N < w - 1 := (Nat.log2_lt (by omega)).2 hNw
    omega
  · simp only [Bool.false_eq_true, if_false, hlev]
    have hc : changes (keys.map fun x => flat fun a => x.val (τ'.symm a)) (τ' i).val < N :=
      lt_of_le_of_lt (changes_le _ _) (τ' i).isLt
    have hl : N < 2 ^ (Nat.log2 N + 1) := (Nat.log2_lt (by omega)).1 (by omega)
    have : ((changes (keys.map fun x => flat fun a => x.val (τ'.symm a)) (τ' i).val : ℕ) : ℤ) < 2 ^ (Nat.log2 N + 1) := by
      exact_mod_cast lt_trans hc hl
    rw [show Nat.log2 N + 2 - 1 = Nat.log2 N + 1 by omega]
    split <;> constructor <;> omega
  · rcases hI with ⟨_, e'⟩ | e
    · exact e'
    · rw [e] at h; simp at h

theorem mergeGroup_spec (hN0 : 0 < N) (hNw : N < 2 ^ (w - 1)) (av asc : Bool) {g : List (Val w N)} (hg : g ≠ [])
    (hsec : (∃ k ∈ g, k.vis = .secret) → g.length = 1)
    (hown : ∀ o o', (∃ k ∈ g, k.vis = .priv o) → (∃ k ∈ g, k.vis = .priv o') → o = o')
    (hs : ∀ k ∈ g, k.vis ≠ .secret → SignedOk k) :
    Ok Inv (mergeGroup R ord av asc g) fun m => MergedOk asc m g := by
  by_cases hx : ∃ k ∈ g, k.vis = .secret
  · obtain ⟨k, rfl⟩ := List.length_eq_one_iff.1 (hsec hx)
    have hk : k.vis = .secret := by simpa using hx
    unfold mergeGroup
    simp only [hk, Vis.isSecret, if_true]
    refine Ok.pure ⟨fun i j => ?_, fun _ => rfl, fun h => absurd hk h, fun h => by simp [hk] at h⟩
    simp [keyRow, List.cons_lt_cons_iff]
  · push Not at hx
    have hmk : mergeGroup R ord av asc g = mergePubPri R ord av g asc := by
      unfold mergeGroup
      split
      · rename_i k
        have : k.vis.isSecret = false := by
          have := hx k (by simp)
          cases h : k.vis <;> simp_all [Vis.isSecret]
        simp [this]
      · rfl
    rw [hmk]
    obtain ⟨o, ho'⟩ : ∃ o, ∀ k ∈ g, k.vis = .pub ∨ k.vis = .priv o := by
      by_cases hp : ∃ k ∈ g, ∃ o, k.vis = .priv o
      · obtain ⟨k, hk, o, hko⟩ := hp
        refine ⟨o, fun k' hk' => ?_⟩
        cases h : k'.vis
        · exact .inl rfl
        · rename_i o'
          exact .inr (by rw [hown o o' ⟨k, hk, hko⟩ ⟨k', hk', h⟩])
        · exact absurd h (hx k' hk')
      · push Not at hp
        refine ⟨0, fun k' hk' => ?_⟩
        cases h : k'.vis
        · exact .inl rfl
        · exact absurd h (hp k' hk' _)
        · exact absurd h (hx k' hk')
    exact Ok.imp (mergePubPri_spec hR ho hN0 hNw av asc hg o ho' fun k hk => hs k hk (hx k hk)) fun m h => h.1

end

theorem append_lt_iff {α : Type} [LinearOrder α] {a b : List α} (h : a.length = b.length) (c d : List α) :
    a ++ c < b ++ d ↔ a < b ∨ (a = b ∧ c < d) := by
  induction a generalizing b with
  | nil => cases b with
    | nil => simp
    | cons => simp at h
  | cons x a ih => cases b with
    | nil => simp at h
    | cons y b =>
      simp only [List.cons_append, List.cons_lt_cons_iff, ih (b := b) (by simpa using h), List.cons.injEq]
      tauto

theorem merged_rows {asc : Bool} {ms : List (Val w N)} {gs : List (List (Val w N))}
    (h : List.Forall₂ (fun g m => MergedOk asc m g) gs ms) (i j : Fin N) :
    keyRow asc ms i < keyRow asc ms j ↔ keyRow asc gs.flatten i < keyRow asc gs.flatten j := by
  induction h with
  | nil => simp [keyRow]
  | @cons g m gs ms hm _ ih =>
    have h1 : ∀ l : List (Val w N), keyRow asc (g ++ l) = fun i => keyRow asc g i ++ keyRow asc l i := by
      intro l; funext i; simp [keyRow]
    rw [List.flatten_cons, h1]
    rw [append_lt_iff (by simp [keyRow]), ← ih, ← hm.order i j]
    have h2 : ∀ i, keyRow asc (m :: ms) i = dirVal asc (ordVal m.uns (m.val i)) :: keyRow asc ms i := fun i => rfl
    rw [h2, h2, List.cons_lt_cons_iff]
    have : dirVal asc (ordVal m.uns (m.val i)) = dirVal asc (ordVal m.uns (m.val j)) ↔ keyRow asc g i = keyRow asc g j := by
      have a := hm.order i j; have b := hm.order j i
      constructor
      · intro e
        exact le_antisymm (not_lt.1 fun h => absurd (b.2 h) (by omega)) (not_lt.1 fun h => absurd (a.2 h) (by omega))
      · intro e
        have n1 := a.not.2 (by rw [e]; exact lt_irrefl _)
        have n2 := b.not.2 (by rw [e]; exact lt_irrefl _)
        omega
    rw [this]

/-- all private keys in one group of `_find_mergeable_keys` have the same owner (C34: this can fail) -/
def GroupsSingleOwner (keys : List (Val w N)) : Prop :=
  ∀ splits, findMergeable (keys.map (·.vis)) = some splits → ∀ g ∈ groups keys 0 splits,
    ∀ o o', (∃ k ∈ g, k.vis = .priv o) → (∃ k ∈ g, k.vis = .priv o') → o = o'

section
variable {σ : Type} {Inv : σ → Prop} {R : Spu.Model.Circ.M σ (Equiv.Perm (Fin N))} (hR : Ok Inv R fun _ => True)
  {ord : List (Fin N)} (ho : Covers ord)
include hR ho

/-- **C33**: `gen_inv_perm` for keys of any visibility computes the stable sorting permutation of the key tuples. -/
theorem c33_genInvPerm (hN0 : 0 < N) (hNw : N < 2 ^ (w - 1)) (av asc : Bool) {keys : List (Val w N)} (hk : keys ≠ [])
    (valid : Option ℕ) (hf : ∀ k ∈ keys, KeyFits k.vis valid k) (hown : GroupsSingleOwner keys) :
    Ok Inv (genInvPermKeys R ord av keys asc valid) fun p => (p.vis = .pub → ∀ k ∈ keys, k.vis = .pub) ∧
      ∃ τ, Stands (idx p.val) τ ∧ Rank τ (keyRow asc keys) := by
  have hw : 0 < w := by
    rcases Nat.eq_zero_or_pos w with h | h
    · subst h; simp at hNw; omega
    · exact h
  have hN : N ≤ 2 ^ w := hNw.le.trans (Nat.pow_le_pow_right (by norm_num) (by omega))
  have hsecret : ∀ k : Val w N, k.vis.isSecret = true ↔ k.vis = .secret := by
    intro k; cases k.vis <;> simp [Vis.isSecret]
  unfold genInvPermKeys
  split
  · rename_i hall
    rw [List.all_eq_true] at hall
    refine Ok.bind (c33_secret hR ho hN hk asc valid fun k hk' => ?_) ?_
    · have := hf k hk'
      unfold KeyFits at this
      rwa [if_pos ((hsecret k).1 (hall k hk'))] at this
    · rintro p ⟨τ, h1, h2⟩
      exact Ok.pure ⟨by simp, τ, h1, h2⟩
  · have hkv : keys.map (·.vis) ≠ [] := by simpa using hk
    obtain ⟨splits, hs1, hs2⟩ := findMergeable_spec hkv
    have hflat : (groups keys 0 splits).flatten = keys := by
      have hc := hs2.chain
      rw [List.length_map] at hc
      simpa using groups_flatten keys splits 0 (by omega) hc.1 hc.2
    have hgmem : ∀ g ∈ groups keys 0 splits, ∀ k ∈ g, k ∈ keys := fun g hg k hk' => by
      rw [← hflat]; exact List.mem_flatten.2 ⟨g, hg, hk'⟩
    have hmerge : Ok Inv (mergeSortingKeys R ord av keys asc) fun ms =>
        List.Forall₂ (fun g m => MergedOk asc m g) (groups keys 0 splits) ms := by
      unfold mergeSortingKeys
      refine Ok.optBind hs1 (Ok.mapAll _ fun g hg => ?_)
      obtain ⟨b, e, hgo, hge⟩ := groups_mem keys hs2 g hg
      have hle := hgo.le
      have hlt := hgo.lt
      rw [List.length_map] at hle
      have hgl : g.length = e - b := by rw [hge]; simp; omega
      refine mergeGroup_spec hR ho hN0 hNw av asc ?_ ?_ (hown splits hs1 g hg) ?_
      · intro h; rw [h] at hgl; simp at hgl; omega
      · rintro ⟨k, hkg, hks⟩
        rw [hge] at hkg
        obtain ⟨m, hm, rfl⟩ := List.getElem_of_mem hkg
        have hm' : m < e - b := by simp at hm; omega
        have hbm : b + m < keys.length := by omega
        have := hgo.secret (b + m) (by omega) (by omega) (by
          simp only [List.getElem_take, List.getElem_drop] at hks
          simp [keyVis, List.getElem?_eq_getElem hbm, hks])
        omega
      · intro k hkg hks
        have := hf k (hgmem g hg k hkg)
        unfold KeyFits at this
        rwa [if_neg hks] at this
    refine Ok.bind hmerge ?_
    intro ms hms
    have hlen := hms.length_eq
    have hne : ms ≠ [] := by
      rintro rfl
      have : groups keys 0 splits = [] := by simpa using hlen
      rw [this] at hflat
      exact hk hflat.symm
    -- every merged key
    have hmem : ∀ m ∈ ms, ∃ g ∈ groups keys 0 splits, MergedOk asc m g := by
      intro m hm
      obtain ⟨n, hn, rfl⟩ := List.getElem_of_mem hm
      have hn' : n < (groups keys 0 splits).length := by omega
      exact ⟨_, List.getElem_mem hn', (List.forall₂_iff_get.1 hms).2 n hn' hn⟩
    have hmsec : ∀ m ∈ ms, m.vis = .secret → FitsBits (valid.getD m.nb) m := by
      intro m hm hv
      obtain ⟨g, hg, hmg⟩ := hmem m hm
      have := hf m (hgmem g hg m (by rw [hmg.secret hv]; simp))
      unfold KeyFits at this
      rwa [if_pos hv] at this
    have hmnon : ∀ m ∈ ms, m.vis ≠ .secret → SignedOk m := by
      intro m hm hv
      obtain ⟨g, hg, hmg⟩ := hmem m hm
      intro h; rw [(hmg.fits hv).2] at h; simp at h
    refine Ok.optBind (List.getLast?_eq_some_getLast hne) ?_
    have hlast := List.getLast_mem hne
    set last := ms.getLast hne with hlastdef
    have hsplit : ms.dropLast ++ [last] = ms := List.dropLast_append_getLast hne
    refine Ok.bind (genInvPermOne_spec hR ho hN hw (asc := asc) (valid := valid) (x := last) ?_) ?_
    · unfold KeyFits
      split
      · rename_i hv; exact hmsec _ hlast hv
      · rename_i hv; exact hmnon _ hlast hv
    rintro inv0 ⟨hvis, τ, h1, h2⟩
    let I : Vis → List (Val w N) → Prop := fun v ks => v = .pub → ∀ k ∈ ks, k.vis = .pub
    refine Ok.imp (stepKeys_spec hR ho hN hw av asc I ms.dropLast (valid := realValid valid) ?_ [last] h1
      (h2.congr fun i j => by simp [keyRow, List.cons_lt_cons_iff]) ?_) ?_
    · intro m hm v ks hI
      have hm' := List.dropLast_subset _ hm
      refine ⟨?_, fun hp => ?_⟩
      · unfold KeyFits realValid
        split
        · simp only [Option.getD_some]
          by_cases hv : m.vis = .secret
          · rw [if_pos ((hsecret m).2 hv)]
            have := hmsec m hm' hv
            cases valid with
            | none => exact FitsBits.full m hw
            | some b => exact this
          · rw [if_neg (by rw [hsecret]; exact hv)]
            obtain ⟨g, hg, hmg⟩ := hmem m hm'
            exact (hmg.fits hv).1
        · rename_i hv
          refine hmnon m hm' fun h => hv (by rw [h]; rfl)
      · rw [outVis_pub, outVis_pub] at hp
        intro k hk'
        rcases List.mem_cons.1 hk' with rfl | hk''
        · exact hp.1.1
        · exact hI hp.2 k hk''
    · intro hp k hk'
      rw [List.mem_singleton.1 hk', ← hvis]; exact hp
    · rintro p ⟨hI, τ', g1, g2⟩
      rw [hsplit] at hI g2
      refine ⟨fun hp k hk' => ?_, τ', g1, g2.congr fun i j => ?_⟩
      · rw [← hflat] at hk'
        obtain ⟨g, hg, hkg⟩ := List.mem_flatten.1 hk'
        obtain ⟨n, hn, rfl⟩ := List.getElem_of_mem hg
        have hn' : n < ms.length := by omega
        have hmg := (List.forall₂_iff_get.1 hms).2 n hn hn'
        exact hmg.pub (hI hp _ (List.getElem_mem hn')) k hkg
      · rw [merged_rows hms i j, hflat]

/-- **C33**: `radix_sort` re-orders every operand by the stable sorting permutation of the first `num_keys` of them. -/
theorem c33_radixSort (hN0 : 0 < N) (hNw : N < 2 ^ (w - 1)) (av asc : Bool) {inputs : List (Val w N)} {numKeys : ℕ}
    (hk : inputs.take numKeys ≠ []) (valid : Option ℕ) (hf : ∀ k ∈ inputs.take numKeys, KeyFits k.vis valid k)
    (hown : GroupsSingleOwner (inputs.take numKeys)) (hpub : ∃ k ∈ inputs.take numKeys, k.vis ≠ .pub) :
    Ok Inv (radixSort R ord av inputs asc numKeys valid) fun outs =>
      ∃ τ : Equiv.Perm (Fin N), Rank τ (keyRow asc (inputs.take numKeys)) ∧
        List.Forall₂ (fun x y => ∀ i, y.val (τ i) = x.val i) inputs outs := by
  unfold radixSort
  refine Ok.bind (c33_genInvPerm hR ho hN0 hNw av asc hk valid hf hown) ?_
  rintro p ⟨hp, τ, h1, h2⟩
  have hnp : p.vis ≠ .pub := fun h => by
    obtain ⟨k, hk', hkp⟩ := hpub
    exact hkp (hp h k hk')
  refine Ok.enforce (by simpa using hnp) ?_
  refine Ok.imp (Ok.mapAll (P := fun x y => y.val = fun j => x.val (τ.symm j)) inputs fun x _ => ?_) fun outs ho => ⟨τ, h2, ?_⟩
  · split
    · refine Ok.imp (applyInv_spec hR ho av _ (τ := τ) h1) ?_
      rintro y rfl; rfl
    · refine Ok.imp (applyInv_spec hR ho av _ h1) ?_
      rintro y rfl; rfl
  · exact ho.imp fun x y h i => by rw [h]; simp

end

/-! ## Where the code does not sort -/

/-- random permutations for the examples -/
def demoRand : Spu.Model.Circ.M ℕ (Equiv.Perm (Fin 4)) := fun s =>
  some (if s % 3 = 0 then Equiv.swap 0 1 else if s % 3 = 1 then Equiv.swap 1 3 * Equiv.swap 0 2 else 1, s + 1)

theorem demoRand_ok : Ok (fun _ => True) demoRand fun _ => True := fun s _ => ⟨_, s + 1, rfl, trivial, trivial⟩

/-- A signed key held as a boolean share with 4 declared bits: `_bit_decompose` takes the declared bit count, so the top
declared bit is read as the sign although the values are nonnegative, and 8 is put before 7. -/
theorem c33_declared_bits : ∃ x : Val 8 4, x.uns = false ∧ x.vis = .secret ∧ (∀ i, (x.val i).toNat < 2 ^ x.nb) ∧
    ∃ p s, genInvPermS demoRand (List.finRange 4) [x] true none 0 = some (p, s) ∧
      ¬ ∃ τ, Stands (idx p) τ ∧ Rank τ (keyRow true [x]) := by
  refine ⟨⟨.secret, false, 4, ![7, 8, 3, 9]⟩, rfl, rfl, by decide, ?_⟩
  have h : ∃ p s, genInvPermS (w := 8) demoRand (List.finRange 4) [⟨.secret, false, 4, ![7, 8, 3, 9]⟩] true none 0 =
      some (p, s) ∧ idx p = ![3, 0, 2, 1] := by
    have h : (genInvPermS (w := 8) demoRand (List.finRange 4) [⟨.secret, false, 4, ![7, 8, 3, 9]⟩] true none 0).map
        (fun r => idx r.1) = some ![3, 0, 2, 1] := by decide +kernel
    obtain ⟨⟨p, s⟩, h1, h2⟩ := Option.map_eq_some_iff.1 h
    exact ⟨p, s, h1, h2⟩
  obtain ⟨p, s, h1, h2⟩ := h
  refine ⟨p, s, h1, ?_⟩
  rintro ⟨τ, h3, h4⟩
  have a0 := h3 0
  have a1 := h3 1
  rw [h2] at a0 a1
  have := (h4 0 1).2 (.inl (by decide))
  rw [Fin.lt_def, ← a0, ← a1] at this
  simp at this

/-- A private unsigned key: the local sort compares signed words, so 200 is put before 1. -/
theorem c33_unsigned_private : ∃ x : Val 8 4, x.uns = true ∧ x.vis = .priv 0 ∧
    ∃ p s, genInvPermKeys demoRand (List.finRange 4) true [x] true none 0 = some (p, s) ∧
      ¬ ∃ τ, Stands (idx p.val) τ ∧ Rank τ (keyRow true [x]) := by
  refine ⟨⟨.priv 0, true, 8, ![1, 200, 3, 4]⟩, rfl, rfl, ?_⟩
  have h : (genInvPermKeys (w := 8) demoRand (List.finRange 4) true [⟨.priv 0, true, 8, ![1, 200, 3, 4]⟩] true none 0).map
      (fun r => idx r.1.val) = some ![1, 0, 2, 3] := by decide +kernel
  obtain ⟨⟨p, s⟩, h1, h2⟩ := Option.map_eq_some_iff.1 h
  refine ⟨p, s, h1, ?_⟩
  rintro ⟨τ, h3, h4⟩
  have a0 := h3 0
  have a1 := h3 1
  simp only at h2
  rw [h2] at a0 a1
  have := (h4 0 1).2 (.inl (by decide))
  rw [Fin.lt_def, ← a0, ← a1] at this
  simp at this

/-- Private keys of two owners before a secret key fall into one group (C34) and the sort throws. -/
theorem c33_two_owners_throw : ∃ x y z : Val 8 4, x.vis = .priv 0 ∧ y.vis = .priv 1 ∧ z.vis = .secret ∧
    genInvPermKeys demoRand (List.finRange 4) true [x, y, z] true none 0 = none :=
  ⟨⟨.priv 0, false, 8, ![1, 2, 3, 4]⟩, ⟨.priv 1, false, 8, ![1, 2, 3, 4]⟩, ⟨.secret, false, 8, ![1, 2, 3, 4]⟩, rfl, rfl, rfl,
    by decide +kernel⟩

/-! ## Examples -/

/-- two private keys of one owner, a secret key, a payload -/
def demoSort : List (Val 8 4) :=
  [⟨.pub, false, 8, ![5, 255, 5, 255]⟩, ⟨.priv 1, true, 8, ![2, 1, 2, 1]⟩, ⟨.secret, false, 8, ![130, 9, 7, 9]⟩,
    ⟨.secret, false, 8, ![10, 11, 12, 13]⟩]

example : Covers (List.finRange 4) := List.Perm.refl _
example : ∀ k ∈ demoSort.take 3, KeyFits k.vis none k := by
  intro k hk
  simp only [demoSort, List.take, List.mem_cons, List.not_mem_nil, or_false] at hk
  rcases hk with rfl | rfl | rfl
  · simp [KeyFits, SignedOk]
  · unfold KeyFits; rw [if_neg (by simp)]; intro _; decide
  · exact FitsBits.full _ (by norm_num)
example : GroupsSingleOwner (demoSort.take 3) := by
  intro splits h g hg o o'
  have : findMergeable ((demoSort.take 3).map (·.vis)) = some [2, 3] := by decide
  rw [this] at h
  obtain rfl := Option.some.inj h
  simp only [demoSort, List.take, groups, List.drop, List.mem_cons, List.not_mem_nil, or_false] at hg
  rcases hg with rfl | rfl <;> simp
  rintro rfl rfl; rfl

example : ((radixSort demoRand (List.finRange 4) true demoSort true 3 none 0).map fun r =>
    r.1.map fun x => (List.finRange 4).map x.val) =
    some [[255, 255, 5, 5], [1, 1, 2, 2], [9, 9, 130, 7], [11, 13, 10, 12]] := by decide +kernel
example : ((radixSort demoRand (List.finRange 4) false demoSort false 3 (some 8) 0).map fun r =>
    r.1.map fun x => (List.finRange 4).map x.val) =
    some [[5, 5, 255, 255], [2, 2, 1, 1], [7, 130, 9, 9], [12, 10, 11, 13]] := by decide +kernel

end Spu.Props
