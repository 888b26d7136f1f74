import Verif.Props.RadixMixed

set_option autoImplicit false

/-! # C83: the sorting permutation of keys that are all public, or all private with one owner -/

namespace Spu.Props
open Spu.Model Spu.Model.Radix Spu.Model.Perm Spu.Model.Circ Spu.Spec Spu.Lemmas

section
variable {w N : ℕ}

/-- the same value with a signed data type -/
def strip (x : Val w N) : Val w N := { x with uns := false }

theorem findLoop_uniform {keys : List Vis} {v : Vis} (hv : v ≠ .secret) (hk : ∀ k ∈ keys, k = v) :
    ∀ (n : ℕ) (po : Option ℕ) (acc : List ℕ), n < keys.length → (∀ o, v = .priv o → po = some o) →
      findLoop keys n po acc = acc := by
  have hget : ∀ i, i < keys.length → keys.getD i .pub = v := by
    intro i hi
    rw [List.getD_eq_getElem?_getD, List.getElem?_eq_getElem hi]
    exact hk _ (List.getElem_mem hi)
  intro n
  induction n with
  | zero => intro po acc _ _; rfl
  | succ n ih =>
    intro po acc hn hpo
    unfold findLoop
    rw [hget (n + 1) hn, hget n (by omega)]
    cases v with
    | pub => exact ih po acc (by omega) hpo
    | priv o =>
      simp only
      rw [if_pos (.inr (hpo o rfl))]
      exact ih _ acc (by omega) (fun o' ho' => by rw [Vis.priv.injEq] at ho'; rw [ho'])
    | secret => exact absurd rfl hv

theorem findMergeable_uniform {keys : List Vis} {v : Vis} (hne : keys ≠ []) (hv : v ≠ .secret) (hk : ∀ k ∈ keys, k = v) :
    findMergeable keys = some [keys.length] := by
  unfold findMergeable
  rw [List.getLast?_eq_some_getLast hne]
  have hl := hk _ (List.getLast_mem hne)
  have hpos := List.length_pos_iff.2 hne
  simp only [hl]
  rw [findLoop_uniform hv hk _ _ _ (by omega)]
  intro o ho; rw [ho]

variable {σ : Type} {Inv : σ → Prop} {R : Spu.Model.Circ.M σ (Equiv.Perm (Fin N))} {ord : List (Fin N)}

/-- every result of `m` satisfies `Q` -/
def Post {α : Type} (m : Spu.Model.Circ.M σ α) (Q : α → Prop) : Prop := ∀ s a s', m s = some (a, s') → Q a

theorem Post.bind {α β : Type} {m : Spu.Model.Circ.M σ α} {f : α → Spu.Model.Circ.M σ β} {P : α → Prop} {Q : β → Prop}
    (h : Post m P) (hf : ∀ a, P a → Post (f a) Q) : Post (m >>= f) Q := by
  intro s b s' hb
  simp only [Bind.bind, StateT.bind] at hb
  cases hm : m s with
  | none => rw [hm] at hb; simp at hb
  | some r => rw [hm] at hb; exact hf r.1 (h s r.1 r.2 hm) r.2 b s' hb

theorem Post.pure {α : Type} {a : α} {Q : α → Prop} (h : Q a) : Post (pure a : Spu.Model.Circ.M σ α) Q := by
  intro s b s' hb
  simp only [Pure.pure, StateT.pure, Option.some.injEq, Prod.mk.injEq] at hb
  rw [← hb.1]; exact h

theorem Post.any {α : Type} (m : Spu.Model.Circ.M σ α) : Post m fun _ => True := fun _ _ _ _ => trivial

theorem bind_congr_post {α β : Type} {m : Spu.Model.Circ.M σ α} {f g : α → Spu.Model.Circ.M σ β} {P : α → Prop}
    (h : Post m P) (hf : ∀ a, P a → f a = g a) : m >>= f = m >>= g := by
  funext s
  simp only [Bind.bind, StateT.bind]
  cases hm : m s with
  | none => rfl
  | some r => exact congrFun (hf r.1 (h s r.1 r.2 hm)) r.2

theorem Ok.andPost {α : Type} {m : Spu.Model.Circ.M σ α} {P Q : α → Prop} (h : Ok Inv m P) (hq : Post m Q) :
    Ok Inv m fun a => P a ∧ Q a := by
  intro s hs
  obtain ⟨a, s', h1, h2, h3⟩ := h s hs
  exact ⟨a, s', h1, h2, h3, hq s a s' h1⟩

theorem outVis_self {v : Vis} : outVis v v = v := by cases v <;> simp [outVis]

theorem genInvPermOne_vis (x : Val w N) (asc : Bool) (valid : Option ℕ) :
    Post (genInvPermOne R ord x asc valid) fun p => p.vis = x.vis := by
  unfold genInvPermOne
  cases hv : x.vis <;> exact Post.bind (Post.any _) fun p _ => Post.pure rfl

theorem genInvPermOne_strip (x : Val w N) (hv : x.vis ≠ .secret) (asc : Bool) (valid : Option ℕ) :
    genInvPermOne R ord x asc valid = genInvPermOne R ord (strip x) asc valid := by
  unfold genInvPermOne strip
  cases h : x.vis
  · rfl
  · rfl
  · exact absurd h hv

theorem applyInv_vis (av : Bool) (x p : Val w N) : Post (applyInv R ord av x p) fun y => y.vis = outVis x.vis p.vis :=
  Post.bind (Post.any _) fun _ _ => Post.pure rfl

theorem applyInv_strip (av : Bool) (x p : Val w N) :
    applyInv R ord av (strip x) p = (applyInv R ord av x p >>= fun y => pure (strip y)) := by
  unfold applyInv strip
  simp only [bind_assoc, pure_bind]

theorem applyPermV_vis {v : Vis} (hv : v ≠ .secret) (av : Bool) {x p : Val w N} (hx : x.vis = v) (hp : p.vis = v) :
    Post (applyPermV R ord av x p) fun y => y.vis = v := by
  unfold applyPermV
  rw [hx, hp, outVis_self]
  cases v with
  | pub => exact Post.bind (Post.any _) fun _ _ => Post.pure rfl
  | priv o => exact Post.bind (Post.any _) fun _ _ => Post.pure rfl
  | secret => exact absurd rfl hv

theorem stepKey_vis {v : Vis} (hv : v ≠ .secret) (av asc : Bool) (valid : Val w N → Option ℕ) {inv cur : Val w N}
    (hi : inv.vis = v) (hc : cur.vis = v) : Post (stepKey R ord av asc valid inv cur) fun p => p.vis = v := by
  unfold stepKey
  refine Post.bind (applyInv_vis av cur inv) fun hat hhat => ?_
  rw [hc, hi, outVis_self] at hhat
  exact Post.bind (genInvPermOne_vis hat asc _) fun ci hci => applyPermV_vis hv av (hci.trans hhat) hi

theorem stepKey_strip {v : Vis} (hv : v ≠ .secret) (av asc : Bool) {inv cur : Val w N}
    (hi : inv.vis = v) (hc : cur.vis = v) :
    stepKey R ord av asc (fun _ => none) inv cur = stepKey R ord av asc (fun _ => none) inv (strip cur) := by
  unfold stepKey
  rw [applyInv_strip]
  simp only [bind_assoc, pure_bind]
  refine bind_congr_post (applyInv_vis av cur inv) fun hat hhat => ?_
  rw [hc, hi, outVis_self] at hhat
  rw [genInvPermOne_strip hat (by rw [hhat]; exact hv)]

theorem stepKeys_vis {v : Vis} (hv : v ≠ .secret) (av asc : Bool) (ks : List (Val w N)) :
    ∀ {inv : Val w N}, inv.vis = v → (∀ k ∈ ks, k.vis = v) →
      Post (ks.foldlM (stepKey R ord av asc fun _ => none) inv) fun p => p.vis = v := by
  induction ks with
  | nil => intro inv hi _; exact Post.pure hi
  | cons k ks ih =>
    intro inv hi hk
    rw [List.foldlM_cons]
    exact Post.bind (stepKey_vis hv av asc _ hi (hk k (by simp))) fun p hp => ih hp fun k' hk' => hk k' (by simp [hk'])

theorem stepKeys_strip {v : Vis} (hv : v ≠ .secret) (av asc : Bool) (ks : List (Val w N)) :
    ∀ {inv : Val w N}, inv.vis = v → (∀ k ∈ ks, k.vis = v) →
      ks.foldlM (stepKey R ord av asc fun _ => none) inv =
        (ks.map strip).foldlM (stepKey R ord av asc fun _ => none) inv := by
  induction ks with
  | nil => intro inv hi _; rfl
  | cons k ks ih =>
    intro inv hi hk
    rw [List.map_cons, List.foldlM_cons, List.foldlM_cons, ← stepKey_strip hv av asc hi (hk k (by simp))]
    exact bind_congr_post (stepKey_vis hv av asc _ hi (hk k (by simp))) fun p hp => ih hp fun k' hk' => hk k' (by simp [hk'])

theorem mapM_applyInv_strip (av : Bool) (p : Val w N) (ks : List (Val w N)) :
    (ks.map strip).mapM (fun k => applyInv R ord av k p) =
      (ks.mapM (fun k => applyInv R ord av k p) >>= fun r => pure (r.map strip)) := by
  induction ks with
  | nil => simp
  | cons k ks ih =>
    rw [List.map_cons, List.mapM_cons, ih, List.mapM_cons, applyInv_strip]
    simp only [bind_assoc, pure_bind, List.map_cons]

theorem mergeKeysV_strip (ks : List (Val w N)) (asc : Bool) : mergeKeysV (ks.map strip) asc = mergeKeysV ks asc := by
  cases ks with
  | nil => rfl
  | cons k ks =>
    unfold mergeKeysV
    simp only [List.map_cons, strip, List.map_map, Function.comp_def, List.mem_cons, List.mem_map, forall_eq_or_imp,
      forall_exists_index, and_imp, forall_apply_eq_imp_iff₂]

theorem mergePubPri_strip {v : Vis} (hv : v ≠ .secret) (av asc : Bool) {keys : List (Val w N)} (hne : keys ≠ [])
    (hk : ∀ k ∈ keys, k.vis = v) :
    mergePubPri R ord av keys asc = mergePubPri R ord av (keys.map strip) asc := by
  unfold mergePubPri
  have h1 : ((keys.map strip).all fun k => !k.vis.isSecret) = keys.all fun k => !k.vis.isSecret := by
    rw [List.all_map]; rfl
  have h2 : (keys.map strip).getLast? = some (strip (keys.getLast hne)) := by
    rw [List.getLast?_map, List.getLast?_eq_some_getLast hne]; rfl
  have h3 : (keys.map strip).dropLast.reverse = keys.dropLast.reverse.map strip := by
    rw [← List.map_dropLast, List.map_reverse]
  rw [h1, h2, h3, List.getLast?_eq_some_getLast hne]
  have hlv : (keys.getLast hne).vis = v := hk _ (List.getLast_mem hne)
  refine bind_congr_post (Post.any _) fun _ _ => ?_
  have hl : ∀ {α β : Type} (a : α) (f : α → Spu.Model.Circ.M σ β), ((liftM (some a) : Spu.Model.Circ.M σ α) >>= f) = f a := by
    intro α β a f; funext s; rfl
  rw [hl, hl, ← genInvPermOne_strip _ (by rw [hlv]; exact hv)]
  refine bind_congr_post (genInvPermOne_vis _ asc none) fun inv0 hinv0 => ?_
  rw [hlv] at hinv0
  have hkr : ∀ k ∈ keys.dropLast.reverse, k.vis = v := fun k hk' =>
    hk k (List.dropLast_subset _ (List.mem_reverse.1 hk'))
  rw [← stepKeys_strip hv av asc _ hinv0 hkr]
  refine bind_congr_post (Post.any _) fun inv _ => ?_
  rw [mapM_applyInv_strip]
  simp only [bind_assoc, pure_bind]
  refine bind_congr_post (Post.any _) fun permed _ => ?_
  rw [mergeKeysV_strip]

theorem mergePubPri_vis {v : Vis} (hv : v ≠ .secret) (av asc : Bool) {keys : List (Val w N)} (hne : keys ≠ [])
    (hk : ∀ k ∈ keys, k.vis = v) : Post (mergePubPri R ord av keys asc) fun m => m.vis = v := by
  unfold mergePubPri
  refine Post.bind (Post.any _) fun _ _ => ?_
  rw [List.getLast?_eq_some_getLast hne]
  refine Post.bind (P := fun l => l = keys.getLast hne) ?_ fun last hlast => ?_
  · intro s a s' h
    simp only [liftM, monadLift, MonadLift.monadLift, StateT.lift, Option.bind_eq_bind, Option.bind_some, Option.pure_def,
      Option.some.injEq, Prod.mk.injEq] at h
    exact h.1.symm
  subst hlast
  refine Post.bind (genInvPermOne_vis _ asc none) fun inv0 hinv0 => ?_
  rw [hk _ (List.getLast_mem hne)] at hinv0
  have hkr : ∀ k ∈ keys.dropLast.reverse, k.vis = v := fun k hk' =>
    hk k (List.dropLast_subset _ (List.mem_reverse.1 hk'))
  refine Post.bind (stepKeys_vis hv av asc _ hinv0 hkr) fun inv hinv => ?_
  refine Post.bind (P := fun (r : List (Val w N)) => ∀ k ∈ r, k.vis = v) ?_ fun permed hpermed => ?_
  · have : ∀ ks : List (Val w N), (∀ k ∈ ks, k.vis = v) →
        Post (ks.mapM fun k => applyInv R ord av k inv) fun r => ∀ k ∈ r, k.vis = v := by
      intro ks
      induction ks with
      | nil => intro _; exact Post.pure (by simp)
      | cons k ks ih =>
        intro hks
        rw [List.mapM_cons]
        refine Post.bind (applyInv_vis av k inv) fun y hy => Post.bind (ih fun k' hk' => hks k' (by simp [hk'])) fun r hr =>
          Post.pure ?_
        rw [hks k (by simp), hinv, outVis_self] at hy
        simpa [hy] using hr
    exact this keys hk
  refine Post.bind (P := fun (m : Val w N) => m.vis = v) ?_ fun m hm => applyPermV_vis hv av hm hinv
  intro s a s' h
  cases hmk : mergeKeysV permed asc with
  | none => rw [hmk] at h; simp [liftM, monadLift, MonadLift.monadLift, StateT.lift] at h
  | some m =>
    rw [hmk] at h
    simp only [liftM, monadLift, MonadLift.monadLift, StateT.lift, Option.bind_eq_bind, Option.bind_some, Option.pure_def,
      Option.some.injEq, Prod.mk.injEq] at h
    rw [← h.1]
    cases permed with
    | nil => simp [mergeKeysV] at hmk
    | cons k ks =>
      unfold mergeKeysV at hmk
      simp only at hmk
      split at hmk
      · simp at hmk
      · obtain ⟨out, _, rfl⟩ := Option.map_eq_some_iff.1 hmk
        exact hpermed k (by simp)

/-- with keys of one visibility `gen_inv_perm` merges all of them and sorts the merged key -/
theorem genInvPermKeys_uniform {v : Vis} (hv : v ≠ .secret) (av asc : Bool) {keys : List (Val w N)} (hne : keys ≠ [])
    (hk : ∀ k ∈ keys, k.vis = v) (valid : Option ℕ) :
    genInvPermKeys R ord av keys asc valid =
      (mergePubPri R ord av keys asc >>= fun m => genInvPermOne R ord m asc valid) := by
  have hns : ∀ k ∈ keys, k.vis.isSecret = false := by
    intro k hk'; rw [hk k hk']; cases v <;> simp_all [Vis.isSecret]
  unfold genInvPermKeys
  rw [if_neg]
  swap
  · intro hall
    rw [List.all_eq_true] at hall
    obtain ⟨k, hk'⟩ := List.exists_mem_of_ne_nil keys hne
    have := hall k hk'
    rw [hns k hk'] at this
    simp at this
  have hm : mergeSortingKeys R ord av keys asc = (mergePubPri R ord av keys asc >>= fun m => pure [m]) := by
    unfold mergeSortingKeys
    rw [findMergeable_uniform (by simpa using hne) hv (by simpa using hk)]
    have hg : groups keys 0 [(keys.map (·.vis)).length] = [keys] := by simp [groups]
    have hmk : mergeGroup R ord av asc keys = mergePubPri R ord av keys asc := by
      unfold mergeGroup
      split
      · rename_i k
        rw [hns k (by simp)]
        rfl
      · rfl
    funext s
    change ((groups keys 0 [(keys.map (·.vis)).length]).mapM (mergeGroup R ord av asc)) s = _
    rw [hg, List.mapM_cons, List.mapM_nil, hmk]
    simp only [pure_bind]
  rw [hm, bind_assoc]
  refine bind_congr_post (Post.any _) fun m _ => ?_
  rw [pure_bind]
  funext s
  change (genInvPermOne R ord m asc valid >>= fun inv0 => pure inv0) s = _
  rw [bind_pure]

variable (hR : Ok Inv R fun _ => True) (ho : Covers ord)
include hR ho

/-- The sorting permutation of keys that are all public or all private with one owner: the key rows are compared
entry by entry as signed numbers, whatever their data type; the permutation has the visibility of the keys. -/
theorem c83_sortPerm {v : Vis} (hv : v ≠ .secret) (hN0 : 0 < N) (hNw : N < 2 ^ (w - 1)) (av asc : Bool)
    {keys : List (Val w N)} (hne : keys ≠ []) (hk : ∀ k ∈ keys, k.vis = v) (valid : Option ℕ) :
    Ok Inv (genInvPermKeys R ord av keys asc valid) fun p => p.vis = v ∧
      ∃ τ, Stands (idx p.val) τ ∧ Rank τ (keyRow asc (keys.map strip)) := by
  have heq : genInvPermKeys R ord av keys asc valid = genInvPermKeys R ord av (keys.map strip) asc valid := by
    rw [genInvPermKeys_uniform hv av asc hne hk valid,
      genInvPermKeys_uniform hv av asc (by simpa using hne) (v := v) (by simpa [strip] using hk) valid,
      mergePubPri_strip hv av asc hne hk]
  have hvis : Post (genInvPermKeys R ord av keys asc valid) fun p => p.vis = v := by
    rw [genInvPermKeys_uniform hv av asc hne hk valid]
    refine Post.bind (mergePubPri_vis hv av asc hne hk) fun m hm => ?_
    intro s a s' h
    rw [genInvPermOne_vis m asc valid s a s' h, hm]
  rw [heq] at hvis ⊢
  refine Ok.imp (Ok.andPost (c33_genInvPerm hR ho hN0 hNw av asc (keys := keys.map strip) (by simpa using hne) valid ?_ ?_) hvis)
    fun p h => ⟨h.2, h.1.2⟩
  · intro k hk'
    obtain ⟨k', h1, rfl⟩ := List.mem_map.1 hk'
    unfold KeyFits
    rw [if_neg (by simpa [strip, hk k' h1] using hv)]
    intro h; simp [strip] at h
  · intro splits _ g hg o o' ⟨a, ha, hao⟩ ⟨b, hb, hbo⟩
    have hmem : ∀ x ∈ g, x ∈ keys.map strip := by
      intro x hx
      have : ∀ (l : List (Val w N)) (s : List ℕ) (beg : ℕ), ∀ g ∈ groups l beg s, ∀ x ∈ g, x ∈ l := by
        intro l s
        induction s with
        | nil => intro beg g hg; simp [groups] at hg
        | cons e es ih =>
          intro beg g hg x hx
          rcases List.mem_cons.1 hg with rfl | hg'
          · exact List.mem_of_mem_drop (List.mem_of_mem_take hx)
          · exact ih e g hg' x hx
      exact this _ _ _ g hg x hx
    obtain ⟨a', ha', rfl⟩ := List.mem_map.1 (hmem a ha)
    obtain ⟨b', hb', rfl⟩ := List.mem_map.1 (hmem b hb)
    simp only [strip] at hao hbo
    rw [hk a' ha'] at hao
    rw [hk b' hb'] at hbo
    rw [hao, Vis.priv.injEq] at hbo
    exact hbo

end
end Spu.Props
