import Verif.Props.GroupBy

set_option autoImplicit false

/-! # C83: group-by averages and the entry point `GroupByAgg` -/

namespace Spu.Props
open Spu.Model Spu.Model.Radix Spu.Model.Perm Spu.Model.Circ Spu.Model.GroupBy Spu.Spec Spu.Lemmas Spu.Lemmas.GroupBy

section
variable {w N : ℕ}

/-! ## Counting -/

theorem foldl_add_sum (l : List (BitVec w)) (x : BitVec w) : l.foldl (· + ·) x = x + l.sum := by
  induction l generalizing x with
  | nil => simp
  | cons y l ih => rw [List.foldl_cons, ih, List.sum_cons, BitVec.add_assoc]

theorem sum_markBits (hw : 0 < w) {m : Fin N → BitVec w} (hb : ∀ p, m p = 0 ∨ m p = 1) (s : Finset (Fin N)) :
    ∑ p ∈ s, m p = BitVec.ofNat w (s.filter fun p => m p = 1).card := by
  have h01 : (0 : BitVec w) ≠ 1 := by
    intro h
    have : (0#w).toNat = (1#w).toNat := congrArg BitVec.toNat h
    rw [BitVec.toNat_ofNat, BitVec.toNat_ofNat, Nat.mod_eq_of_lt (show 1 < 2 ^ w by exact Nat.one_lt_two_pow (by omega))] at this
    simp at this
  induction s using Finset.induction_on with
  | empty => rfl
  | insert p s hp ih =>
    rw [Finset.sum_insert hp, ih, Finset.filter_insert]
    rcases hb p with h | h
    · rw [h, if_neg h01]
      exact BitVec.zero_add _
    · rw [h, if_pos rfl, Finset.card_insert_of_notMem (by simp [hp]), BitVec.ofNat_add]
      exact BitVec.add_comm _ _

theorem keyCount_spec {marks : Val w N} (hN0 : 0 < N) (hNw : N < 2 ^ (w - 1)) (hb : ∀ p, marks.val p = 0 ∨ marks.val p = 1)
    {G : ℕ} (hG : (Finset.univ.filter fun p => marks.val p = 1).card = G) (hG0 : 0 < G) : keyCount marks = some G := by
  have hw : 0 < w := by
    rcases Nat.eq_zero_or_pos w with h | h
    · subst h; simp at hNw; omega
    · exact h
  have hGN : G ≤ N := by rw [← hG]; exact (Finset.card_le_univ _).trans (by simp)
  have hred : associativeReduce (· + ·) (List.ofFn marks.val) = [BitVec.ofNat w G] := by
    obtain ⟨x, xs, hx⟩ : ∃ x xs, List.ofFn marks.val = x :: xs := by
      cases h : List.ofFn marks.val with
      | nil => have := congrArg List.length h; simp at this; omega
      | cons x xs => exact ⟨x, xs, rfl⟩
    rw [hx, c10_associativeReduce (· + ·) (fun a b c => BitVec.add_assoc a b c) (fun a b => BitVec.add_comm a b),
      foldl_add_sum, ← List.sum_cons, ← hx, List.sum_ofFn, sum_markBits hw hb, hG]
  have h2 : 2 ^ w = 2 * 2 ^ (w - 1) := by rw [← pow_succ']; congr 1; omega
  have hint : (BitVec.ofNat w G).toInt = G := by
    rw [BitVec.toInt_eq_toNat_cond, BitVec.toNat_ofNat, Nat.mod_eq_of_lt (by omega), if_pos (by omega)]
  unfold keyCount
  rw [hred]
  simp only [hint]
  rw [if_pos (by omega)]
  rfl

theorem sum_ones (f : ℕ) (s : Finset (Fin N)) : ∑ _p ∈ s, (1 : BitVec w) <<< f = BitVec.ofNat w (s.card * 2 ^ f) := by
  have h1 : (1 : BitVec w) <<< f = BitVec.ofNat w (2 ^ f) := by
    apply BitVec.eq_of_toNat_eq
    change (1#w <<< f).toNat = _
    rw [BitVec.toNat_shiftLeft, BitVec.toNat_ofNat, BitVec.toNat_ofNat, Nat.shiftLeft_eq, Nat.mod_mul_mod, one_mul]
  rw [h1]
  induction s using Finset.induction_on with
  | empty => simp
  | insert p s hp ih =>
    rw [Finset.sum_insert hp, ih, Finset.card_insert_of_notMem hp, ← BitVec.ofNat_add]
    congr 1
    ring

theorem toCol_cut (x : Val w N) {n : ℕ} (hn : n ≤ N) : (toCol x).cut n = some ⟨x.vis, (List.ofFn x.val).take n⟩ := by
  unfold toCol Col.cut
  simp [hn]

theorem getD_take_ofFn (x : Fin N → BitVec w) {n : ℕ} (g : Fin N) (hg : g.val < n) :
    ((List.ofFn x).take n).getD g.val 0 = x g := by
  simp [List.getD, hg]

theorem groups_pos {keys : List (Fin N → BitVec w)} (hN0 : 0 < N) : 0 < Spec.GroupBy.groups keys := by
  unfold Spec.GroupBy.groups
  rw [Finset.card_pos]
  exact ⟨_, Finset.mem_image_of_mem _ (Finset.mem_univ ⟨0, hN0⟩)⟩

/-! ## Averages -/

variable {σ : Type} {Inv : σ → Prop} {R : Spu.Model.Circ.M σ (Equiv.Perm (Fin N))} (hR : Ok Inv R fun _ => True)
  {ord : List (Fin N)} (ho : Covers ord)

/-- `avg` computes a quotient that satisfies `Q`, element by element -/
def AvgOk (Inv : σ → Prop) (avg : Col w → Col w → Spu.Model.Circ.M σ (Col w)) (Q : BitVec w → BitVec w → BitVec w → Prop) : Prop :=
  ∀ s c : Col w, s.vals.length = c.vals.length → Ok Inv (avg s c) fun r => r.vals.length = s.vals.length ∧
    ∀ i, i < s.vals.length → Q (s.vals.getD i 0) (c.vals.getD i 0) (r.vals.getD i 0)

theorem mapM_cols {α β : Type} (l : List α) (f : α → Option β) (g : α → β) (h : ∀ a ∈ l, f a = some (g a)) :
    l.mapM f = some (l.map g) := by
  induction l with
  | nil => rfl
  | cons a l ih => rw [List.mapM_cons, h a (by simp), ih fun b hb => h b (by simp [hb])]; rfl

include hR ho

/-- **C83**: `private_groupby_avg_1d`.  The first rows hold the distinct keys in ascending order, and the quotient of the group
sum (in fixed point: integer payloads are scaled by `2^f`) and the group size (scaled by `2^f`).  With `unsafe_drop_rest`
nothing else is returned: the revealed count is the number of groups. -/
theorem c83_groupByAvg {v u : Vis} (hv : v ≠ .secret) (hN0 : 0 < N) (hNw : N < 2 ^ (w - 1)) (av drop : Bool) (f : ℕ)
    {avg : Col w → Col w → Spu.Model.Circ.M σ (Col w)} {Q : BitVec w → BitVec w → BitVec w → Prop} (hQ : AvgOk Inv avg Q)
    {keys : List (Val w N)} {pays : List (Val w N × Bool)} (hne : keys ≠ []) (hk : ∀ k ∈ keys, k.vis = v) (hpn : pays ≠ [])
    (hp : ∀ x ∈ pays, x.1.vis = u) {n : ℕ} (hn : n = if drop then Spec.GroupBy.groups (cols keys) else N) :
    Ok Inv (groupByAvg R ord f avg av drop keys pays) fun out => ∃ ks avgs, Spec.GroupBy.Keys (cols keys) ks ∧
      out = ks.map (fun k => ⟨v, (List.ofFn k).take n⟩) ++ avgs ∧ ks.length = keys.length ∧
      List.Forall₂ (fun x a => a.vals.length = n ∧ ∀ g : Fin N, g.val < Spec.GroupBy.groups (cols keys) →
        Q (let t := Spec.GroupBy.total (cols keys) x.1.val (Spec.GroupBy.row ks g); if x.2 then t <<< f else t)
          (BitVec.ofNat w ((Spec.GroupBy.members (cols keys) (Spec.GroupBy.row ks g)).card * 2 ^ f))
          (a.vals.getD g.val 0)) pays avgs := by
  unfold groupByAvg
  refine Ok.bind (plan_spec hR ho hv hN0 hNw av hne hk) ?_
  rintro pl ⟨τ, π, hpl⟩
  have hGN : Spec.GroupBy.groups (cols keys) ≤ N := hpl.keys.fits
  have hnN : n ≤ N := by rw [hn]; split <;> omega
  have hGn : Spec.GroupBy.groups (cols keys) ≤ n := by rw [hn]; split <;> omega
  refine Ok.bind (segSum_total hR ho hpl av _ (fun _ => (1 : BitVec w) <<< f) rfl) ?_
  rintro count ⟨_, _, hcount⟩
  have hcnt : (if drop then keyCount pl.marks else some N : Option ℕ) = some n := by
    rw [hn]
    cases drop
    · rfl
    · exact keyCount_spec hN0 hNw hpl.bits hpl.groups (groups_pos hN0)
  refine Ok.optBind hcnt (Ok.optBind (toCol_cut count hnN) (Ok.optBind (mapM_cols _ _ _ fun k _ => toCol_cut k hnN) ?_))
  refine Ok.bind (applyInvAll_spec hR ho av (v := u) (by simpa using hpn) ?_ hpl.perm) ?_
  · intro x hx
    obtain ⟨y, hy, rfl⟩ := List.mem_map.1 hx
    exact hp y hy
  rintro permuted rfl
  have hzip : ((pays.map (·.1)).map fun x => (⟨outVis u pl.perm.vis, x.uns, w, fun j => x.val (τ.symm j)⟩ : Val w N)).zip
      (pays.map (·.2)) = pays.map fun x => ((⟨outVis u pl.perm.vis, x.1.uns, w, fun j => x.1.val (τ.symm j)⟩ : Val w N), x.2) := by
    rw [List.map_map, List.zip_map', ]
    rfl
  rw [hzip]
  refine Ok.bind (Ok.mapAll (P := fun (y : Val w N × Bool) (a : Col w) => a.vals.length = n ∧
    ∀ g : Fin N, g.val < Spec.GroupBy.groups (cols keys) →
        Q (let t := Spec.GroupBy.total (cols keys) (fun j => y.1.val (τ j)) (Spec.GroupBy.row (cols pl.outKeys) g);
          if y.2 then t <<< f else t)
          (BitVec.ofNat w ((Spec.GroupBy.members (cols keys) (Spec.GroupBy.row (cols pl.outKeys) g)).card * 2 ^ f))
          (a.vals.getD g.val 0)) _ fun y hy => ?_) fun avgs hs => ?_
  · refine Ok.bind (segSum_total hR ho hpl av y.1 (fun j => y.1.val (τ j)) (by funext j; simp)) ?_
    rintro s ⟨_, _, hs⟩
    refine Ok.optBind (toCol_cut s hnN) ?_
    have hlen : ∀ x : Fin N → BitVec w, ((List.ofFn x).take n).length = n := by intro x; simp [hnN]
    refine Ok.imp (hQ _ _ ?_) ?_
    · split <;> simp
    · rintro r ⟨hr1, hr2⟩
      have hl : ∀ b : Bool, (if b = true then (⟨s.vis, ((List.ofFn s.val).take n).map fun (z : BitVec w) => z <<< f⟩ : Col w)
          else ⟨s.vis, (List.ofFn s.val).take n⟩).vals.length = n := by
        intro b; cases b <;> simp [hnN]
      refine ⟨by rw [hr1]; exact hl y.2, fun g hg => ?_⟩
      have hgn : g.val < n := by omega
      have := hr2 g.val (by rw [show _ = n from hl y.2]; exact hgn)
      rw [getD_take_ofFn _ g hgn, hcount g hg] at this
      have hc : Spec.GroupBy.total (cols keys) (fun _ => (1 : BitVec w) <<< f) (Spec.GroupBy.row (cols pl.outKeys) g) =
          BitVec.ofNat w ((Spec.GroupBy.members (cols keys) (Spec.GroupBy.row (cols pl.outKeys) g)).card * 2 ^ f) := sum_ones f _
      rw [hc] at this
      rw [← hs g hg]
      have hgt : ∀ b : Bool, (if b = true then (⟨s.vis, ((List.ofFn s.val).take n).map fun (z : BitVec w) => z <<< f⟩ : Col w)
          else ⟨s.vis, (List.ofFn s.val).take n⟩).vals.getD g.val 0 = if b = true then s.val g <<< f else s.val g := by
        intro b
        cases b
        · exact getD_take_ofFn _ g hgn
        · simp [List.getD, hgn]
      have hgy := hgt y.2
      rw [show _ = _ from hgy] at this
      exact this
  · refine Ok.pure ⟨cols pl.outKeys, avgs, hpl.keys, ?_, ?_, ?_⟩
    · rw [hpl.outKeys]
      simp [cols, Function.comp_def]
    · rw [hpl.outKeys]; simp [cols]
    · rw [List.forall₂_map_left_iff] at hs
      refine hs.imp fun x a h => ?_
      simpa using h

/-! ## The entry point -/

omit hR ho in
theorem allPubOrOneOwner_some (l : List Vis) (r : ℕ) :
    allPubOrOneOwner l (some r) = true ↔ ∀ v ∈ l, v = .pub ∨ v = .priv r := by
  induction l with
  | nil => simp [allPubOrOneOwner]
  | cons v l ih =>
    cases v with
    | pub => simp [allPubOrOneOwner, ih]
    | priv o =>
      by_cases h : r = o
      · subst h; simp [allPubOrOneOwner, ih]
      · simp [allPubOrOneOwner, h, eq_comm]
    | secret => simp [allPubOrOneOwner]

omit hR ho in
theorem allPubOrOneOwner_none (l : List Vis) :
    allPubOrOneOwner l none = true ↔ ∃ o, ∀ v ∈ l, v = .pub ∨ v = .priv o := by
  induction l with
  | nil => simp [allPubOrOneOwner]
  | cons v l ih =>
    cases v with
    | pub => simp [allPubOrOneOwner, ih]
    | priv o =>
      simp only [allPubOrOneOwner, allPubOrOneOwner_some]
      constructor
      · intro h; exact ⟨o, by simpa using h⟩
      · rintro ⟨o', h⟩
        have h1 := h (.priv o) (by simp)
        simp only [reduceCtorEq, Vis.priv.injEq, false_or] at h1
        subst h1
        exact fun v hv => h v (by simp [hv])
    | secret => simp [allPubOrOneOwner]

omit hR ho in
theorem sameKind_pub {a : Vis} : sameKind a .pub = true ↔ a = .pub := by cases a <;> simp [sameKind]

omit hR ho in
/-- the checks on the keys leave exactly the uniform key lists -/
theorem keys_uniform {l : List Vis} {k0 : Vis} (h0 : k0 ∈ l) :
    ((l.all fun v => sameKind v k0) = true ∧ allPubOrOneOwner l none = true) ↔ k0 ≠ .secret ∧ ∀ v ∈ l, v = k0 := by
  rw [List.all_eq_true, allPubOrOneOwner_none]
  constructor
  · rintro ⟨h1, o, h2⟩
    have hk := h2 k0 h0
    refine ⟨by rcases hk with h | h <;> simp [h], fun v hv => ?_⟩
    have a := h1 v hv
    rcases hk with h | h <;> rcases h2 v hv with h' | h' <;> rw [h, h'] at a ⊢ <;> simp [sameKind] at a
  · rintro ⟨h1, h2⟩
    refine ⟨fun v hv => by rw [h2 v hv]; cases k0 <;> simp_all [sameKind], ?_⟩
    cases k0 with
    | pub => exact ⟨0, fun v hv => .inl (h2 v hv)⟩
    | priv o => exact ⟨o, fun v hv => .inr (h2 v hv)⟩
    | secret => exact absurd rfl h1

/-- what `GroupByAgg` supports -/
structure Supported (agg : Agg) (numValid : ℕ) (opt : Options) (keys : List (Val w N)) (pays : List (Val w N × Bool)) : Prop where
  valid : numValid ≤ 1
  agg : agg = .sum ∨ agg = .avg
  mode : opt.prefixSumMode = false
  format : opt.outputOrder = true
  keys : ∃ v, v ≠ .secret ∧ keys ≠ [] ∧ ∀ k ∈ keys, k.vis = v
  pays : ∃ u, pays ≠ [] ∧ ∀ x ∈ pays, x.1.vis = u

omit hR ho in
theorem groupByAgg_checked (f : ℕ) (avg : Col w → Col w → Spu.Model.Circ.M σ (Col w)) (av : Bool) (hN0 : 0 < N) {agg : Agg}
    {numValid : ℕ} {opt : Options} {keys : List (Val w N)} {pays : List (Val w N × Bool)}
    (h : Supported agg numValid opt keys pays) :
    groupByAgg R ord f avg av agg numValid opt keys pays =
      if agg = .sum then (do let r ← groupBySum R ord av keys (pays.map (·.1)); return r.map toCol)
      else groupByAvg R ord f avg av opt.dropRest keys pays := by
  obtain ⟨h1, h2, h3, h4, ⟨v, hv, hne, hk⟩, u, hpn, hp⟩ := h
  have he : ∀ {α : Type} {b : Bool} {g : Unit → Spu.Model.Circ.M σ α}, b = true → (enforce b >>= g) = g () := by
    intro α b g hb; subst hb; rfl
  obtain ⟨k0, ks, rfl⟩ := List.exists_cons_of_ne_nil hne
  obtain ⟨p0, ps, rfl⟩ := List.exists_cons_of_ne_nil hpn
  have hu := (keys_uniform (l := (k0 :: ks).map (·.vis)) (k0 := k0.vis) (by simp)).2
    ⟨by rw [hk k0 (by simp)]; exact hv, by
      intro v' hv'
      obtain ⟨k, hk', rfl⟩ := List.mem_map.1 hv'
      rw [hk k hk', hk k0 (by simp)]⟩
  rw [List.all_map] at hu
  have hpk : ((p0 :: ps).all fun p => sameKind p.1.vis p0.1.vis) = true := by
    rw [List.all_eq_true]
    intro x hx
    rw [hp x hx, hp p0 (by simp)]
    cases u <;> rfl
  unfold groupByAgg
  rw [he (by simpa using h1)]
  have hl : ∀ {α β : Type} (a : α) (f : α → Spu.Model.Circ.M σ β), ((liftM (some a) : Spu.Model.Circ.M σ α) >>= f) = f a := by
    intro α β a f; funext s; rfl
  rw [List.head?_cons, hl, List.head?_cons, hl]
  rw [he (show ((k0 :: ks).all fun k => sameKind k.vis k0.vis) = true from hu.1), he hpk, if_neg (by omega)]
  rcases h2 with rfl | rfl
  · simp only [if_true]
    rw [he (by simp [h3, h4]), he hu.2]
  · simp only [reduceCtorEq, if_false]
    rw [he (by simp [h3, h4]), he hu.2]

/-- **C83**: a supported call of `GroupByAgg` for sums returns the grouped sums. -/
theorem c83_aggSum (f : ℕ) (avg : Col w → Col w → Spu.Model.Circ.M σ (Col w)) (hN0 : 0 < N) (hNw : N < 2 ^ (w - 1)) (av : Bool)
    {numValid : ℕ} {opt : Options} {keys : List (Val w N)} {pays : List (Val w N × Bool)}
    (h : Supported .sum numValid opt keys pays) :
    Ok Inv (groupByAgg R ord f avg av .sum numValid opt keys pays) fun out => ∃ ks sums, Spec.GroupBy.Keys (cols keys) ks ∧
      out.map (·.vals) = ks.map List.ofFn ++ sums.map List.ofFn ∧ ks.length = keys.length ∧
      List.Forall₂ (fun x s => Spec.GroupBy.Sums (cols keys) ks x.1.val s) pays sums := by
  rw [groupByAgg_checked f avg av hN0 h, if_pos rfl]
  obtain ⟨v, hv, hne, hk⟩ := h.keys
  obtain ⟨u, hpn, hp⟩ := h.pays
  refine Ok.bind (c83_groupBySum hR ho hv hN0 hNw av hne hk (pays := pays.map (·.1)) (u := u) (by simpa using hpn) ?_) ?_
  · intro x hx
    obtain ⟨y, hy, rfl⟩ := List.mem_map.1 hx
    exact hp y hy
  rintro out ⟨outKeys, sums, rfl, h1, _, h2, h3⟩
  refine Ok.pure ⟨cols outKeys, sums.map (·.val), h2, ?_, by simpa [cols] using h1, ?_⟩
  · simp [cols, toCol, Function.comp_def]
  · rw [List.forall₂_map_right_iff]
    rw [List.forall₂_map_left_iff] at h3
    exact h3.imp fun x s h => h.2.2

/-- **C83**: a supported call of `GroupByAgg` for averages divides the group sums by the group sizes. -/
theorem c83_aggAvg (hN0 : 0 < N) (hNw : N < 2 ^ (w - 1)) (av : Bool) (f : ℕ)
    {avg : Col w → Col w → Spu.Model.Circ.M σ (Col w)} {Q : BitVec w → BitVec w → BitVec w → Prop} (hQ : AvgOk Inv avg Q)
    {numValid : ℕ} {opt : Options} {keys : List (Val w N)} {pays : List (Val w N × Bool)}
    (h : Supported .avg numValid opt keys pays) {n : ℕ}
    (hn : n = if opt.dropRest then Spec.GroupBy.groups (cols keys) else N) :
    Ok Inv (groupByAgg R ord f avg av .avg numValid opt keys pays) fun out => ∃ ks avgs, Spec.GroupBy.Keys (cols keys) ks ∧
      out.map (·.vals) = ks.map (fun k => (List.ofFn k).take n) ++ avgs ∧ ks.length = keys.length ∧
      List.Forall₂ (fun x a => a.length = n ∧ ∀ g : Fin N, g.val < Spec.GroupBy.groups (cols keys) →
        Q (let t := Spec.GroupBy.total (cols keys) x.1.val (Spec.GroupBy.row ks g); if x.2 then t <<< f else t)
          (BitVec.ofNat w ((Spec.GroupBy.members (cols keys) (Spec.GroupBy.row ks g)).card * 2 ^ f))
          (a.getD g.val 0)) pays avgs := by
  rw [groupByAgg_checked f avg av hN0 h, if_neg (by simp)]
  obtain ⟨v, hv, hne, hk⟩ := h.keys
  obtain ⟨u, hpn, hp⟩ := h.pays
  refine Ok.imp (c83_groupByAvg hR ho hv hN0 hNw av opt.dropRest f hQ hne hk hpn hp hn) ?_
  rintro out ⟨ks, avgs, h1, rfl, h3, h4⟩
  refine ⟨ks, avgs.map (·.vals), h1, ?_, h3, ?_⟩
  · simp [Function.comp_def]
  · rw [List.forall₂_map_right_iff]
    exact h4

omit hR ho in
theorem Post.enforce {b : Bool} : Post (σ := σ) (enforce b) fun _ => b = true := by
  intro s a s' h
  cases b
  · exact absurd h (by simp [Spu.Model.Circ.enforce, failure, StateT.failure])
  · rfl

omit hR ho in
theorem Post.opt {α : Type} (o : Option α) : Post (liftM o : Spu.Model.Circ.M σ α) fun a => o = some a := by
  intro s a s' h
  cases o with
  | none => simp [liftM, monadLift, MonadLift.monadLift, StateT.lift] at h
  | some b =>
    simp only [liftM, monadLift, MonadLift.monadLift, StateT.lift, Option.bind_eq_bind, Option.bind_some, Option.pure_def,
      Option.some.injEq, Prod.mk.injEq] at h
    rw [h.1]

omit hR ho in
theorem applyInvAll_accepts (av : Bool) (xs : List (Val w N)) (p : Val w N) :
    Post (applyInvAll R ord av xs p) fun _ => ∃ u, xs ≠ [] ∧ ∀ x ∈ xs, x.vis = u := by
  cases xs with
  | nil => intro s a s' h; simp [applyInvAll, failure, StateT.failure] at h
  | cons x xs =>
    unfold applyInvAll
    refine Post.bind Post.enforce fun _ h1 => Post.bind Post.enforce fun _ h2 => ?_
    have : ∀ y ∈ x :: xs, y.vis = x.vis := by
      intro y hy
      rw [List.all_eq_true] at h1
      have a := h1 y hy
      cases hx : x.vis with
      | pub => rw [hx] at a; exact sameKind_pub.1 a
      | priv o =>
        rw [hx] at h2
        rw [List.all_eq_true] at h2
        simpa using h2 y hy
      | secret => rw [hx] at a; revert a; cases y.vis <;> simp [sameKind]
    exact fun _ _ _ _ => ⟨x.vis, by simp, this⟩

omit hR ho in
/-- **C83**: whatever `GroupByAgg` accepts for a nonempty table is supported; everything else throws: other aggregations,
the prefix-sum mode, the grouped output format, secret keys, keys or private payloads of different owners. -/
theorem c83_accepts (f : ℕ) (avg : Col w → Col w → Spu.Model.Circ.M σ (Col w)) (av : Bool) (hN0 : 0 < N) (agg : Agg)
    (numValid : ℕ) (opt : Options) (keys : List (Val w N)) (pays : List (Val w N × Bool)) :
    Post (groupByAgg R ord f avg av agg numValid opt keys pays) fun _ => Supported agg numValid opt keys pays := by
  unfold groupByAgg
  refine Post.bind Post.enforce fun _ h1 => Post.bind (Post.opt _) fun k0 hk0 => Post.bind (Post.opt _) fun p0 hp0 =>
    Post.bind Post.enforce fun _ h2 => Post.bind Post.enforce fun _ h3 => ?_
  rw [if_neg (by omega)]
  have hk0' : k0 ∈ keys := List.mem_of_head? hk0
  have fin : (agg = .sum ∨ agg = .avg) → (!opt.prefixSumMode && opt.outputOrder) = true →
      allPubOrOneOwner (keys.map (·.vis)) none = true → (∃ u, pays.map (·.1) ≠ [] ∧ ∀ x ∈ pays.map (·.1), x.vis = u) →
      Supported agg numValid opt keys pays := by
    intro ha h4 h5 ⟨u, h6, h7⟩
    rw [Bool.and_eq_true, Bool.not_eq_true'] at h4
    obtain ⟨a, b⟩ := (keys_uniform (l := keys.map (·.vis)) (k0 := k0.vis) (List.mem_map_of_mem hk0')).1
      ⟨by rw [List.all_map]; exact h2, h5⟩
    refine ⟨by simpa using h1, ha, h4.1, h4.2, ⟨k0.vis, a, List.ne_nil_of_mem hk0', fun k hk => b _ (List.mem_map_of_mem hk)⟩,
      u, by simpa using h6, fun x hx => h7 _ (List.mem_map_of_mem hx)⟩
  cases agg with
  | sum =>
    refine Post.bind Post.enforce fun _ h4 => Post.bind Post.enforce fun _ h5 => ?_
    refine Post.bind (P := fun _ => Supported .sum numValid opt keys pays) ?_ fun _ h => fun _ _ _ _ => h
    unfold groupBySum
    refine Post.bind (Post.any _) fun pl _ => Post.bind (applyInvAll_accepts av _ _) fun _ h6 => ?_
    exact fun _ _ _ _ => fin (.inl rfl) h4 h5 h6
  | avg =>
    refine Post.bind Post.enforce fun _ h4 => Post.bind Post.enforce fun _ h5 => ?_
    unfold groupByAvg
    refine Post.bind (Post.any _) fun _ _ => Post.bind (Post.any _) fun _ _ => Post.bind (Post.any _) fun _ _ =>
      Post.bind (Post.any _) fun _ _ => Post.bind (Post.any _) fun _ _ => Post.bind (applyInvAll_accepts av _ _) fun _ h6 => ?_
    exact fun _ _ _ _ => fin (.inr rfl) h4 h5 h6
  | count => intro s a s' h; simp [failure, StateT.failure] at h
  | max => intro s a s' h; simp [failure, StateT.failure] at h
  | min => intro s a s' h; simp [failure, StateT.failure] at h
  | percentile => intro s a s' h; simp [failure, StateT.failure] at h

end

/-- **C83**: an empty table is returned as it is, whatever the aggregation, the mode and the visibility of the keys. -/
theorem c83_empty {w : ℕ} {σ : Type} (R : Spu.Model.Circ.M σ (Equiv.Perm (Fin 0))) (ord : List (Fin 0)) (f : ℕ)
    (avg : Col w → Col w → Spu.Model.Circ.M σ (Col w)) (av : Bool) (agg : Agg) {numValid : ℕ} (hv : numValid ≤ 1)
    (opt : Options) {keys : List (Val w 0)} {pays : List (Val w 0 × Bool)} {v u : Vis} (hne : keys ≠ [])
    (hk : ∀ k ∈ keys, sameKind k.vis v = true) (hpn : pays ≠ []) (hp : ∀ x ∈ pays, sameKind x.1.vis u = true) (s : σ) :
    ∃ out, groupByAgg R ord f avg av agg numValid opt keys pays s = some (out, s) ∧
      out.map (·.vis) = keys.map (·.vis) ++ pays.map (·.1.vis) ∧ ∀ c ∈ out, c.vals = [] := by
  obtain ⟨k0, ks, rfl⟩ := List.exists_cons_of_ne_nil hne
  obtain ⟨p0, ps, rfl⟩ := List.exists_cons_of_ne_nil hpn
  have htr : ∀ {a b c : Vis}, sameKind a c = true → sameKind b c = true → sameKind a b = true := by
    intro a b c; cases a <;> cases b <;> cases c <;> simp [sameKind]
  have he : ∀ {α : Type} {b : Bool} {g : Unit → Spu.Model.Circ.M σ α}, b = true → (enforce b >>= g) = g () := by
    intro α b g hb; subst hb; rfl
  have hl : ∀ {α β : Type} (a : α) (f : α → Spu.Model.Circ.M σ β), ((liftM (some a) : Spu.Model.Circ.M σ α) >>= f) = f a := by
    intro α β a f; funext s; rfl
  unfold groupByAgg
  rw [he (by simpa using hv), List.head?_cons, hl, List.head?_cons, hl, he, he, if_pos rfl]
  · refine ⟨_, rfl, by simp [toCol, Function.comp_def], ?_⟩
    intro c hc
    rcases List.mem_append.1 hc with h | h
    · obtain ⟨k, _, rfl⟩ := List.mem_map.1 h; simp [toCol]
    · obtain ⟨k, _, rfl⟩ := List.mem_map.1 h; simp [toCol]
  · rw [List.all_eq_true]; exact fun x hx => htr (hp x hx) (hp p0 (by simp))
  · rw [List.all_eq_true]; exact fun x hx => htr (hk x hx) (hk k0 (by simp))

/-! ## The remaining rows -/

/-- a generator that draws the identity -/
def idRand {N : ℕ} : Spu.Model.Circ.M Unit (Equiv.Perm (Fin N)) := fun s => some (1, s)

theorem idRand_ok {N : ℕ} : Ok (fun _ => True) (idRand (N := N)) fun _ => True := fun s _ => ⟨_, s, rfl, trivial, trivial⟩

/-- the plaintexts of a result -/
def plainCols {w N : ℕ} (r : Option (List (Val w N) × Unit)) : Option (List (List (BitVec w))) :=
  r.map fun r => r.1.map fun x => List.ofFn x.val

/-- keys of the example in `hal/group_by_agg.h` -/
def docKeys : Val 8 5 := ⟨.priv 0, false, 8, ![1, 3, 1, 3, 2]⟩

/-- The rows behind the groups are not zero and not a function of the groups: two tables with equal keys and equal group
sums differ there.  Row 3 of the sums is a payload entry less the total. -/
theorem c83_rest_rows : ∃ x y : Val 8 5,
    plainCols (groupBySum idRand (List.finRange 5) true [docKeys] [x] ()) = some [[1, 2, 3, 1, 3], [5, 1, 9, 243, 8]] ∧
    plainCols (groupBySum idRand (List.finRange 5) true [docKeys] [y] ()) = some [[1, 2, 3, 1, 3], [5, 1, 9, 242, 8]] :=
  ⟨⟨.secret, false, 8, ![2, 4, 3, 5, 1]⟩, ⟨.secret, false, 8, ![1, 3, 4, 6, 1]⟩, by decide +kernel, by decide +kernel⟩

/-! ## Examples -/

example : ∀ k ∈ [docKeys], k.vis = .priv 0 := by simp [docKeys]
example : Spec.GroupBy.groups (cols [docKeys]) = 3 := by decide +kernel
example : Spec.GroupBy.total (cols [docKeys]) ![2, 4, 3, 5, 1] [3] = 9 := by decide +kernel
example : Supported .avg 0 ⟨false, true, true⟩ [docKeys] [((⟨.secret, false, 8, ![2, 4, 3, 5, 1]⟩ : Val 8 5), true)] :=
  ⟨by decide, .inr rfl, rfl, rfl, ⟨.priv 0, by simp, by simp, by simp [docKeys]⟩, .secret, by simp, by simp⟩

/-- two keys of one owner, unsigned above the sign bit: grouped correctly, ordered as signed numbers -/
example : plainCols (groupBySum (w := 8) idRand (List.finRange 4) true
    [⟨.priv 1, true, 8, ![200, 1, 200, 1]⟩, ⟨.priv 1, false, 8, ![7, 7, 7, 6]⟩] [⟨.pub, false, 8, ![10, 20, 30, 40]⟩] ()) =
    some [[200, 1, 1, 200], [7, 6, 7, 7], [40, 40, 20, 166]] := by decide +kernel

/-- an exact division that satisfies the hypothesis on `avg` -/
def exactAvg {σ : Type} : Col 8 → Col 8 → Spu.Model.Circ.M σ (Col 8) := fun s c =>
  pure ⟨s.vis, List.zipWith (fun a b => a / b) s.vals c.vals⟩

theorem exactAvg_ok : AvgOk (σ := Unit) (fun _ => True) exactAvg fun s c r => r = s / c := by
  intro s c h
  refine Ok.pure ⟨by simp [h], fun i hi => ?_⟩
  have hi' : i < c.vals.length := by omega
  simp [List.getD, List.getElem?_zipWith, hi, hi']

example : (groupByAgg idRand (List.finRange 5) 0 exactAvg true .avg 0 ⟨false, true, true⟩ [docKeys]
    [((⟨.secret, false, 8, ![2, 4, 4, 6, 1]⟩ : Val 8 5), true)] ()).map (fun r => r.1.map (·.vals)) =
    some [[1, 2, 3], [3, 1, 5]] := by decide +kernel

end Spu.Props
