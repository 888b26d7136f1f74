import Verif.Model.Executor
import Mathlib.Data.List.Range
import Mathlib.Data.Fintype.Basic
import Mathlib.Data.Fintype.EquivFin
import Mathlib.Algebra.BigOperators.Fin
import Mathlib.Algebra.Order.BigOperators.Group.Finset
import Mathlib.Tactic.Linarith

set_option autoImplicit false

/-! # C39: concurrent execution of a block -/

namespace Spu.Props
open Spu.Model.Exec

variable {V : Type} {T : ℕ}

/-! ## Well-formed blocks and their values -/

/-- SSA form: every value is defined once, operands are defined before they are used; a kernel returns as many values as
the operation has results; operations with nested regions that use outer values have at least one operand. -/
structure BlockOk (prog : List (Op V)) (params : Sym V) : Prop where
  nodup : (prog.flatMap (·.results)).Nodup
  fresh : ∀ o ∈ prog, ∀ x ∈ o.results, params x = none
  dom : ∀ (i : ℕ) (o : Op V), prog[i]? = some o → ∀ x ∈ o.reads,
    (params x).isSome ∨ ∃ (j : ℕ) (p : Op V), j < i ∧ prog[j]? = some p ∧ x ∈ p.results
  arity : ∀ o ∈ prog, ∀ xs, xs.length = o.reads.length → (o.kernel xs).length = o.results.length
  captures : ∀ o ∈ prog, o.operands = [] → o.captured = []

/-- the values of the block: parameters, and every result is its kernel applied to the values it reads -/
structure Denotes (prog : List (Op V)) (params D : Sym V) : Prop where
  params : ∀ x v, params x = some v → D x = some v
  op : ∀ (i : ℕ) (o : Op V), prog[i]? = some o → ∃ xs, o.reads.mapM D = some xs ∧ o.results.mapM D = some (o.kernel xs)

theorem results_unique {prog : List (Op V)} (h : (prog.flatMap (·.results)).Nodup) {i j : ℕ} {o p : Op V} {x : ℕ}
    (hi : prog[i]? = some o) (hj : prog[j]? = some p) (hx : x ∈ o.results) (hy : x ∈ p.results) : i = j := by
  rw [List.nodup_flatMap] at h
  obtain ⟨hli, rfl⟩ := List.getElem?_eq_some_iff.1 hi
  obtain ⟨hlj, rfl⟩ := List.getElem?_eq_some_iff.1 hj
  have hp := List.pairwise_iff_getElem.1 h.2
  rcases lt_trichotomy i j with hlt | e | hlt
  · exact absurd hy (hp i j hli hlj hlt hx)
  · exact e
  · exact absurd hx (hp j i hlj hli hlt hy)

theorem results_nodup {prog : List (Op V)} (h : (prog.flatMap (·.results)).Nodup) {o : Op V} (ho : o ∈ prog) :
    o.results.Nodup := (List.nodup_flatMap.1 h).1 o ho

theorem mapM_congr {f g : Sym V} {l : List ℕ} (h : ∀ x ∈ l, f x = g x) : l.mapM f = l.mapM g := by
  induction l with
  | nil => rfl
  | cons a l ih =>
    rw [List.mapM_cons, List.mapM_cons, h a (by simp), ih fun x hx => h x (by simp [hx])]

theorem mapM_of_isSome {f : Sym V} {l : List ℕ} (h : ∀ x ∈ l, (f x).isSome) : ∃ xs, l.mapM f = some xs := by
  induction l with
  | nil => exact ⟨[], rfl⟩
  | cons a l ih =>
    obtain ⟨v, hv⟩ := Option.isSome_iff_exists.1 (h a (by simp))
    obtain ⟨xs, hxs⟩ := ih fun x hx => h x (by simp [hx])
    exact ⟨v :: xs, by rw [List.mapM_cons, hv, hxs]; rfl⟩

theorem mapM_mono {f g : Sym V} (hfg : ∀ x v, f x = some v → g x = some v) {l : List ℕ} {xs : List V}
    (h : l.mapM f = some xs) : l.mapM g = some xs := by
  induction l generalizing xs with
  | nil => exact h
  | cons a l ih =>
    rw [List.mapM_cons] at h ⊢
    cases hv : f a with
    | none => rw [hv] at h; simp at h
    | some v =>
      rw [hv] at h
      cases hl : l.mapM f with
      | none => rw [hl] at h; simp at h
      | some ys => rw [hl] at h; rw [hfg a v hv, ih hl]; exact h

theorem mapM_length {f : Sym V} {l : List ℕ} {xs : List V} (h : l.mapM f = some xs) : xs.length = l.length := by
  induction l generalizing xs with
  | nil => simp at h; simp [h]
  | cons a l ih =>
    rw [List.mapM_cons] at h
    cases hv : f a with
    | none => rw [hv] at h; simp at h
    | some v =>
      rw [hv] at h
      cases hl : l.mapM f with
      | none => rw [hl] at h; simp at h
      | some ys => rw [hl] at h; simp at h; rw [← h]; simp [ih hl]

theorem mapM_zip {f : Sym V} {l : List ℕ} {ys : List V} (h : l.mapM f = some ys) :
    ∀ p ∈ l.zip ys, f p.1 = some p.2 := by
  induction l generalizing ys with
  | nil => simp
  | cons a l ih =>
    rw [List.mapM_cons] at h
    cases hv : f a with
    | none => rw [hv] at h; simp at h
    | some v =>
      rw [hv] at h
      cases hl : l.mapM f with
      | none => rw [hl] at h; simp at h
      | some zs =>
        rw [hl] at h; simp at h; rw [← h]
        intro p hp
        simp only [List.zip_cons_cons, List.mem_cons] at hp
        rcases hp with rfl | hp
        · exact hv
        · exact ih hl p hp

theorem addAll_notin (env : Sym V) (kv : List (ℕ × V)) (x : ℕ) (h : x ∉ kv.map Prod.fst) : addAll env kv x = env x := by
  induction kv generalizing env with
  | nil => rfl
  | cons p kv ih =>
    simp only [List.map_cons, List.mem_cons, not_or] at h
    unfold addAll at ih ⊢
    rw [List.foldl_cons, ih _ h.2, Function.update_of_ne h.1]

theorem addAll_results (env : Sym V) {l : List ℕ} (hl : l.Nodup) {ys : List V} (h : ys.length = l.length) :
    l.mapM (addAll env (l.zip ys)) = some ys := by
  induction l generalizing env ys with
  | nil => simp at h; simp [h]
  | cons a l ih =>
    cases ys with
    | nil => simp at h
    | cons y ys =>
      rw [List.nodup_cons] at hl
      have h' : ys.length = l.length := by simpa using h
      have e : addAll env ((a :: l).zip (y :: ys)) = addAll (Function.update env a (some y)) (l.zip ys) := rfl
      rw [e, List.mapM_cons, ih _ hl.2 h', addAll_notin _ _ a (fun hm => ?_)]
      · simp
      · rw [List.map_fst_zip (by omega)] at hm; exact hl.1 hm

/-- A well-formed block has values. -/
theorem denotes_exists {prog : List (Op V)} {params : Sym V} (h : BlockOk prog params) : ∃ D, Denotes prog params D := by
  suffices hs : ∀ k, k ≤ prog.length → ∃ D : Sym V, (∀ x v, params x = some v → D x = some v) ∧
      ∀ (i : ℕ) (o : Op V), i < k → prog[i]? = some o → ∃ xs, o.reads.mapM D = some xs ∧ o.results.mapM D = some (o.kernel xs) by
    obtain ⟨D, h1, h2⟩ := hs prog.length (le_refl _)
    refine ⟨D, h1, fun i o hi => h2 i o ?_ hi⟩
    exact (List.getElem?_eq_some_iff.1 hi).1
  intro k
  induction k with
  | zero => intro _; exact ⟨params, fun _ _ h => h, fun i o hi => by omega⟩
  | succ k ih =>
    intro hk
    obtain ⟨D, h1, h2⟩ := ih (by omega)
    have hko : prog[k]? = some prog[k] := List.getElem?_eq_getElem (by omega)
    set o := prog[k] with ho
    have hom : o ∈ prog := List.getElem_mem _
    have hreads : ∀ x ∈ o.reads, (D x).isSome := by
      intro x hx
      rcases h.dom k o hko x hx with hp | ⟨j, p, hj, hp, hxp⟩
      · obtain ⟨v, hv⟩ := Option.isSome_iff_exists.1 hp
        rw [h1 x v hv]; rfl
      · obtain ⟨xs, _, h4⟩ := h2 j p hj hp
        by_contra hn
        have : D x = none := by simpa using hn
        have hlen := mapM_length h4
        obtain ⟨m, hm, rfl⟩ := List.getElem_of_mem hxp
        have := mapM_zip h4 (p.results[m], (p.kernel xs)[m]'(by omega)) (List.mem_iff_getElem.2 ⟨m, by simp; omega, by simp⟩)
        simp_all
    obtain ⟨xs, hxs⟩ := mapM_of_isSome hreads
    have hfst : ∀ x, x ∈ (o.results.zip (o.kernel xs)).map Prod.fst → x ∈ o.results := by
      intro x hx
      obtain ⟨p, hp, rfl⟩ := List.mem_map.1 hx
      exact (List.of_mem_zip hp).1
    refine ⟨addAll D (o.results.zip (o.kernel xs)), fun x v hv => ?_, fun i p hi hp => ?_⟩
    · rw [addAll_notin _ _ _ fun hx => ?_]
      · exact h1 x v hv
      · have := h.fresh o hom x (hfst x hx); rw [hv] at this; simp at this
    · have keep : ∀ x, x ∉ o.results → addAll D (o.results.zip (o.kernel xs)) x = D x := fun x hx =>
        addAll_notin _ _ _ fun hm => hx (hfst x hm)
      have keepReads : ∀ (m : ℕ) (q : Op V), m ≤ k → prog[m]? = some q → ∀ x ∈ q.reads, x ∉ o.results := by
        intro m q hm hq x hx hxo
        rcases h.dom m q hq x hx with hpx | ⟨j, p', hj, hp', hxp⟩
        · rw [h.fresh o hom x hxo] at hpx; simp at hpx
        · have := results_unique h.nodup hp' hko hxp hxo; omega
      rcases Nat.lt_succ_iff_lt_or_eq.1 hi with hlt | rfl
      · obtain ⟨ys, h3, h4⟩ := h2 i p hlt hp
        refine ⟨ys, ?_, ?_⟩
        · rw [mapM_congr fun x hx => keep x (keepReads i p hlt.le hp x hx), h3]
        · rw [mapM_congr fun x hx => keep x fun hxo => ?_, h4]
          have := results_unique h.nodup hp hko hx hxo; omega
      · rw [hko] at hp
        obtain rfl := Option.some.inj hp
        refine ⟨xs, ?_, ?_⟩
        · rw [mapM_congr fun x hx => keep x (keepReads i o (le_refl _) hko x hx), hxs]
        · exact addAll_results D (results_nodup h.nodup hom) (h.arity o hom xs (mapM_length hxs))

/-- A sequential run that does not throw returns the values of the block. -/
theorem runBlock_values {prog : List (Op V)} {params D : Sym V} (hD : Denotes prog params D) {outs : List ℕ} {r : List V}
    (hr : runBlock prog params outs = some r) : outs.mapM D = some r := by
  unfold runBlock at hr
  simp only [Option.bind_eq_bind, Option.bind_eq_some_iff] at hr
  obtain ⟨env, h1, h2⟩ := hr
  refine mapM_mono ?_ h2
  have hgen : ∀ (l : List (Op V)) (k : ℕ) (env0 env : Sym V), prog.drop k = l → (∀ x v, env0 x = some v → D x = some v) →
      l.foldlM seqStep env0 = some env → ∀ x v, env x = some v → D x = some v := by
    intro l
    induction l with
    | nil => intro k e0 e _ h0 he; simp at he; rw [← he]; exact h0
    | cons o l ih =>
      intro k e0 e hl h0 he
      rw [List.foldlM_cons] at he
      simp only [Option.bind_eq_bind, Option.bind_eq_some_iff] at he
      obtain ⟨e1, hs, he⟩ := he
      have hko : prog[k]? = some o := by
        have := congrArg (fun l => l[0]?) hl
        simpa using this
      refine ih (k + 1) e1 e ?_ ?_ he
      · have := congrArg (List.drop 1) hl
        simpa [Nat.add_comm] using this
      · unfold seqStep at hs
        simp only [Option.bind_eq_bind, Option.bind_eq_some_iff, Option.pure_def, Option.some.injEq] at hs
        obtain ⟨xs, hxs, rfl⟩ := hs
        obtain ⟨ys, h3, h4⟩ := hD.op k o hko
        have : ys = xs := by have := mapM_mono h0 hxs; rw [h3] at this; exact Option.some.inj this
        subst this
        have hz := mapM_zip h4
        have hadd : ∀ (kv : List (ℕ × V)) (e0 : Sym V), (∀ x v, e0 x = some v → D x = some v) →
            (∀ p ∈ kv, D p.1 = some p.2) → ∀ x v, addAll e0 kv x = some v → D x = some v := by
          intro kv
          induction kv with
          | nil => intro e0 h0 _; exact h0
          | cons p kv ih =>
            intro e0 h0 hkv
            refine ih _ ?_ fun q hq => hkv q (by simp [hq])
            intro x v hx
            change Function.update e0 p.1 (some p.2) x = some v at hx
            by_cases hxp : x = p.1
            · subst hxp
              rw [Function.update_self] at hx
              rw [hkv p (by simp), ← hx]
            · rw [Function.update_of_ne hxp] at hx; exact h0 x v hx
        intro x v hx
        split at hx
        · change (if x ∈ o.operands then none else addAll _ (o.results.zip (o.kernel ys)) x) = some v at hx
          split at hx
          · simp at hx
          · exact hadd _ _ h0 hz x v hx
        · exact hadd _ _ h0 hz x v hx
  exact hgen prog 0 params env (by simp) hD.params h1

/-! ## The invariant -/

/-- the operation a thread works on -/
def thOp : Th V → Option ℕ
  | .idle | .exit => none
  | .want i | .chk i | .doze i | .sleep i | .start i | .write i _ | .fin i | .crash i => some i

/-- value `x` of the operation of this thread may be missing -/
def thPend (x : ℕ) : Th V → Prop
  | .idle | .exit | .fin _ => False
  | .write _ rest => x ∈ rest.map Prod.fst
  | _ => True

/-- the kernel was started -/
def thBegan : Th V → Prop
  | .write _ _ | .fin _ => True
  | _ => False

def thLock : Th V → Prop
  | .chk _ | .doze _ => True
  | _ => False

def thAsleep : Th V → Prop
  | .doze _ | .sleep _ => True
  | _ => False

/-- what an operation has to wait for -/
def needs (prog : List (Op V)) (i : ℕ) (o : Op V) : List ℕ :=
  if o.operands = [] then o.reads else o.operands ++ extraDeps prog i o

structure ExecInv (prog : List (Op V)) (params D : Sym V) (p : ℕ) (s : St V T) : Prop where
  le : p ≤ prog.length
  queue : s.queue = List.range' p (prog.length - p)
  held : ∀ t i, thOp (s.th t) = some i → i < p
  uniq : ∀ t u i, thOp (s.th t) = some i → thOp (s.th u) = some i → t = u
  nocrash : ∀ t i, s.th t ≠ .crash i
  lock : ∀ t, s.lock = some t ↔ thLock (s.th t)
  sound : ∀ x v, s.sym x = some v → D x = some v
  params : ∀ x, (params x).isSome → (s.sym x).isSome
  done : ∀ (i : ℕ) (o : Op V) (x : ℕ), i < p → prog[i]? = some o → x ∈ o.results →
    (∀ t, thOp (s.th t) = some i → ¬ thPend x (s.th t)) → (s.sym x).isSome
  writes : ∀ t i rest, s.th t = .write i rest → ∀ q ∈ rest, D q.1 = some q.2
  writesR : ∀ t i rest (o : Op V), s.th t = .write i rest → prog[i]? = some o → ∀ q ∈ rest, q.1 ∈ o.results
  start : ∀ t i (o : Op V), s.th t = .start i → prog[i]? = some o → ∀ x ∈ needs prog i o, (s.sym x).isSome
  asleep : ∀ t i, thOp (s.th t) = some i → thAsleep (s.th t) → ∃ u j, thOp (s.th u) = some j ∧ j < i
  exited : ∀ t, s.th t = .exit → s.queue = []
  nodup : s.ran.Nodup
  ran : ∀ i, i ∈ s.ran ↔ i < p ∧ ∀ t, thOp (s.th t) = some i → thBegan (s.th t)
  pub : ∀ (i : ℕ) (o : Op V) (x : ℕ), prog[i]? = some o → x ∈ o.results → (s.sym x).isSome → i ∈ s.ran
  order : ∀ (a : List ℕ) (i : ℕ) (b : List ℕ), s.ran = a ++ i :: b → ∀ o : Op V, prog[i]? = some o →
    ∀ (j : ℕ) (q : Op V) (x : ℕ), prog[j]? = some q → x ∈ q.results → x ∈ needs prog i o → j ∈ a

theorem inv_init {prog : List (Op V)} {params D : Sym V} (h : BlockOk prog params) (hD : Denotes prog params D) :
    ExecInv (T := T) prog params D 0 (init prog params T) := by
  have hfresh : ∀ (i : ℕ) (o : Op V) (x : ℕ), prog[i]? = some o → x ∈ o.results → (params x).isSome → False := by
    intro i o x hi hx hp
    rw [h.fresh o (List.mem_of_getElem? hi) x hx] at hp; simp at hp
  constructor
  · omega
  · simp [init, List.range_eq_range']
  · intro t i h; simp [init, thOp] at h
  · intro t i u h; simp [init, thOp] at h
  · intro t i h; simp [init] at h
  · intro t; simp [init, thLock]
  · exact hD.params
  · exact fun x h => h
  · intro i o x h; omega
  · intro t i r h; simp [init] at h
  · intro t i r o h; simp [init] at h
  · intro t i o h; simp [init] at h
  · intro t i h; simp [init, thOp] at h
  · intro t h; simp [init] at h
  · simp [init]
  · intro i; simp [init]
  · intro i o x hi hx hp; exact (hfresh i o x hi hx hp).elim
  · intro a i b h; simp [init] at h

theorem missing_dep {prog : List (Op V)} {params D : Sym V} {p : ℕ} {s : St V T} (h : BlockOk prog params)
    (hI : ExecInv prog params D p s) {i : ℕ} {o : Op V} (hi : prog[i]? = some o) (hip : i < p)
    (hr : ready prog s.sym i o = false) : ∃ u j, thOp (s.th u) = some j ∧ j < i := by
  have : ∃ x, (x ∈ o.reads ∨ x ∈ extraDeps prog i o) ∧ s.sym x = none := by
    by_contra hn
    push Not at hn
    have : ready prog s.sym i o = true := by
      unfold ready
      rw [Bool.and_eq_true, List.all_eq_true, List.all_eq_true]
      constructor
      · intro x hx
        exact Option.isSome_iff_ne_none.2 (hn x (Or.inl (by simp [Op.reads, hx])))
      · intro x hx
        exact Option.isSome_iff_ne_none.2 (hn x (Or.inr hx))
    rw [this] at hr; simp at hr
  obtain ⟨x, hx, hnone⟩ := this
  have hdep : ∃ (j : ℕ) (q : Op V), j < i ∧ prog[j]? = some q ∧ x ∈ q.results := by
    have hread : x ∈ o.reads → ∃ (j : ℕ) (q : Op V), j < i ∧ prog[j]? = some q ∧ x ∈ q.results := by
      intro hx
      rcases h.dom i o hi x hx with hp | hq
      · have := hI.params x hp; rw [hnone] at this; simp at this
      · exact hq
    rcases hx with hx | hx
    · exact hread hx
    · unfold extraDeps at hx
      rcases List.mem_append.1 hx with hx | hx
      · obtain ⟨q, hq, hxq⟩ := List.mem_flatMap.1 hx
        obtain ⟨j, hj, rfl⟩ := List.getElem_of_mem hq
        rw [List.length_take] at hj
        refine ⟨j, prog[j], by omega, List.getElem?_eq_getElem _, ?_⟩
        rw [List.getElem_take] at hxq
        split at hxq
        · exact hxq
        · simp at hxq
      · exact hread (by simp [Op.reads, hx])
  obtain ⟨j, q, hj, hq, hxq⟩ := hdep
  by_contra hn
  push Not at hn
  have := hI.done j q x (by omega) hq hxq fun t ht => absurd hj (by have := hn t j ht; omega)
  rw [hnone] at this; simp at this

/-- a thread moves on with the same operation -/
theorem inv_local {prog : List (Op V)} {params D : Sym V} {p : ℕ} {s : St V T} (hI : ExecInv prog params D p s) (t : Fin T)
    (i : ℕ) (B : Th V) (hA : thOp (s.th t) = some i) (hB : thOp B = some i) (lock' : Option (Fin T)) (sym' : Sym V)
    (ran' : List ℕ) (hcrash : B ≠ .crash i)
    (hlock : ∀ u, lock' = some u ↔ thLock (Function.update s.th t B u))
    (hext : ∀ x, (s.sym x).isSome → (sym' x).isSome) (hsound : ∀ x v, sym' x = some v → D x = some v)
    (hdone : ∀ (o : Op V) x, prog[i]? = some o → x ∈ o.results → ¬ thPend x B → (sym' x).isSome)
    (hw : ∀ rest, B = .write i rest → ∀ q ∈ rest, D q.1 = some q.2)
    (hwr : ∀ rest (o : Op V), B = .write i rest → prog[i]? = some o → ∀ q ∈ rest, q.1 ∈ o.results)
    (hstart : ∀ o : Op V, B = .start i → prog[i]? = some o → ∀ x ∈ needs prog i o, (sym' x).isSome)
    (hsl : thAsleep B → ∃ u j, thOp (s.th u) = some j ∧ j < i)
    (hnd : ran'.Nodup) (hran : ∀ k, k ∈ ran' ↔ k < p ∧ ∀ u, thOp (Function.update s.th t B u) = some k →
      thBegan (Function.update s.th t B u))
    (hpub : ∀ (k : ℕ) (o : Op V) (x : ℕ), prog[k]? = some o → x ∈ o.results → (sym' x).isSome → k ∈ ran')
    (hord : ∀ (a : List ℕ) (i : ℕ) (b : List ℕ), ran' = a ++ i :: b → ∀ o : Op V, prog[i]? = some o →
      ∀ (j : ℕ) (q : Op V) (x : ℕ), prog[j]? = some q → x ∈ q.results → x ∈ needs prog i o → j ∈ a) :
    ExecInv prog params D p ⟨s.queue, Function.update s.th t B, sym', lock', ran'⟩ := by
  have hop : ∀ u, thOp (Function.update s.th t B u) = thOp (s.th u) := by
    intro u
    by_cases hu : u = t
    · subst hu; rw [Function.update_self, hA, hB]
    · rw [Function.update_of_ne hu]
  have hval : ∀ u C, Function.update s.th t B u = C → (u = t ∧ B = C) ∨ (u ≠ t ∧ s.th u = C) := by
    intro u C h
    by_cases hu : u = t
    · subst hu; rw [Function.update_self] at h; exact Or.inl ⟨rfl, h⟩
    · rw [Function.update_of_ne hu] at h; exact Or.inr ⟨hu, h⟩
  constructor
  all_goals try dsimp only
  · exact hI.le
  · exact hI.queue
  · intro u k hk; rw [hop] at hk; exact hI.held u k hk
  · intro u v k hk hk'; rw [hop] at hk hk'; exact hI.uniq u v k hk hk'
  · intro u k hk
    rcases hval u _ hk with ⟨_, hb⟩ | ⟨_, hb⟩
    · rw [hb] at hB; simp only [thOp, Option.some.injEq] at hB; subst hB; exact hcrash hb
    · exact hI.nocrash u k hb
  · exact hlock
  · exact hsound
  · intro x hx; exact hext x (hI.params x hx)
  · intro k o x hk ho hx hn
    by_cases hki : k = i
    · subst hki
      refine hdone o x ho hx ?_
      have := hn t (by rw [hop]; exact hA)
      rwa [show (Function.update s.th t B t) = B from Function.update_self ..] at this
    · refine hext x (hI.done k o x hk ho hx fun u hu => ?_)
      have hut : u ≠ t := by rintro rfl; rw [hA] at hu; exact hki (Option.some.inj hu).symm
      have := hn u (by rw [hop]; exact hu)
      rwa [show (Function.update s.th t B u) = s.th u from Function.update_of_ne hut ..] at this
  · intro u k rest hk
    rcases hval u _ hk with ⟨_, hb⟩ | ⟨_, hb⟩
    · have : k = i := by rw [hb] at hB; simpa [thOp] using hB
      subst this; exact hw rest hb
    · exact hI.writes u k rest hb
  · intro u k rest o hk
    rcases hval u _ hk with ⟨_, hb⟩ | ⟨_, hb⟩
    · have : k = i := by rw [hb] at hB; simpa [thOp] using hB
      subst this; exact hwr rest o hb
    · exact hI.writesR u k rest o hb
  · intro u k o hk ho x hx
    rcases hval u _ hk with ⟨_, hb⟩ | ⟨_, hb⟩
    · have : k = i := by rw [hb] at hB; simpa [thOp] using hB
      subst this; exact hstart o hb ho x hx
    · exact hext x (hI.start u k o hb ho x hx)
  · intro u k hk hs
    simp only [hop] at hk ⊢
    by_cases hu : u = t
    · subst hu
      rw [show (Function.update s.th u B u) = B from Function.update_self ..] at hs
      rw [hA] at hk; obtain rfl := Option.some.inj hk
      exact hsl hs
    · rw [show (Function.update s.th t B u) = s.th u from Function.update_of_ne hu ..] at hs
      exact hI.asleep u k hk hs
  · intro u hu
    rcases hval u _ hu with ⟨_, hb⟩ | ⟨_, hb⟩
    · rw [hb] at hB; simp [thOp] at hB
    · exact hI.exited u hb
  · exact hnd
  · exact hran
  · exact hpub
  · exact hord

/-- … keeping the table and the list of started operations -/
theorem inv_phase {prog : List (Op V)} {params D : Sym V} {p : ℕ} {s : St V T} (hI : ExecInv prog params D p s) (t : Fin T)
    (i : ℕ) (B : Th V) (hA : thOp (s.th t) = some i) (hB : thOp B = some i) (lock' : Option (Fin T))
    (hcrash : B ≠ .crash i) (hlock : ∀ u, lock' = some u ↔ thLock (Function.update s.th t B u))
    (hpend : ∀ x, ¬ thPend x B → ¬ thPend x (s.th t)) (hbegan : thBegan B ↔ thBegan (s.th t))
    (hw : ∀ rest, B ≠ .write i rest)
    (hstart : ∀ o : Op V, B = .start i → prog[i]? = some o → ∀ x ∈ needs prog i o, (s.sym x).isSome)
    (hsl : thAsleep B → ∃ u j, thOp (s.th u) = some j ∧ j < i) :
    ExecInv prog params D p ⟨s.queue, Function.update s.th t B, s.sym, lock', s.ran⟩ := by
  refine inv_local hI t i B hA hB lock' s.sym s.ran hcrash hlock (fun _ h => h) hI.sound ?_ (fun rest h => (hw rest h).elim)
    (fun rest o h => (hw rest h).elim) hstart hsl hI.nodup ?_ hI.pub hI.order
  · intro o x ho hx hn
    refine hI.done i o x (hI.held t i hA) ho hx fun u hu => ?_
    obtain rfl := hI.uniq u t i hu hA
    exact hpend x hn
  · intro k
    rw [hI.ran k]
    refine and_congr_right fun _ => forall_congr' fun u => ?_
    by_cases hu : u = t
    · subst hu
      rw [Function.update_self, hA, hB, hbegan]
    · rw [Function.update_of_ne hu]

theorem lock_none {prog : List (Op V)} {params D : Sym V} {p : ℕ} {s : St V T} (hI : ExecInv prog params D p s) (t : Fin T)
    (B : Th V) (hA : thLock (s.th t)) (hB : ¬ thLock B) (u : Fin T) :
    (none : Option (Fin T)) = some u ↔ thLock (Function.update s.th t B u) := by
  have ht := (hI.lock t).2 hA
  by_cases hu : u = t
  · subst hu; rw [Function.update_self]; simp [hB]
  · rw [Function.update_of_ne hu]
    constructor
    · simp
    · intro hl; have := (hI.lock u).2 hl; rw [ht] at this; exact absurd (Option.some.inj this).symm hu

theorem lock_keep {prog : List (Op V)} {params D : Sym V} {p : ℕ} {s : St V T} (hI : ExecInv prog params D p s) (t : Fin T)
    (B : Th V) (hAB : thLock (s.th t) ↔ thLock B) (u : Fin T) :
    s.lock = some u ↔ thLock (Function.update s.th t B u) := by
  rw [hI.lock u]
  by_cases hu : u = t
  · subst hu; rw [Function.update_self, hAB]
  · rw [Function.update_of_ne hu]

theorem mem_extraDeps {prog : List (Op V)} {params : Sym V} (h : BlockOk prog params) {i : ℕ} {o : Op V}
    (hi : prog[i]? = some o) {x : ℕ} (hx : x ∈ o.reads) : x ∈ needs prog i o := by
  unfold needs
  split
  · exact hx
  · simp only [Op.reads, List.mem_append] at hx
    simp only [extraDeps, List.mem_append]
    tauto

theorem wake_lock (A : Th V) : thLock (wake A) ↔ thLock A := by cases A <;> simp [wake, thLock]
theorem wake_pend (x : ℕ) (A : Th V) : thPend x (wake A) ↔ thPend x A := by cases A <;> simp [wake, thPend]
theorem wake_began (A : Th V) : thBegan (wake A) ↔ thBegan A := by cases A <;> simp [wake, thBegan]
theorem wake_asleep (A : Th V) (h : thAsleep (wake A)) : thLock A := by
  cases A <;> simp_all [wake, thAsleep, thLock]

theorem inv_fin {prog : List (Op V)} {params D : Sym V} {p : ℕ} {s : St V T}
    (hI : ExecInv prog params D p s) (t : Fin T) (i : ℕ) (ht : s.th t = .fin i) (hl : s.lock = none) :
    ExecInv prog params D p { s with th := Function.update (fun u => wake (s.th u)) t .idle } := by
  have hwake : ∀ u, thOp (wake (s.th u)) = thOp (s.th u) := by intro u; cases s.th u <;> rfl
  have hnodoze : ∀ u, ¬ thLock (s.th u) := by
    intro u hu; have := (hI.lock u).2 hu; rw [hl] at this; simp at this
  have hop : ∀ u k, thOp (Function.update (fun u => wake (s.th u)) t (.idle : Th V) u) = some k →
      u ≠ t ∧ thOp (s.th u) = some k := by
    intro u k hk
    by_cases hu : u = t
    · subst hu; rw [Function.update_self] at hk; simp [thOp] at hk
    · rw [Function.update_of_ne hu, hwake] at hk; exact ⟨hu, hk⟩
  have hval : ∀ u C, Function.update (fun u => wake (s.th u)) t (.idle : Th V) u = C → C ≠ .idle →
      (∀ k, C ≠ .want k) → s.th u = C := by
    intro u C hC h1 h2
    by_cases hu : u = t
    · subst hu; rw [Function.update_self] at hC; exact absurd hC.symm h1
    · rw [Function.update_of_ne hu] at hC
      cases hth : s.th u <;> rw [hth] at hC <;> simp only [wake] at hC <;> first | exact hC | exact absurd hC.symm (h2 _)
  constructor
  all_goals try dsimp only
  · exact hI.le
  · exact hI.queue
  · intro u k hk; exact hI.held u k (hop u k hk).2
  · intro u v k hk hk'; exact hI.uniq u v k (hop u k hk).2 (hop v k hk').2
  · intro u k hk; exact hI.nocrash u k (hval u _ hk (by simp) (by simp))
  · intro u
    by_cases hu : u = t
    · subst hu; rw [Function.update_self]; simp [hl, thLock]
    · rw [Function.update_of_ne hu, hl]
      rw [wake_lock]; exact ⟨fun h => (by simp at h), fun h => absurd h (hnodoze u)⟩
  · exact hI.sound
  · exact hI.params
  · intro k o x hk ho hx hn
    refine hI.done k o x hk ho hx fun u hu => ?_
    by_cases hut : u = t
    · subst hut; rw [ht]; simp [thPend]
    · have := hn u (by rw [Function.update_of_ne hut, hwake]; exact hu)
      rwa [Function.update_of_ne hut, wake_pend] at this
  · intro u k rest hk; exact hI.writes u k rest (hval u _ hk (by simp) (by simp))
  · intro u k rest o hk; exact hI.writesR u k rest o (hval u _ hk (by simp) (by simp))
  · intro u k o hk; exact hI.start u k o (hval u _ hk (by simp) (by simp))
  · intro u k hk hs
    exfalso
    by_cases hut : u = t
    · subst hut; rw [Function.update_self] at hs; simp [thAsleep] at hs
    · rw [Function.update_of_ne hut] at hs
      exact hnodoze u (wake_asleep _ hs)
  · intro u hu; exact hI.exited u (hval u _ hu (by simp) (by simp))
  · exact hI.nodup
  · intro k
    rw [hI.ran k]
    refine and_congr_right fun _ => forall_congr' fun u => ?_
    by_cases hut : u = t
    · subst hut
      rw [Function.update_self, ht]; simp [thOp, thBegan]
    · rw [Function.update_of_ne hut, hwake, wake_began]
  · exact hI.pub
  · exact hI.order

theorem inv_move {prog : List (Op V)} {params D : Sym V} {p : ℕ} {s s' : St V T} (h : BlockOk prog params)
    (hD : Denotes prog params D) (hI : ExecInv prog params D p s) (t : Fin T) (hm : move prog s t = some s') :
    ∃ p', ExecInv prog params D p' s' := by
  unfold move at hm
  split at hm
  next ht =>
    split at hm
    next hq =>
      simp only [Option.some.injEq] at hm
      subst hm
      have hop : ∀ u, thOp (Function.update s.th t (Th.exit : Th V) u) = thOp (s.th u) := by
        intro u
        by_cases hu : u = t
        · subst hu; rw [Function.update_self, ht]; rfl
        · rw [Function.update_of_ne hu]
      have hsame : ∀ u k, thOp (s.th u) = some k → Function.update s.th t (Th.exit : Th V) u = s.th u := by
        intro u k hk
        have hu : u ≠ t := by rintro rfl; rw [ht] at hk; simp [thOp] at hk
        rw [Function.update_of_ne hu]
      have hback : ∀ u C k, Function.update s.th t (Th.exit : Th V) u = C → thOp C = some k → s.th u = C := by
        intro u C k hC hk
        by_cases hu : u = t
        · subst hu; rw [Function.update_self] at hC; rw [← hC] at hk; simp [thOp] at hk
        · rwa [Function.update_of_ne hu] at hC
      refine ⟨p, ?_⟩
      unfold St.goto
      constructor
      all_goals try dsimp only
      · exact hI.le
      · exact hI.queue
      · intro u k hk; rw [hop] at hk; exact hI.held u k hk
      · intro u v k hk hk'; rw [hop] at hk hk'; exact hI.uniq u v k hk hk'
      · intro u k hk; exact hI.nocrash u k (hback u _ k hk rfl)
      · exact lock_keep hI t _ (by rw [ht]; simp [thLock])
      · exact hI.sound
      · exact hI.params
      · intro k o x hk ho hx hn
        refine hI.done k o x hk ho hx fun u hu => ?_
        have := hn u (by rw [hop]; exact hu)
        rwa [hsame u k hu] at this
      · intro u k rest hk; exact hI.writes u k rest (hback u _ k hk rfl)
      · intro u k rest o hk; exact hI.writesR u k rest o (hback u _ k hk rfl)
      · intro u k o hk; exact hI.start u k o (hback u _ k hk rfl)
      · intro u k hk hs
        simp only [hop] at hk ⊢
        rw [hsame u k hk] at hs
        exact hI.asleep u k hk hs
      · intro _ _; exact hq
      · exact hI.nodup
      · intro k
        rw [hI.ran k]
        refine and_congr_right fun _ => forall_congr' fun u => ?_
        rw [hop]
        exact ⟨fun h hu => by rw [hsame u k hu]; exact h hu, fun h hu => by have := h hu; rwa [hsame u k hu] at this⟩
      · exact hI.pub
      · exact hI.order
    next i q hq =>
      split at hm
      next => simp at hm
      next o ho =>
        simp only [Option.some.injEq] at hm
        subst hm
        have hr := hI.queue
        rw [hq] at hr
        have hpos : 0 < prog.length - p := by
          by_contra hc
          rw [show prog.length - p = 0 by omega] at hr; simp at hr
        obtain ⟨m, hm⟩ : ∃ m, prog.length - p = m + 1 := ⟨prog.length - p - 1, by omega⟩
        rw [hm, List.range'_succ] at hr
        obtain ⟨rfl, rfl⟩ := List.cons_eq_cons.1 hr
        set B : Th V := if o.operands = [] then .start i else .want i with hBdef
        have hB : thOp B = some i := by rw [hBdef]; split <;> rfl
        have hBl : ¬ thLock B := by rw [hBdef]; split <;> simp [thLock]
        have hBb : ¬ thBegan B := by rw [hBdef]; split <;> simp [thBegan]
        have hBs : ¬ thAsleep B := by rw [hBdef]; split <;> simp [thAsleep]
        have hBp : ∀ x, thPend x B := by intro x; rw [hBdef]; split <;> simp [thPend]
        have hBw : ∀ k rest, B ≠ .write k rest := by intro k rest; rw [hBdef]; split <;> simp
        have hBx : B ≠ .exit := by rw [hBdef]; split <;> simp
        have hBc : ∀ k, B ≠ .crash k := by intro k; rw [hBdef]; split <;> simp
        have hval : ∀ u C, Function.update s.th t B u = C → (u = t ∧ B = C) ∨ (u ≠ t ∧ s.th u = C) := by
          intro u C h
          by_cases hu : u = t
          · subst hu; rw [Function.update_self] at h; exact Or.inl ⟨rfl, h⟩
          · rw [Function.update_of_ne hu] at h; exact Or.inr ⟨hu, h⟩
        have hop : ∀ u k, thOp (Function.update s.th t B u) = some k → (u = t ∧ k = i) ∨ (u ≠ t ∧ thOp (s.th u) = some k) := by
          intro u k hk
          by_cases hu : u = t
          · subst hu; rw [Function.update_self, hB] at hk; exact Or.inl ⟨rfl, (Option.some.inj hk).symm⟩
          · rw [Function.update_of_ne hu] at hk; exact Or.inr ⟨hu, hk⟩
        have hsame : ∀ u k, thOp (s.th u) = some k → Function.update s.th t B u = s.th u := by
          intro u k hk
          have hu : u ≠ t := by rintro rfl; rw [ht] at hk; simp [thOp] at hk
          rw [Function.update_of_ne hu]
        refine ⟨i + 1, ?_⟩
        unfold St.goto
        constructor
        all_goals try dsimp only
        · omega
        · change List.range' (i + 1) m = _
          congr 1; omega
        · intro u k hk
          rcases hop u k hk with ⟨_, rfl⟩ | ⟨_, hk⟩
          · omega
          · have := hI.held u k hk; omega
        · intro u v k hk hk'
          rcases hop u k hk with ⟨hu, rfl⟩ | ⟨_, hk⟩
          · rcases hop v k hk' with ⟨hv, _⟩ | ⟨_, hk'⟩
            · rw [hu, hv]
            · have := hI.held v k hk'; omega
          · rcases hop v k hk' with ⟨hv, rfl⟩ | ⟨_, hk'⟩
            · have := hI.held u _ ‹thOp (s.th u) = some _›; omega
            · exact hI.uniq u v k ‹_› hk'
        · intro u k hk
          rcases hval u _ hk with ⟨_, hb⟩ | ⟨_, hb⟩
          · exact hBc k hb
          · exact hI.nocrash u k hb
        · exact lock_keep hI t _ (by rw [ht]; exact ⟨fun h => h.elim, fun h => absurd h hBl⟩)
        · exact hI.sound
        · exact hI.params
        · intro k o' x hk ho' hx hn
          by_cases hki : k = i
          · subst hki
            have := hn t (by rw [show (Function.update s.th t B t) = B from Function.update_self ..]; exact hB)
            rw [show (Function.update s.th t B t) = B from Function.update_self ..] at this
            exact absurd (hBp x) this
          · refine hI.done k o' x (by omega) ho' hx fun u hu => ?_
            have := hn u (by rw [hsame u k hu]; exact hu)
            rwa [hsame u k hu] at this
        · intro u k rest hk
          rcases hval u _ hk with ⟨_, hb⟩ | ⟨_, hb⟩
          · exact (hBw k rest hb).elim
          · exact hI.writes u k rest hb
        · intro u k rest o' hk
          rcases hval u _ hk with ⟨_, hb⟩ | ⟨_, hb⟩
          · exact (hBw k rest hb).elim
          · exact hI.writesR u k rest o' hb
        · intro u k o' hk ho' x hx
          rcases hval u _ hk with ⟨_, hb⟩ | ⟨_, hb⟩
          · have hki : k = i := by rw [hb] at hB; simpa [thOp] using hB
            subst hki
            rw [ho] at ho'; obtain rfl := Option.some.inj ho'
            have hemp : o.operands = [] := by
              by_contra hc; rw [hBdef, if_neg hc] at hb; simp at hb
            have hcap := h.captures o (List.mem_of_getElem? ho) hemp
            simp [needs, Op.reads, hemp, hcap] at hx
          · exact hI.start u k o' hb ho' x hx
        · intro u k hk hs
          rcases hop u k hk with ⟨rfl, rfl⟩ | ⟨hu, hk⟩
          · rw [show (Function.update s.th u B u) = B from Function.update_self ..] at hs
            exact absurd hs hBs
          · rw [show (Function.update s.th t B u) = s.th u from Function.update_of_ne hu ..] at hs
            obtain ⟨v, j, hv, hj⟩ := hI.asleep u k hk hs
            exact ⟨v, j, by rw [hsame v j hv]; exact hv, hj⟩
        · intro u hu
          rcases hval u _ hu with ⟨_, hb⟩ | ⟨_, hb⟩
          · exact (hBx hb).elim
          · have := hI.exited u hb; rw [hq] at this; simp at this
        · exact hI.nodup
        · intro k
          rw [hI.ran k]
          constructor
          · rintro ⟨hk, hu⟩
            refine ⟨by omega, fun u hku => ?_⟩
            rcases hop u k hku with ⟨_, rfl⟩ | ⟨hut, hku⟩
            · omega
            · rw [show (Function.update s.th t B u) = s.th u from Function.update_of_ne hut ..]; exact hu u hku
          · rintro ⟨hk, hu⟩
            have hki : k ≠ i := by
              rintro rfl
              have := hu t (by rw [show (Function.update s.th t B t) = B from Function.update_self ..]; exact hB)
              rw [show (Function.update s.th t B t) = B from Function.update_self ..] at this
              exact hBb this
            refine ⟨by omega, fun u hku => ?_⟩
            have := hu u (by rw [hsame u k hku]; exact hku)
            rwa [hsame u k hku] at this
        · exact hI.pub
        · exact hI.order
  next i ht =>
    split at hm
    next hl =>
      simp only [Option.some.injEq] at hm
      subst hm
      refine ⟨p, ?_⟩
      refine inv_phase hI t i (.chk i) (by rw [ht]; rfl) rfl (some t) (by simp) ?_ (by simp [thPend])
        (by rw [ht]; simp [thBegan]) (by simp) (by simp) (by simp [thAsleep])
      intro u
      by_cases hu : u = t
      · subst hu; rw [Function.update_self]; simp [thLock]
      · rw [Function.update_of_ne hu, ← hI.lock u, hl]
        simp [Ne.symm hu]
    next => simp at hm
  next i ht =>
    have hA : thOp (s.th t) = some i := by rw [ht]; rfl
    split at hm
    next => simp at hm
    next o ho =>
      split at hm
      next hr =>
        simp only [Option.some.injEq] at hm
        subst hm
        refine ⟨p, ?_⟩
        refine inv_phase hI t i (.start i) hA rfl none (by simp) (lock_none hI t _ (by rw [ht]; simp [thLock]) (by simp [thLock]))
          (by simp [thPend]) (by rw [ht]; simp [thBegan]) (by simp) ?_ (by simp [thAsleep])
        intro o' _ ho' x hx
        rw [ho] at ho'; obtain rfl := Option.some.inj ho'
        unfold ready at hr
        rw [Bool.and_eq_true, List.all_eq_true, List.all_eq_true] at hr
        unfold needs at hx
        split at hx
        next hemp =>
          have hcap := h.captures o (List.mem_of_getElem? ho) hemp
          simp [Op.reads, hemp, hcap] at hx
        next =>
          rcases List.mem_append.1 hx with hx | hx
          · exact hr.1 x hx
          · exact hr.2 x hx
      next hr =>
        simp only [Option.some.injEq] at hm
        subst hm
        refine ⟨p, ?_⟩
        refine inv_phase hI t i (.doze i) hA rfl s.lock (by simp) (lock_keep hI t _ (by rw [ht]; simp [thLock]))
          (by simp [thPend]) (by rw [ht]; simp [thBegan]) (by simp) (by simp) fun _ => ?_
        exact missing_dep h hI ho (hI.held t i hA) (by simpa using hr)
  next i ht =>
    have hA : thOp (s.th t) = some i := by rw [ht]; rfl
    simp only [Option.some.injEq] at hm
    subst hm
    refine ⟨p, ?_⟩
    refine inv_phase hI t i (.sleep i) hA rfl none (by simp) (lock_none hI t _ (by rw [ht]; simp [thLock]) (by simp [thLock]))
      (by simp [thPend]) (by rw [ht]; simp [thBegan]) (by simp) (by simp) fun _ => ?_
    exact hI.asleep t i hA (by rw [ht]; simp [thAsleep])
  next => simp at hm
  next i ht =>
    have hA : thOp (s.th t) = some i := by rw [ht]; rfl
    split at hm
    next => simp at hm
    next o ho =>
      have hneed := hI.start t i o ht ho
      have hip := hI.held t i hA
      obtain ⟨xs, hxs⟩ := mapM_of_isSome (f := s.sym) (l := o.reads) fun x hx => hneed x (mem_extraDeps h ho hx)
      rw [hxs] at hm
      simp only [Option.some.injEq] at hm
      subst hm
      obtain ⟨ys, h3, h4⟩ := hD.op i o ho
      have hyx : ys = xs := by have := mapM_mono hI.sound hxs; rw [h3] at this; exact Option.some.inj this
      subst hyx
      have hini : i ∉ s.ran := by
        intro hc
        have := ((hI.ran i).1 hc).2 t hA
        rw [ht] at this; simp [thBegan] at this
      refine ⟨p, ?_⟩
      refine inv_local hI t i (.write i (o.results.zip (o.kernel ys))) hA rfl s.lock s.sym (s.ran ++ [i]) (by simp)
        (lock_keep hI t _ (by rw [ht]; simp [thLock])) (fun _ h => h) hI.sound ?_ ?_ ?_ (by simp) (by simp [thAsleep]) ?_ ?_ ?_ ?_
      · intro o' x ho' hx hn
        rw [ho] at ho'; obtain rfl := Option.some.inj ho'
        refine absurd ?_ hn
        simp only [thPend]
        rwa [List.map_fst_zip (by rw [mapM_length h4])]
      · intro rest hrest q hq
        simp only [Th.write.injEq, true_and] at hrest
        subst hrest
        exact mapM_zip h4 q hq
      · intro rest o' hrest ho' q hq
        rw [ho] at ho'; obtain rfl := Option.some.inj ho'
        simp only [Th.write.injEq, true_and] at hrest
        subst hrest
        exact (List.of_mem_zip hq).1
      · exact hI.nodup.append (List.nodup_singleton i) (by simpa using hini)
      · intro k
        rw [List.mem_append, List.mem_singleton, hI.ran k]
        constructor
        · rintro (⟨hk, hu⟩ | rfl)
          · refine ⟨hk, fun u hku => ?_⟩
            by_cases hut : u = t
            · subst hut; rw [Function.update_self]; simp [thBegan]
            · rw [Function.update_of_ne hut] at hku ⊢; exact hu u hku
          · refine ⟨hip, fun u hku => ?_⟩
            by_cases hut : u = t
            · subst hut; rw [Function.update_self]; simp [thBegan]
            · rw [Function.update_of_ne hut] at hku ⊢
              exact absurd (hI.uniq u t k hku hA) hut
        · rintro ⟨hk, hu⟩
          by_cases hki : k = i
          · exact Or.inr hki
          · refine Or.inl ⟨hk, fun u hku => ?_⟩
            have hut : u ≠ t := by rintro rfl; rw [hA] at hku; exact hki (Option.some.inj hku).symm
            have := hu u (by rw [Function.update_of_ne hut]; exact hku)
            rwa [Function.update_of_ne hut] at this
      · intro k o' x ho' hx hs
        exact List.mem_append_left _ (hI.pub k o' x ho' hx hs)
      · intro a k b hab o' ho' j q x hq hx hn
        rcases List.eq_nil_or_concat b with rfl | ⟨b', y, rfl⟩
        · have := List.append_inj' hab (by simp)
          obtain ⟨rfl, hik⟩ := this
          obtain rfl : i = k := by simpa using hik
          rw [ho] at ho'; obtain rfl := Option.some.inj ho'
          exact hI.pub j q x hq hx (hneed x hn)
        · have hab' : s.ran ++ [i] = (a ++ k :: b') ++ [y] := by rw [hab]; simp
          have := List.append_inj' hab' (by simp)
          exact hI.order a k b' this.1 o' ho' j q x hq hx hn
  next i ht =>
    have hA : thOp (s.th t) = some i := by rw [ht]; rfl
    simp only [Option.some.injEq] at hm
    subst hm
    refine ⟨p, ?_⟩
    exact inv_phase hI t i (.fin i) hA rfl s.lock (by simp) (lock_keep hI t _ (by rw [ht]; simp [thLock]))
      (by rw [ht]; simp [thPend]) (by rw [ht]; simp [thBegan]) (by simp) (by simp) (by simp [thAsleep])
  next i r v rest ht =>
    have hA : thOp (s.th t) = some i := by rw [ht]; rfl
    have hip := hI.held t i hA
    simp only [Option.some.injEq] at hm
    subst hm
    have hDr := hI.writes t i _ ht (r, v) (by simp)
    refine ⟨p, ?_⟩
    have hsome : ∀ x, (Function.update s.sym r (some v) x).isSome ↔ x = r ∨ (s.sym x).isSome := by
      intro x
      by_cases hx : x = r
      · subst hx; rw [Function.update_self]; simp
      · rw [Function.update_of_ne hx]; simp [hx]
    refine inv_local hI t i (.write i rest) hA rfl s.lock (Function.update s.sym r (some v)) s.ran (by simp)
      (lock_keep hI t _ (by rw [ht]; simp [thLock])) (fun x hx => (hsome x).2 (Or.inr hx)) ?_ ?_ ?_ ?_ (by simp) (by simp [thAsleep])
      hI.nodup ?_ ?_ hI.order
    · intro x w hx
      by_cases hxr : x = r
      · subst hxr; rw [Function.update_self] at hx; rw [← hx]; exact hDr
      · rw [Function.update_of_ne hxr] at hx; exact hI.sound x w hx
    · intro o x ho hx hn
      rw [hsome]
      by_cases hxr : x = r
      · exact Or.inl hxr
      · refine Or.inr (hI.done i o x hip ho hx fun u hu => ?_)
        obtain rfl := hI.uniq u t i hu hA
        rw [ht]
        simp only [thPend, List.map_cons, List.mem_cons, not_or] at hn ⊢
        exact ⟨hxr, hn⟩
    · intro rest' hrest q hq
      simp only [Th.write.injEq, true_and] at hrest
      subst hrest
      exact hI.writes t i _ ht q (by simp [hq])
    · intro rest' o hrest ho q hq
      simp only [Th.write.injEq, true_and] at hrest
      subst hrest
      exact hI.writesR t i _ o ht ho q (by simp [hq])
    · intro k
      rw [hI.ran k]
      refine and_congr_right fun _ => forall_congr' fun u => ?_
      by_cases hu : u = t
      · subst hu
        rw [Function.update_self, ht]; simp [thOp, thBegan]
      · rw [Function.update_of_ne hu]
    · intro k o x ho hx hs
      rw [hsome] at hs
      rcases hs with rfl | hs
      · have hil : i < prog.length := by have := hI.le; omega
        have hio : prog[i]? = some prog[i] := List.getElem?_eq_getElem hil
        have hxi := hI.writesR t i _ _ ht hio (x, v) (by simp)
        obtain rfl := results_unique h.nodup ho hio hx hxi
        refine (hI.ran k).2 ⟨hip, fun u hu => ?_⟩
        obtain rfl := hI.uniq u t k hu hA
        rw [ht]; simp [thBegan]
      · exact hI.pub k o x ho hx hs
  next i ht =>
    have hA : thOp (s.th t) = some i := by rw [ht]; rfl
    split at hm
    next hl =>
      simp only [Option.some.injEq] at hm
      subst hm
      exact ⟨p, inv_fin hI t i ht hl⟩
    next => simp at hm
  next => simp at hm
  next => simp at hm

theorem inv_spurious {prog : List (Op V)} {params D : Sym V} {p : ℕ} {s s' : St V T}
    (hI : ExecInv prog params D p s) (t : Fin T) (hm : spurious s t = some s') : ExecInv prog params D p s' := by
  unfold spurious at hm
  split at hm
  next i ht =>
    simp only [Option.some.injEq] at hm
    subst hm
    exact inv_phase hI t i (.want i) (by rw [ht]; rfl) rfl s.lock (by simp) (lock_keep hI t _ (by rw [ht]; simp [thLock]))
      (by simp [thPend]) (by rw [ht]; simp [thBegan]) (by simp) (by simp) (by simp [thAsleep])
  next => simp at hm

/-- reachable by some schedule -/
def Reach (prog : List (Op V)) (params : Sym V) (s : St V T) : Prop :=
  ∃ sched, runSched prog (init prog params T) sched = some s

theorem inv_sched {prog : List (Op V)} {params D : Sym V} (h : BlockOk prog params) (hD : Denotes prog params D)
    (sched : List (Fin T × Bool)) (s s' : St V T) (hI : ∃ p, ExecInv prog params D p s)
    (hs : runSched prog s sched = some s') : ∃ p, ExecInv prog params D p s' := by
  induction sched generalizing s with
  | nil => simp [runSched] at hs; rwa [← hs]
  | cons a l ih =>
    unfold runSched at hs ih
    rw [List.foldlM_cons] at hs
    simp only [Option.bind_eq_bind, Option.bind_eq_some_iff] at hs
    obtain ⟨s1, h1, h2⟩ := hs
    refine ih s1 ?_ h2
    obtain ⟨p, hI⟩ := hI
    unfold act at h1
    split at h1
    · exact ⟨p, inv_spurious hI a.1 h1⟩
    · exact inv_move h hD hI a.1 h1

theorem inv_reach {prog : List (Op V)} {params D : Sym V} (h : BlockOk prog params) (hD : Denotes prog params D)
    {s : St V T} (hs : Reach prog params s) : ∃ p, ExecInv prog params D p s := by
  obtain ⟨sched, hr⟩ := hs
  exact inv_sched h hD sched _ s ⟨0, inv_init h hD⟩ hr

/-! ## Results -/

/-- C39: in every reachable state no kernel has looked up a missing value, no operation was started twice, and every value
in the table is the value of the block. -/
theorem c39_safe {prog : List (Op V)} {params D : Sym V} (h : BlockOk prog params) (hD : Denotes prog params D)
    {s : St V T} (hs : Reach prog params s) :
    (∀ t i, s.th t ≠ .crash i) ∧ s.ran.Nodup ∧ ∀ x v, s.sym x = some v → D x = some v := by
  obtain ⟨p, hI⟩ := inv_reach h hD hs
  exact ⟨hI.nocrash, hI.nodup, hI.sound⟩

/-- C39: an operation starts after the operations that produce what it reads. -/
theorem c39_order {prog : List (Op V)} {params : Sym V} (h : BlockOk prog params) {s : St V T}
    (hs : Reach prog params s) {a b : List ℕ} {i : ℕ} (hr : s.ran = a ++ i :: b) {o q : Op V} {j x : ℕ}
    (ho : prog[i]? = some o) (hq : prog[j]? = some q) (hx : x ∈ q.results) (hxo : x ∈ o.reads) : j ∈ a := by
  obtain ⟨D, hD⟩ := denotes_exists h
  obtain ⟨p, hI⟩ := inv_reach h hD hs
  exact hI.order a i b hr o ho j q x hq hx (mem_extraDeps h ho hxo)

/-- C39: an operation with operands starts after every earlier operation with side effects that has results. -/
theorem c39_side_effects {prog : List (Op V)} {params : Sym V} (h : BlockOk prog params) {s : St V T}
    (hs : Reach prog params s) {a b : List ℕ} {i : ℕ} (hr : s.ran = a ++ i :: b) {o q : Op V} {j : ℕ}
    (ho : prog[i]? = some o) (hne : o.operands ≠ []) (hji : j < i) (hq : prog[j]? = some q) (hside : q.side = true)
    (hres : q.results ≠ []) : j ∈ a := by
  obtain ⟨D, hD⟩ := denotes_exists h
  obtain ⟨p, hI⟩ := inv_reach h hD hs
  obtain ⟨x, hx⟩ := List.exists_mem_of_ne_nil _ hres
  refine hI.order a i b hr o ho j q x hq hx ?_
  rw [needs, if_neg hne, List.mem_append]
  right
  rw [extraDeps, List.mem_append]
  left
  rw [List.mem_flatMap]
  refine ⟨q, ?_, by rw [if_pos hside]; exact hx⟩
  rw [List.mem_iff_getElem?]
  exact ⟨j, by rw [List.getElem?_take, if_pos hji, hq]⟩

/-- C39: when all threads were joined, every operation was run exactly once and the results are those of the sequential
run. -/
theorem c39_final {prog : List (Op V)} {params : Sym V} (h : BlockOk prog params) (hT : 0 < T) {s : St V T}
    (hs : Reach prog params s) (hj : Joined s) :
    s.ran.Perm (List.range prog.length) ∧
      ∀ outs r, runBlock prog params outs = some r → results s outs = some r := by
  obtain ⟨D, hD⟩ := denotes_exists h
  obtain ⟨p, hI⟩ := inv_reach h hD hs
  have hq := hI.exited ⟨0, hT⟩ (hj _)
  have hp : p = prog.length := by
    rw [hI.queue] at hq
    have := congrArg List.length hq
    simp at this
    have := hI.le
    omega
  subst hp
  have hno : ∀ t i, thOp (s.th t) ≠ some i := by intro t i; rw [hj t]; simp [thOp]
  have hran : ∀ i, i ∈ s.ran ↔ i ∈ List.range prog.length := by
    intro i
    rw [hI.ran i, List.mem_range]
    exact ⟨fun h => h.1, fun h => ⟨h, fun t ht => absurd ht (hno t i)⟩⟩
  refine ⟨(List.perm_ext_iff_of_nodup hI.nodup List.nodup_range).2 hran, fun outs r hr => ?_⟩
  have hvals := runBlock_values hD hr
  -- every value the sequential run could return is in the table
  have hall : ∀ x ∈ outs, s.sym x = D x := by
    intro x hx
    have hxs : (D x).isSome := by
      have hz := mapM_zip hvals
      have hl := mapM_length hvals
      obtain ⟨m, hm, rfl⟩ := List.getElem_of_mem hx
      have := hz (outs[m], r[m]'(by omega)) (List.mem_iff_getElem.2 ⟨m, by simp; omega, by simp⟩)
      rw [this]; rfl
    have hsym : (s.sym x).isSome := by
      have hdef : (params x).isSome ∨ ∃ (j : ℕ) (q : Op V), prog[j]? = some q ∧ x ∈ q.results := by
        by_contra hn
        push Not at hn
        -- the sequential table holds only parameters and results
        have hgen : ∀ (l : List (Op V)) (e0 e : Sym V), (∀ o ∈ l, x ∉ o.results) → e0 x = none →
            l.foldlM seqStep e0 = some e → e x = none := by
          intro l
          induction l with
          | nil => intro e0 e _ h0 he; simp at he; rw [← he]; exact h0
          | cons o l ih =>
            intro e0 e hl h0 he
            rw [List.foldlM_cons] at he
            simp only [Option.bind_eq_bind, Option.bind_eq_some_iff] at he
            obtain ⟨e1, h1, he⟩ := he
            refine ih e1 e (fun o ho => hl o (by simp [ho])) ?_ he
            unfold seqStep at h1
            simp only [Option.bind_eq_bind, Option.bind_eq_some_iff, Option.pure_def, Option.some.injEq] at h1
            obtain ⟨xs, _, rfl⟩ := h1
            have hadd : addAll e0 (o.results.zip (o.kernel xs)) x = none := by
              rw [addAll_notin _ _ _ fun hm => ?_]
              · exact h0
              · obtain ⟨q, hq, rfl⟩ := List.mem_map.1 hm
                exact hl o (by simp) (List.of_mem_zip hq).1
            split
            · change (if x ∈ o.operands then none else addAll e0 (o.results.zip (o.kernel xs)) x) = none
              split
              · rfl
              · exact hadd
            · exact hadd
        unfold runBlock at hr
        simp only [Option.bind_eq_bind, Option.bind_eq_some_iff] at hr
        obtain ⟨env, h1, h2⟩ := hr
        have hnone := hgen prog params env (fun o ho hxo => by
          obtain ⟨m, hm⟩ := List.mem_iff_getElem?.1 ho
          exact hn.2 m o hm hxo) (by simpa using hn.1) h1
        have hl := mapM_length h2
        obtain ⟨m, hm, rfl⟩ := List.getElem_of_mem hx
        have := mapM_zip h2 (outs[m], r[m]'(by omega)) (List.mem_iff_getElem.2 ⟨m, by simp; omega, by simp⟩)
        rw [hnone] at this; simp at this
      rcases hdef with hp | ⟨j, q, hq, hxq⟩
      · exact hI.params x hp
      · exact hI.done j q x (List.getElem?_eq_some_iff.1 hq).1 hq hxq fun t ht => absurd ht (hno t j)
    obtain ⟨v, hv⟩ := Option.isSome_iff_exists.1 hsym
    rw [hv, hI.sound x v hv]
  unfold results
  rw [mapM_congr hall, hvals]

/-- C39: in every reachable state in which not all threads have been joined, some thread can move (no deadlock). -/
theorem c39_progress {prog : List (Op V)} {params : Sym V} (h : BlockOk prog params) {s : St V T}
    (hs : Reach prog params s) (hj : ¬ Joined s) : ∃ t s', move prog s t = some s' := by
  obtain ⟨D, hD⟩ := denotes_exists h
  obtain ⟨p, hI⟩ := inv_reach h hD hs
  have hprog : ∀ t i, thOp (s.th t) = some i → ∃ o, prog[i]? = some o := by
    intro t i ht
    have := hI.held t i ht
    have := hI.le
    exact ⟨_, List.getElem?_eq_getElem (by omega)⟩
  by_contra hn
  push Not at hn
  have hno : ∀ t, move prog s t = none := by
    intro t
    cases hm : move prog s t with
    | none => rfl
    | some s' => exact absurd hm (hn t s')
  have hlock : s.lock = none := by
    cases hl : s.lock with
    | none => rfl
    | some u =>
      have hu := (hI.lock u).1 hl
      have := hno u
      unfold move at this
      cases hth : s.th u <;> rw [hth] at hu this <;> simp [thLock] at hu
      · rename_i i
        obtain ⟨o, ho⟩ := hprog u i (by rw [hth]; rfl)
        simp only [ho] at this
        split at this <;> simp at this
      · simp at this
  have hcase : ∀ t, s.th t = .exit ∨ ∃ i, s.th t = .sleep i := by
    intro t
    have hmt := hno t
    unfold move at hmt
    cases hth : s.th t with
    | exit => exact Or.inl rfl
    | sleep i => exact Or.inr ⟨i, rfl⟩
    | crash i => exact absurd hth (hI.nocrash t i)
    | idle =>
      rw [hth] at hmt
      simp only at hmt
      cases hq : s.queue with
      | nil => rw [hq] at hmt; simp at hmt
      | cons i q =>
        have hi : i < prog.length := by
          have := hI.queue
          rw [hq] at this
          have hmem : i ∈ List.range' p (prog.length - p) := by rw [← this]; simp
          rw [List.mem_range'] at hmem
          obtain ⟨k, hk, rfl⟩ := hmem
          omega
        rw [hq] at hmt
        simp [List.getElem?_eq_getElem hi] at hmt
    | want i => rw [hth] at hmt; simp [hlock] at hmt
    | fin i => rw [hth] at hmt; simp [hlock] at hmt
    | chk i =>
      have := (hI.lock t).2 (by rw [hth]; simp [thLock])
      rw [hlock] at this; simp at this
    | doze i => rw [hth] at hmt; simp at hmt
    | start i =>
      obtain ⟨o, ho⟩ := hprog t i (by rw [hth]; rfl)
      rw [hth] at hmt
      simp only [ho] at hmt
      split at hmt <;> simp at hmt
    | write i rest =>
      rw [hth] at hmt
      cases rest with
      | nil => simp at hmt
      | cons q r => simp at hmt
  -- the sleeping thread with the first operation
  have hsl : ∃ i, ∃ t, s.th t = .sleep i := by
    by_contra hc
    push Not at hc
    exact hj fun t => (hcase t).resolve_right fun ⟨i, hi⟩ => hc i t hi
  classical
  obtain ⟨t, ht⟩ := Nat.find_spec hsl
  obtain ⟨u, j, hu, hlt⟩ := hI.asleep t (Nat.find hsl) (by rw [ht]; rfl) (by rw [ht]; simp [thAsleep])
  rcases hcase u with he | ⟨k, hk⟩
  · rw [he] at hu; simp [thOp] at hu
  · rw [hk] at hu
    obtain rfl : k = j := by simpa [thOp] using hu
    exact Nat.find_min hsl hlt ⟨u, hk⟩

/-! ### Termination -/

def opLen (prog : List (Op V)) (i : ℕ) : ℕ := ((prog[i]?).map (fun o => o.results.length)).getD 0

/-- moves left for a thread -/
def thWeight (prog : List (Op V)) (T : ℕ) : Th V → ℕ
  | .idle => 1
  | .exit | .crash _ => 0
  | .fin _ => 3 * T + 2
  | .write _ rest => 3 * T + 3 + rest.length
  | .start i => 3 * T + 4 + opLen prog i
  | .sleep i => 3 * T + 5 + opLen prog i
  | .doze i => 3 * T + 6 + opLen prog i
  | .chk i => 3 * T + 7 + opLen prog i
  | .want i => 3 * T + 8 + opLen prog i

def weight (prog : List (Op V)) (s : St V T) : ℕ :=
  ∑ t, thWeight prog T (s.th t) + (s.queue.map fun i => 3 * T + 8 + opLen prog i).sum

theorem weight_update (prog : List (Op V)) (th : Fin T → Th V) (t : Fin T) (B : Th V) :
    ∑ u, thWeight prog T (Function.update th t B u) + thWeight prog T (th t) =
      ∑ u, thWeight prog T (th u) + thWeight prog T B := by
  have e : ∀ u, thWeight prog T (Function.update th t B u) =
      Function.update (fun u => thWeight prog T (th u)) t (thWeight prog T B) u := by
    intro u
    by_cases hu : u = t
    · subst hu; rw [Function.update_self, Function.update_self]
    · rw [Function.update_of_ne hu, Function.update_of_ne hu]
  rw [Finset.sum_congr rfl fun u _ => e u, Finset.sum_update_of_mem (Finset.mem_univ t),
    Finset.sum_eq_add_sum_sdiff_singleton_of_mem (Finset.mem_univ t) (fun u => thWeight prog T (th u))]
  omega

theorem weight_move (prog : List (Op V)) (s s' : St V T) (t : Fin T) (hm : move prog s t = some s') :
    weight prog s' < weight prog s := by
  have hgoto : ∀ B, thWeight prog T B < thWeight prog T (s.th t) →
      ∑ u, thWeight prog T (Function.update s.th t B u) < ∑ u, thWeight prog T (s.th u) := by
    intro B hB
    have := weight_update prog s.th t B
    omega
  unfold move at hm
  unfold weight
  split at hm
  next ht =>
    split at hm
    next hq =>
      simp only [Option.some.injEq] at hm
      subst hm
      have := hgoto .exit (by rw [ht]; simp [thWeight])
      simpa [St.goto] using this
    next i q hq =>
      split at hm
      next => simp at hm
      next o ho =>
        simp only [Option.some.injEq] at hm
        subst hm
        have := weight_update prog s.th t (if o.operands = [] then .start i else .want i)
        have hle : thWeight prog T (if o.operands = [] then (.start i : Th V) else .want i) ≤ 3 * T + 8 + opLen prog i := by
          split <;> simp only [thWeight] <;> omega
        rw [ht] at this
        simp only [St.goto, hq, List.map_cons, List.sum_cons]
        simp only [thWeight] at this hle ⊢
        omega
  next i ht =>
    split at hm
    · simp only [Option.some.injEq] at hm
      subst hm
      exact Nat.add_lt_add_right (hgoto _ (by rw [ht]; simp only [thWeight]; omega)) _
    · simp at hm
  next i ht =>
    split at hm
    next => simp at hm
    next o ho =>
      split at hm
      all_goals
        simp only [Option.some.injEq] at hm
        subst hm
        exact Nat.add_lt_add_right (hgoto _ (by rw [ht]; simp only [thWeight]; omega)) _
  next i ht =>
    simp only [Option.some.injEq] at hm
    subst hm
    exact Nat.add_lt_add_right (hgoto _ (by rw [ht]; simp only [thWeight]; omega)) _
  next => simp at hm
  next i ht =>
    split at hm
    next => simp at hm
    next o ho =>
      split at hm
      · simp only [Option.some.injEq] at hm
        subst hm
        exact Nat.add_lt_add_right (hgoto _ (by rw [ht]; simp only [thWeight]; omega)) _
      · rename_i xs _
        simp only [Option.some.injEq] at hm
        subst hm
        refine Nat.add_lt_add_right (hgoto _ ?_) _
        rw [ht]
        simp only [thWeight, opLen, ho, List.length_zip, Option.map_some, Option.getD_some]
        omega
  next i ht =>
    simp only [Option.some.injEq] at hm
    subst hm
    exact Nat.add_lt_add_right (hgoto _ (by rw [ht]; simp [thWeight])) _
  next i r v rest ht =>
    simp only [Option.some.injEq] at hm
    subst hm
    exact Nat.add_lt_add_right (hgoto _ (by rw [ht]; simp [thWeight])) _
  next i ht =>
    split at hm
    · simp only [Option.some.injEq] at hm
      subst hm
      refine Nat.add_lt_add_right ?_ _
      have h1 := weight_update prog (fun u => wake (s.th u)) t .idle
      have h2 : ∑ u, thWeight prog T (wake (s.th u)) ≤ ∑ u, thWeight prog T (s.th u) + 3 * T := by
        have : ∑ u, thWeight prog T (wake (s.th u)) ≤ ∑ u : Fin T, (thWeight prog T (s.th u) + 3) := by
          refine Finset.sum_le_sum fun u _ => ?_
          cases s.th u <;> simp only [wake, thWeight] <;> omega
        rw [Finset.sum_add_distrib] at this
        simpa [Finset.sum_const, Nat.mul_comm] using this
      have e1 : thWeight prog T (wake (s.th t)) = 3 * T + 2 := by rw [ht]; rfl
      have e2 : thWeight prog T (.idle : Th V) = 1 := rfl
      rw [e1, e2] at h1
      change ∑ u, thWeight prog T (Function.update (fun u => wake (s.th u)) t .idle u) < _
      omega
    · simp at hm
  next => simp at hm
  next => simp at hm

theorem weight_spurious (prog : List (Op V)) (s s' : St V T) (t : Fin T) (hm : spurious s t = some s') :
    weight prog s' = weight prog s + 3 := by
  unfold spurious at hm
  split at hm
  next i ht =>
    simp only [Option.some.injEq] at hm
    subst hm
    have := weight_update prog s.th t (.want i)
    have e1 : thWeight prog T (s.th t) = 3 * T + 5 + opLen prog i := by rw [ht]; rfl
    have e2 : thWeight prog T (.want i : Th V) = 3 * T + 8 + opLen prog i := rfl
    rw [e1, e2] at this
    unfold weight St.goto
    simp only
    omega
  next => simp at hm

/-- C39: the number of moves of every schedule is bounded: apart from spurious wakeups, every execution ends. -/
theorem c39_bounded (prog : List (Op V)) (params : Sym V) (sched : List (Fin T × Bool)) (s : St V T)
    (hs : runSched prog (init prog params T) sched = some s) :
    (sched.filter fun a => !a.2).length ≤
      T + (prog.map fun o => 3 * T + 8 + o.results.length).sum + 3 * (sched.filter fun a => a.2).length := by
  have hgen : ∀ (l : List (Fin T × Bool)) (s0 s1 : St V T), runSched prog s0 l = some s1 →
      (l.filter fun a => !a.2).length + weight prog s1 ≤ weight prog s0 + 3 * (l.filter fun a => a.2).length := by
    intro l
    induction l with
    | nil => intro s0 s1 h; simp [runSched] at h; subst h; simp
    | cons a l ih =>
      intro s0 s2 h
      unfold runSched at h ih
      rw [List.foldlM_cons] at h
      simp only [Option.bind_eq_bind, Option.bind_eq_some_iff] at h
      obtain ⟨s1, h1, h2⟩ := h
      have := ih s1 s2 h2
      unfold act at h1
      split at h1
      next ha =>
        have := weight_spurious prog s0 s1 a.1 h1
        simp only [List.filter_cons, ha, Bool.not_true, Bool.false_eq_true, if_false, if_true, List.length_cons]
        omega
      next ha =>
        have := weight_move prog s0 s1 a.1 h1
        have ha' : a.2 = false := by simpa using ha
        simp only [List.filter_cons, ha', Bool.not_false, Bool.false_eq_true, if_false, if_true, List.length_cons]
        omega
  have h0 : weight prog (init prog params T) = T + (prog.map fun o => 3 * T + 8 + o.results.length).sum := by
    unfold weight init
    have : (List.range prog.length).map (fun i => 3 * T + 8 + opLen prog i) =
        prog.map fun o => 3 * T + 8 + o.results.length := by
      apply List.ext_getElem
      · simp
      · intro i h1 h2
        simp at h1
        simp [opLen, List.getElem?_eq_getElem h1]
    simp only [this]
    simp [thWeight]
  have := hgen sched _ s hs
  omega

/-- C39: every execution can be completed: from every reachable state some schedule leads to all threads being joined. -/
theorem c39_completes {prog : List (Op V)} {params : Sym V} (h : BlockOk prog params) (s : St V T)
    (hs : Reach prog params s) : ∃ sched s', runSched prog s sched = some s' ∧ (∀ a ∈ sched, a.2 = false) ∧ Joined s' := by
  suffices hw : ∀ w (s : St V T), weight prog s ≤ w → Reach prog params s →
      ∃ sched s', runSched prog s sched = some s' ∧ (∀ a ∈ sched, a.2 = false) ∧ Joined s' from hw _ s (le_refl _) hs
  intro w
  induction w with
  | zero =>
    intro s hw hs
    by_cases hj : Joined s
    · exact ⟨[], s, rfl, by simp, hj⟩
    · obtain ⟨t, s', hm⟩ := c39_progress h hs hj
      have := weight_move prog s s' t hm; omega
  | succ w ih =>
    intro s hw hs
    by_cases hj : Joined s
    · exact ⟨[], s, rfl, by simp, hj⟩
    · obtain ⟨t, s1, hm⟩ := c39_progress h hs hj
      have hlt := weight_move prog s s1 t hm
      obtain ⟨l0, hl0⟩ := hs
      obtain ⟨l, s', hl, hl2, hj'⟩ := ih s1 (by omega) ⟨l0 ++ [(t, false)], by
        unfold runSched at hl0 ⊢
        rw [List.foldlM_append, hl0]
        simp [act, hm]⟩
      refine ⟨(t, false) :: l, s', ?_, by simpa using hl2, hj'⟩
      unfold runSched at hl ⊢
      rw [List.foldlM_cons]
      simp [act, hm, hl]

/-! ## Examples -/

section Examples

/-- `%1 = 2 * %0; %2 = %0 + 10; %3 = %1 + %2` -/
def exBlock : List (Op ℕ) :=
  [⟨[0], [], [1], false, false, fun xs => [2 * xs.sum]⟩, ⟨[0], [], [2], false, false, fun xs => [xs.sum + 10]⟩,
   ⟨[1, 2], [], [3], false, false, fun xs => [xs.sum]⟩]

def exParams : Sym ℕ := fun x => if x = 0 then some 5 else none

theorem exBlock_ok : BlockOk exBlock exParams := by
  constructor
  · decide
  · decide
  · intro i o hi
    match i, hi with
    | 0, hi => simp [exBlock] at hi; subst hi; simp [Op.reads, exParams]
    | 1, hi => simp [exBlock] at hi; subst hi; simp [Op.reads, exParams]
    | 2, hi =>
      simp [exBlock] at hi; subst hi
      intro x hx
      simp [Op.reads] at hx
      rcases hx with rfl | rfl
      · exact Or.inr ⟨0, _, by omega, rfl, by simp⟩
      · exact Or.inr ⟨1, _, by omega, rfl, by simp⟩
    | n + 3, hi => simp [exBlock] at hi
  · intro o ho; simp [exBlock] at ho; rcases ho with rfl | rfl | rfl <;> simp
  · intro o ho; simp [exBlock] at ho; rcases ho with rfl | rfl | rfl <;> simp

example : runBlock exBlock exParams [3] = some [25] := by decide

/-- two threads: thread 0 takes operations 1 and then 2 and has to sleep; thread 1 completes operation 0 and wakes it -/
def exSched : List (Fin 2 × Bool) :=
  [(1, false), (0, false), (0, false), (0, false), (0, false), (0, false), (0, false), (0, false),  -- operation 1 done
   (0, false), (0, false), (0, false), (0, false),  -- thread 0 sleeps on operation 2
   (0, true), (0, false), (0, false), (0, false),  -- a spurious wakeup; it sleeps again
   (1, false), (1, false), (1, false), (1, false), (1, false), (1, false),  -- operation 0 done
   (0, false), (0, false), (0, false), (0, false), (0, false), (0, false), (0, false), (1, false)]

example : (runSched exBlock (init exBlock exParams 2) exSched).map (fun s => (s.ran, s.queue, results s [3])) =
    some ([1, 0, 2], [], some [25]) := by decide

/-- an operation without operands whose nested region uses a value of the block (`%1`) -/
def capBlock : List (Op ℕ) :=
  [⟨[0], [], [1], false, false, fun xs => [2 * xs.sum]⟩, ⟨[], [1], [2], false, false, fun xs => [xs.sum]⟩]

/-- has a thread crashed? -/
def crashed (s : St ℕ T) : Bool := (List.finRange T).any fun t => match s.th t with | .crash _ => true | _ => false

/-- Operations without operands do not wait, not even for the values their nested regions use: with two threads the
second operation may look up a value that is not there yet, although the block runs sequentially. -/
theorem c39_captured_race : runBlock capBlock exParams [2] = some [10] ∧
    (runSched capBlock (init capBlock exParams 2) [(0, false), (1, false), (1, false)]).map crashed = some true := by
  decide

/-- two operations with side effects (`%1`, `%2` are their results), the second without operands -/
def sideBlock : List (Op ℕ) :=
  [⟨[0], [], [1], true, false, fun xs => [xs.sum]⟩, ⟨[], [], [2], true, false, fun _ => [7]⟩]

/-- Operations without operands do not wait for earlier side effects either. -/
theorem c39_side_effect_race :
    (runSched sideBlock (init sideBlock exParams 2)
      [(0, false), (1, false), (1, false), (0, false), (0, false), (0, false)]).map (fun s => s.ran) = some [1, 0] := by
  decide

/-- With concurrency 0 no operation runs. -/
theorem c39_no_threads : Joined (init exBlock exParams 0) ∧ results (init exBlock exParams 0) [3] = none ∧
    runBlock exBlock exParams [3] = some [25] := by
  refine ⟨fun t => t.elim0, by decide, by decide⟩

end Examples

end Spu.Props
