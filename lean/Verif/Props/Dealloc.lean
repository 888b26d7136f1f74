import Verif.Spec.Dealloc
import Mathlib.Tactic.Linarith

set_option autoImplicit false

/-!
# C67: insertion of deallocations
-/

namespace Spu.Props
open Spu.Model.Dealloc Spu.Spec.Dealloc

variable {V S : Type}

theorem freesAfter_mem {defs : List ℕ} {k : Blk} : ∀ {as acc : List ℕ} {x : ℕ}, x ∈ freesAfter defs k as acc ↔
    x ∈ acc ∨ (x ∈ as ∧ x ∈ defs ∧ ¬ uses x k)
  | [], acc, x => by simp [freesAfter]
  | a :: as, acc, x => by
    rw [freesAfter, freesAfter_mem]
    split_ifs with h
    · constructor
      · rintro (h1 | h1)
        · rcases List.mem_cons.1 h1 with rfl | h1
          · exact .inr ⟨by simp, h.1, h.2.1⟩
          · exact .inl h1
        · exact .inr ⟨by simp [h1.1], h1.2⟩
      · rintro (h1 | ⟨h1, h2⟩)
        · exact .inl (by simp [h1])
        · rcases List.mem_cons.1 h1 with rfl | h1
          · exact .inl (by simp)
          · exact .inr ⟨h1, h2⟩
    · constructor
      · rintro (h1 | h1)
        · exact .inl h1
        · exact .inr ⟨by simp [h1.1], h1.2⟩
      · rintro (h1 | ⟨h1, h2⟩)
        · exact .inl h1
        · rcases List.mem_cons.1 h1 with rfl | h1
          · left
            by_contra hc
            exact h ⟨h2.1, h2.2, hc⟩
          · exact .inr ⟨h1, h2⟩

theorem freesAfter_nodup {defs : List ℕ} {k : Blk} : ∀ {as acc : List ℕ}, acc.Nodup → (freesAfter defs k as acc).Nodup
  | [], _, h => h
  | a :: as, acc, h => by
    rw [freesAfter]
    apply freesAfter_nodup
    split_ifs with h'
    · exact List.nodup_cons.2 ⟨h'.2.2, h⟩
    · exact h

theorem define_agree {P : ℕ → Prop} : ∀ {rs : List ℕ} {ys : List V} {own own' : ℕ → Option V}, (∀ x, P x → own' x = own x) →
    (define own' rs ys = none ∧ define own rs ys = none) ∨
      ∃ o' o, define own' rs ys = some o' ∧ define own rs ys = some o ∧ (∀ x, P x ∨ x ∈ rs → o' x = o x) ∧
        (∀ x, (own' x).isSome → (o' x).isSome) ∧ ∀ x ∈ rs, (o' x).isSome
  | [], [], own, own', h => .inr ⟨own', own, rfl, rfl, fun x hx => h x (by simpa using hx), fun _ h => h, by simp⟩
  | [], _ :: _, _, _, _ => .inl ⟨rfl, rfl⟩
  | _ :: _, [], _, _, _ => .inl ⟨rfl, rfl⟩
  | r :: rs, y :: ys, own, own', h => by
    unfold define
    rcases define_agree (P := fun x => P x ∨ x = r) (rs := rs) (ys := ys) (own := Function.update own r (some y))
      (own' := Function.update own' r (some y)) (fun x hx => by
        by_cases hr : x = r
        · subst hr; simp
        · rw [Function.update_of_ne hr, Function.update_of_ne hr]
          exact h x (hx.resolve_right hr)) with h1 | ⟨o', o, h1, h2, h3, h4, h5⟩
    · exact .inl h1
    · have hup : ∀ x, (own' x).isSome → (Function.update own' r (some y) x).isSome := by
        intro x hx
        by_cases hr : x = r
        · subst hr; simp
        · rw [Function.update_of_ne hr]; exact hx
      refine .inr ⟨o', o, h1, h2, fun x hx => h3 x ?_, fun x hx => h4 x (hup x hx), fun x hx => ?_⟩
      · rcases hx with hx | hx
        · exact .inl (.inl hx)
        · rcases List.mem_cons.1 hx with rfl | hx
          · exact .inl (.inr rfl)
          · exact .inr hx
      · rcases List.mem_cons.1 hx with rfl | hx
        · exact h4 x (by simp)
        · exact h5 x hx

theorem run_addFrees (K : Kernels V S) (par : ℕ → Option V) (k : Blk) (s : S) : ∀ (fs : List ℕ) (own : ℕ → Option V), fs.Nodup →
    (∀ x ∈ fs, (own x).isSome) → run K false (addFrees fs k) own par s = run K false k (fun x => if x ∈ fs then none else own x) par s
  | [], own, _, _ => by simp [addFrees]
  | f :: fs, own, hn, h => by
    have hf := List.nodup_cons.1 hn
    rw [addFrees, List.foldr_cons, run, if_neg (by simp), if_pos (h f (by simp))]
    have := run_addFrees K par k s fs (Function.update own f none) hf.2 (fun x hx => by
      rw [Function.update_of_ne (show x ≠ f from fun he => hf.1 (he ▸ hx))]
      exact h x (by simp [hx]))
    rw [addFrees] at this
    rw [this]
    congr 1
    funext x
    by_cases hx : x = f
    · subst hx; simp
    · rw [Function.update_of_ne hx]
      simp [hx]

theorem run_addFrees_par (K : Kernels V S) (par own : ℕ → Option V) (k : Blk) (s : S) : ∀ (fs : List ℕ),
    run K true (addFrees fs k) own par s = run K true k own par s
  | [] => by simp [addFrees]
  | f :: fs => by
    rw [addFrees, List.foldr_cons, run, if_pos rfl]
    exact run_addFrees_par K par own k s fs

theorem find_mapM {own own' par par' : ℕ → Option V} : ∀ {vs : List ℕ}, (∀ x ∈ vs, find own' par' x = find own par x) →
    vs.mapM (find own' par') = vs.mapM (find own par)
  | [], _ => rfl
  | v :: vs, h => by
    rw [List.mapM_cons, List.mapM_cons, h v (by simp), find_mapM fun x hx => h x (by simp [hx])]

theorem addDealloc_run (K : Kernels V S) (b : Blk) : ∀ (parallel : Bool) (defs : List ℕ) (own own' par par' : ℕ → Option V) (s : S),
    NoFree b → (∀ x, uses x b → own' x = own x ∧ par' x = par x) → (parallel = false → ∀ x ∈ defs, uses x b → (own' x).isSome) →
    run K parallel (addDealloc defs b) own' par' s = run K parallel b own par s := by
  induction b with
  | ret vs =>
    intro parallel defs own own' par par' s _ h _
    have hf : ∀ x ∈ vs, find own' par' x = find own par x := fun x hx => by
      unfold find
      rw [(h x hx).1, (h x hx).2]
    rw [addDealloc, run, run, find_mapM hf]
  | free v k ih => intro parallel defs own own' par par' s hn; exact hn.elim
  | op kind as rs n ps regs k ihr ihk =>
    intro parallel defs own own' par par' s hn h hd
    rw [addDealloc, run, run]
    have hfind : ∀ x, uses x (.op kind as rs n ps regs k) → find own' par' x = find own par x := fun x hx => by
      rw [find, find, (h x hx).1, (h x hx).2]
    rw [find_mapM fun x hx => hfind x (.inl hx)]
    congr 1
    funext xs
    have hreg : (List.ofFn fun i => fun (args : List V) (t : S) => (define (fun _ => none) (ps i) args).bind fun own'' =>
        run K false (addDealloc [] (regs i)) own'' (find own' par') t) =
        List.ofFn fun i => fun (args : List V) (t : S) => (define (fun _ => none) (ps i) args).bind fun own'' =>
        run K false (regs i) own'' (find own par) t := by
      congr 1
      funext i args t
      congr 1
      funext own''
      exact ihr i false [] own'' own'' (find own par) (find own' par') t (hn.1 i)
        (fun x hx => ⟨rfl, hfind x (.inr (.inl ⟨i, hx⟩))⟩) (fun _ x hx => by simp at hx)
    simp only [Option.bind_eq_bind, hreg]
    congr 1
    funext q
    rcases define_agree (P := fun x => uses x k) (rs := rs) (ys := q.1) (own := own) (own' := own')
      (fun x hx => (h x (.inr (.inr hx))).1) with ⟨e1, e2⟩ | ⟨o', o, e1, e2, e3, e4, e5⟩
    · rw [e1, e2]; rfl
    · rw [e1, e2]
      simp only [Option.bind_some]
      cases parallel with
      | true =>
        rw [run_addFrees_par]
        exact ihk true _ o o' par par' q.2 hn.2 (fun x hx => ⟨e3 x (.inl hx), (h x (.inr (.inr hx))).2⟩) (by simp)
      | false =>
        rw [run_addFrees K par' _ q.2 _ o' (freesAfter_nodup List.nodup_nil)]
        · refine ihk false _ o _ par par' q.2 hn.2 (fun x hx => ⟨?_, (h x (.inr (.inr hx))).2⟩) (fun _ x hx hu => ?_)
          · have hnf : x ∉ freesAfter defs k as [] := fun hc => by
              rcases freesAfter_mem.1 hc with hc | hc
              · simp at hc
              · exact hc.2.2 hx
            rw [if_neg hnf]
            exact e3 x (.inl hx)
          · have hnf : x ∉ freesAfter defs k as [] := fun hc => by
              rcases freesAfter_mem.1 hc with hc | hc
              · simp at hc
              · exact hc.2.2 hu
            rw [if_neg hnf]
            rcases List.mem_append.1 hx with hx | hx
            · exact e4 x (hd rfl x hx (.inr (.inr hu)))
            · exact e5 x hx
        · intro x hx
          rcases freesAfter_mem.1 hx with hx | hx
          · simp at hx
          · exact e4 x (hd rfl x hx.2.1 (.inl hx.1))

/-- **The pass does not change what a program does**: for all kernels, inputs and states, sequentially and in parallel mode, the
program with deallocations gives the same results and the same state, or fails as before.  No value is used after it is
freed, and no `FreeOp` finds nothing to free. -/
theorem c67_same (K : Kernels V S) (parallel : Bool) (b : Blk) (own par : ℕ → Option V) (s : S) (hb : NoFree b) :
    run K parallel (addDealloc [] b) own par s = run K parallel b own par s :=
  addDealloc_run K b parallel [] own own par par s hb (fun _ _ => ⟨rfl, rfl⟩) (fun _ x hx => by simp at hx)

theorem freed_addFrees (x : ℕ) (k : Blk) : ∀ fs : List ℕ, freed x (addFrees fs k) = fs.count x + freed x k
  | [] => by simp [addFrees]
  | f :: fs => by
    have := freed_addFrees x k fs
    rw [addFrees] at this
    rw [addFrees, List.foldr_cons, freed, this, List.count_cons]
    by_cases h : f = x
    · subst h; simp; omega
    · simp [h]

theorem endsHere_uses {x : ℕ} : ∀ {b : Blk} {defs : List ℕ}, EndsHere x defs b → uses x b
  | .ret _, _, h => h.elim
  | .free _ k, _, h => .inr (endsHere_uses (b := k) h)
  | .op _ _ _ _ _ _ k, _, h => by
    rcases h with h | h
    · exact .inl h.1
    · exact .inr (.inr (endsHere_uses (b := k) h))

/-- **Every value whose last use is as an operand is freed exactly once, others never.**  In particular results of the block
and values used inside of a region are not freed before the operation with that region. -/
theorem c67_once (x : ℕ) (b : Blk) : ∀ (defs : List ℕ), NoFree b → (EndsHere x defs b → freed x (addDealloc defs b) = 1) ∧
    (¬ EndsHere x defs b → freed x (addDealloc defs b) = 0) := by
  induction b with
  | ret vs => intro defs _; exact ⟨fun h => h.elim, fun _ => rfl⟩
  | free v k ih => intro defs hn; exact hn.elim
  | op kind as rs n ps regs k ihr ihk =>
    intro defs hn
    rw [addDealloc, freed, freed_addFrees, (freesAfter_nodup (as := as) (defs := defs) (k := k) List.nodup_nil).count]
    obtain ⟨h1, h2⟩ := ihk (defs ++ rs) hn.2
    by_cases hf : x ∈ freesAfter defs k as []
    · rw [if_pos hf]
      have hf' := (freesAfter_mem.1 hf).resolve_left (by simp)
      have hne : ¬ EndsHere x (defs ++ rs) k := fun h => hf'.2.2 (endsHere_uses h)
      exact ⟨fun _ => by rw [h2 hne], fun h => absurd (Or.inl hf') h⟩
    · rw [if_neg hf]
      have hf' : ¬ (x ∈ as ∧ x ∈ defs ∧ ¬ uses x k) := fun h => hf (freesAfter_mem.2 (.inr h))
      refine ⟨fun h => ?_, fun h => ?_⟩
      · rcases h with h | h
        · exact absurd h hf'
        · rw [h1 h]
      · rw [h2 fun hc => h (.inr hc)]

theorem peak_mono : ∀ (b : Blk) {l l' : List ℕ}, l ⊆ l' → peak l b ≤ peak l' b
  | .ret _, l, l', h => by
    unfold peak
    exact (List.subperm_of_subset (List.nodup_dedup l) (fun x hx => List.mem_dedup.2 (h (List.mem_dedup.1 hx)))).length_le
  | .free v k, l, l', h => by
    unfold peak
    refine max_le_max ?_ (peak_mono k fun x hx => ?_)
    · exact (List.subperm_of_subset (List.nodup_dedup l) (fun x hx => List.mem_dedup.2 (h (List.mem_dedup.1 hx)))).length_le
    · rw [List.mem_filter] at hx ⊢
      exact ⟨h hx.1, hx.2⟩
  | .op _ _ rs _ _ _ k, l, l', h => by
    unfold peak
    refine max_le_max ?_ (peak_mono k fun x hx => ?_)
    · exact (List.subperm_of_subset (List.nodup_dedup l) (fun x hx => List.mem_dedup.2 (h (List.mem_dedup.1 hx)))).length_le
    · rw [List.mem_append] at hx ⊢
      exact hx.imp_left (@h x)

theorem peak_ge : ∀ (b : Blk) (l : List ℕ), l.dedup.length ≤ peak l b
  | .ret _, _ => le_rfl
  | .free _ _, _ => le_max_left _ _
  | .op _ _ _ _ _ _ _, _ => le_max_left _ _

theorem peak_addFrees (k : Blk) : ∀ (fs l : List ℕ), peak l (addFrees fs k) ≤ peak l k
  | [], _ => le_rfl
  | f :: fs, l => by
    rw [addFrees, List.foldr_cons, peak]
    refine max_le (peak_ge k l) ?_
    have := peak_addFrees k fs (l.filter (· ≠ f))
    rw [addFrees] at this
    exact this.trans (peak_mono k (fun _ hx => List.mem_of_mem_filter hx))

/-- **The pass never needs more memory**: not more values in the scope of the block than before. -/
theorem c67_memory (b : Blk) : ∀ (defs live : List ℕ), peak live (addDealloc defs b) ≤ peak live b := by
  induction b with
  | ret vs => intro _ _; exact le_rfl
  | free v k ih =>
    intro defs live
    rw [addDealloc, peak, peak]
    exact max_le_max le_rfl (ih defs _)
  | op kind as rs n ps regs k ihr ihk =>
    intro defs live
    rw [addDealloc, peak, peak]
    exact max_le_max le_rfl ((peak_addFrees _ _ _).trans (ihk _ _))

/-- `y := x + x; z := while(y) { z' := y + arg }; return z`: `x` is an argument, `y` is freed once, after the loop that captures
it -/
def captured : Blk := .op 0 [0, 0] [1] 0 Fin.elim0 Fin.elim0 (.op 0 [1, 1] [2] 0 Fin.elim0 Fin.elim0
  (.op 1 [2] [3] 1 (fun _ => [4]) (fun _ => .op 0 [2, 4] [5] 0 Fin.elim0 Fin.elim0 (.op 0 [5, 5] [6] 0 Fin.elim0 Fin.elim0 (.ret [6]))) (.ret [3])))

/-- addition; a region run twice -/
def exKernels : Kernels ℤ ℕ := fun kind xs rs s =>
  if kind = 0 then some ([xs.sum], s + 1) else do
    let r ← rs[0]?
    let (a, s) ← r xs s
    r a s

example : NoFree captured ∧ freed 1 (addDealloc [] captured) = 1 ∧ freed 2 (addDealloc [] captured) = 1 ∧ freed 0 (addDealloc [] captured) = 0 ∧
    freed 3 (addDealloc [] captured) = 0 ∧
    run exKernels false captured (fun x => if x = 0 then some 3 else none) (fun _ => none) 0 = some ([120], 6) ∧
    run exKernels false (addDealloc [] captured) (fun x => if x = 0 then some 3 else none) (fun _ => none) 0 = some ([120], 6) ∧
    run exKernels false (.op 0 [0] [1] 0 Fin.elim0 Fin.elim0 (.op 0 [1] [2] 0 Fin.elim0 Fin.elim0 (.free 1 (.ret [1]))))
      (fun x => if x = 0 then some 3 else none) (fun _ => none) 0 = none := by
  refine ⟨by simp [NoFree, captured], ?_⟩
  decide +kernel

example : EndsHere 1 [] captured ∧ ¬ EndsHere 3 [] captured := by
  constructor
  · exact .inr (.inl ⟨by simp, by simp, by decide +kernel⟩)
  · simp [captured, EndsHere]

end Spu.Props
