import Verif.Model.Prg
import Verif.Model.Semi2k
import Verif.Props.Semi2k

set_option autoImplicit false

/-!
# C30: pseudo-random zero shares cancel and stay synchronised across any history
-/

set_option linter.unusedSectionVars false

namespace Spu.Props
open Spu.Model Spu.Model.Prg Spu.Spec

variable {Seed Req Out : Type} {n : ℕ} [NeZero n]

/-- the requests a party's script sends to its own-seed stream (`r0`) … -/
def r0Reqs (d : List (Ctrl × Req)) : List Req :=
  (d.filter (fun p => p.1 ≠ .second)).map (·.2)

/-- … and to the next party's stream (`r1`) -/
def r1Reqs (d : List (Ctrl × Req)) : List Req :=
  (d.filter (fun p => p.1 ≠ .first)).map (·.2)

/-- A kernel's scripts are matched when what each party draws from its neighbour's stream is what
the neighbour itself draws, in the same order.  Symmetric kernels (everybody issues the same
`Both` requests) trivially are. -/
def Matched (d : Fin n → List (Ctrl × Req)) : Prop := ∀ i, r1Reqs (d i) = r0Reqs (d (i + 1))

/-- every command of the history is matched -/
def AllMatched (cmds : List (Cmd Seed Req n)) : Prop :=
  ∀ c ∈ cmds, match c with
    | .draws _ d => Matched d
    | _ => True

/-- drawing a list of requests from one stream -/
def drawStream (g : Gen Seed Req Out) (seed : Seed) : ℕ → List Req → List Out × ℕ
  | c, [] => ([], c)
  | c, q :: qs =>
    let r := drawStream g seed (g.gen seed c q).2 qs
    ((g.gen seed c q).1 :: r.1, r.2)

theorem drawMany_spec (g : Gen Seed Req Out) (st : St Seed) (d : List (Ctrl × Req)) :
    (drawMany g st d).1 = ((drawStream g st.selfSeed st.r0Ctr (r0Reqs d)).1,
      (drawStream g st.nextSeed st.r1Ctr (r1Reqs d)).1) ∧
    (drawMany g st d).2 = { st with
      r0Ctr := (drawStream g st.selfSeed st.r0Ctr (r0Reqs d)).2
      r1Ctr := (drawStream g st.nextSeed st.r1Ctr (r1Reqs d)).2 } := by
  induction d generalizing st with
  | nil => exact ⟨rfl, rfl⟩
  | cons a d ih =>
    obtain ⟨c, q⟩ := a
    cases c <;>
      simp only [drawMany, fillPair, ih, r0Reqs, r1Reqs, List.filter_cons, ne_eq, reduceCtorEq,
        not_false_eq_true, not_true_eq_false, decide_true, decide_false, if_true, if_false,
        List.map_cons, drawStream, Option.toList, List.cons_append, List.nil_append,
        Bool.false_eq_true, and_self]

/-- pairwise lock-step -/
def Sync (c : Fin n → St Seed) : Prop :=
  ∀ i, (c i).nextSeed = (c (i + 1)).selfSeed ∧ (c i).r1Ctr = (c (i + 1)).r0Ctr ∧
    (c i).pubSeed = (c 0).pubSeed ∧ (c i).pubCtr = (c 0).pubCtr

theorem step_sync (g : Gen Seed Req Out) (toSeed : Out → Seed) (seedReq : Req)
    (s : List (Fin n → St Seed)) (cmd : Cmd Seed Req n)
    (hm : match cmd with | .draws _ d => Matched d | _ => True)
    (h : ∀ c ∈ s, Sync c) : ∀ c ∈ step g toSeed seedReq s cmd, Sync c := by
  cases cmd with
  | publ k req =>
    simp only [step]
    cases hk : s[k]? with
    | none => exact h
    | some c =>
      intro c' hc'
      rcases List.mem_or_eq_of_mem_set hc' with hc' | rfl
      · exact h c' hc'
      · have hc := h c (List.mem_of_getElem? hk)
        intro i
        obtain ⟨h1, h2, h3, h4⟩ := hc i
        exact ⟨h1, h2, h3, by simp only [fillPubl]; rw [h3, h4]⟩
  | priv k j req =>
    simp only [step]
    cases hk : s[k]? with
    | none => exact h
    | some c =>
      intro c' hc'
      rcases List.mem_or_eq_of_mem_set hc' with hc' | rfl
      · exact h c' hc'
      · have hc := h c (List.mem_of_getElem? hk)
        have e : ∀ i, ((if i = j then (fillPriv g (c i) req).2 else c i).nextSeed = (c i).nextSeed)
          ∧ ((if i = j then (fillPriv g (c i) req).2 else c i).selfSeed = (c i).selfSeed)
          ∧ ((if i = j then (fillPriv g (c i) req).2 else c i).r0Ctr = (c i).r0Ctr)
          ∧ ((if i = j then (fillPriv g (c i) req).2 else c i).r1Ctr = (c i).r1Ctr)
          ∧ ((if i = j then (fillPriv g (c i) req).2 else c i).pubSeed = (c i).pubSeed)
          ∧ ((if i = j then (fillPriv g (c i) req).2 else c i).pubCtr = (c i).pubCtr) := by
          intro i; split <;> simp [fillPriv]
        intro i
        obtain ⟨e1, _, _, e4, e5, e6⟩ := e i
        obtain ⟨_, f2, f3, _, _, _⟩ := e (i + 1)
        obtain ⟨_, _, _, _, g5, g6⟩ := e 0
        obtain ⟨h1, h2, h3, h4⟩ := hc i
        exact ⟨e1.trans (h1.trans f2.symm), e4.trans (h2.trans f3.symm),
          e5.trans (h3.trans g5.symm), e6.trans (h4.trans g6.symm)⟩
  | draws k d =>
    simp only [step]
    cases hk : s[k]? with
    | none => exact h
    | some c =>
      intro c' hc'
      rcases List.mem_or_eq_of_mem_set hc' with hc' | rfl
      · exact h c' hc'
      · have hc := h c (List.mem_of_getElem? hk)
        intro i
        obtain ⟨h1, h2, h3, h4⟩ := hc i
        simp only [(drawMany_spec g _ _).2]
        exact ⟨h1, by rw [h1, h2, hm i], h3, h4⟩
  | fork k pr =>
    simp only [step]
    cases hk : s[k]? with
    | none => exact h
    | some c =>
      have hc := h c (List.mem_of_getElem? hk)
      intro c' hc'
      rcases List.mem_append.1 hc' with hc' | hc'
      · rcases List.mem_or_eq_of_mem_set hc' with hc' | rfl
        · exact h c' hc'
        · intro i
          obtain ⟨h1, h2, h3, h4⟩ := hc i
          simp only [fork, fillPubl]
          exact ⟨h1, by rw [h1, h2], h3, by rw [h3, h4]⟩
      · rw [List.mem_singleton] at hc'
        subst hc'
        intro i
        obtain ⟨h1, h2, h3, h4⟩ := hc i
        simp only [fork, fillPubl]
        exact ⟨by rw [h1, h2], trivial, by rw [h3, h4], trivial⟩

theorem session_sync [AddCommMonoid Seed] (g : Gen Seed Req Out) (toSeed : Out → Seed)
    (seedReq : Req) (pk priv self : Fin n → Seed) (cmds : List (Cmd Seed Req n))
    (hm : AllMatched cmds) : ∀ c ∈ session g toSeed seedReq pk priv self cmds, Sync c := by
  have gen : ∀ (cmds : List (Cmd Seed Req n)) (s : List (Fin n → St Seed)), AllMatched cmds →
      (∀ c ∈ s, Sync c) → ∀ c ∈ cmds.foldl (step g toSeed seedReq) s, Sync c := by
    intro cmds
    induction cmds with
    | nil => intro s _ h; exact h
    | cons a l ih =>
      intro s hm h
      exact ih _ (fun c hc => hm c (List.mem_cons_of_mem _ hc))
        (step_sync g toSeed seedReq s a (hm a List.mem_cons_self) h)
  refine gen cmds _ hm ?_
  intro c hc
  rw [List.mem_singleton] at hc
  subst hc
  intro i
  exact ⟨rfl, rfl, rfl, rfl⟩

/-- C30: after any history of matched requests and forks, from any seeds, in any context, a
symmetric correlated draw gives party `i` as its second word exactly the first word of party
`i+1`; all parties draw the same public word. -/
theorem c30_lockstep [AddCommMonoid Seed] (g : Gen Seed Req Out) (toSeed : Out → Seed)
    (seedReq : Req) (pk priv self : Fin n → Seed) (cmds : List (Cmd Seed Req n))
    (hm : AllMatched cmds) (c : Fin n → St Seed)
    (hc : c ∈ session g toSeed seedReq pk priv self cmds) (req : Req) (i : Fin n) :
    (fillPair g (c i) .both req).1.2 = (fillPair g (c (i + 1)) .both req).1.1 ∧
    (fillPubl g (c i) req).1 = (fillPubl g (c 0) req).1 := by
  obtain ⟨h1, h2, h3, h4⟩ := session_sync g toSeed seedReq pk priv self cmds hm c hc i
  simp only [fillPair, fillPubl]
  rw [h1, h2, h3, h4]
  exact ⟨rfl, rfl⟩

/-- C30: the same for a kernel in which parties draw asymmetrically (matched scripts): what party
`i` obtains from the shared stream, in order, is what party `i+1` obtained. -/
theorem c30_lockstep_scripts [AddCommMonoid Seed] (g : Gen Seed Req Out) (toSeed : Out → Seed)
    (seedReq : Req) (pk priv self : Fin n → Seed) (cmds : List (Cmd Seed Req n))
    (hm : AllMatched cmds) (c : Fin n → St Seed)
    (hc : c ∈ session g toSeed seedReq pk priv self cmds) (d : Fin n → List (Ctrl × Req))
    (hd : Matched d) (i : Fin n) :
    (drawMany g (c i) (d i)).1.2 = (drawMany g (c (i + 1)) (d (i + 1))).1.1 := by
  obtain ⟨h1, h2, -, -⟩ := session_sync g toSeed seedReq pk priv self cmds hm c hc i
  rw [(drawMany_spec g _ _).1, (drawMany_spec g _ _).1]
  simp only
  rw [h1, h2, hd i]

/-- C30: hence the zero shares `r0 - r1` sum to zero (and `r0 xor r1` xor to zero) at any point
of any history, for any decoding of the drawn bytes. -/
theorem c30_zero_shares [AddCommMonoid Seed] (g : Gen Seed Req Out) (toSeed : Out → Seed)
    (seedReq : Req) (pk priv self : Fin n → Seed) (cmds : List (Cmd Seed Req n))
    (hm : AllMatched cmds) (c : Fin n → St Seed)
    (hc : c ∈ session g toSeed seedReq pk priv self cmds) (req : Req)
    {R : Type*} [CommRing R] (dec : Option Out → R) {w : ℕ} (decB : Option Out → BitVec w) :
    total (fun i => dec (fillPair g (c i) .both req).1.1 - dec (fillPair g (c i) .both req).1.2)
      = 0 ∧
    xorAll (fun i => decB (fillPair g (c i) .both req).1.1 ^^^
      decB (fillPair g (c i) .both req).1.2) = 0 := by
  have hl := fun i => (c30_lockstep g toSeed seedReq pk priv self cmds hm c hc req i).1
  constructor
  · have := total_p2a (fun i => dec (fillPair g (c i) .both req).1.1)
      (fun i => dec (fillPair g (c i) .both req).1.2) (fun i => by simp only [hl i]) 0
    rw [← this]
    congr 1
    funext i
    simp [Semi2k.p2a]
  · have := c19_p2b_b2p (fun i => decB (fillPair g (c i) .both req).1.1)
      (fun i => decB (fillPair g (c i) .both req).1.2) (fun i => by simp only [hl i]) 0 0
    rw [c19_b2p_agree] at this
    rw [← this]
    congr 1
    funext i
    simp [Semi2k.p2b]

/-- C30: a child context's seeds are as unrelated to the parent's *future* output as the PRG makes
them: the child's seed words are consumed by the fork (the parent's counters move past them). -/
theorem c30_fork_consumes (g : Gen Seed Req Out) (toSeed : Out → Seed) (seedReq : Req) (pr : Seed)
    (st : St Seed) :
    (fork g toSeed seedReq pr st).2.r0Ctr = (g.gen st.selfSeed st.r0Ctr seedReq).2 ∧
    (fork g toSeed seedReq pr st).2.r1Ctr = (g.gen st.nextSeed st.r1Ctr seedReq).2 ∧
    (fork g toSeed seedReq pr st).2.pubCtr = (g.gen st.pubSeed st.pubCtr seedReq).2 :=
  ⟨rfl, rfl, rfl⟩

-- a three-party history mixing a fork, a symmetric draw in the child, and an asymmetric script
-- (party 0 draws only its own stream, party 2 only its neighbour's, as aby3 kernels do)
example : AllMatched (Seed := ℕ) (Req := ℕ) (n := 3)
    [.fork 0 ![1, 2, 3], .draws 1 (fun _ => [(.both, 16)]),
     .draws 0 ![[(.first, 8)], [], [(.second, 8)]], .publ 1 4] := by
  intro c hc
  simp only [List.mem_cons, List.not_mem_nil, or_false] at hc
  rcases hc with rfl | rfl | rfl | rfl
  · trivial
  · intro i; rfl
  · intro i; fin_cases i <;> rfl
  · trivial

end Spu.Props
