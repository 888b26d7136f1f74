import Verif.Spec.SwiftBool
import Verif.Lemmas.Swift
import Verif.Lemmas.Xor

set_option autoImplicit false

/-! # Words with exclusive or as a group, and the boolean preprocessing of SWIFT -/

namespace Spu.Lemmas.Swift
open Spu.Model.Swift Spu.Spec.Swift

/-- a word, added by exclusive or -/
def BX (w : ℕ) : Type := BitVec w

variable {w : ℕ}

instance : DecidableEq (BX w) := inferInstanceAs (DecidableEq (BitVec w))

instance : Zero (BX w) := ⟨(0#w : BitVec w)⟩
instance : Add (BX w) := ⟨fun a b => HXor.hXor (α := BitVec w) (β := BitVec w) (γ := BitVec w) a b⟩
instance : Neg (BX w) := ⟨fun a => a⟩
instance : Sub (BX w) := ⟨fun a b => HXor.hXor (α := BitVec w) (β := BitVec w) (γ := BitVec w) a b⟩

instance : AddCommGroup (BX w) where
  nsmul := nsmulRec
  zsmul := zsmulRec
  sub_eq_add_neg _ _ := rfl
  add_assoc a b c := BitVec.xor_assoc a b c
  zero_add a := BitVec.zero_xor (x := a)
  add_zero a := BitVec.xor_zero (x := a)
  neg_add_cancel a := BitVec.xor_self (x := a)
  add_comm a b := BitVec.xor_comm a b

theorem bx_self (a : BX w) : a + a = 0 := BitVec.xor_self (x := a)

/-- conjunction of words -/
def band (a b : BX w) : BX w := HAnd.hAnd (α := BitVec w) (β := BitVec w) (γ := BitVec w) a b

theorem and_xor (x a b : BitVec w) : x &&& (a ^^^ b) = (x &&& a) ^^^ (x &&& b) := by
  rw [BitVec.and_comm, BitVec.and_comm x a, BitVec.and_comm x b]
  exact (xlin_and x).add a b

theorem band_bilin : Bilin (band (w := w)) where
  addL a b y := (xlin_and y).add a b
  addR x a b := and_xor x a b

/-- a replicated boolean share of `v` -/
abbrev RepB (x : Rss (BitVec w)) (v : BitVec w) : Prop := Rep (X := BX w) x v

theorem repB_open {x : Rss (BitVec w)} {v : BitVec w} (h : RepB x v) (i : Fin 3) : rssOpenB x i = v :=
  rep_open (X := BX w) h i

theorem repB_xor {x y : Rss (BitVec w)} {v u : BitVec w} (h : RepB x v) (k : RepB y u) : RepB (rssXor x y) (v ^^^ u) :=
  rep_add (X := BX w) h k

theorem repB_andP {x : Rss (BitVec w)} {v : BitVec w} (h : RepB x v) {p : Fin 3 → BitVec w} {q : BitVec w} (hp : ∀ i, p i = q) :
    RepB (rssAndP x p) (v &&& q) :=
  rep_each (X := BX w) (Z := BX w) h (fun i a => band a (p i)) (fun a => band a q) (fun i => by rw [hp i])
    (fun a b => band_bilin.addL a b q)

theorem repB_xorP {x : Rss (BitVec w)} {v : BitVec w} (h : RepB x v) {p : Fin 3 → BitVec w} {q : BitVec w} (hp : ∀ i, p i = q) :
    RepB (rssXorP x p) (v ^^^ q) :=
  rep_addP (X := BX w) h hp

theorem repB_and {x y : Rss (BitVec w)} {v u : BitVec w} (h : RepB x v) (k : RepB y u) (r0 r1 : Fin 3 → BitVec w) :
    RepB (rssAnd x y r0 r1) ((v &&& u) ^^^ ((r0 0 ^^^ r1 0) ^^^ (r0 1 ^^^ r1 1) ^^^ (r0 2 ^^^ r1 2))) :=
  rep_mul_any (X := BX w) (Y := BX w) (Z := BX w) band_bilin h k r0 r1

theorem repB_rand {r0 r1 : Fin 3 → BitVec w} (h : Paired r0 r1) : RepB (rssRand r0 r1) (r0 0 ^^^ r0 1 ^^^ r0 2) :=
  rep_rand (X := BX w) h

/-- a triple whose third value is off by `e` -/
def TriOk (t : Tri w) (A B e : BitVec w) : Prop := RepB t.a A ∧ RepB t.b B ∧ RepB t.c ((A &&& B) ^^^ e)

theorem xor_eq_self {a e : BitVec w} : a ^^^ e = a ↔ e = 0#w := by
  constructor
  · intro h
    have : a ^^^ (a ^^^ e) = a ^^^ a := by rw [h]
    rwa [← BitVec.xor_assoc, BitVec.xor_self, BitVec.zero_xor] at this
  · rintro rfl
    exact BitVec.xor_zero

theorem xor_eq_zero {a b : BitVec w} : a ^^^ b = 0#w ↔ a = b := by
  constructor
  · intro h
    have : (a ^^^ b) ^^^ b = b := by rw [h, BitVec.zero_xor]
    rwa [BitVec.xor_assoc, BitVec.xor_self, BitVec.xor_zero] at this
  · rintro rfl
    exact BitVec.xor_self

theorem open_iff {t : Tri w} {A B e : BitVec w} (h : TriOk t A B e) : verifyByOpen t ↔ e = 0#w := by
  unfold verifyByOpen
  simp only [repB_open h.1, repB_open h.2.1, repB_open h.2.2, forall_const]
  exact xor_eq_self

/-- the last comparison of `verifyByOther` -/
theorem zero_iff {x : Rss (BitVec w)} {v : BitVec w} (h : RepB x v) :
    (∀ i, rotate (fun j => (x j).2) i = (x i).1 ^^^ (x i).2) ↔ v = 0#w := by
  obtain ⟨s0, s1, s2, h0, h1, h2, hv'⟩ :
    ∃ s0 s1 s2 : BitVec w, x 0 = (s0, s1) ∧ x 1 = (s1, s2) ∧ x 2 = (s2, s0) ∧ v = s0 ^^^ s1 ^^^ s2 := h
  have e : (1 : Fin 3) + 1 = 2 := rfl
  have e' : (2 : Fin 3) + 1 = 0 := rfl
  subst hv'
  constructor
  · intro h
    have := h 0
    simp only [rotate, h0, zero_add, h1] at this
    rw [this, BitVec.xor_self]
  · intro hz i
    have k : (s0 ^^^ s1 : BitVec w) = s2 := xor_eq_zero.1 hz
    fin_cases i
    · simp only [rotate, Fin.zero_eta, zero_add, h0, h1]
      exact k.symm
    · simp only [rotate, Fin.mk_one, e, h1, h2]
      show s0 = (s1 ^^^ s2 : BitVec w)
      rw [← k, BitVec.xor_comm s0, ← BitVec.xor_assoc, BitVec.xor_self, BitVec.zero_xor]
    · simp only [rotate, Fin.reduceFinMk, e', h0, h2]
      show s1 = (s2 ^^^ s0 : BitVec w)
      rw [← k, BitVec.xor_comm s0, BitVec.xor_assoc, BitVec.xor_self, BitVec.xor_zero]

theorem other_value (A B e A' B' e' : BitVec w) :
    ((A &&& B) ^^^ e) ^^^ ((A' &&& B') ^^^ e') ^^^ (A' &&& (B ^^^ B')) ^^^ (B' &&& (A ^^^ A')) ^^^ ((A ^^^ A') &&& (B ^^^ B'))
      = e ^^^ e' := by
  refine BitVec.eq_of_getLsbD_eq fun i hi => ?_
  simp only [BitVec.getLsbD_xor, BitVec.getLsbD_and]
  generalize A.getLsbD i = a, B.getLsbD i = b, e.getLsbD i = c, A'.getLsbD i = a', B'.getLsbD i = b', e'.getLsbD i = c'
  revert a b c a' b' c'
  decide

theorem consume_value (A B e x y : BitVec w) :
    ((A &&& B) ^^^ e) ^^^ (y &&& (x ^^^ A)) ^^^ (x &&& (y ^^^ B)) ^^^ ((x ^^^ A) &&& (y ^^^ B)) = (x &&& y) ^^^ e := by
  refine BitVec.eq_of_getLsbD_eq fun i hi => ?_
  simp only [BitVec.getLsbD_xor, BitVec.getLsbD_and]
  generalize A.getLsbD i = a, B.getLsbD i = b, e.getLsbD i = c, x.getLsbD i = a', y.getLsbD i = b'
  revert a b c a' b'
  decide

theorem other_iff {x t : Tri w} {A B e A' B' e' : BitVec w} (h : TriOk x A B e) (k : TriOk t A' B' e') :
    verifyByOther x t ↔ e = e' := by
  have hr := repB_open (repB_xor h.1 k.1)
  have hs := repB_open (repB_xor h.2.1 k.2.1)
  have hv := repB_xorP (repB_xor (repB_xor (repB_xor h.2.2 k.2.2) (repB_andP k.1 hs)) (repB_andP k.2.1 hr))
    (p := fun i => rssOpenB (rssXor x.a t.a) i &&& rssOpenB (rssXor x.b t.b) i) (fun i => by rw [hr, hs])
  rw [other_value] at hv
  unfold verifyByOther
  simp only
  rw [zero_iff hv, xor_eq_zero]
  constructor
  · exact fun h => h.2.2
  · exact fun h => ⟨fun i => by unfold rotate; rw [hr, hr], fun i => by unfold rotate; rw [hs, hs], h⟩

theorem consume_rep {t : Tri w} {A B e : BitVec w} (h : TriOk t A B e) {x y : Rss (BitVec w)} {v u : BitVec w} (hx : RepB x v)
    (hy : RepB y u) : RepB (consume t x y) ((v &&& u) ^^^ e) := by
  have ha := repB_open (repB_xor hx h.1)
  have hb := repB_open (repB_xor hy h.2.1)
  have hv := repB_xorP (repB_xor (repB_xor h.2.2 (repB_andP hy ha)) (repB_andP hx hb))
    (p := fun i => rssOpenB (rssXor x t.a) i &&& rssOpenB (rssXor y t.b) i) (fun i => by rw [ha, hb])
  rwa [consume_value] at hv

/-! ### The shuffle -/

theorem permStep_eq (m : ℕ) (idx : ℕ → BitVec w) (t : ℕ → Tri w) (j : ℕ) :
    permStep m idx t j = fun n => t (Equiv.swap j ((idx j).toNat % (m - j) + j) n) := by
  funext n
  unfold permStep
  simp only [Equiv.swap_apply_def]
  split_ifs <;> rfl

theorem foldl_perm (f : ℕ → Equiv.Perm ℕ) {T : Type} (l : List ℕ) (t : ℕ → T) :
    l.foldl (fun (t : ℕ → T) j => fun n => t (f j n)) t = fun n => t ((l.map f).prod n) := by
  induction l generalizing t with
  | nil => rfl
  | cons a l ih => rw [List.foldl_cons, ih, List.map_cons, List.prod_cons]; rfl

theorem permute_eq (m : ℕ) (idx : ℕ → BitVec w) (t : ℕ → Tri w) :
    permute m idx t = fun n => t (shuffle m (fun j => (idx j).toNat) n) := by
  unfold permute
  rw [show permStep m idx = fun (t : ℕ → Tri w) j => fun n => t (Equiv.swap j ((idx j).toNat % (m - j) + j) n) by
    funext t j; exact permStep_eq m idx t j]
  exact foldl_perm (fun j => Equiv.swap j ((idx j).toNat % (m - j) + j)) _ t

theorem prod_ge {m : ℕ} (r : ℕ → ℕ) : ∀ (l : List ℕ), (∀ j ∈ l, j < m) → ∀ n, m ≤ n →
    (l.map fun j => Equiv.swap j (r j % (m - j) + j)).prod n = n := by
  intro l
  induction l with
  | nil => intro _ n _; rfl
  | cons a l ih =>
    intro h n hn
    rw [List.map_cons, List.prod_cons, Equiv.Perm.mul_apply, ih (fun j hj => h j (by simp [hj])) n hn]
    have ha := h a (by simp)
    have := Nat.mod_lt (r a) (show 0 < m - a by omega)
    exact Equiv.swap_apply_of_ne_of_ne (by omega) (by omega)

/-- only the `m` things move -/
theorem shuffle_ge (m : ℕ) (r : ℕ → ℕ) {n : ℕ} (hn : m ≤ n) : shuffle m r n = n :=
  prod_ge r _ (fun j hj => List.mem_range.1 hj) n hn

theorem shuffle_lt (m : ℕ) (r : ℕ → ℕ) {n : ℕ} (hn : n < m) : shuffle m r n < m := by
  by_contra h
  have := shuffle_ge m r (Nat.le_of_not_lt h)
  have := (shuffle m r).injective this
  omega

theorem andTriples_ok (N : ℕ) {D : AndRand w} (ha : ∀ n, Paired (D.a0 n) (D.a1 n)) (hb : ∀ n, Paired (D.b0 n) (D.b1 n)) (n : ℕ) :
    ∃ A B, TriOk (andTriples N D n) A B (error D (shuffle (N * 3 + 3) (fun j => (D.idx j).toNat) n)) := by
  unfold andTriples
  rw [permute_eq]
  exact ⟨_, _, repB_rand (ha _), repB_rand (hb _), repB_and (repB_rand (ha _)) (repB_rand (hb _)) _ _⟩

/-- the preprocessing, whatever the errors of the triples -/
theorem andPre_any (N : ℕ) {D : AndRand w} (ha : ∀ n, Paired (D.a0 n) (D.a1 n)) (hb : ∀ n, Paired (D.b0 n) (D.b1 n))
    (x y : Rss (Fin N → BitVec w)) :
    let e := fun n => error D (shuffle (N * 3 + 3) (fun j => (D.idx j).toNat) n)
    if (∀ n < 3, e n = 0#w) ∧ ∀ j < N, e (3 + j * 3) = e (3 + j * 3 + 1) ∧ e (3 + j * 3) = e (3 + j * 3 + 2) then
      ∃ z, andPre N D x y = some z ∧ ∀ (j : Fin N) v u, RepB (rssAt x j) v → RepB (rssAt y j) u →
        RepB (rssAt z j) ((v &&& u) ^^^ e (3 + j * 3))
    else andPre N D x y = none := by
  intro e
  choose A B h using andTriples_ok N ha hb
  have key : ((∀ n : Fin 3, verifyByOpen (andTriples N D n)) ∧
      ∀ j : Fin N, verifyByOther (andTriples N D (3 + j * 3)) (andTriples N D (3 + j * 3 + 1)) ∧
        verifyByOther (andTriples N D (3 + j * 3)) (andTriples N D (3 + j * 3 + 2))) ↔
      ((∀ n < 3, e n = 0#w) ∧ ∀ j < N, e (3 + j * 3) = e (3 + j * 3 + 1) ∧ e (3 + j * 3) = e (3 + j * 3 + 2)) := by
    simp only [fun n => open_iff (h n), fun m n => other_iff (h m) (h n)]
    exact ⟨fun k => ⟨fun n hn => k.1 ⟨n, hn⟩, fun j hj => k.2 ⟨j, hj⟩⟩, fun k => ⟨fun n => k.1 n n.2, fun j => k.2 j j.2⟩⟩
  by_cases c : (∀ n < 3, e n = 0#w) ∧ ∀ j < N, e (3 + j * 3) = e (3 + j * 3 + 1) ∧ e (3 + j * 3) = e (3 + j * 3 + 2)
  · rw [if_pos c]
    unfold andPre
    exact ⟨_, if_pos (key.2 c), fun j v u hx hy => consume_rep (h _) hx hy⟩
  · rw [if_neg c]
    unfold andPre
    exact if_neg (fun k => c (key.1 k))

theorem error_paired {D : AndRand w} (h : AndOk D) (n : ℕ) : error D n = 0#w := by
  obtain ⟨e0, e1, e2⟩ := Paired.eqs (h.c n)
  unfold error
  rw [e0, e1, e2]
  refine BitVec.eq_of_getLsbD_eq fun i hi => ?_
  simp only [BitVec.getLsbD_xor, BitVec.getLsbD_zero]
  generalize (D.c0 n 0).getLsbD i = a, (D.c0 n 1).getLsbD i = b, (D.c0 n 2).getLsbD i = c
  revert a b c
  decide

end Spu.Lemmas.Swift
