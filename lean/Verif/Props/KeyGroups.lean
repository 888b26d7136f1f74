import Verif.Model.Radix
import Mathlib.Tactic.Linarith

set_option autoImplicit false

/-!
# C34: grouping of sort keys

`_find_mergeable_keys` cuts the key list into groups that one party can sort locally.  The groups partition the list in
order and a secret key is alone in its group.  A group has a single owner unless the key after it is secret: `pre_owner`
is not updated when the previously visited key is secret, and two owners end up in one group (counterexample below).
-/

namespace Spu.Props
open Spu.Model.Radix

/-- key `i`, public outside the list -/
def keyVis (keys : List Vis) (i : ℕ) : Vis := keys.getD i .pub

/-- what `_find_mergeable_keys` guarantees for the group of the keys `a, …, b - 1` -/
structure GroupOk (keys : List Vis) (a b : ℕ) : Prop where
  lt : a < b
  le : b ≤ keys.length
  secret : ∀ i, a ≤ i → i < b → keyVis keys i = .secret → b = a + 1
  owner : ∀ i j o o', a ≤ i → i < b → a ≤ j → j < b → keyVis keys i = .priv o → keyVis keys j = .priv o' →
    o = o' ∨ (keyVis keys b = .secret ∧ (i + 1 = b ∨ j + 1 = b))

/-- the split indices cut the keys from `a` on into such groups -/
def SplitsOk (keys : List Vis) : ℕ → List ℕ → Prop
  | a, [] => a = keys.length
  | a, e :: es => GroupOk keys a e ∧ SplitsOk keys e es

/-- loop invariant for the group in progress -/
structure GroupPart (keys : List Vis) (a b : ℕ) (po : Option ℕ) : Prop where
  lt : a < b
  le : b ≤ keys.length
  secret : ∀ i, a ≤ i → i < b → keyVis keys i = .secret → b = a + 1
  first : keyVis keys a = .secret → po = none
  owner : ∀ i o, a ≤ i → i < b → keyVis keys i = .priv o → po = some o ∨ (keyVis keys b = .secret ∧ i + 1 = b)

theorem GroupPart.ok {keys : List Vis} {a b : ℕ} {po : Option ℕ} (h : GroupPart keys a b po) : GroupOk keys a b := by
  refine ⟨h.lt, h.le, h.secret, fun i j o o' h1 h2 h3 h4 hi hj => ?_⟩
  rcases h.owner i o h1 h2 hi with e | ⟨e, e'⟩
  · rcases h.owner j o' h3 h4 hj with f | ⟨f, f'⟩
    · rw [e] at f; exact .inl (Option.some.inj f)
    · exact .inr ⟨f, .inr f'⟩
  · exact .inr ⟨e, .inl e'⟩

theorem findLoop_spec (keys : List Vis) (idx : ℕ) : ∀ (po : Option ℕ) (h : ℕ) (rest : List ℕ),
    GroupPart keys idx h po → SplitsOk keys h rest → SplitsOk keys 0 (findLoop keys idx po (h :: rest)) := by
  induction idx with
  | zero => intro po h rest hp hs; exact ⟨hp.ok, hs⟩
  | succ idx ih =>
    intro po h rest hp hs
    have hlen : idx + 1 ≤ keys.length := le_trans hp.lt.le hp.le
    have hsplit : SplitsOk keys (idx + 1) (h :: rest) := ⟨hp.ok, hs⟩
    -- a fresh group holding only key `idx`
    have fresh : ∀ po', (keyVis keys idx = .secret → po' = none) →
        (∀ o, keyVis keys idx = .priv o → po' = some o ∨ keyVis keys (idx + 1) = .secret) →
        GroupPart keys idx (idx + 1) po' := by
      intro po' h1 h2
      refine ⟨by omega, hlen, fun _ _ _ _ => rfl, h1, fun i o ha hb hi => ?_⟩
      obtain rfl : i = idx := by omega
      rcases h2 o hi with e | e
      · exact .inl e
      · exact .inr ⟨e, rfl⟩
    -- the group in progress takes in key `idx`
    have grow : ∀ po', keyVis keys (idx + 1) ≠ .secret → keyVis keys idx ≠ .secret →
        (∀ o, po = some o → po' = some o) → (∀ o, keyVis keys idx = .priv o → po' = some o) →
        GroupPart keys idx h po' := by
      intro po' hn hc h1 h2
      have hall : ∀ i, idx + 1 ≤ i → i < h → keyVis keys i ≠ .secret := by
        intro i a b e
        have := hp.secret i a b e
        obtain rfl : i = idx + 1 := by omega
        exact hn e
      refine ⟨by have := hp.lt; omega, hp.le, fun i a b e => ?_, fun e => absurd e hc, fun i o a b e => ?_⟩
      · rcases Nat.eq_or_lt_of_le a with rfl | a'
        · exact absurd e hc
        · exact absurd e (hall i a' b)
      · rcases Nat.eq_or_lt_of_le a with rfl | a'
        · exact .inl (h2 o e)
        · rcases hp.owner i o a' b e with f | f
          · exact .inl (h1 o f)
          · exact .inr f
    unfold findLoop
    rw [show keys.getD (idx + 1) .pub = keyVis keys (idx + 1) from rfl, show keys.getD idx .pub = keyVis keys idx from rfl]
    have hfirst := hp.first
    cases hpre : keyVis keys (idx + 1) <;> cases hcur : keyVis keys idx <;> rw [hpre] at hfirst grow fresh <;>
      rw [hcur] at grow fresh <;> simp only
    · exact ih _ _ _ (grow po (by simp) (by simp) (fun _ h => h) (by simp)) hs
    · rename_i o
      split
      · rename_i hpo
        refine ih _ _ _ (grow _ (by simp) (by simp) (fun o' ho' => ?_) (by simp)) hs
        rcases hpo with e | e
        · simp [e] at ho'
        · rw [← ho', e]
      · exact ih _ _ _ (fresh _ (by simp) (by simp)) hsplit
    · exact ih _ _ _ (fresh _ (by simp) (by simp)) hsplit
    · exact ih _ _ _ (grow po (by simp) (by simp) (fun _ h => h) (by simp)) hs
    · rename_i o
      split
      · rename_i hpo
        refine ih _ _ _ (grow _ (by simp) (by simp) (fun o' ho' => ?_) (by simp)) hs
        rcases hpo with e | e
        · simp [e] at ho'
        · rw [← ho', e]
      · exact ih _ _ _ (fresh _ (by simp) (by simp)) hsplit
    · exact ih _ _ _ (fresh _ (by simp) (by simp)) hsplit
    · exact ih _ _ _ (fresh po (by simp) (by simp)) hsplit
    · exact ih _ _ _ (fresh po (by simp) (by simp)) hsplit
    · exact ih _ _ _ (fresh po (by simpa using hfirst) (by simp)) hsplit

theorem findMergeable_spec {keys : List Vis} (hk : keys ≠ []) :
    ∃ splits, findMergeable keys = some splits ∧ SplitsOk keys 0 splits := by
  obtain ⟨last, hl⟩ : ∃ last, keys.getLast? = some last := ⟨keys.getLast hk, List.getLast?_eq_some_getLast hk⟩
  have hpos : 0 < keys.length := List.length_pos_iff.2 hk
  have hlast : keyVis keys (keys.length - 1) = last := by
    unfold keyVis
    rw [List.getD_eq_getElem?_getD, ← List.getLast?_eq_getElem?, hl]; rfl
  unfold findMergeable
  rw [hl]
  refine ⟨_, rfl, findLoop_spec keys _ _ _ _ ?_ rfl⟩
  refine ⟨by omega, le_refl _, fun i a b _ => by omega, fun e => ?_, fun i o a b e => .inl ?_⟩
  · rw [hlast] at e; simp [e]
  · obtain rfl : i = keys.length - 1 := by omega
    rw [hlast] at e; simp [e]

theorem groups_flatten {α : Type} (keys : List α) (splits : List ℕ) : ∀ (a : ℕ), a ≤ keys.length →
    List.IsChain (· < ·) (a :: splits) → (a :: splits).getLast? = some keys.length →
    (groups keys a splits).flatten = keys.drop a := by
  induction splits with
  | nil => intro a ha _ hl; simp at hl; simp [groups, hl]
  | cons e es ih =>
    intro a ha hc hl
    have hae : a < e := (List.isChain_cons_cons.1 hc).1
    have hc' := (List.isChain_cons_cons.1 hc).2
    have hl' : (e :: es).getLast? = some keys.length := by rw [← hl]; simp
    have hele : e ≤ keys.length := by
      have hp := (List.isChain_iff_pairwise.1 hc')
      rcases List.getLast?_eq_some_iff.1 hl' with ⟨ys, hys⟩
      have : keys.length ∈ e :: es := by rw [hys]; simp
      rcases List.mem_cons.1 this with h | h
      · exact h.symm.le
      · exact ((List.pairwise_cons.1 hp).1 _ h).le
    simp only [groups, List.flatten_cons]
    rw [ih e hele hc' hl']
    have : keys.drop e = (keys.drop a).drop (e - a) := by rw [List.drop_drop]; congr 1; omega
    rw [this, List.take_append_drop]

theorem SplitsOk.chain {keys : List Vis} {splits : List ℕ} : ∀ {a : ℕ}, SplitsOk keys a splits →
    List.IsChain (· < ·) (a :: splits) ∧ (a :: splits).getLast? = some keys.length := by
  induction splits with
  | nil => intro a h; exact ⟨by simp, by rw [show a = _ from h]; rfl⟩
  | cons e es ih =>
    intro a h
    obtain ⟨h1, h2⟩ := ih h.2
    refine ⟨List.isChain_cons_cons.2 ⟨h.1.lt, h1⟩, ?_⟩
    rw [← h2]; simp

theorem groups_mem {keys : List Vis} {splits : List ℕ} {α : Type} (xs : List α) : ∀ {a : ℕ}, SplitsOk keys a splits →
    ∀ g ∈ groups xs a splits, ∃ b e, GroupOk keys b e ∧ g = (xs.drop b).take (e - b) := by
  induction splits with
  | nil => intro a _ g hg; simp [groups] at hg
  | cons e es ih =>
    intro a h g hg
    simp only [groups, List.mem_cons] at hg
    rcases hg with rfl | hg
    · exact ⟨a, e, h.1, rfl⟩
    · exact ih h.2 g hg

/-- a key of a group, by its position in the key list -/
theorem mem_group {keys : List Vis} {b e : ℕ} (h : GroupOk keys b e) {v : Vis} :
    v ∈ (keys.drop b).take (e - b) ↔ ∃ i, b ≤ i ∧ i < e ∧ keyVis keys i = v := by
  have hle := h.le
  constructor
  · intro hv
    obtain ⟨k, hk, rfl⟩ := List.getElem_of_mem hv
    have hk' : k < e - b := by simp at hk; omega
    refine ⟨b + k, by omega, by omega, ?_⟩
    simp [keyVis, List.getElem?_eq_getElem (show b + k < keys.length by omega)]
  · rintro ⟨i, h1, h2, rfl⟩
    refine List.mem_iff_getElem.2 ⟨i - b, by simp; omega, ?_⟩
    simp [keyVis, List.getElem?_eq_getElem (show i < keys.length by omega), show b + (i - b) = i by omega]

/-- **C34**: for every nonempty key list the groups are nonempty and partition the list in order, and a secret key is alone in
its group. -/
theorem c34_partition {keys : List Vis} (hk : keys ≠ []) :
    ∃ splits, findMergeable keys = some splits ∧ (groups keys 0 splits).flatten = keys ∧
      (∀ g ∈ groups keys 0 splits, g ≠ []) ∧ ∀ g ∈ groups keys 0 splits, .secret ∈ g → g = [.secret] := by
  obtain ⟨splits, h1, h2⟩ := findMergeable_spec hk
  refine ⟨splits, h1, ?_, fun g hg => ?_, fun g hg hs => ?_⟩
  · simpa using groups_flatten keys splits 0 (by omega) h2.chain.1 h2.chain.2
  · obtain ⟨b, e, ho, rfl⟩ := groups_mem keys h2 g hg
    have := ho.lt; have := ho.le
    intro hn
    have := congrArg List.length hn
    simp at this; omega
  · obtain ⟨b, e, ho, rfl⟩ := groups_mem keys h2 g hg
    obtain ⟨i, hi1, hi2, hi3⟩ := (mem_group ho).1 hs
    have he := ho.secret i hi1 hi2 hi3
    obtain rfl : i = b := by omega
    have hle := ho.le
    have hb : i < keys.length := by omega
    rw [he, show i + 1 - i = 1 by omega, List.drop_eq_getElem_cons hb]
    simp [keyVis, List.getElem?_eq_getElem hb] at hi3
    simp [hi3]

/-- **C34, partial**: all private keys of a group have the same owner, provided no private key of the list is directly
followed by a secret key.  The code does not guarantee it without this condition (`c34_two_owners`). -/
theorem c34_owner_partial {keys : List Vis} (hk : keys ≠ [])
    (hns : ∀ i o, keyVis keys i = .priv o → keyVis keys (i + 1) ≠ .secret) :
    ∃ splits, findMergeable keys = some splits ∧
      ∀ g ∈ groups keys 0 splits, ∀ o o', .priv o ∈ g → .priv o' ∈ g → o = o' := by
  obtain ⟨splits, h1, h2⟩ := findMergeable_spec hk
  refine ⟨splits, h1, fun g hg o o' hs hs' => ?_⟩
  obtain ⟨b, e, ho, rfl⟩ := groups_mem keys h2 g hg
  obtain ⟨i, hi1, hi2, hi3⟩ := (mem_group ho).1 hs
  obtain ⟨j, hj1, hj2, hj3⟩ := (mem_group ho).1 hs'
  rcases ho.owner i j o o' hi1 hi2 hj1 hj2 hi3 hj3 with h | ⟨h, rfl | rfl⟩
  · exact h
  · exact absurd h (hns i o hi3)
  · exact absurd h (hns j o' hj3)

/-- **C34**, without a condition on the list: the private keys of a group other than its last key have one owner, and all of
them have if the key after the group is not secret. -/
theorem c34_owner {keys : List Vis} (hk : keys ≠ []) :
    ∃ splits, findMergeable keys = some splits ∧ ∀ g ∈ groups keys 0 splits,
      ∃ pre post, keys = pre ++ g ++ post ∧
        (∀ o o', .priv o ∈ g.dropLast → .priv o' ∈ g.dropLast → o = o') ∧
        (post.head? ≠ some .secret → ∀ o o', .priv o ∈ g → .priv o' ∈ g → o = o') := by
  obtain ⟨splits, h1, h2⟩ := findMergeable_spec hk
  refine ⟨splits, h1, fun g hg => ?_⟩
  obtain ⟨b, e, ho, rfl⟩ := groups_mem keys h2 g hg
  have hle := ho.le
  have hlt := ho.lt
  have hd : keys.drop e = (keys.drop b).drop (e - b) := by rw [List.drop_drop]; congr 1; omega
  have hmem : ∀ v, v ∈ ((keys.drop b).take (e - b)).dropLast → ∃ i, b ≤ i ∧ i + 1 < e ∧ keyVis keys i = v := by
    intro v hv
    obtain ⟨k, hk', rfl⟩ := List.getElem_of_mem hv
    have hk2 : k < e - b - 1 := by simp at hk'; omega
    refine ⟨b + k, by omega, by omega, ?_⟩
    simp [keyVis, List.getElem?_eq_getElem (show b + k < keys.length by omega)]
  refine ⟨keys.take b, keys.drop e, ?_, fun o o' hs hs' => ?_, fun hp o o' hs hs' => ?_⟩
  · rw [hd, List.append_assoc, List.take_append_drop, List.take_append_drop]
  · obtain ⟨i, hi1, hi2, hi3⟩ := hmem _ hs
    obtain ⟨j, hj1, hj2, hj3⟩ := hmem _ hs'
    rcases ho.owner i j o o' hi1 (by omega) hj1 (by omega) hi3 hj3 with h | ⟨h, h' | h'⟩
    · exact h
    · omega
    · omega
  · obtain ⟨i, hi1, hi2, hi3⟩ := (mem_group ho).1 hs
    obtain ⟨j, hj1, hj2, hj3⟩ := (mem_group ho).1 hs'
    rcases ho.owner i j o o' hi1 hi2 hj1 hj2 hi3 hj3 with h | ⟨h, _⟩
    · exact h
    · exfalso
      apply hp
      rw [List.head?_drop]
      unfold keyVis at h
      by_cases hlen : e < keys.length
      · simp [List.getElem?_eq_getElem hlen] at h ⊢; exact h
      · simp [List.getElem?_eq_none (not_lt.1 hlen)] at h

/-- The code puts keys of two owners into one group: a private key before a secret key does not set `pre_owner`. -/
theorem c34_two_owners : ∃ keys splits, findMergeable keys = some splits ∧
    ∃ g ∈ groups keys 0 splits, ∃ o o', .priv o ∈ g ∧ .priv o' ∈ g ∧ o ≠ o' :=
  ⟨[.priv 0, .priv 1, .secret], [2, 3], by decide, [.priv 0, .priv 1], by decide, 0, 1, by decide, by decide, by decide⟩

/-- the example of the source comment: public, bob, bob, alice, alice, secret -/
example : findMergeable [.pub, .priv 1, .priv 1, .priv 0, .priv 0, .secret] = some [3, 5, 6] := by decide
/-- a list that meets the condition of `c34_owner_partial` -/
example : ∀ i o, keyVis [.secret, .pub, .priv 1, .priv 0, .pub, .priv 0] i = .priv o →
    keyVis [.secret, .pub, .priv 1, .priv 0, .pub, .priv 0] (i + 1) ≠ .secret := by
  intro i o h
  rcases i with _ | _ | _ | _ | _ | _ | i <;> simp [keyVis] at h ⊢
example : findMergeable [.secret, .pub, .priv 1, .priv 0, .pub, .priv 0] = some [1, 3, 6] := by decide
example : findMergeable [.secret, .secret, .priv 2] = some [1, 2, 3] := by decide

end Spu.Props
