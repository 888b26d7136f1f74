import Verif.Spec.Cache
import Mathlib.Tactic.Common
import Mathlib.Tactic.NormNum
import Mathlib.Data.Nat.Cast.Order.Basic

set_option autoImplicit false
set_option linter.dupNamespace false

/-! # C31: the opening cache -/

namespace Spu.Props
open Spu.Model.Cache
open Spu.Spec.Cache (enabled stored)

variable {α D : Type}

/-- Conditions on a history.  Views have one stride per axis; the stored array has as many bytes as
its descriptor and view say; two stored arrays with the same data address lie in the same buffer
(live buffers do not overlap). -/
structure HistOk (sz : D → ℕ) (es : ℕ) (h : List (Op α D)) : Prop where
  wf : ∀ x d v, Op.set x d v ∈ h → x.shape.length = x.strides.length
  size : ∀ x d v, Op.set x d v ∈ h → x.shape.prod = sz d ∧ v.length = sz d * es
  addr : ∀ x d v y e u, Op.set x d v ∈ h → Op.set y e u ∈ h → x.data = y.data → x.buf = y.buf

theorem HistOk.tail {sz : D → ℕ} {es : ℕ} {o : Op α D} {h : List (Op α D)}
    (H : HistOk sz es (o :: h)) : HistOk sz es h :=
  ⟨fun x d v m => H.wf x d v (List.mem_cons_of_mem _ m),
   fun x d v m => H.size x d v (List.mem_cons_of_mem _ m),
   fun x d v y e u m m' => H.addr x d v y e u (List.mem_cons_of_mem _ m) (List.mem_cons_of_mem _ m')⟩

theorem key_inj_idx {p : List ℤ} {i j : ℕ} (h : key p i = key p j) : i = j := by
  unfold key at h
  have := List.append_cancel_left h
  simp only [List.cons.injEq, and_true] at this
  exact_mod_cast this

theorem key_inj {p q : List ℤ} {i j : ℕ} (h : key p i = key q j) : p = q := by
  unfold key at h
  exact (List.append_inj' h rfl).1

theorem keyPrefix_inj {x y : View} (hx : x.shape.length = x.strides.length)
    (hy : y.shape.length = y.strides.length) (h : keyPrefix x = keyPrefix y) :
    x.data = y.data ∧ x.shape = y.shape ∧ x.strides = y.strides := by
  unfold keyPrefix at h
  rw [List.cons.injEq] at h
  obtain ⟨h1, h2⟩ := h
  have hl := congrArg List.length h2
  simp only [List.length_append, List.length_map] at hl
  obtain ⟨h3, h4⟩ := List.append_inj h2 (by simp only [List.length_map]; omega)
  refine ⟨h1, ?_, h4⟩
  exact List.map_injective_iff.mpr (fun a b hab => by exact_mod_cast hab) h3

theorem view_eq_of_key {x y : View} (hx : x.shape.length = x.strides.length)
    (hy : y.shape.length = y.strides.length) (ha : x.data = y.data → x.buf = y.buf)
    {i j : ℕ} (h : key (keyPrefix x) i = key (keyPrefix y) j) : x = y := by
  obtain ⟨h1, h2, h3⟩ := keyPrefix_inj hx hy (key_inj h)
  have hb := ha h1
  unfold View.data at h1
  cases x; cases y
  simp only at *
  subst hb h2 h3
  congr
  omega

/-- the database holds `v` under the keys `ks`, all belonging to the prefix `p` -/
def Holds (db : List ℤ → Option (List α)) (p : List ℤ) (ks : List (List ℤ)) (v : List α) : Prop :=
  (∀ k ∈ ks, ∃ i, k = key p i) ∧ ∃ sl : List (List α), ks.map db = sl.map some ∧ sl.flatten = v

theorem writeLoop_spec (S : ℕ) (hS : 0 < S) (p : List ℤ) (idx : ℕ) (rest : List α)
    (db : List ℤ → Option (List α)) :
    Holds (writeLoop S hS p idx rest db).2 p (writeLoop S hS p idx rest db).1 rest ∧
    (∀ q, (∀ i, idx ≤ i → q ≠ key p i) → (writeLoop S hS p idx rest db).2 q = db q) := by
  fun_induction writeLoop S hS p idx rest db with
  | case1 idx rest db k db' h r ih =>
    obtain ⟨⟨ihk, sl, ihm, ihf⟩, ihq⟩ := ih
    refine ⟨⟨?_, (rest.take S) :: sl, ?_, ?_⟩, ?_⟩
    · intro q hq
      rcases List.mem_cons.mp hq with rfl | hq
      · exact ⟨idx, rfl⟩
      · exact ihk q hq
    · rw [List.map_cons, List.map_cons]
      congr 1
      have hne : ∀ i, idx + 1 ≤ i → k ≠ key p i := by
        intro i hi he
        have := key_inj_idx he
        omega
      rw [ihq k hne]
      simp [db']
    · rw [List.flatten_cons, ihf, List.take_append_drop]
    · intro q hq
      rw [ihq q (fun i hi => hq i (by omega))]
      have : q ≠ k := hq idx (Nat.le_refl _)
      simp [db', this]
  | case2 idx rest db k db' h =>
    refine ⟨⟨?_, [rest.take S], ?_, ?_⟩, ?_⟩
    · intro q hq
      rw [List.mem_singleton] at hq
      exact ⟨idx, hq⟩
    · simp [db']
    · have : rest.drop S = [] := List.eq_nil_of_length_eq_zero (by simpa using h)
      rw [List.flatten_singleton]
      have h2 := List.take_append_drop S rest
      rw [this, List.append_nil] at h2
      exact h2
    · intro q hq
      have : q ≠ k := hq idx (Nat.le_refl _)
      simp [db', this]

theorem readLoop_spec (db : List ℤ → Option (List α)) (size : ℕ) (ks : List (List ℤ))
    (sl : List (List α)) (h : ks.map db = sl.map some) (acc : List α)
    (hs : acc.length + sl.flatten.length = size) :
    readLoop db size ks acc = some (acc ++ sl.flatten) := by
  induction ks generalizing sl acc with
  | nil =>
    cases sl with
    | nil => simp only [List.flatten_nil, List.length_nil, add_zero] at hs; simp [readLoop, hs]
    | cons a b => simp at h
  | cons k ks ih =>
    cases sl with
    | nil => simp at h
    | cons a b =>
      rw [List.map_cons, List.map_cons, List.cons.injEq] at h
      rw [List.flatten_cons, List.length_append] at hs
      simp only [readLoop, h.1]
      rw [if_pos (by omega), ih b h.2 (acc ++ a) (by rw [List.length_append]; omega)]
      simp

/-- the cache agrees with the meaning of the history -/
structure Inv (h : List (Op α D)) (c : Cache α D) : Prop where
  en : ∀ b, (c.cmeta b).isSome = enabled h b
  src : ∀ y d v, stored h y = some (d, v) → Op.set y d v ∈ h
  sub : ∀ y, enabled h y.buf = false → stored h y = none
  buf : ∀ b l, c.cmeta b = some l → ∀ e ∈ l, e.1.buf = b
  nodup : ∀ b l, c.cmeta b = some l → (l.map Prod.fst).Nodup
  miss : ∀ y l, c.cmeta y.buf = some l → (find l y = none ↔ stored h y = none)
  hit : ∀ y l m, c.cmeta y.buf = some l → find l y = some m →
    ∃ v, stored h y = some (m.replay, v) ∧ Holds c.db (keyPrefix y) m.keys v

theorem find_cons (x : View) (m : CacheMeta D) (l : List (View × CacheMeta D)) (y : View) :
    find ((x, m) :: l) y = if x = y then some m else find l y := by
  unfold find
  rw [List.find?_cons]
  by_cases h : x = y <;> simp [h]

theorem find_mem {l : List (View × CacheMeta D)} {y : View} {m : CacheMeta D}
    (h : find l y = some m) : (y, m) ∈ l := by
  unfold find at h
  rw [Option.map_eq_some_iff] at h
  obtain ⟨⟨a, b⟩, h1, h2⟩ := h
  have := List.find?_some h1
  have hm := List.mem_of_find?_eq_some h1
  simp only [decide_eq_true_eq] at this
  simp only at h2
  subst this h2
  exact hm

theorem mem_find {l : List (View × CacheMeta D)} (hn : (l.map Prod.fst).Nodup) {y : View}
    {m : CacheMeta D} (h : (y, m) ∈ l) : find l y = some m := by
  induction l with
  | nil => cases h
  | cons e l ih =>
    obtain ⟨x, m'⟩ := e
    rw [List.map_cons, List.nodup_cons] at hn
    rw [find_cons]
    rcases List.mem_cons.mp h with h | h
    · cases h; rw [if_pos rfl]
    · have : x ≠ y := by
        rintro rfl
        exact hn.1 (List.mem_map.mpr ⟨_, h, rfl⟩)
      rw [if_neg this, ih hn.2 h]

theorem holds_congr {db db' : List ℤ → Option (List α)} {p : List ℤ} {ks : List (List ℤ)} {v : List α}
    (h : Holds db p ks v) (he : ∀ k ∈ ks, db' k = db k) : Holds db' p ks v := by
  obtain ⟨h1, sl, h2, h3⟩ := h
  refine ⟨h1, sl, ?_, h3⟩
  rw [← h2]
  exact List.map_congr_left he

theorem drop_keys (ks : List (List ℤ)) (db : List ℤ → Option (List α)) (q : List ℤ) (h : q ∉ ks) :
    ks.foldl (fun db k => fun q => if q = k then none else db q) db q = db q := by
  induction ks generalizing db with
  | nil => rfl
  | cons k ks ih =>
    rw [List.mem_cons, not_or] at h
    rw [List.foldl_cons, ih _ h.2, if_neg h.1]

theorem drop_all (l : List (View × CacheMeta D)) (db : List ℤ → Option (List α)) (q : List ℤ)
    (h : ∀ e ∈ l, q ∉ e.2.keys) :
    l.foldl (fun db e => e.2.keys.foldl (fun db k => fun q => if q = k then none else db q) db) db q
      = db q := by
  induction l generalizing db with
  | nil => rfl
  | cons e l ih =>
    rw [List.foldl_cons, ih _ (fun e he => h e (List.mem_cons_of_mem _ he)),
      drop_keys _ _ _ (h e List.mem_cons_self)]

theorem inv_enable {h : List (Op α D)} {c : Cache α D} (I : Inv h c) (x : View) :
    Inv (.enable x :: h) (enable c x) := by
  unfold enable
  cases hc : c.cmeta x.buf with
  | some l =>
    have hen : enabled h x.buf = true := by rw [← I.en, hc]; rfl
    refine ⟨?_, ?_, ?_, I.buf, I.nodup, I.miss, I.hit⟩
    · intro b
      rw [I.en b, enabled]
      split_ifs with hb
      · rw [← hb]; exact hen
      · rfl
    · intro y d v hy; exact List.mem_cons_of_mem _ (I.src y d v hy)
    · intro y hy
      rw [enabled] at hy
      split_ifs at hy
      exact I.sub y hy
  | none =>
    have hen : enabled h x.buf = false := by rw [← I.en, hc]; rfl
    refine ⟨?_, ?_, ?_, ?_, ?_, ?_, ?_⟩
    · intro b
      simp only [enabled]
      split_ifs with h1 h2 h2
      · rfl
      · exact absurd h1.symm h2
      · exact absurd h2.symm h1
      · exact I.en b
    · intro y d v hy; exact List.mem_cons_of_mem _ (I.src y d v hy)
    · intro y hy
      rw [enabled] at hy
      split_ifs at hy
      exact I.sub y hy
    · intro b l hl e he
      simp only at hl
      split_ifs at hl
      · cases hl; cases he
      · exact I.buf b l hl e he
    · intro b l hl
      simp only at hl
      split_ifs at hl
      · cases hl; exact List.nodup_nil
      · exact I.nodup b l hl
    · intro y l hl
      simp only at hl
      split_ifs at hl with hb
      · cases hl
        simp only [stored]
        rw [I.sub y (by rw [hb]; exact hen)]
        simp [find]
      · exact I.miss y l hl
    · intro y l m hl hm
      simp only at hl
      split_ifs at hl with hb
      · cases hl; simp [find] at hm
      · exact I.hit y l m hl hm

theorem inv_set {sz : D → ℕ} {es : ℕ} (S : ℕ) (hS : 0 < S) {h : List (Op α D)} {c : Cache α D}
    (I : Inv h c) (x : View) (d : D) (v : List α) (H : HistOk sz es (.set x d v :: h)) :
    Inv (.set x d v :: h) ((set S hS c x d v).getD c) := by
  have keep : ¬ (enabled h x.buf = true ∧ stored h x = none) → set S hS c x d v = none ∧
      (∀ y, stored (.set x d v :: h) y = stored h y) := by
    intro hn
    constructor
    · unfold Spu.Model.Cache.set
      cases hc : c.cmeta x.buf with
      | none => rfl
      | some l =>
        simp only
        cases hf : find l x with
        | some m => rfl
        | none =>
          exfalso
          apply hn
          exact ⟨by rw [← I.en, hc]; rfl, (I.miss x l hc).mp hf⟩
    · intro y
      rw [stored, if_neg]
      rintro ⟨rfl, h1, h2⟩
      exact hn ⟨h1, h2⟩
  by_cases hacc : enabled h x.buf = true ∧ stored h x = none
  · obtain ⟨he, hs⟩ := hacc
    have hst : ∀ y, stored (.set x d v :: h) y = if x = y then some (d, v) else stored h y := by
      intro y
      rw [stored]
      by_cases hxy : x = y
      · subst hxy; rw [if_pos ⟨rfl, he, hs⟩, if_pos rfl]
      · rw [if_neg (fun hh => hxy hh.1), if_neg hxy]
    obtain ⟨l, hl⟩ := Option.isSome_iff_exists.mp (by rw [I.en x.buf]; exact he)
    have hf : find l x = none := (I.miss x l hl).mpr hs
    obtain ⟨hw1, hw2⟩ := writeLoop_spec S hS (keyPrefix x) 0 v c.db
    have hset : set S hS c x d v = some
        { cmeta := fun b => if b = x.buf then
            some ((x, ⟨d, (writeLoop S hS (keyPrefix x) 0 v c.db).1⟩) :: l) else c.cmeta b
          db := (writeLoop S hS (keyPrefix x) 0 v c.db).2 } := by
      unfold Spu.Model.Cache.set; rw [hl]; simp only [hf]
    rw [hset, Option.getD_some]
    -- other entries are untouched
    have hother : ∀ y lb m, c.cmeta y.buf = some lb → find lb y = some m → y ≠ x →
        ∃ u, stored h y = some (m.replay, u) ∧
          Holds (writeLoop S hS (keyPrefix x) 0 v c.db).2 (keyPrefix y) m.keys u := by
      intro y lb m hlb hm hne
      obtain ⟨u, hu1, hu2⟩ := I.hit y lb m hlb hm
      refine ⟨u, hu1, holds_congr hu2 ?_⟩
      intro k hk
      obtain ⟨i, rfl⟩ := hu2.1 k hk
      apply hw2
      intro j _ hkey
      have hy := List.mem_cons_of_mem (Op.set x d v) (I.src y _ u hu1)
      have hx : Op.set x d v ∈ (Op.set x d v :: h) := List.mem_cons_self
      exact hne (view_eq_of_key (H.wf _ _ _ hy) (H.wf _ _ _ hx) (H.addr _ _ _ _ _ _ hy hx) hkey)
    refine ⟨?_, ?_, ?_, ?_, ?_, ?_, ?_⟩
    · intro b
      simp only [enabled]
      split_ifs with hb
      · rw [hb, he]; rfl
      · exact I.en b
    · intro y e u hy
      rw [hst] at hy
      split_ifs at hy with hxy
      · cases hy; subst hxy; exact List.mem_cons_self
      · exact List.mem_cons_of_mem _ (I.src y e u hy)
    · intro y hy
      rw [enabled] at hy
      rw [hst, if_neg, I.sub y hy]
      rintro rfl
      rw [he] at hy; cases hy
    · intro b lb hlb e hemem
      simp only at hlb
      split_ifs at hlb with hb
      · cases hlb
        rcases List.mem_cons.mp hemem with rfl | hemem
        · exact hb.symm
        · rw [hb]; exact I.buf _ l hl e hemem
      · exact I.buf b lb hlb e hemem
    · intro b lb hlb
      simp only at hlb
      split_ifs at hlb with hb
      · cases hlb
        rw [List.map_cons, List.nodup_cons]
        refine ⟨?_, I.nodup _ l hl⟩
        intro hmem
        obtain ⟨⟨a, m⟩, hm1, hm2⟩ := List.mem_map.mp hmem
        simp only at hm2
        subst hm2
        rw [mem_find (I.nodup _ l hl) hm1] at hf
        cases hf
      · exact I.nodup b lb hlb
    · intro y lb hlb
      simp only at hlb
      rw [hst]
      split_ifs at hlb with hb
      · cases hlb
        rw [find_cons]
        by_cases hxy : x = y
        · rw [if_pos hxy, if_pos hxy]; simp
        · rw [if_neg hxy, if_neg hxy]; exact I.miss y l (by rw [hb]; exact hl)
      · rw [if_neg (by rintro rfl; exact hb rfl)]
        exact I.miss y lb hlb
    · intro y lb m hlb hm
      simp only at hlb
      rw [hst]
      split_ifs at hlb with hb
      · cases hlb
        rw [find_cons] at hm
        by_cases hxy : x = y
        · rw [if_pos hxy] at hm
          cases hm
          rw [if_pos hxy]
          subst hxy
          exact ⟨v, rfl, hw1⟩
        · rw [if_neg hxy] at hm
          rw [if_neg hxy]
          exact hother y l m (by rw [hb]; exact hl) hm (fun e => hxy e.symm)
      · have hxy : x ≠ y := by rintro rfl; exact hb rfl
        rw [if_neg hxy]
        exact hother y lb m hlb hm hxy.symm
  · obtain ⟨h1, h2⟩ := keep hacc
    rw [h1, Option.getD_none]
    refine ⟨I.en, ?_, ?_, I.buf, I.nodup, ?_, ?_⟩
    · intro y e u hy; rw [h2] at hy; exact List.mem_cons_of_mem _ (I.src y e u hy)
    · intro y hy; rw [h2]; exact I.sub y hy
    · intro y l hl; rw [h2]; exact I.miss y l hl
    · intro y l m hl hm; rw [h2]; exact I.hit y l m hl hm

theorem inv_disable {sz : D → ℕ} {es : ℕ} {h : List (Op α D)} {c : Cache α D}
    (I : Inv h c) (x : View) (H : HistOk sz es h) :
    Inv (.disable x :: h) (disable c x) := by
  unfold disable
  cases hc : c.cmeta x.buf with
  | none =>
    have hen : enabled h x.buf = false := by rw [← I.en, hc]; rfl
    have hst : ∀ y, stored (.disable x :: h) y = stored h y := by
      intro y
      rw [stored]
      split_ifs with hb
      · rw [I.sub y (by rw [← hb]; exact hen)]
      · rfl
    refine ⟨?_, ?_, ?_, I.buf, I.nodup, ?_, ?_⟩
    · intro b
      simp only [enabled]
      split_ifs with hb
      · rw [← hb, hc]; rfl
      · exact I.en b
    · intro y e u hy; rw [hst] at hy; exact List.mem_cons_of_mem _ (I.src y e u hy)
    · intro y hy
      rw [hst]
      rw [enabled] at hy
      split_ifs at hy with hb
      · exact I.sub y (by rw [← hb]; exact hen)
      · exact I.sub y hy
    · intro y l hl; rw [hst]; exact I.miss y l hl
    · intro y l m hl hm; rw [hst]; exact I.hit y l m hl hm
  | some l =>
    refine ⟨?_, ?_, ?_, ?_, ?_, ?_, ?_⟩
    · intro b
      simp only [enabled]
      split_ifs with h1 h2 h2
      · rfl
      · exact absurd h1.symm h2
      · exact absurd h2.symm h1
      · exact I.en b
    · intro y e u hy
      rw [stored] at hy
      split_ifs at hy
      exact List.mem_cons_of_mem _ (I.src y e u hy)
    · intro y hy
      rw [enabled] at hy
      rw [stored]
      split_ifs at hy ⊢
      · rfl
      · exact I.sub y hy
    · intro b lb hlb
      simp only at hlb
      split_ifs at hlb
      exact I.buf b lb hlb
    · intro b lb hlb
      simp only at hlb
      split_ifs at hlb
      exact I.nodup b lb hlb
    · intro y lb hlb
      simp only at hlb
      split_ifs at hlb with hb
      rw [stored, if_neg (fun e => hb e.symm)]
      exact I.miss y lb hlb
    · intro y lb m hlb hm
      simp only at hlb
      split_ifs at hlb with hb
      rw [stored, if_neg (fun e => hb e.symm)]
      obtain ⟨u, hu1, hu2⟩ := I.hit y lb m hlb hm
      refine ⟨u, hu1, holds_congr hu2 ?_⟩
      intro k hk
      obtain ⟨i, rfl⟩ := hu2.1 k hk
      apply drop_all
      intro e he hmem
      have heb := I.buf _ l hc e he
      have hef : find l e.1 = some e.2 := mem_find (I.nodup _ l hc) he
      obtain ⟨t, ht1, ht2⟩ := I.hit e.1 l e.2 (by rw [heb]; exact hc) hef
      obtain ⟨j, hj⟩ := ht2.1 _ hmem
      have hy := I.src y _ u hu1
      have hx := I.src e.1 _ t ht1
      have := view_eq_of_key (H.wf _ _ _ hy) (H.wf _ _ _ hx) (H.addr _ _ _ _ _ _ hy hx) hj
      rw [this] at hb
      exact hb heb

theorem inv_run {sz : D → ℕ} {es : ℕ} (S : ℕ) (hS : 0 < S) (h : List (Op α D)) (H : HistOk sz es h) :
    Inv h (run S hS h.reverse) := by
  induction h with
  | nil =>
    refine ⟨fun b => rfl, ?_, fun y _ => rfl, ?_, ?_, ?_, ?_⟩ <;> intros <;> simp_all [run, empty, stored]
  | cons o h ih =>
    have ih := ih H.tail
    have e : run S hS (o :: h).reverse = step S hS (run S hS h.reverse) o := by
      simp [run, List.foldl_append]
    rw [e]
    cases o with
    | enable x => exact inv_enable ih x
    | set x d v => exact inv_set S hS ih x d v H
    | disable x => exact inv_disable ih x H.tail

theorem prod_transpose (x : View) : x.transpose.shape.prod = x.shape.prod := by
  simp [View.transpose, List.prod_reverse]

/-- C31: after any history of enable / store / disable requests (newest first in `h`), a lookup of
`x` never fails and answers exactly what the history says: not enabled; a replay with the descriptor
and bytes stored for `x` since its buffer was enabled; otherwise, if allowed, a transposed replay
of what was stored for its transpose; otherwise a miss. -/
theorem c31_lookup (sz : D → ℕ) (es : ℕ) (S : ℕ) (hS : 0 < S) (h : List (Op α D))
    (H : HistOk sz es h) (x : View) (allowT : Bool) :
    get sz es (run S hS h.reverse) x allowT = some
      (if enabled h x.buf = false then .disabled
       else match stored h x with
        | some (d, v) => .hit d v
        | none => match allowT, stored h x.transpose with
          | true, some (d, v) => .hitTransposed d v
          | _, _ => .miss) := by
  have I := inv_run S hS h H
  set c := run S hS h.reverse with hcdef
  have hread : ∀ y l m, c.cmeta y.buf = some l → find l y = some m →
      ∃ v, stored h y = some (m.replay, v) ∧ y.shape.prod = sz m.replay ∧
        readLoop c.db (sz m.replay * es) m.keys [] = some v := by
    intro y l m hl hm
    obtain ⟨v, hv, _, sl, h2, h3⟩ := I.hit y l m hl hm
    obtain ⟨s1, s2⟩ := H.size _ _ _ (I.src y _ v hv)
    refine ⟨v, hv, s1, ?_⟩
    rw [readLoop_spec c.db _ m.keys sl h2 [] (by rw [h3]; simpa using s2), h3]
    rfl
  unfold Spu.Model.Cache.get
  cases hc : c.cmeta x.buf with
  | none =>
    have : enabled h x.buf = false := by rw [← I.en, hc]; rfl
    rw [if_pos this]
  | some l =>
    have hen : enabled h x.buf = true := by rw [← I.en, hc]; rfl
    rw [if_neg (by rw [hen]; simp)]
    simp only
    cases hf : find l x with
    | some m =>
      obtain ⟨v, hv, hs, hr⟩ := hread x l m hc hf
      simp only [chk, hs, decide_true, if_true, hr, hv, Option.map_some]
    | none =>
      rw [(I.miss x l hc).mp hf]
      simp only
      cases allowT with
      | false => rfl
      | true =>
        simp only [if_true]
        have hb : x.transpose.buf = x.buf := rfl
        cases hf' : find l x.transpose with
        | none =>
          rw [(I.miss x.transpose l (by rw [hb]; exact hc)).mp hf']
        | some m =>
          obtain ⟨v, hv, hs, hr⟩ := hread x.transpose l m (by rw [hb]; exact hc) hf'
          rw [prod_transpose] at hs
          simp only [chk, hs, decide_true, if_true, hr, hv, Option.map_some]

/-- C31: a store is accepted exactly when the buffer is enabled and nothing is stored for that very
array. -/
theorem c31_store_rejected (sz : D → ℕ) (es : ℕ) (S : ℕ) (hS : 0 < S) (h : List (Op α D))
    (H : HistOk sz es h) (x : View) (d : D) (v : List α) :
    set S hS (run S hS h.reverse) x d v = none ↔
      (enabled h x.buf = false ∨ stored h x ≠ none) := by
  have I := inv_run S hS h H
  unfold Spu.Model.Cache.set
  cases hc : (run S hS h.reverse).cmeta x.buf with
  | none =>
    have : enabled h x.buf = false := by rw [← I.en, hc]; rfl
    simp [this]
  | some l =>
    have hen : enabled h x.buf = true := by rw [← I.en, hc]; rfl
    simp only [hen, Bool.true_eq_false, false_or]
    cases hf : find l x with
    | none => simp [(I.miss x l hc).mp hf]
    | some m =>
      have := (I.miss x l hc).not.mp (by rw [hf]; simp)
      simp [this]

/-- a concrete history: enable, store, look up the array and its transpose -/
def demoView : View := ⟨4096, 16, [2, 3], [3, 1]⟩
def demoHist : List (Op ℕ ℕ) := [.set demoView 6 [1, 2, 3, 4, 5, 6], .enable demoView]

theorem demo_ok : HistOk (fun d : ℕ => d) 1 demoHist := by
  refine ⟨?_, ?_, ?_⟩ <;> intros <;> simp_all [demoHist, demoView, View.data]

example : get (fun d : ℕ => d) 1 (run 4 (by norm_num) demoHist.reverse) demoView.transpose true
    = some (.hitTransposed 6 [1, 2, 3, 4, 5, 6]) := by
  rw [c31_lookup _ _ _ _ _ demo_ok]; decide +kernel

example : get (fun d : ℕ => d) 1 (run 4 (by norm_num)
    ((Op.disable demoView :: demoHist).reverse)) demoView true = some .disabled := by
  rw [c31_lookup (fun d : ℕ => d) 1 _ _ _ ⟨?_, ?_, ?_⟩]
  · decide +kernel
  all_goals intros; simp_all [demoHist, demoView, View.data]

end Spu.Props
