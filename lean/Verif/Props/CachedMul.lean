import Verif.Model.CachedMul
import Verif.Props.Cache
import Verif.Props.Dealer
import Verif.Props.Semi2k

set_option autoImplicit false
set_option linter.dupNamespace false
set_option linter.unusedSectionVars false

/-!
# C20/C31: products with cached openings are right after every history

A program is any list of enable / disable / multiply / square / matrix-multiply requests on any arrays.
After every such history, the next product opens to the product of the secrets.
-/

namespace Spu.Props
open Spu.Model Spu.Model.Dealer Spu.Model.Cache Spu.Model.CachedMul Spu.Spec Spu.Lemmas
open Spu.Spec.Cache (enabled stored)

variable {n w : ℕ} [NeZero n] {Seed : Type} [Inhabited Seed]

/-- the live array views of a program: one stride per axis, and buffers do not overlap -/
structure ViewsOk (V : View → Prop) : Prop where
  wf : ∀ x, V x → x.shape.length = x.strides.length
  addr : ∀ x y, V x → V y → x.data = y.data → x.buf = y.buf

/-- the transposed view of a matrix shows the transposed contents (this is property C05) -/
def TransposeOk (val : View → Fin n → Arr w) : Prop :=
  ∀ x p r c, x.shape = [r, c] → ∀ i < r, ∀ j < c, val x p (i * c + j) = val x.transpose p (j * r + i)

/-- a stored opening is the opening of exactly that array under exactly the described mask -/
structure EntryOk (K : Ks w Seed) (val : View → Fin n → Arr w) (x : View) (d : SDesc n Seed)
    (v : List (Fin n → BitVec w)) : Prop where
  desc : DescOk d.1
  size : d.2 = x.shape.prod
  val : ∀ idx < x.shape.prod, ∀ i, v.getD idx (fun _ => 0) i =
    total (fun p => val x p idx) - total (fun p => draw K (d.1.seed p) (d.1.ctr p) idx)

/-- the cache is the result of a history whose stored entries are all right -/
structure CInv (K : Ks w Seed) (S : ℕ) (hS : 0 < S) (val : View → Fin n → Arr w) (V : View → Prop)
    (c : Cache (Fin n → BitVec w) (SDesc n Seed))
    (h : List (Op (Fin n → BitVec w) (SDesc n Seed))) : Prop where
  run : c = Cache.run S hS h.reverse
  hist : HistOk Prod.snd 1 h
  live : ∀ x d v, Op.set x d v ∈ h → V x
  entry : ∀ x d v, Op.set x d v ∈ h → EntryOk K val x d v

/-- what a lookup may answer -/
inductive LookOk (K : Ks w Seed) (val : View → Fin n → Arr w)
    (h : List (Op (Fin n → BitVec w) (SDesc n Seed))) (x : View) (t : Bool) : Look n w Seed → Prop
  | disabled : LookOk K val h x t .disabled
  | miss : enabled h x.buf = true → stored h x = none → LookOk K val h x t .miss
  | hit (d v) : EntryOk K val x d v → LookOk K val h x t (.hit d v)
  | hitT (d v) : t = true → EntryOk K val x.transpose d v → LookOk K val h x t (.hitTransposed d v)

variable {K : Ks w Seed} {S : ℕ} {hS : 0 < S} {val : View → Fin n → Arr w} {V : View → Prop}

theorem look_ok {s : Sys n w Seed} {h : List (Op (Fin n → BitVec w) (SDesc n Seed))}
    (I : CInv K S hS val V s.cache h) (x : View) (t : Bool) :
    ∃ l, look s x t = some l ∧ LookOk K val h x t l := by
  have J := inv_run S hS h I.hist
  have e := c31_lookup Prod.snd 1 S hS h I.hist x t
  rw [← I.run] at e
  refine ⟨_, e, ?_⟩
  split_ifs with hen
  · exact .disabled
  · have hen' : enabled h x.buf = true := by simpa using hen
    split
    · next d v hs => exact .hit d v (I.entry _ _ _ (J.src _ _ _ hs))
    · next hs =>
      split
      · next d v hs' => exact .hitT d v rfl (I.entry _ _ _ (J.src _ _ _ hs'))
      · exact .miss hen' hs

theorem descOf_ok {h : List (Op (Fin n → BitVec w) (SDesc n Seed))} {x : View} {t : Bool}
    {l : Look n w Seed} (L : LookOk K val h x t l) : DescArgOk (descOf l) := by
  intro d hd
  cases L with
  | disabled => simp [descOf] at hd
  | miss _ _ => simp only [descOf, Option.some.injEq] at hd; subst hd; exact Or.inl rfl
  | hit d' v E => simp only [descOf, Option.some.injEq] at hd; subst hd; exact Or.inr E.desc
  | hitT d' v _ E => simp only [descOf, Option.some.injEq] at hd; subst hd; exact Or.inr E.desc

/-- masks handed out by `Mul`/`Square` are the ones their descriptor describes -/
theorem drawOrReplay_mask (K : Ks w Seed) (adj : Fin n) (d : Dealer n Seed) (size : ℕ)
    (ds : Option (Desc n Seed)) (hnt : ∀ x, ds = some x → x.status ≠ .transposeReplay)
    (e : Desc n Seed) (h : fillDesc d ds = some e) (p : Fin n) :
    (drawOrReplay K adj d size (fillDesc d ds)).1 p = draw K (e.seed p) (e.ctr p) := by
  rw [h]
  unfold drawOrReplay
  simp only
  split
  · rfl
  · next hs =>
    cases ds with
    | none => simp [fillDesc] at h
    | some ds =>
      simp only [fillDesc] at h
      split at h
      · simp only [Option.some.injEq] at h; subst h; rfl
      · next hi =>
        simp only [Option.some.injEq] at h
        subst h
        have := hnt _ rfl
        cases hst : ds.status <;> simp_all

theorem drawOrReplayDot_mask (K : Ks w Seed) (adj : Fin n) (d : Dealer n Seed) (size : ℕ)
    (ds : Option (Desc n Seed)) (e : Desc n Seed) (h : fillDesc d ds = some e) (p : Fin n) :
    (drawOrReplayDot K adj d size (fillDesc d ds)).1 p = draw K (e.seed p) (e.ctr p) := by
  rw [h]; rfl

/-- what the descriptor handed back for a lookup says -/
theorem fill_cases {h : List (Op (Fin n → BitVec w) (SDesc n Seed))} {x : View} {t : Bool}
    {l : Look n w Seed} (L : LookOk K val h x t l) (d : Dealer n Seed) :
    (l = .miss → ∃ e, fillDesc d (descOf l) = some e ∧ e.status = .init) ∧
    (∀ e v, l = .hit e v → fillDesc d (descOf l) = some { e.1 with status := .replay }) ∧
    (∀ e v, l = .hitTransposed e v →
      fillDesc d (descOf l) = some { e.1 with status := .transposeReplay }) := by
  refine ⟨?_, ?_, ?_⟩
  · rintro rfl; exact ⟨_, rfl, rfl⟩
  · rintro e v rfl; simp [descOf, fillDesc]
  · rintro e v rfl; simp [descOf, fillDesc]

theorem not_transposed {h : List (Op (Fin n → BitVec w) (SDesc n Seed))} {x : View}
    {l : Look n w Seed} (L : LookOk K val h x false l) :
    ∀ d, descOf l = some d → d.status ≠ .transposeReplay := by
  intro d hd
  cases L with
  | disabled => simp [descOf] at hd
  | miss _ _ => simp only [descOf, Option.some.injEq] at hd; subst hd; simp
  | hit d' v E => simp only [descOf, Option.some.injEq] at hd; subst hd; simp
  | hitT d' v ht E => cases ht

/-- storing the opening after a miss keeps the cache right -/
theorem storeIf_ok {c : Cache (Fin n → BitVec w) (SDesc n Seed)}
    {h : List (Op (Fin n → BitVec w) (SDesc n Seed))} (hV : ViewsOk V)
    (I : CInv K S hS val V c h) (x : View) (hx : V x) (l : Look n w Seed)
    (hl : l = .miss → enabled h x.buf = true ∧ stored h x = none) (d : Option (Desc n Seed))
    (xa : Fin n → Arr w)
    (hd : l = .miss → ∃ e, d = some e ∧ DescOk e ∧ ∀ idx < x.shape.prod, ∀ i, xa i idx =
      total (fun p => val x p idx) - total (fun p => draw K (e.seed p) (e.ctr p) idx)) :
    ∃ c' h', storeIf S hS l c x d xa = some c' ∧ CInv K S hS val V c' h' ∧
      (∀ b, enabled h' b = enabled h b) ∧ (∀ y, y ≠ x → stored h' y = stored h y) := by
  by_cases hm : l = .miss
  · obtain ⟨he, hs⟩ := hl hm
    obtain ⟨e, rfl, hok, hxa⟩ := hd hm
    subst hm
    set v : List (Fin n → BitVec w) := (List.range x.shape.prod).map (fun idx i => xa i idx) with hv
    have E : EntryOk K val x (e, x.shape.prod) v := by
      refine ⟨hok, rfl, ?_⟩
      intro idx hidx i
      rw [hv, List.getD_eq_getElem?_getD, List.getElem?_map, List.getElem?_range hidx]
      exact hxa idx hidx i
    set h' := Op.set x (e, x.shape.prod) v :: h with hh'
    have H' : HistOk Prod.snd 1 h' := by
      refine ⟨?_, ?_, ?_⟩
      · intro y d u hy
        rcases List.mem_cons.mp hy with hy | hy
        · cases hy; exact hV.wf x hx
        · exact I.hist.wf _ _ _ hy
      · intro y d u hy
        rcases List.mem_cons.mp hy with hy | hy
        · cases hy; exact ⟨rfl, by simp [hv]⟩
        · exact I.hist.size _ _ _ hy
      · intro y d u z f t hy hz
        have h1 : V y := by
          rcases List.mem_cons.mp hy with hy | hy
          · cases hy; exact hx
          · exact I.live _ _ _ hy
        have h2 : V z := by
          rcases List.mem_cons.mp hz with hz | hz
          · cases hz; exact hx
          · exact I.live _ _ _ hz
        exact hV.addr y z h1 h2
    have hset : (Cache.set S hS c x (e, x.shape.prod) v).isSome := by
      rw [Option.isSome_iff_ne_none, I.run, Ne, c31_store_rejected Prod.snd 1 S hS h I.hist]
      simp [he, hs]
    obtain ⟨c', hc'⟩ := Option.isSome_iff_exists.mp hset
    refine ⟨c', h', hc', ⟨?_, H', ?_, ?_⟩, fun b => rfl, ?_⟩
    · have : Cache.run S hS h'.reverse = Cache.step S hS (Cache.run S hS h.reverse) (Op.set x (e, x.shape.prod) v) := by
        simp [Cache.run, hh', List.foldl_append]
      rw [this, ← I.run]
      simp only [Cache.step, hc', Option.getD_some]
    · intro y d u hy
      rcases List.mem_cons.mp hy with hy | hy
      · cases hy; exact hx
      · exact I.live _ _ _ hy
    · intro y d u hy
      rcases List.mem_cons.mp hy with hy | hy
      · cases hy; exact E
      · exact I.entry _ _ _ hy
    · intro y hy
      rw [hh', stored, if_neg (fun hh => hy hh.1.symm)]
  · refine ⟨c, h, ?_, I, fun b => rfl, fun y _ => rfl⟩
    unfold storeIf
    split
    · exact absurd rfl hm
    · rfl

/-- the whole state is right -/
def SInv (K : Ks w Seed) (S : ℕ) (hS : 0 < S) (val : View → Fin n → Arr w) (V : View → Prop)
    (s : Sys n w Seed) : Prop := DealerOk s.dealer ∧ ∃ h, CInv K S hS val V s.cache h

/-- openings of element-wise operands equal secret minus mask -/
theorem open_elem {h : List (Op (Fin n → BitVec w) (SDesc n Seed))} {x : View} {l : Look n w Seed}
    (L : LookOk K val h x false l) (a : Fin n → Arr w) (idx : ℕ) (hidx : idx < x.shape.prod)
    (ha : ∀ e v, l = .hit e v → ∀ p, a p = draw K (e.1.seed p) (e.1.ctr p)) (i : Fin n) :
    HitOk (hitAt l i idx) (fun p => val x p idx) (fun p => a p idx) := by
  intro v hv
  cases L with
  | disabled => simp [hitAt] at hv
  | miss _ _ => simp [hitAt] at hv
  | hit e o E =>
    simp only [hitAt, Option.some.injEq] at hv
    rw [← hv, E.val idx hidx i]
    congr 2
    funext p
    rw [ha e o rfl p]
  | hitT d' v ht E => cases ht

theorem fixSecond_ok {h : List (Op (Fin n → BitVec w) (SDesc n Seed))} {x y : View} {t : Bool}
    {lx ly : Look n w Seed} (Ly : LookOk K val h y t ly) :
    LookOk K val h y t (fixSecond x y lx ly) := by
  unfold fixSecond
  split
  · split_ifs
    · exact .disabled
    · exact Ly
  · exact Ly

theorem miss_of_look {h : List (Op (Fin n → BitVec w) (SDesc n Seed))} {x : View} {t : Bool}
    {l : Look n w Seed} (L : LookOk K val h x t l) (hm : l = .miss) :
    enabled h x.buf = true ∧ stored h x = none := by
  subst hm; cases L with | miss h1 h2 => exact ⟨h1, h2⟩

theorem openMasked_none (x a : Fin n → BitVec w) (i : Fin n) :
    Semi2k.openMasked none x a i = total x - total a :=
  openMasked_eq none x a (fun v hv => by cases hv) i

/-- C20/C31: multiplication in any right state succeeds, opens to the product, and leaves a right
state. -/
theorem mulSys_ok (hV : ViewsOk V) (adj : Fin n) (s : Sys n w Seed) (I : SInv K S hS val V s)
    (x y : View) (hx : V x) (hy : V y) (hsh : x.shape = y.shape) :
    ∃ z s', mulSys K adj S hS val s x y = some (z, s') ∧ SInv K S hS val V s' ∧
      ∀ idx < x.shape.prod, total (fun i => z i idx) =
        total (fun i => val x i idx) * total (fun i => val y i idx) := by
  obtain ⟨hd, h, I⟩ := I
  obtain ⟨lx, elx, Lx⟩ := look_ok I x false
  obtain ⟨ly0, ely, Ly0⟩ := look_ok I y false
  have Ly : LookOk K val h y false (fixSecond x y lx ly0) := fixSecond_ok Ly0
  unfold mulSys
  rw [if_neg (by simpa using hsh), elx, ely]
  simp only [Option.bind_eq_bind, Option.bind_some, Option.pure_def]
  set ly := fixSecond x y lx ly0 with hly
  set r := Dealer.mul K adj s.dealer x.shape.prod (descOf lx) (descOf ly) with hr
  obtain ⟨htr, hd', hxd, hyd⟩ := c21_mul K adj s.dealer x.shape.prod _ _ hd (descOf_ok Lx) (descOf_ok Ly)
  rw [← hr] at htr hd' hxd hyd
  have hrx : r.2.1.1 = fillDesc s.dealer (descOf lx) := rfl
  set d1 := (drawOrReplay K adj s.dealer x.shape.prod (fillDesc s.dealer (descOf lx))).2.2 with hd1
  have hry : r.2.1.2 = fillDesc d1 (descOf ly) := rfl
  have ma : ∀ e, r.2.1.1 = some e → ∀ p, r.1.1 p = draw K (e.seed p) (e.ctr p) := by
    intro e he p
    exact drawOrReplay_mask K adj s.dealer _ _ (not_transposed Lx) e he p
  have mb : ∀ e, r.2.1.2 = some e → ∀ p, r.1.2.1 p = draw K (e.seed p) (e.ctr p) := by
    intro e he p
    exact drawOrReplay_mask K adj d1 _ _ (not_transposed Ly) e he p
  have hitx : ∀ e v, lx = .hit e v → ∀ p, r.1.1 p = draw K (e.1.seed p) (e.1.ctr p) := by
    intro e v he p
    exact ma _ (hrx.trans ((fill_cases Lx s.dealer).2.1 e v he)) p
  have hity : ∀ e v, ly = .hit e v → ∀ p, r.1.2.1 p = draw K (e.1.seed p) (e.1.ctr p) := by
    intro e v he p
    exact mb _ (hry.trans ((fill_cases Ly d1).2.1 e v he)) p
  -- the openings
  have ox : ∀ idx < x.shape.prod, ∀ i, Semi2k.openMasked (hitAt lx i idx) (fun p => val x p idx)
      (fun p => r.1.1 p idx) i = total (fun p => val x p idx) - total (fun p => r.1.1 p idx) :=
    fun idx hidx i => openMasked_eq _ _ _ (open_elem Lx _ idx hidx hitx i) i
  have oy : ∀ idx < x.shape.prod, ∀ i, Semi2k.openMasked (hitAt ly i idx) (fun p => val y p idx)
      (fun p => r.1.2.1 p idx) i = total (fun p => val y p idx) - total (fun p => r.1.2.1 p idx) :=
    fun idx hidx i => openMasked_eq _ _ _ (open_elem Ly _ idx (by rw [← hsh]; exact hidx) hity i) i
  -- the two stores
  obtain ⟨c1, h1, es1, I1, en1, st1⟩ := storeIf_ok hV I x hx lx (miss_of_look Lx) r.2.1.1
    (fun i idx => Semi2k.openMasked (hitAt lx i idx) (fun p => val x p idx)
      (fun p => r.1.1 p idx) i) (by
      intro hm
      obtain ⟨e, he, _⟩ := (fill_cases Lx s.dealer).1 hm
      rw [← hrx] at he
      refine ⟨e, he, hxd e he, ?_⟩
      intro idx hidx i
      rw [ox idx hidx i]
      simp only [ma e he])
  obtain ⟨c2, h2, es2, I2, _, _⟩ := storeIf_ok hV I1 y hy ly (by
      intro hm
      have hne : y ≠ x := by
        rintro rfl
        rw [hly] at hm
        unfold fixSecond at hm
        split at hm
        · simp at hm
        · next hnm =>
          have h1 : lx = ly0 := by
            have := elx.symm.trans ely
            simpa using this
          exact hnm (h1.trans hm)
      rw [en1, st1 y hne]
      exact miss_of_look Ly hm) r.2.1.2
    (fun i idx => Semi2k.openMasked (hitAt ly i idx) (fun p => val y p idx)
      (fun p => r.1.2.1 p idx) i) (by
      intro hm
      obtain ⟨e, he, _⟩ := (fill_cases Ly d1).1 hm
      rw [← hry] at he
      refine ⟨e, he, hyd e he, ?_⟩
      intro idx hidx i
      rw [oy idx (by rw [hsh]; exact hidx) i]
      simp only [mb e he])
  rw [es1]
  simp only [Option.bind_some]
  rw [es2]
  refine ⟨_, _, rfl, ⟨hd', h2, I2⟩, ?_⟩
  intro idx hidx
  have hz : (fun i => Semi2k.mulAA (hitAt lx i idx) (hitAt ly i idx) (fun p => val x p idx)
      (fun p => val y p idx) (fun p => r.1.1 p idx) (fun p => r.1.2.1 p idx)
      (fun p => r.1.2.2 p idx) i) =
      Semi2k.mulAA none none (fun p => val x p idx) (fun p => val y p idx)
      (fun p => r.1.1 p idx) (fun p => r.1.2.1 p idx) (fun p => r.1.2.2 p idx) := by
    funext i
    simp only [Semi2k.mulAA, ox idx hidx i, oy idx hidx i,
      openMasked_none]
  rw [hz]
  exact c20_mul none none _ _ _ _ _ (fun v hv => by cases hv) (fun v hv => by cases hv) (htr idx)

/-- C20/C31: squaring. -/
theorem squareSys_ok (hV : ViewsOk V) (adj : Fin n) (s : Sys n w Seed) (I : SInv K S hS val V s)
    (x : View) (hx : V x) :
    ∃ z s', squareSys K adj S hS val s x = some (z, s') ∧ SInv K S hS val V s' ∧
      ∀ idx < x.shape.prod, total (fun i => z i idx) =
        total (fun i => val x i idx) * total (fun i => val x i idx) := by
  obtain ⟨hd, h, I⟩ := I
  obtain ⟨lx, elx, Lx⟩ := look_ok I x false
  unfold squareSys
  rw [elx]
  simp only [Option.bind_eq_bind, Option.bind_some, Option.pure_def]
  set r := Dealer.square K adj s.dealer x.shape.prod (descOf lx) with hr
  obtain ⟨htr, hd', hxd⟩ := c21_square K adj s.dealer x.shape.prod _ hd (descOf_ok Lx)
  rw [← hr] at htr hd' hxd
  have hrx : r.2.1 = fillDesc s.dealer (descOf lx) := rfl
  have ma : ∀ e, r.2.1 = some e → ∀ p, r.1.1 p = draw K (e.seed p) (e.ctr p) := by
    intro e he p
    exact drawOrReplay_mask K adj s.dealer _ _ (not_transposed Lx) e he p
  have hitx : ∀ e v, lx = .hit e v → ∀ p, r.1.1 p = draw K (e.1.seed p) (e.1.ctr p) := by
    intro e v he p
    exact ma _ (hrx.trans ((fill_cases Lx s.dealer).2.1 e v he)) p
  have ox : ∀ idx < x.shape.prod, ∀ i, Semi2k.openMasked (hitAt lx i idx) (fun p => val x p idx)
      (fun p => r.1.1 p idx) i = total (fun p => val x p idx) - total (fun p => r.1.1 p idx) :=
    fun idx hidx i => openMasked_eq _ _ _ (open_elem Lx _ idx hidx hitx i) i
  obtain ⟨c1, h1, es1, I1, en1, st1⟩ := storeIf_ok hV I x hx lx (miss_of_look Lx) r.2.1
    (fun i idx => Semi2k.openMasked (hitAt lx i idx) (fun p => val x p idx)
      (fun p => r.1.1 p idx) i) (by
      intro hm
      obtain ⟨e, he, _⟩ := (fill_cases Lx s.dealer).1 hm
      rw [← hrx] at he
      refine ⟨e, he, hxd e he, ?_⟩
      intro idx hidx i
      rw [ox idx hidx i]
      simp only [ma e he])
  rw [es1]
  refine ⟨_, _, rfl, ⟨hd', h1, I1⟩, ?_⟩
  intro idx hidx
  have hz : (fun i => Semi2k.squareA (hitAt lx i idx) (fun p => val x p idx)
      (fun p => r.1.1 p idx) (fun p => r.1.2 p idx) i) =
      Semi2k.squareA none (fun p => val x p idx) (fun p => r.1.1 p idx) (fun p => r.1.2 p idx) := by
    funext i
    simp only [Semi2k.squareA, ox idx hidx i, openMasked_none]
  rw [hz]
  exact c20_square none _ _ _ (fun v hv => by cases hv) (htr idx)

theorem mat_idx_lt {r c i j : ℕ} (hi : i < r) (hj : j < c) : i * c + j < r * c := by
  calc i * c + j < i * c + c := by omega
    _ = (i + 1) * c := by ring
    _ ≤ r * c := Nat.mul_le_mul_right c hi

/-- openings of matrix operands equal secret minus mask, entry by entry -/
theorem open_mat {h : List (Op (Fin n → BitVec w) (SDesc n Seed))} {x : View} {l : Look n w Seed}
    (hT : TransposeOk val) (L : LookOk K val h x true l) (rows cols : ℕ) (hsh : x.shape = [rows, cols])
    (f : Fin n → Arr w) (ds : Option (Desc n Seed)) (d : Dealer n Seed)
    (hds : ds = fillDesc d (descOf l))
    (hf : ∀ e, ds = some e → ∀ p, f p = draw K (e.seed p) (e.ctr p))
    (i : Fin n) (r c : ℕ) (hr : r < rows) (hc : c < cols) :
    openMat (hitMat rows cols l i) (fun p => asMat cols (val x p))
      (fun p => matOf rows cols ds (f p)) i r c =
    total (fun p => val x p (r * cols + c)) - total (fun p => matOf rows cols ds (f p) r c) := by
  cases L with
  | disabled => simp only [hitMat, openMat, allReduce_add, total_sub]; rfl
  | miss _ _ => simp only [hitMat, openMat, allReduce_add, total_sub]; rfl
  | hit e o E =>
    have he : ds = some { e.1 with status := .replay } := by rw [hds]; simp [descOf, fillDesc]
    simp only [hitMat, openMat]
    rw [E.val _ (by rw [hsh]; simpa using mat_idx_lt hr hc)]
    congr 2
    funext p
    rw [hf _ he p, he]
    simp [matOf, asMat]
  | hitT e o _ E =>
    have he : ds = some { e.1 with status := .transposeReplay } := by rw [hds]; simp [descOf, fillDesc]
    simp only [hitMat, openMat]
    rw [E.val _ (by
      have : x.transpose.shape = [cols, rows] := by simp [View.transpose, hsh]
      rw [this]; simpa using mat_idx_lt hc hr)]
    congr 1
    · congr 1
      funext p
      rw [hT x p rows cols hsh r hr c hc]
    · congr 1
      funext p
      rw [hf _ he p, he]
      simp [matOf, asMat]

/-- C20/C31: matrix multiplication, including transposed replays. -/
theorem dotSys_ok (hV : ViewsOk V) (hT : TransposeOk val) (adj : Fin n) (s : Sys n w Seed)
    (I : SInv K S hS val V s) (x y : View) (hx : V x) (hy : V y) (m k nn : ℕ)
    (hxs : x.shape = [m, k]) (hys : y.shape = [k, nn]) :
    ∃ z s', dotSys K adj S hS val s x y = some (z, s') ∧ SInv K S hS val V s' ∧
      ∀ i < m, ∀ j < nn, total (fun p => z p i j) =
        ∑ l ∈ Finset.range k, total (fun p => val x p (i * k + l)) * total (fun p => val y p (l * nn + j)) := by
  obtain ⟨hd, h, I⟩ := I
  obtain ⟨lx, elx, Lx⟩ := look_ok I x true
  obtain ⟨ly0, ely, Ly0⟩ := look_ok I y true
  have Ly : LookOk K val h y true (fixSecond x y lx ly0) := fixSecond_ok Ly0
  unfold dotSys
  rw [hxs, hys]
  simp only
  rw [if_neg (by simp), elx, ely]
  simp only [Option.bind_eq_bind, Option.bind_some, Option.pure_def]
  set ly := fixSecond x y lx ly0 with hly
  set r := Dealer.dot K adj s.dealer m nn k (descOf lx) (descOf ly) with hr
  obtain ⟨htr, hd', hxd, hyd⟩ := c21_dot K adj s.dealer m nn k _ _ hd (descOf_ok Lx) (descOf_ok Ly)
  rw [← hr] at htr hd' hxd hyd
  have hrx : r.2.1.1 = fillDesc s.dealer (descOf lx) := rfl
  set d1 := (drawOrReplayDot K adj s.dealer (m * k) (fillDesc s.dealer (descOf lx))).2.2 with hd1
  have hry : r.2.1.2 = fillDesc d1 (descOf ly) := rfl
  set fa := (drawOrReplayDot K adj s.dealer (m * k) (fillDesc s.dealer (descOf lx))).1 with hfa
  set fb := (drawOrReplayDot K adj d1 (k * nn) (fillDesc d1 (descOf ly))).1 with hfb
  have ea : r.1.1 = fun p => matOf m k r.2.1.1 (fa p) := rfl
  have eb : r.1.2.1 = fun p => matOf k nn r.2.1.2 (fb p) := rfl
  have ma : ∀ e, r.2.1.1 = some e → ∀ p, fa p = draw K (e.seed p) (e.ctr p) := by
    intro e he p
    exact drawOrReplayDot_mask K adj s.dealer _ _ e he p
  have mb : ∀ e, r.2.1.2 = some e → ∀ p, fb p = draw K (e.seed p) (e.ctr p) := by
    intro e he p
    exact drawOrReplayDot_mask K adj d1 _ _ e he p
  have ox : ∀ i, ∀ a < m, ∀ c < k, openMat (hitMat m k lx i) (fun p => asMat k (val x p)) r.1.1 i a c =
      total (fun p => val x p (a * k + c)) - total (fun p => r.1.1 p a c) := by
    intro i a ha c hc
    exact open_mat hT Lx m k hxs fa _ s.dealer hrx ma i a c ha hc
  have oy : ∀ i, ∀ a < k, ∀ c < nn, openMat (hitMat k nn ly i) (fun p => asMat nn (val y p)) r.1.2.1 i a c =
      total (fun p => val y p (a * nn + c)) - total (fun p => r.1.2.1 p a c) := by
    intro i a ha c hc
    exact open_mat hT Ly k nn hys fb _ d1 hry mb i a c ha hc
  -- the two stores
  obtain ⟨c1, h1, es1, I1, en1, st1⟩ := storeIf_ok hV I x hx lx (miss_of_look Lx) r.2.1.1
    (fun i idx => openMat (hitMat m k lx i) (fun p => asMat k (val x p)) r.1.1 i (idx / k) (idx % k)) (by
      intro hm
      obtain ⟨e, he, hst⟩ := (fill_cases Lx s.dealer).1 hm
      rw [← hrx] at he
      refine ⟨e, he, hxd e he, ?_⟩
      intro idx hidx i
      rw [hxs] at hidx
      have hidx : idx < m * k := by simpa using hidx
      have hk : 0 < k := Nat.pos_of_ne_zero (by rintro rfl; simp at hidx)
      rw [ox i _ (Nat.div_lt_of_lt_mul (by rw [Nat.mul_comm]; exact hidx)) _ (Nat.mod_lt _ hk),
        Nat.div_add_mod']
      congr 2
      funext p
      rw [ea, he]
      simp only [matOf, hst, reduceCtorEq, if_false, asMat, Nat.div_add_mod', ma e he])
  obtain ⟨c2, h2, es2, I2, _, _⟩ := storeIf_ok hV I1 y hy ly (by
      intro hm
      have hne : y ≠ x := by
        rintro rfl
        rw [hly] at hm
        unfold fixSecond at hm
        split at hm
        · simp at hm
        · next hnm =>
          have h1 : lx = ly0 := by
            have := elx.symm.trans ely
            simpa using this
          exact hnm (h1.trans hm)
      rw [en1, st1 y hne]
      exact miss_of_look Ly hm) r.2.1.2
    (fun i idx => openMat (hitMat k nn ly i) (fun p => asMat nn (val y p)) r.1.2.1 i (idx / nn) (idx % nn)) (by
      intro hm
      obtain ⟨e, he, hst⟩ := (fill_cases Ly d1).1 hm
      rw [← hry] at he
      refine ⟨e, he, hyd e he, ?_⟩
      intro idx hidx i
      rw [hys] at hidx
      have hidx : idx < k * nn := by simpa using hidx
      have hk : 0 < nn := Nat.pos_of_ne_zero (by rintro rfl; simp at hidx)
      rw [oy i _ (Nat.div_lt_of_lt_mul (by rw [Nat.mul_comm]; exact hidx)) _ (Nat.mod_lt _ hk),
        Nat.div_add_mod']
      congr 2
      funext p
      rw [eb, he]
      simp only [matOf, hst, reduceCtorEq, if_false, asMat, Nat.div_add_mod', mb e he])
  rw [es1]
  simp only [Option.bind_some]
  rw [es2]
  refine ⟨_, _, rfl, ⟨hd', h2, I2⟩, ?_⟩
  intro i hi j hj
  -- replace the openings by their values
  have hz : (fun p : Fin n =>
      if p = 0 then mmul k (openMat (hitMat m k lx p) (fun p => asMat k (val x p)) r.1.1 p) (r.1.2.1 p) i j +
          mmul k (r.1.1 p) (openMat (hitMat k nn ly p) (fun p => asMat nn (val y p)) r.1.2.1 p) i j +
          r.1.2.2 p i j + mmul k (openMat (hitMat m k lx p) (fun p => asMat k (val x p)) r.1.1 p)
            (openMat (hitMat k nn ly p) (fun p => asMat nn (val y p)) r.1.2.1 p) i j
      else mmul k (openMat (hitMat m k lx p) (fun p => asMat k (val x p)) r.1.1 p) (r.1.2.1 p) i j +
          mmul k (r.1.1 p) (openMat (hitMat k nn ly p) (fun p => asMat nn (val y p)) r.1.2.1 p) i j +
          r.1.2.2 p i j) =
      fun p => if p = 0 then (∑ l ∈ Finset.range k,
          ((total (fun p => val x p (i * k + l)) - total (fun p => r.1.1 p i l)) * r.1.2.1 p l j +
            r.1.1 p i l * (total (fun p => val y p (l * nn + j)) - total (fun p => r.1.2.1 p l j))) +
            r.1.2.2 p i j) +
          (fun _ => ∑ l ∈ Finset.range k,
          (total (fun p => val x p (i * k + l)) - total (fun p => r.1.1 p i l)) *
          (total (fun p => val y p (l * nn + j)) - total (fun p => r.1.2.1 p l j))) p
        else ∑ l ∈ Finset.range k,
          ((total (fun p => val x p (i * k + l)) - total (fun p => r.1.1 p i l)) * r.1.2.1 p l j +
            r.1.1 p i l * (total (fun p => val y p (l * nn + j)) - total (fun p => r.1.2.1 p l j))) +
            r.1.2.2 p i j := by
    funext p
    have e1 : mmul k (openMat (hitMat m k lx p) (fun p => asMat k (val x p)) r.1.1 p) (r.1.2.1 p) i j =
        ∑ l ∈ Finset.range k,
          (total (fun p => val x p (i * k + l)) - total (fun p => r.1.1 p i l)) * r.1.2.1 p l j := by
      rw [mmul_eq]
      exact Finset.sum_congr rfl fun l hl => by rw [ox p i hi l (Finset.mem_range.mp hl)]
    have e2 : mmul k (r.1.1 p) (openMat (hitMat k nn ly p) (fun p => asMat nn (val y p)) r.1.2.1 p) i j =
        ∑ l ∈ Finset.range k,
          r.1.1 p i l * (total (fun p => val y p (l * nn + j)) - total (fun p => r.1.2.1 p l j)) := by
      rw [mmul_eq]
      exact Finset.sum_congr rfl fun l hl => by rw [oy p l (Finset.mem_range.mp hl) j hj]
    have e3 : mmul k (openMat (hitMat m k lx p) (fun p => asMat k (val x p)) r.1.1 p)
            (openMat (hitMat k nn ly p) (fun p => asMat nn (val y p)) r.1.2.1 p) i j =
        ∑ l ∈ Finset.range k,
          (total (fun p => val x p (i * k + l)) - total (fun p => r.1.1 p i l)) *
          (total (fun p => val y p (l * nn + j)) - total (fun p => r.1.2.1 p l j)) := by
      rw [mmul_eq]
      exact Finset.sum_congr rfl fun l hl => by
        rw [ox p i hi l (Finset.mem_range.mp hl), oy p l (Finset.mem_range.mp hl) j hj]
    rw [e1, e2, e3, ← Finset.sum_add_distrib]
  rw [hz, total_ite_add, total_add, htr i j]
  have hsum : total (fun p => ∑ l ∈ Finset.range k,
      ((total (fun p => val x p (i * k + l)) - total (fun p => r.1.1 p i l)) * r.1.2.1 p l j +
        r.1.1 p i l * (total (fun p => val y p (l * nn + j)) - total (fun p => r.1.2.1 p l j)))) =
      ∑ l ∈ Finset.range k,
      ((total (fun p => val x p (i * k + l)) - total (fun p => r.1.1 p i l)) * total (fun p => r.1.2.1 p l j) +
        total (fun p => r.1.1 p i l) * (total (fun p => val y p (l * nn + j)) - total (fun p => r.1.2.1 p l j))) := by
    unfold total
    rw [Finset.sum_comm]
    refine Finset.sum_congr rfl fun l _ => ?_
    rw [Finset.sum_add_distrib, Finset.mul_sum, Finset.sum_mul]
  rw [hsum, ← Finset.sum_add_distrib, ← Finset.sum_add_distrib]
  refine Finset.sum_congr rfl fun l _ => ?_
  ring

/-- the arrays a request mentions are live and its shapes fit -/
def ReqOk (V : View → Prop) : Req → Prop
  | .enable _ => True
  | .disable _ => True
  | .mul x y => V x ∧ V y ∧ x.shape = y.shape
  | .square x => V x
  | .dot x y => V x ∧ V y ∧ ∃ m k nn, x.shape = [m, k] ∧ y.shape = [k, nn]

theorem sinv_step (hV : ViewsOk V) (hT : TransposeOk val) (adj : Fin n) (s : Sys n w Seed)
    (I : SInv K S hS val V s) (r : Req) (hr : ReqOk V r) :
    SInv K S hS val V (CachedMul.next K adj S hS val s r) := by
  cases r with
  | enable x =>
    obtain ⟨hd, h, I⟩ := I
    refine ⟨hd, .enable x :: h, ⟨?_, ?_, ?_, ?_⟩⟩
    · simp only [CachedMul.next, I.run, Cache.run, List.reverse_cons, List.foldl_append]; rfl
    · exact ⟨fun y d v hy => I.hist.wf y d v (by simpa using hy), fun y d v hy => I.hist.size y d v (by simpa using hy),
        fun y d v z e u hy hz => I.hist.addr y d v z e u (by simpa using hy) (by simpa using hz)⟩
    · exact fun y d v hy => I.live y d v (by simpa using hy)
    · exact fun y d v hy => I.entry y d v (by simpa using hy)
  | disable x =>
    obtain ⟨hd, h, I⟩ := I
    refine ⟨hd, .disable x :: h, ⟨?_, ?_, ?_, ?_⟩⟩
    · simp only [CachedMul.next, I.run, Cache.run, List.reverse_cons, List.foldl_append]; rfl
    · exact ⟨fun y d v hy => I.hist.wf y d v (by simpa using hy), fun y d v hy => I.hist.size y d v (by simpa using hy),
        fun y d v z e u hy hz => I.hist.addr y d v z e u (by simpa using hy) (by simpa using hz)⟩
    · exact fun y d v hy => I.live y d v (by simpa using hy)
    · exact fun y d v hy => I.entry y d v (by simpa using hy)
  | mul x y =>
    obtain ⟨z, s', e, I', _⟩ := mulSys_ok hV adj s I x y hr.1 hr.2.1 hr.2.2
    simpa only [CachedMul.next, e, Option.map_some, Option.getD_some] using I'
  | square x =>
    obtain ⟨z, s', e, I', _⟩ := squareSys_ok hV adj s I x hr
    simpa only [CachedMul.next, e, Option.map_some, Option.getD_some] using I'
  | dot x y =>
    obtain ⟨hx, hy, m, k, nn, h1, h2⟩ := hr
    obtain ⟨z, s', e, I', _⟩ := dotSys_ok hV hT adj s I x y hx hy m k nn h1 h2
    simpa only [CachedMul.next, e, Option.map_some, Option.getD_some] using I'

theorem sinv_run (hV : ViewsOk V) (hT : TransposeOk val) (adj : Fin n) (seed : Fin n → Seed)
    (rs : List Req) (hrs : ∀ r ∈ rs, ReqOk V r) :
    SInv K S hS val V (runSys K adj S hS val seed rs) := by
  unfold runSys
  have h0 : SInv K S hS val V (⟨start seed, Cache.empty⟩ : Sys n w Seed) :=
    ⟨⟨rfl, fun _ _ => rfl⟩, [], ⟨rfl, ⟨by simp, by simp, by simp⟩, by simp, by simp⟩⟩
  generalize (⟨start seed, Cache.empty⟩ : Sys n w Seed) = s at h0
  induction rs generalizing s with
  | nil => exact h0
  | cons r rs ih =>
    rw [List.foldl_cons]
    exact ih (fun r hr => hrs r (List.mem_cons_of_mem _ hr)) _
      (sinv_step hV hT adj s h0 r (hrs r List.mem_cons_self))

/-- C20/C31: after any history of cache requests and products on any live arrays, element-wise
multiplication succeeds and every element opens to the product of the secrets (cached openings and
replayed masks included). -/
theorem c31_mul_after_history (hV : ViewsOk V) (hT : TransposeOk val) (adj : Fin n)
    (seed : Fin n → Seed) (rs : List Req) (hrs : ∀ r ∈ rs, ReqOk V r) (x y : View) (hx : V x) (hy : V y)
    (hsh : x.shape = y.shape) :
    ∃ z s', mulSys K adj S hS val (runSys K adj S hS val seed rs) x y = some (z, s') ∧
      ∀ idx < x.shape.prod, total (fun i => z i idx) =
        total (fun i => val x i idx) * total (fun i => val y i idx) := by
  obtain ⟨z, s', h1, _, h2⟩ := mulSys_ok hV adj _ (sinv_run hV hT adj seed rs hrs) x y hx hy hsh
  exact ⟨z, s', h1, h2⟩

/-- C20/C31: the same for squaring. -/
theorem c31_square_after_history (hV : ViewsOk V) (hT : TransposeOk val) (adj : Fin n)
    (seed : Fin n → Seed) (rs : List Req) (hrs : ∀ r ∈ rs, ReqOk V r) (x : View) (hx : V x) :
    ∃ z s', squareSys K adj S hS val (runSys K adj S hS val seed rs) x = some (z, s') ∧
      ∀ idx < x.shape.prod, total (fun i => z i idx) =
        total (fun i => val x i idx) * total (fun i => val x i idx) := by
  obtain ⟨z, s', h1, _, h2⟩ := squareSys_ok hV adj _ (sinv_run hV hT adj seed rs hrs) x hx
  exact ⟨z, s', h1, h2⟩

/-- C20/C31: the same for matrix multiplication, where an operand may also be replayed transposed. -/
theorem c31_dot_after_history (hV : ViewsOk V) (hT : TransposeOk val) (adj : Fin n)
    (seed : Fin n → Seed) (rs : List Req) (hrs : ∀ r ∈ rs, ReqOk V r) (x y : View) (hx : V x) (hy : V y)
    (m k nn : ℕ) (hxs : x.shape = [m, k]) (hys : y.shape = [k, nn]) :
    ∃ z s', dotSys K adj S hS val (runSys K adj S hS val seed rs) x y = some (z, s') ∧
      ∀ i < m, ∀ j < nn, total (fun p => z p i j) =
        ∑ l ∈ Finset.range k, total (fun p => val x p (i * k + l)) * total (fun p => val y p (l * nn + j)) := by
  obtain ⟨z, s', h1, _, h2⟩ := dotSys_ok hV hT adj _ (sinv_run hV hT adj seed rs hrs) x y hx hy m k nn hxs hys
  exact ⟨z, s', h1, h2⟩

/-! a concrete program: enable a 2x3 matrix, multiply it with its transposed view twice -/

/-- contents: element at row-major position `idx` of the buffer; the transposed view reads it
column-major -/
def demoVal (x : View) (p : Fin 2) : Arr 16 := fun idx =>
  if x.shape = [2, 3] then BitVec.ofNat 16 (idx * 7 + p.val)
  else if x.shape = [3, 2] then BitVec.ofNat 16 (((idx % 2) * 3 + idx / 2) * 7 + p.val) else 0

theorem demoVal_transpose : TransposeOk demoVal := by
  intro x p r c hsh i hi j hj
  by_cases h23 : x.shape = [2, 3]
  · rw [h23] at hsh
    simp only [List.cons.injEq, and_true] at hsh
    obtain ⟨rfl, rfl⟩ := hsh
    have ht : x.transpose.shape = [3, 2] := by simp [View.transpose, h23]
    rw [demoVal, demoVal, if_pos h23, if_neg (by rw [ht]; decide), if_pos ht]
    congr 2
    have : (j * 2 + i) % 2 = i := by omega
    have : (j * 2 + i) / 2 = j := by omega
    simp [*]
  · by_cases h32 : x.shape = [3, 2]
    · rw [h32] at hsh
      simp only [List.cons.injEq, and_true] at hsh
      obtain ⟨rfl, rfl⟩ := hsh
      have ht : x.transpose.shape = [2, 3] := by simp [View.transpose, h32]
      rw [demoVal, demoVal, if_neg h23, if_pos h32, if_pos ht]
      congr 2
      have : (i * 2 + j) % 2 = j := by omega
      have : (i * 2 + j) / 2 = i := by omega
      simp [*]
    · have h1 : x.transpose.shape ≠ [2, 3] := by
        intro h
        have : x.shape = [2, 3].reverse := by rw [← h]; simp [View.transpose]
        exact h32 (by simpa using this)
      have h2 : x.transpose.shape ≠ [3, 2] := by
        intro h
        have : x.shape = [3, 2].reverse := by rw [← h]; simp [View.transpose]
        exact h23 (by simpa using this)
      simp [demoVal, h23, h32, h1, h2]

theorem demoViews_ok : ViewsOk (fun x => x = demoView ∨ x = demoView.transpose) := by
  refine ⟨?_, ?_⟩
  · rintro x (rfl | rfl) <;> rfl
  · rintro x y (rfl | rfl) (rfl | rfl) _ <;> rfl

example (seed : Fin 2 → ℕ) (K : Ks 16 ℕ) : ∃ z s',
    dotSys K 0 4 (by norm_num) demoVal (runSys K 0 4 (by norm_num) demoVal seed
      [.enable demoView, .dot demoView demoView.transpose, .square demoView]) demoView demoView.transpose
      = some (z, s') ∧
    total (fun p => z p 1 1) = ∑ l ∈ Finset.range 3,
      total (fun p => demoVal demoView p (1 * 3 + l)) *
      total (fun p => demoVal demoView.transpose p (l * 2 + 1)) := by
  obtain ⟨z, s', h1, h2⟩ := c31_dot_after_history (K := K) (S := 4) (hS := by norm_num) demoViews_ok
    demoVal_transpose 0 seed
    [.enable demoView, .dot demoView demoView.transpose, .square demoView] (by
      intro r hr
      simp only [List.mem_cons, List.not_mem_nil, or_false] at hr
      rcases hr with rfl | rfl | rfl
      · trivial
      · exact ⟨Or.inl rfl, Or.inr rfl, 2, 3, 2, rfl, rfl⟩
      · exact Or.inl rfl) demoView demoView.transpose (Or.inl rfl) (Or.inr rfl) 2 3 2 rfl rfl
  exact ⟨z, s', h1, h2 1 (by norm_num) 1 (by norm_num)⟩

end Spu.Props
