import Verif.Model.Types
import Mathlib.Tactic.Common
import Mathlib.Data.List.Basic

set_option autoImplicit false

/-! # C41: type strings round-trip -/

namespace Spu.Props
open Spu.Model.Ty

/-! ## Characters -/

theorem pt_name_comma (p : Pt) : ∀ c ∈ p.name, c ≠ ',' := by cases p <;> decide
theorem ft_name_comma (f : Ft) : ∀ c ∈ f.name, c ≠ ',' := by cases f <;> decide
theorem kind_id_lt (k : Kind) : ∀ c ∈ k.id, c ≠ '<' := by
  cases k with
  | ring c => cases c <;> decide
  | bshr c => cases c <;> decide
  | _ => decide
theorem kind_id_ne (k : Kind) : k.id ≠ [] := by
  cases k with
  | ring c => cases c <;> decide
  | bshr c => cases c <;> decide
  | _ => decide

theorem castPt_name (p : Pt) : castPt p.name = some p := by cases p <;> decide
theorem castFt_name (f : Ft) : castFt f.name = some f := by cases f <;> decide

theorem before_append (c : Char) (a b : Str) (h : ∀ x ∈ a, x ≠ c) : before c (a ++ c :: b) = a := by
  induction a with
  | nil => simp [before]
  | cons x a ih =>
    have hx := h x (by simp)
    have := ih (fun y hy => h y (by simp [hy]))
    simp only [before] at this ⊢
    rw [List.cons_append, List.takeWhile_cons_of_pos (by simpa using hx), this]

theorem after_append (c : Char) (a b : Str) (h : ∀ x ∈ a, x ≠ c) : after c (a ++ c :: b) = b := by
  have hd : ((a ++ c :: b).dropWhile (fun x => decide (x ≠ c))) = c :: b := by
    induction a with
    | nil => simp
    | cons x a ih =>
      have hx := h x (by simp)
      have := ih (fun y hy => h y (by simp [hy]))
      simp only [List.cons_append]
      rw [List.dropWhile_cons_of_pos (by simpa using hx)]
      exact this
  rw [after, if_pos (by simp), hd]
  rfl

theorem afterLast_append (c : Char) (a b : Str) (h : ∀ x ∈ b, x ≠ c) : afterLast c (a ++ c :: b) = b := by
  have := before_append c b.reverse a.reverse (fun x hx => h x (by simpa using hx))
  rw [afterLast, show (a ++ c :: b).reverse = b.reverse ++ c :: a.reverse by simp]
  rw [before] at this
  rw [this, List.reverse_reverse]

/-! ## Numbers -/

theorem natStr_digits (n : ℕ) : ∀ c ∈ natStr n, c.isDigit := fun _ hc => Nat.isDigit_of_mem_toDigits (by omega) (by omega) hc

theorem takeWhile_all {p : Char → Bool} (l : Str) (h : ∀ c ∈ l, p c) : l.takeWhile p = l := by
  induction l with
  | nil => rfl
  | cons x l ih => rw [List.takeWhile_cons_of_pos (h x (by simp)), ih (fun c hc => h c (by simp [hc]))]

theorem takeWhile_stop {p : Char → Bool} (l : Str) (x : Char) (r : Str) (h : ∀ c ∈ l, p c) (hx : p x = false) :
    (l ++ x :: r).takeWhile p = l := by
  induction l with
  | nil => simp [hx]
  | cons y l ih => rw [List.cons_append, List.takeWhile_cons_of_pos (h y (by simp)), ih (fun c hc => h c (by simp [hc]))]

theorem leadingDigits_natStr (n : ℕ) : leadingDigits (natStr n) = some n := by
  rw [leadingDigits, takeWhile_all _ (natStr_digits n), if_neg (show natStr n ≠ [] from Nat.toDigits_ne_nil), natStr,
    Nat.ofDigitChars_toDigits (by omega) (by omega)]

theorem leadingDigits_natStr_stop (n : ℕ) (x : Char) (r : Str) (hx : x.isDigit = false) :
    leadingDigits (natStr n ++ x :: r) = some n := by
  rw [leadingDigits, takeWhile_stop _ _ _ (natStr_digits n) hx, if_neg (show natStr n ≠ [] from Nat.toDigits_ne_nil), natStr,
    Nat.ofDigitChars_toDigits (by omega) (by omega)]

theorem natStr_cons (n : ℕ) : ∃ c r, natStr n = c :: r ∧ c.isDigit := by
  cases h : natStr n with
  | nil => exact absurd h Nat.toDigits_ne_nil
  | cons c r => exact ⟨c, r, rfl, natStr_digits n c (by rw [h]; simp)⟩

theorem stoul_digit (c : Char) (r : Str) (hc : c.isDigit) :
    stoul (c :: r) = (leadingDigits (c :: r)).bind fun n => if n < 2 ^ 64 then some n else none := by
  unfold stoul
  split
  · rename_i h; injection h with h1 _; subst h1; exact absurd hc (by decide)
  · rename_i h; injection h with h1 _; subst h1; exact absurd hc (by decide)
  · rfl

theorem stoll_digit (c : Char) (r : Str) (hc : c.isDigit) :
    stoll (c :: r) = (leadingDigits (c :: r)).bind fun n => if n < 2 ^ 63 then some (n : ℤ) else none := by
  unfold stoll
  split
  · rename_i h; injection h with h1 _; subst h1; exact absurd hc (by decide)
  · rename_i h; injection h with h1 _; subst h1; exact absurd hc (by decide)
  · rfl

theorem stoul_natStr (n : ℕ) (hn : n < 2 ^ 64) : stoul (natStr n) = some n := by
  obtain ⟨c, r, h, hc⟩ := natStr_cons n
  rw [h, stoul_digit c r hc, ← h, leadingDigits_natStr, Option.bind_some, if_pos hn]

theorem stoul_natStr_stop (n : ℕ) (hn : n < 2 ^ 64) (s : Str) : stoul ((natStr n ++ ',' :: s)) = some n := by
  obtain ⟨c, r, h, hc⟩ := natStr_cons n
  have hl := leadingDigits_natStr_stop n ',' s (by decide)
  rw [h] at hl ⊢
  rw [List.cons_append] at hl ⊢
  rw [stoul_digit c _ hc, hl, Option.bind_some, if_pos hn]

theorem stoll_intStr (n : ℤ) (h1 : -2 ^ 63 ≤ n) (h2 : n < 2 ^ 63) : stoll (intStr n) = some n := by
  unfold intStr
  split
  · rename_i h
    simp only [stoll]
    rw [leadingDigits_natStr, Option.bind_some, if_pos (by omega)]
    congr 1; omega
  · rename_i h
    obtain ⟨c, r, hs, hc⟩ := natStr_cons n.natAbs
    rw [hs, stoll_digit c r hc, ← hs, leadingDigits_natStr, Option.bind_some, if_pos (by omega)]
    congr 1; omega

/-! ## Details -/

/-- what reading the details back yields: data members that are not printed get their default values -/
def reread : Ty → Ty
  | .spdz2kA f _ => .spdz2kA f false
  | .spdz2kB b n f _ => .spdz2kB b n f 0
  | t => t

theorem take_lastPos (b : Str) (n : ℕ) (f : Str) (hb : ∀ c ∈ b, c ≠ ',') (hf : ∀ c ∈ f, c ≠ ',') :
    ∃ k, (after ',' (b ++ ',' :: (natStr n ++ ',' :: f))).take (lastPos ',' (b ++ ',' :: (natStr n ++ ',' :: f))) =
      natStr n ∨ (after ',' (b ++ ',' :: (natStr n ++ ',' :: f))).take (lastPos ',' (b ++ ',' :: (natStr n ++ ',' :: f))) =
      natStr n ++ ',' :: f.take k := by
  have ha := after_append ',' b (natStr n ++ ',' :: f) hb
  have hl := afterLast_append ',' (b ++ ',' :: natStr n) f hf
  rw [show b ++ ',' :: natStr n ++ ',' :: f = b ++ ',' :: (natStr n ++ ',' :: f) by simp] at hl
  rw [ha, lastPos, if_pos (by simp), hl]
  have hlen : (b ++ ',' :: (natStr n ++ ',' :: f)).length - 1 - f.length = b.length + 1 + (natStr n).length := by
    simp; omega
  rw [hlen]
  cases hbl : b.length with
  | zero => refine ⟨0, Or.inr ?_⟩; rw [show 0 + 1 + (natStr n).length = (natStr n).length + 1 by omega, List.take_append,
      List.take_of_length_le (by omega)]; simp
  | succ m =>
    refine ⟨m + 1, Or.inr ?_⟩
    rw [List.take_append]
    rw [List.take_of_length_le (by omega), show m + 1 + 1 + (natStr n).length - (natStr n).length = (m + 1) + 1 by omega,
      List.take_succ_cons]

theorem parse_detail (t : Ty) (h : t.Valid) : t.kind.parse t.detail = some (reread t) := by
  cases t with
  | void => rfl
  | pt p => simp [Ty.kind, Ty.detail, Kind.parse, castPt_name, reread]
  | ring c f => simp [Ty.kind, Ty.detail, Kind.parse, castFt_name, reread]
  | gfmp f e p =>
    obtain ⟨he, hp⟩ := h.2
    have hlt : e < 128 := by cases f <;> simp [Ft.mpExp] at he <;> omega
    simp only [Ty.kind, Ty.detail, Kind.parse]
    rw [before_append _ _ _ (ft_name_comma f), after_append _ _ _ (ft_name_comma f), castFt_name,
      stoul_natStr e (by omega)]
    simp [hlt, hp, reread]
  | priv f o =>
    obtain ⟨h1, h2⟩ := h.2
    simp only [Ty.kind, Ty.detail, Kind.parse]
    rw [before_append _ _ _ (ft_name_comma f), after_append _ _ _ (ft_name_comma f), castFt_name, stoll_intStr o h1 h2]
    simp [reread]
  | bshr c f n =>
    simp only [Ty.kind, Ty.detail, Kind.parse]
    rw [before_append _ _ _ (ft_name_comma f), after_append _ _ _ (ft_name_comma f), castFt_name, stoul_natStr n h.2]
    simp [reread]
  | aby3B b n =>
    simp only [Ty.kind, Ty.detail, Kind.parse]
    rw [before_append _ _ _ (pt_name_comma b), after_append _ _ _ (pt_name_comma b), castPt_name, stoul_natStr n h.2]
    simp [reread]
  | spdz2kA f m => simp [Ty.kind, Ty.detail, Kind.parse, castFt_name, reread]
  | spdz2kB b n f k =>
    simp only [Ty.kind, Ty.detail, Kind.parse]
    obtain ⟨j, hj⟩ := take_lastPos b.name n f.name (pt_name_comma b) (ft_name_comma f)
    have hs : stoul ((after ',' (b.name ++ ',' :: (natStr n ++ ',' :: f.name))).take
        (lastPos ',' (b.name ++ ',' :: (natStr n ++ ',' :: f.name)))) = some n := by
      rcases hj with hj | hj
      · rw [hj, stoul_natStr n h.2.1]
      · rw [hj, stoul_natStr_stop n h.2.1]
    have hl := afterLast_append ',' (b.name ++ ',' :: natStr n) f.name (ft_name_comma f)
    rw [show b.name ++ ',' :: natStr n ++ ',' :: f.name = b.name ++ ',' :: (natStr n ++ ',' :: f.name) by simp] at hl
    rw [before_append _ _ _ (pt_name_comma b), castPt_name, hs, hl, castFt_name]
    simp [reread]

/-! ## The registry -/

/-- the class that reads a string of class `k` -/
def reader : Kind → Kind
  | .ring .aby3O => .ring .aby3OP
  | k => k

theorem reader_id (k : Kind) : (reader k).id = k.id := by
  cases k with
  | ring c => cases c <;> rfl
  | _ => rfl

theorem id_inj (j k : Kind) (h : j.id = k.id) (hj : j ≠ .ring .aby3O) : j = reader k := by
  cases j with
  | ring c =>
    cases k with
    | ring d => revert h hj; cases c <;> cases d <;> decide
    | bshr d => revert h; cases c <;> cases d <;> decide
    | _ => revert h; cases c <;> decide
  | bshr c =>
    cases k with
    | ring d => revert h; cases c <;> cases d <;> decide
    | bshr d => revert h; cases c <;> cases d <;> decide
    | _ => revert h; cases c <;> decide
  | _ =>
    cases k with
    | ring d => revert h; cases d <;> decide
    | bshr d => revert h; cases d <;> decide
    | _ => revert h; decide

/-- in a registry, every id leads to a class with this id, and never to `OShrTy` -/
def RegOk (m : Ctx) : Prop := ∀ i k, m i = some k → k.id = i ∧ k ≠ .ring .aby3O

theorem add_same (m : Ctx) (k : Kind) : m.add k k.id = some k := by simp [Ctx.add]

theorem add_ok (m : Ctx) (k : Kind) (h : RegOk m) (hk : k ≠ .ring .aby3O) : RegOk (m.add k) := by
  intro i j hj
  unfold Ctx.add at hj
  by_cases hi : i = k.id
  · subst hi; rw [Function.update_self] at hj; cases hj; exact ⟨rfl, hk⟩
  · rw [Function.update_of_ne hi] at hj; exact h i j hj

theorem addTypes_ok (ks : List Kind) (m : Ctx) (h : RegOk m) (hk : Kind.ring .aby3O ∉ ks) : RegOk (m.addTypes ks) := by
  induction ks generalizing m with
  | nil => exact h
  | cons k ks ih =>
    simp only [List.mem_cons, not_or] at hk
    exact ih (m.add k) (add_ok m k h (fun e => hk.1 e.symm)) hk.2

/-- registering `OShrTy` and then `OPShrTy` leaves only the latter -/
theorem add_oshr (m : Ctx) : (m.add (.ring .aby3O)).add (.ring .aby3OP) = m.add (.ring .aby3OP) := by
  unfold Ctx.add
  exact Function.update_idem _ _ _

theorem protoTypes_ok (p : Proto) (m : Ctx) (h : RegOk m) : RegOk (m.addTypes p.kinds) := by
  cases p with
  | aby3 =>
    show RegOk (Ctx.addTypes (((m.addTypes [.ring .pub2k, .priv, .ring .aby3A, .aby3B]).add (.ring .aby3O)).add
      (.ring .aby3OP)) [.ring .aby3P])
    rw [add_oshr]
    refine addTypes_ok _ _ (add_ok _ _ (addTypes_ok _ _ h ?_) ?_) ?_ <;> decide
  | _ => exact addTypes_ok _ _ h (by decide)

theorem registry_ok (ps : List Proto) : RegOk (registry ps) := by
  unfold registry
  have hb : RegOk (Ctx.addTypes (fun _ => none) baseKinds) :=
    addTypes_ok _ _ (fun i k h => by simp at h) (by decide)
  generalize Ctx.addTypes (fun _ => none) baseKinds = m at hb
  induction ps generalizing m with
  | nil => exact hb
  | cons p ps ih => exact ih _ (protoTypes_ok p m hb)

theorem add_isSome (m : Ctx) (k : Kind) (i : Str) (h : (m i).isSome) : (m.add k i).isSome := by
  unfold Ctx.add
  by_cases hi : i = k.id
  · subst hi; simp
  · rw [Function.update_of_ne hi]; exact h

theorem addTypes_isSome (ks : List Kind) (m : Ctx) (i : Str) (h : (m i).isSome) : (m.addTypes ks i).isSome := by
  induction ks generalizing m with
  | nil => exact h
  | cons k ks ih => exact ih _ (add_isSome m k i h)

theorem addTypes_mem (ks : List Kind) (m : Ctx) (k : Kind) (hk : k ∈ ks) : (m.addTypes ks k.id).isSome := by
  induction ks generalizing m with
  | nil => simp at hk
  | cons j ks ih =>
    rcases List.mem_cons.1 hk with rfl | hk
    · exact addTypes_isSome ks _ _ (by rw [add_same]; rfl)
    · exact ih _ hk

/-- The classes registered when the protocols `ps` exist. -/
def Registered (ps : List Proto) (k : Kind) : Prop := k ∈ baseKinds ∨ ∃ p ∈ ps, k ∈ p.kinds

theorem protos_isSome (ps : List Proto) (m : Ctx) (i : Str) (h : (m i).isSome) :
    (ps.foldl (fun m p => m.addTypes p.kinds) m i).isSome := by
  induction ps generalizing m with
  | nil => exact h
  | cons p ps ih => exact ih _ (addTypes_isSome _ _ _ h)

theorem protos_mem (ps : List Proto) (m : Ctx) (k : Kind) (h : ∃ p ∈ ps, k ∈ p.kinds) :
    (ps.foldl (fun m p => m.addTypes p.kinds) m k.id).isSome := by
  induction ps generalizing m with
  | nil => simp at h
  | cons p ps ih =>
    obtain ⟨q, hq, hk⟩ := h
    rcases List.mem_cons.1 hq with rfl | hq
    · exact protos_isSome ps _ _ (addTypes_mem _ _ _ hk)
    · exact ih _ ⟨q, hq, hk⟩

/-- Looking up the id of a registered class finds that class, except that `OShrTy` is replaced by `OPShrTy`. -/
theorem registry_lookup (ps : List Proto) (k : Kind) (h : Registered ps k) : registry ps k.id = some (reader k) := by
  have hs : (registry ps k.id).isSome := by
    unfold registry
    rcases h with h | h
    · exact protos_isSome ps _ _ (addTypes_mem _ _ _ h)
    · exact protos_mem ps _ k h
  obtain ⟨j, hj⟩ := Option.isSome_iff_exists.1 hs
  obtain ⟨h1, h2⟩ := registry_ok ps _ _ hj
  rw [hj, id_inj j k h1 h2]

/-! ## Round trip -/

/-- what reading a string back yields -/
def reread' (t : Ty) : Ty :=
  match t with
  | .ring .aby3O f => .ring .aby3OP f
  | t => reread t

theorem reader_parse (t : Ty) (h : t.Valid) : (reader t.kind).parse t.detail = some (reread' t) := by
  cases t with
  | ring c f =>
    cases c with
    | aby3O => simp [reader, Ty.kind, Ty.detail, Kind.parse, castFt_name, reread']
    | _ => exact parse_detail (.ring _ f) h
  | void => exact parse_detail _ h
  | pt p => exact parse_detail _ h
  | gfmp f e p => exact parse_detail _ h
  | priv f o => exact parse_detail _ h
  | bshr c f n => exact parse_detail _ h
  | aby3B b n => exact parse_detail _ h
  | spdz2kA f m => exact parse_detail _ h
  | spdz2kB b n f k => exact parse_detail _ h

theorem reread_size (t : Ty) (h : t.Valid) : (reread' t).size.isSome := by
  have hs := h.1
  cases t with
  | ring c f => cases c <;> first | exact hs | simpa [reread', Ty.size] using hs
  | spdz2kA f m => exact hs
  | spdz2kB b n f k => simpa [reread', reread, Ty.size] using hs
  | _ => exact hs

theorem fromString_str (ps : List Proto) (t : Ty) (hr : Registered ps t.kind) (h : t.Valid) :
    fromString (registry ps) t.str = some (reread' t) := by
  obtain ⟨n, hn⟩ := Option.isSome_iff_exists.1 (reread_size t h)
  unfold fromString Ty.str
  rw [before_append _ _ _ (kind_id_lt _), after_append _ _ _ (kind_id_lt _)]
  simp [registry_lookup ps _ hr, kind_id_ne, reader_parse t h, hn]

theorem reread_eq (t : Ty) : (reread' t).eq t = true := by
  cases t with
  | ring c f => cases c <;> simp [reread', reread, Ty.eq, Ty.equals, Ty.kind, Kind.id, RingCls.id]
  | _ => simp [reread', reread, Ty.eq, Ty.equals, Ty.kind, Kind.id]

/-- C41: for every set of registered protocols and every type, reading back the printed type gives an equal type
    (`Type::operator==`). -/
theorem c41_roundtrip (ps : List Proto) (t : Ty) (hr : Registered ps t.kind) (h : t.Valid) :
    ∃ t', fromString (registry ps) t.str = some t' ∧ t'.eq t = true :=
  ⟨_, fromString_str ps t hr h, reread_eq t⟩

/-- C41: it gives the very same type, including size and unprinted members, except for the three classes treated below. -/
theorem c41_roundtrip_exact (ps : List Proto) (t : Ty) (hr : Registered ps t.kind) (h : t.Valid)
    (h1 : t.kind ≠ .ring .aby3O) (h2 : t.kind ≠ .spdz2kA) (h3 : t.kind ≠ .spdz2kB) :
    fromString (registry ps) t.str = some t := by
  rw [fromString_str ps t hr h]
  cases t with
  | ring c f => cases c <;> first | rfl | exact absurd rfl h1
  | spdz2kA => exact absurd rfl h2
  | spdz2kB => exact absurd rfl h3
  | _ => rfl

theorem str_inj (s t : Ty) (h : s.str = t.str) : s.kind.id = t.kind.id ∧ s.detail = t.detail := by
  have hb := congrArg (before '<') h
  have ha := congrArg (after '<') h
  unfold Ty.str at hb ha
  rw [before_append _ _ _ (kind_id_lt _), before_append _ _ _ (kind_id_lt _)] at hb
  rw [after_append _ _ _ (kind_id_lt _), after_append _ _ _ (kind_id_lt _)] at ha
  exact ⟨hb, List.append_cancel_right ha⟩

/-- C41: types that print alike are equal, so distinct types print differently. -/
theorem c41_distinct (s t : Ty) (hs : s.Valid) (ht : t.Valid) (h : s.eq t = false) : s.str ≠ t.str := by
  intro he
  obtain ⟨hid, hd⟩ := str_inj s t he
  have hk : reader s.kind = reader t.kind := by
    have hne : reader s.kind ≠ .ring .aby3O := by
      cases hsk : s.kind with
      | ring c => cases c <;> decide
      | _ => simp [reader]
    have := id_inj (reader s.kind) t.kind (by rw [reader_id, hid]) hne
    exact this
  have e1 := reader_parse s hs
  have e2 := reader_parse t ht
  rw [hk, hd, e2] at e1
  have e : reread' t = reread' s := by injection e1
  have r1 := reread_eq s
  have r2 := reread_eq t
  rw [e] at r2
  -- `equals` looks only at members that survive
  have : s.eq t = true := by
    unfold Ty.eq at r1 r2 ⊢
    simp only [Bool.and_eq_true, decide_eq_true_eq] at r1 r2 ⊢
    refine ⟨hid, ?_⟩
    obtain ⟨_, r1⟩ := r1
    obtain ⟨_, r2⟩ := r2
    generalize reread' s = u at r1 r2
    cases u <;> cases s <;> simp [Ty.equals] at r1 <;> cases t <;> simp [Ty.equals] at r2 ⊢ <;> simp_all
  rw [this] at h
  exact absurd h (by decide)

/-! ## Where equality is not identity -/

/-- C41 finding: `OShrTy` and `OPShrTy` have the same id.  A printed `OShrTy` is read back as an `OPShrTy`, whose elements
    have half the size; `operator==` does not see the difference. -/
theorem c41_oshr (ps : List Proto) (h : Proto.aby3 ∈ ps) :
    fromString (registry ps) (Ty.ring .aby3O .fm64).str = some (.ring .aby3OP .fm64) ∧
      (Ty.ring .aby3O .fm64).size = some 16 ∧ (Ty.ring .aby3OP .fm64).size = some 8 ∧
      (Ty.ring .aby3O .fm64).eq (.ring .aby3OP .fm64) = true :=
  ⟨fromString_str ps (.ring .aby3O .fm64) (Or.inr ⟨.aby3, h, by decide⟩) ⟨rfl, trivial⟩, rfl, rfl, by decide⟩

/-- C41 finding: `spdz2k::BShrTy::fromString` does not set `k_`; the type read back has size 0. -/
theorem c41_spdz2k_bshr (ps : List Proto) (h : Proto.spdz2k ∈ ps) :
    (fromString (registry ps) (Ty.spdz2kB .u64 40 .fm64 32).str).bind Ty.size = some 0 ∧
      (Ty.spdz2kB .u64 40 .fm64 32).size = some 512 := by
  rw [fromString_str ps (.spdz2kB .u64 40 .fm64 32) (Or.inr ⟨.spdz2k, h, by decide⟩) ⟨rfl, by decide, rfl⟩]
  exact ⟨rfl, rfl⟩

/-- C41 finding: the flag "has MAC" of `spdz2k::AShrTy` is neither printed nor compared. -/
theorem c41_spdz2k_ashr (ps : List Proto) (h : Proto.spdz2k ∈ ps) :
    fromString (registry ps) (Ty.spdz2kA .fm64 true).str = some (.spdz2kA .fm64 false) :=
  fromString_str ps (.spdz2kA .fm64 true) (Or.inr ⟨.spdz2k, h, by decide⟩) ⟨rfl, trivial⟩

/-- C41 finding: `cheetah::PShrTy` is never registered; its string cannot be read. -/
theorem c41_cheetah_pshr (ps : List Proto) : fromString (registry ps) (Ty.ring .cheetahP .fm64).str = none := by
  have hreg : registry ps (Kind.ring .cheetahP).id = none := by
    unfold registry
    have hb : Ctx.addTypes (fun _ => none) baseKinds (Kind.ring .cheetahP).id = none := by decide
    generalize Ctx.addTypes (fun _ => none) baseKinds = m at hb
    have hadd : ∀ (ks : List Kind) (m : Ctx), m (Kind.ring .cheetahP).id = none → (∀ k ∈ ks, k.id ≠ (Kind.ring .cheetahP).id) →
        m.addTypes ks (Kind.ring .cheetahP).id = none := by
      intro ks
      induction ks with
      | nil => intro m hm _; exact hm
      | cons k ks ih =>
        intro m hm hk
        refine ih _ ?_ (fun j hj => hk j (by simp [hj]))
        unfold Ctx.add
        rw [Function.update_of_ne (fun e => hk k (by simp) e.symm)]
        exact hm
    induction ps generalizing m with
    | nil => exact hb
    | cons p ps ih =>
      refine ih _ (hadd _ _ hb ?_)
      cases p <;> decide
  unfold fromString Ty.str
  rw [before_append _ _ _ (kind_id_lt _)]
  simp only [Ty.kind]
  rw [hreg]
  simp

/-! ## Examples -/

example : (Ty.priv .fm128 (-1)).Valid := ⟨rfl, by decide, by decide⟩
example : (Ty.bshr .semi2k .fm64 17).Valid := ⟨rfl, by decide⟩
example : (Ty.gfmp .fm128 127 (2 ^ 127 - 1)).Valid := ⟨rfl, rfl, rfl⟩
example : Registered [.semi2k, .aby3] (Ty.aby3B .u16 9).kind := Or.inr ⟨.aby3, by decide, by decide⟩
/-- `Priv2k<FM128,-1>` -/
example : String.ofList (Ty.priv .fm128 (-1)).str = "Priv2k<FM128,-1>" := by decide
example : fromString (registry [.semi2k]) ['P', 'r', 'i', 'v', '2', 'k', '<', 'F', 'M', '6', '4', ',', '1', '0', '>'] = some (.priv .fm64 10) := by
  decide
/-- the string of a type of an unregistered protocol is rejected -/
example : fromString (registry [.semi2k]) (Ty.ring .aby3A .fm64).str = none := by decide

end Spu.Props
