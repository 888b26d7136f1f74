import Verif.Model.Stream
import Mathlib.Tactic.Linarith
import Mathlib.Data.List.TakeDrop

/-!
C43: streamed dealer adjustments are reassembled exactly.
-/

set_option autoImplicit false

namespace Spu.Props

open Spu.Model.Stream

theorem decSize_encSize (v : ℕ) (h : v < 2 ^ 64) : decSize (encSize v) = v := by
  simp only [decSize, encSize, List.range, List.range.loop, List.map_cons, List.map_nil,
    List.foldr_cons, List.foldr_nil, UInt8.toNat_ofNat']
  omega

theorem encSize_length (v : ℕ) : (encSize v).length = 8 := by simp [encSize]

/-- no frame runs over the end of the buffer it starts in -/
def Fit (L : ℕ) : ℕ → List (List Byte) → Prop
  | _, [] => True
  | o, p :: ps => p ≠ [] ∧ p.length < 2 ^ 64 ∧ o % L + p.length ≤ L ∧ Fit L (o + p.length) ps

/-- the parts of the reader's state that do not depend on the phase: `w` bytes of the target `T` have
been stored in `m` buffers of length `L` -/
structure Common (L m : ℕ) (T : List Byte) (s : Reader) : Prop where
  flen : s.flags.length = 9
  msg : s.msg = []
  blen : s.bufs.length = m
  len : ∀ (j : ℕ) (b : List Byte), s.bufs[j]? = some b → b.length = L
  pos : s.pos < L
  remain : s.idx * L + s.pos + s.bufRemain = m * L
  full : ∀ (j : ℕ) (b : List Byte), j < s.idx → s.bufs[j]? = some b → b = (T.drop (j * L)).take L
  part : ∀ b : List Byte, s.bufs[s.idx]? = some b → b.take s.pos = (T.drop (s.idx * L)).take s.pos

/-- the phase agrees with the bytes `rest` still to come -/
def Phase (L : ℕ) (T : List Byte) (s : Reader) (rest : List Byte) : Prop :=
  (s.st = .readFlags ∧ s.flagsPos < 9 ∧ ∃ ps, ps ≠ [] ∧ s.flags.take s.flagsPos ++ rest = wire ps ∧
    Fit L (s.idx * L + s.pos) ps ∧ T.drop (s.idx * L + s.pos) = ps.flatten) ∨
  (s.st = .readChunk ∧ s.flagsPos = 0 ∧ ∃ q ps, q ≠ [] ∧ s.chunkRemain = q.length ∧ rest = q ++ wire ps ∧
    s.pos + q.length ≤ L ∧ Fit L (s.idx * L + s.pos + q.length) ps ∧
    T.drop (s.idx * L + s.pos) = q ++ ps.flatten) ∨
  (s.st = .fin ∧ rest = [] ∧ s.bufRemain = 0)

theorem step_flags (valid : Byte → Bool) {L m : ℕ} {T : List Byte} {s : Reader} {data rest : List Byte}
    (c : Common L m T s) (hd : data ≠ []) (hst : s.st = .readFlags) (hfp : s.flagsPos < 9)
    {ps : List (List Byte)} (hps : ps ≠ []) (hw : s.flags.take s.flagsPos ++ (data ++ rest) = wire ps)
    (hf : Fit L (s.idx * L + s.pos) ps) (hT : T.drop (s.idx * L + s.pos) = ps.flatten) :
    ∃ s' n, copyToFlags valid s data = .ok (s', n) ∧ 0 < n ∧ n ≤ data.length ∧
      Common L m T s' ∧ Phase L T s' (data.drop n ++ rest) := by
  have hdl : 0 < data.length := List.length_pos_iff.mpr hd
  set cp := min (9 - s.flagsPos) data.length with hcp
  have hcp1 : cp ≤ data.length := Nat.min_le_right _ _
  have hcp2 : s.flagsPos + cp ≤ 9 := by omega
  have hcp0 : 0 < cp := by omega
  set fl := s.flags.take s.flagsPos ++ (data.drop 0).take cp ++ s.flags.drop (s.flagsPos + cp) with hfl
  have hfllen : fl.length = 9 := by
    simp only [hfl, List.length_append, List.length_take, List.length_drop, c.flen, List.drop_zero]
    omega
  have hm : memcpy s.flags s.flagsPos data 0 cp = some fl := by
    unfold memcpy
    rw [if_pos ⟨by rw [c.flen]; exact hcp2, by omega⟩]
  have htake : fl.take (s.flagsPos + cp) = s.flags.take s.flagsPos ++ data.take cp := by
    have hl : (s.flags.take s.flagsPos ++ data.take cp).length = s.flagsPos + cp := by
      simp only [List.length_append, List.length_take, c.flen]; omega
    rw [hfl, List.drop_zero, ← hl, List.take_left]
  have hrest : fl.take (s.flagsPos + cp) ++ (data.drop cp ++ rest) = wire ps := by
    rw [htake, ← hw, List.append_assoc, ← List.append_assoc (data.take cp), List.take_append_drop]
  unfold copyToFlags
  simp only [c.flen]
  rw [← hcp, hm]
  simp only [hfllen]
  split_ifs with h9 hz hv
  · -- header complete, payload follows
    refine ⟨_, cp, rfl, hcp0, hcp1, ?_, ?_⟩
    · exact ⟨hfllen, c.msg, c.blen, c.len, c.pos, c.remain, c.full, c.part⟩
    · obtain ⟨p, ps', rfl⟩ := List.exists_cons_of_ne_nil hps
      have hfl9 : fl.take 9 = fl := List.take_of_length_le (by omega)
      rw [h9, hfl9] at hrest
      simp only [wire, List.flatMap_cons, frame] at hrest
      have hhead : fl = 0 :: encSize p.length := by
        have := congrArg (List.take 9) hrest
        rw [List.take_append_of_le_length (by omega), hfl9] at this
        rw [this, List.append_assoc, List.take_append_of_le_length (by simp [encSize_length]),
          List.take_of_length_le (by simp [encSize_length])]
      rw [hhead, List.append_assoc, List.append_cancel_left_eq] at hrest
      obtain ⟨hne, hlt, hfit, hrec⟩ := hf
      refine Or.inr (Or.inl ⟨rfl, rfl, p, ps', hne, ?_, hrest, ?_, hrec, ?_⟩)
      · simp only [hhead, List.drop_succ_cons, List.drop_zero]
        exact decSize_encSize _ hlt
      · have : (s.idx * L + s.pos) % L = s.pos := by
          rw [Nat.mul_comm, Nat.mul_add_mod, Nat.mod_eq_of_lt c.pos]
        rw [this] at hfit
        exact hfit
      · simpa using hT
  · exfalso
    obtain ⟨p, ps', rfl⟩ := List.exists_cons_of_ne_nil hps
    have hfl9 : fl.take 9 = fl := List.take_of_length_le (by omega)
    rw [h9, hfl9] at hrest
    apply hz
    obtain ⟨a, t, hat⟩ := List.exists_cons_of_ne_nil (l := fl) (by intro h; simp [h] at hfllen)
    rw [hat]
    rw [hat] at hrest
    simp only [wire, List.flatMap_cons, frame, List.cons_append, List.cons.injEq] at hrest
    simpa using hrest.1
  · exfalso
    obtain ⟨p, ps', rfl⟩ := List.exists_cons_of_ne_nil hps
    have hfl9 : fl.take 9 = fl := List.take_of_length_le (by omega)
    rw [h9, hfl9] at hrest
    apply hz
    obtain ⟨a, t, hat⟩ := List.exists_cons_of_ne_nil (l := fl) (by intro h; simp [h] at hfllen)
    rw [hat]
    rw [hat] at hrest
    simp only [wire, List.flatMap_cons, frame, List.cons_append, List.cons.injEq] at hrest
    simpa using hrest.1
  · refine ⟨_, cp, rfl, hcp0, hcp1, ?_, ?_⟩
    · exact ⟨hfllen, c.msg, c.blen, c.len, c.pos, c.remain, c.full, c.part⟩
    · exact Or.inl ⟨hst, by simp only; omega, ps, hps, hrest, hf, hT⟩

theorem step_chunk {L m : ℕ} {T : List Byte} {s : Reader} {data rest : List Byte}
    (c : Common L m T s) (hTl : T.length = m * L) (hd : data ≠ []) (hst : s.st = .readChunk)
    (hfp : s.flagsPos = 0)
    {q : List Byte} {ps : List (List Byte)} (hq : q ≠ []) (hcr : s.chunkRemain = q.length)
    (hw : data ++ rest = q ++ wire ps) (hfit : s.pos + q.length ≤ L)
    (hf : Fit L (s.idx * L + s.pos + q.length) ps) (hT : T.drop (s.idx * L + s.pos) = q ++ ps.flatten) :
    ∃ s' n, copyToBuffer s data = .ok (s', n) ∧ 0 < n ∧ n ≤ data.length ∧
      Common L m T s' ∧ Phase L T s' (data.drop n ++ rest) := by
  have hdl : 0 < data.length := List.length_pos_iff.mpr hd
  have hql : 0 < q.length := List.length_pos_iff.mpr hq
  set n := min data.length q.length with hn
  have hnd : n ≤ data.length := Nat.min_le_left _ _
  have hnq : n ≤ q.length := Nat.min_le_right _ _
  have hn0 : 0 < n := by omega
  have htl := congrArg List.length hT
  simp only [List.length_drop, List.length_append, hTl] at htl
  have hrem := c.remain
  have hidx : s.idx < m := by
    by_contra hge
    have : m * L ≤ s.idx * L := Nat.mul_le_mul_right L (by omega)
    omega
  obtain ⟨b, hb⟩ : ∃ b, s.bufs[s.idx]? = some b :=
    ⟨_, List.getElem?_eq_getElem (by rw [c.blen]; exact hidx)⟩
  have hbl := c.len _ _ hb
  have htk : data.take n = q.take n := by
    have := congrArg (List.take n) hw
    rwa [List.take_append_of_le_length hnd, List.take_append_of_le_length hnq] at this
  have hdr : data.drop n ++ rest = q.drop n ++ wire ps := by
    have := congrArg (List.drop n) hw
    rwa [List.drop_append_of_le_length hnd, List.drop_append_of_le_length hnq] at this
  set b' := b.take s.pos ++ (data.drop 0).take n ++ b.drop (s.pos + n) with hb'
  have hb'l : b'.length = L := by
    simp only [hb', List.length_append, List.length_take, List.length_drop, hbl, List.drop_zero]
    have := c.pos
    omega
  have hb't : b'.take (s.pos + n) = (T.drop (s.idx * L)).take (s.pos + n) := by
    have hl : (b.take s.pos ++ data.take n).length = s.pos + n := by
      have := c.pos
      simp only [List.length_append, List.length_take, hbl]; omega
    have h1 : b'.take (s.pos + n) = b.take s.pos ++ data.take n := by
      rw [hb', List.drop_zero, ← hl, List.take_left]
    rw [h1, c.part b hb, htk, List.take_add, List.drop_drop, hT, List.take_append_of_le_length hnq]
  have hm : memcpy b s.pos data 0 n = some b' := by
    unfold memcpy
    rw [if_pos ⟨by omega, by omega⟩]
  have hmin : min n (b.length - s.pos) = n := by rw [hbl]; omega
  unfold copyToBuffer
  simp only [hcr]
  rw [← hn]
  -- the state before the copy loop
  set s0 : Reader := { s with chunkRemain := q.length - n } with hs0
  set s1 : Reader := if q.length - n = 0 then { s0 with st := .readFlags } else s0 with hs1
  have e1 : s1.bufRemain = s.bufRemain ∧ s1.bufs = s.bufs ∧ s1.idx = s.idx ∧ s1.pos = s.pos ∧
      s1.flags = s.flags ∧ s1.flagsPos = s.flagsPos ∧ s1.msg = s.msg ∧ s1.chunkRemain = q.length - n ∧
      s1.st = (if q.length - n = 0 then .readFlags else .readChunk) := by
    rw [hs1]; split_ifs <;> simp [hs0, hst]
  obtain ⟨r1, r2, r3, r4, r5, r6, r7, r8, r9⟩ := e1
  rw [if_neg (by rw [r1]; omega)]
  set s2 : Reader := { s1 with bufRemain := s1.bufRemain - n } with hs2
  set s3 : Reader := if s2.bufRemain = 0 then { s2 with st := .fin } else s2 with hs3
  have e3 : s3.bufRemain = s.bufRemain - n ∧ s3.bufs = s.bufs ∧ s3.idx = s.idx ∧ s3.pos = s.pos ∧
      s3.flags = s.flags ∧ s3.flagsPos = s.flagsPos ∧ s3.msg = s.msg ∧ s3.chunkRemain = q.length - n ∧
      s3.st = (if s.bufRemain - n = 0 then .fin else if q.length - n = 0 then .readFlags else .readChunk) := by
    have hbr : s2.bufRemain = s.bufRemain - n := by rw [hs2]; simp [r1]
    rw [hs3, hbr]
    by_cases h : s.bufRemain - n = 0
    · rw [if_pos h]; simp only [hs2, r1, r2, r3, r4, r5, r6, r7, r8]; simp [h]
    · rw [if_neg h]; simp only [hs2, r1, r2, r3, r4, r5, r6, r7, r8, r9]; simp [h]
  obtain ⟨q1, q2, q3, q4, q5, q6, q7, q8, q9⟩ := e3
  have hloop : copyLoop data n (n + s3.bufs.length + 1) s3 0 =
      .ok (if s.pos + n = L then { s3 with bufs := s.bufs.set s.idx b', pos := 0, idx := s.idx + 1 }
        else { s3 with bufs := s.bufs.set s.idx b', pos := s.pos + n }) := by
    rw [show n + s3.bufs.length + 1 = (n - 1 + s3.bufs.length + 1) + 1 by omega]
    rw [copyLoop, if_pos hn0, q2, q3, hb]
    simp only [q4, hmin, hm, Nat.zero_add]
    rw [hbl]
    split_ifs
    · rw [copyLoop, if_neg (by omega)]
    · rw [copyLoop, if_neg (by omega)]
  rw [hloop]
  simp only [Out.bind]
  have hset : ∀ (j : ℕ) (x : List Byte), (s.bufs.set s.idx b')[j]? = some x →
      (j = s.idx ∧ x = b') ∨ (j ≠ s.idx ∧ s.bufs[j]? = some x) := by
    intro j x hx
    by_cases hj : j = s.idx
    · subst hj
      rw [List.getElem?_set_self (by rw [c.blen]; exact hidx)] at hx
      exact Or.inl ⟨rfl, by simpa using hx.symm⟩
    · rw [List.getElem?_set_ne (fun h => hj h.symm)] at hx
      exact Or.inr ⟨hj, hx⟩
  refine ⟨_, n, rfl, hn0, hnd, ?_, ?_⟩
  · split_ifs with hfull
    · refine ⟨by simp [q5, c.flen], by simp [q7, c.msg], by simp [c.blen], ?_, ?_, ?_, ?_, ?_⟩
      · intro j x hx
        rcases hset j x hx with ⟨_, rfl⟩ | ⟨_, h⟩
        · exact hb'l
        · exact c.len j x h
      · simp only; have := c.pos; omega
      · simp only [q1, Nat.add_mul, Nat.one_mul]; omega
      · intro j x hj hx
        rcases hset j x hx with ⟨rfl, rfl⟩ | ⟨hne, h⟩
        · rw [hfull, List.take_of_length_le (by omega)] at hb't
          exact hb't
        · exact c.full j x (by simp only at hj; omega) h
      · intro x _; simp
    · refine ⟨by simp [q5, c.flen], by simp [q7, c.msg], by simp [c.blen], ?_, ?_, ?_, ?_, ?_⟩
      · intro j x hx
        rcases hset j x hx with ⟨_, rfl⟩ | ⟨_, h⟩
        · exact hb'l
        · exact c.len j x h
      · simp only; omega
      · simp only [q1, q3]; omega
      · intro j x hj hx
        simp only [q3] at hj
        rcases hset j x hx with ⟨rfl, rfl⟩ | ⟨hne, h⟩
        · omega
        · exact c.full j x hj h
      · intro x hx
        simp only [q3] at hx ⊢
        rcases hset _ x hx with ⟨_, rfl⟩ | ⟨h, _⟩
        · exact hb't
        · exact absurd rfl h
  · have hTd : T.drop (s.idx * L + s.pos + n) = q.drop n ++ ps.flatten := by
      rw [← List.drop_drop, hT, List.drop_append_of_le_length hnq]
    -- new position
    have hw' : ∀ s' : Reader, s' = (if s.pos + n = L then
        { s3 with bufs := s.bufs.set s.idx b', pos := 0, idx := s.idx + 1 }
        else { s3 with bufs := s.bufs.set s.idx b', pos := s.pos + n }) →
        s'.idx * L + s'.pos = s.idx * L + s.pos + n ∧ s'.st = s3.st ∧ s'.flagsPos = 0 ∧
        s'.flags = s.flags ∧ s'.chunkRemain = q.length - n ∧ s'.bufRemain = s.bufRemain - n ∧
        (n < q.length → s'.pos = s.pos + n) := by
      intro s' hs'
      split_ifs at hs' with h
      · subst hs'
        refine ⟨by simp only [Nat.add_mul, Nat.one_mul]; omega, rfl, by simp [q6, hfp], q5, q8, q1, ?_⟩
        intro hlt; omega
      · subst hs'
        exact ⟨by simp only [q3]; omega, rfl, by simp [q6, hfp], q5, q8, q1, fun _ => rfl⟩
    obtain ⟨p1, p2, p3, p4, p5, p6, p7⟩ := hw' _ rfl
    generalize (if s.pos + n = L then
        { s3 with bufs := s.bufs.set s.idx b', pos := 0, idx := s.idx + 1 }
        else { s3 with bufs := s.bufs.set s.idx b', pos := s.pos + n }) = s' at *
    by_cases hfin : s.bufRemain - n = 0
    · refine Or.inr (Or.inr ⟨by rw [p2, q9, if_pos hfin], ?_, by rw [p6, hfin]⟩)
      have h0 : T.drop (s.idx * L + s.pos + n) = [] := List.drop_of_length_le (by rw [hTl]; omega)
      rw [hTd] at h0
      have h1 := List.append_eq_nil_iff.mp h0
      rw [hdr, h1.1]
      -- nothing left, so no frame is left
      cases ps with
      | nil => rfl
      | cons p ps' => exact absurd (List.append_eq_nil_iff.mp h1.2).1 hf.1
    · by_cases hqn : q.length - n = 0
      · have hqe : n = q.length := by omega
        refine Or.inl ⟨by rw [p2, q9, if_neg hfin, if_pos hqn], by omega, ps, ?_, ?_, ?_, ?_⟩
        · rintro rfl
          have hl := congrArg List.length hTd
          simp only [List.length_drop, List.length_append, hTl, List.flatten_nil, List.length_nil] at hl
          omega
        · rw [p3, hdr, hqe]; simp
        · rw [p1, hqe]; exact hf
        · rw [p1, hTd, hqe]; simp
      · refine Or.inr (Or.inl ⟨by rw [p2, q9, if_neg hfin, if_neg hqn], p3, q.drop n, ps, ?_, ?_, hdr, ?_, ?_, ?_⟩)
        · intro h; have := congrArg List.length h; simp at this; omega
        · rw [p5]; simp
        · rw [p7 (by omega), List.length_drop]; omega
        · rw [p1, List.length_drop]
          have : s.idx * L + s.pos + n + (q.length - n) = s.idx * L + s.pos + q.length := by omega
          rw [this]; exact hf
        · rw [p1]; exact hTd

theorem loop_ok (valid : Byte → Bool) {L m : ℕ} {T : List Byte} (hTl : T.length = m * L) :
    ∀ (fuel : ℕ) (s : Reader) (data rest : List Byte), Common L m T s → Phase L T s (data ++ rest) →
      data.length < fuel → ∃ s', readLoop valid fuel s data = .ok s' ∧ Common L m T s' ∧ Phase L T s' rest := by
  intro fuel
  induction fuel with
  | zero => intro s data rest _ _ h; omega
  | succ fuel ih =>
    intro s data rest c ph hlt
    rw [readLoop]
    by_cases hd : data = []
    · rw [if_pos hd]; subst hd; exact ⟨s, rfl, c, ph⟩
    · rw [if_neg hd]
      rcases ph with ⟨hst, hfp, ps, hps, hw, hf, hT⟩ | ⟨hst, hfp, q, ps, hq, hcr, hw, hfit, hf, hT⟩ | ⟨_, h, _⟩
      · obtain ⟨s', n, e, hn0, hnl, c', ph'⟩ := step_flags valid c hd hst hfp hps hw hf hT
        rw [hst]; simp only [e, Out.bind]
        exact ih _ _ _ c' ph' (by simp only [List.length_drop]; omega)
      · obtain ⟨s', n, e, hn0, hnl, c', ph'⟩ := step_chunk c hTl hd hst hfp hq hcr hw hfit hf hT
        rw [hst]; simp only [e, Out.bind]
        exact ih _ _ _ c' ph' (by simp only [List.length_drop]; omega)
      · exact absurd (List.append_eq_nil_iff.mp h).1 hd

theorem parts_ok (valid : Byte → Bool) {L m : ℕ} {T : List Byte} (hTl : T.length = m * L)
    (parts : List (List Byte)) : ∀ (s : Reader), Common L m T s → Phase L T s parts.flatten →
      ∃ s', readParts valid s parts = .ok s' ∧ Common L m T s' ∧ Phase L T s' [] := by
  induction parts with
  | nil => intro s c ph; exact ⟨s, rfl, c, by simpa using ph⟩
  | cons p ps ih =>
    intro s c ph
    obtain ⟨s', e, c', ph'⟩ := loop_ok valid hTl (2 * p.length + 1) s p ps.flatten c (by simpa using ph) (by omega)
    rw [readParts, onReadOnePart, e]
    simp only [Out.bind, c'.msg, ne_eq, not_true_eq_false, and_false, if_false]
    exact ih s' c' ph'

/-- the target cut into buffers of length `L` -/
def cut (L : ℕ) (T : List Byte) (m : ℕ) : List (List Byte) :=
  (List.range m).map fun j => (T.drop (j * L)).take L

theorem init_common (L m : ℕ) (hL : 0 < L) (T : List Byte) : Common L m T (Reader.init m L) := by
  refine ⟨by simp [Reader.init], rfl, by simp [Reader.init], ?_, hL, ?_, ?_, ?_⟩
  · intro j b hb
    simp only [Reader.init, List.getElem?_replicate] at hb
    split_ifs at hb
    simp only [Option.some.injEq] at hb; subst hb; simp
  · simp [Reader.init, Nat.mul_comm]
  · intro j b hj; simp [Reader.init] at hj
  · intro b _; simp [Reader.init]

/-- General form: a stream of frames none of which runs over a buffer end is stored, for every way of
cutting the stream into parts, as the concatenated payload. -/
theorem c43_frames (valid : Byte → Bool) (L m : ℕ) (hL : 0 < L) (hm : 0 < m) (ps : List (List Byte))
    (hfit : Fit L 0 ps) (hlen : ps.flatten.length = m * L) (parts : List (List Byte))
    (hparts : parts.flatten = wire ps) :
    receive valid m L parts = .ok (cut L ps.flatten m) := by
  have hps : ps ≠ [] := by
    rintro rfl
    have : 0 < m * L := Nat.mul_pos hm hL
    simp at hlen; omega
  obtain ⟨s', e, c, ph⟩ := parts_ok valid hlen parts (Reader.init m L) (init_common L m hL _) (by
    refine Or.inl ⟨rfl, by simp [Reader.init], ps, hps, ?_, ?_, ?_⟩
    · simpa [Reader.init] using hparts
    · simpa [Reader.init] using hfit
    · simp [Reader.init])
  rw [receive, e]
  simp only [Out.bind]
  rcases ph with ⟨_, hfp, ps', hps', hw, _⟩ | ⟨_, _, q, ps', hq, _, hw, _⟩ | ⟨hst, _, hbr⟩
  · -- a header cannot be cut short: fewer than 9 bytes are not a stream of frames
    exfalso
    obtain ⟨p, qs, rfl⟩ := List.exists_cons_of_ne_nil hps'
    have := congrArg List.length hw
    simp only [List.append_nil, List.length_take, c.flen, wire, List.flatMap_cons, frame, List.length_append,
      List.length_cons, encSize_length] at this
    omega
  · exact absurd (List.append_eq_nil_iff.mp hw.symm).1 hq
  · rw [if_pos hst]
    congr 1
    have hrem := c.remain
    rw [hbr] at hrem
    have hidx : s'.idx = m := by
      have := c.pos
      by_contra hne
      rcases Nat.lt_or_gt_of_ne hne with h | h
      · have : (s'.idx + 1) * L ≤ m * L := Nat.mul_le_mul_right L h
        simp only [Nat.add_mul, Nat.one_mul] at this; omega
      · have : (m + 1) * L ≤ s'.idx * L := Nat.mul_le_mul_right L h
        simp only [Nat.add_mul, Nat.one_mul] at this; omega
    apply List.ext_getElem?
    intro j
    by_cases hj : j < m
    · have hb : s'.bufs[j]? = some (s'.bufs[j]'(by rw [c.blen]; exact hj)) := List.getElem?_eq_getElem _
      rw [hb, c.full j _ (by omega) hb]
      simp [cut, hj]
    · rw [List.getElem?_eq_none (by rw [c.blen]; omega), List.getElem?_eq_none (by simp [cut]; omega)]

/-! ### the server's framing -/

theorem pieces_flatten (C : ℕ) (hC : 0 < C) (d : List Byte) : (pieces C hC d).flatten = d := by
  fun_induction pieces C hC d with
  | case1 => rfl
  | case2 d h ih => rw [List.flatten_cons, ih, List.take_append_drop]

theorem pieces_mem (C : ℕ) (hC : 0 < C) (d p : List Byte) (hp : p ∈ pieces C hC d) :
    p ≠ [] ∧ p.length ≤ C := by
  fun_induction pieces C hC d with
  | case1 => simp at hp
  | case2 d h ih =>
    rcases List.mem_cons.mp hp with rfl | hp
    · refine ⟨?_, by simp⟩
      intro h0
      have := congrArg List.length h0
      have := List.length_pos_iff.mpr h
      simp only [List.length_take, List.length_nil] at *
      omega
    · exact ih hp

theorem pieces_short (C : ℕ) (hC : 0 < C) (d : List Byte) (h0 : d ≠ []) (h : d.length ≤ C) :
    pieces C hC d = [d] := by
  rw [pieces, dif_neg h0, List.take_of_length_le h, List.drop_of_length_le h, pieces, dif_pos rfl]

theorem fit_append (L : ℕ) (ps qs : List (List Byte)) : ∀ o, Fit L o (ps ++ qs) ↔
    Fit L o ps ∧ Fit L (o + ps.flatten.length) qs := by
  induction ps with
  | nil => intro o; simp [Fit]
  | cons p ps ih =>
    intro o
    simp only [List.cons_append, Fit, ih, List.flatten_cons, List.length_append, Nat.add_assoc]
    tauto

theorem fit_of_le (L : ℕ) (ps : List (List Byte)) (hne : ∀ p ∈ ps, p ≠ [] ∧ p.length < 2 ^ 64) :
    ∀ o, o + ps.flatten.length ≤ L → Fit L o ps := by
  induction ps with
  | nil => intro o _; trivial
  | cons p ps ih =>
    intro o h
    simp only [List.flatten_cons, List.length_append] at h
    obtain ⟨h1, h2⟩ := hne p List.mem_cons_self
    have := List.length_pos_iff.mpr h1
    refine ⟨h1, h2, ?_, ih (fun q hq => hne q (List.mem_cons_of_mem _ hq)) _ (by omega)⟩
    rw [Nat.mod_eq_of_lt (by omega)]; omega

theorem cut_one (d : List Byte) : cut d.length d 1 = [d] := by simp [cut]

theorem send_single (C : ℕ) (hC : 0 < C) (left : ℕ) : ∀ d : List Byte, d.length = left →
    (adjustAndSend C hC [d] left).flatten = d ∧
    ∀ p ∈ adjustAndSend C hC [d] left, p ≠ [] ∧ p.length ≤ C := by
  induction left using Nat.strong_induction_on with
  | _ left ih =>
    intro d hd
    rw [adjustAndSend]
    by_cases h : left = 0
    · rw [dif_pos h]
      subst h
      simp [List.length_eq_zero_iff.mp hd]
    · rw [dif_neg h]
      obtain ⟨i1, i2⟩ := ih (left - min left C) (by omega) (d.drop C) (by simp; omega)
      simp only [sendStreamData, List.map_cons, List.map_nil, List.flatMap_cons, List.flatMap_nil,
        List.append_nil]
      refine ⟨?_, ?_⟩
      · rw [List.flatten_append, pieces_flatten, i1, List.take_append_drop]
      · intro p hp
        rcases List.mem_append.mp hp with hp | hp
        · exact pieces_mem C hC _ p hp
        · exact i2 p hp

/-- C43, one adjustment buffer, chunked request (multiplication, squaring, AND, truncation, random
bits, zero test): for every chunk size, content and fragmentation the client stores exactly the bytes
the server computed. -/
theorem c43_one_buffer (valid : Byte → Bool) (C : ℕ) (hC : 0 < C) (hC64 : C < 2 ^ 64) (d : List Byte)
    (hd : d ≠ []) (parts : List (List Byte))
    (hparts : parts.flatten = wire (adjustAndSend C hC [d] d.length)) :
    receive valid 1 d.length parts = .ok [d] := by
  obtain ⟨h1, h2⟩ := send_single C hC d.length d rfl
  have hl : 0 < d.length := List.length_pos_iff.mpr hd
  rw [c43_frames valid d.length 1 hl (by omega) _ _ (by rw [h1]; omega) parts hparts, h1, cut_one]
  exact fit_of_le _ _ (fun p hp => ⟨(h2 p hp).1, lt_of_le_of_lt (h2 p hp).2 hC64⟩) 0 (by rw [h1]; omega)

/-- C43, one adjustment buffer sent without the chunk loop (matrix products, permutations). -/
theorem c43_one_buffer_unchunked (valid : Byte → Bool) (C : ℕ) (hC : 0 < C) (hC64 : C < 2 ^ 64)
    (d : List Byte) (hd : d ≠ []) (parts : List (List Byte))
    (hparts : parts.flatten = wire (sendStreamData C hC [d])) :
    receive valid 1 d.length parts = .ok [d] := by
  have hl : 0 < d.length := List.length_pos_iff.mpr hd
  have h0 : sendStreamData C hC [d] = pieces C hC d := by simp [sendStreamData]
  rw [h0] at hparts
  have h1 := pieces_flatten C hC d
  rw [c43_frames valid d.length 1 hl (by omega) _ _ (by rw [h1]; omega) parts hparts, h1, cut_one]
  exact fit_of_le _ _ (fun p hp => ⟨(pieces_mem C hC d p hp).1,
    lt_of_le_of_lt (pieces_mem C hC d p hp).2 hC64⟩) 0 (by rw [h1]; omega)

theorem send_short (C : ℕ) (hC : 0 < C) (L : ℕ) (hL : 0 < L) (hLC : L ≤ C) (ds : List (List Byte))
    (hds : ∀ d ∈ ds, d.length = L) : adjustAndSend C hC ds L = ds := by
  rw [adjustAndSend, dif_neg (by omega), show L - min L C = 0 by omega, adjustAndSend, dif_pos rfl,
    List.append_nil, sendStreamData, List.flatMap_map]
  induction ds with
  | nil => rfl
  | cons d ds ih =>
    have hd := hds d List.mem_cons_self
    rw [List.flatMap_cons, ih (fun e he => hds e (List.mem_cons_of_mem _ he)), List.take_of_length_le (by omega),
      pieces_short C hC d (by rintro rfl; simp at hd; omega) (by omega)]
    rfl

theorem fit_full (L : ℕ) (hL : 0 < L) (hL64 : L < 2 ^ 64) (ds : List (List Byte))
    (hds : ∀ d ∈ ds, d.length = L) : ∀ k, Fit L (k * L) ds := by
  induction ds with
  | nil => intro k; trivial
  | cons d ds ih =>
    intro k
    have hd := hds d List.mem_cons_self
    refine ⟨by rintro rfl; simp at hd; omega, by omega, ?_, ?_⟩
    · rw [Nat.mul_mod_left]; omega
    · rw [hd, ← Nat.succ_mul]; exact ih (fun e he => hds e (List.mem_cons_of_mem _ he)) _

theorem flatten_length_full (L : ℕ) (ds : List (List Byte)) (hds : ∀ d ∈ ds, d.length = L) :
    ds.flatten.length = ds.length * L := by
  induction ds with
  | nil => simp
  | cons d ds ih =>
    rw [List.flatten_cons, List.length_append, ih (fun e he => hds e (List.mem_cons_of_mem _ he)),
      hds d List.mem_cons_self, List.length_cons, Nat.succ_mul]; omega

theorem cut_flatten (L : ℕ) (ds : List (List Byte)) (hds : ∀ d ∈ ds, d.length = L) :
    cut L ds.flatten ds.length = ds := by
  unfold cut
  induction ds with
  | nil => rfl
  | cons d ds ih =>
    have hd := hds d List.mem_cons_self
    have := ih (fun e he => hds e (List.mem_cons_of_mem _ he))
    rw [List.length_cons, List.range_succ_eq_map, List.map_cons, List.map_map]
    congr 1
    · simp only [List.flatten_cons, Nat.zero_mul, List.drop_zero]
      rw [← hd, List.take_left]
    · refine Eq.trans (List.map_congr_left ?_) this
      intro j _
      simp only [Function.comp, List.flatten_cons, Nat.succ_mul]
      rw [Nat.add_comm, ← List.drop_drop, ← hd, List.drop_left]

/-- C43, several adjustment buffers (the truncation pair sends two) that fit into one chunk: exact for
every content and fragmentation.  Partial: for requests larger than one chunk the claim is false, see
`c43_interleaved_chunks` and `c43_overrun`. -/
theorem c43_buffers_partial (valid : Byte → Bool) (C : ℕ) (hC : 0 < C) (hC64 : C < 2 ^ 64) (L : ℕ)
    (hL : 0 < L) (hLC : L ≤ C) (ds : List (List Byte)) (hne : ds ≠ []) (hds : ∀ d ∈ ds, d.length = L)
    (parts : List (List Byte)) (hparts : parts.flatten = wire (adjustAndSend C hC ds L)) :
    receive valid ds.length L parts = .ok ds := by
  rw [send_short C hC L hL hLC ds hds] at hparts
  rw [c43_frames valid L ds.length hL (List.length_pos_iff.mpr hne) ds ?_ ?_ parts hparts,
    cut_flatten L ds hds]
  · simpa using fit_full L hL (by omega) ds hds 0
  · exact flatten_length_full L ds hds

theorem send_double (C : ℕ) (hC : 0 < C) (a b c d : List Byte) (ha : a.length = C) (hb : b.length = C)
    (hc : c.length = C) (hd : d.length = C) :
    adjustAndSend C hC [a ++ b, c ++ d] (2 * C) = [a, c, b, d] := by
  have hb0 : b ≠ [] := by rintro rfl; simp at hb; omega
  have ha0 : a ≠ [] := by rintro rfl; simp at ha; omega
  have hc0 : c ≠ [] := by rintro rfl; simp at hc; omega
  have hd0 : d ≠ [] := by rintro rfl; simp at hd; omega
  have t1 : (a ++ b).take C = a := by rw [← ha, List.take_left]
  have t2 : (c ++ d).take C = c := by rw [← hc, List.take_left]
  have t3 : (a ++ b).drop C = b := by rw [← ha, List.drop_left]
  have t4 : (c ++ d).drop C = d := by rw [← hc, List.drop_left]
  rw [adjustAndSend, dif_neg (by omega), show 2 * C - min (2 * C) C = C by omega]
  simp only [List.map_cons, List.map_nil, t1, t2, t3, t4]
  rw [send_short C hC C hC (Nat.le_refl C) [b, d] (by
    intro x hx
    simp only [List.mem_cons, List.not_mem_nil, or_false] at hx
    rcases hx with rfl | rfl <;> assumption)]
  simp only [sendStreamData, List.flatMap_cons, List.flatMap_nil, pieces_short C hC a ha0 (by omega),
    pieces_short C hC c hc0 (by omega)]
  rfl

/-- C43 is false for two adjustment buffers larger than one chunk: with two full chunks the client
*accepts* the response for every fragmentation, but stores the first chunks of both adjustments in the
first buffer and the second chunks in the second one. -/
theorem c43_interleaved_chunks (valid : Byte → Bool) (C : ℕ) (hC : 0 < C) (hC64 : C < 2 ^ 63)
    (a b c d : List Byte) (ha : a.length = C) (hb : b.length = C) (hc : c.length = C) (hd : d.length = C)
    (parts : List (List Byte))
    (hparts : parts.flatten = wire (adjustAndSend C hC [a ++ b, c ++ d] (2 * C))) :
    receive valid 2 (2 * C) parts = .ok [a ++ c, b ++ d] := by
  rw [send_double C hC a b c d ha hb hc hd] at hparts
  have hlen : [a ++ c, b ++ d].flatten = [a, c, b, d].flatten := by simp
  have hcut := cut_flatten (2 * C) [a ++ c, b ++ d] (by
    intro x hx
    simp only [List.mem_cons, List.not_mem_nil, or_false] at hx
    rcases hx with rfl | rfl <;> simp only [List.length_append] <;> omega)
  rw [hlen] at hcut
  rw [c43_frames valid (2 * C) 2 (by omega) (by omega) [a, c, b, d] ?_ ?_ parts hparts]
  · exact congrArg _ hcut
  · have hb0 : b ≠ [] := by rintro rfl; simp at hb; omega
    have ha0 : a ≠ [] := by rintro rfl; simp at ha; omega
    have hc0 : c ≠ [] := by rintro rfl; simp at hc; omega
    have hd0 : d ≠ [] := by rintro rfl; simp at hd; omega
    refine ⟨ha0, by omega, by rw [Nat.zero_mod]; omega, hc0, by omega, ?_, hb0, by omega, ?_, hd0, by omega, ?_,
      trivial⟩
    · rw [Nat.mod_eq_of_lt (by omega)]; omega
    · rw [show 0 + a.length + c.length = 2 * C by omega, Nat.mod_self]; omega
    · rw [show 0 + a.length + c.length + b.length = C + 2 * C by omega, Nat.add_mod_right,
        Nat.mod_eq_of_lt (by omega)]; omega
  · simp only [List.flatten_cons, List.flatten_nil, List.append_nil, List.length_append]; omega

example : receive (fun _ => false) 2 4 [wire (adjustAndSend 2 (by norm_num) [[1, 2, 3, 4], [5, 6, 7, 8]] 4)]
    = .ok [[1, 2, 5, 6], [3, 4, 7, 8]] :=
  c43_interleaved_chunks _ 2 (by norm_num) (by norm_num) [1, 2] [3, 4] [5, 6] [7, 8] rfl rfl rfl rfl _ (by simp)

/-- C43 is also false in its memory-safety part: with one chunk plus some bytes, delivered one frame
per part, the client reads past the end of the received part. -/
theorem c43_overrun : ∃ parts, parts.flatten = wire (adjustAndSend 2 (by norm_num) [[1, 2, 3], [5, 6, 7]] 3) ∧
    receive (fun _ => false) 2 3 parts = .ub :=
  ⟨[frame [1, 2], frame [5, 6], frame [3], frame [7]], by decide +kernel, by decide +kernel⟩

example : receive (fun _ => false) 1 5
    [[0, 2, 0, 0], [0, 0, 0, 0, 0, 9, 8, 0, 2], [0, 0, 0, 0, 0, 0, 0, 7, 6, 0, 1, 0, 0, 0, 0, 0, 0, 0, 5]]
    = .ok [[9, 8, 7, 6, 5]] :=
  c43_one_buffer _ 2 (by norm_num) (by norm_num) [9, 8, 7, 6, 5] (by simp) _ (by decide +kernel)

/-! ### arbitrary (also malicious) responses, one buffer -/

/-- a list of (size bytes, payload) frames -/
def framed (fs : List (List Byte × List Byte)) : List Byte := fs.flatMap fun f => 0 :: f.1 ++ f.2

def payload (fs : List (List Byte × List Byte)) : List Byte := fs.flatMap fun f => f.2

def FrameOk (f : List Byte × List Byte) : Prop := f.1.length = 8 ∧ decSize f.1 = f.2.length

/-- the stream is a sequence of complete frames followed by a possibly cut-short frame, and carries
`out` -/
def Carries (stream out : List Byte) : Prop :=
  ∃ (fs : List (List Byte × List Byte)) (h d : List Byte), (∀ f ∈ fs, FrameOk f) ∧ h.length = 8 ∧ d.length ≤ decSize h ∧
    stream = framed fs ++ (0 :: h ++ d) ∧ out = payload fs ++ d

/-- what the reader (one buffer of length `L`) has stored after consuming `c` -/
def Inv1 (L : ℕ) (s : Reader) (c : List Byte) : Prop :=
  s.flags.length = 9 ∧ ∃ b, s.bufs = [b] ∧ b.length = L ∧
  ((s.st = .readFlags ∧ s.flagsPos < 9 ∧ s.idx = 0 ∧ s.pos < L ∧ s.pos + s.bufRemain = L ∧ s.msg = [] ∧
    ∃ fs, (∀ f ∈ fs, FrameOk f) ∧ c = framed fs ++ s.flags.take s.flagsPos ∧ b.take s.pos = payload fs) ∨
   (s.st = .readChunk ∧ s.flagsPos = 0 ∧ s.idx = 0 ∧ s.pos < L ∧ s.pos + s.bufRemain = L ∧ s.msg = [] ∧
    ∃ fs h d, (∀ f ∈ fs, FrameOk f) ∧ h.length = 8 ∧ d.length + s.chunkRemain = decSize h ∧
      c = framed fs ++ (0 :: h ++ d) ∧ b.take s.pos = payload fs ++ d) ∨
   (s.st = .readError ∧ s.flagsPos = 0) ∨
   (s.st = .fin ∧ s.msg ≠ []) ∨
   (s.st = .fin ∧ s.msg = [] ∧ Carries c b))

def rank (s : Reader) : ℕ := if s.st = .readChunk ∨ s.st = .readError then 1 else 0

theorem memcpy_ok (dst : List Byte) (pos : ℕ) (src : List Byte) (n : ℕ) (h1 : pos + n ≤ dst.length)
    (h2 : n ≤ src.length) : ∃ r, memcpy dst pos src 0 n = some r ∧ r.length = dst.length ∧
      r.take (pos + n) = dst.take pos ++ src.take n := by
  refine ⟨_, by unfold memcpy; rw [if_pos ⟨h1, by omega⟩], ?_, ?_⟩
  · simp only [List.length_append, List.length_take, List.length_drop, List.drop_zero]; omega
  · have hl : (dst.take pos ++ src.take n).length = pos + n := by
      simp only [List.length_append, List.length_take]; omega
    rw [List.drop_zero, ← hl, List.take_left]

theorem framed_snoc (fs : List (List Byte × List Byte)) (h d : List Byte) :
    framed (fs ++ [(h, d)]) = framed fs ++ (0 :: h ++ d) := by simp [framed]

theorem payload_snoc (fs : List (List Byte × List Byte)) (h d : List Byte) :
    payload (fs ++ [(h, d)]) = payload fs ++ d := by simp [payload]

theorem frameOk_snoc {fs : List (List Byte × List Byte)} {h d : List Byte} (hfs : ∀ f ∈ fs, FrameOk f)
    (hf : FrameOk (h, d)) : ∀ f ∈ fs ++ [(h, d)], FrameOk f := by
  intro f hm
  rcases List.mem_append.mp hm with hm | hm
  · exact hfs f hm
  · rw [List.mem_singleton.mp hm]; exact hf

theorem step1_flags (valid : Byte → Bool) {L : ℕ} {s : Reader} {c data : List Byte} (I : Inv1 L s c)
    (hst : s.st = .readFlags) (hd : data ≠ []) :
    copyToFlags valid s data = .fail ∨ ∃ s' n, copyToFlags valid s data = .ok (s', n) ∧ 0 < n ∧
      n ≤ data.length ∧ Inv1 L s' (c ++ data.take n) := by
  obtain ⟨hfl, b, hb, hbl, ph⟩ := I
  simp only [hst, reduceCtorEq, true_and, false_and, false_or, or_false] at ph
  obtain ⟨hfp, hidx, hpos, hrem, hmsg, fs, hfs, hc, hbt⟩ := ph
  have hdl : 0 < data.length := List.length_pos_iff.mpr hd
  set cp := min (9 - s.flagsPos) data.length with hcp
  obtain ⟨fl, hm, hfl9, htk⟩ := memcpy_ok s.flags s.flagsPos data cp (by omega) (by omega)
  unfold copyToFlags
  simp only [hfl]
  rw [← hcp, hm]
  simp only [hfl9, hfl]
  rw [hfl] at hfl9
  split_ifs with h9 hz hv
  · refine Or.inr ⟨_, cp, rfl, by omega, by omega, hfl9, b, hb, hbl, Or.inr (Or.inl ⟨rfl, rfl, hidx, hpos, hrem, hmsg,
      fs, fl.drop 1, [], hfs, by simp [hfl9], by simp, ?_, by simpa using hbt⟩)⟩
    rw [hc, List.append_assoc, ← htk, h9, List.take_of_length_le (by omega), List.append_nil]
    congr 1
    obtain ⟨a, t, rfl⟩ := List.exists_cons_of_ne_nil (l := fl) (by rintro rfl; simp at hfl9)
    simp only [List.headD_cons] at hz
    simp [hz]
  · exact Or.inr ⟨_, cp, rfl, by omega, by omega, hfl9, b, hb, hbl, Or.inr (Or.inr (Or.inl ⟨rfl, rfl⟩))⟩
  · exact Or.inl rfl
  · refine Or.inr ⟨_, cp, rfl, by omega, by omega, hfl9, b, hb, hbl, Or.inl ⟨hst, by simp only; omega, hidx, hpos, hrem,
      hmsg, fs, hfs, ?_, hbt⟩⟩
    rw [hc, List.append_assoc, ← htk]

theorem step1_chunk {L : ℕ} {s : Reader} {c data : List Byte} (I : Inv1 L s c)
    (hst : s.st = .readChunk) (hd : data ≠ []) :
    copyToBuffer s data = .fail ∨ ∃ s' n, copyToBuffer s data = .ok (s', n) ∧
      n ≤ data.length ∧ Inv1 L s' (c ++ data.take n) ∧ (0 < n ∨ s'.st = .readFlags) := by
  obtain ⟨hfl, b, hb, hbl, ph⟩ := I
  simp only [hst, reduceCtorEq, true_and, false_and, false_or, or_false] at ph
  obtain ⟨hfp, hidx, hpos, hrem, hmsg, fs, h, d, hfs, hh, hdc, hc, hbt⟩ := ph
  have hdl : 0 < data.length := List.length_pos_iff.mpr hd
  set n := min data.length s.chunkRemain with hn
  unfold copyToBuffer
  simp only
  rw [← hn]
  by_cases hgt : n > s.bufRemain
  · left
    rw [if_pos]
    split_ifs <;> exact hgt
  right
  obtain ⟨b', hm, hb'l, htk⟩ := memcpy_ok b s.pos data n (by omega) (by omega)
  rw [hbt] at htk
  by_cases hn0 : n = 0
  · -- an empty frame
    have hcr : s.chunkRemain = 0 := by omega
    have hbr : s.bufRemain ≠ 0 := by omega
    refine ⟨{ s with st := .readFlags }, 0, ?_, by omega, ?_, Or.inr rfl⟩
    · rw [hn0]
      simp [hcr, hbr, copyLoop, Out.bind]
    · refine ⟨hfl, b, hb, hbl, Or.inl ⟨rfl, by first | omega | (simp only; omega), hidx, hpos, hrem, hmsg, fs ++ [(h, d)],
        frameOk_snoc hfs ⟨hh, by first | omega | (simp only; omega)⟩, ?_, ?_⟩⟩
      · rw [framed_snoc, hfp, hc]; simp
      · rw [payload_snoc]; exact hbt
  · -- bytes are copied
    have hmin : min n (b.length - s.pos) = n := by omega
    have hloop : ∀ s3 : Reader, s3.bufs = [b] → s3.idx = 0 → s3.pos = s.pos → copyLoop data n (n + s.bufs.length + 1) s3 0 =
        .ok (if s.pos + n = L then { s3 with bufs := [b'], pos := 0, idx := 1 }
          else { s3 with bufs := [b'], pos := s.pos + n }) := by
      intro s3 h1 h2 h3
      rw [show n + s.bufs.length + 1 = (n - 1 + s.bufs.length + 1) + 1 by omega]
      rw [copyLoop, if_pos (by omega), h1, h2]
      simp only [List.getElem?_cons_zero, h3, hmin, hm, Nat.zero_add, List.set_cons_zero]
      rw [hbl]
      split_ifs
      · rw [copyLoop, if_neg (by omega)]
      · rw [copyLoop, if_neg (by omega)]
    have hcd : c ++ data.take n = framed fs ++ (0 :: h ++ (d ++ data.take n)) := by rw [hc]; simp
    have hdn : (d ++ data.take n).length = d.length + n := by
      simp only [List.length_append, List.length_take]; omega
    by_cases hfin : s.bufRemain - n = 0
    · have hL : s.pos + n = L := by omega
      by_cases hcr : s.chunkRemain - n = 0
      · refine ⟨{ s with chunkRemain := 0, bufRemain := 0, st := .fin, bufs := [b'], pos := 0, idx := 1 }, n, ?_, by omega, ?_,
          Or.inl (by omega)⟩
        · simp only [hcr, if_true, if_neg hgt, hfin]
          rw [hloop, if_pos hL] <;> first | rfl | exact hb | exact hidx
        · refine ⟨hfl, b', rfl, by first | omega | (simp only; omega), Or.inr (Or.inr (Or.inr (Or.inr ⟨rfl, hmsg, fs, h, _, hfs, hh, ?_, hcd, ?_⟩)))⟩
          · omega
          · rw [← List.append_assoc, ← htk, List.take_of_length_le (by omega)]
      · refine ⟨{ s with chunkRemain := s.chunkRemain - n, bufRemain := 0, st := .fin, bufs := [b'], pos := 0, idx := 1 }, n, ?_, by omega, ?_,
          Or.inl (by omega)⟩
        · simp only [if_neg hcr, if_neg hgt, hfin, if_true]
          rw [hloop, if_pos hL] <;> first | rfl | exact hb | exact hidx
        · refine ⟨hfl, b', rfl, by first | omega | (simp only; omega), Or.inr (Or.inr (Or.inr (Or.inr ⟨rfl, hmsg, fs, h, _, hfs, hh, ?_, hcd, ?_⟩)))⟩
          · omega
          · rw [← List.append_assoc, ← htk, List.take_of_length_le (by omega)]
    · have hL : ¬ s.pos + n = L := by omega
      by_cases hcr : s.chunkRemain - n = 0
      · refine ⟨{ s with chunkRemain := 0, bufRemain := s.bufRemain - n, st := .readFlags, bufs := [b'], pos := s.pos + n }, n, ?_, by omega, ?_,
          Or.inl (by omega)⟩
        · simp only [hcr, if_true, if_neg hgt, if_neg hfin]
          rw [hloop, if_neg hL] <;> first | rfl | exact hb | exact hidx
        · refine ⟨hfl, b', rfl, by first | omega | (simp only; omega), Or.inl ⟨rfl, by first | omega | (simp only; omega), hidx, by first | omega | (simp only; omega),
            by first | omega | (simp only; omega), hmsg, fs ++ [(h, d ++ data.take n)], frameOk_snoc hfs ⟨hh, by first | omega | (simp only; omega)⟩, ?_, ?_⟩⟩
          · rw [framed_snoc, hfp, hcd]; simp
          · rw [payload_snoc, ← List.append_assoc]; exact htk
      · refine ⟨{ s with chunkRemain := s.chunkRemain - n, bufRemain := s.bufRemain - n, bufs := [b'], pos := s.pos + n }, n, ?_, by omega, ?_,
          Or.inl (by omega)⟩
        · simp only [if_neg hcr, if_neg hgt, if_neg hfin]
          rw [hloop, if_neg hL] <;> first | rfl | exact hb | exact hidx
        · refine ⟨hfl, b', rfl, by first | omega | (simp only; omega), Or.inr (Or.inl ⟨hst, hfp, hidx, by first | omega | (simp only; omega),
            by first | omega | (simp only; omega), hmsg, fs, h, d ++ data.take n, hfs, hh, by first | omega | (simp only; omega), hcd, ?_⟩)⟩
          rw [← List.append_assoc]; exact htk

theorem loop1 (valid : Byte → Bool) {L : ℕ} : ∀ (fuel : ℕ) (s : Reader) (c data : List Byte), Inv1 L s c →
    2 * data.length + rank s ≤ fuel →
    readLoop valid fuel s data = .fail ∨ ∃ s', readLoop valid fuel s data = .ok s' ∧ Inv1 L s' (c ++ data) := by
  intro fuel
  induction fuel with
  | zero =>
    intro s c data I h
    have : data = [] := List.length_eq_zero_iff.mp (by omega)
    subst this
    exact Or.inr ⟨s, by simp [readLoop], by simpa using I⟩
  | succ fuel ih =>
    intro s c data I h
    rw [readLoop]
    by_cases hd : data = []
    · subst hd; exact Or.inr ⟨s, by simp, by simpa using I⟩
    rw [if_neg hd]
    have hdl : 0 < data.length := List.length_pos_iff.mpr hd
    have hstep : ∀ (s' : Reader) (n : ℕ), n ≤ data.length → Inv1 L s' (c ++ data.take n) →
        2 * (data.length - n) + rank s' ≤ fuel →
        readLoop valid fuel s' (data.drop n) = .fail ∨ ∃ s'', readLoop valid fuel s' (data.drop n) = .ok s'' ∧
          Inv1 L s'' (c ++ data) := by
      intro s' n _ I' hf
      rcases ih s' (c ++ data.take n) (data.drop n) I' (by simpa using hf) with h | ⟨s'', e, I''⟩
      · exact Or.inl h
      · rw [List.append_assoc, List.take_append_drop] at I''
        exact Or.inr ⟨s'', e, I''⟩
    have hr : ∀ s' : Reader, rank s' ≤ 1 := by intro s'; unfold rank; split_ifs <;> omega
    cases hst : s.st with
    | readFlags =>
      rcases step1_flags valid I hst hd with e | ⟨s', n, e, hn0, hnl, I'⟩
      · exact Or.inl (by simp only [e, Out.bind])
      · simp only [e, Out.bind]
        have := hr s'
        exact hstep s' n hnl I' (by omega)
    | readChunk =>
      have hrs : rank s = 1 := by simp [rank, hst]
      rcases step1_chunk I hst hd with e | ⟨s', n, e, hnl, I', hn⟩
      · exact Or.inl (by simp only [e, Out.bind])
      · simp only [e, Out.bind]
        have := hr s'
        refine hstep s' n hnl I' ?_
        rcases hn with hn | hn
        · omega
        · have : rank s' = 0 := by simp [rank, hn]
          omega
    | readError =>
      have hrs : rank s = 1 := by simp [rank, hst]
      simp only [copyToError, Out.bind]
      obtain ⟨hfl, b, hb, hbl, ph⟩ := I
      set n := min data.length s.chunkRemain with hn
      by_cases hn0 : n = 0
      · have hcr : s.chunkRemain = 0 := by omega
        left
        rw [hn0]
        simp only [hcr, Nat.sub_zero, if_true, List.drop_zero]
        obtain ⟨f, rfl⟩ : ∃ f, fuel = f + 1 := ⟨fuel - 1, by omega⟩
        rw [readLoop, if_neg hd]
      · have hmsg : s.msg ++ data.take n ≠ [] := by
          intro h0
          have := congrArg List.length (List.append_eq_nil_iff.mp h0).2
          simp only [List.length_take, List.length_nil] at this
          omega
        by_cases hcr : s.chunkRemain - n = 0
        · simp only [hcr, if_true]
          refine hstep _ n (by omega) ⟨hfl, b, hb, hbl, Or.inr (Or.inr (Or.inr (Or.inl ⟨rfl, hmsg⟩)))⟩ ?_
          have := hr { s with chunkRemain := 0, st := .fin, msg := s.msg ++ data.take n }
          omega
        · simp only [if_neg hcr]
          simp only [hst, reduceCtorEq, true_and, false_and, false_or, or_false] at ph
          refine hstep _ n (by omega) ⟨hfl, b, hb, hbl, Or.inr (Or.inr (Or.inl ⟨hst, ph⟩))⟩ ?_
          have := hr { s with chunkRemain := s.chunkRemain - n, msg := s.msg ++ data.take n }
          omega
    | fin => exact Or.inl rfl

theorem parts1 (valid : Byte → Bool) {L : ℕ} (parts : List (List Byte)) : ∀ (s : Reader) (c : List Byte),
    Inv1 L s c → (s.st = .fin → s.msg = []) →
    readParts valid s parts = .fail ∨ ∃ s', readParts valid s parts = .ok s' ∧ Inv1 L s' (c ++ parts.flatten) ∧
      (s'.st = .fin → s'.msg = []) := by
  induction parts with
  | nil => intro s c I hm; exact Or.inr ⟨s, rfl, by simpa using I, hm⟩
  | cons p ps ih =>
    intro s c I _
    rw [readParts, onReadOnePart]
    have hr : rank s ≤ 1 := by unfold rank; split_ifs <;> omega
    rcases loop1 valid (2 * p.length + 1) s c p I (by omega) with e | ⟨s', e, I'⟩
    · left; simp only [e, Out.bind]
    · simp only [e, Out.bind]
      by_cases hf : s'.st = .fin ∧ s'.msg ≠ []
      · left; rw [if_pos hf]
      · rw [if_neg hf]
        simp only
        rcases ih s' (c ++ p) I' (by tauto) with h | ⟨s'', e', I'', hm⟩
        · exact Or.inl h
        · exact Or.inr ⟨s'', e', by simpa using I'', hm⟩

/-- C43, safety for one buffer: whatever bytes arrive in whatever parts, the client never touches
memory outside its buffer or the received part; if it accepts, then the response is a sequence of
frames carrying exactly the accepted bytes, of exactly the expected size. -/
theorem c43_accept_sound (valid : Byte → Bool) (L : ℕ) (hL : 0 < L) (parts : List (List Byte)) :
    receive valid 1 L parts = .fail ∨
    ∃ b, receive valid 1 L parts = .ok [b] ∧ b.length = L ∧ Carries parts.flatten b := by
  have I0 : Inv1 L (Reader.init 1 L) [] :=
    ⟨by simp [Reader.init], List.replicate L 0, rfl, by simp, Or.inl ⟨rfl, by simp [Reader.init], rfl, hL,
      by simp [Reader.init], rfl, [], by simp, by simp [framed, Reader.init], by simp [payload, Reader.init]⟩⟩
  rw [receive]
  rcases parts1 valid parts _ [] I0 (by simp [Reader.init]) with e | ⟨s', e, I, hm⟩
  · left; rw [e]; rfl
  · rw [e]
    simp only [Out.bind]
    by_cases hf : s'.st = .fin
    · right
      obtain ⟨_, b, hb, hbl, ph⟩ := I
      simp only [hf, hm hf, reduceCtorEq, true_and, false_and, false_or, ne_eq, not_true_eq_false] at ph
      exact ⟨b, by rw [if_pos hf, hb], hbl, by simpa using ph⟩
    · left; rw [if_neg hf]

theorem frame_cancel {h h' x y : List Byte} (h8 : h.length = 8) (h8' : h'.length = 8)
    (e : (0 : Byte) :: h ++ x = 0 :: h' ++ y) : h = h' ∧ x = y := by
  simp only [List.cons_append, List.cons.injEq, true_and] at e
  exact List.append_inj e (by omega)

theorem carries_wire (ps : List (List Byte)) (hps : ∀ p ∈ ps, p.length < 2 ^ 64) (out : List Byte)
    (h : Carries (wire ps) out) : out = ps.flatten := by
  obtain ⟨fs, hd, d, hfs, hh, hdl, hw, rfl⟩ := h
  induction fs generalizing ps with
  | nil =>
    cases ps with
    | nil => simp [wire, framed] at hw
    | cons p ps =>
      simp only [wire, List.flatMap_cons, frame, framed, List.flatMap_nil, List.nil_append, List.append_assoc] at hw
      obtain ⟨e1, e2⟩ := frame_cancel (encSize_length _) hh hw
      rw [← e1, decSize_encSize _ (hps p List.mem_cons_self), ← e2, List.length_append] at hdl
      cases ps with
      | nil => simp [payload, ← e2]
      | cons q qs =>
        simp only [List.flatMap_cons, frame, List.length_append, List.length_cons] at hdl
        omega
  | cons f fs ih =>
    obtain ⟨f8, fl⟩ := hfs f List.mem_cons_self
    cases ps with
    | nil => simp [wire, framed] at hw
    | cons p ps =>
      simp only [wire, framed, List.flatMap_cons, frame, List.append_assoc] at hw
      obtain ⟨e1, e2⟩ := frame_cancel (encSize_length _) f8 hw
      rw [← e1, decSize_encSize _ (hps p List.mem_cons_self)] at fl
      obtain ⟨e3, e4⟩ := List.append_inj e2 fl
      have := ih ps (fun q hq => hps q (List.mem_cons_of_mem _ hq)) (fun g hg => hfs g (List.mem_cons_of_mem _ hg))
        (by simpa [wire, framed] using e4)
      simp only [payload, List.flatMap_cons, List.flatten_cons] at this ⊢
      rw [List.append_assoc, this, e3]

/-- C43: a framed response whose total size is not the expected one is rejected, for every
fragmentation. -/
theorem c43_wrong_size_rejected (valid : Byte → Bool) (L : ℕ) (hL : 0 < L) (ps : List (List Byte))
    (hps : ∀ p ∈ ps, p.length < 2 ^ 64) (hlen : ps.flatten.length ≠ L) (parts : List (List Byte))
    (hparts : parts.flatten = wire ps) : receive valid 1 L parts = .fail := by
  rcases c43_accept_sound valid L hL parts with h | ⟨b, _, hb, hc⟩
  · exact h
  · rw [hparts] at hc
    rw [carries_wire ps hps b hc] at hb
    exact absurd hb hlen

/-- C43: an error reported by the server is never mistaken for data. -/
theorem c43_error_rejected (valid : Byte → Bool) (L : ℕ) (hL : 0 < L) (code : Byte) (hcode : code ≠ 0)
    (msg : List Byte) (parts : List (List Byte)) (hparts : parts.flatten = wireError code msg) :
    receive valid 1 L parts = .fail := by
  rcases c43_accept_sound valid L hL parts with h | ⟨b, _, _, fs, h, d, _, _, _, hs, _⟩
  · exact h
  · exfalso
    rw [hparts] at hs
    cases fs with
    | nil => simp only [wireError, framed, List.flatMap_nil, List.nil_append, List.cons_append, List.cons.injEq] at hs
             exact hcode hs.1
    | cons f fs => simp only [wireError, framed, List.flatMap_cons, List.cons_append, List.cons.injEq] at hs
                   exact hcode hs.1

example : receive (fun _ => true) 1 2 [[1, 3, 0, 0, 0, 0, 0, 0], [0, 101, 114, 114]] = .fail :=
  c43_error_rejected _ 2 (by norm_num) 1 (by decide) [101, 114, 114] _ (by decide +kernel)

example : receive (fun _ => true) 1 2 [wire [[7], [8, 9]]] = .fail :=
  c43_wrong_size_rejected _ 2 (by norm_num) [[7], [8, 9]] (by decide) (by decide) _ (by simp)

example : receive (fun _ => false) 2 3 [frame [1, 2, 3] ++ [0, 3], [0, 0, 0, 0, 0, 0, 0, 4, 5, 6]]
    = .ok [[1, 2, 3], [4, 5, 6]] :=
  c43_buffers_partial _ 8 (by norm_num) (by norm_num) 3 (by norm_num) (by norm_num) [[1, 2, 3], [4, 5, 6]]
    (by simp) (by decide) _ (by decide +kernel)

end Spu.Props
