import Mathlib.Tactic.Linarith
import Verif.Spec.BufferedIO

set_option autoImplicit false

/-!
# `BufferedIO` is a byte stream in each direction (C57)
-/

namespace Spu.Props
open Spu.Model.BufferedIO Spu.Spec

theorem other_ne (p : Fin 2) : 1 - p ≠ p := by revert p; decide

theorem other_other (p : Fin 2) : 1 - (1 - p) = p := by revert p; decide

theorem eq_or_other (p k : Fin 2) : k = p ∨ k = 1 - p := by revert p k; decide

/-- received from the link, but not yet by the caller -/
def restOf (p : Fin 2) (s : Net) : List Byte := (s.side p).recvBuf.drop (s.side p).recvUsed

/-- what `p` can receive without waiting -/
def avail (p : Fin 2) (s : Net) : List Byte := restOf p s ++ (s.queue (1 - p)).flatten

theorem flush_self (p : Fin 2) (s : Net) : ((flush p s).side p) = { s.side p with sendBuf := [] } ∧
    ((flush p s).queue p).flatten = (s.queue p).flatten ++ (s.side p).sendBuf := by
  unfold flush
  split
  · rename_i h
    rw [List.length_eq_zero_iff] at h
    constructor
    · rw [← h]
    · rw [h, List.append_nil]
  · simp [Net.setSide, Net.setQueue]

theorem flush_other (p : Fin 2) (s : Net) {k : Fin 2} (h : k ≠ p) : (flush p s).side k = s.side k ∧ (flush p s).queue k = s.queue k := by
  unfold flush
  split
  · exact ⟨rfl, rfl⟩
  · simp [Net.setSide, Net.setQueue, h]

theorem flush_if (p : Fin 2) (s : Net) : (if 0 < (s.side p).sendBuf.length then flush p s else s) = flush p s := by
  split
  · rfl
  · rw [flush, if_pos (by omega)]

theorem avail_flush (p : Fin 2) (s : Net) : avail p (flush p s) = avail p s := by
  unfold avail restOf
  rw [(flush_self p s).1, (flush_other p s (other_ne p)).2]

/-- the receiver's side -/
theorem recv_core (p : Fin 2) : ∀ (fuel len : ℕ) (s : Net), (s.side p).recvUsed ≤ (s.side p).recvBuf.length →
    (len ≤ (avail p s).length → (s.queue (1 - p)).length < fuel → ∃ s', recvData p fuel len s = some ((avail p s).take len, s') ∧
      avail p s' = (avail p s).drop len ∧ (s'.side p).recvUsed ≤ (s'.side p).recvBuf.length ∧ (s'.side p).sendBuf = [] ∧
      s'.queue p = (flush p s).queue p ∧ s'.side (1 - p) = s.side (1 - p)) ∧
    ((avail p s).length < len → recvData p fuel len s = none)
  | 0, len, s, _ => ⟨fun _ h => absurd h (by omega), fun _ => rfl⟩
  | fuel + 1, len, s, hu => by
    have ha := avail_flush p s
    have hq := (flush_other p s (other_ne p)).2
    have hs := (flush_other p s (other_ne p)).1
    have hb := (flush_self p s).1
    rw [recvData]
    simp only [flush_if]
    generalize flush p s = f at ha hq hs hb ⊢
    have hu' : (f.side p).recvUsed ≤ (f.side p).recvBuf.length := by rw [hb]; exact hu
    have hr : (restOf p f).length = (f.side p).recvBuf.length - (f.side p).recvUsed := by simp [restOf]
    rw [← ha, ← hq, ← hs]
    by_cases hl : len ≤ (f.side p).recvBuf.length - (f.side p).recvUsed
    · rw [if_pos hl]
      refine ⟨fun _ _ => ⟨f.setSide p { f.side p with recvUsed := (f.side p).recvUsed + len }, ?_, ?_, ?_, ?_, rfl, ?_⟩, fun h => ?_⟩
      · unfold avail
        rw [List.take_append_of_le_length (by omega)]
        rfl
      · unfold avail
        rw [List.drop_append_of_le_length (by omega)]
        simp [restOf, Net.setSide]
      · simp only [Net.setSide, if_true]
        omega
      · simp [Net.setSide, hb]
      · simp [Net.setSide, other_ne p]
      · unfold avail at h
        rw [List.length_append] at h
        omega
    · rw [if_neg hl]
      have hpart : (if (f.side p).recvBuf.length ≠ 0 then ((f.side p).recvBuf.drop (f.side p).recvUsed).take ((f.side p).recvBuf.length - (f.side p).recvUsed) else []) =
          restOf p f := by
        split
        · exact List.take_of_length_le (by simp)
        · rename_i h0
          rw [not_not, List.length_eq_zero_iff] at h0
          simp [restOf, h0]
      simp only [hpart]
      unfold fillRecv
      cases hqq : f.queue (1 - p) with
      | nil =>
        refine ⟨fun h _ => ?_, fun _ => rfl⟩
        unfold avail at h
        rw [hqq] at h
        simp only [List.flatten_nil, List.append_nil] at h
        omega
      | cons x xs =>
        simp only [Option.bind_some]
        generalize ht : (f.setQueue (1 - p) xs).setSide p { f.side p with recvBuf := x, recvUsed := 0 } = t
        have t1 : t.side p = { f.side p with recvBuf := x, recvUsed := 0 } := by rw [← ht]; simp [Net.setSide]
        have t2 : t.queue (1 - p) = xs := by rw [← ht]; simp [Net.setSide, Net.setQueue]
        have t3 : t.queue p = f.queue p := by rw [← ht]; simp [Net.setSide, Net.setQueue, (other_ne p).symm]
        have t4 : t.side (1 - p) = f.side (1 - p) := by rw [← ht]; simp [Net.setSide, Net.setQueue, other_ne p]
        have t5 : avail p f = restOf p f ++ avail p t := by
          unfold avail
          rw [hqq, t2]
          simp [restOf, t1]
        have t6 : (flush p t).queue p = f.queue p := by rw [flush, if_pos (by rw [t1, hb]; rfl), t3]
        obtain ⟨i1, i2⟩ := recv_core p fuel (len - ((f.side p).recvBuf.length - (f.side p).recvUsed)) t (by rw [t1]; exact Nat.zero_le _)
        rw [t5, List.length_append, hr]
        refine ⟨fun h1 h2 => ?_, fun h1 => ?_⟩
        · obtain ⟨s', e1, e2, e3, e4, e5, e6⟩ := i1 (by omega) (by rw [t2]; simpa using h2)
          refine ⟨s', ?_, ?_, e3, e4, e5.trans t6, e6.trans t4⟩
          · rw [e1, Option.map_some, List.take_append, List.take_of_length_le (show (restOf p f).length ≤ len by omega), hr]
          · rw [e2, List.drop_append, List.drop_of_length_le (show (restOf p f).length ≤ len by omega), hr, List.nil_append]
        · rw [i2 (by omega)]
          rfl

/-- the streams `t` that a state of the program stands for -/
structure IoRel (cap : ℕ) (s : Net) (t : Trace) : Prop where
  room : ∀ p, (s.side p).sendBuf.length < cap
  used : ∀ p, (s.side p).recvUsed ≤ (s.side p).recvBuf.length
  sent : ∀ p, t.sent p = t.pushed p ++ (s.side p).sendBuf
  pushed : ∀ p, t.pushed (1 - p) = t.got p ++ avail p s

theorem append_self {cap : ℕ} {p : Fin 2} {d : List Byte} {s : Net} (h : (s.side p).sendBuf.length + d.length ≤ cap) :
    append cap p d s = some (s.setSide p { s.side p with sendBuf := (s.side p).sendBuf ++ d }) := if_pos h

theorem avail_congr {p : Fin 2} {s s' : Net} (h1 : (s'.side p).recvBuf = (s.side p).recvBuf) (h2 : (s'.side p).recvUsed = (s.side p).recvUsed)
    (h3 : (s'.queue (1 - p)).flatten = (s.queue (1 - p)).flatten) : avail p s' = avail p s := by
  unfold avail restOf
  rw [h1, h2, h3]

/-- flushing pushes everything sent -/
theorem c57_flush {cap : ℕ} {s : Net} {t : Trace} (h : IoRel cap s t) (hc : 0 < cap) (p : Fin 2) :
    ∃ t', IoStep t (.flush p) t' ∧ IoRel cap (flush p s) t' := by
  refine ⟨_, .flush p, ?_, ?_, ?_, ?_⟩
  · intro k
    rcases eq_or_other p k with rfl | rfl
    · rw [(flush_self k s).1]
      exact hc
    · rw [(flush_other p s (other_ne p)).1]
      exact h.room _
  · intro k
    rcases eq_or_other p k with rfl | rfl
    · rw [(flush_self k s).1]
      exact h.used k
    · rw [(flush_other p s (other_ne p)).1]
      exact h.used _
  · intro k
    rcases eq_or_other p k with rfl | rfl
    · rw [(flush_self k s).1]
      simp
    · rw [(flush_other p s (other_ne p)).1]
      simpa [other_ne p] using h.sent (1 - p)
  · intro k
    rcases eq_or_other p k with rfl | rfl
    · rw [avail_flush]
      simpa [other_ne k] using h.pushed k
    · have h1 := h.pushed (1 - p)
      rw [other_other] at h1 ⊢
      simp only [if_true]
      rw [h.sent p, h1, List.append_assoc]
      congr 1
      unfold avail restOf
      rw [other_other, (flush_other p s (other_ne p)).1, (flush_self p s).2, List.append_assoc]

/-- sending appends to the stream and never overflows the buffer -/
theorem c57_send {cap : ℕ} (hc : 0 < cap) (p : Fin 2) : ∀ (fuel : ℕ) (d : List Byte) (s : Net) (t : Trace), IoRel cap s t → d.length < fuel →
    ∃ s' t', sendData cap p fuel d s = some s' ∧ IoStep t (.send p d) t' ∧ IoRel cap s' t'
  | 0, d, s, t, _, hf => absurd hf (by omega)
  | fuel + 1, d, s, t, h, hf => by
    have hroom := h.room p
    rw [sendData]
    -- the state after appending `e`, with `e` counted as sent
    have key : ∀ e : List Byte, ∀ s1 : Net, s1 = s.setSide p { s.side p with sendBuf := (s.side p).sendBuf ++ e } →
        (∀ k, (s1.side k).recvUsed ≤ (s1.side k).recvBuf.length) ∧ (∀ k, avail k s1 = avail k s) ∧ (s1.side p).sendBuf = (s.side p).sendBuf ++ e ∧
        s1.side (1 - p) = s.side (1 - p) := by
      rintro e s1 rfl
      refine ⟨fun k => ?_, fun k => ?_, by simp [Net.setSide], by simp [Net.setSide, other_ne p]⟩
      · rcases eq_or_other p k with rfl | rfl
        · simpa [Net.setSide] using h.used k
        · simpa [Net.setSide, other_ne p] using h.used (1 - p)
      · rcases eq_or_other p k with rfl | rfl
        · exact avail_congr (by simp [Net.setSide]) (by simp [Net.setSide]) rfl
        · exact avail_congr (by simp [Net.setSide, other_ne p]) (by simp [Net.setSide, other_ne p]) rfl
    by_cases hl : cap - (s.side p).sendBuf.length ≤ d.length
    · rw [if_pos hl, append_self (by rw [List.length_take]; omega), Option.bind_some]
      generalize hs1 : s.setSide p { s.side p with sendBuf := (s.side p).sendBuf ++ d.take (cap - (s.side p).sendBuf.length) } = s1
      obtain ⟨k1, k2, k3, k4⟩ := key _ s1 hs1.symm
      -- streams after the flush
      have h2 : IoRel cap (flush p s1) { t with
          sent := fun k => if k = p then t.sent k ++ d.take (cap - (s.side p).sendBuf.length) else t.sent k
          pushed := fun k => if k = p then t.sent k ++ d.take (cap - (s.side p).sendBuf.length) else t.pushed k } := by
        refine ⟨fun k => ?_, fun k => ?_, fun k => ?_, fun k => ?_⟩ <;> rcases eq_or_other p k with rfl | rfl
        · rw [(flush_self k s1).1]
          exact hc
        · rw [(flush_other p s1 (other_ne p)).1, k4]
          exact h.room _
        · rw [(flush_self k s1).1]
          exact k1 k
        · rw [(flush_other p s1 (other_ne p)).1]
          exact k1 _
        · rw [(flush_self k s1).1]
          simp
        · rw [(flush_other p s1 (other_ne p)).1, k4]
          simpa [other_ne p] using h.sent (1 - p)
        · rw [avail_flush, k2]
          simpa [other_ne k] using h.pushed k
        · have h1 := h.pushed (1 - p)
          rw [other_other] at h1 ⊢
          simp only [if_true]
          rw [h.sent p, h1, List.append_assoc, List.append_assoc]
          congr 1
          rw [← k2 (1 - p)]
          unfold avail restOf
          rw [other_other, (flush_other p s1 (other_ne p)).1, (flush_self p s1).2, k3, List.append_assoc]
      obtain ⟨s', t', e1, e2, e3⟩ := c57_send hc p fuel (d.drop (cap - (s.side p).sendBuf.length)) _ _ h2 (by rw [List.length_drop]; omega)
      cases e2 with
      | send _ _ push p1 p2 =>
        refine ⟨s', _, e1, .send p d push ?_ ?_, ?_⟩
        · simp only [if_true] at p1
          refine List.IsPrefix.trans ?_ p1
          rw [h.sent p, List.append_assoc]
          exact List.prefix_append _ _
        · simpa [List.append_assoc] using p2
        · convert e3 using 2
          · funext k
            rcases eq_or_other p k with rfl | rfl
            · simp [List.append_assoc]
            · simp [other_ne p]
          · funext k
            rcases eq_or_other p k with rfl | rfl
            · simp
            · simp [other_ne p]
    · rw [if_neg hl, append_self (by omega)]
      generalize hs1 : s.setSide p { s.side p with sendBuf := (s.side p).sendBuf ++ d } = s1
      obtain ⟨k1, k2, k3, k4⟩ := key _ s1 hs1.symm
      refine ⟨s1, _, rfl, .send p d (t.pushed p) (List.prefix_refl _) ?_, ?_, k1, ?_, ?_⟩
      · rw [h.sent p, List.append_assoc]
        exact List.prefix_append _ _
      · intro k
        rcases eq_or_other p k with rfl | rfl
        · rw [k3, List.length_append]
          omega
        · rw [k4]
          exact h.room _
      · intro k
        rcases eq_or_other p k with rfl | rfl
        · simp [k3, h.sent k]
        · rw [k4]
          simpa [other_ne p] using h.sent (1 - p)
      · intro k
        rw [k2]
        have := h.pushed k
        rcases eq_or_other p (1 - k) with hk | hk
        · simpa [hk] using this
        · simpa [hk, other_ne p] using this

/-- a receive returns the next bytes of the other's stream if they were pushed … -/
theorem c57_recv {cap : ℕ} {s : Net} {t : Trace} (h : IoRel cap s t) (hc : 0 < cap) (p : Fin 2) {fuel len : ℕ} (hf : (s.queue (1 - p)).length < fuel)
    (hl : (t.got p).length + len ≤ (t.pushed (1 - p)).length) :
    ∃ d s' t', recvData p fuel len s = some (d, s') ∧ IoStep t (.recv p len) t' ∧ IoRel cap s' t' ∧ t'.got p = t.got p ++ d ∧ d.length = len := by
  have hp := h.pushed p
  have hlen : len ≤ (avail p s).length := by
    rw [hp, List.length_append] at hl
    omega
  obtain ⟨s', e1, e2, e3, e4, e5, e6⟩ := (recv_core p fuel len s (h.used p)).1 hlen hf
  have hgot : (t.pushed (1 - p)).take ((t.got p).length + len) = t.got p ++ (avail p s).take len := by
    rw [hp, List.take_length_add_append]
  refine ⟨_, s', _, e1, .recv p len hl, ⟨?_, ?_, ?_, ?_⟩, by simpa using hgot, by simpa using hlen⟩
  · intro k
    rcases eq_or_other p k with rfl | rfl
    · rw [e4]
      exact hc
    · rw [e6]
      exact h.room _
  · intro k
    rcases eq_or_other p k with rfl | rfl
    · exact e3
    · rw [e6]
      exact h.used _
  · intro k
    rcases eq_or_other p k with rfl | rfl
    · simp [e4]
    · rw [e6]
      simpa [other_ne p] using h.sent (1 - p)
  · intro k
    rcases eq_or_other p k with rfl | rfl
    · simp only [if_neg (other_ne k), if_true]
      rw [hgot, e2, List.append_assoc, List.take_append_drop]
      exact hp
    · have h1 := h.pushed (1 - p)
      rw [other_other] at h1 ⊢
      simp only [if_true, if_neg (other_ne p)]
      rw [h.sent p, h1, List.append_assoc]
      congr 1
      unfold avail restOf
      rw [other_other, e6, e5, (flush_self p s).2, List.append_assoc]

/-- … and waits otherwise -/
theorem c57_wait {cap : ℕ} {s : Net} {t : Trace} (h : IoRel cap s t) (p : Fin 2) (fuel : ℕ) {len : ℕ} (hl : (t.pushed (1 - p)).length < (t.got p).length + len) :
    recvData p fuel len s = none := by
  refine (recv_core p fuel len s (h.used p)).2 ?_
  rw [h.pushed p, List.length_append] at hl
  omega

/-- what was received is always a beginning of what the other sent -/
theorem c57_prefix {cap : ℕ} {s : Net} {t : Trace} (h : IoRel cap s t) (p : Fin 2) : t.got p <+: t.sent (1 - p) := by
  rw [h.sent, h.pushed, List.append_assoc]
  exact List.prefix_append _ _

theorem c57_start {cap : ℕ} (hc : 0 < cap) : IoRel cap start ⟨fun _ => [], fun _ => [], fun _ => []⟩ :=
  ⟨fun _ => hc, fun _ => le_refl _, fun _ => rfl, fun _ => rfl⟩

theorem ioExec_ok {cap : ℕ} (hc : 0 < cap) : ∀ (ops : List IoOp) (s : Net) (t : Trace) (got : Fin 2 → List Byte) (s' : Net), IoRel cap s t →
    ioExec cap ops s t.got = some (got, s') → ∃ t', IoRel cap s' t' ∧ t'.got = got ∧ ∀ p, t'.sent p = t.sent p ++ sentBy p ops
  | [], s, t, got, s', h, he => by
    simp only [ioExec, Option.some.injEq, Prod.mk.injEq] at he
    exact ⟨t, he.2 ▸ h, he.1, fun p => by simp [sentBy]⟩
  | .send p d :: ops, s, t, got, s', h, he => by
    obtain ⟨s1, t1, e1, e2, e3⟩ := c57_send hc p (d.length + 1) d s t h (Nat.lt_succ_self _)
    rw [ioExec, e1, Option.bind_some] at he
    cases e2 with
    | send _ _ push _ _ =>
      obtain ⟨t', h1, h2, h3⟩ := ioExec_ok hc ops s1 _ got s' e3 he
      refine ⟨t', h1, h2, fun k => ?_⟩
      rw [h3 k]
      by_cases hk : k = p
      · subst hk
        simp [sentBy]
      · simp [sentBy, hk, Ne.symm hk]
  | .flush p :: ops, s, t, got, s', h, he => by
    obtain ⟨t1, e2, e3⟩ := c57_flush h hc p
    rw [ioExec] at he
    cases e2
    obtain ⟨t', h1, h2, h3⟩ := ioExec_ok hc ops _ _ got s' e3 he
    exact ⟨t', h1, h2, fun k => by rw [h3 k]; simp [sentBy]⟩
  | .recv p len :: ops, s, t, got, s', h, he => by
    rw [ioExec] at he
    by_cases hl : (t.got p).length + len ≤ (t.pushed (1 - p)).length
    · obtain ⟨d, s1, t1, e1, e2, e3, e4, _⟩ := c57_recv h hc p (Nat.lt_succ_self _) hl
      rw [e1, Option.bind_some] at he
      have hg : (fun k => if k = p then t.got k ++ d else t.got k) = t1.got := by
        funext k
        by_cases hk : k = p
        · subst hk
          simp [e4]
        · cases e2
          simp [hk]
      dsimp only at he
      rw [hg] at he
      obtain ⟨t', h1, h2, h3⟩ := ioExec_ok hc ops s1 t1 got s' e3 he
      refine ⟨t', h1, h2, fun k => ?_⟩
      rw [h3 k]
      cases e2
      simp [sentBy]
    · rw [c57_wait h p _ (by omega)] at he
      cases he

/-- Over any schedule of the two parties, what one received is a beginning of what the other sent. -/
theorem c57_run {cap : ℕ} (hc : 0 < cap) {ops : List IoOp} {got : Fin 2 → List Byte} {s : Net} (h : ioExec cap ops start (fun _ => []) = some (got, s)) (p : Fin 2) :
    got p <+: sentBy (1 - p) ops := by
  obtain ⟨t, h1, h2, h3⟩ := ioExec_ok hc ops start ⟨fun _ => [], fun _ => [], fun _ => []⟩ got s (c57_start hc) h
  have := c57_prefix h1 p
  rw [h2, h3] at this
  simpa using this

/-! ## examples -/

example : ((ioExec 4 [.send 0 [1, 2, 3], .send 1 [9], .send 0 [4, 5], .recv 1 2, .recv 0 1, .recv 1 3] start fun _ => []).map fun r => (r.1 0, r.1 1)) =
    some ([9], [1, 2, 3, 4, 5]) := by decide +kernel

/-- with a buffer of 4 bytes: 10 bytes are sent, 8 of them pushed, the rest by the flush -/
example : ((sendData 4 0 11 [1, 2, 3, 4, 5, 6, 7, 8, 9, 10] start).bind fun s => (recvData 1 5 3 s).bind fun r => (recvData 1 5 5 r.2).map fun q =>
    (r.1, q.1, (recvData 1 5 1 q.2).isNone, (recvData 1 5 2 (flush 0 q.2)).map fun z => z.1)) =
    some ([1, 2, 3], [4, 5, 6, 7, 8], true, some [9, 10]) := by decide +kernel

/-- a buffer that is filled exactly is sent at once -/
example : ((sendData 4 0 5 [1, 2, 3, 4] start).map fun s => (s.queue 0, (s.side 0).sendBuf)) = some ([[1, 2, 3, 4]], []) := by decide +kernel

/-- a receive pushes what the party itself has sent -/
example : ((sendData 4 0 5 [1] start).bind fun s => (recvData 0 1 0 s).map fun r => r.2.queue 0) = some [[1]] := by decide +kernel

end Spu.Props
