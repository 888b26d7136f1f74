import Verif.Spec.FerretCot
import Verif.Props.Ferret

set_option autoImplicit false

/-!
# The pool of correlated transfers hands out each of them once (C56)
-/

namespace Spu.Props
open Spu.Model.Circ Spu.Model.Ferret Spu.Model.FerretCot Spu.Spec Spu.Lemmas

section
variable {α : Type}

theorem seg_congr {f g : ℕ → α} {a b len : ℕ} (h : ∀ i, i < len → f (a + i) = g (b + i)) : seg f a len = seg g b len := by
  unfold seg
  exact List.map_congr_left fun i hi => h i (List.mem_range.1 hi)

theorem seg_add (f : ℕ → α) (a x y : ℕ) : seg f a (x + y) = seg f a x ++ seg f (a + x) y := by
  unfold seg
  rw [List.range_add, List.map_append, List.map_map]
  congr 1
  exact List.map_congr_left fun i _ => by simp [Nat.add_assoc]

theorem mem_seg {f : ℕ → α} {a len : ℕ} {x : α} : x ∈ seg f a len ↔ ∃ i, i < len ∧ f (a + i) = x := by
  simp [seg]

theorem copy_ok {dst src : ℕ → α} {ds off ss fr len : ℕ} (h1 : off + len ≤ ds) (h2 : fr + len ≤ ss) :
    ∃ d, copy dst ds off src ss fr len = some d ∧ seg d off len = seg src fr len ∧ (∀ k, k < off → d k = dst k) ∧ ∀ k, off + len ≤ k → d k = dst k := by
  refine ⟨_, if_pos ⟨h1, h2⟩, seg_congr fun i hi => ?_, fun k hk => ?_, fun k hk => ?_⟩
  · rw [if_pos ⟨by omega, by omega⟩]
    congr 1
    omega
  · rw [if_neg (by omega)]
  · rw [if_neg (by omega)]

variable {P : Lpn} {X : Ext α} {G : ℕ → List α → Prop}

/-- the library keeps `G`, a property of the number of calls and everything made so far, when its seeds are taken from what it made -/
structure Keeps (P : Lpn) (X : Ext α) (G : ℕ → List α → Prop) : Prop where
  none : G 0 []
  first : G 0 (seg X.first 0 P.pre)
  ext : ∀ c l f, G c l → (∀ j, j < P.reserve → f j ∈ l) → G (c + 1) (l ++ seg (X.ext c f) 0 P.n)

/-- `h` are the elements handed out so far -/
structure Pool (P : Lpn) (G : ℕ → List α → Prop) (h : List α) (s : St α) : Prop where
  start : s.setup = false → s.calls = 0 ∧ s.made = []
  range : s.setup = true → P.reserve ≤ s.used ∧ s.used ≤ s.upper ∧ s.upper ≤ P.n
  perm : (h ++ s.seeds ++ held P s).Perm s.made
  good : G s.calls s.made

theorem held_setup {s : St α} (h : s.setup = true) : held P s = seg s.buf 0 P.reserve ++ seg s.buf s.used (s.upper - s.used) := by
  simp [held, h, seg]

theorem setup_ok (hP : LpnOk P) (hX : Keeps P X G) {h : List α} {s : St α} (hs : Pool P G h s) :
    Pool P G h (oneTimeSetup P X s) ∧ (oneTimeSetup P X s).setup = true := by
  unfold oneTimeSetup
  by_cases hu : s.setup = true
  · simpa [hu] using hs
  · simp only [if_neg hu]
    refine ⟨⟨fun h0 => absurd h0 (by simp), fun _ => ⟨le_refl _, hP.pre, hP.fits⟩, ?_, ?_⟩, trivial⟩
    · have h1 := hs.perm
      rw [held, if_neg hu, List.append_nil] at h1
      rw [held_setup rfl]
      refine (List.Perm.append h1 (List.Perm.refl _)).trans (List.Perm.of_eq ?_)
      congr 1
      dsimp only
      have e : P.pre = P.reserve + (P.pre - P.reserve) := by have := hP.pre; omega
      conv_rhs => rw [e, seg_add]
      congr 1
      · exact seg_congr fun i hi => if_pos (by have := hP.pre; omega)
      · rw [Nat.zero_add]
        exact seg_congr fun i hi => if_pos (by omega)
    · obtain ⟨e1, e2⟩ := hs.start (by simpa using hu)
      dsimp only
      rw [e1, e2]
      exact hX.first

theorem bootstrap_ok (hP : LpnOk P) (hX : Keeps P X G) {h : List α} {s : St α} (hs : Pool P G h s) (hu : s.setup = true) (he : s.used = s.upper) :
    Pool P G h (bootstrap P X s) := by
  classical
  have h1 := hs.perm
  rw [held_setup hu, he, Nat.sub_self, show seg s.buf s.upper 0 = [] from rfl, List.append_nil] at h1
  have hseed : ∀ j, j < P.reserve → s.buf j ∈ s.made := fun j hj => (h1.subset (List.mem_append_right _ (mem_seg.2 ⟨j, hj, by rw [Nat.zero_add]⟩)))
  have hr := hP.lt
  refine ⟨fun h0 => absurd (hu.symm.trans h0) (by simp), fun _ => ⟨le_refl _, hr.le, le_refl _⟩, ?_, hX.ext _ _ _ hs.good hseed⟩
  rw [held_setup (s := bootstrap P X s) hu]
  simp only [bootstrap]
  rw [← List.append_assoc h]
  refine List.Perm.append h1 (List.Perm.of_eq ?_)
  have e : P.n = P.reserve + (P.n - P.reserve) := by omega
  conv_rhs => rw [e, seg_add]
  congr 1
  · exact seg_congr fun i hi => if_pos (by omega)
  · rw [Nat.zero_add]
    exact seg_congr fun i hi => if_pos (by omega)

/-- the invariant of the loop that extends in place; `R` is the rest of the pool -/
structure Loop (P : Lpn) (G : ℕ → List α → Prop) (m : ℕ) (h R : List α) (buf : ℕ → α) (c : Inp α) : Prop where
  size : c.off + c.req = m
  first : c.cnt = 0 → c.span = buf
  perm : (h ++ seg c.data 0 c.off ++ c.seeds ++ (seg c.span 0 P.reserve ++ R)).Perm c.made
  good : G c.calls c.made

theorem inplace_ok (hP : LpnOk P) (hX : Keeps P X G) {m : ℕ} {h R : List α} {buf : ℕ → α} :
    ∀ (fuel : ℕ) (c : Inp α), c.req ≤ fuel → Loop P G m h R buf c → ∃ c', inplace P X m fuel c = some c' ∧ Loop P G m h R buf c' ∧ c'.req < P.n
  | 0, c, hf, hc => ⟨c, if_neg (by have := hP.lt; omega), hc, by have := hP.lt; omega⟩
  | fuel + 1, c, hf, hc => by
    classical
    have hr := hP.lt
    have hsz := hc.size
    rw [inplace]
    by_cases hn : P.n ≤ c.req
    · rw [if_pos hn]
      have hspan : ∀ j, j < P.reserve → c.span j ∈ c.made := fun j hj =>
        (hc.perm.subset (List.mem_append_right _ (List.mem_append_left _ (mem_seg.2 ⟨j, hj, by rw [Nat.zero_add]⟩))))
      unfold inplaceStep
      rw [if_pos (by omega)]
      dsimp only
      rw [if_pos (by omega), Option.bind_some]
      refine inplace_ok hP hX fuel _ (by dsimp only; omega) ⟨by dsimp only; omega, fun h0 => absurd h0 (by simp), ?_, hX.ext _ _ _ hc.good hspan⟩
      · dsimp only
        have a1 : seg (fun k => if c.off ≤ k ∧ k < c.off + P.n then X.ext c.calls c.span (k - c.off) else c.data k) 0 (c.off + (P.n - P.reserve)) =
            seg c.data 0 c.off ++ seg (X.ext c.calls c.span) 0 (P.n - P.reserve) := by
          rw [seg_add]
          congr 1
          · exact seg_congr fun i hi => if_neg (by omega)
          · refine seg_congr fun i hi => ?_
            rw [if_pos ⟨by omega, by omega⟩]
            congr 1
            omega
        have a2 : seg (fun j => if c.off ≤ c.off + (P.n - P.reserve) + j ∧ c.off + (P.n - P.reserve) + j < c.off + P.n then
            X.ext c.calls c.span (c.off + (P.n - P.reserve) + j - c.off) else c.data (c.off + (P.n - P.reserve) + j)) 0 P.reserve =
            seg (X.ext c.calls c.span) (P.n - P.reserve) P.reserve := by
          refine seg_congr fun i hi => ?_
          rw [if_pos ⟨by omega, by omega⟩]
          congr 1
          omega
        have a3 : seg (X.ext c.calls c.span) 0 P.n = seg (X.ext c.calls c.span) 0 (P.n - P.reserve) ++ seg (X.ext c.calls c.span) (P.n - P.reserve) P.reserve := by
          have e : P.n = (P.n - P.reserve) + P.reserve := by omega
          conv_lhs => rw [e, seg_add, Nat.zero_add]
        rw [a1, a2, a3]
        have hp := hc.perm
        rw [List.perm_iff_count] at hp ⊢
        intro x
        have := hp x
        simp only [List.count_append] at this ⊢
        omega
    · rw [if_neg hn]
      exact ⟨c, rfl, hc, by omega⟩

/-- taking `k` elements from the front of the rest -/
theorem take_ok {h : List α} {s : St α} (hs : Pool P G h s) (hu : s.setup = true) {k : ℕ} (hk : k ≤ s.upper - s.used) :
    Pool P G (h ++ seg s.buf s.used k) { s with used := s.used + k } := by
  classical
  obtain ⟨h1, h2, h3⟩ := hs.range hu
  refine ⟨hs.start, fun _ => ⟨by dsimp only; omega, by dsimp only; omega, h3⟩, ?_, hs.good⟩
  have hp := hs.perm
  rw [held_setup hu] at hp
  rw [held_setup (s := { s with used := s.used + k }) hu]
  dsimp only
  rw [show s.upper - s.used = k + (s.upper - (s.used + k)) by omega, seg_add] at hp
  rw [List.perm_iff_count] at hp ⊢
  intro x
  have := hp x
  simp only [List.count_append] at this ⊢
  omega

/-- any request succeeds, and what it returns is new -/
theorem c56_rcot (hP : LpnOk P) (hX : Keeps P X G) {h : List α} {s : St α} (hs : Pool P G h s) (m : ℕ) (d0 : ℕ → α) :
    ∃ d s', rcot P X m d0 s = some (d, s') ∧ Pool P G (h ++ seg d 0 m) s' ∧ s'.setup = true := by
  have hr := hP.lt
  have ht := hP.twice
  obtain ⟨h1, hu⟩ := setup_ok hP hX hs
  unfold rcot
  generalize oneTimeSetup P X s = s1 at h1 hu
  obtain ⟨r1, r2, r3⟩ := h1.range hu
  have hp := h1.perm
  rw [held_setup hu] at hp
  obtain ⟨c, hc, hl, hreq⟩ := inplace_ok hP hX (m := m) (h := h) (R := seg s1.buf s1.used (s1.upper - s1.used)) (buf := s1.buf) m
    ⟨d0, 0, m, s1.buf, 0, s1.calls, s1.seeds, s1.made⟩ (le_refl _) ⟨Nat.zero_add _, fun _ => rfl, by simpa [seg] using hp, h1.good⟩
  have hsz := hl.size
  obtain ⟨buf, hb, hb1, hb2⟩ : ∃ buf, keepSeeds P s1.buf c = some buf ∧
      seg buf 0 P.reserve = seg c.span 0 P.reserve ∧ ∀ k, P.reserve ≤ k → buf k = s1.buf k := by
    unfold keepSeeds
    by_cases h0 : c.cnt = 0
    · exact ⟨s1.buf, by simp [h0], by rw [hl.first h0], fun _ _ => rfl⟩
    · obtain ⟨d, e1, e2, _, e4⟩ := copy_ok (dst := s1.buf) (src := c.span) (ds := P.n) (off := 0) (ss := P.reserve) (fr := 0) (len := P.reserve) (by omega) (by omega)
      exact ⟨d, by rw [if_pos h0, e1], e2, fun k hk => e4 k (by omega)⟩
  -- the pool after the loop, what was extended in place being handed out
  have h2 : Pool P G (h ++ seg c.data 0 c.off) { s1 with buf := buf, calls := c.calls, seeds := c.seeds, made := c.made } := by
    refine ⟨fun h0 => absurd (hu.symm.trans h0) (by simp), fun _ => ⟨r1, r2, r3⟩, ?_, hl.good⟩
    rw [held_setup (s := { s1 with buf := buf, calls := c.calls, seeds := c.seeds, made := c.made }) hu]
    dsimp only
    rw [hb1, seg_congr (g := s1.buf) (b := s1.used) fun i _ => hb2 (s1.used + i) (by omega)]
    exact hl.perm
  obtain ⟨d1, e1, f1, g1, _⟩ := copy_ok (dst := c.data) (src := buf) (ds := m) (off := c.off) (ss := P.n) (fr := s1.used) (len := min (s1.upper - s1.used) c.req)
    (by omega) (by omega)
  have h3 := take_ok h2 hu (k := min (s1.upper - s1.used) c.req) (Nat.min_le_left _ _)
  dsimp only at h3
  have j1 : seg d1 0 (c.off + min (s1.upper - s1.used) c.req) = seg c.data 0 c.off ++ seg buf s1.used (min (s1.upper - s1.used) c.req) := by
    rw [seg_add, Nat.zero_add, f1]
    congr 1
    exact seg_congr fun i hi => g1 _ (by omega)
  rw [List.append_assoc, ← j1] at h3
  simp only [hc, hb, e1, bind, Option.bind_some, pure]
  by_cases hlt : min (s1.upper - s1.used) c.req < c.req
  · rw [if_pos hlt]
    have h4 := bootstrap_ok hP hX h3 hu (by dsimp only; omega)
    generalize hq : min (s1.upper - s1.used) c.req = q at *
    generalize hs2 : bootstrap P X { s1 with buf := buf, calls := c.calls, seeds := c.seeds, made := c.made, used := s1.used + q } = s2 at h4 ⊢
    have u2 : s2.used = P.reserve ∧ s2.upper = P.n ∧ s2.setup = true := by rw [← hs2]; exact ⟨rfl, rfl, hu⟩
    obtain ⟨u21, u22, u23⟩ := u2
    by_cases hw : s2.upper - P.reserve < c.req - q
    · rw [if_pos hw]
      obtain ⟨d2, e2, f2, g2, _⟩ := copy_ok (dst := d1) (src := s2.buf) (ds := m) (off := c.off + q) (ss := P.n) (fr := P.reserve) (len := s2.upper - P.reserve)
        (by omega) (by omega)
      have h5 := take_ok h4 u23 (k := s2.upper - P.reserve) (by omega)
      have h6 := bootstrap_ok hP hX h5 u23 (by dsimp only; omega)
      have hsame : bootstrap P X { s2 with used := s2.used + (s2.upper - P.reserve) } = bootstrap P X s2 := rfl
      rw [hsame, u21] at h6
      generalize hs3 : bootstrap P X s2 = s3 at h6 ⊢
      have u3 : s3.used = P.reserve ∧ s3.upper = P.n ∧ s3.setup = true := by rw [← hs3]; exact ⟨rfl, rfl, u23⟩
      obtain ⟨u31, u32, u33⟩ := u3
      obtain ⟨d3, e3, f3, g3, _⟩ := copy_ok (dst := d2) (src := s3.buf) (ds := m) (off := c.off + q + (s2.upper - P.reserve)) (ss := P.n) (fr := s3.used)
        (len := c.req - q - (s2.upper - P.reserve)) (by omega) (by omega)
      have h7 := take_ok h6 u33 (k := c.req - q - (s2.upper - P.reserve)) (by omega)
      simp only [e2, Option.bind_some, e3]
      refine ⟨_, _, rfl, ?_, u33⟩
      have j3 : seg d3 0 m = seg d1 0 (c.off + q) ++ seg s2.buf P.reserve (s2.upper - P.reserve) ++ seg s3.buf s3.used (c.req - q - (s2.upper - P.reserve)) := by
        have e : m = c.off + q + (s2.upper - P.reserve) + (c.req - q - (s2.upper - P.reserve)) := by omega
        conv_lhs => rw [e, seg_add, seg_add, Nat.zero_add, Nat.zero_add, f3]
        congr 1
        rw [← f2]
        congr 1
        · refine seg_congr fun i hi => ?_
          rw [g3 _ (by omega), g2 _ (by omega)]
        · exact seg_congr fun i hi => g3 _ (by omega)
      rw [j3, ← List.append_assoc, ← List.append_assoc]
      exact h7
    · rw [if_neg hw]
      obtain ⟨d2, e2, f2, g2, _⟩ := copy_ok (dst := d1) (src := s2.buf) (ds := m) (off := c.off + q) (ss := P.n) (fr := s2.used) (len := c.req - q) (by omega) (by omega)
      have h5 := take_ok h4 u23 (k := c.req - q) (by omega)
      simp only [e2, Option.bind_some]
      refine ⟨_, _, rfl, ?_, u23⟩
      have j2 : seg d2 0 m = seg d1 0 (c.off + q) ++ seg s2.buf s2.used (c.req - q) := by
        have e : m = c.off + q + (c.req - q) := by omega
        conv_lhs => rw [e, seg_add, Nat.zero_add, f2]
        congr 1
        exact seg_congr fun i hi => g2 _ (by omega)
      rw [j2, ← List.append_assoc]
      exact h5
  · rw [if_neg hlt]
    refine ⟨_, _, rfl, ?_, hu⟩
    rw [show c.off + min (s1.upper - s1.used) c.req = m by omega] at h3
    exact h3

theorem keeps_of_pred {Q : α → Prop} (h1 : ∀ i, i < P.pre → Q (X.first i)) (h2 : ∀ c f, (∀ j, j < P.reserve → Q (f j)) → ∀ i, i < P.n → Q (X.ext c f i)) :
    Keeps P X fun _ l => ∀ x ∈ l, Q x := by
  refine ⟨by simp, fun x hx => ?_, fun c l f hl hf x hx => ?_⟩
  · obtain ⟨i, hi, rfl⟩ := mem_seg.1 hx
    rw [Nat.zero_add]
    exact h1 i hi
  · rcases List.mem_append.1 hx with hx | hx
    · exact hl x hx
    · obtain ⟨i, hi, rfl⟩ := mem_seg.1 hx
      rw [Nat.zero_add]
      exact h2 c f (fun j hj => hl _ (hf j hj)) i hi

/-- any sequence of requests -/
theorem serve_ok (hP : LpnOk P) (hX : Keeps P X G) : ∀ (qs : List (ℕ × (ℕ → α))) (h : List α) (s : St α), Pool P G h s →
    ∃ out s', serve P X qs s = some (out, s') ∧ Pool P G (h ++ out) s' ∧ out.length = (qs.map Prod.fst).sum
  | [], h, s, hs => ⟨[], s, rfl, by simpa using hs, rfl⟩
  | q :: qs, h, s, hs => by
    obtain ⟨d, s1, e1, h1, _⟩ := c56_rcot hP hX hs q.1 q.2
    obtain ⟨out, s2, e2, h2, h3⟩ := serve_ok hP hX qs _ s1 h1
    refine ⟨_, s2, by rw [serve, e1, Option.bind_some, e2, Option.map_some], ?_, ?_⟩
    · rw [← List.append_assoc]
      simpa [seg] using h2
    · simp [h3]

theorem fresh_ok (hX : Keeps P X G) (buf : ℕ → α) : Pool P G [] (fresh buf) :=
  ⟨fun _ => ⟨rfl, rfl⟩, fun h => absurd h (by simp [fresh]), by simp [held, fresh], hX.none⟩

/-- Over any sequence of requests to a new pool nothing fails, every request is filled, and all that the library made is accounted for:
handed out, used as a seed, or still held. -/
theorem c56_conserve (hP : LpnOk P) (X : Ext α) (buf : ℕ → α) (qs : List (ℕ × (ℕ → α))) :
    ∃ out s', serve P X qs (fresh buf) = some (out, s') ∧ out.length = (qs.map Prod.fst).sum ∧ (out ++ s'.seeds ++ held P s').Perm s'.made := by
  have hX : Keeps P X fun _ _ => True := ⟨trivial, trivial, fun _ _ _ _ _ => trivial⟩
  obtain ⟨out, s', e, h, hl⟩ := serve_ok hP hX qs [] _ (fresh_ok hX buf)
  exact ⟨out, s', e, hl, by simpa using h.perm⟩

/-- What holds of the output of the setup, and of the output of the extension if it holds of the seeds, holds of everything handed out. -/
theorem c56_good (hP : LpnOk P) {Q : α → Prop} (h1 : ∀ i, i < P.pre → Q (X.first i))
    (h2 : ∀ c f, (∀ j, j < P.reserve → Q (f j)) → ∀ i, i < P.n → Q (X.ext c f i)) (buf : ℕ → α) (qs : List (ℕ × (ℕ → α))) :
    ∃ out s', serve P X qs (fresh buf) = some (out, s') ∧ ∀ x ∈ out, Q x := by
  have hX := keeps_of_pred (P := P) (X := X) h1 h2
  obtain ⟨out, s', e, h, _⟩ := serve_ok hP hX qs [] _ (fresh_ok hX buf)
  exact ⟨out, s', e, fun x hx => h.good x (h.perm.subset (by simp [hx]))⟩

/-- No output of the library is used twice: not handed out twice, not used as a seed twice, not both. -/
theorem c56_once (hP : LpnOk P) (X : Ext α) (buf : ℕ → α × ℕ × ℕ) (qs : List (ℕ × (ℕ → α × ℕ × ℕ))) :
    ∃ out s', serve P (labelled X) qs (fresh buf) = some (out, s') ∧ ((out ++ s'.seeds ++ held P s').map Prod.snd).Nodup := by
  have hX : Keeps P (labelled X) fun c l => (l.map Prod.snd).Nodup ∧ ∀ x ∈ l, x.2.1 ≤ c := by
    refine ⟨by simp, ⟨?_, ?_⟩, ?_⟩
    · rw [seg, List.map_map]
      refine List.Nodup.map_on ?_ List.nodup_range
      intro a _ b _ hab
      simpa [labelled] using hab
    · intro x hx
      obtain ⟨i, _, rfl⟩ := mem_seg.1 hx
      exact le_refl _
    · rintro c l f ⟨h1, h2⟩ -
      refine ⟨?_, ?_⟩
      · rw [List.map_append]
        refine List.Nodup.append h1 ?_ ?_
        · rw [seg, List.map_map]
          refine List.Nodup.map_on ?_ List.nodup_range
          intro a _ b _ hab
          simpa [labelled] using hab
        · intro y hy1 hy2
          obtain ⟨a, ha, rfl⟩ := List.mem_map.1 hy1
          obtain ⟨b, hb, hab⟩ := List.mem_map.1 hy2
          obtain ⟨i, _, rfl⟩ := mem_seg.1 hb
          have := h2 a ha
          rw [← hab] at this
          simp [labelled] at this
      · intro x hx
        rcases List.mem_append.1 hx with hx | hx
        · exact (h2 x hx).trans (Nat.le_succ _)
        · obtain ⟨i, _, rfl⟩ := mem_seg.1 hx
          exact le_refl _
  obtain ⟨out, s', e, h, _⟩ := serve_ok hP hX qs [] _ (fresh_ok hX buf)
  exact ⟨out, s', e, (List.Perm.map Prod.snd (by simpa using h.perm)).nodup_iff.2 h.good.1⟩

end

/-! ## the labels do not influence the program -/

section
variable {α β : Type} (f : α → β)

abbrev mapSt (s : St α) : St β := ⟨s.setup, s.used, s.upper, fun k => f (s.buf k), s.calls, s.seeds.map f, s.made.map f⟩

abbrev mapInp (c : Inp α) : Inp β := ⟨fun k => f (c.data k), c.off, c.req, fun k => f (c.span k), c.cnt, c.calls, c.seeds.map f, c.made.map f⟩

theorem seg_map (g : ℕ → α) (a n : ℕ) : (seg g a n).map f = seg (fun k => f (g k)) a n := by
  simp [seg]

theorem copy_map (dst src : ℕ → α) (ds off ss fr len : ℕ) :
    copy (fun k => f (dst k)) ds off (fun k => f (src k)) ss fr len = (copy dst ds off src ss fr len).map fun d k => f (d k) := by
  unfold copy
  split
  · simp only [Option.map_some, apply_ite f]
  · rfl

variable {P : Lpn} {X : Ext α} {Y : Ext β} (h1 : ∀ i, Y.first i = f (X.first i)) (h2 : ∀ c g i, Y.ext c (fun j => f (g j)) i = f (X.ext c g i))

include h1 in
theorem setup_map (s : St α) : oneTimeSetup P Y (mapSt f s) = mapSt f (oneTimeSetup P X s) := by
  have e : Y.first = fun i => f (X.first i) := funext h1
  unfold oneTimeSetup
  by_cases h : s.setup = true
  · simp [mapSt, h]
  · simp [mapSt, h, e, seg_map, apply_ite f]

include h2 in
theorem bootstrap_map (s : St α) : bootstrap P Y (mapSt f s) = mapSt f (bootstrap P X s) := by
  have e : Y.ext s.calls (fun j => f (s.buf j)) = fun i => f (X.ext s.calls s.buf i) := funext (h2 _ _)
  simp [bootstrap, mapSt, e, seg_map, apply_ite f]

include h2 in
theorem inplaceStep_map (m : ℕ) (c : Inp α) : inplaceStep P Y m (mapInp f c) = (inplaceStep P X m c).map (mapInp f) := by
  have e : Y.ext c.calls (fun j => f (c.span j)) = fun i => f (X.ext c.calls c.span i) := funext (h2 _ _)
  unfold inplaceStep
  simp only [mapInp, e]
  split
  · split
    · simp [mapInp, seg_map, apply_ite f]
    · rfl
  · rfl

include h2 in
theorem inplace_map (m : ℕ) : ∀ (fuel : ℕ) (c : Inp α), inplace P Y m fuel (mapInp f c) = (inplace P X m fuel c).map (mapInp f)
  | 0, c => by
    unfold inplace
    rw [show (mapInp f c).req = c.req from rfl]
    split <;> rfl
  | fuel + 1, c => by
    unfold inplace
    rw [show (mapInp f c).req = c.req from rfl]
    split
    · rw [inplaceStep_map f h2]
      cases inplaceStep P X m c with
      | none => rfl
      | some c' => exact inplace_map m fuel c'
    · rfl

theorem keepSeeds_map (buf : ℕ → α) (c : Inp α) : keepSeeds P (fun k => f (buf k)) (mapInp f c) = (keepSeeds P buf c).map fun d k => f (d k) := by
  unfold keepSeeds
  rw [show (mapInp f c).cnt = c.cnt from rfl]
  split
  · exact copy_map f _ _ _ _ _ _ _
  · rfl

include h1 h2 in
/-- the program commutes with any map of the elements that the library commutes with -/
theorem rcot_map (m : ℕ) (d0 : ℕ → α) (s : St α) :
    rcot P Y m (fun k => f (d0 k)) (mapSt f s) = (rcot P X m d0 s).map fun r => (fun k => f (r.1 k), mapSt f r.2) := by
  unfold rcot
  rw [setup_map f h1]
  generalize oneTimeSetup P X s = s1
  have e0 := inplace_map f (P := P) h2 m m ⟨d0, 0, m, s1.buf, 0, s1.calls, s1.seeds, s1.made⟩
  simp only [mapInp] at e0
  simp only [mapSt, bind, pure]
  rw [e0]
  cases inplace P X m m ⟨d0, 0, m, s1.buf, 0, s1.calls, s1.seeds, s1.made⟩ with
  | none => rfl
  | some c =>
    simp only [Option.map_some, Option.bind_some]
    rw [keepSeeds_map f (P := P) s1.buf c]
    cases keepSeeds P s1.buf c with
    | none => rfl
    | some buf =>
      simp only [Option.map_some, Option.bind_some, mapInp]
      rw [copy_map f]
      cases copy c.data m c.off buf P.n s1.used (min (s1.upper - s1.used) c.req) with
      | none => rfl
      | some d1 =>
        simp only [Option.map_some, Option.bind_some]
        by_cases hlt : min (s1.upper - s1.used) c.req < c.req
        · rw [if_pos hlt, if_pos hlt]
          have e2 := bootstrap_map f (P := P) h2 ⟨s1.setup, s1.used + min (s1.upper - s1.used) c.req, s1.upper, buf, c.calls, c.seeds, c.made⟩
          simp only [mapSt] at e2
          simp only [e2]
          generalize bootstrap P X ⟨s1.setup, s1.used + min (s1.upper - s1.used) c.req, s1.upper, buf, c.calls, c.seeds, c.made⟩ = s2
          by_cases hw : s2.upper - P.reserve < c.req - min (s1.upper - s1.used) c.req
          · rw [if_pos hw, if_pos hw, copy_map f]
            cases copy d1 m (c.off + min (s1.upper - s1.used) c.req) s2.buf P.n P.reserve (s2.upper - P.reserve) with
            | none => rfl
            | some d2 =>
              simp only [Option.map_some, Option.bind_some]
              have e3 := bootstrap_map f (P := P) h2 s2
              simp only [mapSt] at e3
              simp only [e3]
              rw [copy_map f]
              cases copy d2 m (c.off + min (s1.upper - s1.used) c.req + (s2.upper - P.reserve)) (bootstrap P X s2).buf P.n (bootstrap P X s2).used
                (c.req - min (s1.upper - s1.used) c.req - (s2.upper - P.reserve)) with
              | none => rfl
              | some d3 => rfl
          · rw [if_neg hw, if_neg hw, copy_map f]
            cases copy d1 m (c.off + min (s1.upper - s1.used) c.req) s2.buf P.n s2.used (c.req - min (s1.upper - s1.used) c.req) with
            | none => rfl
            | some d2 => rfl
        · rw [if_neg hlt, if_neg hlt]
          rfl

/-- a run of the program is the run with labels, its labels removed -/
theorem c56_erase (X : Ext α) : ∀ (qs : List (ℕ × (ℕ → α × ℕ × ℕ))) (s : St (α × ℕ × ℕ)),
    serve P X (qs.map fun q => (q.1, fun k => (q.2 k).1)) (mapSt Prod.fst s) =
      (serve P (labelled X) qs s).map fun r => (r.1.map Prod.fst, mapSt Prod.fst r.2)
  | [], s => rfl
  | q :: qs, s => by
    simp only [List.map_cons, serve]
    rw [rcot_map (X := labelled X) Prod.fst (fun _ => rfl) (fun _ _ _ => rfl)]
    cases rcot P (labelled X) q.1 q.2 s with
    | none => rfl
    | some r =>
      simp only [Option.map_some, Option.bind_some]
      rw [c56_erase X qs r.2]
      cases serve P (labelled X) qs r.2 with
      | none => rfl
      | some t => simp

end

/-! ## correlated transfers -/

/-- what both hold: the receiver's block is the sender's, plus `Δ` if its lowest bit is one -/
def Corr (Δ : Block) (x : Block × Block) : Prop := x.2 = if x.2.getLsbD 0 then x.1 ^^^ Δ else x.1

/-- the seeds of the setup, from a transfer extension with difference `δ`, are correlated with the difference that the adapter reports -/
theorem c56_setup (δ q : Block) (c : Bool) : Corr (setupDelta δ) (setupSend q, setupRecv (if c then q ^^^ δ else q) c) := by
  have h1 : ∀ i (hi : i < 128), one[i] = decide (i ≠ 0) := by
    intro i hi
    have : ∀ j : Fin 128, one.getLsbD j = decide ((j : ℕ) ≠ 0) := by decide +kernel
    simpa [hi, BitVec.getLsbD_eq_getElem] using this ⟨i, hi⟩
  have h0 : (setupRecv (if c then q ^^^ δ else q) c).getLsbD 0 = c := by
    cases c <;> simp [setupRecv, h1]
  unfold Corr
  dsimp only
  rw [h0]
  apply BitVec.eq_of_getLsbD_eq
  intro i hi
  cases c <;> by_cases h : i = 0 <;> simp [setupRecv, setupSend, setupDelta, h1, h, hi]

section
variable {P : Lpn} {X : Fin 2 → Ext (Block × Block)} {delta : Fin 2 → Block} {d0 : ℕ → Block × Block}

/-- every pool is reachable by some requests -/
def PoolsOk (P : Lpn) (delta : Fin 2 → Block) (st : Fin 2 → St (Block × Block)) : Prop :=
  ∀ p, ∃ h, Pool P (fun _ l => ∀ x ∈ l, Corr (delta p) x) h (st p)

theorem poolRcot_ok (hP : LpnOk P) (hX : ∀ p, Keeps P (X p) fun _ l => ∀ x ∈ l, Corr (delta p) x) (s : Fin 2) (m : ℕ) :
    Ok (PoolsOk P delta) (poolRcot P X d0 s m) fun d => ∀ i, i < m → Corr (delta s) (d i) := by
  intro st hst
  obtain ⟨h, hs⟩ := hst s
  obtain ⟨d, s', e, h', _⟩ := c56_rcot hP (hX s) hs m d0
  refine ⟨d, _, by rw [poolRcot, e]; rfl, ?_, fun i hi => h'.good _ (h'.perm.subset ?_)⟩
  · intro p
    by_cases hp : p = s
    · subst hp
      exact ⟨_, by simpa using h'⟩
    · simpa [hp] using hst p
  · simp only [List.mem_append]
    exact Or.inl (Or.inl (Or.inr (mem_seg.2 ⟨i, hi, by rw [Nat.zero_add]⟩)))

/-- the pools are correlated transfers, if the extension is -/
theorem c56_cot (hP : LpnOk P) (h1 : ∀ p i, i < P.pre → Corr (delta p) ((X p).first i))
    (h2 : ∀ p c f, (∀ j, j < P.reserve → Corr (delta p) (f j)) → ∀ i, i < P.n → Corr (delta p) ((X p).ext c f i)) :
    CotOk (poolCot P X delta d0) (PoolsOk P delta) where
  rcot := by
    intro s n _
    refine Ok.bind (poolRcot_ok hP (fun p => keeps_of_pred (h1 p) (h2 p)) s n) fun d hd => Ok.pure fun i hi => ?_
    have h := hd i hi
    unfold Corr at h
    have hb : (d i).2.setWidth 8 &&& 1 = if (d i).2.getLsbD 0 then 1 else 0 := by
      apply BitVec.eq_of_getLsbD_eq
      intro j hj
      have h0 : (d i).2.getLsbD 0 = (d i).2[0] := BitVec.getLsbD_eq_getElem (by omega)
      rw [h0]
      by_cases hl : (d i).2[0] = true <;> by_cases h : j = 0 <;> simp [h, hl, BitVec.getLsbD_one]
    dsimp only
    rw [hb]
    cases hl : (d i).2.getLsbD 0
    · left
      rw [hl] at h
      exact ⟨rfl, h⟩
    · right
      rw [hl] at h
      exact ⟨rfl, h⟩
  cot := by
    intro s n ch _
    refine Ok.bind (poolRcot_ok hP (fun p => keeps_of_pred (h1 p) (h2 p)) s n) fun d hd => Ok.pure fun i hi => ?_
    have h := hd i hi
    unfold Corr at h
    have hx : ∀ a b : Block, a ^^^ b ^^^ b = a := fun a b => by rw [BitVec.xor_assoc, BitVec.xor_self, BitVec.xor_zero]
    dsimp only [poolCot]
    obtain ⟨b, hl⟩ : ∃ b, b = (d i).2.getLsbD 0 := ⟨_, rfl⟩
    simp only [← hl] at h ⊢
    by_cases hc : ch i = 0#8 <;> cases b <;> simp only [if_true, if_false, Bool.false_eq_true] at h <;> simp [hc, h, hx]

/-- the whole stack: Ferret's transfers over the pools meet the specification of C52, if the extension is correct -/
theorem c56_ferret {w : ℕ} (H : Hashes) (hP : LpnOk P) (h1 : ∀ p i, i < P.pre → Corr (delta p) ((X p).first i))
    (h2 : ∀ p c f, (∀ j, j < P.reserve → Corr (delta p) (f j)) → ∀ i, i < P.n → Corr (delta p) ((X p).ext c f i)) (hw : 0 < w)
    {fill : ℕ → M (Fin 2 → St (Block × Block)) (ℕ → BitVec 8)} {randBit : ℕ → M (Fin 2 → St (Block × Block)) (ℕ → BitVec w)}
    (hf : ∀ n, Ok (PoolsOk P delta) (fill n) fun _ => True) (hr : ∀ n, Ok (PoolsOk P delta) (randBit n) fun r => ∀ i, i < n → r i = 0 ∨ r i = 1) :
    OtOk (ferretOt H (poolCot P X delta d0) fill randBit) (PoolsOk P delta) :=
  c55_ferret (c56_cot hP h1 h2) hw hf hr

/-- and new adapters are in such a state -/
theorem c56_start (bufs : Fin 2 → ℕ → Block × Block) : PoolsOk P delta fun p => fresh (bufs p) :=
  fun _ => ⟨[], ⟨fun _ => ⟨rfl, rfl⟩, fun h => absurd h (by simp [fresh]), by simp [held, fresh], by simp [fresh]⟩⟩

end

/-- the sizes in yacl_ote_adapter.h:111-115 fit, if the library reserves at most the output of the setup -/
theorem c56_sizes {r : ℕ} (h : r ≤ 470016) : LpnOk ⟨10485760, r, 470016⟩ :=
  ⟨by dsimp only; omega, by dsimp only; omega, h, by dsimp only; omega⟩

/-! ## examples -/

def toyLpn : Lpn := ⟨10, 3, 6⟩

theorem toyLpn_ok : LpnOk toyLpn := ⟨by decide, by decide, by decide, by decide⟩

/-- an extension that depends on its seeds -/
def toyExt : Ext ℕ where
  first := fun i => 1000 + i
  ext := fun c f i => f 0 + f 2 + 10 * c + i

/-- from the setup; with one extension; three in place, the rest and one more; the rest and one more -/
example : ((serve toyLpn (labelled toyExt) [(2, fun _ => (7, 7, 7)), (5, fun _ => (7, 7, 7)), (26, fun _ => (7, 7, 7)), (9, fun _ => (7, 7, 7))]
    (fresh fun _ => (9, 9, 9))).map fun r => (r.1.map fun x => x.2, r.2.calls)) =
    some ([(0, 3), (0, 4), (0, 5), (1, 3), (1, 4), (1, 5), (1, 6),
      (2, 0), (2, 1), (2, 2), (2, 3), (2, 4), (2, 5), (2, 6), (3, 0), (3, 1), (3, 2), (3, 3), (3, 4), (3, 5), (3, 6),
      (4, 0), (4, 1), (4, 2), (4, 3), (4, 4), (4, 5), (4, 6), (1, 7), (1, 8), (1, 9), (5, 3), (5, 4),
      (5, 5), (5, 6), (5, 7), (5, 8), (5, 9), (6, 3), (6, 4), (6, 5), (6, 6)], 6) := by decide +kernel

/-- the worst case, two extensions for a request smaller than the buffer -/
example : ((serve toyLpn (labelled toyExt) [(3, fun _ => (7, 7, 7)), (9, fun _ => (7, 7, 7))] (fresh fun _ => (9, 9, 9))).map fun r => (r.1.map fun x => x.2, r.2.calls)) =
    some ([(0, 3), (0, 4), (0, 5), (1, 3), (1, 4), (1, 5), (1, 6), (1, 7), (1, 8), (1, 9), (2, 3), (2, 4)], 2) := by decide +kernel

/-- correlated blocks that the extension preserves -/
def toyPair (p : Fin 2) : Ext (Block × Block) where
  first := fun i => (BitVec.ofNat 128 (2 * i), if i % 2 = 0 then BitVec.ofNat 128 (2 * i) else BitVec.ofNat 128 (2 * i) ^^^ (if p = 0 then 5 else 9))
  ext := fun _ f _ => f 0

example : ∀ p, ∀ i < toyLpn.pre, Corr (if p = (0 : Fin 2) then 5 else 9) ((toyPair p).first i) := by
  unfold Corr
  decide +kernel

/-- without the bound on the reserve a request can leave the buffer -/
theorem c56_large_reserve : (serve ⟨5, 4, 5⟩ toyExt [(1, fun _ => 0), (4, fun _ => 0)] (fresh fun _ => 0)).isNone := by decide +kernel

end Spu.Props
