import Verif.Spec.Aby3Prog
import Verif.Props.Aby3Conv

set_option autoImplicit false

/-!
# C26, C27, C29: every program of aby3 kernels
-/

namespace Spu.Props
open Spu.Model Spu.Model.Circ Spu.Model.Bits Spu.Model.Aby3 Spu.Model.Aby3.Env Spu.Model.Prg Spu.Spec Spu.Lemmas
open Spu.Model.Semi2k (backBits)
open Spu.Model.Semi2kConv (BOp)

variable {σ : Type} {Inv : σ → Prop} {E : Env σ} {w : ℕ}

theorem reg3_get {regs : List (Reg3 w)} {vals : List (PVal w)} (h : List.Forall₂ RegRep3 regs vals) :
    ∀ {i : ℕ} {r : Reg3 w}, regs[i]? = some r → ∃ v, vals[i]? = some v ∧ RegRep3 r v := by
  induction h with
  | nil => intro i a h; simp at h
  | cons hd tl ih =>
    intro i a h
    cases i with
    | zero =>
      rw [List.getElem?_cons_zero, Option.some_inj] at h
      subst h
      exact ⟨_, by rw [List.getElem?_cons_zero], hd⟩
    | succ i =>
      rw [List.getElem?_cons_succ] at h ⊢
      exact ih h

theorem getA_ok {regs : List (Reg3 w)} {vals : List (PVal w)} (h : List.Forall₂ RegRep3 regs vals) {i : ℕ}
    {x : Sh (BitVec w)} (hx : getA regs i = some x) : ∃ X, vals[i]? = some (.arith X) ∧ Opens x X := by
  unfold getA at hx
  split at hx
  · rename_i y hy
    cases hx
    obtain ⟨v, hv, hr⟩ := reg3_get h hy
    cases v with
    | arith X => exact ⟨X, hv, hr⟩
    | bool X N => exact hr.elim
  · cases hx

theorem getB_ok {regs : List (Reg3 w)} {vals : List (PVal w)} (h : List.Forall₂ RegRep3 regs vals) {i : ℕ}
    {a : BShr} (ha : getB regs i = some a) :
    ∃ X, vals[i]? = some (.bool X a.nb) ∧ BRep3 a X ∧ (vals.map PVal.pair)[i]? = some (X, a.nb) := by
  unfold getB at ha
  split at ha
  · rename_i y hy
    cases ha
    obtain ⟨v, hv, hr⟩ := reg3_get h hy
    cases v with
    | arith X => exact hr.elim
    | bool X N =>
      obtain ⟨hr, rfl⟩ := hr
      exact ⟨X, hv, hr, by rw [List.getElem?_map, hv]; rfl⟩
  · cases ha

/-- a 1-bit value is the XOR of the low bits of the components -/
theorem one_bit_value {b : BShr} {y : BitVec w} (hb : BRep3 b y) (hn : b.nb = 1) :
    BitVec.ofNat w (lsb (b.sh.fst 0) ^^ lsb (b.sh.fst 1) ^^ lsb (b.sh.fst 2)).toNat = y := by
  have ho := hb.opens
  rw [xorAll3] at ho
  have hv := backBits_le hb.store
  have h0 : (lsb (b.sh.fst 0) ^^ lsb (b.sh.fst 1) ^^ lsb (b.sh.fst 2)) = y.getLsbD 0 := by
    have := congrArg (fun z => z.getLsbD 0) ho
    simp only [BitVec.getLsbD_xor, setWidth_bit] at this
    unfold lsb
    rw [this, decide_eq_true (by omega), Bool.true_and]
  rw [h0]
  refine BitVec.eq_of_toNat_eq ?_
  have h1 := hb.lt
  rw [hn, pow_one] at h1
  have h2 : y.getLsbD 0 = decide (y.toNat % 2 = 1) := by
    simp [BitVec.getLsbD, Nat.testBit_zero]
  rw [h2, BitVec.toNat_ofNat]
  have : y.toNat = 0 ∨ y.toNat = 1 := by omega
  rcases this with h | h
  · simp [h]
  · simp only [h]
    have hle := hb.le
    rw [hn] at hle
    have : 1 % 2 ^ w = 1 := Nat.mod_eq_of_lt (Nat.one_lt_two_pow (by omega))
    simpa using this

theorem part_retA {m : Spu.Model.Circ.M σ (Sh (BitVec w))} {Q : PVal w → Prop} (h : Part Inv m (fun z => ∃ X, Q (.arith X) ∧ Opens z X)) :
    Part Inv (retA m) (fun r => ∃ v, Q v ∧ RegRep3 r v) :=
  Part.bind h fun z ⟨X, hq, hz⟩ => Part.of_ok (Ok.pure ⟨_, hq, hz⟩)

theorem part_retB {m : Spu.Model.Circ.M σ BShr} {Q : PVal w → Prop} (h : Part Inv m (fun z => ∃ X, (∀ N, Q (.bool X N)) ∧ BRep3 z X)) :
    Part Inv (retB m) (fun r => ∃ v, Q v ∧ RegRep3 r v) :=
  Part.bind h fun z ⟨X, hq, hz⟩ => Part.of_ok (Ok.pure ⟨.bool X z.nb, hq _, hz, rfl⟩)

theorem bcall3_ok (hE : EnvOk3 E Inv) {K : ℕ} (hwK : w = 2 ^ K) (hK : 3 ≤ K) (h128 : w ≤ 128) {op : BOp w}
    (hop : Op3.Valid (.bool op)) {regs : List (Reg3 w)} {vals : List (PVal w)} (h : List.Forall₂ RegRep3 regs vals) :
    Part Inv (bcall3 E regs op) (fun a => ∃ X, BSem (vals.map PVal.pair) op X ∧ BRep3 a X) := by
  cases op with
  | p2b p np => exact Part.of_ok (Ok.imp (p2bK3_ok h128 hop.1 hop.2) fun c hc => ⟨_, .p2b, hc.1⟩)
  | rand => exact Part.of_ok (Ok.imp (randB_ok hE hwK hK) fun c ⟨b, hc, _⟩ => ⟨_, .rand, hc⟩)
  | cast i j =>
    refine Part.opt fun a ha => Part.opt fun b hb => ?_
    obtain ⟨x, -, rx, hx⟩ := getB_ok h ha
    obtain ⟨y, -, ry, hy⟩ := getB_ok h hb
    exact Part.of_ok (Ok.imp (castBB_ok h128 rx ry) fun c hc => ⟨_, .cast hx, hc.1⟩)
  | xorBB i j =>
    refine Part.opt fun a ha => Part.opt fun b hb => ?_
    obtain ⟨x, -, rx, hx⟩ := getB_ok h ha
    obtain ⟨y, -, ry, hy⟩ := getB_ok h hb
    exact Part.of_ok (Ok.imp (xorBB3_ok h128 rx ry) fun c hc => ⟨_, .xorBB hx hy, hc.1⟩)
  | xorBP i p np =>
    refine Part.opt fun a ha => ?_
    obtain ⟨x, -, rx, hx⟩ := getB_ok h ha
    exact Part.of_ok (Ok.imp (xorBP3_ok h128 p hop.1 hop.2 rx) fun c hc => ⟨_, .xorBP hx, hc.1⟩)
  | andBB i j =>
    refine Part.opt fun a ha => Part.opt fun b hb => ?_
    obtain ⟨x, -, rx, hx⟩ := getB_ok h ha
    obtain ⟨y, -, ry, hy⟩ := getB_ok h hb
    exact Part.of_ok (Ok.imp (andBB3_ok hE h128 rx ry) fun c hc => ⟨_, .andBB hx hy, hc.1⟩)
  | andBP i p np =>
    refine Part.opt fun a ha => ?_
    obtain ⟨x, -, rx, hx⟩ := getB_ok h ha
    exact Part.of_ok (Ok.imp (andBP3_ok h128 p hop.1 rx) fun c hc => ⟨_, .andBP hx, hc.1⟩)
  | lshift i k =>
    refine Part.opt fun a ha => ?_
    obtain ⟨x, -, rx, hx⟩ := getB_ok h ha
    by_cases hk : ∀ v, backBits (min (a.nb + k) w) = some v → shiftOk v k = true
    · exact Part.of_ok (Ok.imp (lshiftB3_ok hwK hK h128 hk rx) fun c hc => ⟨_, .lshift hx, hc.1⟩)
    · refine Part.opt fun v hv => Part.enforce fun hs => absurd (fun v' hv' => ?_) hk
      rw [hv] at hv'; cases hv'; exact hs
  | rshift i k =>
    refine Part.opt fun a ha => ?_
    obtain ⟨x, -, rx, hx⟩ := getB_ok h ha
    by_cases hk : shiftOk a.v k = true
    · exact Part.of_ok (Ok.imp (rshiftB3_ok h128 hk rx) fun c hc => ⟨_, .rshift hx, hc.1⟩)
    · exact Part.opt fun v hv => Part.enforce fun hs => absurd hs hk
  | lshiftv i m k =>
    refine Part.opt fun a ha => ?_
    obtain ⟨x, -, rx, hx⟩ := getB_ok h ha
    by_cases hk : ∀ v, backBits (min (a.nb + m) w) = some v → shiftOk v k = true
    · exact Part.of_ok (Ok.imp (lshiftV3_ok hwK hK h128 hop hk rx) fun c hc => ⟨_, .lshiftv hx, hc.1⟩)
    · refine Part.opt fun v hv => Part.enforce fun hs => absurd (fun v' hv' => ?_) hk
      rw [hv] at hv'; cases hv'; exact hs
  | rshiftv i m k =>
    refine Part.opt fun a ha => ?_
    obtain ⟨x, -, rx, hx⟩ := getB_ok h ha
    by_cases hk : shiftOk a.v k = true
    · exact Part.of_ok (Ok.imp (rshiftV3_ok h128 hop hk rx) fun c hc => ⟨_, .rshiftv hx, hc.1⟩)
    · exact Part.opt fun v hv => Part.enforce fun hs => absurd hs hk
  | arshift i k =>
    refine Part.opt fun a ha => ?_
    obtain ⟨x, -, rx, hx⟩ := getB_ok h ha
    by_cases hn : a.nb = w
    · by_cases hk : shiftOk a.v k = true
      · exact Part.of_ok (Ok.imp (arshiftB3_ok hwK hK h128 hk hn rx) fun c hc => ⟨_, .arshift hx, hc.1⟩)
      · exact Part.enforce fun _ => Part.enforce fun hs => absurd hs hk
    · exact Part.enforce fun hs => absurd (of_decide_eq_true hs) hn
  | bitrev i st en =>
    refine Part.opt fun a ha => ?_
    obtain ⟨x, -, rx, hx⟩ := getB_ok h ha
    by_cases h1 : st ≤ en
    · by_cases hk : ∀ v, backBits (max a.nb en) = some v → shiftOk v en = true
      · refine Part.of_ok (Ok.imp (bitrevB3_ok h128 h1 hop hk rx) fun c hc => ?_)
        obtain ⟨_, r, hr, hb⟩ := hc
        exact ⟨r, .bitrev hx hb, hr⟩
      · refine Part.enforce fun _ => Part.opt fun v hv => Part.enforce fun hs => absurd (fun v' hv' => ?_) hk
        rw [hv] at hv'; cases hv'; exact hs
    · exact Part.enforce fun hs => absurd (of_decide_eq_true hs).1 h1
  | intl i st =>
    refine Part.opt fun a ha => ?_
    obtain ⟨x, -, rx, hx⟩ := getB_ok h ha
    by_cases hsb : singleBit a.nb = true
    · obtain ⟨m, hm⟩ := singleBit_iff hsb
      obtain ⟨f, hf, _⟩ := fold_lin (w := w) (intlLevels st (2 ^ m)) fun l hl =>
        (levels_both (s := st) hwK h128 (hm ▸ rx.le) l (List.mem_reverse.1 hl)).1
      exact Part.of_ok (Ok.imp (intl3_ok hwK hK h128 rx hm (hf x)) fun c hc => ⟨_, .intl hx (by rw [hm]; exact hf x), hc.1⟩)
    · exact Part.enforce fun hs => absurd hs hsb
  | deintl i st =>
    refine Part.opt fun a ha => ?_
    obtain ⟨x, -, rx, hx⟩ := getB_ok h ha
    by_cases hsb : singleBit a.nb = true
    · obtain ⟨m, hm⟩ := singleBit_iff hsb
      obtain ⟨f, hf, _⟩ := fold_lin (w := w) (deintlLevels st (2 ^ m)) fun l hl =>
        (levels_both (s := st) hwK h128 (hm ▸ rx.le) l hl).1
      exact Part.of_ok (Ok.imp (deintl3_ok hwK hK h128 rx hm (hf x)) fun c hc => ⟨_, .deintl hx (by rw [hm]; exact hf x), hc.1⟩)
    · exact Part.enforce fun hs => absurd hs hsb

theorem bit_if {p : Prop} [Decidable p] : BitVec.ofNat w (decide p).toNat = if p then 1 else 0 := by
  by_cases h : p <;> simp [h]

theorem call3_ok (hE : EnvOk3 E Inv) {K : ℕ} (hwK : w = 2 ^ K) (hK : 3 ≤ K) (h128 : w ≤ 128) {op : Op3 w}
    (hop : Op3.Valid op) {regs : List (Reg3 w)} {vals : List (PVal w)} (h : List.Forall₂ RegRep3 regs vals) :
    Part Inv (call3 E regs op) (fun r => ∃ v, Sem3 vals op v ∧ RegRep3 r v) := by
  have hw : 0 < w := hwK ▸ Nat.two_pow_pos K
  cases op with
  | p2a p => exact part_retA (Part.of_ok (Ok.pure ⟨_, .p2a, c27_p2a p⟩))
  | randA => exact part_retA (Part.of_ok (Ok.imp (c27_randA hE) fun z hz => ⟨_, .randA, hz, rfl⟩))
  | neg i =>
    refine part_retA (Part.opt fun x hx => ?_)
    obtain ⟨X, hX, ox⟩ := getA_ok h hx
    exact Part.of_ok (Ok.pure ⟨_, .neg hX, c27_negate ox⟩)
  | addAP i p =>
    refine part_retA (Part.opt fun x hx => ?_)
    obtain ⟨X, hX, ox⟩ := getA_ok h hx
    exact Part.of_ok (Ok.pure ⟨_, .addAP hX, c27_addAP ox p⟩)
  | addAA i j =>
    refine part_retA (Part.opt fun x hx => Part.opt fun y hy => ?_)
    obtain ⟨X, hX, ox⟩ := getA_ok h hx
    obtain ⟨Y, hY, oy⟩ := getA_ok h hy
    exact Part.of_ok (Ok.pure ⟨_, .addAA hX hY, c27_addAA ox oy⟩)
  | mulAP i p =>
    refine part_retA (Part.opt fun x hx => ?_)
    obtain ⟨X, hX, ox⟩ := getA_ok h hx
    exact Part.of_ok (Ok.pure ⟨_, .mulAP hX, c27_mulAP ox p⟩)
  | mulAA i j =>
    refine part_retA (Part.opt fun x hx => Part.opt fun y hy => ?_)
    obtain ⟨X, hX, ox⟩ := getA_ok h hx
    obtain ⟨Y, hY, oy⟩ := getA_ok h hy
    exact Part.of_ok (Ok.imp (c27_mul hE ox oy) fun z hz => ⟨_, .mulAA hX hY, hz⟩)
  | mulA1B i j =>
    refine part_retA (Part.opt fun x hx => Part.opt fun b hb => ?_)
    obtain ⟨X, hX, ox⟩ := getA_ok h hx
    obtain ⟨Y, hY, oy, -⟩ := getB_ok h hb
    by_cases hn : b.nb = 1
    · have hv := backBits_le oy.store
      refine Part.of_ok (Ok.imp (c27_mulA1B hE hw ox oy.repl (by omega) hn) fun z hz => ?_)
      rw [one_bit_value oy hn] at hz
      exact ⟨_, .mulA1B hX hY, hz⟩
    · exact Part.enforce fun hs => absurd (of_decide_eq_true hs) hn
  | lshiftA i k =>
    refine part_retA (Part.opt fun x hx => ?_)
    obtain ⟨X, hX, ox⟩ := getA_ok h hx
    intro s hs z s' e
    cases hz : Aby3.lshiftA x k with
    | none => rw [hz] at e; cases e
    | some z' =>
      rw [hz] at e
      cases e
      have hk : k < w := by
        by_contra hk
        unfold Aby3.lshiftA at hz
        rw [if_neg hk] at hz; cases hz
      obtain ⟨z', hz', o⟩ := c27_lshift ox hk
      rw [hz] at hz'; cases hz'
      exact ⟨hs, _, .lshiftA hX, o⟩
  | a2b i =>
    refine part_retB (Part.opt fun x hx => ?_)
    obtain ⟨X, hX, ox⟩ := getA_ok h hx
    exact Part.of_ok (Ok.imp (c29_a2b hE hwK hK h128 ox) fun c hc => ⟨_, fun N => .a2b hX, hc.1⟩)
  | msb i =>
    refine part_retB (Part.opt fun x hx => ?_)
    obtain ⟨X, hX, ox⟩ := getA_ok h hx
    refine Part.of_ok (Ok.imp (c29_msb_a2b hE hwK hK h128 ox) fun c hc => ⟨_, fun N => .msb hX, ?_⟩)
    rw [← bit_if, ← BitVec.msb_eq_toInt]
    exact hc.1
  | b2a i =>
    refine part_retA (Part.opt fun b hb => ?_)
    obtain ⟨Y, hY, oy, -⟩ := getB_ok h hb
    exact Part.imp (c29_b2a_finished hE hwK hK h128 oy) fun z hz => ⟨_, .b2a hY, hz⟩
  | eqAA i j =>
    refine part_retB (Part.opt fun x hx => Part.opt fun y hy => ?_)
    obtain ⟨X, hX, ox⟩ := getA_ok h hx
    obtain ⟨Y, hY, oy⟩ := getA_ok h hy
    refine Part.bind (c29_equal_finished hE hwK hK 1 (x := single x) (y := single y) (X := fun _ => X) (Y := fun _ => Y)
      (fun _ _ => ox) (fun _ _ => oy) (fun _ => 0)).1 fun z hz => Part.of_ok (Ok.pure ⟨_, fun N => .eqAA hX hY, ?_⟩)
    rw [← bit_if]
    exact hz 0 (by omega)
  | eqAP i p =>
    refine part_retB (Part.opt fun x hx => ?_)
    obtain ⟨X, hX, ox⟩ := getA_ok h hx
    refine Part.bind (c29_equal_finished hE hwK hK 1 (x := single x) (y := single x) (X := fun _ => X) (Y := fun _ => X)
      (fun _ _ => ox) (fun _ _ => ox) (fun _ => p)).2 fun z hz => Part.of_ok (Ok.pure ⟨_, fun N => .eqAP hX, ?_⟩)
    rw [← bit_if]
    exact hz 0 (by omega)
  | bool op => exact part_retB (Part.imp (bcall3_ok hE hwK hK h128 hop h) fun a ⟨X, hX, ha⟩ => ⟨X, fun N => .bool hX, ha⟩)

/-- Along every program of aby3 kernels and for all randomness: every register is a consistent replicated
sharing of the value the plain operations give, and every boolean value fits in its declared bit count. -/
theorem c26_aby3_programs (hE : EnvOk3 E Inv) {K : ℕ} (hwK : w = 2 ^ K) (hK : 3 ≤ K) (h128 : w ≤ 128)
    (ops : List (Op3 w)) (hops : ∀ op ∈ ops, Op3.Valid op) {s s' : σ} (hs : Inv s) {regs : List (Reg3 w)}
    (hrun : run3 E ops s = some (regs, s')) :
    Inv s' ∧ ∃ vals, Trace3 ops vals ∧ List.Forall₂ RegRep3 regs vals := by
  have key : Part Inv (run3 E ops) (fun regs => ∃ vals, Trace3 ops vals ∧ List.Forall₂ RegRep3 regs vals) := by
    clear hrun hs
    induction ops using List.reverseRecOn with
    | nil => exact Part.of_ok (Ok.pure ⟨[], .nil, .nil⟩)
    | append_singleton ops op ih =>
      unfold run3
      rw [List.foldlM_append]
      refine Part.bind (ih fun o ho => hops o (by simp [ho])) fun regs ⟨vals, ht, hr⟩ => ?_
      rw [List.foldlM_cons]
      refine Part.bind (P := fun regs' => ∃ vals, Trace3 (ops ++ [op]) vals ∧ List.Forall₂ RegRep3 regs' vals)
        (Part.bind (call3_ok hE hwK hK h128 (hops op (by simp)) hr) fun r ⟨v, hv, hrv⟩ =>
          Part.of_ok (Ok.pure ⟨_, .snoc ht hv, List.rel_append hr (List.Forall₂.cons hrv List.Forall₂.nil)⟩))
        fun regs' h => Part.of_ok (Ok.pure h)
  exact key s hs regs s' hrun

/-! ### Example: `(5 - 9 < 0) * 9`, and `5 - 9 = -4` -/

def demoProg3 : List (Op3 8) :=
  [.p2a 5, .p2a 9, .neg 1, .addAA 0 2, .msb 3, .mulA1B 1 4, .a2b 3, .bool (.arshift 6 1), .b2a 7, .eqAP 3 (-4),
   .bool (.andBB 9 4), .b2a 10]

example : ∀ op ∈ demoProg3, Op3.Valid op := by
  intro op h
  simp only [demoProg3, List.mem_cons, List.not_mem_nil, or_false] at h
  rcases h with h | h | h | h | h | h | h | h | h | h | h | h <;> (subst h; trivial)

example : (run3 aby3DemoEnv demoProg3 aby3DemoStart).map (fun p => p.1.map fun r => match r with
    | .arith x => (a2p x 0).toInt
    | .bool a => (b2p (w := 8) a 0).toInt) = some [5, 9, -9, -4, 1, 9, -4, -2, -2, 1, 1, 1] := by
  decide +kernel

end Spu.Props
