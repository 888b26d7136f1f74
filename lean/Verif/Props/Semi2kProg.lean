import Verif.Props.Semi2kGates
import Verif.Props.Circuits

set_option autoImplicit false
set_option linter.unusedSectionVars false

/-!
# C26: declared bit counts stay sound along every boolean program
-/

namespace Spu.Props
open Spu.Model.Circ Spu.Model.Bits Spu.Model.Semi2k Spu.Model.Semi2kConv Spu.Spec Spu.Lemmas

section
variable {σ α β : Type} {Inv : σ → Prop}

/-- partial correctness: whenever `m` returns, the invariant and the postcondition hold -/
def Part (Inv : σ → Prop) (m : Spu.Model.Circ.M σ α) (P : α → Prop) : Prop :=
  ∀ s, Inv s → ∀ a s', m s = some (a, s') → Inv s' ∧ P a

theorem Part.of_ok {m : Spu.Model.Circ.M σ α} {P : α → Prop} (h : Ok Inv m P) : Part Inv m P := by
  intro s hs a s' e
  obtain ⟨b, t, e', ht, hb⟩ := h s hs
  rw [e] at e'
  obtain ⟨rfl, rfl⟩ := Prod.ext_iff.1 (Option.some_inj.1 e')
  exact ⟨ht, hb⟩

theorem Part.imp {m : Spu.Model.Circ.M σ α} {P Q : α → Prop} (h : Part Inv m P) (hPQ : ∀ a, P a → Q a) :
    Part Inv m Q := fun s hs a s' e => ⟨(h s hs a s' e).1, hPQ a (h s hs a s' e).2⟩

theorem Part.bind {m : Spu.Model.Circ.M σ α} {f : α → Spu.Model.Circ.M σ β} {P : α → Prop} {Q : β → Prop}
    (h : Part Inv m P) (hf : ∀ a, P a → Part Inv (f a) Q) : Part Inv (m >>= f) Q := by
  intro s hs b s'' e
  cases hm : m s with
  | none => simp [Bind.bind, StateT.bind, hm] at e
  | some r =>
    obtain ⟨a, s'⟩ := r
    simp only [Bind.bind, StateT.bind, hm, Option.bind_some] at e
    obtain ⟨hs', ha⟩ := h s hs a s' hm
    exact hf a ha s' hs' b s'' e

theorem Part.enforce {b : Bool} {f : Unit → Spu.Model.Circ.M σ β} {Q : β → Prop}
    (h : b = true → Part Inv (f ()) Q) : Part Inv (Spu.Model.Circ.enforce b >>= f) Q := by
  cases b
  · intro s hs a s' e
    simp [Spu.Model.Circ.enforce, Bind.bind, StateT.bind, failure, StateT.failure, Alternative.failure] at e
  · exact Part.bind (P := fun _ => True) (Part.of_ok (Ok.pure trivial)) fun _ _ => h rfl

theorem Part.opt {o : Option α} {f : α → Spu.Model.Circ.M σ β} {Q : β → Prop}
    (h : ∀ a, o = some a → Part Inv (f a) Q) : Part Inv ((liftM o : Spu.Model.Circ.M σ α) >>= f) Q := by
  cases o with
  | none =>
    intro s hs a s' e
    simp [liftM, monadLift, MonadLift.monadLift, StateT.lift, Bind.bind, StateT.bind] at e
  | some a =>
    have : Part Inv (liftM (some a) : Spu.Model.Circ.M σ α) (fun b => b = a) :=
      Part.of_ok (fun s hs => ⟨a, s, rfl, hs, rfl⟩)
    exact Part.bind this fun b hb => by subst hb; exact h b rfl

end

section
variable {σ : Type} {n w : ℕ} [NeZero n] {E : Env σ n w} {Inv : σ → Prop}

/-- a register and its plain value with declared count -/
def RegRep (a : BShr n w) (p : BitVec w × ℕ) : Prop := BRep a p.1 ∧ a.nb = p.2

theorem reg_get {regs : List (BShr n w)} {vals : List (BitVec w × ℕ)} (h : List.Forall₂ RegRep regs vals) :
    ∀ {i : ℕ} {a : BShr n w}, regs[i]? = some a → ∃ x, vals[i]? = some (x, a.nb) ∧ BRep a x := by
  induction h with
  | nil => intro i a h; simp at h
  | cons hd tl ih =>
    intro i a h
    cases i with
    | zero =>
      rw [List.getElem?_cons_zero, Option.some_inj] at h
      subst h
      exact ⟨_, by rw [List.getElem?_cons_zero, hd.2], hd.1⟩
    | succ i =>
      rw [List.getElem?_cons_succ] at h ⊢
      exact ih h

theorem exec_ok (hE : EnvOk E Inv) {M : ℕ} (hwM : w = 2 ^ M) (h128 : w ≤ 128) {op : BOp w} (hop : BOp.Valid op)
    {regs : List (BShr n w)} {vals : List (BitVec w × ℕ)} (h : List.Forall₂ RegRep regs vals) :
    Part Inv (BOp.exec E regs op) (fun regs' => ∃ v N, BSem vals op v ∧ List.Forall₂ RegRep regs' (vals ++ [(v, N)])) := by
  have hw : 0 < w := by rw [hwM]; positivity
  have fin : ∀ {m : Spu.Model.Circ.M σ (BShr n w)}, Part Inv m (fun c => ∃ v, BSem vals op v ∧ BRep c v) →
      Part Inv (m >>= fun r => pure (regs ++ [r]))
        (fun regs' => ∃ v N, BSem vals op v ∧ List.Forall₂ RegRep regs' (vals ++ [(v, N)])) := by
    intro m hm
    refine Part.bind hm fun c ⟨v, hv, hc⟩ => Part.of_ok (Ok.pure ⟨v, c.nb, hv, ?_⟩)
    exact List.rel_append h (List.Forall₂.cons ⟨hc, rfl⟩ List.Forall₂.nil)
  cases op with
  | p2b p np => exact fin (Part.of_ok (Ok.imp (p2bK_ok hE hop.1 hop.2) fun c hc => ⟨_, .p2b, hc.1⟩))
  | rand => exact fin (Part.of_ok (Ok.imp (randBK_ok hE hw) fun c ⟨b, hc, _⟩ => ⟨_, .rand, hc⟩))
  | cast i j =>
    refine fin (Part.opt fun a ha => Part.opt fun b hb => ?_)
    obtain ⟨x, hx, rx⟩ := reg_get h ha
    obtain ⟨y, hy, ry⟩ := reg_get h hb
    exact Part.of_ok (Ok.pure ⟨x, .cast hx, rx.1, lt_of_lt_of_le rx.2.1 (Nat.pow_le_pow_right (by norm_num)
      (le_max_left _ _)), max_le rx.2.2 ry.2.2⟩)
  | xorBB i j =>
    refine fin (Part.opt fun a ha => Part.opt fun b hb => ?_)
    obtain ⟨x, hx, rx⟩ := reg_get h ha
    obtain ⟨y, hy, ry⟩ := reg_get h hb
    exact Part.of_ok (Ok.imp (xorBBK_ok rx ry) fun c hc => ⟨_, .xorBB hx hy, hc.1⟩)
  | xorBP i p np =>
    refine fin (Part.opt fun a ha => ?_)
    obtain ⟨x, hx, rx⟩ := reg_get h ha
    exact Part.of_ok (Ok.imp (xorBPK_ok p hop.1 hop.2 rx) fun c hc => ⟨_, .xorBP hx, hc.1⟩)
  | andBB i j =>
    refine fin (Part.opt fun a ha => Part.opt fun b hb => ?_)
    obtain ⟨x, hx, rx⟩ := reg_get h ha
    obtain ⟨y, hy, ry⟩ := reg_get h hb
    exact Part.of_ok (Ok.imp (andBBK_ok hE h128 rx ry) fun c hc => ⟨_, .andBB hx hy, hc.1⟩)
  | andBP i p np =>
    refine fin (Part.opt fun a ha => ?_)
    obtain ⟨x, hx, rx⟩ := reg_get h ha
    exact Part.of_ok (Ok.imp (andBPK_ok p hop.1 rx) fun c hc => ⟨_, .andBP hx, hc.1⟩)
  | lshift i k =>
    refine fin (Part.opt fun a ha => ?_)
    obtain ⟨x, hx, rx⟩ := reg_get h ha
    by_cases hk : k < w
    · exact Part.of_ok (Ok.imp (lshiftBK_ok hk rx) fun c hc => ⟨_, .lshift hx, hc.1⟩)
    · exact Part.enforce fun h => absurd (of_decide_eq_true h) hk
  | rshift i k =>
    refine fin (Part.opt fun a ha => ?_)
    obtain ⟨x, hx, rx⟩ := reg_get h ha
    by_cases hk : k < w
    · exact Part.of_ok (Ok.imp (rshiftBK_ok hk rx) fun c hc => ⟨_, .rshift hx, hc.1⟩)
    · exact Part.enforce fun _ => Part.enforce fun h => absurd (of_decide_eq_true h) hk
  | lshiftv i m k =>
    refine fin (Part.opt fun a ha => ?_)
    obtain ⟨x, hx, rx⟩ := reg_get h ha
    by_cases hk : k < w
    · exact Part.of_ok (Ok.imp (lshiftBV_ok hop hk rx) fun c hc => ⟨_, .lshiftv hx, hc.1⟩)
    · exact Part.enforce fun h => absurd (of_decide_eq_true h) hk
  | rshiftv i m k =>
    refine fin (Part.opt fun a ha => ?_)
    obtain ⟨x, hx, rx⟩ := reg_get h ha
    by_cases hk : k < w
    · exact Part.of_ok (Ok.imp (rshiftBV_ok hop hk rx) fun c hc => ⟨_, .rshiftv hx, hc.1⟩)
    · exact Part.enforce fun _ => Part.enforce fun h => absurd (of_decide_eq_true h) hk
  | arshift i k =>
    refine fin (Part.opt fun a ha => ?_)
    obtain ⟨x, hx, rx⟩ := reg_get h ha
    refine Part.enforce fun hk => ?_
    have := Part.of_ok (Ok.imp (arshiftBK_ok (Inv := Inv) (σ := σ) (of_decide_eq_true hk) rx)
      (Q := fun c => ∃ v, BSem vals (.arshift i k) v ∧ BRep c v) fun c hc => ⟨_, .arshift hx, hc.1⟩)
    unfold arshiftBK at this
    rw [hk] at this
    exact this
  | bitrev i st en =>
    refine fin (Part.opt fun a ha => ?_)
    obtain ⟨x, hx, rx⟩ := reg_get h ha
    by_cases h1 : st ≤ en
    · by_cases h2 : en < w
      · exact Part.of_ok (Ok.imp (bitrevBK_ok h1 h2 rx) fun c hc => by
          obtain ⟨_, r, hr, hb⟩ := hc
          exact ⟨r, .bitrev hx hb, hr⟩)
      · refine Part.enforce fun _ => Part.enforce fun hle => Part.opt fun r hr => ?_
        exfalso
        unfold perParty at hr
        split at hr
        · rename_i hs
          have := hs 0
          rw [show (fun x => bitrev x st en) (a.sh 0) = none from if_neg (by omega)] at this
          simp at this
        · simp at hr
    · refine Part.enforce fun hle => ?_
      exact absurd (of_decide_eq_true hle) h1
  | intl i st =>
    refine fin (Part.opt fun a ha => ?_)
    obtain ⟨x, hx, rx⟩ := reg_get h ha
    by_cases hsb : singleBit a.nb = true
    · obtain ⟨m, hm⟩ := singleBit_iff hsb
      obtain ⟨f, hf, _⟩ := fold_lin (w := w) (intlLevels st (2 ^ m)) fun l hl =>
        (levels_both (s := st) hwM h128 (hm ▸ rx.2.2) l (List.mem_reverse.1 hl)).1
      exact Part.of_ok (Ok.imp (intlK_ok hwM h128 rx hm (hf x)) fun c hc => ⟨_, .intl hx (by rw [hm]; exact hf x), hc.1⟩)
    · exact Part.enforce fun hs => absurd hs hsb
  | deintl i st =>
    refine fin (Part.opt fun a ha => ?_)
    obtain ⟨x, hx, rx⟩ := reg_get h ha
    by_cases hsb : singleBit a.nb = true
    · obtain ⟨m, hm⟩ := singleBit_iff hsb
      obtain ⟨f, hf, _⟩ := fold_lin (w := w) (deintlLevels st (2 ^ m)) fun l hl =>
        (levels_both (s := st) hwM h128 (hm ▸ rx.2.2) l hl).1
      exact Part.of_ok (Ok.imp (deintlK_ok hwM h128 rx hm (hf x)) fun c hc => ⟨_, .deintl hx (by rw [hm]; exact hf x), hc.1⟩)
    · exact Part.enforce fun hs => absurd hs hsb

/-- Along every boolean program, for every party count and all randomness: every register is a sharing of the
value plain bit operations give, that value fits in the declared bit count, and the count fits the word. -/
theorem c26_programs (hE : EnvOk E Inv) {M : ℕ} (hwM : w = 2 ^ M) (h128 : w ≤ 128) (ops : List (BOp w))
    (hops : ∀ op ∈ ops, BOp.Valid op) {s s' : σ} (hs : Inv s) {regs : List (BShr n w)}
    (hrun : runB E ops s = some (regs, s')) :
    Inv s' ∧ ∃ vals, BTrace ops vals ∧ List.Forall₂ (fun a p => BRep a p.1 ∧ a.nb = p.2) regs vals := by
  have key : Part Inv (runB E ops) (fun regs => ∃ vals, BTrace ops vals ∧ List.Forall₂ RegRep regs vals) := by
    clear hrun hs
    induction ops using List.reverseRecOn with
    | nil => exact Part.of_ok (Ok.pure ⟨[], .nil, .nil⟩)
    | append_singleton ops op ih =>
      unfold runB
      rw [List.foldlM_append]
      refine Part.bind (ih fun o ho => hops o (by simp [ho])) fun regs ⟨vals, ht, hr⟩ => ?_
      rw [List.foldlM_cons]
      refine Part.bind (exec_ok hE hwM h128 (hops op (by simp)) hr) fun regs' ⟨v, N, hv, hr'⟩ => ?_
      exact Part.of_ok (Ok.pure ⟨_, .snoc ht hv, hr'⟩)
  exact key s hs regs s' hrun

end

end Spu.Props
