import Verif.Model.Config
import Mathlib.Tactic.Common
import Mathlib.Tactic.SplitIfs

set_option autoImplicit false

/-! # C40 and C49: configuration defaults and configuration serialisation -/

namespace Spu.Props
open Spu.Model.Config

/-! ## The result, field by field -/

theorem setConcurrency_eq (n : ℤ) (cfg : Conf) : setConcurrency n cfg =
    { cfg with maxConcurrency := if cfg.maxConcurrency = 0 then n else cfg.maxConcurrency } := by
  cases cfg; unfold setConcurrency; dsimp only; split_ifs <;> simp_all

theorem setDivIters_eq (cfg : Conf) : setDivIters cfg =
    { cfg with fxpDivGoldschmidtIters := if cfg.fxpDivGoldschmidtIters = 0 then 2 else cfg.fxpDivGoldschmidtIters } := by
  cases cfg; unfold setDivIters; dsimp only; split_ifs <;> simp_all

theorem setSort_eq (cfg : Conf) : setSort cfg =
    { cfg with quickSortThreshold := if cfg.quickSortThreshold = 0 then 32 else cfg.quickSortThreshold } := by
  cases cfg; unfold setSort; dsimp only; split_ifs <;> simp_all

theorem setExpMode_eq (cfg : Conf) : setExpMode cfg =
    { cfg with fxpExpMode := if cfg.fxpExpMode = expDefault then expTaylor else cfg.fxpExpMode } := by
  cases cfg; unfold setExpMode; dsimp only; split_ifs <;> simp_all

theorem setExpOffset_eq (cfg : Conf) : setExpOffset cfg =
    { cfg with experimentalExpPrimeOffset := if cfg.fxpExpMode = expPrime ∧ cfg.experimentalExpPrimeOffset = 0 ∧ cfg.field = fm128 then 13 else cfg.experimentalExpPrimeOffset } := by
  cases cfg; unfold setExpOffset; dsimp only; split_ifs <;> simp_all

theorem setExpIters_eq (cfg : Conf) : setExpIters cfg =
    { cfg with fxpExpIters := if cfg.fxpExpIters = 0 then 8 else cfg.fxpExpIters } := by
  cases cfg; unfold setExpIters; dsimp only; split_ifs <;> simp_all

theorem setLogMode_eq (cfg : Conf) : setLogMode cfg =
    { cfg with fxpLogMode := if cfg.fxpLogMode = logDefault then logMinmax else cfg.fxpLogMode } := by
  cases cfg; unfold setLogMode; dsimp only; split_ifs <;> simp_all

theorem setLogIters_eq (cfg : Conf) : setLogIters cfg =
    { cfg with fxpLogIters := if cfg.fxpLogIters = 0 then 3 else cfg.fxpLogIters } := by
  cases cfg; unfold setLogIters; dsimp only; split_ifs <;> simp_all

theorem setLogOrders_eq (cfg : Conf) : setLogOrders cfg =
    { cfg with fxpLogOrders := if cfg.fxpLogOrders = 0 then 8 else cfg.fxpLogOrders } := by
  cases cfg; unfold setLogOrders; dsimp only; split_ifs <;> simp_all

theorem setSine_eq (cfg : Conf) : setSine cfg =
    { cfg with sineCosineIters := if cfg.sineCosineIters = 0 then 10 else cfg.sineCosineIters } := by
  cases cfg; unfold setSine; dsimp only; split_ifs <;> simp_all

theorem setInterOp_eq (cfg : Conf) : setInterOp cfg =
    { cfg with experimentalInterOpConcurrency := if cfg.experimentalEnableInterOpPar = true ∧ cfg.experimentalInterOpConcurrency = 0 then 8 else cfg.experimentalInterOpConcurrency } := by
  cases cfg; unfold setInterOp; dsimp only; split_ifs <;> simp_all

theorem setSigmoid_eq (cfg : Conf) : setSigmoid cfg =
    { cfg with sigmoidMode := if cfg.sigmoidMode = sigmoidDefault then sigmoidReal else cfg.sigmoidMode } := by
  cases cfg; unfold setSigmoid; dsimp only; split_ifs <;> simp_all

/-- the values written for unset fields (`core/config.cc:43-117`) -/
def Filled (n : ℤ) (cfg cfg' : Conf) : Prop :=
  cfg' = { cfg with
      maxConcurrency := if cfg.maxConcurrency = 0 then n else cfg.maxConcurrency
      fxpFractionBits := cfg'.fxpFractionBits
      fxpDivGoldschmidtIters := if cfg.fxpDivGoldschmidtIters = 0 then 2 else cfg.fxpDivGoldschmidtIters
      quickSortThreshold := if cfg.quickSortThreshold = 0 then 32 else cfg.quickSortThreshold
      fxpExpMode := if cfg.fxpExpMode = expDefault then expTaylor else cfg.fxpExpMode
      experimentalExpPrimeOffset := if cfg.fxpExpMode = expPrime ∧ cfg.experimentalExpPrimeOffset = 0 ∧ cfg.field = fm128
        then 13 else cfg.experimentalExpPrimeOffset
      fxpExpIters := if cfg.fxpExpIters = 0 then 8 else cfg.fxpExpIters
      fxpLogMode := if cfg.fxpLogMode = logDefault then logMinmax else cfg.fxpLogMode
      fxpLogIters := if cfg.fxpLogIters = 0 then 3 else cfg.fxpLogIters
      fxpLogOrders := if cfg.fxpLogOrders = 0 then 8 else cfg.fxpLogOrders
      sineCosineIters := if cfg.sineCosineIters = 0 then 10 else cfg.sineCosineIters
      experimentalInterOpConcurrency := if cfg.experimentalEnableInterOpPar = true ∧ cfg.experimentalInterOpConcurrency = 0
        then 8 else cfg.experimentalInterOpConcurrency
      sigmoidMode := if cfg.sigmoidMode = sigmoidDefault then sigmoidReal else cfg.sigmoidMode }

theorem expMode_ne (cfg : Conf) : ((if cfg.fxpExpMode = expDefault then expTaylor else cfg.fxpExpMode) = expPrime) ↔
    cfg.fxpExpMode = expPrime := by
  split_ifs with h
  · rw [h]; decide
  · rfl

theorem setFxpBits_some (cfg c : Conf) (h : setFxpBits cfg = some c) :
    c = { cfg with fxpFractionBits := c.fxpFractionBits } ∧
    (if cfg.fxpFractionBits = 0 then defaultFxpBits cfg.field else some cfg.fxpFractionBits) = some c.fxpFractionBits := by
  unfold setFxpBits at h
  split_ifs at h ⊢ with h0
  · cases hd : defaultFxpBits cfg.field with
    | none => rw [hd] at h; simp at h
    | some b => rw [hd] at h; simp at h; subst h; exact ⟨rfl, rfl⟩
  · cases h; exact ⟨rfl, rfl⟩

theorem populate_filled (n : ℤ) (cfg cfg' : Conf) (h : populate n cfg = some cfg') :
    cfg.protocol ≠ protInvalid ∧ cfg.field ≠ ftInvalid ∧
    (if cfg.fxpFractionBits = 0 then defaultFxpBits cfg.field else some cfg.fxpFractionBits) = some cfg'.fxpFractionBits ∧
    Filled n cfg cfg' := by
  unfold populate at h
  split_ifs at h with h1 h2
  obtain ⟨c, hc, he⟩ := Option.map_eq_some_iff.1 h
  obtain ⟨e1, e2⟩ := setFxpBits_some _ _ hc
  rw [setConcurrency_eq] at e1 e2
  simp only at e1 e2
  have : cfg'.fxpFractionBits = c.fxpFractionBits := by
    rw [← he]
    simp only [setSigmoid_eq, setInterOp_eq, setSine_eq, setLogOrders_eq, setLogIters_eq, setLogMode_eq, setExpIters_eq,
      setExpOffset_eq, setExpMode_eq, setSort_eq, setDivIters_eq]
  refine ⟨h1, h2, by rw [this]; exact e2, ?_⟩
  unfold Filled
  rw [this]
  rw [← he]
  simp only [setSigmoid_eq, setInterOp_eq, setSine_eq, setLogOrders_eq, setLogIters_eq, setLogMode_eq, setExpIters_eq,
      setExpOffset_eq, setExpMode_eq, setSort_eq, setDivIters_eq]
  rw [e1]
  simp only [expMode_ne]

theorem fxpBits_isSome (n : ℤ) (cfg : Conf) (h1 : cfg.protocol ≠ protInvalid) (h2 : cfg.field ≠ ftInvalid)
    (h3 : cfg.fxpFractionBits = 0 → (defaultFxpBits cfg.field).isSome) : (populate n cfg).isSome := by
  unfold populate
  rw [if_neg h1, if_neg h2, Option.isSome_map, setConcurrency_eq]
  unfold setFxpBits
  simp only
  by_cases h0 : cfg.fxpFractionBits = 0
  · rw [if_pos h0, Option.isSome_map]; exact h3 h0
  · rw [if_neg h0]; rfl

/-! ## C40 -/

/-- C40: defaulting fails exactly for an invalid protocol, an invalid field, or an unknown field without fraction bits. -/
theorem c40_total (n : ℤ) (cfg : Conf) : (populate n cfg).isSome ↔
    cfg.protocol ≠ 0 ∧ cfg.field ≠ 0 ∧ (cfg.fxpFractionBits ≠ 0 ∨ cfg.field = 1 ∨ cfg.field = 2 ∨ cfg.field = 3) := by
  constructor
  · intro h
    obtain ⟨c, hc⟩ := Option.isSome_iff_exists.1 h
    obtain ⟨h1, h2, h3, _⟩ := populate_filled n cfg c hc
    refine ⟨h1, h2, ?_⟩
    by_cases h0 : cfg.fxpFractionBits = 0
    · rw [if_pos h0] at h3
      unfold defaultFxpBits at h3
      split_ifs at h3 with a b d
      · exact Or.inr (Or.inl a)
      · exact Or.inr (Or.inr (Or.inl b))
      · exact Or.inr (Or.inr (Or.inr d))
    · exact Or.inl h0
  · rintro ⟨h1, h2, h3⟩
    refine fxpBits_isSome n cfg h1 h2 fun h0 => ?_
    rcases h3 with h3 | h3 | h3 | h3
    · exact absurd h0 h3
    all_goals rw [h3]; decide

/-- C40: a field set by the user keeps its value. -/
theorem c40_keeps (n : ℤ) (cfg cfg' : Conf) (h : populate n cfg = some cfg') :
    (cfg.maxConcurrency ≠ 0 → cfg'.maxConcurrency = cfg.maxConcurrency) ∧
    (cfg.fxpFractionBits ≠ 0 → cfg'.fxpFractionBits = cfg.fxpFractionBits) ∧
    (cfg.fxpDivGoldschmidtIters ≠ 0 → cfg'.fxpDivGoldschmidtIters = cfg.fxpDivGoldschmidtIters) ∧
    (cfg.quickSortThreshold ≠ 0 → cfg'.quickSortThreshold = cfg.quickSortThreshold) ∧
    (cfg.fxpExpMode ≠ 0 → cfg'.fxpExpMode = cfg.fxpExpMode) ∧
    (cfg.experimentalExpPrimeOffset ≠ 0 → cfg'.experimentalExpPrimeOffset = cfg.experimentalExpPrimeOffset) ∧
    (cfg.fxpExpIters ≠ 0 → cfg'.fxpExpIters = cfg.fxpExpIters) ∧
    (cfg.fxpLogMode ≠ 0 → cfg'.fxpLogMode = cfg.fxpLogMode) ∧
    (cfg.fxpLogIters ≠ 0 → cfg'.fxpLogIters = cfg.fxpLogIters) ∧
    (cfg.fxpLogOrders ≠ 0 → cfg'.fxpLogOrders = cfg.fxpLogOrders) ∧
    (cfg.sineCosineIters ≠ 0 → cfg'.sineCosineIters = cfg.sineCosineIters) ∧
    (cfg.experimentalInterOpConcurrency ≠ 0 → cfg'.experimentalInterOpConcurrency = cfg.experimentalInterOpConcurrency) ∧
    (cfg.sigmoidMode ≠ 0 → cfg'.sigmoidMode = cfg.sigmoidMode) := by
  obtain ⟨_, _, h3, h4⟩ := populate_filled n cfg cfg' h
  have hb : cfg.fxpFractionBits ≠ 0 → cfg'.fxpFractionBits = cfg.fxpFractionBits := fun h0 => by
    rw [if_neg h0] at h3; injection h3 with h3; exact h3.symm
  unfold Filled at h4
  generalize cfg'.fxpFractionBits = b at h4 hb
  subst h4
  refine ⟨?_, hb, ?_, ?_, ?_, ?_, ?_, ?_, ?_, ?_, ?_, ?_, ?_⟩ <;>
  · intro h0
    simp [h0, expDefault, logDefault, sigmoidDefault]

/-- C40: fields without a default are copied. -/
theorem c40_others (n : ℤ) (cfg cfg' : Conf) (h : populate n cfg = some cfg') :
    cfg' = { cfg with
      maxConcurrency := cfg'.maxConcurrency, fxpFractionBits := cfg'.fxpFractionBits
      fxpDivGoldschmidtIters := cfg'.fxpDivGoldschmidtIters, quickSortThreshold := cfg'.quickSortThreshold
      fxpExpMode := cfg'.fxpExpMode, experimentalExpPrimeOffset := cfg'.experimentalExpPrimeOffset
      fxpExpIters := cfg'.fxpExpIters, fxpLogMode := cfg'.fxpLogMode, fxpLogIters := cfg'.fxpLogIters
      fxpLogOrders := cfg'.fxpLogOrders, sineCosineIters := cfg'.sineCosineIters
      experimentalInterOpConcurrency := cfg'.experimentalInterOpConcurrency, sigmoidMode := cfg'.sigmoidMode } := by
  obtain ⟨_, _, _, h4⟩ := populate_filled n cfg cfg' h
  unfold Filled at h4
  generalize cfg'.fxpFractionBits = b at h4
  subst h4
  rfl

/-- C40: afterwards every derived field is set; the number of operations in parallel if that mode is on, and the offset of
    the prime-field exponential for the only ring that has a default. -/
theorem c40_complete (n : ℤ) (hn : n ≠ 0) (cfg cfg' : Conf) (h : populate n cfg = some cfg') :
    cfg'.maxConcurrency ≠ 0 ∧ cfg'.fxpFractionBits ≠ 0 ∧ cfg'.fxpDivGoldschmidtIters ≠ 0 ∧ cfg'.quickSortThreshold ≠ 0 ∧
    cfg'.fxpExpMode ≠ 0 ∧ cfg'.fxpExpIters ≠ 0 ∧ cfg'.fxpLogMode ≠ 0 ∧ cfg'.fxpLogIters ≠ 0 ∧ cfg'.fxpLogOrders ≠ 0 ∧
    cfg'.sineCosineIters ≠ 0 ∧ cfg'.sigmoidMode ≠ 0 ∧
    (cfg'.experimentalEnableInterOpPar = true → cfg'.experimentalInterOpConcurrency ≠ 0) ∧
    (cfg'.fxpExpMode = expPrime → cfg'.field = fm128 → cfg'.experimentalExpPrimeOffset ≠ 0) := by
  obtain ⟨_, _, h3, h4⟩ := populate_filled n cfg cfg' h
  have hb : cfg'.fxpFractionBits ≠ 0 := by
    intro h0
    rw [h0] at h3
    by_cases hz : cfg.fxpFractionBits = 0
    · rw [if_pos hz] at h3
      unfold defaultFxpBits at h3
      split_ifs at h3 <;> simp at h3
    · rw [if_neg hz] at h3; injection h3 with h3; exact hz h3
  unfold Filled at h4
  generalize cfg'.fxpFractionBits = b at h4 hb
  subst h4
  refine ⟨?_, hb, ?_, ?_, ?_, ?_, ?_, ?_, ?_, ?_, ?_, ?_, ?_⟩
  case refine_11 =>
    intro hp
    simp only at hp ⊢
    split_ifs with hc
    · omega
    · exact fun h0 => hc ⟨hp, h0⟩
  case refine_12 =>
    intro hp hf
    simp only [expMode_ne] at hp hf ⊢
    split_ifs with hc
    · omega
    · exact fun h0 => hc ⟨hp, h0, hf⟩
  all_goals
    simp only
    split_ifs with hc
    first
    | exact hn
    | decide
    · exact hc

/-- C40: defaulting twice is defaulting once, even if the number of threads changed in between. -/
theorem c40_idempotent (n m : ℤ) (hn : n ≠ 0) (cfg cfg' : Conf) (h : populate n cfg = some cfg') :
    populate m cfg' = some cfg' := by
  obtain ⟨h1, h2, h3, h4⟩ := populate_filled n cfg cfg' h
  have hc := c40_complete n hn cfg cfg' h
  have hp : cfg'.protocol = cfg.protocol := by rw [c40_others n cfg cfg' h]
  have hf : cfg'.field = cfg.field := by rw [c40_others n cfg cfg' h]
  have hs : (populate m cfg').isSome :=
    fxpBits_isSome m cfg' (by rw [hp]; exact h1) (by rw [hf]; exact h2) (fun h0 => absurd h0 hc.2.1)
  obtain ⟨c, hcs⟩ := Option.isSome_iff_exists.1 hs
  have hk := c40_keeps m cfg' c hcs
  have ho := c40_others m cfg' c hcs
  obtain ⟨k1, k2, k3, k4, k5, k6, k7, k8, k9, k10, k11, k12, k13⟩ := hk
  obtain ⟨c1, c2, c3, c4, c5, c6, c7, c8, c9, c10, c11, c12, c13⟩ := hc
  have e6 : c.experimentalExpPrimeOffset = cfg'.experimentalExpPrimeOffset := by
    have := (populate_filled m cfg' c hcs).2.2.2
    unfold Filled at this
    rw [this]
    simp only
    rw [if_neg]
    exact fun ⟨a, b, d⟩ => c13 a d b
  have e12 : c.experimentalInterOpConcurrency = cfg'.experimentalInterOpConcurrency := by
    have := (populate_filled m cfg' c hcs).2.2.2
    unfold Filled at this
    rw [this]
    simp only
    rw [if_neg]
    exact fun ⟨a, b⟩ => c12 a b
  rw [hcs, ho, k1 c1, k2 c2, k3 c3, k4 c4, k5 c5, e6, k7 c6, k8 c7, k9 c8, k10 c9, k11 c10, e12, k13 c11]

/-- C40 finding: with the prime-field exponential in a ring other than FM128 the offset stays 0, which the code calls
    unsupported. -/
theorem c40_offset_unset (n : ℤ) (cfg cfg' : Conf) (h : populate n cfg = some cfg') (hf : cfg.field ≠ fm128) :
    cfg'.experimentalExpPrimeOffset = cfg.experimentalExpPrimeOffset := by
  have := (populate_filled n cfg cfg' h).2.2.2
  unfold Filled at this
  rw [this]
  simp only
  rw [if_neg]
  exact fun ⟨_, _, d⟩ => hf d

/-! ## C49 -/

/-- C49: a configuration survives serialisation; the cheetah options only under the cheetah protocol. -/
theorem c49_roundtrip (cfg : Conf) :
    fromPb (toPb cfg) {} = { cfg with cheetah2pcConfig := if cfg.protocol = protCheetah then cfg.cheetah2pcConfig else {} } := by
  unfold fromPb toPb
  simp only
  split_ifs <;> cases cfg.ttpBeaverConfig <;> rfl

/-- C49: reading a message that was itself produced by the writer and writing it again gives the same message. -/
theorem c49_stable (cfg : Conf) : toPb (fromPb (toPb cfg) {}) = toPb cfg := by
  rw [c49_roundtrip]
  unfold toPb
  simp only
  split_ifs <;> rfl

/-- C49 finding: reading into an object that already has a third-party configuration keeps the old one when the message
    has none. -/
theorem c49_stale_ttp (dst : Conf) (pb : Pb) (h : pb.ttpBeaverConfig = none) :
    (fromPb pb dst).ttpBeaverConfig = dst.ttpBeaverConfig := by
  unfold fromPb
  simp only [h]

/-- C49: defaulting a message in which nothing but protocol and ring is set gives the configuration obtained by defaulting
    a default-constructed object, apart from the chunk size and the unused number of parallel operations. -/
theorem c49_defaults (n : ℤ) (p f : ℤ) (c1 c2 : Conf) (h1 : populate n (fromPb { protocol := p, field := f } {}) = some c1)
    (h2 : populate n { protocol := p, field := f } = some c2) :
    c1 = { c2 with shareMaxChunkSize := 0, experimentalInterOpConcurrency := 0 } := by
  obtain ⟨_, _, a3, a4⟩ := populate_filled n _ c1 h1
  obtain ⟨_, _, b3, b4⟩ := populate_filled n _ c2 h2
  have hb : c1.fxpFractionBits = c2.fxpFractionBits := by
    have : some c1.fxpFractionBits = some c2.fxpFractionBits := by rw [← a3, ← b3]; rfl
    injection this
  unfold Filled at a4 b4
  rw [a4, b4, hb]
  rfl

/-! ## Examples -/

example : ∃ c, populate 8 { protocol := 2, field := 2, fxpExpMode := 1 } = some c ∧ c.fxpFractionBits = 18 ∧ c.fxpExpMode = 1 ∧
    c.maxConcurrency = 8 := ⟨_, rfl, rfl, rfl, rfl⟩
/-- the prime-field exponential in FM64 keeps offset 0 -/
example : ∃ c, populate 8 { protocol := 2, field := 2, fxpExpMode := 3 } = some c ∧ c.experimentalExpPrimeOffset = 0 := ⟨_, rfl, rfl⟩
/-- cheetah options under another protocol are dropped -/
example : fromPb (toPb { protocol := 2, field := 2, cheetah2pcConfig := { otKind := 2 } }) {} ≠
    { protocol := 2, field := 2, cheetah2pcConfig := { otKind := 2 } } := by decide

end Spu.Props
