import Verif.Spec.Config
import Verif.Lemmas.Mcmc
import Mathlib.Tactic.Linarith
import Mathlib.Tactic.Positivity

/-! The constructor: validation, defaults, pool argument (C63, C64, C76). -/

namespace Poco
open F Spec

/-! ### small facts -/

theorem truncInt_le {x : ℝ} (h : 0 ≤ x) : ((truncInt x : ℤ) : ℝ) ≤ x ∧ x < (truncInt x : ℝ) + 1 := by
  unfold truncInt
  rw [if_pos h]
  exact ⟨Int.floor_le x, Int.lt_floor_add_one x⟩

theorem truncInt_ge {x : ℝ} {n : ℤ} (h : (n : ℝ) ≤ x) (hn : 0 ≤ n) : n ≤ truncInt x := by
  unfold truncInt
  rw [if_pos (le_trans (by exact_mod_cast hn) h)]
  exact Int.le_floor.mpr h

theorem truncInt_nat (n : ℤ) (hn : 0 ≤ n) : truncInt (n : ℝ) = n := by
  unfold truncInt
  rw [if_pos (by exact_mod_cast hn), Int.floor_intCast]

theorem wantedEffective_eq (a : InitArgs) : (if a.nEss.isSome then a.nEss else a.nEffective) = wantedEffective a := by
  unfold wantedEffective
  cases a.nEss <;> simp

/-- What a successful construction went through. -/
theorem construct_ok {a : InitArgs} {c : Config} (h : construct a = .ok c) :
    initSizes a = .ok (c.nActive, c.nEffective) ∧ initPool a.pool = .ok c.distribute ∧
    (a.vectorize && a.haveBlobs) = false ∧ initFlow (dimension a) a.flow = .ok c.flow ∧
    initTrainFrequency c.nActive c.nEffective a.trainFrequency = .ok c.trainFrequency ∧
    initTransform a.transform = .ok c.transform ∧ initMetric a.metric = .ok c.metric ∧
    initDynamicRatio c.nActive c.nEffective = .ok c.dynamicRatio ∧ initSample a.sample = .ok c.sample ∧
    initScale (dimension a) = .ok c.proposalScale ∧ initResample a.resample = .ok c.resample ∧
    initPrior c.nActive c.nEffective a.nPrior = .ok c.nPrior ∧ c.nDim = dimension a ∧
    (a.nSteps = none → c.nSteps = (dimension a / 2 : ℕ)) ∧ (∀ n, a.nSteps = some n → c.nSteps = truncInt n) ∧
    (a.nMaxSteps = none → c.nMaxSteps = 10 * c.nSteps) ∧ (∀ n, a.nMaxSteps = some n → c.nMaxSteps = truncInt n) ∧
    c.batchSize = min (Int.fdiv c.nEffective 2) 512 ∧ c.patience = dimension a ∧ c.preconditioned = a.precondition ∧
    c.dynamic = a.dynamic ∧ c.vectorize = a.vectorize := by
  unfold construct at h
  obtain ⟨⟨n, e⟩, h1, h⟩ := bind_ok h
  obtain ⟨dist, h2, h⟩ := bind_ok h
  obtain ⟨⟨⟩, h3, h⟩ := bind_ok h
  obtain ⟨fl, h4, h⟩ := bind_ok h
  obtain ⟨tf, h5, h⟩ := bind_ok h
  obtain ⟨tr, h6, h⟩ := bind_ok h
  obtain ⟨me, h7, h⟩ := bind_ok h
  obtain ⟨dr, h8, h⟩ := bind_ok h
  obtain ⟨sa, h9, h⟩ := bind_ok h
  obtain ⟨sc, h10, h⟩ := bind_ok h
  obtain ⟨re, h11, h⟩ := bind_ok h
  obtain ⟨np, h12, h⟩ := bind_ok h
  simp only [pure, Except.pure, Except.ok.injEq] at h
  subst h
  refine ⟨h1, h2, ?_, h4, h5, h6, h7, h8, h9, h10, h11, h12, rfl, ?_, ?_, ?_, ?_, rfl, rfl, rfl, rfl, rfl⟩
  · cases hv : (a.vectorize && a.haveBlobs) with
    | false => rfl
    | true => unfold initVectorize at h3; rw [hv] at h3; cases h3
  · intro hs; simp only [hs]; rfl
  · intro n hs; simp only [hs]
  · intro hs; simp only [hs]
  · intro n hs; simp only [hs]

theorem initSizes_spec {a : InitArgs} (hs : Sensible a) (hne : ¬ (a.nActive = none ∧ wantedEffective a = none)) :
    ∃ n e, initSizes a = .ok (n, e) ∧ ActiveIs a n ∧ EffectiveIs a e ∧ 1 ≤ n ∧ 2 ≤ e := by
  unfold initSizes
  simp only [wantedEffective_eq]
  cases ha : a.nActive with
  | none =>
    cases he : wantedEffective a with
    | none => exact absurd ⟨ha, he⟩ hne
    | some e =>
      have h2 := hs.effective e he
      refine ⟨_, _, rfl, ⟨fun x hx => ?_, fun _ x hx => ?_⟩, ⟨fun x hx => ?_, fun hx => ?_⟩, ?_, ?_⟩
      · rw [ha] at hx; cases hx
      · rw [he] at hx; cases hx; exact truncInt_le (by linarith)
      · rw [he] at hx; cases hx; exact truncInt_le (by linarith)
      · rw [he] at hx; cases hx
      · exact truncInt_ge (by norm_num; linarith) (by norm_num)
      · exact truncInt_ge (by norm_num; linarith) (by norm_num)
  | some n =>
    have h1 := hs.active n ha
    cases he : wantedEffective a with
    | none =>
      refine ⟨_, _, rfl, ⟨fun x hx => ?_, fun hx => ?_⟩, ⟨fun x hx => ?_, fun _ x hx => ?_⟩, ?_, ?_⟩
      · rw [ha] at hx; cases hx; exact truncInt_le (by linarith)
      · rw [ha] at hx; cases hx
      · rw [he] at hx; cases hx
      · rw [ha] at hx; cases hx; exact truncInt_le (by linarith)
      · exact truncInt_ge (by norm_num; linarith) (by norm_num)
      · exact truncInt_ge (by norm_num; linarith) (by norm_num)
    | some e =>
      have h2 := hs.effective e he
      refine ⟨_, _, rfl, ⟨fun x hx => ?_, fun hx => ?_⟩, ⟨fun x hx => ?_, fun hx => ?_⟩, ?_, ?_⟩
      · rw [ha] at hx; cases hx; exact truncInt_le (by linarith)
      · rw [ha] at hx; cases hx
      · rw [he] at hx; cases hx; exact truncInt_le (by linarith)
      · rw [he] at hx; cases hx
      · exact truncInt_ge (by norm_num; linarith) (by norm_num)
      · exact truncInt_ge (by norm_num; linarith) (by norm_num)

theorem initFlow_spec (k : ℕ) (f : FlowArg) :
    (f = .zuko ∨ ∃ s ∈ ["maf3", "maf6", "maf12", "nsf3", "nsf6", "nsf12"], f = .name s) ∧ (∃ r, initFlow k f = .ok r) ∨
    ¬ (f = .zuko ∨ ∃ s ∈ ["maf3", "maf6", "maf12", "nsf3", "nsf6", "nsf12"], f = .name s) ∧
      initFlow k f = .error .valueError := by
  cases f with
  | zuko => exact Or.inl ⟨Or.inl rfl, _, rfl⟩
  | other => exact Or.inr ⟨by simp, rfl⟩
  | name s =>
    by_cases hm : s ∈ ["maf3", "maf6", "maf12", "nsf3", "nsf6", "nsf12"]
    · refine Or.inl ⟨Or.inr ⟨s, hm, rfl⟩, ?_⟩
      simp only [List.mem_cons, List.not_mem_nil, or_false] at hm
      rcases hm with rfl | rfl | rfl | rfl | rfl | rfl <;> exact ⟨_, rfl⟩
    · refine Or.inr ⟨by simpa using hm, ?_⟩
      simp only [List.mem_cons, List.not_mem_nil, or_false, not_or] at hm
      simp only [initFlow, hm, if_false]

theorem initTransform_spec (s : String) : s ∈ ["probit", "logit"] ∧ (∃ r, initTransform s = .ok r) ∨
    s ∉ ["probit", "logit"] ∧ initTransform s = .error .valueError := by
  unfold initTransform
  by_cases h1 : s = "probit" <;> by_cases h2 : s = "logit" <;> simp [h1, h2]

theorem initMetric_spec (s : String) : s ∈ ["ess", "uss"] ∧ (∃ r, initMetric s = .ok r) ∨
    s ∉ ["ess", "uss"] ∧ initMetric s = .error .valueError := by
  unfold initMetric
  by_cases h1 : s = "ess" <;> by_cases h2 : s = "uss" <;> simp [h1, h2]

theorem initSample_spec (s : String) : s ∈ ["tpcn", "rwm"] ∧ (∃ r, initSample s = .ok r) ∨
    s ∉ ["tpcn", "rwm"] ∧ initSample s = .error .valueError := by
  unfold initSample
  by_cases h1 : s = "tpcn" <;> by_cases h2 : s = "rwm" <;> simp [h1, h2]

theorem initResample_spec (s : String) : s ∈ ["mult", "syst"] ∧ (∃ r, initResample s = .ok r) ∨
    s ∉ ["mult", "syst"] ∧ initResample s = .error .valueError := by
  unfold initResample
  by_cases h1 : s = "mult" <;> by_cases h2 : s = "syst" <;> simp [h1, h2]

theorem initPool_spec (p : PoolArg) : PoolUsable p ∧ (∃ r, initPool p = .ok r) ∨
    ¬ PoolUsable p ∧ initPool p = .error .attributeError := by
  cases p with
  | none => exact Or.inl ⟨trivial, _, rfl⟩
  | int n =>
    by_cases h : 1 < n
    · exact Or.inl ⟨h, _, if_pos h⟩
    · exact Or.inr ⟨h, if_neg h⟩
  | object m => cases m with
    | false => exact Or.inr ⟨by simp [PoolUsable], rfl⟩
    | true => exact Or.inl ⟨rfl, _, rfl⟩

theorem pyFloorDiv_pos {a b : ℤ} (hb : 0 < b) : pyFloorDiv a b = .ok (a / b) := by
  unfold pyFloorDiv
  rw [if_neg hb.ne', Int.fdiv_eq_ediv_of_nonneg _ hb.le]

/-- Everything after the sizes and the pool either is as documented, or one of the forbidden arguments shows up. -/
theorem construct_cases (a : InitArgs) (n e : ℤ) (h1 : initSizes a = .ok (n, e)) (hn : 1 ≤ n) (he : 2 ≤ e) (hd : 0 < dimension a)
    (hp : PoolUsable a.pool) : ¬ Forbidden a ∧ (∃ c, construct a = .ok c) ∨
      Forbidden a ∧ construct a = .error .valueError := by
  obtain ⟨-, dist, hpool⟩ | ⟨hx, -⟩ := initPool_spec a.pool
  swap
  · exact absurd hp hx
  have hne : ¬ (a.nActive = none ∧ wantedEffective a = none) := by
    rintro ⟨g1, g2⟩
    unfold initSizes at h1
    simp only [wantedEffective_eq, g1, g2] at h1
    cases h1
  obtain ⟨tf, htf⟩ : ∃ tf, initTrainFrequency n e a.trainFrequency = .ok tf := by
    cases a.trainFrequency with
    | none => exact ⟨_, by unfold initTrainFrequency; rw [pyFloorDiv_pos (by omega)]; rfl⟩
    | some f => exact ⟨_, rfl⟩
  obtain ⟨dr, hdr⟩ : ∃ dr, initDynamicRatio n e = .ok dr := ⟨_, if_neg (by omega)⟩
  obtain ⟨sc, hsc⟩ : ∃ sc, initScale (dimension a) = .ok sc := ⟨_, if_neg (by omega)⟩
  obtain ⟨np, hnp⟩ : ∃ np, initPrior n e a.nPrior = .ok np := by
    cases a.nPrior with
    | none => exact ⟨_, by unfold initPrior; rw [pyFloorDiv_pos (by omega)]; rfl⟩
    | some f => exact ⟨_, if_neg (by omega)⟩
  unfold dimension at hsc
  unfold construct Forbidden
  simp only [h1, hpool, htf, hdr, hsc, hnp, bind, Except.bind, hne, false_or]
  by_cases hv : a.vectorize = true ∧ a.haveBlobs = true
  · refine Or.inr ⟨Or.inl hv, ?_⟩
    have : initVectorize a.vectorize a.haveBlobs = .error .valueError := by
      unfold initVectorize; rw [hv.1, hv.2]; rfl
    rw [this]
  have hv' : initVectorize a.vectorize a.haveBlobs = .ok () := by
    unfold initVectorize
    rw [if_neg]
    simpa using hv
  simp only [hv', hv, false_or]
  obtain ⟨g1, fl, hfl⟩ | ⟨g1, hfl⟩ := initFlow_spec (a.nDim.getD a.priorDim) a.flow
  swap
  · exact Or.inr ⟨Or.inr (Or.inr (Or.inr (Or.inr g1))), by rw [hfl]⟩
  obtain ⟨g2, tr, htr⟩ | ⟨g2, htr⟩ := initTransform_spec a.transform
  swap
  · exact Or.inr ⟨Or.inl g2, by rw [hfl, htr]⟩
  obtain ⟨g3, me, hme⟩ | ⟨g3, hme⟩ := initMetric_spec a.metric
  swap
  · exact Or.inr ⟨Or.inr (Or.inl g3), by rw [hfl, htr, hme]⟩
  obtain ⟨g4, sa, hsa⟩ | ⟨g4, hsa⟩ := initSample_spec a.sample
  swap
  · exact Or.inr ⟨Or.inr (Or.inr (Or.inl g4)), by rw [hfl, htr, hme, hsa]⟩
  obtain ⟨g5, re, hre⟩ | ⟨g5, hre⟩ := initResample_spec a.resample
  swap
  · exact Or.inr ⟨Or.inr (Or.inr (Or.inr (Or.inl g5))), by rw [hfl, htr, hme, hsa, hre]⟩
  refine Or.inl ⟨?_, _, by rw [hfl, htr, hme, hsa, hre]; rfl⟩
  rintro (h | h | h | h | h)
  · exact h g2
  · exact h g3
  · exact h g4
  · exact h g5
  · exact h g1

/-! ### C63 -/

/-- **C63**: with sizes that make sense and a usable pool, `Sampler(...)` raises ValueError exactly for the arguments the
documentation forbids, and otherwise succeeds. -/
theorem C63_validation (a : InitArgs) (hs : Sensible a) (hp : PoolUsable a.pool) :
    (construct a = .error .valueError ↔ Forbidden a) ∧ (¬ Forbidden a → ∃ c, construct a = .ok c) := by
  by_cases hne : a.nActive = none ∧ wantedEffective a = none
  · have hf : Forbidden a := Or.inl hne
    refine ⟨⟨fun _ => hf, fun _ => ?_⟩, fun h => absurd hf h⟩
    have : initSizes a = .error .valueError := by
      unfold initSizes
      simp only [wantedEffective_eq, hne.1, hne.2]
    unfold construct
    rw [this]
    rfl
  · obtain ⟨n, e, h1, -, -, h2, h3⟩ := initSizes_spec hs hne
    obtain ⟨hf, c, hc⟩ | ⟨hf, hc⟩ := construct_cases a n e h1 h2 h3 hs.dim hp
    · rw [hc]
      exact ⟨⟨(fun h => by cases h), fun h => absurd h hf⟩, fun _ => ⟨c, rfl⟩⟩
    · exact ⟨⟨fun _ => hf, fun _ => hc⟩, fun h => absurd hf h⟩

/-- Sizes of an accepted sampler. -/
theorem construct_sizes {a : InitArgs} (hs : Sensible a) {c : Config} (hc : construct a = .ok c) :
    ActiveIs a c.nActive ∧ EffectiveIs a c.nEffective ∧ 1 ≤ c.nActive ∧ 2 ≤ c.nEffective := by
  have h1 := (construct_ok hc).1
  have hne : ¬ (a.nActive = none ∧ wantedEffective a = none) := by
    rintro ⟨g1, g2⟩
    unfold initSizes at h1
    simp only [wantedEffective_eq, g1, g2] at h1
    cases h1
  obtain ⟨n, e, g1, g2⟩ := initSizes_spec hs hne
  rw [h1] at g1
  simp only [Except.ok.injEq, Prod.mk.injEq] at g1
  obtain ⟨rfl, rfl⟩ := g1
  exact g2

/-- **C63**, defaults.  Missing from the property: three defaults are not the documented ones, see
`C63_steps_undocumented` and `C63_frequency_undocumented`; here is what they are. -/
theorem C63_defaults_partial (a : InitArgs) (hs : Sensible a) (c : Config) (hc : construct a = .ok c) :
    c.nDim = dimension a ∧ ActiveIs a c.nActive ∧ EffectiveIs a c.nEffective ∧
    (a.nPrior = none → c.nPrior = 2 * max (c.nEffective / c.nActive) 1 * c.nActive) ∧
    (a.nSteps = none → c.nSteps = (dimension a / 2 : ℕ)) ∧
    (a.nMaxSteps = none → c.nMaxSteps = 10 * c.nSteps) ∧
    (a.trainFrequency = none → c.trainFrequency = max (c.nEffective / (2 * c.nActive)) 1) ∧
    (a.transform = "probit" → c.transform = .probit) ∧ (a.transform = "logit" → c.transform = .logit) ∧
    (a.metric = "ess" → c.metric = .ess) ∧ (a.metric = "uss" → c.metric = .uss) ∧
    (a.sample = "tpcn" → c.sample = .tpcn) ∧ (a.sample = "rwm" → c.sample = .rwm) ∧
    (a.resample = "mult" → c.resample = .mult) ∧ (a.resample = "syst" → c.resample = .syst) := by
  obtain ⟨s1, s2, s3, s4⟩ := construct_sizes hs hc
  obtain ⟨-, -, -, -, h5, h6, h7, -, h9, -, h11, h12, h13, h14, -, h16, -⟩ := construct_ok hc
  refine ⟨h13, s1, s2, ?_, h14, h16, ?_, ?_, ?_, ?_, ?_, ?_, ?_, ?_, ?_⟩
  · intro hn
    rw [hn] at h12
    unfold initPrior at h12
    rw [pyFloorDiv_pos (by omega)] at h12
    simp only [Except.map, Except.ok.injEq] at h12
    exact h12.symm
  · intro hn
    rw [hn] at h5
    unfold initTrainFrequency at h5
    rw [pyFloorDiv_pos (by omega)] at h5
    simp only [Except.map, Except.ok.injEq] at h5
    rw [← h5, mul_comm]
  all_goals
    intro hh
    simp only [hh] at h6 h7 h9 h11
    first
      | (simp only [initTransform] at h6; simpa using h6.symm)
      | (simp only [initMetric] at h7; simpa using h7.symm)
      | (simp only [initSample] at h9; simpa using h9.symm)
      | (simp only [initResample] at h11; simpa using h11.symm)

/-- The documentation says `n_steps=n_dim` and `n_max_steps=10*n_dim`; never so. -/
theorem C63_steps_undocumented (a : InitArgs) (c : Config) (hc : construct a = .ok c) (hn : a.nSteps = none) :
    c.nSteps ≠ c.nDim ∧ (a.nMaxSteps = none → c.nMaxSteps ≠ 10 * c.nDim) := by
  obtain ⟨-, -, -, -, -, -, -, -, -, h10, -, -, h13, h14, -, h16, -⟩ := construct_ok hc
  have hd : dimension a ≠ 0 := by
    intro h0
    unfold initScale at h10
    rw [if_pos h0] at h10
    cases h10
  have h1 := h14 hn
  rw [h1, h13]
  constructor
  · omega
  · intro hm
    rw [h16 hm, h1]
    omega

/-- The documentation says the flow is trained every `n_effective // n_active` iterations; not so whenever that number is
at least two (it is two for the default sizes). -/
theorem C63_frequency_undocumented (a : InitArgs) (hs : Sensible a) (c : Config) (hc : construct a = .ok c)
    (hn : a.trainFrequency = none) (h2 : 2 ≤ c.nEffective / c.nActive) : c.trainFrequency < c.nEffective / c.nActive := by
  obtain ⟨-, -, s3, s4⟩ := construct_sizes hs hc
  have h := (C63_defaults_partial a hs c hc).2.2.2.2.2.2.1 hn
  have e1 : c.nEffective / (2 * c.nActive) = c.nEffective / c.nActive / 2 := by
    rw [mul_comm, ← Int.ediv_ediv_of_nonneg (by omega)]
  rw [h, e1]
  generalize c.nEffective / c.nActive = q at h2 ⊢
  omega

/-- In one dimension the defaults are `n_steps = n_max_steps = 0`: every MCMC call makes exactly one step. -/
theorem C63_one_dimension (a : InitArgs) (c : Config) (hc : construct a = .ok c) (hd : dimension a = 1)
    (hn : a.nSteps = none) (hm : a.nMaxSteps = none) {d : ℕ} {B : Type} (e : McmcEnv d B) (he : e.nMax = c.nMaxSteps.toNat)
    (fuel : ℕ) (rnd : ℕ → ℕ → Draw d) (ws : List (Walker d B)) (r : McmcResult d B) (hr : mcmc e fuel rnd ws = .ok r) :
    r.steps = 1 := by
  obtain ⟨-, -, -, -, -, -, -, -, -, -, -, -, -, h14, -, h16, -⟩ := construct_ok hc
  have h0 : e.nMax = 0 := by
    rw [he, h16 hm, h14 hn, hd]
    rfl
  unfold mcmc mcmcLoop at hr
  cases hs : mcmcStep e fuel (rnd (0 + 1)) (0 + 1) (mcmcInit e ws) with
  | error x => rw [hs] at hr; cases hr
  | ok st' =>
    rw [hs] at hr
    simp only [h0, Nat.zero_le, if_true, ite_self] at hr
    simp only [Except.ok.injEq] at hr
    rw [← hr]

/-! ### C64 -/

/-- **C64**, as far as it is true: for arguments that are otherwise fine, exactly the usable pools are accepted. -/
theorem C64_pool_partial (a : InitArgs) (hs : Sensible a) (hf : ¬ Forbidden a) :
    (∃ c, construct a = .ok c) ↔ PoolUsable a.pool := by
  constructor
  · rintro ⟨c, hc⟩
    have := (construct_ok hc).2.1
    obtain ⟨g, -⟩ | ⟨-, g⟩ := initPool_spec a.pool
    · exact g
    · rw [g] at this; cases this
  · exact fun hp => (C63_validation a hs hp).2 hf

/-- **C64** is false: `pool=1` (or 0, or a negative number) is an AttributeError for otherwise valid arguments. -/
theorem C64_pool_one (a : InitArgs) (hs : Sensible a) (hf : ¬ Forbidden a) (n : ℤ) (hn : n ≤ 1) (hp : a.pool = .int n) :
    construct a = .error .attributeError := by
  have hne : ¬ (a.nActive = none ∧ wantedEffective a = none) := fun h => hf (Or.inl h)
  obtain ⟨n', e, h1, -⟩ := initSizes_spec hs hne
  have h2 : initPool a.pool = .error .attributeError := by
    rw [hp]
    exact if_neg (by omega)
  unfold construct
  rw [h1, h2]
  rfl

/-! ### C76 -/

/-- **C76**: whatever sensible arguments are accepted, the sampler is one the run theorems speak about: at least one active
particle, at least as many prior samples, a new history; with the default `n_prior` the batches cover the prior samples exactly. -/
theorem C76_ready (a : InitArgs) (hs : Sensible a) (c : Config) (hc : construct a = .ok c) (hp : ∀ n, a.nPrior = some n → 2 ≤ n)
    {d : ℕ} {B Φ : Type} (e : SamplerEnv d B Φ) (low high : Fin d → F) (hb : ProperBounds low high)
    (per ref : Option (List (Fin d))) (φ : Φ) :
    Configured (c.env e) ∧ Fresh (c.env e) a.haveBlobs (c.fresh a (low, high) per ref φ : Sampler d B Φ) ∧
    (a.nPrior = none → (c.env e).nActive ∣ (c.env e).nPrior) := by
  obtain ⟨-, -, s3, s4⟩ := construct_sizes hs hc
  obtain ⟨-, -, -, -, -, -, -, -, -, -, -, h12, -⟩ := construct_ok hc
  have hd := (C63_defaults_partial a hs c hc).2.2.2.1
  have key : c.nActive ≤ c.nPrior ∧ 2 ≤ c.nPrior := by
    cases hn : a.nPrior with
    | none =>
      rw [hd hn]
      have h1 : 1 ≤ max (c.nEffective / c.nActive) 1 := le_max_right _ _
      constructor <;> nlinarith
    | some x =>
      have hx := hp x hn
      rw [hn] at h12
      simp only [initPrior] at h12
      rw [if_neg (show ¬ c.nActive = 0 by omega)] at h12
      simp only [Except.ok.injEq] at h12
      have hpos : (0 : ℝ) < c.nActive := by exact_mod_cast (by omega : 0 < c.nActive)
      have h1 : (c.nActive : ℝ) ≤ max (x / c.nActive) 1 * c.nActive := by
        have : (1 : ℝ) ≤ max (x / c.nActive) 1 := le_max_right _ _
        nlinarith
      have h2 : ((2 : ℤ) : ℝ) ≤ max (x / c.nActive) 1 * c.nActive := by
        have : x / c.nActive ≤ max (x / c.nActive) 1 := le_max_left _ _
        have h3 : x / c.nActive * c.nActive ≤ max (x / c.nActive) 1 * c.nActive :=
          mul_le_mul_of_nonneg_right this hpos.le
        rw [div_mul_cancel₀ _ hpos.ne'] at h3
        push_cast
        linarith
      rw [← h12]
      exact ⟨truncInt_ge h1 (by omega), truncInt_ge h2 (by omega)⟩
  refine ⟨⟨?_, ?_, ?_⟩, ⟨rfl, rfl, rfl, rfl, rfl, rfl, rfl, rfl, rfl, rfl, hb, rfl, id⟩, fun hn => ?_⟩
  · show 0 < c.nActive.toNat
    omega
  · show c.nActive.toNat ≤ c.nPrior.toNat
    omega
  · show 1 < c.nPrior.toNat
    omega
  · show c.nActive.toNat ∣ c.nPrior.toNat
    have h1 : 1 ≤ max (c.nEffective / c.nActive) 1 := le_max_right _ _
    rw [hd hn]
    have : (0 : ℤ) ≤ 2 * max (c.nEffective / c.nActive) 1 * c.nActive := by positivity
    zify
    rw [Int.toNat_of_nonneg (by omega), Int.toNat_of_nonneg this]
    exact Dvd.intro_left _ rfl

/-! ### a concrete case -/

/-- `Sampler(prior, likelihood)` with everything left at its default, for a prior with `k` parameters. -/
def defaultArgs (k : ℕ) (pool : PoolArg) : InitArgs where
  priorDim := k
  nDim := none
  nEffective := some 512
  nActive := some 256
  nEss := none
  vectorize := false
  haveBlobs := false
  transform := "probit"
  pool := pool
  flow := .name "nsf6"
  trainFrequency := none
  precondition := true
  dynamic := true
  metric := "ess"
  nPrior := none
  sample := "tpcn"
  nSteps := none
  nMaxSteps := none
  resample := "mult"

theorem default_sensible (k : ℕ) (hk : 0 < k) (p : PoolArg) : Sensible (defaultArgs k p) where
  dim := hk
  active := by intro n h; simp only [defaultArgs, Option.some.injEq] at h; rw [← h]; norm_num
  effective := by
    intro e h
    simp only [defaultArgs, wantedEffective, Option.none_or, Option.some.injEq] at h
    rw [← h]; norm_num

theorem default_allowed (k : ℕ) (p : PoolArg) : ¬ Forbidden (defaultArgs k p) := by
  unfold Forbidden
  simp [defaultArgs]

/-- The default arguments are accepted (C63, C64, C76), with these settings. -/
example (k : ℕ) (hk : 0 < k) : ∃ c, construct (defaultArgs k .none) = .ok c ∧ c.nActive = 256 ∧ c.nEffective = 512 ∧
    c.nPrior = 1024 ∧ c.trainFrequency = 1 ∧ c.nSteps = (k / 2 : ℕ) := by
  obtain ⟨c, hc⟩ := (C63_validation _ (default_sensible k hk .none) trivial).2 (default_allowed k _)
  obtain ⟨h1, h2, h3, h4, h5, h6, h7, -⟩ := C63_defaults_partial _ (default_sensible k hk .none) c hc
  have e1 : c.nActive = 256 := by
    obtain ⟨a, b⟩ := h2.1 256 rfl
    have a' : c.nActive ≤ 256 := by exact_mod_cast a
    have b' : (256 : ℤ) < c.nActive + 1 := by exact_mod_cast b
    omega
  have e2 : c.nEffective = 512 := by
    obtain ⟨a, b⟩ := h3.1 512 rfl
    have a' : c.nEffective ≤ 512 := by exact_mod_cast a
    have b' : (512 : ℤ) < c.nEffective + 1 := by exact_mod_cast b
    omega
  refine ⟨c, hc, e1, e2, ?_, ?_, h5 rfl⟩
  · rw [h4 rfl, e1, e2]; rfl
  · rw [h7 rfl, e1, e2]; rfl

/-- `pool=1` is refused, and `pool=2` accepted (C64). -/
example : construct (defaultArgs 2 (.int 1)) = .error .attributeError ∧ ∃ c, construct (defaultArgs 2 (.int 2)) = .ok c :=
  ⟨C64_pool_one _ (default_sensible 2 (by norm_num) _) (default_allowed _ _) 1 le_rfl rfl,
    (C64_pool_partial _ (default_sensible 2 (by norm_num) _) (default_allowed _ _)).mpr (by simp [defaultArgs, PoolUsable])⟩

/-- A forbidden argument (C63): blobs with a vectorized likelihood. -/
example : construct { defaultArgs 2 .none with vectorize := true, haveBlobs := true } = .error .valueError :=
  (C63_validation { defaultArgs 2 .none with vectorize := true, haveBlobs := true }
    ⟨(default_sensible 2 (by norm_num) .none).1, (default_sensible 2 (by norm_num) .none).2,
      (default_sensible 2 (by norm_num) .none).3⟩ trivial).1.mpr (Or.inr (Or.inl ⟨rfl, rfl⟩))

end Poco
