import Verif.Props.Config

/-! C105: sizes refused by the constructor. -/

namespace Poco
open F Spec

theorem sizes_given {a : InitArgs} {n e : ℤ} (ha : a.nActive = some (n : ℝ)) (he : wantedEffective a = some (e : ℝ)) : initSizes a = .ok (n, e) := by
  have ht : ∀ k : ℤ, truncInt (k : ℝ) = k := by
    intro k
    unfold truncInt
    split <;> simp
  unfold initSizes
  simp only [wantedEffective_eq, ha, he, ht]

/-- **C105**, partial: of the sizes given as integers, 0 active particles and a negative effective size are refused. Missing: negative numbers of active particles
and an effective size of 0, which are accepted, see `C105_not_always`. -/
theorem C105_refused_partial (a : InitArgs) (n e : ℤ) (ha : a.nActive = some (n : ℝ)) (he : wantedEffective a = some (e : ℝ)) (h : n = 0 ∨ e < 0) :
    ∃ x, construct a = .error x := by
  cases hc : construct a with
  | error x => exact ⟨x, rfl⟩
  | ok c =>
    exfalso
    obtain ⟨h1, -, -, -, -, -, -, h8, -, -, -, h12, -⟩ := construct_ok hc
    rw [sizes_given ha he] at h1
    simp only [Except.ok.injEq, Prod.mk.injEq] at h1
    rw [← h1.1, ← h1.2] at h8 h12
    rcases h with rfl | h
    · unfold initPrior at h12
      cases hp : a.nPrior with
      | none => rw [hp] at h12; simp [pyFloorDiv, Except.map] at h12
      | some k => rw [hp] at h12; simp at h12
    · unfold initDynamicRatio at h8
      rw [if_pos h] at h8
      cases h8

/-- **C105** is false: with otherwise valid arguments every other pair of integers is accepted and kept, so also a negative number of active particles and an
effective size of 0. -/
theorem C105_not_always (a : InitArgs) (n e : ℤ) (ha : a.nActive = some (n : ℝ)) (he : wantedEffective a = some (e : ℝ)) (hf : ¬ Forbidden a)
    (hp : PoolUsable a.pool) (hd : 0 < dimension a) (hn : n ≠ 0) (h0 : 0 ≤ e) :
    ∃ c, construct a = .ok c ∧ c.nActive = n ∧ c.nEffective = e := by
  have hs := sizes_given ha he
  obtain ⟨-, dist, hpool⟩ | ⟨hx, -⟩ := initPool_spec a.pool
  swap
  · exact absurd hp hx
  have hdiv : ∀ b : ℤ, b ≠ 0 → pyFloorDiv e b = .ok (Int.fdiv e b) := fun b hb => if_neg hb
  obtain ⟨tf, htf⟩ : ∃ tf, initTrainFrequency n e a.trainFrequency = .ok tf := by
    cases a.trainFrequency with
    | none => exact ⟨_, by unfold initTrainFrequency; rw [hdiv _ (by omega)]; rfl⟩
    | some f => exact ⟨_, rfl⟩
  obtain ⟨dr, hdr⟩ : ∃ dr, initDynamicRatio n e = .ok dr := ⟨_, if_neg (by omega)⟩
  obtain ⟨sc, hsc⟩ : ∃ sc, initScale (a.nDim.getD a.priorDim) = .ok sc := ⟨_, if_neg (by unfold dimension at hd; omega)⟩
  obtain ⟨np, hnp⟩ : ∃ np, initPrior n e a.nPrior = .ok np := by
    cases a.nPrior with
    | none => exact ⟨_, by unfold initPrior; rw [hdiv _ hn]; rfl⟩
    | some f => exact ⟨_, if_neg hn⟩
  unfold Forbidden at hf
  push Not at hf
  obtain ⟨-, f2, f3, f4, f5, f6, f7⟩ := hf
  have hv : initVectorize a.vectorize a.haveBlobs = .ok () := by
    unfold initVectorize
    rw [if_neg]
    simpa using f2
  obtain ⟨-, fl, hfl⟩ | ⟨g1, -⟩ := initFlow_spec (a.nDim.getD a.priorDim) a.flow
  swap
  · exact absurd f7 g1
  obtain ⟨-, tr, htr⟩ | ⟨g2, -⟩ := initTransform_spec a.transform
  swap
  · exact absurd f3 g2
  obtain ⟨-, me, hme⟩ | ⟨g3, -⟩ := initMetric_spec a.metric
  swap
  · exact absurd f4 g3
  obtain ⟨-, sa, hsa⟩ | ⟨g4, -⟩ := initSample_spec a.sample
  swap
  · exact absurd f5 g4
  obtain ⟨-, re, hre⟩ | ⟨g5, -⟩ := initResample_spec a.resample
  swap
  · exact absurd f6 g5
  refine ⟨_, by unfold construct; simp only [hs, hpool, hv, htf, hdr, hsc, hnp, hfl, htr, hme, hsa, hre, bind, Except.bind]; rfl, rfl, rfl⟩

/-- The hypotheses of both are met: -5 active particles and effective size 0 are accepted, 0 active particles are refused. -/
example : (∃ c, construct { defaultArgs 2 .none with nActive := some ((-5 : ℤ) : ℝ), nEffective := some ((0 : ℤ) : ℝ) } = .ok c ∧ c.nActive = -5 ∧ c.nEffective = 0) ∧
    ∃ x, construct { defaultArgs 2 .none with nActive := some ((0 : ℤ) : ℝ), nEffective := some ((512 : ℤ) : ℝ) } = .error x := by
  refine ⟨C105_not_always _ (-5) 0 rfl rfl ?_ trivial (by simp [dimension, defaultArgs]) (by norm_num) le_rfl, C105_refused_partial _ 0 512 rfl rfl (.inl rfl)⟩
  have := default_allowed 2 .none
  unfold Forbidden at this ⊢
  push Not at this ⊢
  exact ⟨(fun h => by cases h), this.2⟩

end Poco
