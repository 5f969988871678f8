import Mathlib.Probability.Distributions.Gaussian.Real
import Mathlib.MeasureTheory.Measure.Lebesgue.EqHaar
import Mathlib.MeasureTheory.Integral.Pi
import Mathlib.MeasureTheory.Measure.WithDensity

/-! Measure theory behind detailed balance: Metropolis steps whose proposal is a measure-preserving involution. -/

namespace Poco
open MeasureTheory ProbabilityTheory
open scoped ENNReal

/-- A linear involution preserves Lebesgue measure. -/
theorem involution_preserving {V : Type*} [NormedAddCommGroup V] [NormedSpace ℝ V] [MeasurableSpace V] [BorelSpace V]
    [FiniteDimensional ℝ V] (μ : Measure V) [μ.IsAddHaarMeasure] (S : V →ₗ[ℝ] V) (hS : ∀ q, S (S q) = q) :
    MeasurePreserving S μ μ := by
  have h1 : LinearMap.det S * LinearMap.det S = 1 := by
    rw [← LinearMap.det_comp]
    have : S ∘ₗ S = LinearMap.id := LinearMap.ext hS
    rw [this, LinearMap.det_id]
  have h2 : |LinearMap.det S| = 1 := by
    rcases mul_self_eq_one_iff.mp h1 with h | h <;> rw [h] <;> simp
  have h3 : LinearMap.det S ≠ 0 := by
    intro h
    rw [h] at h1
    simp at h1
  refine ⟨(LinearMap.continuous_of_finiteDimensional S).measurable, ?_⟩
  rw [Measure.map_linearMap_addHaar_eq_smul_addHaar μ h3, abs_inv, h2]
  simp

/-- The same for an involution around another centre. -/
theorem involution_preserving_at {V : Type*} [NormedAddCommGroup V] [NormedSpace ℝ V] [MeasurableSpace V] [BorelSpace V]
    [FiniteDimensional ℝ V] (μ : Measure V) [μ.IsAddHaarMeasure] (S : V →ₗ[ℝ] V) (hS : ∀ q, S (S q) = q) (c : V) :
    MeasurePreserving (fun q => S (q - c) + c) μ μ :=
  (measurePreserving_add_right μ c).comp ((involution_preserving μ S hS).comp (measurePreserving_sub_right μ c))

/-- Density of independent standard normal numbers. -/
noncomputable def normalsPdf {d : ℕ} (z : Fin d → ℝ) : ℝ≥0∞ := ∏ i, gaussianPDF 0 1 (z i)

theorem normalsPdf_eq {d : ℕ} (z : Fin d → ℝ) :
    normalsPdf z = ENNReal.ofReal ((Real.sqrt (2 * Real.pi))⁻¹ ^ d * Real.exp (-(∑ i, z i ^ 2) / 2)) := by
  unfold normalsPdf
  simp only [gaussianPDF_def]
  rw [← ENNReal.ofReal_prod_of_nonneg (fun i _ => gaussianPDFReal_nonneg _ _ _)]
  congr 1
  simp only [gaussianPDFReal_def, sub_zero, NNReal.coe_one, mul_one]
  rw [Finset.prod_mul_distrib, Finset.prod_const, Finset.card_univ, Fintype.card_fin, ← Real.exp_sum,
    ← Finset.sum_div, Finset.sum_neg_distrib]

theorem measurable_normalsPdf {d : ℕ} : Measurable (normalsPdf (d := d)) :=
  Finset.measurable_fun_prod _ fun i _ => (measurable_gaussianPDF 0 1).comp (measurable_pi_apply i)

theorem normals_density (d : ℕ) :
    (Measure.pi fun _ : Fin d => gaussianReal 0 1) = volume.withDensity (normalsPdf (d := d)) := by
  apply Measure.pi_eq
  intro s hs
  have hbox : MeasurableSet (Set.univ.pi s) := MeasurableSet.univ_pi hs
  have hreal : ∀ i, (gaussianReal 0 1) (s i) = ENNReal.ofReal (∫ x, (s i).indicator (gaussianPDFReal 0 1) x) := by
    intro i
    rw [gaussianReal_of_var_ne_zero _ one_ne_zero, withDensity_apply _ (hs i), gaussianPDF_def,
      integral_indicator (hs i), ofReal_integral_eq_lintegral_ofReal]
    · exact (integrable_gaussianPDFReal 0 1).integrableOn
    · exact ae_of_all _ fun x => gaussianPDFReal_nonneg _ _ _
  have hnn : ∀ i x, 0 ≤ (s i).indicator (gaussianPDFReal 0 1) x := fun i x =>
    Set.indicator_nonneg (fun y _ => gaussianPDFReal_nonneg _ _ _) x
  rw [withDensity_apply _ hbox, ← lintegral_indicator hbox]
  simp only [hreal]
  rw [← ENNReal.ofReal_prod_of_nonneg (fun i _ => integral_nonneg (hnn i)),
    ← integral_fintype_prod_volume_eq_prod (fun i x => (s i).indicator (gaussianPDFReal 0 1) x),
    ofReal_integral_eq_lintegral_ofReal]
  · apply lintegral_congr
    intro z
    by_cases hz : z ∈ Set.univ.pi s
    · rw [Set.indicator_of_mem hz]
      unfold normalsPdf
      simp only [gaussianPDF_def]
      rw [← ENNReal.ofReal_prod_of_nonneg (fun i _ => gaussianPDFReal_nonneg _ _ _)]
      congr 1
      apply Finset.prod_congr rfl
      intro i _
      rw [Set.indicator_of_mem (hz i (Set.mem_univ i))]
    · rw [Set.indicator_of_notMem hz]
      simp only [Set.mem_univ_pi, not_forall] at hz
      obtain ⟨i, hi⟩ := hz
      rw [Finset.prod_eq_zero (Finset.mem_univ i) (Set.indicator_of_notMem hi _)]
      simp
  · exact Integrable.fintype_prod (f := fun i x => (s i).indicator (gaussianPDFReal 0 1) x)
      fun i => (integrable_gaussianPDFReal 0 1).indicator (hs i)
  · exact ae_of_all _ fun z => Finset.prod_nonneg fun i _ => hnn i _

/-- Mass moved by a Metropolis step whose proposal is a measure-preserving involution of (point, randomness): the same in
both directions. -/
theorem metropolis_flux {E Ω : Type*} [MeasurableSpace E] [MeasurableSpace Ω] (κ : Measure E) [SFinite κ]
    (ζ : Measure Ω) [SFinite ζ] (T : E × Ω → E × Ω) (hT : MeasurePreserving T (κ.prod ζ) (κ.prod ζ))
    (J a : E × Ω → ℝ≥0∞) (hJ : Measurable J) (ha : Measurable a)
    (hae : ∀ᵐ q ∂(κ.prod ζ), (T (T q)).1 = q.1 ∧ J (T q) * a (T q) = J q * a q) {A B : Set E}
    (hA : MeasurableSet A) (hB : MeasurableSet B) :
    ∫⁻ θ in A, ∫⁻ ω, J (θ, ω) * (a (θ, ω) * B.indicator 1 (T (θ, ω)).1 + (1 - a (θ, ω)) * B.indicator 1 θ) ∂ζ ∂κ =
    ∫⁻ θ in B, ∫⁻ ω, J (θ, ω) * (a (θ, ω) * A.indicator 1 (T (θ, ω)).1 + (1 - a (θ, ω)) * A.indicator 1 θ) ∂ζ ∂κ := by
  have hT1 : Measurable fun q => (T q).1 := hT.measurable.fst
  have hind : ∀ {C : Set E}, MeasurableSet C → Measurable (C.indicator (1 : E → ℝ≥0∞)) := fun hC =>
    measurable_one.indicator hC
  have split : ∀ {C D : Set E}, MeasurableSet C → MeasurableSet D →
      ∫⁻ θ in C, ∫⁻ ω, J (θ, ω) * (a (θ, ω) * D.indicator 1 (T (θ, ω)).1 + (1 - a (θ, ω)) * D.indicator 1 θ) ∂ζ ∂κ =
      ∫⁻ q, C.indicator 1 q.1 * D.indicator 1 (T q).1 * (J q * a q) ∂(κ.prod ζ) +
      ∫⁻ q, C.indicator 1 q.1 * D.indicator 1 q.1 * (J q * (1 - a q)) ∂(κ.prod ζ) := by
    intro C D hC hD
    have m1 : Measurable fun q : E × Ω => C.indicator (1 : E → ℝ≥0∞) q.1 := (hind hC).comp measurable_fst
    have m2 : Measurable fun q : E × Ω => D.indicator (1 : E → ℝ≥0∞) q.1 := (hind hD).comp measurable_fst
    have m3 : Measurable fun q : E × Ω => D.indicator (1 : E → ℝ≥0∞) (T q).1 := (hind hD).comp hT1
    have m4 : Measurable fun q : E × Ω => 1 - a q := measurable_const.sub ha
    have n1 : Measurable fun q : E × Ω => C.indicator (1 : E → ℝ≥0∞) q.1 * D.indicator 1 (T q).1 * (J q * a q) :=
      (m1.mul m3).mul (hJ.mul ha)
    have n2 : Measurable fun q : E × Ω => C.indicator (1 : E → ℝ≥0∞) q.1 * D.indicator 1 q.1 * (J q * (1 - a q)) :=
      (m1.mul m2).mul (hJ.mul m4)
    have n3 : Measurable fun q : E × Ω => C.indicator (1 : E → ℝ≥0∞) q.1 * D.indicator 1 (T q).1 * (J q * a q) +
      C.indicator (1 : E → ℝ≥0∞) q.1 * D.indicator 1 q.1 * (J q * (1 - a q)) := n1.add n2
    rw [← lintegral_add_left n1, lintegral_prod _ n3.aemeasurable, ← lintegral_indicator hC]
    apply lintegral_congr
    intro θ
    by_cases hθ : θ ∈ C
    · rw [Set.indicator_of_mem hθ]
      apply lintegral_congr
      intro ω
      simp only [Set.indicator_of_mem hθ, Pi.one_apply, one_mul]
      ring
    · rw [Set.indicator_of_notMem hθ]
      simp [Set.indicator_of_notMem hθ]
  rw [split hA hB, split hB hA]
  congr 1
  · have m1 : Measurable fun q : E × Ω => A.indicator (1 : E → ℝ≥0∞) q.1 := (hind hA).comp measurable_fst
    have m3 : Measurable fun q : E × Ω => B.indicator (1 : E → ℝ≥0∞) (T q).1 := (hind hB).comp hT1
    have n1 : Measurable fun q : E × Ω => A.indicator (1 : E → ℝ≥0∞) q.1 * B.indicator 1 (T q).1 * (J q * a q) :=
      (m1.mul m3).mul (hJ.mul ha)
    rw [← hT.lintegral_comp n1]
    apply lintegral_congr_ae
    filter_upwards [hae] with q hq
    rw [hq.1, hq.2, mul_comm (A.indicator 1 (T q).1)]
  · apply lintegral_congr
    intro q
    rw [mul_comm (A.indicator 1 q.1)]

/-- Accepting with probability `c` by comparing a uniform number with `c`. -/
theorem accept_prob {E : Type*} (c : ℝ≥0∞) (hc : c ≤ 1) (x y : E) (B : Set E) :
    (volume.restrict (Set.Icc (0 : ℝ) 1)) {r | (if ENNReal.ofReal r < c then y else x) ∈ B} =
      c * B.indicator 1 y + (1 - c) * B.indicator 1 x := by
  have hcf : c ≠ ⊤ := (hc.trans_lt ENNReal.one_lt_top).ne
  have c0 : 0 ≤ c.toReal := ENNReal.toReal_nonneg
  have c1 : c.toReal ≤ 1 := by
    have := ENNReal.toReal_mono ENNReal.one_ne_top hc
    simpa using this
  have hlt : ∀ r : ℝ, 0 ≤ r → (ENNReal.ofReal r < c ↔ r < c.toReal) := fun r hr => by
    rw [ENNReal.ofReal_lt_iff_lt_toReal hr hcf]
  have v1 : volume (Set.Ico (0 : ℝ) c.toReal) = c := by
    rw [Real.volume_Ico, sub_zero, ENNReal.ofReal_toReal hcf]
  have v2 : volume (Set.Icc c.toReal 1) = 1 - c := by
    rw [Real.volume_Icc, ENNReal.ofReal_sub _ c0, ENNReal.ofReal_one, ENNReal.ofReal_toReal hcf]
  rw [Measure.restrict_apply' measurableSet_Icc]
  by_cases hx : x ∈ B <;> by_cases hy : y ∈ B
  · have : {r : ℝ | (if ENNReal.ofReal r < c then y else x) ∈ B} ∩ Set.Icc 0 1 = Set.Icc 0 1 := by
      ext r
      simp only [Set.mem_inter_iff, Set.mem_setOf_eq, and_iff_right_iff_imp]
      intro _
      split <;> assumption
    rw [this, Real.volume_Icc]
    simp only [Set.indicator_of_mem hx, Set.indicator_of_mem hy, Pi.one_apply, mul_one, sub_zero, ENNReal.ofReal_one]
    rw [add_tsub_cancel_of_le hc]
  · have : {r : ℝ | (if ENNReal.ofReal r < c then y else x) ∈ B} ∩ Set.Icc 0 1 = Set.Icc c.toReal 1 := by
      ext r
      simp only [Set.mem_inter_iff, Set.mem_setOf_eq, Set.mem_Icc]
      constructor
      · rintro ⟨h, h0, h1⟩
        refine ⟨?_, h1⟩
        by_contra hh
        rw [if_pos ((hlt r h0).mpr (not_le.mp hh))] at h
        exact hy h
      · rintro ⟨h, h1⟩
        have h0 := c0.trans h
        refine ⟨?_, h0, h1⟩
        rw [if_neg (by rw [hlt r h0]; exact not_lt.mpr h)]
        exact hx
    rw [this, v2]
    simp [Set.indicator_of_mem hx, Set.indicator_of_notMem hy]
  · have : {r : ℝ | (if ENNReal.ofReal r < c then y else x) ∈ B} ∩ Set.Icc 0 1 = Set.Ico 0 c.toReal := by
      ext r
      simp only [Set.mem_inter_iff, Set.mem_setOf_eq, Set.mem_Icc, Set.mem_Ico]
      constructor
      · rintro ⟨h, h0, h1⟩
        refine ⟨h0, ?_⟩
        by_contra hh
        rw [if_neg (by rw [hlt r h0]; exact hh)] at h
        exact hx h
      · rintro ⟨h0, h⟩
        refine ⟨?_, h0, h.le.trans c1⟩
        rw [if_pos ((hlt r h0).mpr h)]
        exact hy
    rw [this, v1]
    simp [Set.indicator_of_mem hy, Set.indicator_of_notMem hx]
  · have : {r : ℝ | (if ENNReal.ofReal r < c then y else x) ∈ B} ∩ Set.Icc 0 1 = ∅ := by
      ext r
      simp only [Set.mem_inter_iff, Set.mem_setOf_eq, Set.mem_empty_iff_false, iff_false, not_and]
      intro h
      split at h <;> contradiction
    rw [this]
    simp [Set.indicator_of_notMem hx, Set.indicator_of_notMem hy]

end Poco
