import Verif.Model.Scaler
import Mathlib.MeasureTheory.Integral.IntegralEqImproper
import Mathlib.Analysis.Calculus.MeanValue
import Mathlib.Topology.Order.IntermediateValue
import Mathlib.Analysis.Calculus.Deriv.MeanValue

/-! The error function and its inverse. -/

namespace Poco
open MeasureTheory Filter Topology

theorem continuous_gauss : Continuous fun t : ℝ => Real.exp (-t ^ 2) := by fun_prop

theorem hasDerivAt_erfR (x : ℝ) : HasDerivAt erfR (2 / Real.sqrt Real.pi * Real.exp (-x ^ 2)) x := by
  have := (continuous_gauss.integral_hasStrictDerivAt 0 x).hasDerivAt
  exact this.const_mul _

theorem two_div_sqrt_pi_pos : 0 < 2 / Real.sqrt Real.pi :=
  div_pos two_pos (Real.sqrt_pos.mpr Real.pi_pos)

theorem erfR_strictMono : StrictMono erfR := by
  apply strictMono_of_deriv_pos
  intro x
  rw [(hasDerivAt_erfR x).deriv]
  exact mul_pos two_div_sqrt_pi_pos (Real.exp_pos _)

theorem erfR_continuous : Continuous erfR :=
  continuous_iff_continuousAt.mpr fun x => (hasDerivAt_erfR x).continuousAt

theorem erfR_neg (x : ℝ) : erfR (-x) = -erfR x := by
  unfold erfR
  have := intervalIntegral.integral_comp_neg (a := 0) (b := x) (fun t => Real.exp (-t ^ 2))
  simp only [neg_zero, neg_sq] at this
  rw [intervalIntegral.integral_symm, ← this]
  ring

theorem erfR_tendsto_atTop : Tendsto erfR atTop (𝓝 1) := by
  have hint : IntegrableOn (fun t : ℝ => Real.exp (-t ^ 2)) (Set.Ioi 0) := by
    have := (integrable_exp_neg_mul_sq (b := 1) one_pos).integrableOn (s := Set.Ioi 0)
    simpa using this
  have h1 := intervalIntegral_tendsto_integral_Ioi 0 hint tendsto_id
  have h2 : ∫ t in Set.Ioi (0 : ℝ), Real.exp (-t ^ 2) = Real.sqrt Real.pi / 2 := by
    have := integral_gaussian_Ioi 1
    simpa using this
  rw [h2] at h1
  have h3 := h1.const_mul (2 / Real.sqrt Real.pi)
  have h4 : 2 / Real.sqrt Real.pi * (Real.sqrt Real.pi / 2) = 1 := by
    have : Real.sqrt Real.pi ≠ 0 := (Real.sqrt_pos.mpr Real.pi_pos).ne'
    field_simp
  rw [h4] at h3
  exact h3

theorem erfR_tendsto_atBot : Tendsto erfR atBot (𝓝 (-1)) := by
  have h := (erfR_tendsto_atTop.comp tendsto_neg_atBot_atTop).neg
  refine h.congr ?_
  intro x
  simp [erfR_neg]

theorem erfR_lt_one (x : ℝ) : erfR x < 1 := by
  have h1 : erfR x < erfR (x + 1) := erfR_strictMono (by linarith)
  have h2 : erfR (x + 1) ≤ 1 := by
    apply ge_of_tendsto erfR_tendsto_atTop
    filter_upwards [eventually_ge_atTop (x + 1)] with y hy
    exact erfR_strictMono.monotone hy
  linarith

theorem neg_one_lt_erfR (x : ℝ) : -1 < erfR x := by
  have := erfR_lt_one (-x)
  rw [erfR_neg] at this; linarith

theorem erfR_surj {y : ℝ} (h1 : -1 < y) (h2 : y < 1) : ∃ x, erfR x = y := by
  obtain ⟨a, ha⟩ := (erfR_tendsto_atBot.eventually (gt_mem_nhds h1)).exists
  obtain ⟨b, hb⟩ := (erfR_tendsto_atTop.eventually (lt_mem_nhds h2)).exists
  have := mem_range_of_exists_le_of_exists_ge erfR_continuous ⟨a, ha.le⟩ ⟨b, hb.le⟩
  exact this

theorem erfinvR_erfR (x : ℝ) : erfinvR (erfR x) = x :=
  Function.leftInverse_invFun erfR_strictMono.injective x

theorem erfR_erfinvR {y : ℝ} (h1 : -1 < y) (h2 : y < 1) : erfR (erfinvR y) = y :=
  Function.invFun_eq (erfR_surj h1 h2)

end Poco
