import Verif.Model.Sampler
import Mathlib.MeasureTheory.Integral.Lebesgue.Basic

/-! Specification of C145: the evidence of a likelihood that is zero in part of the prior. -/

namespace Poco.Spec
open F MeasureTheory
open scoped ENNReal

/-- The likelihood whose logarithm is given: `exp`, 0 for `-inf`, ∞ otherwise. -/
noncomputable def likelihood : F → ℝ≥0∞
  | fin r => ENNReal.ofReal (Real.exp r)
  | ninf => 0
  | _ => ∞

/-- The evidence: the integral of the likelihood over the prior. -/
noncomputable def trueEvidence {α : Type*} [MeasurableSpace α] (π : Measure α) (ll : α → F) : ℝ≥0∞ := ∫⁻ x, likelihood (ll x) ∂π

/-- The likelihood to the power `β`, 0 where the logarithm is infinite. -/
noncomputable def power (β : ℝ) : F → ℝ
  | fin l => Real.exp (l * β)
  | _ => 0

/-- The log-likelihoods that are not infinite. -/
def nonzero (l : List F) : List F := l.filter fun v => !v.isinf

end Poco.Spec
