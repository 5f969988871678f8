import Verif.Spec.Balance

/-! Specification vocabulary for repeated MCMC steps (C130). -/

namespace Poco.Spec
open F MeasureTheory ProbabilityTheory
open scoped ENNReal

variable {d : ℕ} {Ω : Type} [MeasurableSpace Ω]

/-- From every point of positive density, one step lands with positive probability in every set of positive posterior mass. -/
def Reaches (density : (Fin d → ℝ) → ℝ≥0∞) (law : (Fin d → ℝ) → Measure Ω) (next : (Fin d → ℝ) → Ω → Fin d → ℝ) : Prop :=
  ∀ θ, density θ ≠ 0 → ∀ C, MeasurableSet C → ∫⁻ θ' in C, density θ' ≠ 0 → law θ {ω | next θ ω ∈ C} ≠ 0

/-- `μ n` is the distribution of the walker after `n` steps. -/
def Evolves (law : (Fin d → ℝ) → Measure Ω) (next : (Fin d → ℝ) → Ω → Fin d → ℝ) (μ : ℕ → Measure (Fin d → ℝ)) : Prop :=
  ∀ n C, MeasurableSet C → μ (n + 1) C = ∫⁻ θ, law θ {ω | next θ ω ∈ C} ∂(μ n)

/-- Whatever distribution the walker starts from (on the points of positive density), after enough steps the probability of every set
is its posterior probability up to `ε`, for all sets at once (convergence in total variation). -/
def Converges (density : (Fin d → ℝ) → ℝ≥0∞) (law : (Fin d → ℝ) → Measure Ω) (next : (Fin d → ℝ) → Ω → Fin d → ℝ) : Prop :=
  ∀ μ : ℕ → Measure (Fin d → ℝ), IsProbabilityMeasure (μ 0) → μ 0 {θ | density θ = 0} = 0 → Evolves law next μ →
    ∀ ε : ℝ, 0 < ε → ∃ N, ∀ n ≥ N, ∀ C, MeasurableSet C →
      |(μ n C).toReal - (∫⁻ θ in C, density θ).toReal / (∫⁻ θ, density θ).toReal| ≤ ε

end Poco.Spec
