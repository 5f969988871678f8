import Verif.Spec.Balance

/-! Specification vocabulary for what one MCMC step does to the distribution of the whole ensemble (C111). -/

namespace Poco.Spec
open F MeasureTheory ProbabilityTheory
open scoped ENNReal

variable {d N : ℕ} {B : Type}

/-- The ensemble consists of `N` walkers, the `k`-th standing at `Θ k`. -/
def Standing (e : McmcEnv d B) (ll lp : Pt d → F) (ws : List (Walker d B)) (Θ : Fin N → Fin d → ℝ) : Prop :=
  ws.length = N ∧ ∀ k : Fin N, ∃ w, ws[(k : ℕ)]? = some w ∧ StandsAt e ll lp w (Θ k)

/-- Density of `N` independent points that have the given density each. -/
noncomputable def independently (density : (Fin d → ℝ) → ℝ≥0∞) (Θ : Fin N → Fin d → ℝ) : ℝ≥0∞ := ∏ k, density (Θ k)

/-- The random step `Θ ↦ next Θ ω` of the ensemble, with `ω` drawn from `law Θ`, leaves the (unnormalised) density as it is:
started from it, the probability of every set of ensembles after the step is what it was before the step. -/
def Preserved {Ω : Type} [MeasurableSpace Ω] (density : (Fin N → Fin d → ℝ) → ℝ≥0∞)
    (law : (Fin N → Fin d → ℝ) → Measure Ω) (next : (Fin N → Fin d → ℝ) → Ω → Fin N → Fin d → ℝ) : Prop :=
  ∀ C : Set (Fin N → Fin d → ℝ), MeasurableSet C →
    ∫⁻ Θ, density Θ * law Θ {ω | next Θ ω ∈ C} = ∫⁻ Θ in C, density Θ

end Poco.Spec
