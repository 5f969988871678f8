import Verif.Spec.Mcmc
import Verif.Spec.Scaler
import Mathlib.Probability.Distributions.Gaussian.Real
import Mathlib.Probability.Distributions.Gamma

/-! Specification vocabulary for detailed balance (C31, C32). -/

namespace Poco.Spec
open F MeasureTheory ProbabilityTheory
open scoped ENNReal

variable {d : ℕ} {B : Type}

/-- The law of `np.random.randn(d)`: independent standard normal numbers. -/
noncomputable def normals (d : ℕ) : Measure (Fin d → ℝ) := Measure.pi fun _ => gaussianReal 0 1

/-- The law of `np.random.rand()`. -/
noncomputable def uniform01 : Measure ℝ := volume.restrict (Set.Icc 0 1)

/-- Detailed balance of the step `θ ↦ next θ ω`, with `ω` drawn from `law θ`, for an unnormalised density: the mass going
from `A` to `B` is the mass going from `B` to `A` (this is Mathlib's `Kernel.IsReversible`, written out). -/
def DetailedBalance {Ω : Type} [MeasurableSpace Ω] (density : (Fin d → ℝ) → ℝ≥0∞) (law : (Fin d → ℝ) → Measure Ω)
    (next : (Fin d → ℝ) → Ω → Fin d → ℝ) : Prop :=
  ∀ A B : Set (Fin d → ℝ), MeasurableSet A → MeasurableSet B →
    ∫⁻ θ in A, density θ * law θ {ω | next θ ω ∈ B} = ∫⁻ θ in B, density θ * law θ {ω | next θ ω ∈ A}

/-- The step is a proper random step (a Markov kernel): its randomness has a probability law for every starting point, and
the probability of landing in a measurable set is a measurable function of the starting point. -/
def RandomStep {Ω : Type} [MeasurableSpace Ω] (law : (Fin d → ℝ) → Measure Ω) (next : (Fin d → ℝ) → Ω → Fin d → ℝ) : Prop :=
  (∀ θ, IsProbabilityMeasure (law θ)) ∧ (∀ θ, Measurable (next θ)) ∧
    ∀ C : Set (Fin d → ℝ), MeasurableSet C → Measurable fun θ => law θ {ω | next θ ω ∈ C}

/-- The point in `u`-space, and the flow's log-Jacobian, for a point of the space in which the kernel moves. -/
def latent (e : McmcEnv d B) (θ : Fin d → ℝ) : Pt d × F := if e.kernel.hasFlow then e.flowInv (pt θ) else (pt θ, fin 0)

/-- The walker stands at `θ`, and all its stored values are those of that point. -/
def StandsAt (e : McmcEnv d B) (ll lp : Pt d → F) (w : Walker d B) (θ : Fin d → ℝ) : Prop :=
  w.theta = pt θ ∧ (w.u, w.logdetjFlow) = latent e θ ∧ e.scaler.inverseRow w.u = .ok (w.x, w.logdetj) ∧
    w.logp = lp w.x ∧ w.logl = ll w.x

/-- `likelihood^b * prior * Jacobians` from the logarithms, zero unless all are real numbers. -/
noncomputable def temperedDensity (b : ℝ) : F → F → F → F → ℝ≥0∞
  | fin l, fin p, fin j, fin k => ENNReal.ofReal (Real.exp (b * l + p + j + k))
  | _, _, _, _ => 0

open Classical in
/-- The tempered posterior density at `θ`, in the space in which the kernel moves. -/
noncomputable def posteriorDensity (e : McmcEnv d B) (ll lp : Pt d → F) (b : ℝ) (θ : Fin d → ℝ) : ℝ≥0∞ :=
  match e.scaler.inverseRow (latent e θ).1 with
  | .ok (x, ld) => if ∀ j, ∃ r, x j = fin r then temperedDensity b (ll x) (lp x) ld (latent e θ).2 else 0
  | .error _ => 0

/-- Boundary conditions do not disturb the step: none are declared, or the scaler is a proper one and the flow maps
finite points to finite points. -/
def BoundaryMild (e : McmcEnv d B) : Prop :=
  (e.scaler.periodic = none ∧ e.scaler.reflective = none) ∨
    (e.scaler.Ok ∧ ∀ θ : Fin d → ℝ, ∃ u : Fin d → ℝ, (e.flowInv (pt θ)).1 = pt u)

end Poco.Spec
