import Mathlib.MeasureTheory.Measure.MeasureSpace
import Mathlib.Analysis.SpecialFunctions.Exp

/-! Notions used to say how far the algorithm with trimmed weights is from the truth (C133). -/

namespace Poco.Spec
open MeasureTheory Filter Topology

/-- As `n` grows, `Y n`, a random quantity of the run with `n` particles, is in absolute value at most `c`, up to an error that vanishes
in probability. -/
def NearlyWithin {Ω : ℕ → Type*} [∀ n, MeasurableSpace (Ω n)] (P : ∀ n, Measure (Ω n)) (Y : ∀ n, Ω n → ℝ) (c : ℝ) : Prop :=
  ∀ ε > 0, Tendsto (fun n => P n {ω | c + ε ≤ |Y n ω|}) atTop (𝓝 0)

/-- `1 + (1 + 3 L) + … + (1 + 3 L) ^ (k - 1)` where `L = exp (4 M)`. -/
noncomputable def pileUp (M : ℝ) (k : ℕ) : ℝ := ∑ j ∈ Finset.range k, (1 + 3 * Real.exp (4 * M)) ^ j

end Poco.Spec
