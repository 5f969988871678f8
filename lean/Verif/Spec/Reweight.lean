import Verif.Spec.Mixture
import Verif.Spec.Weights

/-! Specification of the effective sizes the choice of the temperature is based on. -/

namespace Poco.Spec

/-- The importance weights of all stored particles at inverse temperature `β`. -/
noncomputable def weights (h : List Stage) (β : ℝ) : List ℝ := (allLogl h).map (weight h β)

/-- Closed form of the expected number of distinct indices among `k` draws (equal to `expectedDistinct`,
`Poco.expectedDistinct_eq`). -/
noncomputable def distinct (w : List ℝ) (k : ℕ) : ℝ := (w.map fun x => 1 - (1 - x / w.sum) ^ k).sum

/-- Kish ESS of all stored particles at `β`. -/
noncomputable def essAt (h : List Stage) (β : ℝ) : ℝ := ess (weights h β)

/-- Unique sample size of all stored particles at `β`: expected number of distinct particles in a sample as large as the
history. -/
noncomputable def ussAt (h : List Stage) (β : ℝ) : ℝ := distinct (weights h β) (allLogl h).length

end Poco.Spec
