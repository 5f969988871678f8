import Mathlib.Data.Real.Basic
import Mathlib.Algebra.BigOperators.Group.List.Basic
import Mathlib.Data.Fintype.BigOperators

/-! Specifications about weights, in plain real arithmetic, independent of the model. -/

namespace Poco.Spec

/-- Kish's effective sample size `(Σ w)² / Σ w²`. -/
noncomputable def ess (w : List ℝ) : ℝ := w.sum ^ 2 / (w.map (· ^ 2)).sum

/-- A usable weight vector: non-negative entries with a positive sum. -/
def IsWeights (w : List ℝ) : Prop := (∀ x ∈ w, 0 ≤ x) ∧ 0 < w.sum

/-- Expected number of distinct indices among `k` independent draws from the distribution `p` on `Fin n`:
the sum over all outcomes of the probability of the outcome times the number of distinct indices in it. -/
noncomputable def expectedDistinct {n : ℕ} (p : Fin n → ℝ) (k : ℕ) : ℝ :=
  ∑ draws : Fin k → Fin n, (∏ i, p (draws i)) * ((Finset.univ.image draws).card : ℝ)

end Poco.Spec
