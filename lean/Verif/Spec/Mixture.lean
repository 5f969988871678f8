import Mathlib.Analysis.SpecialFunctions.Log.Basic
import Mathlib.Algebra.BigOperators.Group.List.Basic

/-! Specification of multiple importance sampling with the mixture of all tempered posteriors visited so far. -/

namespace Poco.Spec

/-- One stored iteration: inverse temperature, log-evidence at that temperature, log-likelihoods of its particles. -/
structure Stage where
  beta : ℝ
  logz : ℝ
  logl : List ℝ

/-- Density of the mixture at likelihood `L = exp l`: the average over the iterations of `L^β_t / Z_t`. -/
noncomputable def mixture (h : List Stage) (l : ℝ) : ℝ :=
  (h.map fun s => Real.exp (l * s.beta) / Real.exp s.logz).sum / h.length

/-- Unnormalised importance weight `L^β / mixture(L)`. -/
noncomputable def weight (h : List Stage) (β l : ℝ) : ℝ := Real.exp (l * β) / mixture h l

/-- All stored log-likelihoods, in storage order. -/
def allLogl (h : List Stage) : List ℝ := h.flatMap (·.logl)

/-- Sum of all unnormalised weights. -/
noncomputable def totalWeight (h : List Stage) (β : ℝ) : ℝ := ((allLogl h).map (weight h β)).sum

/-- A history the sampler can build: at least one iteration, all with the same positive number of particles. -/
def Rect (h : List Stage) (n : ℕ) : Prop := h ≠ [] ∧ 0 < n ∧ ∀ s ∈ h, s.logl.length = n

end Poco.Spec
