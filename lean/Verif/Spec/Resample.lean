import Verif.Spec.Weights

/-! Specification vocabulary for resampling. -/

namespace Poco.Spec

/-- Total weight of the first `j` particles. -/
noncomputable def cum (w : List ℝ) (j : ℕ) : ℝ := (w.take j).sum

/-- Particle `j` is the one a point `p` of the unit interval falls on when the weights are laid end to end:
`p` is covered by the first `j+1` weights and by no fewer. -/
def FallsOn (w : List ℝ) (p : ℝ) (j : ℕ) : Prop :=
  j < w.length ∧ p ≤ cum w (j + 1) ∧ ∀ k < j, cum w (k + 1) < p

end Poco.Spec
