import Verif.Model.Mcmc

/-! Specification of C144: the adaptation of the step size. -/

namespace Poco.Spec

/-- The weight of step `i` (1, 2, …) in the adaptation of the step size: `(i+1)^(-3/4)` for t-pCN, `1/(i+1)` for the random
walks. -/
noncomputable def gain (k : Kern) (i : ℕ) : ℝ := if k.isPcn then 1 / ((i : ℝ) + 1) ^ (0.75 : ℝ) else 1 / ((i : ℝ) + 1)

/-- The largest step size t-pCN should use. -/
noncomputable def largestScale (d : ℕ) : ℝ := min (2.38 / Real.sqrt d) 0.99

/-- Step sizes a kernel can be started with: any for the preconditioned random walk, non-negative for the others, and for t-pCN
not far above the largest one. -/
noncomputable def UsualScale (k : Kern) (d : ℕ) (s : ℝ) : Prop :=
  match k with
  | .prwm => True
  | .rwm => 0 ≤ s
  | _ => 0 ≤ s ∧ s ≤ 2.38 / Real.sqrt d + 0.45

end Poco.Spec
