import Verif.Model.Posterior

/-! Specification of C149: averages over resampled posterior samples. -/

namespace Poco.Spec

variable {d : ℕ} {B : Type}

/-- The rows `posterior` returned: sample, log-likelihood and log-prior. -/
def outRows (o : PostOut d B) : List (Pt d × F × F) := o.samples.zip (o.logl.zip o.logp)

/-- The plain average of `f` over the rows of an output, 0 if `posterior` raised. -/
noncomputable def meanOver (f : Pt d × F × F → ℝ) : Except PyErr (PostOut d B) → ℝ
  | .ok o => ((outRows o).map f).sum / (outRows o).length
  | .error _ => 0

/-- The value of `f` at row `k` of an output, 0 if there is none. -/
noncomputable def valueAt (k : ℕ) (f : Pt d × F × F → ℝ) : Except PyErr (PostOut d B) → ℝ
  | .ok o => (((outRows o)[k]?).map f).getD 0
  | .error _ => 0

/-- The average of `f` over rows with weights. -/
noncomputable def weightedMean (f : Pt d × F × F → ℝ) (rows : List (Pt d × F × F)) (ws : List ℝ) : ℝ :=
  (List.zipWith (fun r w => w * f r) rows ws).sum

end Poco.Spec
