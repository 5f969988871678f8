import Verif.Model.Particles

/-! Specification of C147: the evidence lies between the extremes of the likelihood. -/

namespace Poco.Spec
open F

variable {d : ℕ} {B : Type}

/-- Every stored log-likelihood is between `m` and `M`. -/
def LoglWithin (past : Cols d B List) (m M : ℝ) : Prop := ∀ l ∈ past.logl.flatten, fin m ≤ l ∧ l ≤ fin M

/-- The log-evidence recorded with an iteration at inverse temperature `β` is between `β * m` and `β * M`. -/
def EvidenceWithin (past : Cols d B List) (m M : ℝ) : Prop :=
  ∀ β z : ℝ, (fin β, fin z) ∈ past.beta.zip past.logz → β * m ≤ z ∧ z ≤ β * M

end Poco.Spec
