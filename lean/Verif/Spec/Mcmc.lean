import Verif.Model.Mcmc

/-! Specification vocabulary for the MCMC kernels. -/

namespace Poco.Spec
open F

variable {d : ℕ} {B : Type}

/-- A point a walker may stand on after moving: finite coordinates, Jacobian and prior; a log-likelihood that is a number
above `-inf`. -/
def Admissible (w : Walker d B) : Prop :=
  (∀ j, ∃ r, w.x j = fin r) ∧ (∃ r, w.logdetj = fin r) ∧ (∃ r, w.logp = fin r) ∧ w.logl ≠ nan ∧ w.logl ≠ ninf

/-- The stored values belong to the stored point: `x` and the Jacobian term are those of `u`, log-prior, log-likelihood
and blob are those of `x`. -/
def Belongs (s : Scaler d) (ll lp : Pt d → F) (bb : Pt d → B) (haveBlobs : Bool) (w : Walker d B) : Prop :=
  s.inverseRow w.u = .ok (w.x, w.logdetj) ∧ w.logp = lp w.x ∧ w.logl = ll w.x ∧
    (haveBlobs = true → w.blob = some (bb w.x))

/-- Uniform random numbers in [0, 1). -/
def Uniform (rnd : ℕ → ℕ → Draw d) : Prop := ∀ i k, ∃ r : ℝ, (rnd i k).rand = fin r ∧ 0 ≤ r ∧ r < 1

/-- The same walker apart from the two internal columns of the flow. -/
def SameParticle (w v : Walker d B) : Prop :=
  w.u = v.u ∧ w.x = v.x ∧ w.logdetj = v.logdetj ∧ w.logl = v.logl ∧ w.logp = v.logp ∧ w.blob = v.blob

end Poco.Spec
