import Verif.Model.DoubleEvidence
import Verif.Spec.DoubleLogw
import Verif.Spec.Weights

/-! Specification of C154: the importance-sampling estimate of the evidence from draws of the flow. -/

namespace Poco.Spec
open F

/-- A draw of the flow inside the support of the prior: log-likelihood (possibly `-inf`), log-prior, log-Jacobian and log-density of the flow. -/
structure FlowDraw where
  logl : F
  logp : ℝ
  logdetj : ℝ
  logq : ℝ

/-- The importance weight `L π |J| / q` of a draw. -/
noncomputable def FlowDraw.weight (q : FlowDraw) : ℝ :=
  match q.logl with
  | fin l => Real.exp l * Real.exp q.logp * Real.exp q.logdetj / Real.exp q.logq
  | _ => 0

/-- No number exceeds `M` in absolute value, except that a log-likelihood may be `-inf`. -/
structure FlowDraw.Within (q : FlowDraw) (M : ℝ) : Prop where
  logl : q.logl = ninf ∨ ∃ l, q.logl = fin l ∧ |l| ≤ M
  logp : |q.logp| ≤ M
  logdetj : |q.logdetj| ≤ M
  logq : |q.logq| ≤ M

end Poco.Spec
