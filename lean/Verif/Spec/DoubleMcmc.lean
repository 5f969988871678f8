import Verif.Model.DoubleMcmc
import Verif.Spec.DoubleLogw

/-! Specification of C131: the exact acceptance probability. -/

namespace Poco.Spec
open F

/-- A point as the accept/reject decision sees it: log-likelihood, log-prior, log-Jacobians of the transformation and of the flow, and squared
distance from the centre of the proposal. -/
structure Judged where
  logl : ℝ
  logp : ℝ
  logdetj : ℝ
  logdetjFlow : ℝ
  q : ℝ

/-- The acceptance probability without rounding, in the kernel `k` at temperature `b`: the ratio of the tempered posterior densities, and for the
t-pCN kernels of the densities of the t distribution, if it is less than 1. -/
noncomputable def exactAlpha (k : Kern) (d : ℕ) (b nu : ℝ) (w p : Judged) : ℝ :=
  min 1 (Real.exp (b * (p.logl - w.logl) + (p.logp - w.logp) + (p.logdetj - w.logdetj)
    + (if k.hasFlow then p.logdetjFlow - w.logdetjFlow else 0)
    + (if k.isPcn then (d + nu) / 2 * (Real.log (1 + p.q / nu) - Real.log (1 + w.q / nu)) else 0)))

/-- All numbers are at most `M` in absolute value. -/
structure Judged.Bounded (w : Judged) (d : ℕ) (nu M : ℝ) : Prop where
  logl : |w.logl| ≤ M
  logp : |w.logp| ≤ M
  logdetj : |w.logdetj| ≤ M
  logdetjFlow : |w.logdetjFlow| ≤ M
  q : 0 ≤ w.q
  t : (d + nu) / 2 * Real.log (1 + w.q / nu) ≤ M

/-- The walker's stored numbers are those of `j`. -/
structure Carries {d : ℕ} {B : Type} (w : Walker d B) (j : Judged) : Prop where
  logl : w.logl = fin j.logl
  logp : w.logp = fin j.logp
  logdetj : w.logdetj = fin j.logdetj
  logdetjFlow : w.logdetjFlow = fin j.logdetjFlow

end Poco.Spec
