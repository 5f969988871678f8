import Verif.Model.DoubleLogw
import Verif.Model.Mcmc

/-!
# The accept/reject decision of `pocomc/mcmc.py` in double precision

`tFactor`, `metropolisExponent` and `alpha` of `Model/Mcmc.lean` again, with every arithmetic operation followed by the rounding of the
machine.  Simplification: finite results do not overflow.  The squared distances `np.dot(diff, np.dot(inv_cov, diff))` are arguments.
-/

namespace Poco
open F

variable {d : ℕ} {B : Type}

/-- `A[k]`, `B[k]`: mcmc.py:128-129, 457-458 in double precision; `q` is the computed squared distance. -/
noncomputable def tFactorD (A : ArithLog) (d : ℕ) (nu q : F) : F :=
  A.round (A.round (-(A.round (F.ofNat d + nu)) / fin 2) * A.logF (A.round (fin 1 + A.round (q / nu))))

/-- The exponent of the Metropolis factor, mcmc.py:132, 294, 461, 609, in double precision and from left to right; `qp`, `qw` are the computed
squared distances of the proposal and of the walker from the centre. -/
noncomputable def metropolisExponentD (A : ArithLog) (e : McmcEnv d B) (qp qw : F) (w p : Walker d B) : F :=
  let a1 := A.round (A.round (p.logl * e.beta) - A.round (w.logl * e.beta))
  let a2 := A.round (a1 + p.logp)
  let a3 := A.round (a2 - w.logp)
  let a4 := A.round (a3 + p.logdetj)
  let base := A.round (a4 - w.logdetj)
  match e.kernel with
  | .ppcn =>
    let a6 := A.round (base + p.logdetjFlow)
    let a7 := A.round (a6 - w.logdetjFlow)
    let a8 := A.round (a7 - tFactorD A d e.tNu qp)
    A.round (a8 + tFactorD A d e.tNu qw)
  | .prwm =>
    let a6 := A.round (base + p.logdetjFlow)
    A.round (a6 - w.logdetjFlow)
  | .pcn =>
    let a8 := A.round (base - tFactorD A d e.tNu qp)
    A.round (a8 + tFactorD A d e.tNu qw)
  | .rwm => base

/-- mcmc.py:130-134, 292-296, 459-463, 607-611: the acceptance probability in double precision, NaN replaced by 0. -/
noncomputable def alphaD (A : ArithLog) (e : McmcEnv d B) (qp qw : F) (w p : Walker d B) : F :=
  let a := minimum (fin 1) (A.expF (metropolisExponentD A e qp qw w p))
  if a.isnan then fin 0 else a

end Poco
