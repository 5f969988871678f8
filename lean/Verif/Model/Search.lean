import Verif.Model.Sampler

/-! The temperature search of `_reweight` with the temperature held in a floating-point number. -/

namespace Poco
open F

variable {d : ℕ} {B : Type}

/-- A rounding of real numbers, applied to the finite floats. -/
noncomputable def F.rounded (r : ℝ → ℝ) : F → F
  | fin x => fin (r x)
  | v => v

/-- sampler.py:765-777, as `bisect`, with the sum and the product of `beta = (beta_max + beta_min) * 0.5` rounded by `r`. The sizes
are computed exactly (simplification). `diverged` when the fuel runs out. -/
noncomputable def bisectR (r : ℝ → ℝ) (past : Cols d (List B) List) (m : Metric) (nEff : F) : ℕ → F → F → Except PyErr (F × F)
  | 0, _, _ => .error .diverged
  | n + 1, betaMin, betaMax =>
    let beta := F.rounded r (F.rounded r (betaMax + betaMin) * fin 0.5)
    match essAt past m beta with
    | .error x => .error x
    | .ok ess =>
      if F.abs (ess - nEff) < fin 0.01 * nEff ∨ feq beta (fin 1) then .ok (beta, ess)
      else if ess < nEff then bisectR r past m nEff n betaMin beta
      else bisectR r past m nEff n beta betaMax

/-- sampler.py:735-777, as `chooseBeta`, with `bisectR`. -/
noncomputable def chooseBetaR (r : ℝ → ℝ) (past : Cols d (List B) List) (m : Metric) (nEff : F) (fuel : ℕ) :
    Except PyErr (F × F × F) := do
  let betaPrev ← getAt past.beta (-1)
  let essPrev ← essAt past m betaPrev
  let essMax ← essAt past m (fin 1)
  if essPrev ≤ nEff then
    let logz ← getAt past.logz (-1)
    return (betaPrev, logz, essPrev)
  else if essMax ≥ nEff then
    let (_, logz) ← computeLogwLogz past (fin 1)
    return (fin 1, logz, essMax)
  else
    let (beta, ess) ← bisectR r past m nEff fuel betaPrev (fin 1)
    let (_, logz) ← computeLogwLogz past beta
    return (beta, logz, ess)

/-- sampler.py:735-777 with the `int(ess_est…)` of lines 757, 763 and 772: the argument of `update_stats` is computed whether or
not a progress bar is shown.  The temperature is held in a floating-point number (`chooseBetaR`). -/
noncomputable def chooseBetaInt (r : ℝ → ℝ) (past : Cols d (List B) List) (m : Metric) (nEff : F) (fuel : ℕ) :
    Except PyErr (F × F × F) := do
  let (beta, logz, ess) ← chooseBetaR r past m nEff fuel
  let _ ← pyInt ess
  return (beta, logz, ess)

end Poco
