import Verif.Model.DoubleLogw

/-!
# `unique_sample_size`, `compute_ess` and `increment_logz` (pocomc/tools.py) in double precision

The functions of `Model/Tools.lean` again, with every arithmetic operation followed by the rounding of the machine.
Simplification: finite results do not overflow.
-/

namespace Poco
open F

/-- The arithmetic of the machine with the power function `np.power` for a natural number as exponent. -/
structure ArithPow extends ArithLog where
  /-- `np.power(x, k)` -/
  pow : ℝ → ℕ → ℝ

/-- `x ** k` in double precision; special values as in `F.npow`. -/
noncomputable def ArithPow.powF (A : ArithPow) (x : F) (k : ℕ) : F :=
  match x with
  | fin x => fin (A.pow x k)
  | x => npow x k

/-- tools.py:74-93 `unique_sample_size`.  Result: (the caller's array after the in-place division, the USS). -/
noncomputable def uniqueSampleSizeD (A : ArithPow) (weights : List F) (k : Option ℕ) : List F × F :=
  let k := k.getD weights.length
  let w := normalizeD A.toArith weights
  (w, A.sum (w.map fun x => A.round (fin 1 - A.powF (A.round (fin 1 - x)) k)))

/-- tools.py:96-114 `compute_ess`. -/
noncomputable def computeEssD (A : Arith) (logw : List F) : Except PyErr F := do
  let m ← F.max logw
  let normed := logw.map fun l => A.round (l - m)
  let s := A.sum (normed.map A.expF)
  let weights := normed.map fun x => A.round (A.expF x / s)
  return A.round (A.round (fin 1 / A.sum (weights.map fun w => A.round (w * w))) / ofNat weights.length)

/-- tools.py:117-133 `increment_logz`. -/
noncomputable def incrementLogzD (A : ArithLog) (logw : List F) : Except PyErr F := do
  let m ← F.max logw
  let normed := logw.map fun l => A.round (l - m)
  return A.round (m + A.lse normed)

end Poco
