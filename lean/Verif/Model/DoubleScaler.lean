import Verif.Model.DoubleLogw
import Verif.Model.Scaler

/-!
# `pocomc/scaler.py` in double precision

The transformations of `Model/Scaler.lean` for one coordinate, with every arithmetic operation followed by the rounding of the machine.
Simplifications: finite results do not overflow; the affine map is the diagonal one (the sampler's setting).
-/

namespace Poco
open F

/-- The arithmetic of the machine with the functions used by `Reparameterize`. -/
structure ArithErf extends ArithLog where
  /-- `scipy.special.erf` on finite arguments -/
  erf : ℝ → ℝ
  /-- `np.sqrt(2.0)` -/
  sqrt2 : ℝ
  /-- `np.log(np.sqrt(2.0 * np.pi))` -/
  halfLog2pi : ℝ

/-- `scipy.special.erf` in double precision. -/
def ArithErf.erfF (A : ArithErf) : F → F
  | nan => nan
  | ninf => fin (-1)
  | pinf => fin 1
  | fin x => fin (A.erf x)

/-- scaler.py:327 `_forward_left` in double precision. -/
noncomputable def fwdLeftD (A : ArithErf) (low x : F) : F := A.logF (A.round (x - low))
/-- scaler.py:360 `_forward_right` in double precision. -/
noncomputable def fwdRightD (A : ArithErf) (high x : F) : F := A.logF (A.round (high - x))
/-- scaler.py:392-396 `_forward_both` in double precision, `transform="logit"` (the result of `np.clip` is discarded by the code). -/
noncomputable def fwdLogitD (A : ArithErf) (low high x : F) : F :=
  let p := A.round (A.round (x - low) / A.round (high - low))
  A.logF (A.round (p / A.round (fin 1 - p)))

/-- scaler.py:346 `_inverse_left` in double precision. -/
noncomputable def invLeftD (A : ArithErf) (low u : F) : F × F := (A.round (A.expF u + low), u)
/-- scaler.py:378 `_inverse_right` in double precision. -/
noncomputable def invRightD (A : ArithErf) (high u : F) : F × F := (A.round (high - A.expF u), u)
/-- scaler.py:417-425 `_inverse_both` in double precision. -/
noncomputable def invBothD (A : ArithErf) (t : Transform) (low high u : F) : F × F :=
  let w := A.round (high - low)
  match t with
  | .logit =>
    let p := A.expF (-(A.logaddexp (fin 0) (-u)))
    (A.round (A.round (p * w) + low), A.round (A.round (A.logF w + A.logF p) + A.logF (A.round (fin 1 - p))))
  | .probit =>
    let p := A.round (A.round (A.erfF (A.round (u / fin A.sqrt2)) + fin 1) / fin 2)
    (A.round (A.round (p * w) + low), A.round (A.round (A.logF w + A.round (-(A.round (sq u)) / fin 2)) - fin A.halfLog2pi))

/-- scaler.py:264-272 `_inverse` for one coordinate, in double precision. -/
noncomputable def invCoordD (A : ArithErf) (t : Transform) (low high u : F) : F × F :=
  let m := createMasks low high
  let r := (nan, nan)
  let r := if m.none then (u, fin 0) else r
  let r := if m.left then invLeftD A low u else r
  let r := if m.right then invRightD A high u else r
  if m.both then invBothD A t low high u else r

/-- scaler.py:288-289 `_forward_affine` for one coordinate, in double precision. -/
noncomputable def affineFwdD (A : ArithErf) (mu sigma u : F) : F := A.round (A.round (u - mu) / sigma)

/-- scaler.py:308-310 `_inverse_affine` for one coordinate, in double precision. -/
noncomputable def affineInvD (A : ArithErf) (mu sigma u : F) : F := A.round (mu + A.round (sigma * u))

/-- scaler.py:180-202 `forward` of a doubly bounded coordinate, `transform="logit"`, `scale=True`, in double precision. -/
noncomputable def forwardLogitD (A : ArithErf) (low high mu sigma x : F) : F := affineFwdD A mu sigma (fwdLogitD A low high x)

/-- scaler.py:204-226 `inverse` of one coordinate with `scale=True`, in double precision: the point. -/
noncomputable def inverseCoordD (A : ArithErf) (t : Transform) (low high mu sigma u : F) : F :=
  (invCoordD A t low high (affineInvD A mu sigma u)).1

/-- scaler.py:128-131, one entry under periodic boundary conditions, in double precision. -/
noncomputable def periodicEntryD (A : ArithErf) (fuel : ℕ) (low high x : F) : Option F := do
  let x ← whileFuel (fun x => x > high) (fun x => A.round (A.round (low + x) - high)) fuel x
  whileFuel (fun x => x < low) (fun x => A.round (A.round (high + x) - low)) fuel x

/-- scaler.py:152-155, one entry under reflective boundary conditions, in double precision. -/
noncomputable def reflectiveEntryD (A : ArithErf) (fuel : ℕ) (low high x : F) : Option F := do
  let x ← whileFuel (fun x => x > high) (fun x => A.round (A.round (high - x) + high)) fuel x
  whileFuel (fun x => x < low) (fun x => A.round (A.round (low + low) - x)) fuel x

end Poco
