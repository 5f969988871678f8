import Verif.Model.Double
import Verif.Model.Particles

/-!
# `Particles.compute_logw_and_logz` in double precision

The function of `Model/Particles.lean` again, with every arithmetic operation followed by the rounding of the machine, and
`np.logaddexp` computed as numpy does.  Simplification: finite results do not overflow.
-/

namespace Poco
open F

/-- The arithmetic of the machine with the logarithms used by `np.log` and `np.logaddexp`. -/
structure ArithLog extends Arith where
  /-- `np.log` -/
  log : ℝ → ℝ
  /-- `npy_log1p` -/
  log1p : ℝ → ℝ
  /-- the constant `LOGE2` of numpy -/
  ln2 : ℝ

namespace ArithLog

open Classical in
/-- `np.log` in double precision: `-inf` at zero, NaN below. -/
noncomputable def logF (A : ArithLog) : F → F
  | nan => nan
  | ninf => nan
  | pinf => pinf
  | fin a => if a < 0 then nan else if a = 0 then ninf else fin (A.log a)

/-- `npy_log1p` in double precision (called with values of `exp` only). -/
def log1pF (A : ArithLog) : F → F
  | nan => nan
  | ninf => nan
  | pinf => pinf
  | fin a => fin (A.log1p a)

/-- `np.logaddexp`, following `npy_logaddexp`. -/
noncomputable def logaddexp (A : ArithLog) (x y : F) : F :=
  if feq x y then A.round (x + fin A.ln2)
  else
    let tmp := A.round (x - y)
    if tmp > 0 then A.round (x + A.log1pF (A.expF (-tmp)))
    else if tmp ≤ 0 then A.round (y + A.log1pF (A.expF tmp))
    else tmp

/-- `np.logaddexp.reduce`, from left to right. -/
noncomputable def lse (A : ArithLog) (l : List F) : F := l.foldl A.logaddexp ninf

end ArithLog

/-- particles.py:221-223, for a particle with log-likelihood `l`, in double precision. -/
noncomputable def mixDenomD (A : ArithLog) (beta logz : List F) (l : F) : F :=
  A.round (A.lse ((beta.zip logz).map fun bz => A.round (A.round (l * bz.1) - bz.2)) - A.logF (ofNat beta.length))

variable {d : ℕ} {B : Type}

/-- particles.py:215-231 `compute_logw_and_logz` in double precision. -/
noncomputable def computeLogwLogzD (A : ArithLog) (past : Cols d B List) (betaFinal : F) (norm : Bool := true) :
    Except PyErr (List F × F) :=
  if past.logl.any (fun row => decide (row.length ≠ (past.logl.headD []).length)) then .error .valueError
  else if past.logz.length < past.beta.length then .error .indexError
  else if past.logl = [] then .error .valueError
  else
    let logw := past.logl.flatten.map fun l => A.round (A.round (l * betaFinal) - mixDenomD A past.beta past.logz l)
    let logzNew := A.round (A.lse logw - A.logF (ofNat logw.length))
    .ok (if norm then logw.map fun x => A.round (x - A.lse logw) else logw, logzNew)

end Poco
