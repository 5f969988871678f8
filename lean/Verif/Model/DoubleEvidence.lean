import Verif.Model.DoubleLogw
import Verif.Model.Sampler

/-!
# The evidence from flow draws and `np.std` in double precision

`evidenceOf`, `bootstrapErr` (`Model/Sampler.lean`) and `F.std` (`Model/Scaler.lean`) again, with every arithmetic operation followed by the rounding of
the machine.  Simplification: finite results do not overflow.
-/

namespace Poco
open F

/-- `np.mean` in double precision: `np.sum` divided by the number of entries. -/
noncomputable def meanD (A : Arith) (l : List F) : F := A.round (A.sum l / ofNat l.length)

/-- `np.std` of a one-dimensional array in double precision; the square root is rounded correctly.  Used in sampler.py:913 and scaler.py:171-173. -/
noncomputable def stdD (A : Arith) (l : List F) : F :=
  let m := meanD A l
  A.round (F.sqrt (meanD A (l.map fun x => A.round (sq (A.round (x - m))))))

/-- sampler.py:907-910 in double precision: log-weights and log-evidence from the kept draws. -/
noncomputable def evidenceOfD (A : ArithLog) (logl logp logdetj logq : List F) : List F × F :=
  let logw := List.zipWith (fun a b => A.round (a - b))
    (List.zipWith (fun a b => A.round (a + b)) (List.zipWith (fun a b => A.round (a + b)) logl logp) logdetj) logq
  (logw, A.round (A.lse logw - A.logF (ofNat logw.length)))

/-- sampler.py:913 in double precision; `boot r k` is the `k`-th index draw of replicate `r`. -/
noncomputable def bootstrapErrD (A : ArithLog) (logw : List F) (n : ℕ) (boot : ℕ → ℕ → ℕ) : F :=
  stdD A.toArith ((List.range (Max.max n 1000)).map fun r =>
    A.round (A.lse ((List.range logw.length).map fun k => logw.getD (boot r k % logw.length) nan) - A.logF (ofNat logw.length)))

end Poco
