import Verif.Model.Sampler
import Mathlib.LinearAlgebra.Matrix.NonsingularInverse
import Mathlib.Data.List.Sort

/-!
# Model of `pocomc/student.py` and `pocomc/geometry.py`

Particles are lists of real vectors (non-finite particles are not modelled).  Arithmetic is exact except in the equation
for the degrees of freedom, where every operation is followed by a rounding function: its sign at `1e300` is decided by
rounding errors alone.
-/

namespace Poco
open F

/-- A particle with real coordinates. -/
abbrev Vec (d : ℕ) := Fin d → ℝ

variable {d : ℕ}

/-- `np.median` of one coordinate: the middle value, or the mean of the two middle values. -/
noncomputable def median (l : List ℝ) : ℝ :=
  ((l.insertionSort (· ≤ ·)).getD ((l.length - 1) / 2) 0 + (l.insertionSort (· ≤ ·)).getD (l.length / 2) 0) / 2

/-- `np.mean(·, axis=0)`. -/
noncomputable def colMean (X : List (Vec d)) (j : Fin d) : ℝ := (X.map fun x => x j).sum / X.length

/-- `np.cov` (divisor `n - 1`). -/
noncomputable def sampleCov (X : List (Vec d)) (j k : Fin d) : ℝ :=
  (X.map fun x => (x j - colMean X j) * (x k - colMean X k)).sum / (X.length - 1)

/-- `np.var` (divisor `n`). -/
noncomputable def sampleVar (X : List (Vec d)) (j : Fin d) : ℝ :=
  (X.map fun x => (x j - colMean X j) ^ 2).sum / X.length

/-- student.py:55 the initial location. -/
noncomputable def startMu (X : List (Vec d)) : Vec d := fun j => median (X.map fun x => x j)

/-- student.py:56 the initial shape matrix. -/
noncomputable def startSigma (X : List (Vec d)) : Matrix (Fin d) (Fin d) ℝ := fun j k =>
  sampleCov X j k * (X.length - 1) / X.length + 1 / X.length * (if j = k then sampleVar X j else 0)

/-- student.py:64 `delta_iobs`: squared distances in the metric of `Sigma`. -/
noncomputable def deltaObs (mu : Vec d) (Sigma : Matrix (Fin d) (Fin d) ℝ) (X : List (Vec d)) : List ℝ :=
  X.map fun x => (x - mu) ⬝ᵥ Sigma⁻¹.mulVec (x - mu)

/-- What the fit takes from numpy and scipy: floating point rounding, `special.psi`, `optimize.bisect`. -/
structure FitEnv where
  rnd : ℝ → ℝ
  psi : ℝ → ℝ
  bisect : (ℝ → ℝ) → ℝ → ℝ → Except PyErr ℝ

/-- A rounded sum. -/
noncomputable def FitEnv.sum (E : FitEnv) (l : List ℝ) : ℝ := l.foldl (fun a x => E.rnd (a + x)) 0

/-- student.py:43, 73 the weights `w_iobs` as computed in `func0`. -/
noncomputable def FitEnv.obsWeights (E : FitEnv) (d : ℕ) (δ : List ℝ) (nu : ℝ) : List ℝ :=
  δ.map fun x => E.rnd (E.rnd (nu + d) / E.rnd (nu + x))

/-- student.py:42-45 `func0`, in the order in which Python evaluates it. -/
noncomputable def FitEnv.func0 (E : FitEnv) (d : ℕ) (δ : List ℝ) (nu : ℝ) : ℝ :=
  let w := E.obsWeights d δ nu
  let n : ℝ := δ.length
  let half := E.rnd (nu / 2)
  let halfd := E.rnd (E.rnd (nu + d) / 2)
  let a1 := E.rnd (-(E.psi half) + E.rnd (Real.log half))
  let a2 := E.rnd (a1 + E.rnd (E.sum (w.map fun v => E.rnd (Real.log v)) / n))
  let a3 := E.rnd (a2 - E.rnd (E.sum w / n))
  let a4 := E.rnd (a3 + 1)
  let a5 := E.rnd (a4 + E.psi halfd)
  E.rnd (a5 - E.rnd (Real.log halfd))

/-- student.py:41-51 `opt_nu`; `none` is `np.inf`. -/
noncomputable def FitEnv.optNu (E : FitEnv) (d : ℕ) (δ : List ℝ) : Except PyErr (Option ℝ) :=
  if E.func0 d δ (E.rnd 1e300) ≥ 0 then .ok none
  else (E.bisect (E.func0 d δ) (1e-300) 1e300).map some

/-- student.py:73 the weights of the particles in the updates. -/
noncomputable def emWeights (d : ℕ) (δ : List ℝ) (nu : ℝ) : List ℝ := δ.map fun x => (nu + d) / (nu + x)

/-- student.py:74 the new shape matrix. -/
noncomputable def emSigma (X : List (Vec d)) (mu : Vec d) (w : List ℝ) : Matrix (Fin d) (Fin d) ℝ := fun j k =>
  (List.zipWith (fun v (x : Vec d) => v * (x j - mu j) * (x k - mu k)) w X).sum / X.length

/-- student.py:77 the new location. -/
noncomputable def emMu (X : List (Vec d)) (w : List ℝ) : Vec d := fun j =>
  (List.zipWith (fun v (x : Vec d) => v * x j) w X).sum / w.sum

/-- What `fit_mvstud` returns (`nu = none` is `np.inf`) and the number of iterations it made. -/
structure TFit (d : ℕ) where
  mu : Vec d
  Sigma : Matrix (Fin d) (Fin d) ℝ
  nu : Option ℝ
  iters : ℕ

/-- student.py:61-85 the EM loop with `k` iterations left.  `np.linalg.solve` raises LinAlgError on a singular matrix
(in floating point, on one that is found to be singular). -/
noncomputable def emLoop (E : FitEnv) (X : List (Vec d)) (tol : ℝ) :
    ℕ → ℝ → ℝ → Vec d → Matrix (Fin d) (Fin d) ℝ → Except PyErr (TFit d)
  | 0, _, nu, mu, Sigma => .ok ⟨mu, Sigma, some nu, 0⟩
  | k + 1, last, nu, mu, Sigma =>
    if |last - nu| > tol then
      if Sigma.det = 0 then .error .linAlgError
      else
        match E.optNu d (deltaObs mu Sigma X) with
        | .error x => .error x
        | .ok none => .ok ⟨mu, Sigma, none, 1⟩
        | .ok (some nu') =>
          let w := emWeights d (deltaObs mu Sigma X) nu'
          (emLoop E X tol k nu nu' (emMu X w) (emSigma X mu w)).map fun r => { r with iters := r.iters + 1 }
    else .ok ⟨mu, Sigma, some nu, 0⟩

/-- student.py:5-85 `fit_mvstud`.  Without data `1/n` raises ZeroDivisionError; with one sample `np.cov` is NaN and the
root finder refuses the NaN values of its function. -/
noncomputable def fitMvstud (E : FitEnv) (X : List (Vec d)) (tol : ℝ := 1e-6) (maxIter : ℕ := 100) : Except PyErr (TFit d) :=
  if X.length = 0 then .error .zeroDivision
  else if X.length = 1 then .error .valueError
  else emLoop E X tol maxIter 0 20 (startMu X) (startSigma X)

/-- geometry.py:44, 47 `normal_mean`: `np.mean`, or `np.average` with weights, which raises ZeroDivisionError when they sum
to zero and refuses weights of another length. -/
noncomputable def normalMean (theta : List (Vec d)) : Option (List ℝ) → Except PyErr (Vec d)
  | none => .ok fun j => colMean theta j
  | some w =>
    if w.length ≠ theta.length then .error .valueError
    else if w.sum = 0 then .error .zeroDivision
    else .ok fun j => (List.zipWith (fun v (x : Vec d) => v * x j) w theta).sum / w.sum

/-- geometry.py:45, 48 `normal_cov`: `np.cov`, or `np.cov` with `aweights`, which refuses negative weights and divides by
`sum(w) - sum(w²)/sum(w)`, or by zero if that is not positive. -/
noncomputable def normalCov (theta : List (Vec d)) (m : Vec d) : Option (List ℝ) → Except PyErr (Fin d → Fin d → F)
  | none =>
    .ok fun j k => fin (theta.map fun x => (x j - m j) * (x k - m k)).sum * (fin 1 / fin (Max.max ((theta.length : ℝ) - 1) 0))
  | some w =>
    if w.any (fun v => decide (v < 0)) then .error .valueError
    else .ok fun j k =>
      fin (List.zipWith (fun v (x : Vec d) => v * (x j - m j) * (x k - m k)) w theta).sum *
        (fin 1 / fin (Max.max (w.sum - (w.map (· ^ 2)).sum / w.sum) 0))

/-- geometry.py:51-56 the particles the t distribution is fitted to; `u` is the random number of `systematic_resample`. -/
noncomputable def tData (theta : List (Vec d)) (w : Option (List ℝ)) (u : ℝ) : Except PyErr (List (Vec d)) :=
  match w with
  | none => .ok theta
  | some w => do
    let idx ← systematicResample theta.length (w.map fin) u
    gather theta idx

/-- geometry.py:58-59. -/
noncomputable def finiteNu : Option ℝ → ℝ
  | none => 1e6
  | some nu => nu

/-- geometry.py:31-59 `Geometry.fit`. -/
noncomputable def geometryFit (E : FitEnv) (theta : List (Vec d)) (w : Option (List ℝ)) (u : ℝ) : Except PyErr (Geo d) := do
  let m ← normalMean theta w
  let c ← normalCov theta m w
  let data ← tData theta w u
  let f ← fitMvstud E data
  return { normalMean := fun j => fin (m j), normalCov := c, tMean := fun j => fin (f.mu j)
           tCov := fun j k => fin (f.Sigma j k), tNu := fin (finiteNu f.nu) }

end Poco
