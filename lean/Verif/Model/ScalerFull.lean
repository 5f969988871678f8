import Verif.Spec.Scaler
import Mathlib.LinearAlgebra.Matrix.PosDef

/-!
# Model of `Reparameterize.fit` with `diagonal=False` (scaler.py:159-178)

The linear algebra is numpy's: `cholesky`, `inv`, `slogdet` are parameters, with their contract in exact arithmetic in
`LinAlg.Exact`.
-/

namespace Poco
open F

variable {d : ℕ}

/-- The functions of `np.linalg` that `fit` uses. -/
structure LinAlg (d : ℕ) where
  cholesky : (Fin d → Fin d → F) → Except PyErr (Fin d → Fin d → F)
  inv : (Fin d → Fin d → F) → Except PyErr (Fin d → Fin d → F)
  slogdet : (Fin d → Fin d → F) → F

/-- A real matrix as the array the code sees. -/
def mat (M : Matrix (Fin d) (Fin d) ℝ) : Fin d → Fin d → F := fun i j => fin (M i j)

/-- The contract of `np.linalg`: `cholesky` returns a factor of a positive definite matrix and raises LinAlgError on a
symmetric matrix that is not positive definite; `inv` inverts; `slogdet(...)[1]` is the logarithm of the absolute value of the
determinant. -/
structure LinAlg.Exact (la : LinAlg d) : Prop where
  chol : ∀ C : Matrix (Fin d) (Fin d) ℝ, C.PosDef → ∃ M : Matrix (Fin d) (Fin d) ℝ, la.cholesky (mat C) = .ok (mat M) ∧
    M * M.transpose = C
  chol_fail : ∀ C : Matrix (Fin d) (Fin d) ℝ, C.IsSymm → ¬ C.PosDef → la.cholesky (mat C) = .error .linAlgError
  inv : ∀ M : Matrix (Fin d) (Fin d) ℝ, M.det ≠ 0 → la.inv (mat M) = .ok (mat M⁻¹)
  slogdet : ∀ M : Matrix (Fin d) (Fin d) ℝ, M.det ≠ 0 → la.slogdet (mat M) = fin (Real.log |M.det|)

/-- `np.cov(u.T)`, scaler.py:175: products of the centred columns, times one over `n - 1` (zero, after a warning, for
`n ≤ 1`).  With one parameter numpy returns an array without dimensions, see `choleskyOfCov`. -/
noncomputable def npCov (u : List (Pt d)) : Fin d → Fin d → F := fun i j =>
  sum (u.map fun r => (r i - mean (u.map (· i))) * (r j - mean (u.map (· j)))) * (fin 1 / ofNat (u.length - 1))

/-- scaler.py:176: `np.linalg.cholesky(np.cov(u.T))`.  With one parameter `np.cov` returns an array without dimensions, on
which `cholesky` raises LinAlgError. -/
noncomputable def choleskyOfCov (la : LinAlg d) (u : List (Pt d)) : Except PyErr (Fin d → Fin d → F) :=
  if d = 1 then .error .linAlgError else la.cholesky (npCov u)

/-- The attributes after `self.mu = ...` when a later line of `fit` raises: the new mean, with what the last fit left in
`L`, `L_inv`, `log_det_L`.  If there was no earlier fit these are None, and `forward` and `inverse` still raise TypeError. -/
def Affine.withMu (mu : Fin d → F) : Option (Affine d) → Option (Affine d)
  | some (.full _ L Linv ld) => some (.full mu L Linv ld)
  | a => a

/-- scaler.py:159-178 `fit` with `diagonal=False`: the state of the object afterwards, and the exception if one is raised. -/
noncomputable def Scaler.fitFull (la : LinAlg d) (s : Scaler d) (x : List (Pt d)) : Scaler d × Option PyErr :=
  if !withinInterval s.low s.high x then (s, some .valueError)
  else
    let u := x.map s.fwdRow
    let mu := fun i => mean (u.map (· i))
    match choleskyOfCov la u with
    | .error x => ({ s with affine := Affine.withMu mu s.affine }, some x)
    | .ok L =>
      match la.inv L with
      | .error x => ({ s with affine := (Affine.withMu mu s.affine).map fun
          | .full mu _ Linv ld => .full mu L Linv ld
          | a => a }, some x)
      | .ok Linv => ({ s with affine := some (.full mu L Linv (la.slogdet L)) }, none)

end Poco
