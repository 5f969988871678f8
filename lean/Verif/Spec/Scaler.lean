import Verif.Model.Scaler
import Mathlib.LinearAlgebra.Matrix.Determinant.Basic

/-! Specification vocabulary for bounds. A bound that is NaN or infinite counts as absent. -/

namespace Poco.Spec
open F

variable {d : ℕ}

/-- `x` satisfies every bound that is present, strictly. -/
def StrictlyInside (low high : Fin d → F) (x : Fin d → ℝ) : Prop :=
  ∀ i, (∀ l, low i = fin l → l < x i) ∧ (∀ h, high i = fin h → x i < h)

/-- `x` satisfies every bound that is present. -/
def Inside (low high : Fin d → F) (x : Fin d → ℝ) : Prop :=
  ∀ i, (∀ l, low i = fin l → l ≤ x i) ∧ (∀ h, high i = fin h → x i ≤ h)

/-- Sensible bounds: a lower bound is finite or absent (`-inf`, NaN), an upper bound finite or absent (`+inf`, NaN),
and lower < upper where both are present. -/
def ProperBounds (low high : Fin d → F) : Prop :=
  ∀ i, low i ≠ pinf ∧ high i ≠ ninf ∧ ∀ l h, low i = fin l → high i = fin h → l < h

/-- A finite point as the float array the code sees. -/
def pt (x : Fin d → ℝ) : Fin d → F := fun i => fin (x i)

end Poco.Spec

namespace Poco
open F Spec
variable {d : ℕ}

/-- A usable fitted affine map: positive finite scales, or a finite matrix with its true inverse and log-determinant
(the contract of `np.linalg.cholesky/inv/slogdet` in exact arithmetic). -/
def Affine.Ok : Affine d → Prop
  | .diag mu sigma => ∃ m s : Fin d → ℝ, (mu = fun i => fin (m i)) ∧ (sigma = fun i => fin (s i)) ∧ ∀ i, 0 < s i
  | .full mu L Linv ld => ∃ (m : Fin d → ℝ) (M N : Matrix (Fin d) (Fin d) ℝ), (mu = fun i => fin (m i)) ∧
      (L = fun i j => fin (M i j)) ∧ (Linv = fun i j => fin (N i j)) ∧ M * N = 1 ∧ ld = fin (Real.log |M.det|)

/-- A scaler in a usable state: sensible bounds, and fitted with a usable affine map if it rescales. -/
def Scaler.Ok (s : Scaler d) : Prop :=
  ProperBounds s.low s.high ∧ (s.scale = true → ∃ a, s.affine = some a ∧ a.Ok)

end Poco
