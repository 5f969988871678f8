import Verif.Model.Geometry
import Mathlib.Data.Int.Log
import Mathlib.Algebra.Order.Round
import Mathlib.Analysis.SpecialFunctions.Pow.Real

/-! Specification of C71, C87, C88: covariance matrices and binary64 rounding. -/

namespace Poco.Spec

variable {d : ℕ}

/-- A covariance matrix: symmetric, with non-negative variance in every direction. -/
def IsCov (S : Matrix (Fin d) (Fin d) ℝ) : Prop :=
  (∀ j k, S j k = S k j) ∧ ∀ v : Vec d, 0 ≤ ∑ j, ∑ k, v j * S j k * v k

/-- A non-degenerate covariance matrix: positive variance in every direction. -/
def IsPosCov (S : Matrix (Fin d) (Fin d) ℝ) : Prop :=
  (∀ j k, S j k = S k j) ∧ ∀ v : Vec d, v ≠ 0 → 0 < ∑ j, ∑ k, v j * S j k * v k

/-- The particles all have the same value of some coordinate. -/
def Degenerate (X : List (Vec d)) : Prop := ∃ j, ∀ x ∈ X, ∀ y ∈ X, x j = y j

/-- The root finder returns a point of the interval it is given. -/
def RootInRange (E : FitEnv) : Prop := ∀ f a b r, E.bisect f a b = .ok r → a ≤ r ∧ r ≤ b

/-- What is used of double precision: small integers are exact, rounding is idempotent and symmetric, and next to `1e300`
a summand up to `1e280` is lost. -/
structure DoubleLike (rnd : ℝ → ℝ) : Prop where
  nat : ∀ k : ℕ, k ≤ 2 ^ 53 → rnd k = k
  idem : ∀ x, rnd (rnd x) = rnd x
  neg : ∀ x, rnd (-x) = -rnd x
  absorb : ∀ x : ℝ, |x| ≤ 1e280 → rnd (rnd 1e300 + x) = rnd 1e300

/-- Rounding to 53 significant binary digits (ties away from zero), without limits on the exponent. -/
noncomputable def round53 (x : ℝ) : ℝ :=
  SignType.sign x * ((round (|x| / 2 ^ (Int.log 2 |x| - 52)) : ℤ) * 2 ^ (Int.log 2 |x| - 52))

end Poco.Spec
