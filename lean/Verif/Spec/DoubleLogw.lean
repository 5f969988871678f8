import Verif.Model.DoubleLogw
import Verif.Spec.Double
import Verif.Spec.Mixture

/-! Specification of C125: what is used of the logarithms in double precision. -/

namespace Poco.Spec

/-- `log` and `log1p` are accurate to one unit in the last place, `log1p(0)` is 0, and numpy's constant for `log 2` is rounded correctly. -/
structure IsDoubleLog (A : ArithLog) : Prop where
  double : IsDouble A.toArith
  log_near : ∀ x, 1 ≤ x → |A.log x - Real.log x| ≤ 2⁻¹ ^ 52 * Real.log x
  log1p_zero : A.log1p 0 = 0
  log1p_near : ∀ x, 0 ≤ x → x ≤ 1 → |A.log1p x - Real.log (1 + x)| ≤ 2⁻¹ ^ 52 * Real.log (1 + x) + 2⁻¹ ^ 1074
  ln2_near : |A.ln2 - Real.log 2| ≤ 2⁻¹ ^ 53

/-- A history of finite numbers: `T` iterations of `n` particles, `T·n ≤ 2^40`, temperatures in `[0, 1]`, log-likelihoods and log-evidences of absolute
value at most `M`. -/
structure BoundedHistory (h : List Stage) (n : ℕ) (M : ℝ) : Prop where
  rect : Rect h n
  few : h.length * n ≤ 2 ^ 40
  beta : ∀ s ∈ h, 0 ≤ s.beta ∧ s.beta ≤ 1
  logz : ∀ s ∈ h, |s.logz| ≤ M
  logl : ∀ s ∈ h, ∀ l ∈ s.logl, |l| ≤ M

end Poco.Spec
