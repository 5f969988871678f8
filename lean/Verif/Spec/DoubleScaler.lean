import Verif.Model.DoubleScaler
import Verif.Spec.DoubleLogw

/-! Specification of C126-C129: what is used of the functions of the machine. -/

namespace Poco.Spec

/-- `log` is accurate to one unit in the last place on the positive axis, `log1p` is not negative on `[0, 1]`, `erf` stays in `[-1, 1]`, the
difference of 1 and a double in `[1/2, 1]` is exact, the difference of two doubles is 0 only if they are equal, doubling is exact, and `log` returns
doubles. -/
structure IsDoubleErf (A : ArithErf) : Prop where
  logs : IsDoubleLog A.toArithLog
  log_near' : ∀ x, 0 < x → |A.log x - Real.log x| ≤ 2⁻¹ ^ 52 * |Real.log x|
  log1p_nonneg : ∀ x, 0 ≤ x → 0 ≤ A.log1p x
  erf_range : ∀ x, -1 ≤ A.erf x ∧ A.erf x ≤ 1
  sqrt2_pos : 0 < A.sqrt2
  one_sub : ∀ x, A.rnd x = x → 1 / 2 ≤ x → x ≤ 1 → A.rnd (1 - x) = 1 - x
  sub_pos : ∀ x y, A.rnd x = x → A.rnd y = y → x < y → 0 < A.rnd (y - x)
  double_exact : ∀ x, A.rnd x = x → A.rnd (x + x) = x + x
  exp_nonneg : ∀ x, 0 ≤ A.exp x
  logs_double : ∀ x, A.rnd (A.log x) = A.log x

end Poco.Spec
