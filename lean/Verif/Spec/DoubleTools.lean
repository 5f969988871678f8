import Verif.Model.DoubleTools
import Verif.Spec.DoubleLogw
import Verif.Spec.Reweight

/-! Specification of C152: what is used of the power function in double precision. -/

namespace Poco.Spec

/-- The logarithms are as in C125; the power function stays in `[0, 1]` there and is accurate to one unit in the last place. -/
structure IsDoublePow (A : ArithPow) : Prop where
  log : IsDoubleLog A.toArithLog
  pow_range : ∀ x k, 0 ≤ x → x ≤ 1 → 0 ≤ A.pow x k ∧ A.pow x k ≤ 1
  pow_near : ∀ x k, 0 ≤ x → x ≤ 1 → |A.pow x k - x ^ k| ≤ 2⁻¹ ^ 52 * x ^ k + 2⁻¹ ^ 1074

end Poco.Spec
