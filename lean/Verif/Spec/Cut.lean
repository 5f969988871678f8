import Verif.Model.Float

/-! Specification of C148: trimming the posterior cuts at one value of the likelihood. -/

namespace Poco.Spec
open F Classical

/-- The log-likelihood is the real number `t` or more. -/
noncomputable def reaches (t : ℝ) (l : F) : Bool :=
  match l with
  | fin l => decide (t ≤ l)
  | _ => false

end Poco.Spec
