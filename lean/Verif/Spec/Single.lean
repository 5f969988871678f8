import Verif.Model.Sampler

/-! Specification of C146: numbers in single precision. -/

namespace Poco.Spec
open F

/-- A number with a significand of 24 bits, as in IEEE single precision.  Limits of the exponent are left out, so this is weaker
than being a `float32`. -/
def SinglePrec (r : ℝ) : Prop := ∃ m e : ℤ, |m| < 2 ^ 24 ∧ r = m * 2 ^ e

/-- Every coordinate that is a number is a number in single precision. -/
def SinglePrecPt {d : ℕ} (p : Pt d) : Prop := ∀ i r, p i = fin r → SinglePrec r

/-- The flow computes in single precision (tools.py:279-292, 343-352; flow.py:110-132): what its inverse returns are `float32`
arrays. -/
def SinglePrecFlow {d : ℕ} {B Φ : Type} (e : SamplerEnv d B Φ) : Prop := ∀ φ θ, SinglePrecPt (e.flowInv φ θ).1

end Poco.Spec
