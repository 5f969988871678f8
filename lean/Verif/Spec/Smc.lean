import Mathlib.MeasureTheory.Function.ConditionalExpectation.Basic
import Mathlib.Probability.Kernel.Invariance

/-! Notions used to say that the whole algorithm is consistent (C132). -/

namespace Poco.Spec
open MeasureTheory Filter Topology

/-- `Y n`, a random quantity of the run with `n` particles, converges in probability to the number `c` as `n` grows. -/
def InProb {Ω : ℕ → Type*} [∀ n, MeasurableSpace (Ω n)] (P : ∀ n, Measure (Ω n)) (Y : ∀ n, Ω n → ℝ) (c : ℝ) : Prop :=
  ∀ ε > 0, Tendsto (fun n => P n {ω | ε ≤ |Y n ω - c|}) atTop (𝓝 0)

/-- A real function that is measurable and bounded. -/
def Tame {α : Type*} [MeasurableSpace α] (f : α → ℝ) : Prop := Measurable f ∧ ∃ C, ∀ x, |f x| ≤ C

/-- Given what is known in `past`, the `n` particles `X i` are drawn one independently of the other, each from the distribution whose
expectation of `f` is `mean f` (which depends on what is known). -/
def DrawnGiven {α Ω : Type*} [MeasurableSpace α] [MeasurableSpace Ω] {n : ℕ} (P : Measure Ω) (past : MeasurableSpace Ω) (X : Fin n → Ω → α)
    (mean : (α → ℝ) → Ω → ℝ) : Prop :=
  ∀ f g : α → ℝ, Tame f → Tame g → (∀ i, P[fun ω => f (X i ω) | past] =ᵐ[P] mean f) ∧
    ∀ i j, i ≠ j → P[fun ω => f (X i ω) * g (X j ω) | past] =ᵐ[P] fun ω => mean f ω * mean g ω

/-- What is known before iteration `t` of a run with `n` particles: all the particles of the iterations before. -/
def earlier {α Ω : Type*} [MeasurableSpace α] {T : ℕ} (n : ℕ) (X : Fin T → ℕ → Ω → α) (t : Fin T) : MeasurableSpace Ω :=
  ⨆ (r : Fin T) (_ : r < t) (i : Fin n), MeasurableSpace.comap (X r i) inferInstance

end Poco.Spec
