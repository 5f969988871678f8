import Verif.Model.Progress
import Verif.Spec.Run

/-! What the progress bar should show. -/

namespace Poco.Spec
open F

variable {d : ℕ} {B Φ : Type}

/-- The bar shows this iteration: temperature, effective size (rounded down), log-evidence, mean log-posterior of the particles,
acceptance, steps, efficiency; and the number of likelihood calls up to the difference between `p` and `q`. -/
structure Shows (p q : ℕ) (b : Bar) (it : Iter d B) : Prop where
  calls : b.calls + p = it.calls + q
  beta : b.beta = it.beta
  ess : ∃ r : ℝ, it.ess = fin r ∧ b.ess = fin (⌊r⌋₊ : ℕ)
  logZ : b.logZ = it.logz
  logP : b.logP = mean (List.zipWith (· + ·) it.logl it.logp)
  acc : b.acc = it.accept
  steps : b.steps = it.steps
  eff : b.eff = it.efficiency

/-- What a run displayed: the bar at the end of each new iteration `new` showed that iteration, its counter counting up from `n`. -/
structure Displayed (p q n : ℕ) (log : List Bar) (new : List (Iter d B)) : Prop where
  shows : List.Forall₂ (Shows p q) log new
  counter : log.map (·.iter) = (List.range new.length).map fun k => n + 1 + k

end Poco.Spec
