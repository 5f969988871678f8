import Verif.Spec.Run
import Verif.Model.Posterior

/-! What it means that asking for more samples later comes to the same as asking for them at once (C137). -/

namespace Poco.Spec
open Poco

variable {d : ℕ} {B Φ : Type}

/-- The two samplers agree in everything except the number of likelihood calls so far and the list of points at which the
likelihood was evaluated. -/
def SameResult (a b : Sampler d B Φ) : Prop := a = { b with calls := a.calls, evals := a.evals }

/-- `Runs e rnd fuel s as s'`: the calls of `run` with the arguments `as`, one after the other, start in `s`, all return, and leave the
sampler in `s'`.  The random numbers an iteration uses depend on its number only, not on the call it belongs to. -/
inductive Runs (e : SamplerEnv d B Φ) (rnd : Rnd d Φ) (fuel : ℕ) : Sampler d B Φ → List RunArgs → Sampler d B Φ → Prop
  | one {s s' : Sampler d B Φ} (n : ℕ) (a : RunArgs) : (run e rnd fuel n a s).2 = .ok s' → Runs e rnd fuel s [a] s'
  | next {s s' s'' : Sampler d B Φ} {as : List RunArgs} (n : ℕ) (a : RunArgs) : Runs e rnd fuel s as s' →
      (run e rnd fuel n a s').2 = .ok s'' → Runs e rnd fuel s (as ++ [a]) s''

end Poco.Spec
