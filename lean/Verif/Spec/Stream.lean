import Verif.Model.Stream
import Verif.Spec.Run

/-! What is assumed of the generators, and what it means that an oracle holds the values a generator returned. -/

namespace Poco.Spec
open F

variable {d : ℕ} {B Φ W : Type}

/-- The generators do what their documentation says: the requested number of values, in the documented ranges; prior
samples inside the bounds and not all equal in a coordinate. -/
structure Generates (gen : Gen d Φ W) (low high : Fin d → F) : Prop where
  prior : ∀ n w, ∃ xs : List (Fin d → ℝ), (gen.prior n w).1 = xs.map pt ∧ xs.length = n ∧
    (∀ x ∈ xs, StrictlyInside low high x) ∧ (1 < n → ∀ i, ∃ a ∈ xs, ∃ b ∈ xs, a i ≠ b i)
  ints : ∀ n size w, (gen.ints n size w).1.length = size ∧ (0 < n → ∀ k ∈ (gen.ints n size w).1, k < n)
  uniform : ∀ size w, (gen.uniform size w).1.length = size ∧ ∀ u ∈ (gen.uniform size w).1, 0 ≤ u ∧ u < 1
  flowSample : ∀ φ n w, (gen.flowSample φ n w).1.length = n

/-- Every value of the oracle `r` is one the generators returned, to some call in some state. -/
structure Returned (gen : Gen d Φ W) (r : Rnd d Φ) : Prop where
  prior : ∀ n, ∃ w, r.prior n = (gen.prior n w).1
  warm : ∀ t k, ∃ n size w, r.warm t k ∈ (gen.ints n size w).1
  mult : ∀ t k, ∃ n w, r.mult t k ∈ (gen.uniform n w).1
  syst : ∀ t, ∃ n w, r.syst t ∈ (gen.uniform n w).1
  gamma : ∀ t i k, ∃ a b w, (r.mcmc t i k).gamma = (gen.gamma a b w).1
  z : ∀ t i k, ∃ w, (r.mcmc t i k).z = (gen.randn w).1
  rand : ∀ t i k, ∃ n w u, u ∈ (gen.uniform n w).1 ∧ (r.mcmc t i k).rand = fin u
  flowFit : ∀ t φ us ws, ∃ w, r.flowFit t φ us ws = (gen.flowFit φ us ws w).map Prod.fst
  geoFit : ∀ t us ws, ∃ w, r.geoFit t us ws = (gen.geoFit us ws w).map Prod.fst
  flowSample : ∀ t φ n, ∃ w, r.flowSample t φ n = (gen.flowSample φ n w).1
  boot : ∀ t i k, ∃ n size w, r.boot t i k ∈ (gen.ints n size w).1

/-- The files a run wrote and the sampler it left, without the state of the generators. -/
def Outcome (t : TraceG d B Φ W) : Trace d B Φ := (t.1, t.2.map Prod.fst)

/-- The states a sampler whose prior has these bounds can be in between calls when the random numbers come from generators:
`SessionG … w s` says that `s` can be reached with the generators in state `w`.  Between the calls other code may draw, or
seed the generators, and a state file may be loaded with the generators in any state. -/
inductive SessionG (gen : Gen d Φ W) (e : SamplerEnv d B Φ) (hb : Bool) (low high : Fin d → F) : W → Sampler d B Φ → Prop
  | fresh {s} (w : W) : Fresh e hb s → s.scaler.low = low → s.scaler.high = high → SessionG gen e hb low high w s
  | other {s w} (w' : W) : SessionG gen e hb low high w s → SessionG gen e hb low high w' s
  | ran {s s' w w'} (fuel n : ℕ) (a : RunArgs) : SessionG gen e hb low high w s → (runG gen e fuel n a s w).2 = .ok (s', w') →
      SessionG gen e hb low high w' s'
  | loaded {s w} (fuel n : ℕ) (a : RunArgs) (sv : Save d B Φ) (w' : W) : SessionG gen e hb low high w s →
      sv ∈ (runG gen e fuel n a s w).1 → SessionG gen e hb low high w' sv.state

end Poco.Spec
