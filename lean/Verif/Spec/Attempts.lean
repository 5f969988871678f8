import Verif.Model.Failure
import Verif.Spec.Run
import Verif.Lemmas.Flaky

/-! Specification vocabulary for sessions in which runs raise. -/

namespace Poco.Spec
open F

variable {d : ℕ} {B Φ : Type}

/-- The run raised; this is the exception and this the state it left the sampler in. -/
def Raised (r : EStateM.Result PyErr (Sampler d B Φ) (Unit × Option ℕ)) (x : PyErr) (s : Sampler d B Φ) : Prop := r = .error x s

/-- The exception is not an interrupt that arrived while an iteration was being stored, or between drawing the prior samples and fitting the scaler. -/
def Benign (x : PyErr) : Prop := x ≠ .keyboardInterrupt .storing ∧ x ≠ .keyboardInterrupt .scaling

/-- The states a sampler can be in when runs may raise, and are then repeated or given up: as `Session`, but in each run the likelihood may raise where it
should not (`Flaky`), the training of the flow, the fit of a geometry or the linear algebra may raise, and the sampler goes on from where the exception left it.
Unless `quiet`, the user may interrupt each run after any number of operations, except at the moments `Benign` excludes. -/
inductive Attempts (e : SamplerEnv d B Φ) (hb quiet : Bool) : Sampler d B Φ → Prop
  | fresh {s} : Fresh e hb s → Attempts e hb quiet s
  | ran {s s'} (e' : SamplerEnv d B Φ) (rnd : Rnd d Φ) (fuel n : ℕ) (a : RunArgs) : Attempts e hb quiet s → Flaky e e' → Draws s.scaler.low s.scaler.high rnd →
      (run e' rnd fuel n a s).2 = .ok s' → Attempts e hb quiet s'
  | failed {s s'} (e' : SamplerEnv d B Φ) (rnd : Rnd d Φ) (lo : Leftover d Φ) (fuel n : ℕ) (a : RunArgs) (k : Option ℕ) (x : PyErr) : Attempts e hb quiet s →
      Flaky e e' → Draws s.scaler.low s.scaler.high rnd → (quiet = true → k = none) → Benign x → Raised (runX e' rnd lo fuel n a k s) x s' → Attempts e hb quiet s'
  | loaded {s} (e' : SamplerEnv d B Φ) (rnd : Rnd d Φ) (fuel n : ℕ) (a : RunArgs) (sv : Save d B Φ) : Attempts e hb quiet s → Flaky e e' →
      Draws s.scaler.low s.scaler.high rnd → sv ∈ (run e' rnd fuel n a s).1 → Attempts e hb quiet sv.state

/-- The states that can follow a state when `run` is called any number of times, whether it returns, raises, is interrupted (not at the moments `Benign` excludes) or
a state file it wrote is loaded. -/
inductive Afterwards (e : SamplerEnv d B Φ) (s0 : Sampler d B Φ) : Sampler d B Φ → Prop
  | start : Afterwards e s0 s0
  | ran {s s'} (e' : SamplerEnv d B Φ) (rnd : Rnd d Φ) (fuel n : ℕ) (a : RunArgs) : Afterwards e s0 s → Flaky e e' → (run e' rnd fuel n a s).2 = .ok s' → Afterwards e s0 s'
  | failed {s s'} (e' : SamplerEnv d B Φ) (rnd : Rnd d Φ) (lo : Leftover d Φ) (fuel n : ℕ) (a : RunArgs) (k : Option ℕ) (x : PyErr) : Afterwards e s0 s → Flaky e e' →
      Benign x → Raised (runX e' rnd lo fuel n a k s) x s' → Afterwards e s0 s'
  | loaded {s} (e' : SamplerEnv d B Φ) (rnd : Rnd d Φ) (fuel n : ℕ) (a : RunArgs) (sv : Save d B Φ) : Afterwards e s0 s → Flaky e e' → sv ∈ (run e' rnd fuel n a s).1 →
      Afterwards e s0 sv.state

end Poco.Spec
