import Verif.Model.Config
import Verif.Spec.Run

/-! What the documentation says about the arguments of `Sampler(...)`. -/

namespace Poco.Spec
open F

/-- `n_effective`, or its deprecated alias if that is given. -/
def wantedEffective (a : InitArgs) : Option ℝ := a.nEss.or a.nEffective

/-- The number of parameters. -/
def dimension (a : InitArgs) : ℕ := a.nDim.getD a.priorDim

/-- The arguments the documentation does not allow. -/
def Forbidden (a : InitArgs) : Prop :=
  (a.nActive = none ∧ wantedEffective a = none) ∨ (a.vectorize = true ∧ a.haveBlobs = true) ∨
  a.transform ∉ ["probit", "logit"] ∨ a.metric ∉ ["ess", "uss"] ∨ a.sample ∉ ["tpcn", "rwm"] ∨
  a.resample ∉ ["mult", "syst"] ∨
  ¬ (a.flow = .zuko ∨ ∃ s ∈ ["maf3", "maf6", "maf12", "nsf3", "nsf6", "nsf12"], a.flow = .name s)

/-- A pool argument the code can use: none, an integer above one, or something with `map`. -/
def PoolUsable : PoolArg → Prop
  | .none => True
  | .int n => 1 < n
  | .object m => m = true

/-- Sizes that make sense: at least one parameter, at least one active particle, and a positive effective size
(at least two when the number of active particles is to be half of it). -/
structure Sensible (a : InitArgs) : Prop where
  dim : 0 < dimension a
  active : ∀ n, a.nActive = some n → 1 ≤ n
  effective : ∀ e, wantedEffective a = some e → 2 ≤ e

/-- `n_active`: as given, or half of `n_effective`. -/
def ActiveIs (a : InitArgs) (n : ℤ) : Prop :=
  (∀ x, a.nActive = some x → (n : ℝ) ≤ x ∧ x < n + 1) ∧
  (a.nActive = none → ∀ x, wantedEffective a = some x → (n : ℝ) ≤ x / 2 ∧ x / 2 < n + 1)

/-- `n_effective`: as given, or twice `n_active`. -/
def EffectiveIs (a : InitArgs) (n : ℤ) : Prop :=
  (∀ x, wantedEffective a = some x → (n : ℝ) ≤ x ∧ x < n + 1) ∧
  (wantedEffective a = none → ∀ x, a.nActive = some x → (n : ℝ) ≤ 2 * x ∧ 2 * x < n + 1)

end Poco.Spec
