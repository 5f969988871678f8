import Verif.Model.Sampler
import Mathlib.Algebra.Order.Floor.Ring

/-!
# Model of the constructor `Sampler.__init__` (pocomc/sampler.py:152-373) and `Flow.__init__` (pocomc/flow.py:46-90)

Not modelled: seeding, thread settings, what the `multiprocess` library does, and what zuko does with the sizes it is given.
-/

namespace Poco
open F

/-- Python's `int(x)` for a number: truncation towards zero. -/
noncomputable def truncInt (x : ℝ) : ℤ := if 0 ≤ x then ⌊x⌋ else ⌈x⌉

/-- Python's `a // b` for integers; `Int.fdiv` rounds down for every sign. -/
def pyFloorDiv (a b : ℤ) : Except PyErr ℤ := if b = 0 then .error .zeroDivision else .ok (Int.fdiv a b)

/-- The `pool` argument: `None`, an integer (`True`/`False` count as 1/0), or an object that has a `map` or has not. -/
inductive PoolArg where
  | none
  | int (n : ℤ)
  | object (hasMap : Bool)

/-- The `flow` argument: a string, a zuko flow, anything else. -/
inductive FlowArg where
  | name (s : String)
  | zuko
  | other

/-- The arguments of `Sampler(...)`, sampler.py:152-184, that matter here.  A number given as `int` or `float` is a real
number.  `priorDim` is `prior.dim`; `haveBlobs` is `blobs_dtype is not None`. -/
structure InitArgs where
  priorDim : ℕ
  nDim : Option ℕ
  nEffective : Option ℝ
  nActive : Option ℝ
  nEss : Option ℝ
  vectorize : Bool
  haveBlobs : Bool
  transform : String
  pool : PoolArg
  flow : FlowArg
  trainFrequency : Option ℝ
  precondition : Bool
  dynamic : Bool
  metric : String
  nPrior : Option ℝ
  sample : String
  nSteps : Option ℝ
  nMaxSteps : Option ℝ
  resample : String

/-- Where likelihood calls go, `self.distribute` (sampler.py:265-272). -/
inductive Distribute where
  | builtinMap
  | processes (n : ℤ)
  | poolMap
deriving DecidableEq

/-- The kind of network built and its number of transformations and hidden width, flow.py:52-90. -/
inductive FlowKind where
  | maf (transforms hidden : ℕ)
  | nsf (transforms hidden : ℕ)
  | given
deriving DecidableEq

/-- The attributes the constructor sets from its arguments. -/
structure Config where
  nDim : ℕ
  nActive : ℤ
  nEffective : ℤ
  nSteps : ℤ
  nMaxSteps : ℤ
  distribute : Distribute
  vectorize : Bool
  flow : FlowKind
  batchSize : ℤ
  patience : ℤ
  trainFrequency : ℤ
  transform : Transform
  preconditioned : Bool
  metric : Metric
  dynamic : Bool
  dynamicRatio : F
  sample : SampleKind
  proposalScale : F
  resample : ResampleKind
  nPrior : ℤ

/-- flow.py:49-50 `next_power_of_2`; `(n - 1).bit_length()` is `Nat.size (n - 1)`. -/
def nextPowerOf2 (n : ℕ) : ℕ := if n = 0 then 1 else 2 ^ Nat.size (n - 1)

/-- flow.py:52 `n_hidden`. -/
def hiddenWidth (nDim : ℕ) : ℕ := Nat.max (nextPowerOf2 (3 * nDim)) 32

/-- flow.py:54-90. -/
def initFlow (nDim : ℕ) : FlowArg → Except PyErr FlowKind
  | .name s =>
    if s = "maf3" then .ok (.maf 3 (hiddenWidth nDim))
    else if s = "maf6" then .ok (.maf 6 (hiddenWidth nDim))
    else if s = "maf12" then .ok (.maf 12 (hiddenWidth nDim))
    else if s = "nsf3" then .ok (.nsf 3 (hiddenWidth nDim))
    else if s = "nsf6" then .ok (.nsf 6 (hiddenWidth nDim))
    else if s = "nsf12" then .ok (.nsf 12 (hiddenWidth nDim))
    else .error .valueError
  | .zuko => .ok .given
  | .other => .error .valueError

/-- sampler.py:222-235: `n_active` and `n_effective`, after `n_ess` has replaced `n_effective` (188-189). -/
noncomputable def initSizes (a : InitArgs) : Except PyErr (ℤ × ℤ) :=
  let nEffective := if a.nEss.isSome then a.nEss else a.nEffective
  match a.nActive, nEffective with
  | none, none => .error .valueError
  | none, some e => .ok (truncInt (e / 2), truncInt e)
  | some n, none => .ok (truncInt n, truncInt (2 * n))
  | some n, some e => .ok (truncInt n, truncInt e)

/-- sampler.py:264-272. -/
def initPool : PoolArg → Except PyErr Distribute
  | .none => .ok .builtinMap
  | .int n => if 1 < n then .ok (.processes n) else .error .attributeError
  | .object true => .ok .poolMap
  | .object false => .error .attributeError

/-- sampler.py:275-277. -/
def initVectorize (vectorize haveBlobs : Bool) : Except PyErr Unit :=
  if vectorize && haveBlobs then .error .valueError else .ok ()

/-- sampler.py:305-308: `np.maximum(n_effective//(n_active*2), 1)` or the given number. -/
noncomputable def initTrainFrequency (nActive nEffective : ℤ) : Option ℝ → Except PyErr ℤ
  | none => (pyFloorDiv nEffective (nActive * 2)).map fun q => max q 1
  | some f => .ok (truncInt f)

/-- sampler.py:312-313. -/
def initTransform (s : String) : Except PyErr Transform :=
  if s = "probit" then .ok .probit else if s = "logit" then .ok .logit else .error .valueError

/-- sampler.py:334-337. -/
def initMetric (s : String) : Except PyErr Metric :=
  if s = "ess" then .ok .ess else if s = "uss" then .ok .uss else .error .valueError

/-- sampler.py:340: `unique_sample_size(np.ones(n_effective), k=n_active) / n_active`; `np.ones` of a negative number is a
ValueError.  Simplification: a negative `n_active` counts as 0 here. -/
noncomputable def initDynamicRatio (nActive nEffective : ℤ) : Except PyErr F :=
  if nEffective < 0 then .error .valueError
  else .ok ((uniqueSampleSize (List.replicate nEffective.toNat (fin 1)) (some nActive.toNat)).2 / fin nActive)

/-- sampler.py:343-346. -/
def initSample (s : String) : Except PyErr SampleKind :=
  if s = "tpcn" then .ok .tpcn else if s = "rwm" then .ok .rwm else .error .valueError

/-- sampler.py:349: `2.38 / n_dim ** 0.5`. -/
noncomputable def initScale (nDim : ℕ) : Except PyErr F :=
  if nDim = 0 then .error .zeroDivision else .ok (fin (2.38 / Real.sqrt nDim))

/-- sampler.py:352-355. -/
def initResample (s : String) : Except PyErr ResampleKind :=
  if s = "mult" then .ok .mult else if s = "syst" then .ok .syst else .error .valueError

/-- sampler.py:358-361. -/
noncomputable def initPrior (nActive nEffective : ℤ) : Option ℝ → Except PyErr ℤ
  | none => (pyFloorDiv nEffective nActive).map fun q => 2 * max q 1 * nActive
  | some n => if nActive = 0 then .error .zeroDivision else .ok (truncInt (max (n / nActive) 1 * nActive))

/-- sampler.py:361 `int(np.maximum(n_prior / n_active, 1) * n_active)` with a rounding after the division and after the
multiplication, as in double precision; `initPrior` is this with exact arithmetic. -/
noncomputable def priorRounded (rnd : ℝ → ℝ) (nPrior nActive : ℕ) : ℤ :=
  truncInt (rnd (max (rnd (nPrior / nActive)) 1 * nActive))

/-- sampler.py:152-373 `Sampler.__init__`, the checks in the order of the code. -/
noncomputable def construct (a : InitArgs) : Except PyErr Config := do
  let nDim := a.nDim.getD a.priorDim
  let (nActive, nEffective) ← initSizes a
  let nSteps := match a.nSteps with
    | none => (nDim / 2 : ℕ)
    | some n => truncInt n
  let nMaxSteps := match a.nMaxSteps with
    | none => 10 * nSteps
    | some n => truncInt n
  let distribute ← initPool a.pool
  let _ ← initVectorize a.vectorize a.haveBlobs
  let flow ← initFlow nDim a.flow
  let trainFrequency ← initTrainFrequency nActive nEffective a.trainFrequency
  let transform ← initTransform a.transform
  let metric ← initMetric a.metric
  let dynamicRatio ← initDynamicRatio nActive nEffective
  let sample ← initSample a.sample
  let proposalScale ← initScale nDim
  let resample ← initResample a.resample
  let nPrior ← initPrior nActive nEffective a.nPrior
  return { nDim, nActive, nEffective, nSteps, nMaxSteps, distribute, vectorize := a.vectorize, flow
           batchSize := min (Int.fdiv nEffective 2) 512, patience := nDim, trainFrequency, transform
           preconditioned := a.precondition, metric, dynamic := a.dynamic, dynamicRatio, sample, proposalScale, resample
           nPrior }

/-- The part of a `SamplerEnv` that the constructor decides; the rest (likelihood, prior, flow maps, linear algebra) is
taken from `e`. -/
def Config.env {d : ℕ} {B Φ : Type} (c : Config) (e : SamplerEnv d B Φ) : SamplerEnv d B Φ :=
  { e with
    nActive := c.nActive.toNat
    nSteps := c.nSteps.toNat
    nMaxSteps := c.nMaxSteps.toNat
    nPrior := c.nPrior.toNat
    trainFrequency := c.trainFrequency.toNat
    preconditioned := c.preconditioned
    dynamic := c.dynamic
    dynamicRatio := c.dynamicRatio
    metric := c.metric
    sample := c.sample
    resample := c.resample }

/-- The rest of the object the constructor leaves (sampler.py:222-373): the attributes a run assigns.  `bounds` is
`prior.bounds`, `flow` the untrained network. -/
def Config.fresh {d : ℕ} {B Φ : Type} (c : Config) (a : InitArgs) (bounds : (Fin d → F) × (Fin d → F))
    (periodic reflective : Option (List (Fin d))) (flow : Φ) : Sampler d B Φ :=
  { priorSamples := none
    scaler := Scaler.init d (some bounds) periodic reflective c.transform
    particles := Particles.init
    cur := none
    t := 0
    warmup := true
    calls := 0
    proposalScale := c.proposalScale
    nEffective := c.nEffective.toNat
    flow := flow
    flowUntrained := true
    uGeometry := none
    thetaGeometry := none
    haveBlobs := a.haveBlobs
    logz := none
    logzErr := none
    nTotal := 0
    nEvidence := 0
    evals := [] }

end Poco
