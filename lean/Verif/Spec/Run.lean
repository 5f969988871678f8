import Verif.Model.Sampler
import Verif.Spec.Scaler
import Mathlib.Logic.Relation

/-! Specification vocabulary for whole runs. -/

namespace Poco.Spec
open F

variable {d : ℕ} {B Φ : Type}

/-- One particle: everything stored about it. -/
structure Row (d : ℕ) (B : Type) where
  u : Pt d
  x : Pt d
  logdetj : F
  logl : F
  logp : F
  blob : B

/-- The store that holds exactly the given iterations, in order: fifteen columns of equal length. -/
def columns (its : List (Iter d B)) : Cols d B List where
  u := its.map (·.u)
  x := its.map (·.x)
  logdetj := its.map (·.logdetj)
  logl := its.map (·.logl)
  logp := its.map (·.logp)
  logw := its.map (·.logw)
  blobs := its.map (·.blobs)
  iter := its.map (·.iter)
  logz := its.map (·.logz)
  calls := its.map (·.calls)
  steps := its.map (·.steps)
  efficiency := its.map (·.efficiency)
  ess := its.map (·.ess)
  accept := its.map (·.accept)
  beta := its.map (·.beta)

/-- The per-particle arrays of an iteration are the columns of these particles; `hb` says whether there are blobs. -/
structure IsRows (hb : Bool) (it : Iter d B) (rows : List (Row d B)) : Prop where
  u : it.u = rows.map (·.u)
  x : it.x = rows.map (·.x)
  logdetj : it.logdetj = rows.map (·.logdetj)
  logl : it.logl = rows.map (·.logl)
  logp : it.logp = rows.map (·.logp)
  blobs : it.blobs = if hb then some (rows.map (·.blob)) else none

/-- The stored values belong to the stored point: `x` and the Jacobian term are those of `u` under the scaler, log-prior,
log-likelihood and blob are those of `x`. -/
def Row.Belongs (s : Scaler d) (ll lp : Pt d → F) (bb : Pt d → B) (hb : Bool) (r : Row d B) : Prop :=
  s.inverseRow r.u = .ok (r.x, r.logdetj) ∧ r.logp = lp r.x ∧ r.logl = ll r.x ∧ (hb = true → r.blob = bb r.x)

/-- The user's prior and likelihood: the log-prior is `lp` row by row; the likelihood gives `ll` row by row, and if `hb`
also the blobs `bb` row by row (with no points there are no blobs). -/
structure UserFns (e : SamplerEnv d B Φ) (ll lp : Pt d → F) (bb : Pt d → List B) (hb : Bool) : Prop where
  prior : ∀ xs, e.logPrior xs = xs.map lp
  like : ∀ xs, xs ≠ [] → logLike e.like xs = .ok (xs.map ll, if hb then some (xs.map bb) else none, hb)
  nothing : logLike e.like [] = .ok ([], none, false)

/-- A sampler as the constructor leaves it (sampler.py:196-376); `blobs_dtype` may have set `have_blobs`. -/
structure Fresh (e : SamplerEnv d B Φ) (hb : Bool) (s : Sampler d B Φ) : Prop where
  priorSamples : s.priorSamples = none
  particles : s.particles = Particles.init
  cur : s.cur = none
  t : s.t = 0
  warmup : s.warmup = true
  calls : s.calls = 0
  evals : s.evals = []
  untrained : s.flowUntrained = true
  noGeoU : s.uGeometry = none
  noGeoT : s.thetaGeometry = none
  bounds : ProperBounds s.scaler.low s.scaler.high
  scale : s.scaler.scale = true
  blobs : s.haveBlobs = true → hb = true

/-- Random draws as numpy produces them: `n` prior samples strictly inside the bounds, not all equal in any coordinate (when there
are at least two);
uniform numbers in [0, 1). -/
structure Draws (low high : Fin d → F) (rnd : Rnd d Φ) : Prop where
  prior : ∀ n, ∃ xs : List (Fin d → ℝ), rnd.prior n = xs.map pt ∧ xs.length = n ∧
    (∀ x ∈ xs, StrictlyInside low high x) ∧ (1 < n → ∀ i, ∃ a ∈ xs, ∃ b ∈ xs, a i ≠ b i)
  mcmc : ∀ t i k, ∃ r : ℝ, (rnd.mcmc t i k).rand = fin r ∧ 0 ≤ r ∧ r < 1

/-- The settings the constructor arrives at (sampler.py:283-321) unless it is told otherwise: at least one active particle,
at least as many prior samples, and at least two prior samples (the default is twice a multiple of `n_active`). -/
def Configured (e : SamplerEnv d B Φ) : Prop := 0 < e.nActive ∧ e.nActive ≤ e.nPrior ∧ 1 < e.nPrior

/-- The states a sampler can be in between calls: newly built, after a run that returned, or loaded from a state file
that a run wrote. Runs may follow each other in any number, each with its own random draws and arguments. -/
inductive Session (e : SamplerEnv d B Φ) (hb : Bool) : Sampler d B Φ → Prop
  | fresh {s} : Fresh e hb s → Session e hb s
  | ran {s s'} (rnd : Rnd d Φ) (fuel n : ℕ) (a : RunArgs) : Session e hb s → Draws s.scaler.low s.scaler.high rnd →
      (run e rnd fuel n a s).2 = .ok s' → Session e hb s'
  | loaded {s} (rnd : Rnd d Φ) (fuel n : ℕ) (a : RunArgs) (sv : Save d B Φ) : Session e hb s →
      Draws s.scaler.low s.scaler.high rnd → sv ∈ (run e rnd fuel n a s).1 → Session e hb sv.state

end Poco.Spec

namespace Poco
open F Spec
variable {d : ℕ} {B Φ : Type}

/-- The steps a run is made of (every run is a sequence of them: `Along.run`). -/
inductive Move (e : SamplerEnv d B Φ) (rnd : Rnd d Φ) : Sampler d B Φ → Sampler d B Φ → Prop
  | init {s s'} (a : RunArgs) : runInit e rnd a s = .ok s' → Move e rnd s s'
  | warm {s s'} (i : ℕ) : s.warmup = true → i < e.nPrior / e.nActive → warmupStep e rnd s i = .ok s' → Move e rnd s s'
  | endWarm {s} : s.warmup = true → Move e rnd s { s with warmup := false }
  | smc {s s'} (fuel : ℕ) : s.warmup = false → smcStep e rnd fuel s = .ok s' → Move e rnd s s'
  | evidence {s s'} : s.warmup = false → finalEvidence e rnd s = .ok s' → Move e rnd s s'

/-- Any number of moves. -/
abbrev Moves (e : SamplerEnv d B Φ) (rnd : Rnd d Φ) := Relation.ReflTransGen (Move e rnd)

end Poco
