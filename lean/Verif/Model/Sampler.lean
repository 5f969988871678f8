import Verif.Model.LogLike
import Verif.Model.Mcmc

/-!
# Model of `pocomc/sampler.py`: the run

The sampler object is split into what a run never assigns (`SamplerEnv`) and what it does (`Sampler`).  Random numbers,
flow training, geometry fits and flow samples are oracles (`Rnd`), indexed by the iteration counter `t` at which they
are consumed.  The progress bar is not modelled.  Arrays are values: `update` stores the objects themselves, but every
later step binds new arrays (fancy indexing and `.copy()` make copies) and none writes into a stored one, unless the
user's likelihood does (`Model/Memory`, C112).
-/

namespace Poco
open F

/-- `metric` (sampler.py:334). -/
inductive Metric where
  | ess
  | uss
deriving DecidableEq

/-- `resample` (sampler.py:353). -/
inductive ResampleKind where
  | mult
  | syst
deriving DecidableEq

/-- `sample` (sampler.py:344). -/
inductive SampleKind where
  | tpcn
  | rwm
deriving DecidableEq

/-- geometry.py:24-29 a fitted `Geometry`. -/
structure Geo (d : ℕ) where
  normalMean : Pt d
  normalCov : Fin d → Fin d → F
  tMean : Pt d
  tCov : Fin d → Fin d → F
  tNu : F

/-- The attributes a run never assigns, and the user's functions.  `flowFwd`, `flowInv` are the numpy wrapper of a flow,
acting on each row alone; `inv`, `chol` are `np.linalg.inv`, `np.linalg.cholesky`. -/
structure SamplerEnv (d : ℕ) (B Φ : Type) where
  like : LikeEnv d B
  logPrior : List (Pt d) → List F
  nActive : ℕ
  nSteps : ℕ
  nMaxSteps : ℕ
  nPrior : ℕ
  trainFrequency : ℕ
  preconditioned : Bool
  dynamic : Bool
  dynamicRatio : F
  metric : Metric
  sample : SampleKind
  resample : ResampleKind
  flowFwd : Φ → Pt d → Pt d × F
  flowInv : Φ → Pt d → Pt d × F
  inv : (Fin d → Fin d → F) → Except PyErr (Fin d → Fin d → F)
  chol : (Fin d → Fin d → F) → Except PyErr (Fin d → Fin d → F)

/-- The oracles. -/
structure Rnd (d : ℕ) (Φ : Type) where
  /-- `self.sample_prior(n)`, sampler.py:439 -/
  prior : ℕ → List (Pt d)
  /-- integer draws of `np.random.choice(finite_idx, …)`, sampler.py:461 -/
  warm : ℕ → ℕ → ℕ
  /-- uniform draws of `np.random.choice(…, p=weights)`, sampler.py:703 -/
  mult : ℕ → ℕ → ℝ
  /-- uniform draw of `systematic_resample`, sampler.py:705 -/
  syst : ℕ → ℝ
  mcmc : ℕ → ℕ → ℕ → Draw d
  /-- `self.flow.fit(u, weights=w, …)`, sampler.py:655-669 -/
  flowFit : ℕ → Φ → List (Pt d) → List F → Except PyErr Φ
  /-- `Geometry.fit`, sampler.py:672, 674 -/
  geoFit : ℕ → List (Pt d) → List F → Except PyErr (Geo d)
  /-- `self.flow.sample(n)`, sampler.py:887 -/
  flowSample : ℕ → Φ → ℕ → List (Pt d × F)
  /-- bootstrap index draws, sampler.py:913 -/
  boot : ℕ → ℕ → ℕ → ℕ

/-- The dictionary `current_particles`: the fifteen stored keys and `weights` (present after `_reweight`). -/
structure Cur (d : ℕ) (B : Type) where
  it : Iter d (List B)
  weights : Option (List F)

/-- The attributes a run assigns.  `evals` is a ghost variable: every point the likelihood was evaluated at, in order. -/
structure Sampler (d : ℕ) (B Φ : Type) where
  priorSamples : Option (List (Pt d))
  scaler : Scaler d
  particles : Particles d (List B)
  cur : Option (Cur d B)
  t : ℕ
  warmup : Bool
  calls : ℕ
  proposalScale : F
  nEffective : ℕ
  flow : Φ
  flowUntrained : Bool
  uGeometry : Option (Geo d)
  thetaGeometry : Option (Geo d)
  haveBlobs : Bool
  logz : Option F
  logzErr : Option F
  nTotal : ℕ
  nEvidence : ℕ
  evals : List (Pt d)

variable {d : ℕ} {B Φ : Type}

/-! ### weights and effective sizes -/

/-- sampler.py:540-541, 740-741, 779-780: `exp(logw - max(logw))` at temperature `beta`. -/
noncomputable def weightsAt (past : Cols d (List B) List) (beta : F) : Except PyErr (List F) := do
  let (logw, _) ← computeLogwLogz past beta
  let m ← F.max logw
  return logw.map fun l => exp (l - m)

/-- sampler.py:542-545, 742-745. -/
noncomputable def sizeOf (m : Metric) (w : List F) : F :=
  match m with
  | .ess => (effectiveSampleSize w).2
  | .uss => (uniqueSampleSize w none).2

/-- sampler.py:739-746 `get_weights_and_ess` (the weights are recomputed later). -/
noncomputable def essAt (past : Cols d (List B) List) (m : Metric) (beta : F) : Except PyErr F := do
  let w ← weightsAt past beta
  return sizeOf m w

/-- Using an attribute that may still be `None`: the exception Python raises then. -/
def orErr {α : Type} (x : PyErr) : Option α → Except PyErr α
  | some a => .ok a
  | none => .error x

/-- sampler.py:526-547 `_not_termination`. -/
noncomputable def notTermination (e : SamplerEnv d B Φ) (s : Sampler d B Φ) : Except PyErr Bool := do
  let ess ← essAt s.particles.past e.metric (fin 1)
  let c ← orErr .attributeError s.cur
  return decide (fin 1 - c.it.beta ≥ fin 1e-4) || decide (ess < F.ofNat s.nTotal)

/-! ### reweighting -/

/-- sampler.py:765-777 the bisection loop; `diverged` when the fuel runs out.  Result: `beta`, `ess_est`. -/
noncomputable def bisect (past : Cols d (List B) List) (m : Metric) (nEff : F) : ℕ → F → F → Except PyErr (F × F)
  | 0, _, _ => .error .diverged
  | n + 1, betaMin, betaMax =>
    let beta := (betaMax + betaMin) * fin 0.5
    match essAt past m beta with
    | .error x => .error x
    | .ok ess =>
      if F.abs (ess - nEff) < fin 0.01 * nEff ∨ feq beta (fin 1) then .ok (beta, ess)
      else if ess < nEff then bisect past m nEff n betaMin beta
      else bisect past m nEff n beta betaMax

/-- sampler.py:735-777: the choice of the next temperature.  Result: `beta`, `logz`, `ess_est`. -/
noncomputable def chooseBeta (past : Cols d (List B) List) (m : Metric) (nEff : F) (fuel : ℕ) :
    Except PyErr (F × F × F) := do
  let betaPrev ← getAt past.beta (-1)
  let essPrev ← essAt past m betaPrev
  let essMax ← essAt past m (fin 1)
  if essPrev ≤ nEff then
    let logz ← getAt past.logz (-1)
    return (betaPrev, logz, essPrev)
  else if essMax ≥ nEff then
    let (_, logz) ← computeLogwLogz past (fin 1)
    return (fin 1, logz, essMax)
  else
    let (beta, ess) ← bisect past m nEff fuel betaPrev (fin 1)
    let (_, logz) ← computeLogwLogz past beta
    return (beta, logz, ess)

/-- Python's `int()` on a non-negative float. -/
noncomputable def pyInt : F → Except PyErr ℕ
  | nan => .error .valueError
  | ninf => .error .overflowError
  | pinf => .error .overflowError
  | fin r => .ok ⌊r⌋₊

/-- sampler.py:787-790: the new `n_effective`, from the expected number of unique active particles. -/
noncomputable def dynamicNEff (nActive nEff : ℕ) (ratio nUnique : F) : Except PyErr ℕ :=
  if nUnique < F.ofNat nActive * (fin 0.95 * ratio) then pyInt (F.ofNat nActive / nUnique * F.ofNat nEff)
  else if nUnique > F.ofNat nActive * minimum (fin 1.05 * ratio) (fin 1) then
    pyInt (nUnique / F.ofNat nActive * F.ofNat nEff)
  else .ok nEff

/-- Fancy indexing `a[idx]`; IndexError when out of range. -/
def gather {α : Type} (a : List α) (idx : List ℕ) : Except PyErr (List α) :=
  idx.mapM fun i => match a[i]? with
    | some v => .ok v
    | none => .error .indexError

/-- `np.concatenate` of the blobs column; an entry `None` is a ValueError. -/
def flatBlobs {α : Type} (l : List (Option (List α))) : Except PyErr (List α) :=
  if l = [] then .error .valueError
  else (l.mapM fun o : Option (List α) => match o with
    | some a => Except.ok a
    | none => Except.error PyErr.valueError).map List.flatten

/-- sampler.py:779-790: the normalised weights and the new `n_effective`. -/
noncomputable def reweightWeights (e : SamplerEnv d B Φ) (s : Sampler d B Φ) (beta : F) : Except PyErr (List F × ℕ) := do
  let w ← weightsAt s.particles.past beta
  let w := normalize w
  if e.dynamic then
    let (w, nUnique) := uniqueSampleSize w (some e.nActive)
    let nEff ← dynamicNEff e.nActive s.nEffective e.dynamicRatio nUnique
    return (w, nEff)
  else return (w, s.nEffective)

/-- sampler.py:793-803: the new `current_particles`. -/
def gatherCur (past : Cols d (List B) List) (haveBlobs : Bool) (c : Cur d B) (idx : List ℕ) (w : List F)
    (beta logz ess : F) : Except PyErr (Cur d B) := do
  let u ← gather (← getFlat past.u) idx
  let x ← gather (← getFlat past.x) idx
  let logdetj ← gather (← getFlat past.logdetj) idx
  let logl ← gather (← getFlat past.logl) idx
  let logp ← gather (← getFlat past.logp) idx
  let blobs ← if haveBlobs then (do let b ← gather (← flatBlobs past.blobs) idx; return some b) else .ok c.it.blobs
  return { it := { c.it with u, x, logdetj, logl, logp, blobs, logz, beta, ess }, weights := some w }

/-- sampler.py:717-805 `_reweight`. -/
noncomputable def reweight (e : SamplerEnv d B Φ) (fuel : ℕ) (s : Sampler d B Φ) (c : Cur d B) :
    Except PyErr (Sampler d B Φ × Cur d B) := do
  let s := { s with t := s.t + 1 }
  let (beta, logz, ess) ← chooseBeta s.particles.past e.metric (F.ofNat s.nEffective) fuel
  let (w, nEff) ← reweightWeights e s beta
  let s := { s with nEffective := nEff }
  let tr ← trimWeights (List.range w.length) w (fin 0.99) 1000
  let c ← gatherCur s.particles.past s.haveBlobs c tr.samples tr.weights beta logz ess
  return (s, c)

/-! ### training -/

/-- sampler.py:653: train now? (`t % 0` raises ZeroDivisionError for a Python int.) -/
noncomputable def trainNow (e : SamplerEnv d B Φ) (s : Sampler d B Φ) (beta : F) : Except PyErr Bool :=
  if !e.preconditioned then .ok false
  else if e.trainFrequency = 0 then .error .zeroDivision
  else .ok (decide (s.t % e.trainFrequency = 0) || decide (feq beta (fin 1)) || s.flowUntrained)

/-- sampler.py:636-678 `_train`. -/
noncomputable def train (e : SamplerEnv d B Φ) (rnd : Rnd d Φ) (s : Sampler d B Φ) (c : Cur d B) :
    Except PyErr (Sampler d B Φ) := do
  let w ← orErr .typeError c.weights
  if ← trainNow e s c.it.beta then
    let flow ← rnd.flowFit s.t s.flow c.it.u w
    let theta := c.it.u.map fun u => (e.flowFwd flow u).1
    let g ← rnd.geoFit s.t theta w
    return { s with flowUntrained := false, flow := flow, thetaGeometry := some g }
  else
    let g ← rnd.geoFit s.t c.it.u w
    return { s with uGeometry := some g }

/-! ### resampling -/

/-- sampler.py:702-705. -/
noncomputable def resampleIdx (e : SamplerEnv d B Φ) (rnd : Rnd d Φ) (t : ℕ) (w : List F) : Except PyErr (List ℕ) :=
  match e.resample with
  | .mult => multinomialResample w ((List.range e.nActive).map (rnd.mult t))
  | .syst => systematicResample e.nActive w (rnd.syst t)

/-- sampler.py:713-714: the resampled blobs. -/
def resampleBlobs (haveBlobs : Bool) (blobs : Option (List (List B))) (idx : List ℕ) :
    Except PyErr (Option (List (List B))) :=
  if haveBlobs then do
    let b ← orErr .typeError blobs
    let b ← gather b idx
    return some b
  else .ok blobs

/-- sampler.py:680-715 `_resample`. -/
noncomputable def resampleStep (e : SamplerEnv d B Φ) (rnd : Rnd d Φ) (s : Sampler d B Φ) (c : Cur d B) :
    Except PyErr (Cur d B) := do
  let w ← orErr .typeError c.weights
  let idx ← resampleIdx e rnd s.t w
  let u ← gather c.it.u idx
  let x ← gather c.it.x idx
  let logdetj ← gather c.it.logdetj idx
  let logl ← gather c.it.logl idx
  let logp ← gather c.it.logp idx
  let blobs ← resampleBlobs s.haveBlobs c.it.blobs idx
  return { c with it := { c.it with u, x, logdetj, logl, logp, blobs } }

/-! ### mutation -/

/-- sampler.py:594-617: the kernel. -/
def kernelOf (preconditioned : Bool) (s : SampleKind) : Kern :=
  match preconditioned, s with
  | true, .tpcn => .ppcn
  | true, .rwm => .prwm
  | false, .tpcn => .pcn
  | false, .rwm => .rwm

/-- The columns of `current_particles` as walkers (sampler.py:564-576); the kernels read the number of walkers from `x`
and index every array with it.  Simplification: arrays of different lengths, where numpy would raise IndexError at the
first use, raise it here.  `theta`, `logdetjFlow` are filled in by the kernel. -/
def toWalkers (c : Iter d (List B)) (haveBlobs : Bool) : Except PyErr (List (Walker d (List B))) := do
  let blobs : List (Option (List B)) ← if haveBlobs then
      match c.blobs with
      | some b => .ok (b.map some)
      | none => .error .attributeError
    else .ok (List.replicate (List.length c.x) none)
  let n := List.length c.x
  if List.length c.u = n ∧ List.length c.logdetj = n ∧ List.length c.logl = n ∧ List.length c.logp = n ∧
      blobs.length = n then
    return (List.range n).map fun k =>
      { theta := fun _ => nan, u := (List.getD c.u k fun _ => nan), x := (List.getD c.x k fun _ => nan),
        logdetj := List.getD c.logdetj k nan, logdetjFlow := nan, logl := List.getD c.logl k nan,
        logp := List.getD c.logp k nan, blob := blobs.getD k none }
  else .error .indexError

/-- `np.linalg.cholesky(geometry.normal_cov)`: for one parameter `np.cov` gives a 0-dimensional array, which `cholesky`
refuses (LinAlgError). -/
def cholNormal (e : SamplerEnv d B Φ) (g : Geo d) : Except PyErr (Fin d → Fin d → F) :=
  if d = 1 then .error .linAlgError else e.chol g.normalCov

/-- mcmc.py:67, 398 `inv_cov`; the random-walk kernels do not invert anything. -/
def kernelInv (e : SamplerEnv d B Φ) (k : Kern) (g : Geo d) : Except PyErr (Fin d → Fin d → F) :=
  if k.isPcn then e.inv g.tCov else .ok g.tCov

/-- mcmc.py:68, 238, 399, 559 `chol_cov`. -/
def kernelChol (e : SamplerEnv d B Φ) (k : Kern) (g : Geo d) : Except PyErr (Fin d → Fin d → F) :=
  if k.isPcn then e.chol g.tCov else cholNormal e g

/-- sampler.py:578-592 and the first lines of the kernels: what the kernel gets.  An unfitted geometry (attributes
`None`) makes `np.linalg` raise; written TypeError. -/
noncomputable def kernelEnv (e : SamplerEnv d B Φ) (s : Sampler d B Φ) (beta : F) :
    Except PyErr (McmcEnv d (List B)) := do
  let k := kernelOf e.preconditioned e.sample
  let g ← orErr .typeError (if e.preconditioned then s.thetaGeometry else s.uGeometry)
  let inv ← kernelInv e k g
  let chol ← kernelChol e k g
  return { kernel := k
           logLike := fun xs => (logLike e.like xs).map fun r => (r.1, r.2.1)
           logPrior := e.logPrior
           scaler := s.scaler
           flowFwd := e.flowFwd s.flow
           flowInv := e.flowInv s.flow
           tMean := g.tMean
           tNu := g.tNu
           invCov := inv
           cholCov := chol
           beta := beta
           nMax := e.nMaxSteps
           nSteps := e.nSteps
           proposalScale := s.proposalScale
           haveBlobs := s.haveBlobs }

/-- sampler.py:619-631: the results written back. -/
noncomputable def writeBack (s : Sampler d B Φ) (c : Cur d B) (r : McmcResult d (List B)) : Sampler d B Φ × Cur d B :=
  let calls := c.it.calls + r.calls
  ({ s with calls := calls, proposalScale := r.proposalScale, evals := s.evals ++ r.evaluated },
   { c with it := { c.it with u := r.walkers.map (·.u)
                              x := r.walkers.map (·.x)
                              logdetj := r.walkers.map (·.logdetj)
                              logl := r.walkers.map (·.logl)
                              logp := r.walkers.map (·.logp)
                              blobs := if s.haveBlobs then some (r.walkers.map fun w => w.blob.getD []) else c.it.blobs
                              efficiency := r.efficiency / (fin 2.38 / sqrt (F.ofNat d))
                              steps := r.steps
                              accept := r.accept
                              calls := calls } })

/-- sampler.py:550-633 `_mutate`.  Simplification: a likelihood that starts returning blobs only during MCMC (so that
`have_blobs` changes there) is not modelled. -/
noncomputable def mutate (e : SamplerEnv d B Φ) (rnd : Rnd d Φ) (fuel : ℕ) (s : Sampler d B Φ) (c : Cur d B) :
    Except PyErr (Sampler d B Φ × Cur d B) := do
  let ws ← toWalkers c.it s.haveBlobs
  let k ← kernelEnv e s c.it.beta
  let r ← mcmc k fuel (rnd.mcmc s.t) ws
  return writeBack s c r

/-- One turn of the main loop without the save, sampler.py:497-510. -/
noncomputable def smcStep (e : SamplerEnv d B Φ) (rnd : Rnd d Φ) (fuel : ℕ) (s : Sampler d B Φ) :
    Except PyErr (Sampler d B Φ) := do
  let c ← orErr .attributeError s.cur
  let (s, c) ← reweight e fuel s c
  let s ← train e rnd s c
  let c ← resampleStep e rnd s c
  let (s, c) ← mutate e rnd fuel s c
  return { s with cur := some c, particles := s.particles.update (Cols.full c.it) }

/-! ### warm-up -/

/-- `a[dst] = a[src]` with index arrays: the right-hand side is read first. -/
def copyRows {α : Type} (a : List α) (dst src : List ℕ) : Except PyErr (List α) := do
  let vals ← gather a src
  return (dst.zip vals).foldl (fun a q => a.set q.1 q.2) a

/-- sampler.py:456-461: the infinite positions and their donors; `draw k` is the `k`-th integer draw. -/
def infDonors (logl : List F) (draw : ℕ → ℕ) : Except PyErr (List ℕ × List ℕ) :=
  let all := List.range logl.length
  let mask := logl.map F.isinf
  let infinite := maskSelect mask all
  let finite := maskSelect (mask.map (!·)) all
  if infinite = [] then .ok ([], [])
  else if finite = [] then .error .valueError
  else .ok (infinite, (List.range infinite.length).map fun k => finite.getD (draw k % finite.length) 0)

/-- One prior batch after the likelihood call. -/
structure Batch (d : ℕ) (B : Type) where
  x : List (Pt d)
  u : List (Pt d)
  logdetj : List F
  logp : List F
  logl : List F
  blobs : Option (List (List B))

/-- sampler.py:467-468. -/
def copyBlobs (haveBlobs : Bool) (blobs : Option (List (List B))) (dst src : List ℕ) :
    Except PyErr (Option (List (List B))) :=
  if haveBlobs then do
    let b ← orErr .typeError blobs
    let b ← copyRows b dst src
    return some b
  else .ok blobs

/-- sampler.py:456-468: replacement of particles with infinite likelihood. -/
def replaceInf (b : Batch d B) (haveBlobs : Bool) (draw : ℕ → ℕ) : Except PyErr (Batch d B) := do
  let (dst, src) ← infDonors b.logl draw
  if dst = [] then return b
  else
    let x ← copyRows b.x dst src
    let u ← copyRows b.u dst src
    let logdetj ← copyRows b.logdetj dst src
    let logp ← copyRows b.logp dst src
    let logl ← copyRows b.logl dst src
    let blobs ← copyBlobs haveBlobs b.blobs dst src
    return { x, u, logdetj, logp, logl, blobs }

/-- sampler.py:448-452: the batch of prior samples number `i` before the replacement, with the `have_blobs` flag. -/
noncomputable def warmupBatch (e : SamplerEnv d B Φ) (s : Sampler d B Φ) (i : ℕ) : Except PyErr (Batch d B × Bool) := do
  let ps ← orErr .typeError s.priorSamples
  let x := (ps.drop (i * e.nActive)).take e.nActive
  let u ← s.scaler.forward x
  let inv ← s.scaler.inverse u
  let (logl, blobs, hb) ← logLike e.like x
  return ({ x, u, logdetj := inv.map (·.2), logp := e.logPrior x, logl, blobs }, s.haveBlobs || hb)

/-- `prior_samples` after writing into the slice `x` (a numpy view of it). -/
def writeSlice {α : Type} (ps : List α) (start : ℕ) (x : List α) : List α :=
  ps.take start ++ x ++ ps.drop (start + x.length)

/-- sampler.py:470-473: the dictionary of a warm-up iteration. -/
def warmupIter (b : Batch d B) (nActive t calls nEff : ℕ) : Iter d (List B) :=
  { u := b.u, x := b.x, logdetj := b.logdetj, logl := b.logl, logp := b.logp
    logw := List.replicate nActive (fin (-1e300)), blobs := b.blobs, iter := t, logz := fin 0, calls := calls, steps := (1 : ℕ)
    efficiency := fin 1, ess := F.ofNat nEff, accept := fin 1, beta := fin 0 }

/-- sampler.py:448-488: one warm-up iteration. -/
noncomputable def warmupStep (e : SamplerEnv d B Φ) (rnd : Rnd d Φ) (s : Sampler d B Φ) (i : ℕ) :
    Except PyErr (Sampler d B Φ) := do
  let (b0, hb) ← warmupBatch e s i
  let calls := s.calls + e.nActive
  let b ← replaceInf b0 hb (rnd.warm s.t)
  let it := warmupIter b e.nActive s.t calls s.nEffective
  return { s with priorSamples := s.priorSamples.map fun ps => writeSlice ps (i * e.nActive) b.x
                  haveBlobs := hb
                  calls := calls
                  cur := some { it, weights := none }
                  particles := s.particles.update (Cols.full it)
                  t := s.t + 1
                  evals := s.evals ++ b0.x }

/-! ### evidence -/

/-- `l[mask]` for a mask computed from a list of the same length. -/
def keepFinite {α : Type} (logp : List F) (l : List α) : List α := maskSelect (logp.map F.isfinite) l

/-- sampler.py:907-910: log-weights and log-evidence from the kept draws. -/
noncomputable def evidenceOf (logl logp logdetj logq : List F) : List F × F :=
  let logw := List.zipWith (fun a b => a - b) (List.zipWith (· + ·) (List.zipWith (· + ·) logl logp) logdetj) logq
  (logw, lse logw - log (F.ofNat logw.length))

/-- sampler.py:913: the bootstrap error; `boot r k` is the `k`-th index draw of replicate `r`. -/
noncomputable def bootstrapErr (logw : List F) (n : ℕ) (boot : ℕ → ℕ → ℕ) : F :=
  F.std ((List.range (Max.max n 1000)).map fun r =>
    lse ((List.range logw.length).map fun k => logw.getD (boot r k % logw.length) nan) - log (F.ofNat logw.length))

/-- sampler.py:869-920 `_compute_evidence`. -/
noncomputable def computeEvidence (e : SamplerEnv d B Φ) (rnd : Rnd d Φ) (n : ℕ) (s : Sampler d B Φ) :
    Except PyErr (Sampler d B Φ) := do
  let draws := rnd.flowSample s.t s.flow n
  let inv ← s.scaler.inverse (draws.map (·.1))
  let logp := e.logPrior (inv.map (·.1))
  let xq := keepFinite logp (inv.map (·.1))
  let (logl, _, hb) ← logLike e.like xq
  let (logw, logz) := evidenceOf logl (keepFinite logp logp) (keepFinite logp (inv.map (·.2)))
    (keepFinite logp (draws.map (·.2)))
  return { s with calls := s.calls + logw.length
                  logz := some logz
                  logzErr := some (bootstrapErr logw n (rnd.boot s.t))
                  haveBlobs := s.haveBlobs || hb
                  evals := s.evals ++ xq }

/-- sampler.py:512-517. -/
noncomputable def finalEvidence (e : SamplerEnv d B Φ) (rnd : Rnd d Φ) (s : Sampler d B Φ) :
    Except PyErr (Sampler d B Φ) :=
  if s.nEvidence > 0 ∧ e.preconditioned = true then computeEvidence e rnd s.nEvidence s
  else do
    let (_, logz) ← computeLogwLogz s.particles.past (fin 1)
    return { s with logz := some logz, logzErr := none }

/-! ### run -/

/-- The two kinds of state file a run writes: `{label}_{t}.state` and `{label}_final.state` (sampler.py:446, 495, 521). -/
inductive SaveName where
  | iter (t : ℕ)
  | final
deriving DecidableEq

/-- A state file: its name and the state saved in it. -/
structure Save (d : ℕ) (B Φ : Type) where
  name : SaveName
  state : Sampler d B Φ

/-- The arguments of `run`. -/
structure RunArgs where
  nTotal : ℕ
  nEvidence : ℕ
  saveEvery : Option ℕ

/-- sampler.py:444-446, 493-495: save now? -/
def saveNow (saveEvery : Option ℕ) (t0 : ℕ) (s : Sampler d B Φ) : Except PyErr (List (Save d B Φ)) :=
  match saveEvery with
  | none => .ok []
  | some k =>
    if k = 0 then .error .zeroDivision
    else if (s.t - t0) % k = 0 ∧ s.t ≠ t0 then .ok [⟨.iter s.t, s⟩] else .ok []

/-- What a piece of a run did: the state files it wrote, and the state it ended in or the exception it raised. -/
abbrev Trace (d : ℕ) (B Φ : Type) := List (Save d B Φ) × Except PyErr (Sampler d B Φ)

/-- Sequential composition. -/
def Trace.andThen (a : Trace d B Φ) (f : Sampler d B Φ → Trace d B Φ) : Trace d B Φ :=
  match a with
  | (l, .error x) => (l, .error x)
  | (l, .ok s) => (l ++ (f s).1, (f s).2)

/-- A step that writes no file. -/
def Trace.lift (a : Except PyErr (Sampler d B Φ)) : Trace d B Φ := ([], a)

/-- The save at the top of a loop body. -/
def Trace.save (saveEvery : Option ℕ) (t0 : ℕ) (s : Sampler d B Φ) : Trace d B Φ :=
  match saveNow saveEvery t0 s with
  | .error x => ([], .error x)
  | .ok l => (l, .ok s)

/-- sampler.py:443-488 the warm-up loop over the batches `i, i+1, …` (`n` of them). -/
noncomputable def warmupLoop (e : SamplerEnv d B Φ) (rnd : Rnd d Φ) (saveEvery : Option ℕ) (t0 : ℕ) :
    ℕ → ℕ → Sampler d B Φ → Trace d B Φ
  | 0, _, s => ([], .ok s)
  | n + 1, i, s =>
    (Trace.save saveEvery t0 s).andThen fun s =>
      (Trace.lift (warmupStep e rnd s i)).andThen fun s => warmupLoop e rnd saveEvery t0 n (i + 1) s

/-- sampler.py:492-510 the main loop; `diverged` when the fuel runs out. -/
noncomputable def smcLoop (e : SamplerEnv d B Φ) (rnd : Rnd d Φ) (fuel : ℕ) (saveEvery : Option ℕ) (t0 : ℕ) :
    ℕ → Sampler d B Φ → Trace d B Φ
  | n, s =>
    match notTermination e s with
    | .error x => ([], .error x)
    | .ok false => ([], .ok s)
    | .ok true =>
      match n with
      | 0 => ([], .error .diverged)
      | n + 1 =>
        (Trace.save saveEvery t0 s).andThen fun s =>
          (Trace.lift (smcStep e rnd fuel s)).andThen fun s => smcLoop e rnd fuel saveEvery t0 n s

/-- sampler.py:434-440: run parameters and prior samples. -/
noncomputable def runInit (e : SamplerEnv d B Φ) (rnd : Rnd d Φ) (a : RunArgs) (s : Sampler d B Φ) :
    Except PyErr (Sampler d B Φ) :=
  let s := { s with nTotal := a.nTotal, nEvidence := a.nEvidence }
  match s.priorSamples with
  | some _ => .ok s
  | none => do
    let ps := rnd.prior e.nPrior
    let scaler ← s.scaler.fit ps
    return { s with priorSamples := some ps, scaler := scaler }

/-- sampler.py:442-489: the warm-up, if it is still due. -/
noncomputable def runWarmup (e : SamplerEnv d B Φ) (rnd : Rnd d Φ) (a : RunArgs) (t0 : ℕ) (s : Sampler d B Φ) :
    Trace d B Φ :=
  if s.warmup then
    if e.nActive = 0 then ([], .error .zeroDivision)
    else (warmupLoop e rnd a.saveEvery t0 (e.nPrior / e.nActive) 0 s).andThen fun s => ([], .ok { s with warmup := false })
  else ([], .ok s)

/-- sampler.py:405-524 `run`, on a new sampler, on one that has run before, or (with `resume_state_path`) on the loaded
state: in each case `t0 = self.t`. -/
noncomputable def run (e : SamplerEnv d B Φ) (rnd : Rnd d Φ) (fuel n : ℕ) (a : RunArgs) (s : Sampler d B Φ) :
    Trace d B Φ :=
  let t0 := s.t
  (Trace.lift (runInit e rnd a s)).andThen fun s =>
  (runWarmup e rnd a t0 s).andThen fun s =>
  (smcLoop e rnd fuel a.saveEvery t0 n s).andThen fun s =>
  (Trace.lift (finalEvidence e rnd s)).andThen fun s =>
    (match a.saveEvery with
     | none => []
     | some _ => [⟨.final, s⟩], .ok s)

end Poco
