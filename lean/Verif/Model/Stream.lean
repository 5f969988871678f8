import Verif.Model.Sampler

/-!
# The random numbers of a run, drawn from the global generators

In `Model/Sampler` the random numbers are oracles indexed by iteration, step and walker.  In the code they come from
numpy's and torch's global generators, one after the other, in the order of the calls.  Here the run is written with the
state `w : W` of the two generators passed from call to call; what a call returns may depend on its arguments and on
`w` in any way.  `Props/Stream` relates the two.

The user's likelihood and prior density draw no random numbers here.
-/

namespace Poco
open F

/-- The calls that draw random numbers.  Each returns its values and the next state of the generators. -/
structure Gen (d : ℕ) (Φ W : Type) where
  /-- `np.random.seed(n); torch.manual_seed(n)`, sampler.py:196-197: both generators are overwritten. -/
  seed : ℕ → W
  /-- The initial weights of a flow the constructor builds, sampler.py:286 (flow.py:54-86). -/
  newFlow : W → Φ × W
  /-- `self.prior.rvs(n)`, sampler.py:439 -/
  prior : ℕ → W → List (Pt d) × W
  /-- `size` integers below `n`: `np.random.choice(a, size)` without `p`, sampler.py:461, 913; arguments `n`, `size` -/
  ints : ℕ → ℕ → W → List ℕ × W
  /-- `size` uniform numbers: `np.random.rand` (mcmc.py:137, 299, 466, 614), `np.random.choice` with `p`
  (sampler.py:703), `np.random.random` (tools.py:175) -/
  uniform : ℕ → W → List ℝ × W
  /-- `np.random.gamma(shape, scale)`, mcmc.py:80, 412 -/
  gamma : F → F → W → F × W
  /-- `np.random.randn(n_dim)`, mcmc.py:85, 253, 417, 571 -/
  randn : W → Pt d × W
  /-- `self.flow.fit(u, weights=w, …)`, sampler.py:655-669 -/
  flowFit : Φ → List (Pt d) → List F → W → Except PyErr (Φ × W)
  /-- `Geometry.fit`, sampler.py:672, 674; it resamples systematically (geometry.py:51) -/
  geoFit : List (Pt d) → List F → W → Except PyErr (Geo d × W)
  /-- `self.flow.sample(n)`, sampler.py:887 -/
  flowSample : Φ → ℕ → W → List (Pt d × F) × W

variable {d : ℕ} {B Φ W : Type}

/-! ### MCMC -/

/-- mcmc.py:79-80, 411-412: one gamma variate per walker, in order. -/
noncomputable def gammasG (gen : Gen d Φ W) (e : McmcEnv d B) (mu : Pt d) : List (Walker d B) → W → List F × W
  | [], w => ([], w)
  | q :: qs, w =>
    let p := gammaParams e mu q.theta
    let a := gen.gamma p.1 p.2 w
    let r := gammasG gen e mu qs a.2
    (a.1 :: r.1, r.2)

/-- mcmc.py:84-85, 252-253, 416-417, 570-571: one normal vector per walker, in order. -/
def normalsG (gen : Gen d Φ W) : ℕ → W → List (Pt d) × W
  | 0, w => ([], w)
  | n + 1, w =>
    let a := gen.randn w
    let r := normalsG gen n a.2
    (a.1 :: r.1, r.2)

/-- mcmc.py:77-80, 409-412; the random-walk kernels draw no gamma variates. -/
noncomputable def scalesG (gen : Gen d Φ W) (e : McmcEnv d B) (st : McmcState d B) (w : W) : List F × W :=
  if e.kernel.isPcn then gammasG gen e st.mu st.walkers w else ([], w)

/-- One step: the gamma variates of all walkers, then the normal vectors of all walkers, then (after prior and
likelihood have been evaluated, which draws nothing) one uniform number per walker. -/
noncomputable def mcmcStepG (gen : Gen d Φ W) (e : McmcEnv d B) (fuel i : ℕ) (st : McmcState d B) (w : W) :
    Except PyErr (McmcState d B × W) :=
  let gs := scalesG gen e st w
  let zs := normalsG gen st.walkers.length gs.2
  let us := gen.uniform st.walkers.length zs.2
  (mcmcStep e fuel (fun k => ⟨gs.1.getD k nan, zs.1.getD k (fun _ => nan), fin (us.1.getD k 0)⟩) i st).map fun st' => (st', us.2)

/-- The `while True` loop. -/
noncomputable def mcmcLoopG (gen : Gen d Φ W) (e : McmcEnv d B) (fuel i : ℕ) (st : McmcState d B) (w : W) :
    Except PyErr (McmcState d B × ℕ × W) :=
  match mcmcStepG gen e fuel (i + 1) st w with
  | .error x => .error x
  | .ok (st', w) =>
    if st'.stop then .ok (st', i + 1, w)
    else if e.nMax ≤ i + 1 then .ok (st', i + 1, w)
    else mcmcLoopG gen e fuel (i + 1) st' w
termination_by e.nMax - i

/-- A whole kernel call. -/
noncomputable def mcmcG (gen : Gen d Φ W) (e : McmcEnv d B) (fuel : ℕ) (ws : List (Walker d B)) (w : W) :
    Except PyErr (McmcResult d B × W) :=
  match mcmcLoopG gen e fuel 0 (mcmcInit e ws) w with
  | .error x => .error x
  | .ok (st, i, w) => .ok ({ walkers := st.walkers, efficiency := st.sigma, accept := st.accept, steps := i,
                             calls := st.calls, proposalScale := st.sigma, evaluated := st.evaluated }, w)

/-! ### the main loop -/

/-- sampler.py:636-678 `_train`. -/
noncomputable def trainG (gen : Gen d Φ W) (e : SamplerEnv d B Φ) (s : Sampler d B Φ) (c : Cur d B) (w : W) :
    Except PyErr (Sampler d B Φ × W) := do
  let wts ← orErr .typeError c.weights
  if ← trainNow e s c.it.beta then
    let f ← gen.flowFit s.flow c.it.u wts w
    let theta := c.it.u.map fun u => (e.flowFwd f.1 u).1
    let g ← gen.geoFit theta wts f.2
    return ({ s with flowUntrained := false, flow := f.1, thetaGeometry := some g.1 }, g.2)
  else
    let g ← gen.geoFit c.it.u wts w
    return ({ s with uGeometry := some g.1 }, g.2)

/-- sampler.py:702-705. -/
noncomputable def resampleIdxG (gen : Gen d Φ W) (e : SamplerEnv d B Φ) (wts : List F) (w : W) : Except PyErr (List ℕ × W) :=
  match e.resample with
  | .mult => (multinomialResample wts (gen.uniform e.nActive w).1).map fun idx => (idx, (gen.uniform e.nActive w).2)
  | .syst => (systematicResample e.nActive wts ((gen.uniform 1 w).1.getD 0 0)).map fun idx => (idx, (gen.uniform 1 w).2)

/-- sampler.py:680-715 `_resample`. -/
noncomputable def resampleStepG (gen : Gen d Φ W) (e : SamplerEnv d B Φ) (s : Sampler d B Φ) (c : Cur d B) (w : W) :
    Except PyErr (Cur d B × W) := do
  let wts ← orErr .typeError c.weights
  let r ← resampleIdxG gen e wts w
  let u ← gather c.it.u r.1
  let x ← gather c.it.x r.1
  let logdetj ← gather c.it.logdetj r.1
  let logl ← gather c.it.logl r.1
  let logp ← gather c.it.logp r.1
  let blobs ← resampleBlobs s.haveBlobs c.it.blobs r.1
  return ({ c with it := { c.it with u, x, logdetj, logl, logp, blobs } }, r.2)

/-- sampler.py:550-633 `_mutate`. -/
noncomputable def mutateG (gen : Gen d Φ W) (e : SamplerEnv d B Φ) (fuel : ℕ) (s : Sampler d B Φ) (c : Cur d B) (w : W) :
    Except PyErr (Sampler d B Φ × Cur d B × W) := do
  let ws ← toWalkers c.it s.haveBlobs
  let k ← kernelEnv e s c.it.beta
  let r ← mcmcG gen k fuel ws w
  return ((writeBack s c r.1).1, (writeBack s c r.1).2, r.2)

/-- One turn of the main loop, sampler.py:497-510. -/
noncomputable def smcStepG (gen : Gen d Φ W) (e : SamplerEnv d B Φ) (fuel : ℕ) (s : Sampler d B Φ) (w : W) :
    Except PyErr (Sampler d B Φ × W) := do
  let c ← orErr .attributeError s.cur
  let a ← reweight e fuel s c
  let b ← trainG gen e a.1 a.2 w
  let r ← resampleStepG gen e b.1 a.2 b.2
  let m ← mutateG gen e fuel b.1 r.1 r.2
  return ({ m.1 with cur := some m.2.1, particles := m.1.particles.update (Cols.full m.2.1.it) }, m.2.2)

/-! ### warm-up -/

/-- sampler.py:456-461: integers are drawn only if some log-likelihood is infinite (and some is not). -/
def warmDrawsG (gen : Gen d Φ W) (logl : List F) (w : W) : List ℕ × W :=
  let mask := logl.map F.isinf
  if mask.count true = 0 then ([], w) else gen.ints (mask.count false) (mask.count true) w

/-- sampler.py:448-488: one warm-up iteration. -/
noncomputable def warmupStepG (gen : Gen d Φ W) (e : SamplerEnv d B Φ) (s : Sampler d B Φ) (i : ℕ) (w : W) :
    Except PyErr (Sampler d B Φ × W) := do
  let b0 ← warmupBatch e s i
  let calls := s.calls + e.nActive
  let draws := warmDrawsG gen b0.1.logl w
  let b ← replaceInf b0.1 b0.2 (fun k => draws.1.getD k 0)
  let it := warmupIter b e.nActive s.t calls s.nEffective
  return ({ s with priorSamples := s.priorSamples.map fun ps => writeSlice ps (i * e.nActive) b.x
                   haveBlobs := b0.2
                   calls := calls
                   cur := some { it, weights := none }
                   particles := s.particles.update (Cols.full it)
                   t := s.t + 1
                   evals := s.evals ++ b0.1.x }, draws.2)

/-! ### evidence -/

/-- sampler.py:913: `reps` rows of `n` indices below `n`. -/
def bootG (gen : Gen d Φ W) (n : ℕ) : ℕ → W → List (List ℕ) × W
  | 0, w => ([], w)
  | reps + 1, w =>
    let a := gen.ints n n w
    let r := bootG gen n reps a.2
    (a.1 :: r.1, r.2)

/-- sampler.py:869-920 `_compute_evidence`. -/
noncomputable def computeEvidenceG (gen : Gen d Φ W) (e : SamplerEnv d B Φ) (n : ℕ) (s : Sampler d B Φ) (w : W) :
    Except PyErr (Sampler d B Φ × W) := do
  let q := gen.flowSample s.flow n w
  let inv ← s.scaler.inverse (q.1.map (·.1))
  let logp := e.logPrior (inv.map (·.1))
  let xq := keepFinite logp (inv.map (·.1))
  let l ← logLike e.like xq
  let z := evidenceOf l.1 (keepFinite logp logp) (keepFinite logp (inv.map (·.2))) (keepFinite logp (q.1.map (·.2)))
  let bt := bootG gen z.1.length (Max.max n 1000) q.2
  return ({ s with calls := s.calls + z.1.length
                   logz := some z.2
                   logzErr := some (bootstrapErr z.1 n fun r k => (bt.1.getD r []).getD k 0)
                   haveBlobs := s.haveBlobs || l.2.2
                   evals := s.evals ++ xq }, bt.2)

/-- sampler.py:512-517. -/
noncomputable def finalEvidenceG (gen : Gen d Φ W) (e : SamplerEnv d B Φ) (s : Sampler d B Φ) (w : W) :
    Except PyErr (Sampler d B Φ × W) :=
  if s.nEvidence > 0 ∧ e.preconditioned = true then computeEvidenceG gen e s.nEvidence s w
  else do
    let z ← computeLogwLogz s.particles.past (fin 1)
    return ({ s with logz := some z.2, logzErr := none }, w)

/-! ### run -/

/-- The state files written, and the state of the sampler and of the generators at the end, or the exception. -/
abbrev TraceG (d : ℕ) (B Φ W : Type) := List (Save d B Φ) × Except PyErr (Sampler d B Φ × W)

/-- Sequential composition. -/
def TraceG.andThen (a : TraceG d B Φ W) (f : Sampler d B Φ → W → TraceG d B Φ W) : TraceG d B Φ W :=
  match a with
  | (l, .error x) => (l, .error x)
  | (l, .ok (s, w)) => (l ++ (f s w).1, (f s w).2)

/-- A step that writes no file. -/
def TraceG.lift (a : Except PyErr (Sampler d B Φ × W)) : TraceG d B Φ W := ([], a)

/-- The save at the top of a loop body (draws nothing). -/
def TraceG.save (saveEvery : Option ℕ) (t0 : ℕ) (s : Sampler d B Φ) (w : W) : TraceG d B Φ W :=
  match saveNow saveEvery t0 s with
  | .error x => ([], .error x)
  | .ok l => (l, .ok (s, w))

/-- sampler.py:443-488 the warm-up loop. -/
noncomputable def warmupLoopG (gen : Gen d Φ W) (e : SamplerEnv d B Φ) (saveEvery : Option ℕ) (t0 : ℕ) :
    ℕ → ℕ → Sampler d B Φ → W → TraceG d B Φ W
  | 0, _, s, w => ([], .ok (s, w))
  | n + 1, i, s, w =>
    (TraceG.save saveEvery t0 s w).andThen fun s w =>
      (TraceG.lift (warmupStepG gen e s i w)).andThen fun s w => warmupLoopG gen e saveEvery t0 n (i + 1) s w

/-- sampler.py:492-510 the main loop; `diverged` when the fuel runs out. -/
noncomputable def smcLoopG (gen : Gen d Φ W) (e : SamplerEnv d B Φ) (fuel : ℕ) (saveEvery : Option ℕ) (t0 : ℕ) :
    ℕ → Sampler d B Φ → W → TraceG d B Φ W
  | n, s, w =>
    match notTermination e s with
    | .error x => ([], .error x)
    | .ok false => ([], .ok (s, w))
    | .ok true =>
      match n with
      | 0 => ([], .error .diverged)
      | n + 1 =>
        (TraceG.save saveEvery t0 s w).andThen fun s w =>
          (TraceG.lift (smcStepG gen e fuel s w)).andThen fun s w => smcLoopG gen e fuel saveEvery t0 n s w

/-- sampler.py:434-440: run parameters and prior samples. -/
noncomputable def runInitG (gen : Gen d Φ W) (e : SamplerEnv d B Φ) (a : RunArgs) (s : Sampler d B Φ) (w : W) :
    Except PyErr (Sampler d B Φ × W) :=
  let s := { s with nTotal := a.nTotal, nEvidence := a.nEvidence }
  match s.priorSamples with
  | some _ => .ok (s, w)
  | none => do
    let scaler ← s.scaler.fit (gen.prior e.nPrior w).1
    return ({ s with priorSamples := some (gen.prior e.nPrior w).1, scaler := scaler }, (gen.prior e.nPrior w).2)

/-- sampler.py:442-489. -/
noncomputable def runWarmupG (gen : Gen d Φ W) (e : SamplerEnv d B Φ) (a : RunArgs) (t0 : ℕ) (s : Sampler d B Φ) (w : W) :
    TraceG d B Φ W :=
  if s.warmup then
    if e.nActive = 0 then ([], .error .zeroDivision)
    else (warmupLoopG gen e a.saveEvery t0 (e.nPrior / e.nActive) 0 s w).andThen fun s w => ([], .ok ({ s with warmup := false }, w))
  else ([], .ok (s, w))

/-- sampler.py:405-524 `run`. -/
noncomputable def runG (gen : Gen d Φ W) (e : SamplerEnv d B Φ) (fuel n : ℕ) (a : RunArgs) (s : Sampler d B Φ) (w : W) :
    TraceG d B Φ W :=
  let t0 := s.t
  (TraceG.lift (runInitG gen e a s w)).andThen fun s w =>
  (runWarmupG gen e a t0 s w).andThen fun s w =>
  (smcLoopG gen e fuel a.saveEvery t0 n s w).andThen fun s w =>
  (TraceG.lift (finalEvidenceG gen e s w)).andThen fun s w =>
    (match a.saveEvery with
      | none => []
      | some _ => [⟨.final, s⟩], .ok (s, w))

/-- sampler.py:195-198, 286: the constructor. With a `random_state` it overwrites the state of the generators; then it
builds the flow.  `make` is the rest of the constructor, which draws nothing. -/
def buildG (gen : Gen d Φ W) (randomState : Option ℕ) (make : Φ → Sampler d B Φ) (w : W) : Sampler d B Φ × W :=
  let w := match randomState with
    | some n => gen.seed n
    | none => w
  (make (gen.newFlow w).1, (gen.newFlow w).2)

/-! ### a process -/

/-- What code in the process can do with samplers and with the global generators. -/
inductive Act (d : ℕ) (B Φ W : Type) where
  /-- `x_i = Sampler(…, random_state=randomState)` -/
  | build (i : ℕ) (randomState : Option ℕ) (make : Φ → Sampler d B Φ)
  /-- `x_i.run(…)`, sampler.py:405 (`e`: the settings `x_i` was built with) -/
  | run (i : ℕ) (e : SamplerEnv d B Φ) (fuel n : ℕ) (a : RunArgs)
  /-- any other code that draws random numbers or seeds the generators -/
  | other (f : W → W)

/-- The samplers of a process (`x_i`) and the state of its global generators. -/
structure Process (d : ℕ) (B Φ W : Type) where
  var : ℕ → Option (Sampler d B Φ)
  rng : W

/-- One action; an exception (also a name that is not bound, shown as a missing key) ends the program. -/
noncomputable def Act.step (gen : Gen d Φ W) (p : Process d B Φ W) : Act d B Φ W → Except PyErr (Process d B Φ W)
  | .build i rs make => .ok ⟨Function.update p.var i (some (buildG gen rs make p.rng).1), (buildG gen rs make p.rng).2⟩
  | .run i e fuel n a => do
    let s ← orErr .keyError (p.var i)
    let r ← (runG gen e fuel n a s p.rng).2
    return ⟨Function.update p.var i (some r.1), r.2⟩
  | .other f => .ok { p with rng := f p.rng }

/-- A program. -/
noncomputable def exec (gen : Gen d Φ W) : List (Act d B Φ W) → Process d B Φ W → Except PyErr (Process d B Φ W)
  | [], p => .ok p
  | c :: cs, p => do
    let q ← c.step gen p
    exec gen cs q

end Poco
