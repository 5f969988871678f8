import Verif.Model.Sampler

/-! `run` again, this time with the state the sampler is left in when something raises: a likelihood call, a linear algebra routine, the training of the flow, or
the user's interrupt, which may arrive before any operation and any assignment. `Model/Sampler.lean` says what `run` returns; here every assignment is made at the
place where the code makes it, so that an exception finds the sampler as it is at that moment. `runX_spec` (Lemmas/Failure.lean) says that the two agree on what is
returned and what is raised.

Not modelled: an interrupt inside numpy, torch or the user's functions that leaves their own objects in a state of its own (other than the flow and the geometries,
below); an interrupt while a state file is written; the attributes of the progress bar; `have_blobs` set by a likelihood call that raises while the blobs are made
into an array (sampler.py:835-858). -/

namespace Poco
open F

variable {d : ℕ} {B Φ : Type}

/-- A piece of a run: from the time of the interrupt (`none`: no interrupt; `some n`: it arrives after `n` more operations) and the state before to the result, or
the exception, and the state after. -/
abbrev PyM (d : ℕ) (B Φ : Type) := StateT (Option ℕ) (EStateM PyErr (Sampler d B Φ))

/-- The interrupt arrives now, or one operation nearer. -/
def PyM.tick (m : Moment) : PyM d B Φ Unit := fun k =>
  match k with
  | none => pure ((), none)
  | some 0 => throw (.keyboardInterrupt m)
  | some (n + 1) => pure ((), some n)

/-- The attributes of the sampler. -/
def PyM.look : PyM d B Φ (Sampler d B Φ) := fun k => do
  let s ← get
  return (s, k)

/-- An assignment to attributes. -/
def PyM.changeAt (m : Moment) (f : Sampler d B Φ → Sampler d B Φ) : PyM d B Φ Unit := do
  PyM.tick m
  fun k => do
    modify f
    return ((), k)

def PyM.change (f : Sampler d B Φ → Sampler d B Φ) : PyM d B Φ Unit := PyM.changeAt .elsewhere f

/-- An operation that changes no attribute, but may raise. -/
def PyM.callAt {α : Type} (m : Moment) (a : Except PyErr α) : PyM d B Φ α := do
  PyM.tick m
  match a with
  | .ok v => pure v
  | .error x => throw x

def PyM.call {α : Type} (a : Except PyErr α) : PyM d B Φ α := PyM.callAt .elsewhere a

/-- `current_particles[...] = ...`: the dictionary is the attribute `self.current_particles`, changed in place. -/
def PyM.assign (f : Cur d B → Cur d B) : PyM d B Φ Unit := PyM.change fun s => { s with cur := s.cur.map f }

/-- An operation that works on an object in place: when it raises, or is interrupted, something is left behind. -/
def PyM.fit {α : Type} (a : Except PyErr α) (left : Sampler d B Φ → Sampler d B Φ) : PyM d B Φ α := fun k =>
  match k, a with
  | some 0, _ => do
    modify left
    throw (.keyboardInterrupt .elsewhere)
  | none, .ok v => pure (v, none)
  | some (n + 1), .ok v => pure (v, some n)
  | _, .error x => do
    modify left
    throw x

/-- What is left behind by an operation that raises half-way: the parameters of a flow whose training raised (flow.py:303-390), and a geometry whose fit raised
(geometry.py:31-57), which may hold any mixture of old, new and missing attributes. -/
structure Leftover (d : ℕ) (Φ : Type) where
  flow : ℕ → Φ
  uGeo : ℕ → Option (Geo d)
  thetaGeo : ℕ → Option (Geo d)

/-- sampler.py:717-805 `_reweight`. -/
noncomputable def reweightX (e : SamplerEnv d B Φ) (fuel : ℕ) : PyM d B Φ Unit := do
  PyM.change fun s => { s with t := s.t + 1 }
  let s ← PyM.look
  let (beta, logz, ess) ← PyM.call (chooseBeta s.particles.past e.metric (F.ofNat s.nEffective) fuel)
  let (w, nEff) ← PyM.call (reweightWeights e s beta)
  PyM.change fun s => { s with nEffective := nEff }
  let tr ← PyM.call (trimWeights (List.range w.length) w (fin 0.99) 1000)
  let u ← PyM.call (getFlat s.particles.past.u >>= fun a => gather a tr.samples)
  PyM.assign fun c => { c with it := { c.it with u := u } }
  let x ← PyM.call (getFlat s.particles.past.x >>= fun a => gather a tr.samples)
  PyM.assign fun c => { c with it := { c.it with x := x } }
  let logdetj ← PyM.call (getFlat s.particles.past.logdetj >>= fun a => gather a tr.samples)
  PyM.assign fun c => { c with it := { c.it with logdetj := logdetj } }
  let logl ← PyM.call (getFlat s.particles.past.logl >>= fun a => gather a tr.samples)
  PyM.assign fun c => { c with it := { c.it with logl := logl } }
  let logp ← PyM.call (getFlat s.particles.past.logp >>= fun a => gather a tr.samples)
  PyM.assign fun c => { c with it := { c.it with logp := logp } }
  if s.haveBlobs then
    let blobs ← PyM.call (flatBlobs s.particles.past.blobs >>= fun a => gather a tr.samples)
    PyM.assign fun c => { c with it := { c.it with blobs := some blobs } }
  PyM.assign fun c => { it := { c.it with logz := logz, beta := beta, ess := ess }, weights := some tr.weights }

/-- sampler.py:653-669: the flow is marked as trained first, then trained. -/
noncomputable def trainFlowX (rnd : Rnd d Φ) (lo : Leftover d Φ) (s : Sampler d B Φ) (u : List (Pt d)) (w : List F) : PyM d B Φ Φ := do
  PyM.change fun s => { s with flowUntrained := false }
  let flow ← PyM.fit (rnd.flowFit s.t s.flow u w) fun s => { s with flow := lo.flow s.t }
  PyM.change fun s => { s with flow := flow }
  return flow

/-- sampler.py:671-672 and geometry.py:31-57: the geometry of the latent space. -/
noncomputable def fitThetaX (rnd : Rnd d Φ) (lo : Leftover d Φ) (t : ℕ) (theta : List (Pt d)) (w : List F) : PyM d B Φ Unit := do
  let g ← PyM.fit (rnd.geoFit t theta w) fun s => { s with thetaGeometry := lo.thetaGeo t }
  PyM.change fun s => { s with thetaGeometry := some g }

/-- sampler.py:674. -/
noncomputable def fitUX (rnd : Rnd d Φ) (lo : Leftover d Φ) (t : ℕ) (u : List (Pt d)) (w : List F) : PyM d B Φ Unit := do
  let g ← PyM.fit (rnd.geoFit t u w) fun s => { s with uGeometry := lo.uGeo t }
  PyM.change fun s => { s with uGeometry := some g }

/-- sampler.py:636-678 `_train`. -/
noncomputable def trainX (e : SamplerEnv d B Φ) (rnd : Rnd d Φ) (lo : Leftover d Φ) : PyM d B Φ Unit := do
  let s ← PyM.look
  let c ← PyM.call (orErr .attributeError s.cur)
  let w ← PyM.call (orErr .typeError c.weights)
  let now ← PyM.call (trainNow e s c.it.beta)
  if now then
    let flow ← trainFlowX rnd lo s c.it.u w
    fitThetaX rnd lo s.t (c.it.u.map fun u => (e.flowFwd flow u).1) w
  else fitUX rnd lo s.t c.it.u w

/-- sampler.py:680-715 `_resample`. -/
noncomputable def resampleX (e : SamplerEnv d B Φ) (rnd : Rnd d Φ) : PyM d B Φ Unit := do
  let s ← PyM.look
  let c ← PyM.call (orErr .attributeError s.cur)
  let w ← PyM.call (orErr .typeError c.weights)
  let idx ← PyM.call (resampleIdx e rnd s.t w)
  let u ← PyM.call (gather c.it.u idx)
  PyM.assign fun c => { c with it := { c.it with u := u } }
  let x ← PyM.call (gather c.it.x idx)
  PyM.assign fun c => { c with it := { c.it with x := x } }
  let logdetj ← PyM.call (gather c.it.logdetj idx)
  PyM.assign fun c => { c with it := { c.it with logdetj := logdetj } }
  let logl ← PyM.call (gather c.it.logl idx)
  PyM.assign fun c => { c with it := { c.it with logl := logl } }
  let logp ← PyM.call (gather c.it.logp idx)
  PyM.assign fun c => { c with it := { c.it with logp := logp } }
  let blobs ← PyM.call (resampleBlobs s.haveBlobs c.it.blobs idx)
  PyM.assign fun c => { c with it := { c.it with blobs := blobs } }

/-- sampler.py:619-631: the results of the kernel are written back, key by key (`evals` is the model's record of the calls the kernel has made). -/
noncomputable def writeBackX (s : Sampler d B Φ) (r : McmcResult d (List B)) : PyM d B Φ Unit := do
  PyM.change fun s => { s with evals := s.evals ++ r.evaluated }
  PyM.assign fun c => { c with it := { c.it with u := r.walkers.map (·.u) } }
  PyM.assign fun c => { c with it := { c.it with x := r.walkers.map (·.x) } }
  PyM.assign fun c => { c with it := { c.it with logdetj := r.walkers.map (·.logdetj) } }
  PyM.assign fun c => { c with it := { c.it with logl := r.walkers.map (·.logl) } }
  PyM.assign fun c => { c with it := { c.it with logp := r.walkers.map (·.logp) } }
  if s.haveBlobs then PyM.assign fun c => { c with it := { c.it with blobs := some (r.walkers.map fun w => w.blob.getD []) } }
  PyM.assign fun c => { c with it := { c.it with efficiency := r.efficiency / (fin 2.38 / sqrt (F.ofNat d)) } }
  PyM.assign fun c => { c with it := { c.it with steps := r.steps } }
  PyM.assign fun c => { c with it := { c.it with accept := r.accept } }
  PyM.assign fun c => { c with it := { c.it with calls := c.it.calls + r.calls } }
  let s ← PyM.look
  let c ← PyM.call (orErr .attributeError s.cur)
  PyM.change fun s => { s with calls := c.it.calls }
  PyM.change fun s => { s with proposalScale := r.proposalScale }

/-- sampler.py:550-633 `_mutate`: the kernels work on copies; their results are written back when they return. -/
noncomputable def mutateX (e : SamplerEnv d B Φ) (rnd : Rnd d Φ) (fuel : ℕ) : PyM d B Φ Unit := do
  let s ← PyM.look
  let c ← PyM.call (orErr .attributeError s.cur)
  let ws ← PyM.call (toWalkers c.it s.haveBlobs)
  let k ← PyM.call (kernelEnv e s c.it.beta)
  let r ← PyM.call (mcmc k fuel (rnd.mcmc s.t) ws)
  writeBackX s r

/-- particles.py:148 for one key. -/
def PyM.append (m : Moment) (f : Cols d (List B) List → Cols d (List B) List) : PyM d B Φ Unit :=
  PyM.changeAt m fun s => { s with particles := { s.particles with past := f s.particles.past } }

/-- sampler.py:475 and 510 `self.particles.update(self.current_particles)`, particles.py:144-148: one key after the other, in the order of the dictionary
(sampler.py:470-473). -/
def storeX (it : Iter d (List B)) : PyM d B Φ Unit := do
  PyM.append .elsewhere fun p => { p with u := p.u ++ [it.u] }
  PyM.append .storing fun p => { p with x := p.x ++ [it.x] }
  PyM.append .storing fun p => { p with logl := p.logl ++ [it.logl] }
  PyM.append .storing fun p => { p with logp := p.logp ++ [it.logp] }
  PyM.append .storing fun p => { p with logdetj := p.logdetj ++ [it.logdetj] }
  PyM.append .storing fun p => { p with logw := p.logw ++ [it.logw] }
  PyM.append .storing fun p => { p with blobs := p.blobs ++ [it.blobs] }
  PyM.append .storing fun p => { p with iter := p.iter ++ [it.iter] }
  PyM.append .storing fun p => { p with calls := p.calls ++ [it.calls] }
  PyM.append .storing fun p => { p with steps := p.steps ++ [it.steps] }
  PyM.append .storing fun p => { p with efficiency := p.efficiency ++ [it.efficiency] }
  PyM.append .storing fun p => { p with ess := p.ess ++ [it.ess] }
  PyM.append .storing fun p => { p with accept := p.accept ++ [it.accept] }
  PyM.append .storing fun p => { p with beta := p.beta ++ [it.beta] }
  PyM.append .storing fun p => { p with logz := p.logz ++ [it.logz] }

/-- One turn of the main loop without the save, sampler.py:497-510. -/
noncomputable def smcStepX (e : SamplerEnv d B Φ) (rnd : Rnd d Φ) (lo : Leftover d Φ) (fuel : ℕ) : PyM d B Φ Unit := do
  let s ← PyM.look
  let _ ← PyM.call (orErr .attributeError s.cur)
  reweightX e fuel
  trainX e rnd lo
  resampleX e rnd
  mutateX e rnd fuel
  let s ← PyM.look
  let c ← PyM.call (orErr .attributeError s.cur)
  storeX c.it

/-- sampler.py:456-468: replacement of particles with infinite likelihood; `x` is a view of the prior samples, which change with it. -/
noncomputable def replaceInfX (start : ℕ) (b : Batch d B) (haveBlobs : Bool) (draw : ℕ → ℕ) : PyM d B Φ (Batch d B) := do
  let (dst, src) ← PyM.call (infDonors b.logl draw)
  if dst = [] then return b
  else
    let x ← PyM.call (copyRows b.x dst src)
    PyM.change fun s => { s with priorSamples := s.priorSamples.map fun ps => writeSlice ps start x }
    let u ← PyM.call (copyRows b.u dst src)
    let logdetj ← PyM.call (copyRows b.logdetj dst src)
    let logp ← PyM.call (copyRows b.logp dst src)
    let logl ← PyM.call (copyRows b.logl dst src)
    let blobs ← PyM.call (copyBlobs haveBlobs b.blobs dst src)
    return { x, u, logdetj, logp, logl, blobs }

/-- sampler.py:448-488: one warm-up iteration. -/
noncomputable def warmupStepX (e : SamplerEnv d B Φ) (rnd : Rnd d Φ) (i : ℕ) : PyM d B Φ Unit := do
  let s ← PyM.look
  let (b0, hb) ← PyM.call (warmupBatch e s i)
  PyM.change fun s => { s with haveBlobs := hb, evals := s.evals ++ b0.x }
  PyM.change fun s => { s with calls := s.calls + e.nActive }
  let b ← replaceInfX (i * e.nActive) b0 hb (rnd.warm s.t)
  let s ← PyM.look
  let it := warmupIter b e.nActive s.t s.calls s.nEffective
  PyM.change fun s => { s with cur := some { it, weights := none } }
  storeX it
  PyM.change fun s => { s with t := s.t + 1 }

/-- sampler.py:443-488, the warm-up loop. -/
noncomputable def warmupLoopX (e : SamplerEnv d B Φ) (rnd : Rnd d Φ) (saveEvery : Option ℕ) (t0 : ℕ) : ℕ → ℕ → PyM d B Φ Unit
  | 0, _ => pure ()
  | n + 1, i => do
    let s ← PyM.look
    let _ ← PyM.call (saveNow saveEvery t0 s)
    warmupStepX e rnd i
    warmupLoopX e rnd saveEvery t0 n (i + 1)

/-- sampler.py:492-510, the main loop; `diverged` when the fuel runs out. -/
noncomputable def smcLoopX (e : SamplerEnv d B Φ) (rnd : Rnd d Φ) (lo : Leftover d Φ) (fuel : ℕ) (saveEvery : Option ℕ) (t0 : ℕ) : ℕ → PyM d B Φ Unit
  | 0 => do
    let s ← PyM.look
    let more ← PyM.call (notTermination e s)
    if more then throw .diverged
  | n + 1 => do
    let s ← PyM.look
    let more ← PyM.call (notTermination e s)
    if more then
      let _ ← PyM.call (saveNow saveEvery t0 s)
      smcStepX e rnd lo fuel
      smcLoopX e rnd lo fuel saveEvery t0 n

/-- sampler.py:434-440: run parameters and prior samples. -/
noncomputable def runInitX (e : SamplerEnv d B Φ) (rnd : Rnd d Φ) (a : RunArgs) : PyM d B Φ Unit := do
  PyM.change fun s => { s with nTotal := a.nTotal }
  PyM.change fun s => { s with nEvidence := a.nEvidence }
  let s ← PyM.look
  if s.priorSamples.isNone then
    PyM.change fun s => { s with priorSamples := some (rnd.prior e.nPrior) }
    let scaler ← PyM.callAt .scaling (s.scaler.fit (rnd.prior e.nPrior))
    PyM.changeAt .scaling fun s => { s with scaler := scaler }

/-- sampler.py:442-489: the warm-up, if it is still due. -/
noncomputable def runWarmupX (e : SamplerEnv d B Φ) (rnd : Rnd d Φ) (a : RunArgs) (t0 : ℕ) : PyM d B Φ Unit := do
  let s ← PyM.look
  if s.warmup then
    if e.nActive = 0 then throw .zeroDivision
    warmupLoopX e rnd a.saveEvery t0 (e.nPrior / e.nActive) 0
    PyM.change fun s => { s with warmup := false }

/-- sampler.py:512-517 and 912-918: the evidence is computed, then assigned. -/
noncomputable def evidenceX (e : SamplerEnv d B Φ) (rnd : Rnd d Φ) : PyM d B Φ Unit := do
  let s ← PyM.look
  let s' ← PyM.call (finalEvidence e rnd s)
  PyM.change fun s => { s with haveBlobs := s'.haveBlobs, evals := s'.evals }
  PyM.change fun s => { s with calls := s'.calls }
  PyM.change fun s => { s with logz := s'.logz }
  PyM.change fun s => { s with logzErr := s'.logzErr }

/-- sampler.py:405-524 `run`. -/
noncomputable def runX (e : SamplerEnv d B Φ) (rnd : Rnd d Φ) (lo : Leftover d Φ) (fuel n : ℕ) (a : RunArgs) : PyM d B Φ Unit := do
  let s ← PyM.look
  runInitX e rnd a
  runWarmupX e rnd a s.t
  smcLoopX e rnd lo fuel a.saveEvery s.t n
  evidenceX e rnd

end Poco
