import Verif.Model.Sampler

/-! The progress bar: pocomc/tools.py:189-224 `ProgressBar` and the places in `run`, `_reweight`, `_compute_evidence` and the
kernels that update it.  What tqdm prints is not modelled; the numbers handed to it and its counter are. -/

namespace Poco
open F

/-- tools.py:189-224: the dictionary `info`, tqdm's counter (`initial`, `update(1)`) and whether it is shown. -/
structure Bar where
  visible : Bool
  iter : ℕ
  calls : ℕ
  beta : F
  ess : F
  logZ : F
  logP : F
  acc : F
  steps : ℕ
  eff : F

variable {d : ℕ} {B Φ : Type}

/-- sampler.py:420-432: the bar of a run that does not resume. -/
def barNew (progress : Bool) (s : Sampler d B Φ) : Bar :=
  { visible := progress, iter := 0, calls := s.calls, beta := fin 0, ess := F.ofNat s.nEffective, logZ := fin 0, logP := fin 0,
    acc := fin 0, steps := 0, eff := fin 0 }

/-- sampler.py:406-418: the bar of a resumed run; `saved` is the attribute `progress` of the loaded state. -/
noncomputable def barResumed (saved : Bool) (s : Sampler d B Φ) : Except PyErr Bar := do
  let past := s.particles.past
  let beta ← getAt past.beta (-1)
  let calls ← getAt past.calls (-1)
  let ess ← getAt past.ess (-1)
  let logz ← getAt past.logz (-1)
  let logp ← getAt past.logp (-1)
  let logl ← getAt past.logl (-1)
  let acc ← getAt past.accept (-1)
  let steps ← getAt past.steps (-1)
  let eff ← getAt past.efficiency (-1)
  return { visible := saved, iter := s.t, calls := calls, beta := beta, ess := ess, logZ := logz,
           logP := mean (List.zipWith (· + ·) logp logl), acc := acc, steps := steps, eff := eff }

/-- sampler.py:405-432: which bar.  `resumed` is `some saved` if `resume_state_path` was given (`saved` as in `barResumed`; the
argument `progress` is then not used). -/
noncomputable def barStart (progress : Bool) (resumed : Option Bool) (s : Sampler d B Φ) : Except PyErr Bar :=
  match resumed with
  | some saved => barResumed saved s
  | none => .ok (barNew progress s)

/-- sampler.py:477-486: the bar after a warm-up iteration was stored. -/
noncomputable def barWarmup (past : Cols d (List B) List) (b : Bar) : Except PyErr Bar := do
  let calls ← getAt past.calls (-1)
  let beta ← getAt past.beta (-1)
  let ess ← pyInt (← getAt past.ess (-1))
  let logz ← getAt past.logz (-1)
  let logp ← getAt past.logp (-1)
  let logl ← getAt past.logl (-1)
  let acc ← getAt past.accept (-1)
  let steps ← getAt past.steps (-1)
  let eff ← getAt past.efficiency (-1)
  return { b with iter := b.iter + 1, calls := calls, beta := beta, ess := F.ofNat ess, logZ := logz,
                  logP := mean (List.zipWith (· + ·) logp logl), acc := acc, steps := steps, eff := eff }

/-- mcmc.py:158-167, 316-325, 482-491, 629-638: the bar after step `i` of a kernel, which ended in `st`; `n` is the number of
evaluations of this step. -/
noncomputable def barStep (b : Bar) (n i : ℕ) (st : McmcState d B) : Bar :=
  { b with calls := b.calls + n, acc := st.accept, steps := i, logP := mean (st.walkers.map fun w => w.logl + w.logp),
           eff := st.sigma / (fin 2.38 / sqrt (F.ofNat d)) }

/-- `mcmcLoop` with the bar. -/
noncomputable def mcmcLoopShown (e : McmcEnv d B) (fuel : ℕ) (rnd : ℕ → ℕ → Draw d) (i : ℕ) (st : McmcState d B) (b : Bar) :
    Except PyErr ((McmcState d B × ℕ) × Bar) :=
  match mcmcStep e fuel (rnd (i + 1)) (i + 1) st with
  | .error x => .error x
  | .ok st' =>
    let b' := barStep b (st'.calls - st.calls) (i + 1) st'
    if st'.stop then .ok ((st', i + 1), b')
    else if e.nMax ≤ i + 1 then .ok ((st', i + 1), b')
    else mcmcLoopShown e fuel rnd (i + 1) st' b'
termination_by e.nMax - i

/-- `mcmc` with the bar. -/
noncomputable def mcmcShown (e : McmcEnv d B) (fuel : ℕ) (rnd : ℕ → ℕ → Draw d) (ws : List (Walker d B)) (b : Bar) :
    Except PyErr (McmcResult d B × Bar) :=
  match mcmcLoopShown e fuel rnd 0 (mcmcInit e ws) b with
  | .error x => .error x
  | .ok ((st, i), b) => .ok ({ walkers := st.walkers, efficiency := st.sigma, accept := st.accept, steps := i,
                               calls := st.calls, proposalScale := st.sigma, evaluated := st.evaluated }, b)

/-- sampler.py:733, 757, 763, 772: the bar in `_reweight`, from the temperature, effective size and evidence it chose.
Simplification: `int(ess)` raises here after, not before, the weights are trimmed. -/
noncomputable def barReweight (c : Cur d B) (b : Bar) : Except PyErr Bar := do
  let n ← pyInt c.it.ess
  return { b with iter := b.iter + 1, beta := c.it.beta, ess := F.ofNat n, logZ := c.it.logz }

/-- `mutate` with the bar. -/
noncomputable def mutateShown (e : SamplerEnv d B Φ) (rnd : Rnd d Φ) (fuel : ℕ) (s : Sampler d B Φ) (c : Cur d B) (b : Bar) :
    Except PyErr ((Sampler d B Φ × Cur d B) × Bar) := do
  let ws ← toWalkers c.it s.haveBlobs
  let k ← kernelEnv e s c.it.beta
  let (r, b) ← mcmcShown k fuel (rnd.mcmc s.t) ws b
  return (writeBack s c r, b)

/-- A sampler during a run: its state, the bar, and what the bar showed at the end of each iteration of this run. -/
structure Display (d : ℕ) (B Φ : Type) where
  state : Sampler d B Φ
  bar : Bar
  log : List Bar

/-- `smcStep` with the bar. -/
noncomputable def smcStepShown (e : SamplerEnv d B Φ) (rnd : Rnd d Φ) (fuel : ℕ) (D : Display d B Φ) :
    Except PyErr (Display d B Φ) := do
  let s := D.state
  let c ← orErr .attributeError s.cur
  let (s, c) ← reweight e fuel s c
  let b ← barReweight c D.bar
  let s ← train e rnd s c
  let c ← resampleStep e rnd s c
  let ((s, c), b) ← mutateShown e rnd fuel s c b
  return ⟨{ s with cur := some c, particles := s.particles.update (Cols.full c.it) }, b, D.log ++ [b]⟩

/-- `warmupStep` with the bar. -/
noncomputable def warmupStepShown (e : SamplerEnv d B Φ) (rnd : Rnd d Φ) (D : Display d B Φ) (i : ℕ) :
    Except PyErr (Display d B Φ) := do
  let s ← warmupStep e rnd D.state i
  let b ← barWarmup s.particles.past D.bar
  return ⟨s, b, D.log ++ [b]⟩

/-- `warmupLoop` with the bar (the state files are the same, so only the exception of a save is kept). -/
noncomputable def warmupLoopShown (e : SamplerEnv d B Φ) (rnd : Rnd d Φ) (saveEvery : Option ℕ) (t0 : ℕ) :
    ℕ → ℕ → Display d B Φ → Except PyErr (Display d B Φ)
  | 0, _, D => .ok D
  | n + 1, i, D => do
    let _ ← saveNow saveEvery t0 D.state
    let D ← warmupStepShown e rnd D i
    warmupLoopShown e rnd saveEvery t0 n (i + 1) D

/-- `runWarmup` with the bar. -/
noncomputable def runWarmupShown (e : SamplerEnv d B Φ) (rnd : Rnd d Φ) (a : RunArgs) (t0 : ℕ) (D : Display d B Φ) :
    Except PyErr (Display d B Φ) :=
  if D.state.warmup then
    if e.nActive = 0 then .error .zeroDivision
    else do
      let D ← warmupLoopShown e rnd a.saveEvery t0 (e.nPrior / e.nActive) 0 D
      return { D with state := { D.state with warmup := false } }
  else .ok D

/-- `smcLoop` with the bar. -/
noncomputable def smcLoopShown (e : SamplerEnv d B Φ) (rnd : Rnd d Φ) (fuel : ℕ) (saveEvery : Option ℕ) (t0 : ℕ) :
    ℕ → Display d B Φ → Except PyErr (Display d B Φ)
  | n, D =>
    match notTermination e D.state with
    | .error x => .error x
    | .ok false => .ok D
    | .ok true =>
      match n with
      | 0 => .error .diverged
      | n + 1 => do
        let _ ← saveNow saveEvery t0 D.state
        let D ← smcStepShown e rnd fuel D
        smcLoopShown e rnd fuel saveEvery t0 n D

/-- sampler.py:512-517, 916: `finalEvidence` with the bar. -/
noncomputable def finalEvidenceShown (e : SamplerEnv d B Φ) (rnd : Rnd d Φ) (D : Display d B Φ) :
    Except PyErr (Display d B Φ) := do
  let s ← finalEvidence e rnd D.state
  return { D with state := s, bar := if D.state.nEvidence > 0 ∧ e.preconditioned = true then { D.bar with calls := s.calls } else D.bar }

/-- `run` with the bar, sampler.py:405-524. -/
noncomputable def runShown (e : SamplerEnv d B Φ) (rnd : Rnd d Φ) (fuel n : ℕ) (a : RunArgs) (progress : Bool) (resumed : Option Bool)
    (s : Sampler d B Φ) : Except PyErr (Display d B Φ) := do
  let t0 := s.t
  let b ← barStart progress resumed s
  let s ← runInit e rnd a s
  let D ← runWarmupShown e rnd a t0 ⟨s, b, []⟩
  let D ← smcLoopShown e rnd fuel a.saveEvery t0 n D
  finalEvidenceShown e rnd D

end Poco
