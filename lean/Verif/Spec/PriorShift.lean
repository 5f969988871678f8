import Verif.Model.Posterior

/-! Specification of C139: the same problem with the prior density multiplied by a constant. -/

namespace Poco.Spec
open F

variable {d : ℕ} {B Φ : Type}

/-- The problem with `c` added to every log-prior density. -/
noncomputable def scaledPrior (c : ℝ) (e : SamplerEnv d B Φ) : SamplerEnv d B Φ :=
  { e with logPrior := fun xs => (e.logPrior xs).map (· + fin c) }

/-- One iteration's data: `c` added to the log-priors. -/
noncomputable def scaledIter (c : ℝ) (it : Iter d (List B)) : Iter d (List B) :=
  { it with logp := (it.logp : List F).map (· + fin c) }

/-- The history: `c` added to the log-priors. -/
noncomputable def scaledCols (c : ℝ) (past : Cols d (List B) List) : Cols d (List B) List :=
  { past with logp := past.logp.map (List.map (· + fin c)) }

/-- The sampler with `c` added to the stored log-priors and `k` to the log-evidence it reports.  Everything not named here is the same: points,
weights, temperatures, log-likelihoods, recorded log-evidences, the error of the evidence, counters, flow, geometry, blobs, … -/
noncomputable def scaledSampler (c k : ℝ) (s : Sampler d B Φ) : Sampler d B Φ :=
  { s with particles := { past := scaledCols c s.particles.past
                          resultsDict := s.particles.resultsDict.map fun r => { r with cols := scaledCols c r.cols } }
           cur := s.cur.map fun q => { q with it := scaledIter c q.it }
           logz := s.logz.map (· + fin k) }

/-- By how much the log-evidence a run reports changes: by `c` if it is estimated by importance sampling from the flow, not at
all if it comes from the tempering weights. -/
noncomputable def evidenceChange (c : ℝ) (e : SamplerEnv d B Φ) (a : RunArgs) : ℝ :=
  if a.nEvidence > 0 ∧ e.preconditioned = true then c else 0

/-- A state file: those written on the way carry the log-evidence of an earlier run (changed by `k`), the last one that of this run. -/
noncomputable def scaledSave (c k k' : ℝ) (sv : Save d B Φ) : Save d B Φ :=
  { sv with state := scaledSampler c (if sv.name = .final then k' else k) sv.state }

/-- The course of a run: the state files and the outcome. -/
noncomputable def scaledTrace (c k k' : ℝ) (t : Trace d B Φ) : Trace d B Φ :=
  (t.1.map (scaledSave c k k'), t.2.map (scaledSampler c k'))

end Poco.Spec
