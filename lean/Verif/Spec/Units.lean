import Verif.Model.Posterior

/-! Specification of C136: the same problem, the same random numbers and the same sampler with the parameters measured in
other units (`y = factor · x + offset`, parameter by parameter). -/

namespace Poco.Spec
open F

variable {d : ℕ} {B Φ : Type}

/-- New units: parameter `j` is reported as `factor j · x + offset j`. -/
structure Units (d : ℕ) where
  factor : Fin d → ℝ
  offset : Fin d → ℝ
  pos : ∀ j, 0 < factor j

/-- `a · x + b` with `a > 0`; infinities and NaN stay. -/
def newUnit (a b : ℝ) : F → F
  | fin r => fin (a * r + b)
  | nan => nan
  | ninf => ninf
  | pinf => pinf

/-- A point in the new units. -/
def Units.point (U : Units d) (x : Pt d) : Pt d := fun j => newUnit (U.factor j) (U.offset j) (x j)

/-- A point given in the new units, in the old ones. -/
noncomputable def Units.back (U : Units d) (y : Pt d) : Pt d :=
  fun j => newUnit (1 / U.factor j) (-U.offset j / U.factor j) (y j)

/-- The logarithm of the volume of the old unit cell in the new units. -/
noncomputable def Units.logVolume (U : Units d) : ℝ := ∑ j, Real.log (U.factor j)

/-- The problem in the new units: the likelihood is the same function of the physical point; the prior density is divided by
the volume factor. -/
noncomputable def unitsProblem (U : Units d) (e : SamplerEnv d B Φ) : SamplerEnv d B Φ :=
  { e with like := { e.like with single := fun y => e.like.single (U.back y)
                                 vector := fun ys => e.like.vector (ys.map U.back) }
           logPrior := fun ys => (e.logPrior (ys.map U.back)).map (· + fin (-U.logVolume)) }

/-- The same random numbers; the prior draws are the same physical points. -/
def unitsRnd (U : Units d) (rnd : Rnd d Φ) : Rnd d Φ := { rnd with prior := fun n => (rnd.prior n).map U.point }

/-- How the unbounded coordinate of one parameter changes (before the standardisation): like the parameter if it has no finite
bound, by `log factor` if it has one, not at all if it has two. -/
noncomputable def innerChange (a b : ℝ) (low high : F) : ℝ × ℝ :=
  match low.isfinite, high.isfinite with
  | false, false => (a, b)
  | false, true => (1, Real.log a)
  | true, false => (1, Real.log a)
  | true, true => (1, 0)

/-- What the scaler has learnt, in the new units. -/
noncomputable def unitsAffine (U : Units d) (low high : Fin d → F) : Affine d → Affine d
  | .diag mu sigma =>
    .diag (fun j => newUnit (innerChange (U.factor j) (U.offset j) (low j) (high j)).1
             (innerChange (U.factor j) (U.offset j) (low j) (high j)).2 (mu j))
          (fun j => newUnit (innerChange (U.factor j) (U.offset j) (low j) (high j)).1 0 (sigma j))
  | .full mu L Linv ld => .full mu L Linv ld

/-- The scaler with its bounds in the new units. -/
noncomputable def unitsScaler (U : Units d) (s : Scaler d) : Scaler d :=
  { s with low := U.point s.low, high := U.point s.high, affine := s.affine.map (unitsAffine U s.low s.high) }

/-- One iteration's data: points in the new units, log-priors lower and log-determinants higher by the log-volume. -/
noncomputable def unitsIter (U : Units d) (it : Iter d (List B)) : Iter d (List B) :=
  { it with x := (it.x : List (Pt d)).map U.point
            logp := (it.logp : List F).map (· + fin (-U.logVolume))
            logdetj := (it.logdetj : List F).map (· + fin U.logVolume) }

/-- The history in the new units. -/
noncomputable def unitsCols (U : Units d) (past : Cols d (List B) List) : Cols d (List B) List :=
  { past with x := past.x.map (List.map U.point)
              logp := past.logp.map (List.map (· + fin (-U.logVolume)))
              logdetj := past.logdetj.map (List.map (· + fin U.logVolume)) }

/-- The sampler in the new units.  Everything not named here is the same: the unbounded coordinates `u`, the weights, the
temperatures, the log-likelihoods, the log-evidences, the counters, the flow, the geometry, the blobs, … -/
noncomputable def unitsSampler (U : Units d) (s : Sampler d B Φ) : Sampler d B Φ :=
  { s with priorSamples := s.priorSamples.map (List.map U.point)
           scaler := unitsScaler U s.scaler
           particles := { past := unitsCols U s.particles.past
                          resultsDict := s.particles.resultsDict.map fun r => { r with cols := unitsCols U r.cols } }
           cur := s.cur.map fun q => { q with it := unitsIter U q.it }
           evals := s.evals.map U.point }

/-- The course of a run in the new units: every saved state and the final state, errors as they are. -/
noncomputable def unitsTrace (U : Units d) (t : Trace d B Φ) : Trace d B Φ :=
  (t.1.map fun sv => { sv with state := unitsSampler U sv.state }, t.2.map (unitsSampler U))

/-- The scaler standardises, and each coordinate on its own — the only setting the sampler uses. -/
def Diagonal (s : Scaler d) : Prop := s.scale = true ∧ ∀ mu L Linv ld, s.affine ≠ some (.full mu L Linv ld)

end Poco.Spec
