import Verif.Model.Posterior

/-! Specification of C73: the same problem and the same sampler with a constant added to every log-likelihood. -/

namespace Poco.Spec
open F

variable {d : ℕ} {B Φ : Type}

/-- The returned log-likelihood plus `c`; blobs as they are. -/
def shiftOut (c : ℝ) : LikeOut B → LikeOut B
  | .scalar v => .scalar (v + fin c)
  | .seq a v rest => .seq a (v + fin c) rest

/-- The problem with the log-likelihood shifted by `c`. -/
def shiftProblem (c : ℝ) (e : SamplerEnv d B Φ) : SamplerEnv d B Φ :=
  { e with like := { e.like with single := fun p => (e.like.single p).map (shiftOut c)
                                 vector := fun xs => (e.like.vector xs).map (List.map (· + fin c)) } }

/-- One iteration's data: log-likelihoods shifted by `c`, the log-evidence by `c` times the temperature. -/
noncomputable def shiftIter (c : ℝ) (it : Iter d (List B)) : Iter d (List B) :=
  { it with logl := (it.logl : List F).map (· + fin c), logz := (it.logz : F) + fin c * it.beta }

/-- The history: log-likelihoods shifted by `c`, each log-evidence by `c` times its temperature. -/
noncomputable def shiftCols (c : ℝ) (past : Cols d (List B) List) : Cols d (List B) List :=
  { past with logl := past.logl.map (List.map (· + fin c))
              logz := List.zipWith (fun z b => z + fin c * b) past.logz past.beta }

/-- The sampler: history, current particles and final log-evidence shifted; everything else (points, weights,
temperatures, counters, flow, geometry, scaler, …) as it is. -/
noncomputable def shiftSampler (c : ℝ) (s : Sampler d B Φ) : Sampler d B Φ :=
  { s with particles := { past := shiftCols c s.particles.past
                          resultsDict := s.particles.resultsDict.map fun r => { r with cols := shiftCols c r.cols } }
           cur := s.cur.map fun q => { q with it := shiftIter c q.it }
           logz := s.logz.map (· + fin c) }

/-- The course of a run: every saved state and the final state shifted, errors as they are. -/
noncomputable def shiftTrace (c : ℝ) (t : Trace d B Φ) : Trace d B Φ :=
  (t.1.map fun sv => { sv with state := shiftSampler c sv.state }, t.2.map (shiftSampler c))

/-- The recorded temperatures are numbers, one for every recorded log-evidence. -/
def ProperTemps (s : Sampler d B Φ) : Prop :=
  s.particles.past.logz.length = s.particles.past.beta.length ∧ ∀ b ∈ s.particles.past.beta, ∃ r, b = fin r

end Poco.Spec
