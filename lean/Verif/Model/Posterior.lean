import Verif.Model.Sampler

/-!
# Model of `pocomc/sampler.py`: `posterior`, `evidence`
-/

namespace Poco
open F

variable {d : ℕ} {B Φ : Type}

/-- The arguments of `posterior` (sampler.py:942). -/
structure PostArgs where
  resample : Bool
  returnBlobs : Bool
  trim : Bool
  returnLogw : Bool
  essTrim : F
  binsTrim : ℕ

/-- sampler.py:942 the default arguments. -/
noncomputable def PostArgs.default : PostArgs := ⟨false, false, true, false, fin 0.99, 1000⟩

/-- The local variables of `posterior`; `blobs` is unbound (`none`) without `return_blobs`. -/
structure Post (d : ℕ) (B : Type) where
  samples : List (Pt d)
  weights : List F
  logw : List F
  logl : List F
  logp : List F
  blobs : Option (List (List B))

/-- The returned tuple: samples, then weights or log-weights (absent after resampling), log-likelihoods, log-priors and,
if asked for, blobs. -/
structure PostOut (d : ℕ) (B : Type) where
  samples : List (Pt d)
  weights : Option (List F)
  logl : List F
  logp : List F
  blobs : Option (List (List B))

/-- `blobs[idx]` if there are blobs. -/
def gatherBlobs (blobs : Option (List (List B))) (idx : List ℕ) : Except PyErr (Option (List (List B))) :=
  match blobs with
  | none => .ok none
  | some b => (gather b idx).map some

/-- sampler.py:974-975 `blobs`. -/
def postBlobs (returnBlobs : Bool) (past : Cols d (List B) List) : Except PyErr (Option (List (List B))) :=
  if returnBlobs then (flatBlobs past.blobs).map some else .ok none

/-- sampler.py:968-977. -/
noncomputable def postCollect (a : PostArgs) (s : Sampler d B Φ) : Except PyErr (Post d B) :=
  if a.returnBlobs && !s.haveBlobs then .error .valueError
  else do
    let samples ← getFlat s.particles.past.x
    let logl ← getFlat s.particles.past.logl
    let logp ← getFlat s.particles.past.logp
    let blobs ← postBlobs a.returnBlobs s.particles.past
    let (logw, _) ← computeLogwLogz s.particles.past (fin 1)
    return { samples, weights := logw.map exp, logw, logl, logp, blobs }

/-- sampler.py:979-986. -/
noncomputable def postTrim (a : PostArgs) (p : Post d B) : Except PyErr (Post d B) :=
  if a.trim then do
    let tr ← trimWeights (List.range p.samples.length) p.weights a.essTrim a.binsTrim
    let samples ← gather p.samples tr.samples
    let logl ← gather p.logl tr.samples
    let logp ← gather p.logp tr.samples
    let logw ← gather p.logw tr.samples
    let blobs ← gatherBlobs p.blobs tr.samples
    return { samples, weights := tr.weights, logw, logl, logp, blobs }
  else .ok p

/-- sampler.py:989-993; `us`, `u` are the uniform draws. -/
noncomputable def postIdx (kind : ResampleKind) (us : ℕ → ℝ) (u : ℝ) (p : Post d B) : Except PyErr (List ℕ) :=
  match kind with
  | .mult => multinomialResample p.weights ((List.range p.samples.length).map us)
  | .syst => systematicResample p.weights.length p.weights u

/-- sampler.py:988-1010. -/
noncomputable def postReturn (kind : ResampleKind) (us : ℕ → ℝ) (u : ℝ) (a : PostArgs) (p : Post d B) :
    Except PyErr (PostOut d B) :=
  if a.resample then do
    let idx ← postIdx kind us u p
    let samples ← gather p.samples idx
    let logl ← gather p.logl idx
    let logp ← gather p.logp idx
    let blobs ← gatherBlobs p.blobs idx
    return { samples, weights := none, logl, logp, blobs }
  else .ok { samples := p.samples, weights := some (if a.returnLogw then p.logw else p.weights), logl := p.logl,
             logp := p.logp, blobs := p.blobs }

/-- sampler.py:942-1010 `posterior`. -/
noncomputable def posterior (e : SamplerEnv d B Φ) (us : ℕ → ℝ) (u : ℝ) (a : PostArgs) (s : Sampler d B Φ) :
    Except PyErr (PostOut d B) := do
  let p ← postCollect a s
  let p ← postTrim a p
  postReturn e.resample us u a p

/-- sampler.py:865-869 `evidence`. -/
def evidence (s : Sampler d B Φ) : Option F × Option F := (s.logz, s.logzErr)

end Poco
