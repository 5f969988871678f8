import Verif.Model.Tools

/-!
# Model of `pocomc/particles.py`
-/

namespace Poco
open F

/-- A row of an `(n, n_dim)` array. -/
abbrev Pt (d : ℕ) := Fin d → F

/-- The fifteen keys of the particle dictionaries (particles.py:74-90, sampler.py:428-431), each holding an `f` of the
value for that key: `f = fun α => α` one iteration, `f = List` the history `past`, `f = Option` a dictionary that may lack
keys.  `B` is the type of a blob row. -/
structure Cols (d : ℕ) (B : Type) (f : Type → Type) where
  u : f (List (Pt d))
  x : f (List (Pt d))
  logdetj : f (List F)
  logl : f (List F)
  logp : f (List F)
  logw : f (List F)
  blobs : f (Option (List B))
  iter : f ℕ
  logz : f F
  calls : f ℕ
  steps : f ℕ
  efficiency : f F
  ess : f F
  accept : f F
  beta : f F

/-- One iteration's data. -/
abbrev Iter (d : ℕ) (B : Type) := Cols d B fun α => α

/-- The dictionary returned by `compute_results`: all columns, with `logw` replaced by the flat array of normalised
importance log-weights. -/
structure Results (d : ℕ) (B : Type) where
  cols : Cols d B List
  logw : List F

/-- particles.py:71-92 the `Particles` object (its two size attributes are never read). -/
structure Particles (d : ℕ) (B : Type) where
  past : Cols d B List
  resultsDict : Option (Results d B)

variable {d : ℕ} {B : Type}

/-- particles.py:71-92 `Particles.__init__`. -/
def Particles.init : Particles d B :=
  { past := ⟨[], [], [], [], [], [], [], [], [], [], [], [], [], [], []⟩, resultsDict := none }

/-- particles.py:144-148 `update`: append the value of every key that is present (keys the store does not know, such
as `weights`, are ignored and not represented). -/
def Particles.update (p : Particles d B) (data : Cols d B Option) : Particles d B :=
  { p with past :=
    { u := p.past.u ++ data.u.toList
      x := p.past.x ++ data.x.toList
      logdetj := p.past.logdetj ++ data.logdetj.toList
      logl := p.past.logl ++ data.logl.toList
      logp := p.past.logp ++ data.logp.toList
      logw := p.past.logw ++ data.logw.toList
      blobs := p.past.blobs ++ data.blobs.toList
      iter := p.past.iter ++ data.iter.toList
      logz := p.past.logz ++ data.logz.toList
      calls := p.past.calls ++ data.calls.toList
      steps := p.past.steps ++ data.steps.toList
      efficiency := p.past.efficiency ++ data.efficiency.toList
      ess := p.past.ess ++ data.ess.toList
      accept := p.past.accept ++ data.accept.toList
      beta := p.past.beta ++ data.beta.toList } }

/-- A dictionary with all fifteen keys. -/
def Cols.full (it : Iter d B) : Cols d B Option :=
  { u := some it.u, x := some it.x, logdetj := some it.logdetj, logl := some it.logl, logp := some it.logp
    logw := some it.logw, blobs := some it.blobs, iter := some it.iter, logz := some it.logz, calls := some it.calls
    steps := some it.steps, efficiency := some it.efficiency, ess := some it.ess, accept := some it.accept
    beta := some it.beta }

/-- particles.py:150-164 `pop` on one column; an empty list raises IndexError. -/
def popCol {α : Type} (l : List α) : Except PyErr (List α) :=
  if l = [] then .error .indexError else .ok l.dropLast

/-- particles.py:213 `get(key, index)` with a Python index on one column. -/
def getAt {α : Type} (l : List α) (i : ℤ) : Except PyErr α :=
  match pyGet? l i with
  | some a => .ok a
  | none => .error .indexError

/-- particles.py:208-209 `get(key, flat=True)`: `np.concatenate`, ValueError on an empty list. -/
def getFlat {α : Type} (l : List (List α)) : Except PyErr (List α) :=
  if l = [] then .error .valueError else .ok l.flatten

/-- particles.py:221-223: the log of the mixture denominator for a particle with log-likelihood `l`:
`logaddexp.reduce_i (l * beta[i] - logz[i]) - log(len(beta))`. -/
noncomputable def mixDenom (beta logz : List F) (l : F) : F :=
  lse ((beta.zip logz).map fun bz => l * bz.1 - bz.2) - log (ofNat beta.length)

/-- particles.py:215-231 `compute_logw_and_logz`.  A ragged `logl` history cannot be made an array (ValueError), a
missing `logz` entry is an IndexError and an empty history cannot be concatenated (ValueError). -/
noncomputable def computeLogwLogz (past : Cols d B List) (betaFinal : F) (norm : Bool := true) :
    Except PyErr (List F × F) :=
  if past.logl.any (fun row => decide (row.length ≠ (past.logl.headD []).length)) then .error .valueError
  else if past.logz.length < past.beta.length then .error .indexError
  else if past.logl = [] then .error .valueError
  else
    let logw := past.logl.flatten.map fun l => l * betaFinal - mixDenom past.beta past.logz l
    let logzNew := lse logw - log (ofNat logw.length)
    .ok (if norm then logw.map (· - lse logw) else logw, logzNew)

/-- particles.py:291-301 `compute_results`: fills the cache on the first call only.  Result: the object after the call
and the returned dictionary. -/
noncomputable def Particles.computeResults (p : Particles d B) : Except PyErr (Particles d B × Results d B) :=
  match p.resultsDict with
  | some r => .ok (p, r)
  | none => do
    let (logw, _) ← computeLogwLogz p.past (fin 1)
    let r : Results d B := { cols := p.past, logw := logw }
    return ({ p with resultsDict := some r }, r)

end Poco
