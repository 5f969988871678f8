import Verif.Model.Particles

/-!
# Model of the likelihood dispatch: `tools.py` FunctionWrapper and `sampler.py` `_log_like`
-/

namespace Poco
open F

/-- What the user's likelihood may return for one point: a number, or a non-empty sequence whose first entry is the
log-likelihood and whose other entries are blobs.  `array` tells a numpy array from a tuple or list (`float()` accepts
a one-element numpy array only). -/
inductive LikeOut (B : Type) where
  | scalar (v : F)
  | seq (array : Bool) (v : F) (rest : List B)

variable {d : ℕ} {B : Type}

/-- tools.py:227-260 `FunctionWrapper`: the user function with its extra arguments, `None` meaning no arguments.  `A` are
the positional values, `K` the keyword-value pairs. -/
def functionWrapper {X A K R : Type} (f : X → List A → List K → R) (args : Option (List A)) (kwargs : Option (List K)) :
    X → R :=
  fun x => f x (args.getD []) (kwargs.getD [])

/-- `len(l)`, sampler.py:832: TypeError on a number. -/
def LikeOut.len : LikeOut B → Except PyErr ℕ
  | .scalar _ => .error .typeError
  | .seq _ _ rest => .ok (rest.length + 1)

/-- `l[1:]`, sampler.py:832. -/
def LikeOut.tail : LikeOut B → List B
  | .scalar _ => []
  | .seq _ _ rest => rest

/-- `float(l[0])`, sampler.py:835. -/
def LikeOut.first : LikeOut B → F
  | .scalar v => v
  | .seq _ v _ => v

/-- `float(l)`, sampler.py:838. -/
def LikeOut.toFloat : LikeOut B → Except PyErr F
  | .scalar v => .ok v
  | .seq true v [] => .ok v
  | .seq _ _ _ => .error .typeError

/-- sampler.py:831-861: from the list of returned objects to the arrays.  Result: log-likelihoods, blobs (one row per
object with more than one entry), and whether `have_blobs` is set.  Simplification: blob rows are kept as lists, with their
entries as returned; dtype inference can change entries, see `Model/Blobs.lean` (C134). Squeezing of unit axes is not modelled here. -/
def unpackResults (results : List (LikeOut B)) : Except PyErr (List F × Option (List (List B)) × Bool) :=
  match results.mapM LikeOut.len with
  | .error .typeError => (results.mapM LikeOut.toFloat).map fun l => (l, none, false)
  | .error x => .error x
  | .ok lens =>
    let blob := ((results.zip lens).filter fun q => decide (q.2 > 1)).map fun q => q.1.tail
    if blob.length = 0 then (results.mapM LikeOut.toFloat).map fun l => (l, none, false)
    else .ok (results.map LikeOut.first, some blob, true)

/-- How the sampler evaluates the likelihood: `vectorize`, and the pool's `map` if there is a pool. -/
structure LikeEnv (d : ℕ) (B : Type) where
  /-- the wrapped likelihood applied to one row -/
  single : Pt d → Except PyErr (LikeOut B)
  /-- the wrapped likelihood applied to a whole array -/
  vector : List (Pt d) → Except PyErr (List F)
  vectorize : Bool
  /-- `self.distribute` when `self.pool is not None` -/
  pool : Option ((Pt d → Except PyErr (LikeOut B)) → List (Pt d) → Except PyErr (List (LikeOut B)))

/-- The user's likelihood as Python sees it: one function, called on a row or on a whole array, with extra arguments. -/
structure UserLike (d : ℕ) (B A K : Type) where
  row : Pt d → List A → List K → Except PyErr (LikeOut B)
  array : List (Pt d) → List A → List K → Except PyErr (List F)

/-- sampler.py:210-214, 267-280: the likelihood the constructor prepares from `likelihood`, `likelihood_args`,
`likelihood_kwargs`, `vectorize` and `pool`. -/
def LikeEnv.make {A K : Type} (f : UserLike d B A K) (args : Option (List A)) (kwargs : Option (List K)) (vectorize : Bool)
    (pool : Option ((Pt d → Except PyErr (LikeOut B)) → List (Pt d) → Except PyErr (List (LikeOut B)))) : LikeEnv d B where
  single := functionWrapper f.row args kwargs
  vector := functionWrapper f.array args kwargs
  vectorize := vectorize
  pool := pool

/-- sampler.py:807-861 `_log_like`.  Result: log-likelihoods, blobs, and whether the call set `have_blobs`. -/
def logLike (e : LikeEnv d B) (x : List (Pt d)) : Except PyErr (List F × Option (List (List B)) × Bool) :=
  if e.vectorize then (e.vector x).map fun l => (l, none, false)
  else
    match e.pool with
    | some distribute => distribute e.single x >>= unpackResults
    | none => x.mapM e.single >>= unpackResults

end Poco
