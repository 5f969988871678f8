import Verif.Model.Particles

/-!
# Model of `pocomc/prior.py`

A one-dimensional frozen `scipy.stats` distribution is its elementwise log-density and its support; its random draws
are given as data.
-/

namespace Poco
open F

/-- A frozen scipy distribution: elementwise `logpdf`, and `support()`. -/
structure Dist where
  logpdf : F → F
  support : F × F

/-- prior.py:67-68 the `Prior` object: one distribution per parameter. -/
structure Prior (d : ℕ) where
  dists : Fin d → Dist

variable {d : ℕ}

/-- prior.py:96-99 `logpdf`: a vector of zeros, to which each distribution's column vector is added in turn. -/
def Prior.logpdf (p : Prior d) (x : List (Pt d)) : List F :=
  (List.finRange d).foldl (fun logp i => List.zipWith (· + ·) logp (x.map fun row => (p.dists i).logpdf (row i)))
    (List.replicate x.length (fin 0))

/-- `np.transpose` of a list of `d` equally long columns (numpy gives an empty array for `d = 0`).  Simplification: an
entry missing from a short column, where numpy would build a ragged array, reads NaN. -/
def transposeCols (cols : Fin d → List F) : List (Pt d) :=
  match (List.finRange d).head? with
  | none => []
  | some i0 => (List.range (cols i0).length).map fun j i => ((cols i)[j]?).getD nan

/-- prior.py:127-130 `rvs`; `draw i n` is the array returned by `dists[i].rvs(size=n)`. -/
def Prior.rvs (_p : Prior d) (draw : Fin d → ℕ → List F) (size : ℕ) : List (Pt d) :=
  transposeCols fun i => draw i size

/-- prior.py:149-152 `bounds`: row `i` is the support of distribution `i`. -/
def Prior.bounds (p : Prior d) : List (F × F) := (List.finRange d).map fun i => (p.dists i).support

/-- prior.py:165 `dim`: the number of distributions. -/
def Prior.dim (_p : Prior d) : ℕ := (List.finRange d).length

end Poco
